import Verif.RubyConverted

/-!
C67: specification and proofs.
-/

namespace Verif.RubyConverted
open Verif

variable {B R : Type}

/-! ### Specification -/

/-- what a program sees of a compound: the C++ values of the fields that are not converted, the Ruby objects of the others -/
inductive V (B R : Type) where
  | nil
  | plain (n : Str) (m : B) (r : V B R)
  | conv (n : Str) (k : Nat) (v : R) (r : V B R)
  | comp (n : Str) (c : V B R) (r : V B R)

/-- what is seen of a C++ value -/
def memV (cv : Conv B R) : Mem B → V B R
  | .nil => .nil
  | .plain n m r => .plain n m (memV cv r)
  | .conv n k m r => .conv n k (cv.toRuby k m) (memV cv r)
  | .comp n c r => .comp n (memV cv c) (memV cv r)

/-- what the accessors of an object give -/
def view (cv : Conv B R) : Obj B R → V B R
  | .nil => .nil
  | .plain n m r => .plain n m (view cv r)
  | .conv n k _ (some v) r => .conv n k v (view cv r)
  | .conv n k m none r => .conv n k (cv.toRuby k m) (view cv r)
  | .comp n c .nil r => .comp n (view cv c) (view cv r)
  | .comp n c .self r => .comp n (view cv c) (view cv r)
  | .comp n _ (.other o) r => .comp n (view cv o) (view cv r)

/-- what a program expects to get: what a program that reads the bytes would see -/
inductive SOut (B R : Type) where
  | unit
  | ruby (r : R)
  | val (b : B)
  | mem (v : V B R)

def outV (cv : Conv B R) : Out B R → SOut B R
  | .unit => .unit
  | .ruby r => .ruby r
  | .val b => .val b
  | .mem m => .mem (memV cv m)

def sstep {α : Type} (g : V B R → Option (V B R × α)) (n : Str) : V B R → Option (V B R × α)
  | .nil => none
  | .plain m b r => if m = n then none else (sstep g n r).map fun x => (.plain m b x.1, x.2)
  | .conv m k v r => if m = n then none else (sstep g n r).map fun x => (.conv m k v x.1, x.2)
  | .comp m c r =>
    if m = n then (g c).map fun x => (.comp m x.1 r, x.2)
    else (sstep g n r).map fun x => (.comp m c x.1, x.2)

def ssteps {α : Type} (g : V B R → Option (V B R × α)) : List Str → V B R → Option (V B R × α)
  | [], x => g x
  | n :: p, x => sstep (ssteps g p) n x

inductive SField (B R : Type) where
  | plain (m : B)
  | conv (k : Nat) (v : R)
  | comp (c : V B R)

def onSField {α : Type} (h : SField B R → Option (SField B R × α)) (n : Str) : V B R → Option (V B R × α)
  | .nil => none
  | .plain m b r =>
    if m = n then
      match h (.plain b) with
      | some (.plain b, a) => some (.plain m b r, a)
      | _ => none
    else (onSField h n r).map fun x => (.plain m b x.1, x.2)
  | .conv m k v r =>
    if m = n then
      match h (.conv k v) with
      | some (.conv _ v, a) => some (.conv m k v r, a)
      | _ => none
    else (onSField h n r).map fun x => (.conv m k v x.1, x.2)
  | .comp m c r =>
    if m = n then
      match h (.comp c) with
      | some (.comp c, a) => some (.comp m c r, a)
      | _ => none
    else (onSField h n r).map fun x => (.comp m c x.1, x.2)

/-- what the actions are expected to do: reading gives what was last written, whatever the way, and the bytes are those of
what is read -/
def sact (cv : Conv B R) : Act B R → V B R → Option (V B R × SOut B R)
  | .read n => onSField (fun
    | .conv k v => some (.conv k v, .ruby v)
    | _ => none) n
  | .write n (some v) => onSField (fun
    | .conv k _ => some (.conv k v, .unit)
    | _ => none) n
  | .write _ none => fun _ => none
  | .readPlain n => onSField (fun
    | .plain m => some (.plain m, .val m)
    | _ => none) n
  | .writePlain n b => onSField (fun
    | .plain _ => some (.plain b, .unit)
    | _ => none) n
  | .assign n o => onSField (fun
    | .comp _ => some (.comp (view cv o), .unit)
    | _ => none) n
  | .getField n => onSField (fun
    | .conv k v => some (.conv k v, .ruby v)
    | _ => none) n
  | .set n v => onSField (fun
    | .conv k _ => some (.conv k v, .unit)
    | _ => none) n
  | .rawSet n b => onSField (fun
    | .conv k _ => some (.conv k (cv.toRuby k b), .unit)
    | _ => none) n
  | .bytes => fun x => some (x, .mem x)
  | .fromBuffer m => fun _ => some (memV cv m, .unit)
  | .copyFrom o => fun _ => some (view cv o, .unit)
  | .dup => fun x => some (x, .mem x)

def srun (cv : Conv B R) : V B R → List (List Str × Act B R) → Option (V B R × List (SOut B R))
  | x, [] => some (x, [])
  | x, (p, a) :: as => do
    let y ← ssteps (sact cv a) p x
    let z ← srun cv y.1 as
    some (z.1, y.2 :: z.2)

/-- the types of compounds -/
abbrev Ty := Mem Unit

def Mem.ty : Mem B → Ty
  | .nil => .nil
  | .plain n _ r => .plain n () r.ty
  | .conv n k _ r => .conv n k () r.ty
  | .comp n c r => .comp n c.ty r.ty

def Obj.ty (x : Obj B R) : Ty := x.mem.ty

/-- the type of the field `n`, when it is a converted one -/
def Mem.kind? (n : Str) : Mem B → Option Nat
  | .nil => none
  | .plain m _ r => if m = n then none else r.kind? n
  | .conv m k _ r => if m = n then some k else r.kind? n
  | .comp m _ r => if m = n then none else r.kind? n

/-- the type of the field `n`, when it is a compound -/
def Mem.child? (n : Str) : Mem B → Option (Mem B)
  | .nil => none
  | .plain m _ r => if m = n then none else r.child? n
  | .conv m _ _ r => if m = n then none else r.child? n
  | .comp m c r => if m = n then some c else r.child? n

/-- the Ruby object can be converted to the type, and back -/
def Good (cv : Conv B R) (k : Nat) (v : R) : Prop := ∃ b, cv.fromRuby k v = some b ∧ cv.toRuby k b = v

/-- everything that the objects remember can be converted -/
def Val (cv : Conv B R) : Obj B R → Prop
  | .nil => True
  | .plain _ _ r => Val cv r
  | .conv _ _ _ none r => Val cv r
  | .conv _ k _ (some v) r => Good cv k v ∧ Val cv r
  | .comp _ _ .nil r => Val cv r
  | .comp _ c .self r => Val cv c ∧ Val cv r
  | .comp _ c (.other o) r => Val cv c ∧ Val cv o ∧ o.ty = c.ty ∧ Val cv r

/-- All that is remembered can be converted, and is found by going through the instance variables. (New objects remember
nothing.) -/
def Ok (cv : Conv B R) : Obj B R → Prop
  | .nil => True
  | .plain _ _ r => Ok cv r
  | .conv _ _ _ none r => Ok cv r
  | .conv _ k _ (some v) r => Good cv k v ∧ Ok cv r
  | .comp _ c .nil r => c = fresh c.mem ∧ Ok cv r
  | .comp _ c .self r => Ok cv c ∧ Ok cv r
  | .comp _ c (.other o) r => Val cv c ∧ Ok cv o ∧ o.ty = c.ty ∧ Ok cv r

/-- The action goes through the accessors, on a compound of type `T`: not `x['n']`, `x['n'] = v`, `raw_...` and `from_buffer`;
what is assigned is not `nil`, and can be converted to the type of the field and back. -/
def Fits (cv : Conv B R) (T : Ty) : Act B R → Prop
  | .read _ => True
  | .write n (some v) => ∀ k, T.kind? n = some k → Good cv k v
  | .write _ none => False
  | .readPlain _ => True
  | .writePlain _ _ => True
  | .assign n o => ∀ c, T.child? n = some c → Ok cv o ∧ o.ty = c
  | .getField _ => False
  | .set _ _ => False
  | .rawSet _ _ => False
  | .bytes => True
  | .fromBuffer _ => False
  | .copyFrom o => Ok cv o ∧ o.ty = T
  | .dup => True

/-- the same for an action on the compound reached by a path -/
def FitsAt (cv : Conv B R) : Ty → List Step → Act B R → Prop
  | T, [], a => Fits cv T a
  | T, .acc n :: p, a => ∀ c, T.child? n = some c → FitsAt cv c p a
  | _, .get _ :: _, _ => False
  | _, .raw _ :: _, _ => False

/-! ### Proofs -/

theorem fresh_mem : ∀ m : Mem B, (fresh m : Obj B R).mem = m
  | .nil => rfl
  | .plain n m r => by rw [fresh, Obj.mem, fresh_mem r]
  | .conv n k m r => by rw [fresh, Obj.mem, fresh_mem r]
  | .comp n c r => by rw [fresh, Obj.mem, fresh_mem r, fresh_mem c]

theorem clear_eq : ∀ x : Obj B R, clear x = fresh x.mem
  | .nil => rfl
  | .plain n m r => by rw [clear, Obj.mem, fresh, clear_eq r]
  | .conv n k m iv r => by rw [clear, Obj.mem, fresh, clear_eq r]
  | .comp n c iv r => by rw [clear, Obj.mem, fresh, clear_eq r, clear_eq c]

theorem setMem_fresh : ∀ m m' : Mem B, m.ty = m'.ty → setMem (fresh m : Obj B R) m' = fresh m'
  | .nil, m', h => by cases m' <;> simp [Mem.ty] at h; rfl
  | .plain n m r, m', h => by
    cases m' <;> simp [Mem.ty] at h
    rename_i n' b' r'
    obtain ⟨rfl, h⟩ := h
    rw [fresh, setMem, fresh, setMem_fresh r r' h]
  | .conv n k m r, m', h => by
    cases m' <;> simp [Mem.ty] at h
    rename_i n' k' b' r'
    obtain ⟨rfl, rfl, h⟩ := h
    rw [fresh, setMem, fresh, setMem_fresh r r' h]
  | .comp n c r, m', h => by
    cases m' <;> simp [Mem.ty] at h
    rename_i n' c' r'
    obtain ⟨rfl, h1, h2⟩ := h
    rw [fresh, setMem, fresh, setMem_fresh r r' h2, setMem_fresh c c' h1]

theorem apply_fresh (cv : Conv B R) : ∀ m : Mem B, apply cv (fresh m) = some (fresh m)
  | .nil => rfl
  | .plain n m r => by rw [fresh, apply, apply_fresh cv r]; rfl
  | .conv n k m r => by rw [fresh, apply, apply_fresh cv r]; rfl
  | .comp n c r => by rw [fresh, apply, apply_fresh cv r]; rfl

theorem view_fresh (cv : Conv B R) : ∀ m : Mem B, view cv (fresh m) = memV cv m
  | .nil => rfl
  | .plain n m r => by rw [fresh, view, memV, view_fresh cv r]
  | .conv n k m r => by rw [fresh, view, memV, view_fresh cv r]
  | .comp n c r => by rw [fresh, view, memV, view_fresh cv r, view_fresh cv c]

theorem ok_fresh (cv : Conv B R) : ∀ m : Mem B, Ok cv (fresh m)
  | .nil => trivial
  | .plain n m r => ok_fresh cv r
  | .conv n k m r => ok_fresh cv r
  | .comp n c r => by rw [fresh, Ok, fresh_mem]; exact ⟨rfl, ok_fresh cv r⟩

theorem val_fresh (cv : Conv B R) : ∀ m : Mem B, Val cv (fresh m)
  | .nil => trivial
  | .plain n m r => val_fresh cv r
  | .conv n k m r => val_fresh cv r
  | .comp n c r => val_fresh cv r

theorem ty_fresh (m : Mem B) : (fresh m : Obj B R).ty = m.ty := by rw [Obj.ty, fresh_mem]

theorem Ok.val {cv : Conv B R} : ∀ {x : Obj B R}, Ok cv x → Val cv x
  | .nil, _ => trivial
  | .plain _ _ r, h => Ok.val (x := r) h
  | .conv _ _ _ none r, h => Ok.val (x := r) h
  | .conv _ _ _ (some _) r, h => ⟨h.1, Ok.val (x := r) h.2⟩
  | .comp _ _ .nil r, h => Ok.val (x := r) h.2
  | .comp _ c .self r, h => ⟨Ok.val (x := c) h.1, Ok.val (x := r) h.2⟩
  | .comp _ c (.other o) r, h => ⟨h.1, Ok.val (x := o) h.2.1, h.2.2.1, Ok.val (x := r) h.2.2.2⟩

/-- changes that can be converted can be applied -/
theorem apply_val {cv : Conv B R} : ∀ {x : Obj B R}, Val cv x → ∃ y, apply cv x = some y ∧ Val cv y ∧ y.ty = x.ty
  | .nil, _ => ⟨.nil, rfl, trivial, rfl⟩
  | .plain n m r, h => by
    obtain ⟨r', h1, h2, h3⟩ := apply_val (x := r) h
    refine ⟨.plain n m r', by rw [apply, h1]; rfl, h2, ?_⟩
    show Mem.plain n () r'.ty = .plain n () r.ty
    rw [h3]
  | .conv n k m none r, h => by
    obtain ⟨r', h1, h2, h3⟩ := apply_val (x := r) h
    refine ⟨.conv n k m none r', by rw [apply, h1]; rfl, h2, ?_⟩
    show Mem.conv n k () r'.ty = .conv n k () r.ty
    rw [h3]
  | .conv n k m (some v) r, h => by
    obtain ⟨r', h1, h2, h3⟩ := apply_val (x := r) h.2
    obtain ⟨b, hb, hb'⟩ := h.1
    refine ⟨.conv n k b (some v) r', by rw [apply, hb, h1]; rfl, ⟨h.1, h2⟩, ?_⟩
    show Mem.conv n k () r'.ty = .conv n k () r.ty
    rw [h3]
  | .comp n c .nil r, h => by
    obtain ⟨r', h1, h2, h3⟩ := apply_val (x := r) h
    refine ⟨.comp n c .nil r', by rw [apply, h1]; rfl, h2, ?_⟩
    show Mem.comp n c.ty r'.ty = .comp n c.ty r.ty
    rw [h3]
  | .comp n c .self r, h => by
    obtain ⟨r', h1, h2, h3⟩ := apply_val (x := r) h.2
    obtain ⟨c', g1, g2, g3⟩ := apply_val (x := c) h.1
    refine ⟨.comp n (clear c') .self r', by rw [apply, g1, h1]; rfl, ⟨by rw [clear_eq]; exact val_fresh cv _, h2⟩, ?_⟩
    show Mem.comp n (clear c').ty r'.ty = .comp n c.ty r.ty
    rw [h3, clear_eq, ty_fresh]
    exact congrArg (Mem.comp n · r.ty) g3
  | .comp n c (.other o) r, h => by
    obtain ⟨hc, ho, ht, hr⟩ := h
    obtain ⟨r', h1, h2, h3⟩ := apply_val (x := r) hr
    obtain ⟨c', g1, g2, g3⟩ := apply_val (x := c) hc
    obtain ⟨o', f1, f2, f3⟩ := apply_val (x := o) ho
    have e : setMem (clear c') o'.mem = fresh o'.mem := by
      rw [clear_eq]
      exact setMem_fresh _ _ (show c'.ty = o'.ty by rw [g3, f3, ht])
    refine ⟨.comp n (fresh o'.mem) (.other o') r', by rw [apply, g1, f1, h1]; simp only [Option.bind_eq_bind, Option.bind_some]; rw [e],
      ⟨val_fresh cv _, f2, (ty_fresh _).symm, h2⟩, ?_⟩
    show Mem.comp n (fresh o'.mem : Obj B R).ty r'.ty = .comp n c.ty r.ty
    rw [h3, ty_fresh, ← ht]
    exact congrArg (Mem.comp n · r.ty) f3

/-- after the changes have been applied the C++ value is what is seen -/
theorem apply_ok {cv : Conv B R} : ∀ {x : Obj B R}, Ok cv x →
    ∃ y, apply cv x = some y ∧ Ok cv y ∧ y.ty = x.ty ∧ memV cv y.mem = view cv x ∧ view cv y = view cv x
  | .nil, _ => ⟨.nil, rfl, trivial, rfl, rfl, rfl⟩
  | .plain n m r, h => by
    obtain ⟨r', h1, h2, h3, h4, h5⟩ := apply_ok (x := r) h
    refine ⟨.plain n m r', by rw [apply, h1]; rfl, h2, ?_, by rw [Obj.mem, memV, h4, view], by rw [view, h5, view]⟩
    show Mem.plain n () r'.ty = .plain n () r.ty
    rw [h3]
  | .conv n k m none r, h => by
    obtain ⟨r', h1, h2, h3, h4, h5⟩ := apply_ok (x := r) h
    refine ⟨.conv n k m none r', by rw [apply, h1]; rfl, h2, ?_, by rw [Obj.mem, memV, h4, view], by rw [view, h5, view]⟩
    show Mem.conv n k () r'.ty = .conv n k () r.ty
    rw [h3]
  | .conv n k m (some v) r, h => by
    obtain ⟨r', h1, h2, h3, h4, h5⟩ := apply_ok (x := r) h.2
    obtain ⟨b, hb, hb'⟩ := h.1
    refine ⟨.conv n k b (some v) r', by rw [apply, hb, h1]; rfl, ⟨h.1, h2⟩, ?_, by rw [Obj.mem, memV, h4, view, hb'],
      by rw [view, h5, view]⟩
    show Mem.conv n k () r'.ty = .conv n k () r.ty
    rw [h3]
  | .comp n c .nil r, h => by
    obtain ⟨hc, hr⟩ := h
    obtain ⟨r', h1, h2, h3, h4, h5⟩ := apply_ok (x := r) hr
    refine ⟨.comp n c .nil r', by rw [apply, h1]; rfl, ⟨hc, h2⟩, ?_, ?_, by rw [view, h5, view]⟩
    · show Mem.comp n c.ty r'.ty = .comp n c.ty r.ty
      rw [h3]
    · rw [Obj.mem, memV, h4, view, ← view_fresh cv c.mem, ← hc]
  | .comp n c .self r, h => by
    obtain ⟨r', h1, h2, h3, h4, h5⟩ := apply_ok (x := r) h.2
    obtain ⟨c', g1, g2, g3, g4, g5⟩ := apply_ok (x := c) h.1
    refine ⟨.comp n (clear c') .self r', by rw [apply, g1, h1]; rfl, ⟨by rw [clear_eq]; exact ok_fresh cv _, h2⟩, ?_, ?_, ?_⟩
    · show Mem.comp n (clear c').ty r'.ty = .comp n c.ty r.ty
      rw [h3, clear_eq, ty_fresh]
      exact congrArg (Mem.comp n · r.ty) g3
    · rw [Obj.mem, memV, h4, view, clear_eq, fresh_mem, g4]
    · rw [view, h5, view, clear_eq, view_fresh, g4]
  | .comp n c (.other o) r, h => by
    obtain ⟨hc, ho, ht, hr⟩ := h
    obtain ⟨r', h1, h2, h3, h4, h5⟩ := apply_ok (x := r) hr
    obtain ⟨c', g1, g2, g3⟩ := apply_val hc
    obtain ⟨o', f1, f2, f3, f4, f5⟩ := apply_ok (x := o) ho
    have e : setMem (clear c') o'.mem = fresh o'.mem := by
      rw [clear_eq]
      exact setMem_fresh _ _ (show c'.ty = o'.ty by rw [g3, f3, ht])
    refine ⟨.comp n (fresh o'.mem) (.other o') r', by rw [apply, g1, f1, h1]; simp only [Option.bind_eq_bind, Option.bind_some]; rw [e],
      ⟨val_fresh cv _, f2, (ty_fresh _).symm, h2⟩, ?_, ?_, ?_⟩
    · show Mem.comp n (fresh o'.mem : Obj B R).ty r'.ty = .comp n c.ty r.ty
      rw [h3, ty_fresh, ← ht]
      exact congrArg (Mem.comp n · r.ty) f3
    · rw [Obj.mem, memV, h4, view, fresh_mem, f4]
    · rw [view, h5, view, f5]

/-- applying the changes again changes nothing (`apply` applies them once where the code does it several times) -/
theorem apply_again {cv : Conv B R} : ∀ {x y : Obj B R}, Val cv x → apply cv x = some y → apply cv y = some y
  | .nil, y, _, h => by injection h with h; rw [← h]; rfl
  | .plain n m r, y, hv, h => by
    obtain ⟨r', h1, _⟩ := apply_val (x := r) hv
    rw [apply, h1] at h
    injection h with h
    rw [← h, apply, apply_again (x := r) hv h1]; rfl
  | .conv n k m none r, y, hv, h => by
    obtain ⟨r', h1, _⟩ := apply_val (x := r) hv
    rw [apply, h1] at h
    injection h with h
    rw [← h, apply, apply_again (x := r) hv h1]; rfl
  | .conv n k m (some v) r, y, hv, h => by
    obtain ⟨r', h1, _⟩ := apply_val (x := r) hv.2
    obtain ⟨b, hb, _⟩ := hv.1
    rw [apply, h1, hb] at h
    injection h with h
    rw [← h, apply, apply_again (x := r) hv.2 h1, hb]; rfl
  | .comp n c .nil r, y, hv, h => by
    obtain ⟨r', h1, _⟩ := apply_val (x := r) hv
    rw [apply, h1] at h
    injection h with h
    rw [← h, apply, apply_again (x := r) hv h1]; rfl
  | .comp n c .self r, y, hv, h => by
    obtain ⟨r', h1, _⟩ := apply_val (x := r) hv.2
    obtain ⟨c', g1, _⟩ := apply_val (x := c) hv.1
    rw [apply, h1, g1] at h
    injection h with h
    rw [← h, apply, apply_again (x := r) hv.2 h1, clear_eq, apply_fresh]
    simp only [Option.bind_eq_bind, Option.bind_some]
    rw [clear_eq, fresh_mem]
  | .comp n c (.other o) r, y, hv, h => by
    obtain ⟨hc, ho, ht, hr⟩ := hv
    obtain ⟨r', h1, _⟩ := apply_val (x := r) hr
    obtain ⟨c', g1, _, g3⟩ := apply_val (x := c) hc
    obtain ⟨o', f1, _, f3⟩ := apply_val (x := o) ho
    have e : setMem (clear c') o'.mem = fresh o'.mem := by
      rw [clear_eq]
      exact setMem_fresh _ _ (show c'.ty = o'.ty by rw [g3, f3, ht])
    rw [apply, h1, g1, f1] at h
    simp only [Option.bind_eq_bind, Option.bind_some] at h
    injection h with h
    rw [← h, e, apply, apply_again (x := r) hr h1, apply_again (x := o) ho f1, apply_fresh]
    simp only [Option.bind_eq_bind, Option.bind_some]
    rw [clear_eq, fresh_mem, setMem_fresh _ _ rfl]

/-- the action does what is expected on the object `x` -/
def Sim (cv : Conv B R) (g : Obj B R → Option (Obj B R × Out B R)) (sg : V B R → Option (V B R × SOut B R)) (x : Obj B R) : Prop :=
  match g x with
  | none => sg (view cv x) = none
  | some (y, a) => sg (view cv x) = some (view cv y, outV cv a) ∧ Ok cv y ∧ y.ty = x.ty

theorem Sim.intro_none {cv : Conv B R} {g : Obj B R → Option (Obj B R × Out B R)} {sg : V B R → Option (V B R × SOut B R)} {x : Obj B R}
    (h : g x = none) (h' : sg (view cv x) = none) : Sim cv g sg x := by
  unfold Sim; rw [h]; exact h'

theorem Sim.intro {cv : Conv B R} {g : Obj B R → Option (Obj B R × Out B R)} {sg : V B R → Option (V B R × SOut B R)} {x y : Obj B R}
    {a : Out B R} (h : g x = some (y, a)) (h' : sg (view cv x) = some (view cv y, outV cv a)) (hy : Ok cv y) (ht : y.ty = x.ty) :
    Sim cv g sg x := by
  unfold Sim; rw [h]; exact ⟨h', hy, ht⟩

theorem Sim.elim {cv : Conv B R} {g : Obj B R → Option (Obj B R × Out B R)} {sg : V B R → Option (V B R × SOut B R)} {x : Obj B R}
    (h : Sim cv g sg x) : (g x = none ∧ sg (view cv x) = none) ∨
      ∃ y a, g x = some (y, a) ∧ sg (view cv x) = some (view cv y, outV cv a) ∧ Ok cv y ∧ y.ty = x.ty := by
  unfold Sim at h
  cases hg : g x with
  | none => rw [hg] at h; exact Or.inl ⟨rfl, h⟩
  | some p => obtain ⟨y, a⟩ := p; rw [hg] at h; exact Or.inr ⟨y, a, rfl, h⟩

/-- one step through an accessor -/
theorem step_sim {cv : Conv B R} {g : Obj B R → Option (Obj B R × Out B R)} {sg : V B R → Option (V B R × SOut B R)} (n : Str) :
    ∀ {x : Obj B R}, Ok cv x → (∀ c : Obj B R, Ok cv c → x.ty.child? n = some c.ty → Sim cv g sg c) →
    Sim cv (step cv g (.acc n)) (sstep sg n) x
  | .nil, _, _ => Sim.intro_none rfl rfl
  | .plain m b r, h, hg => by
    by_cases hm : m = n
    · refine Sim.intro_none ?_ ?_
      · rw [step, if_pos (show m = Step.name (.acc n) from hm)]
      · rw [view, sstep, if_pos hm]
    · have hm' : ¬ m = Step.name (.acc n) := hm
      have ih := step_sim n (x := r) h (fun c hc ht => hg c hc (by
        rw [show (Obj.plain m b r).ty = .plain m () r.ty from rfl, Mem.child?, if_neg hm]; exact ht))
      rcases ih.elim with ⟨h1, h2⟩ | ⟨y, a, h1, h2, h3, h4⟩
      · exact Sim.intro_none (by rw [step, if_neg hm', h1]; rfl) (by rw [view, sstep, if_neg hm, h2]; rfl)
      · refine Sim.intro (y := .plain m b y) (a := a) (by rw [step, if_neg hm', h1]; rfl) (by rw [view, sstep, if_neg hm, h2, view]; rfl) h3 ?_
        show Mem.plain m () y.ty = .plain m () r.ty
        rw [h4]
  | .conv m k b iv r, h, hg => by
    have hr : Ok cv r := by cases iv with | none => exact h | some v => exact h.2
    obtain ⟨w, hw⟩ : ∃ w, ∀ r' : Obj B R, view cv (.conv m k b iv r') = .conv m k w (view cv r') := by
      cases iv with
      | none => exact ⟨_, fun r' => by rw [view]⟩
      | some v => exact ⟨_, fun r' => by rw [view]⟩
    by_cases hm : m = n
    · refine Sim.intro_none ?_ ?_
      · rw [step, if_pos (show m = Step.name (.acc n) from hm)]
      · rw [hw, sstep, if_pos hm]
    · have hm' : ¬ m = Step.name (.acc n) := hm
      have ih := step_sim n (x := r) hr (fun c hc ht => hg c hc (by
        rw [show (Obj.conv m k b iv r).ty = .conv m k () r.ty from rfl, Mem.child?, if_neg hm]; exact ht))
      rcases ih.elim with ⟨h1, h2⟩ | ⟨y, a, h1, h2, h3, h4⟩
      · exact Sim.intro_none (by rw [step, if_neg hm', h1]; rfl) (by rw [hw, sstep, if_neg hm, h2]; rfl)
      · refine Sim.intro (y := .conv m k b iv y) (a := a) (by rw [step, if_neg hm', h1]; rfl) (by rw [hw, sstep, if_neg hm, h2, hw]; rfl) ?_ ?_
        · cases iv with
          | none => exact h3
          | some v => exact ⟨h.1, h3⟩
        · show Mem.conv m k () y.ty = .conv m k () r.ty
          rw [h4]
  | .comp m c iv r, h, hg => by
    have hr : Ok cv r := by
      cases iv with
      | nil => exact h.2
      | self => exact h.2
      | other o => exact h.2.2.2
    by_cases hm : m = n
    · have hm' : m = Step.name (.acc n) := hm
      have hty : (Obj.comp m c iv r).ty.child? n = some c.ty := by
        rw [show (Obj.comp m c iv r).ty = .comp m c.ty r.ty from rfl, Mem.child?, if_pos hm]
      cases iv with
      | nil =>
        obtain ⟨hc, _⟩ := h
        have hok : Ok cv c := by rw [hc]; exact ok_fresh cv _
        have ha : apply cv c = some c := by rw [hc, apply_fresh]
        rcases (hg c hok hty).elim with ⟨h1, h2⟩ | ⟨y, a, h1, h2, h3, h4⟩
        · refine Sim.intro_none ?_ (by rw [view, sstep, if_pos hm, h2]; rfl)
          rw [step, if_pos hm']
          simp only [ha, Option.bind_eq_bind, Option.bind_some, h1, Option.bind_none]
        · refine Sim.intro (y := .comp m y .self r) (a := a) ?_ (by rw [view, sstep, if_pos hm, h2, view]; rfl) ⟨h3, hr⟩ ?_
          · rw [step, if_pos hm']
            simp only [ha, Option.bind_eq_bind, Option.bind_some, h1]
          · show Mem.comp m y.ty r.ty = .comp m c.ty r.ty
            rw [h4]
      | self =>
        rcases (hg c h.1 hty).elim with ⟨h1, h2⟩ | ⟨y, a, h1, h2, h3, h4⟩
        · refine Sim.intro_none ?_ (by rw [view, sstep, if_pos hm, h2]; rfl)
          rw [step, if_pos hm']
          simp only [h1, Option.map_none]
        · refine Sim.intro (y := .comp m y .self r) (a := a) ?_ (by rw [view, sstep, if_pos hm, h2, view]; rfl) ⟨h3, hr⟩ ?_
          · rw [step, if_pos hm']
            simp only [h1, Option.map_some]
          · show Mem.comp m y.ty r.ty = .comp m c.ty r.ty
            rw [h4]
      | other o =>
        obtain ⟨hc, ho, ht, _⟩ := h
        rcases (hg o ho (by rw [ht]; exact hty)).elim with ⟨h1, h2⟩ | ⟨y, a, h1, h2, h3, h4⟩
        · refine Sim.intro_none ?_ (by rw [view, sstep, if_pos hm, h2]; rfl)
          rw [step, if_pos hm']
          simp only [h1, Option.map_none]
        · refine Sim.intro (y := .comp m c (.other y) r) (a := a) ?_ (by rw [view, sstep, if_pos hm, h2, view]; rfl)
            ⟨hc, h3, by rw [h4]; exact ht, hr⟩ rfl
          rw [step, if_pos hm']
          simp only [h1, Option.map_some]
    · have hm' : ¬ m = Step.name (.acc n) := hm
      obtain ⟨w, hw⟩ : ∃ w, ∀ r' : Obj B R, view cv (.comp m c iv r') = .comp m w (view cv r') := by
        cases iv with
        | nil => exact ⟨_, fun r' => by rw [view]⟩
        | self => exact ⟨_, fun r' => by rw [view]⟩
        | other o => exact ⟨_, fun r' => by rw [view]⟩
      have ih := step_sim n (x := r) hr (fun c' hc ht => hg c' hc (by
        rw [show (Obj.comp m c iv r).ty = .comp m c.ty r.ty from rfl, Mem.child?, if_neg hm]; exact ht))
      rcases ih.elim with ⟨h1, h2⟩ | ⟨y, a, h1, h2, h3, h4⟩
      · exact Sim.intro_none (by rw [step.eq_def]; simp only [if_neg hm', h1]; rfl) (by rw [hw, sstep, if_neg hm, h2]; rfl)
      · refine Sim.intro (y := .comp m c iv y) (a := a) (by rw [step.eq_def]; simp only [if_neg hm', h1]; rfl) (by rw [hw, sstep, if_neg hm, h2, hw]; rfl) ?_ ?_
        · cases iv with
          | nil => exact ⟨h.1, h3⟩
          | self => exact ⟨h.1, h3⟩
          | other o => exact ⟨h.1, h.2.1, h.2.2.1, h3⟩
        · show Mem.comp m c.ty y.ty = .comp m c.ty r.ty
          rw [h4]

/-- what is expected of an action on a field -/
structure FSim (cv : Conv B R) (T : Ty) (n : Str) (h : Field B R → Option (Field B R × Out B R))
    (sh : SField B R → Option (SField B R × SOut B R)) : Prop where
  plain : ∀ m, (h (.plain m) = none ∧ sh (.plain m) = none) ∨
    ∃ m' a, h (.plain m) = some (.plain m', a) ∧ sh (.plain m) = some (.plain m', outV cv a)
  conv : ∀ k m iv, T.kind? n = some k → (∀ v, iv = some v → Good cv k v) →
    (h (.conv k m iv) = none ∧ sh (.conv k (iv.getD (cv.toRuby k m))) = none) ∨
    ∃ m' iv' a, h (.conv k m iv) = some (.conv k m' iv', a) ∧
      sh (.conv k (iv.getD (cv.toRuby k m))) = some (.conv k (iv'.getD (cv.toRuby k m')), outV cv a) ∧ ∀ v, iv' = some v → Good cv k v
  comp : ∀ c iv, T.child? n = some c.ty → Ok cv (.comp [] c iv .nil) → ∀ w, view cv (.comp [] c iv .nil) = .comp [] w .nil →
    (h (.comp c iv) = none ∧ sh (.comp w) = none) ∨
    ∃ c' iv' w' a, h (.comp c iv) = some (.comp c' iv', a) ∧ sh (.comp w) = some (.comp w', outV cv a) ∧
      c'.ty = c.ty ∧ Ok cv (.comp [] c' iv' .nil) ∧ view cv (.comp [] c' iv' .nil) = .comp [] w' .nil

theorem view_conv (cv : Conv B R) (n : Str) (k : Nat) (m : B) (iv : Option R) (r : Obj B R) :
    view cv (.conv n k m iv r) = .conv n k (iv.getD (cv.toRuby k m)) (view cv r) := by
  cases iv <;> rw [view] <;> rfl

theorem ok_conv {cv : Conv B R} {n : Str} {k : Nat} {m : B} {iv : Option R} {r : Obj B R} :
    Ok cv (.conv n k m iv r) ↔ (∀ v, iv = some v → Good cv k v) ∧ Ok cv r := by
  cases iv with
  | none => exact ⟨fun h => ⟨nofun, h⟩, fun h => h.2⟩
  | some v =>
    refine ⟨fun h => ⟨?_, h.2⟩, fun h => ⟨h.1 v rfl, h.2⟩⟩
    intro v' hv'
    injection hv' with hv'
    rw [← hv']; exact h.1

theorem ok_comp {cv : Conv B R} {n : Str} {c : Obj B R} {iv : Var B R} {r : Obj B R} :
    Ok cv (.comp n c iv r) ↔ Ok cv (.comp [] c iv .nil) ∧ Ok cv r := by
  cases iv with
  | nil => exact ⟨fun h => ⟨⟨h.1, trivial⟩, h.2⟩, fun h => ⟨h.1.1, h.2⟩⟩
  | self => exact ⟨fun h => ⟨⟨h.1, trivial⟩, h.2⟩, fun h => ⟨h.1.1, h.2⟩⟩
  | other o => exact ⟨fun h => ⟨⟨h.1, h.2.1, h.2.2.1, trivial⟩, h.2.2.2⟩, fun h => ⟨h.1.1, h.1.2.1, h.1.2.2.1, h.2⟩⟩

theorem view_comp {cv : Conv B R} {c : Obj B R} {iv : Var B R} {w : V B R} (h : view cv (.comp [] c iv .nil) = .comp [] w .nil) (n : Str) (r : Obj B R) :
    view cv (.comp n c iv r) = .comp n w (view cv r) := by
  cases iv <;> rw [view] at h ⊢ <;> injection h with _ h _ <;> rw [h]

theorem view_comp_ex (cv : Conv B R) (c : Obj B R) (iv : Var B R) : ∃ w, view cv (.comp [] c iv .nil) = .comp [] w .nil := by
  cases iv <;> exact ⟨_, by rw [view]; rfl⟩

theorem onField_sim {cv : Conv B R} {h : Field B R → Option (Field B R × Out B R)} {sh : SField B R → Option (SField B R × SOut B R)} (n : Str) :
    ∀ {x : Obj B R}, Ok cv x → FSim cv x.ty n h sh → Sim cv (onField h n) (onSField sh n) x
  | .nil, _, _ => Sim.intro_none rfl rfl
  | .plain m b r, ho, hf => by
    by_cases hm : m = n
    · rcases hf.plain b with ⟨h1, h2⟩ | ⟨b', a, h1, h2⟩
      · exact Sim.intro_none (by rw [onField, if_pos hm, h1]) (by rw [view, onSField, if_pos hm, h2])
      · exact Sim.intro (y := .plain m b' r) (a := a) (by rw [onField, if_pos hm, h1]) (by rw [view, onSField, if_pos hm, h2, view]) ho rfl
    · have hk : (Obj.plain m b r).ty.kind? n = r.ty.kind? n := by
        rw [show (Obj.plain m b r).ty = .plain m () r.ty from rfl, Mem.kind?, if_neg hm]
      have hc : (Obj.plain m b r).ty.child? n = r.ty.child? n := by
        rw [show (Obj.plain m b r).ty = .plain m () r.ty from rfl, Mem.child?, if_neg hm]
      have ih := onField_sim n (x := r) ho ⟨hf.plain, fun k m iv hk' => hf.conv k m iv (by rw [hk]; exact hk'),
        fun c iv hc' => hf.comp c iv (by rw [hc]; exact hc')⟩
      rcases ih.elim with ⟨h1, h2⟩ | ⟨y, a, h1, h2, h3, h4⟩
      · exact Sim.intro_none (by rw [onField, if_neg hm, h1]; rfl) (by rw [view, onSField, if_neg hm, h2]; rfl)
      · refine Sim.intro (y := .plain m b y) (a := a) (by rw [onField, if_neg hm, h1]; rfl) (by rw [view, onSField, if_neg hm, h2, view]; rfl) h3 ?_
        show Mem.plain m () y.ty = .plain m () r.ty
        rw [h4]
  | .conv m k b iv r, ho, hf => by
    obtain ⟨ho1, ho2⟩ := ok_conv.mp ho
    by_cases hm : m = n
    · have hk : (Obj.conv m k b iv r).ty.kind? n = some k := by
        rw [show (Obj.conv m k b iv r).ty = .conv m k () r.ty from rfl, Mem.kind?, if_pos hm]
      rcases hf.conv k b iv hk ho1 with ⟨h1, h2⟩ | ⟨b', iv', a, h1, h2, h3⟩
      · exact Sim.intro_none (by rw [onField, if_pos hm, h1]) (by rw [view_conv, onSField, if_pos hm, h2])
      · exact Sim.intro (y := .conv m k b' iv' r) (a := a) (by rw [onField, if_pos hm, h1]) (by rw [view_conv, onSField, if_pos hm, h2, view_conv])
          (ok_conv.mpr ⟨h3, ho2⟩) rfl
    · have hk : (Obj.conv m k b iv r).ty.kind? n = r.ty.kind? n := by
        rw [show (Obj.conv m k b iv r).ty = .conv m k () r.ty from rfl, Mem.kind?, if_neg hm]
      have hc : (Obj.conv m k b iv r).ty.child? n = r.ty.child? n := by
        rw [show (Obj.conv m k b iv r).ty = .conv m k () r.ty from rfl, Mem.child?, if_neg hm]
      have ih := onField_sim n (x := r) ho2 ⟨hf.plain, fun k m iv hk' => hf.conv k m iv (by rw [hk]; exact hk'),
        fun c iv hc' => hf.comp c iv (by rw [hc]; exact hc')⟩
      rcases ih.elim with ⟨h1, h2⟩ | ⟨y, a, h1, h2, h3, h4⟩
      · exact Sim.intro_none (by rw [onField, if_neg hm, h1]; rfl) (by rw [view_conv, onSField, if_neg hm, h2]; rfl)
      · refine Sim.intro (y := .conv m k b iv y) (a := a) (by rw [onField, if_neg hm, h1]; rfl)
          (by rw [view_conv, onSField, if_neg hm, h2, view_conv]; rfl) (ok_conv.mpr ⟨ho1, h3⟩) ?_
        show Mem.conv m k () y.ty = .conv m k () r.ty
        rw [h4]
  | .comp m c iv r, ho, hf => by
    obtain ⟨ho1, ho2⟩ := ok_comp.mp ho
    obtain ⟨w, hw⟩ := view_comp_ex cv c iv
    by_cases hm : m = n
    · have hc : (Obj.comp m c iv r).ty.child? n = some c.ty := by
        rw [show (Obj.comp m c iv r).ty = .comp m c.ty r.ty from rfl, Mem.child?, if_pos hm]
      rcases hf.comp c iv hc ho1 w hw with ⟨h1, h2⟩ | ⟨c', iv', w', a, h1, h2, h3, h4, h5⟩
      · exact Sim.intro_none (by rw [onField, if_pos hm, h1]) (by rw [view_comp hw, onSField, if_pos hm, h2])
      · refine Sim.intro (y := .comp m c' iv' r) (a := a) (by rw [onField, if_pos hm, h1])
          (by rw [view_comp hw, onSField, if_pos hm, h2, view_comp h5]) (ok_comp.mpr ⟨h4, ho2⟩) ?_
        show Mem.comp m c'.ty r.ty = .comp m c.ty r.ty
        rw [h3]
    · have hk : (Obj.comp m c iv r).ty.kind? n = r.ty.kind? n := by
        rw [show (Obj.comp m c iv r).ty = .comp m c.ty r.ty from rfl, Mem.kind?, if_neg hm]
      have hc : (Obj.comp m c iv r).ty.child? n = r.ty.child? n := by
        rw [show (Obj.comp m c iv r).ty = .comp m c.ty r.ty from rfl, Mem.child?, if_neg hm]
      have ih := onField_sim n (x := r) ho2 ⟨hf.plain, fun k m iv hk' => hf.conv k m iv (by rw [hk]; exact hk'),
        fun c iv hc' => hf.comp c iv (by rw [hc]; exact hc')⟩
      rcases ih.elim with ⟨h1, h2⟩ | ⟨y, a, h1, h2, h3, h4⟩
      · exact Sim.intro_none (by rw [onField, if_neg hm, h1]; rfl) (by rw [view_comp hw, onSField, if_neg hm, h2]; rfl)
      · refine Sim.intro (y := .comp m c iv y) (a := a) (by rw [onField, if_neg hm, h1]; rfl)
          (by rw [view_comp hw, onSField, if_neg hm, h2, view_comp hw]; rfl) (ok_comp.mpr ⟨ho1, h3⟩) ?_
        show Mem.comp m c.ty y.ty = .comp m c.ty r.ty
        rw [h4]

/-- after `apply` the objects below only have what the C++ value has: the end of `dup` changes nothing that is seen -/
theorem dupVars_ok {cv : Conv B R} : ∀ {x y : Obj B R}, Ok cv x → apply cv x = some y →
    Ok cv (dupVars y) ∧ (dupVars y).ty = y.ty ∧ view cv (dupVars y) = view cv y
  | .nil, y, _, h => by injection h with h; rw [← h]; exact ⟨trivial, rfl, rfl⟩
  | .plain n m r, y, hx, h => by
    obtain ⟨r', h1, _⟩ := apply_ok (x := r) hx
    rw [apply, h1] at h
    injection h with h
    obtain ⟨g1, g2, g3⟩ := dupVars_ok (x := r) hx h1
    rw [← h, dupVars]
    exact ⟨g1, congrArg (Mem.plain n ()) g2, by rw [view, view, g3]⟩
  | .conv n k m none r, y, hx, h => by
    obtain ⟨r', h1, _⟩ := apply_ok (x := r) hx
    rw [apply, h1] at h
    injection h with h
    obtain ⟨g1, g2, g3⟩ := dupVars_ok (x := r) hx h1
    rw [← h, dupVars]
    exact ⟨g1, congrArg (Mem.conv n k ()) g2, by rw [view, view, g3]⟩
  | .conv n k m (some v) r, y, hx, h => by
    obtain ⟨r', h1, _⟩ := apply_ok (x := r) hx.2
    obtain ⟨b, hb, hb'⟩ := hx.1
    rw [apply, h1, hb] at h
    injection h with h
    obtain ⟨g1, g2, g3⟩ := dupVars_ok (x := r) hx.2 h1
    rw [← h, dupVars]
    exact ⟨⟨hx.1, g1⟩, congrArg (Mem.conv n k ()) g2, by rw [view, view, g3]⟩
  | .comp n c .nil r, y, hx, h => by
    obtain ⟨r', h1, _⟩ := apply_ok (x := r) hx.2
    rw [apply, h1] at h
    injection h with h
    obtain ⟨g1, g2, g3⟩ := dupVars_ok (x := r) hx.2 h1
    rw [← h, dupVars]
    exact ⟨⟨hx.1, g1⟩, congrArg (Mem.comp n c.ty) g2, by rw [view, view, g3]⟩
  | .comp n c .self r, y, hx, h => by
    obtain ⟨r', h1, _⟩ := apply_ok (x := r) hx.2
    obtain ⟨c', f1, _⟩ := apply_ok (x := c) hx.1
    rw [apply, h1, f1] at h
    injection h with h
    obtain ⟨g1, g2, g3⟩ := dupVars_ok (x := r) hx.2 h1
    rw [← h, dupVars, clear_eq, fresh_mem]
    exact ⟨⟨val_fresh cv _, ok_fresh cv _, rfl, g1⟩, congrArg (Mem.comp n _) g2, by rw [view, view, g3]⟩
  | .comp n c (.other o) r, y, hx, h => by
    obtain ⟨hc, ho, ht, hr⟩ := hx
    obtain ⟨r', h1, _⟩ := apply_ok (x := r) hr
    obtain ⟨c', f1, f2, f3⟩ := apply_val hc
    obtain ⟨o', e1, _, e3, e4, e5⟩ := apply_ok (x := o) ho
    have e : setMem (clear c') o'.mem = fresh o'.mem := by
      rw [clear_eq]
      exact setMem_fresh _ _ (show c'.ty = o'.ty by rw [f3, e3, ht])
    rw [apply, h1, f1, e1] at h
    simp only [Option.bind_eq_bind, Option.bind_some] at h
    injection h with h
    obtain ⟨g1, g2, g3⟩ := dupVars_ok (x := r) hr h1
    rw [← h, dupVars, e]
    refine ⟨⟨val_fresh cv _, ok_fresh cv _, rfl, g1⟩, congrArg (Mem.comp n _) g2, ?_⟩
    rw [view, view, g3, view_fresh, e4, e5]

theorem act_sim {cv : Conv B R} (hcv : ∀ k b, Good cv k (cv.toRuby k b)) {x : Obj B R} (hx : Ok cv x) {a : Act B R}
    (ha : Fits cv x.ty a) : Sim cv (act cv a) (sact cv a) x := by
  cases a with
  | read n =>
    refine onField_sim n hx ⟨fun m => Or.inl ⟨rfl, rfl⟩, ?_, fun c iv _ _ w _ => Or.inl ⟨rfl, rfl⟩⟩
    intro k m iv _ hiv
    cases iv with
    | none => exact Or.inr ⟨m, _, _, rfl, rfl, fun v hv => by injection hv with hv; rw [← hv]; exact hcv k m⟩
    | some v => exact Or.inr ⟨m, _, _, rfl, rfl, hiv⟩
  | write n v =>
    cases v with
    | none => exact ha.elim
    | some v =>
      refine onField_sim n hx ⟨fun m => Or.inl ⟨rfl, rfl⟩, ?_, fun c iv _ _ w _ => Or.inl ⟨rfl, rfl⟩⟩
      intro k m iv hk hiv
      exact Or.inr ⟨m, _, _, rfl, rfl, fun v' hv => by injection hv with hv; rw [← hv]; exact ha k hk⟩
  | readPlain n =>
    exact onField_sim n hx ⟨fun m => Or.inr ⟨m, _, rfl, rfl⟩, fun k m iv _ _ => Or.inl ⟨rfl, rfl⟩, fun c iv _ _ w _ => Or.inl ⟨rfl, rfl⟩⟩
  | writePlain n b =>
    exact onField_sim n hx ⟨fun m => Or.inr ⟨b, _, rfl, rfl⟩, fun k m iv _ _ => Or.inl ⟨rfl, rfl⟩, fun c iv _ _ w _ => Or.inl ⟨rfl, rfl⟩⟩
  | assign n o =>
    refine onField_sim n hx ⟨fun m => Or.inl ⟨rfl, rfl⟩, fun k m iv _ _ => Or.inl ⟨rfl, rfl⟩, ?_⟩
    intro c iv hc hok w hw
    obtain ⟨h1, h2⟩ := ha _ hc
    refine Or.inr ⟨c, .other o, view cv o, _, rfl, rfl, rfl, ⟨?_, h1, h2, trivial⟩, by rw [view]; rfl⟩
    cases iv with
    | nil => rw [hok.1]; exact val_fresh cv _
    | self => exact Ok.val hok.1
    | other o' => exact hok.1
  | getField n => exact ha.elim
  | set n v => exact ha.elim
  | rawSet n b => exact ha.elim
  | bytes =>
    obtain ⟨y, h1, h2, h3, h4, h5⟩ := apply_ok hx
    refine Sim.intro (y := y) (a := .mem y.mem) (by simp only [act, h1, Option.map_some]) ?_ h2 h3
    simp only [sact, outV, h4, h5]
  | fromBuffer m => exact ha.elim
  | copyFrom o =>
    obtain ⟨ho, ht⟩ := ha
    obtain ⟨y, h1, h2, h3, h4, h5⟩ := apply_ok ho
    have e : setMem (clear x) y.mem = fresh y.mem := by
      rw [clear_eq]
      exact setMem_fresh _ _ (show x.ty = y.ty by rw [h3, ht])
    refine Sim.intro (y := fresh y.mem) (a := .unit) (by simp only [act, h1, Option.map_some]; rw [e]) ?_ (ok_fresh cv _) ?_
    · simp only [sact, outV, view_fresh, h4]
    · rw [ty_fresh, ← ht, ← h3]; rfl
  | dup =>
    obtain ⟨y, h1, h2, h3, h4, h5⟩ := apply_ok hx
    obtain ⟨g1, g2, g3⟩ := dupVars_ok hx h1
    refine Sim.intro (y := dupVars y) (a := .mem y.mem) (by simp only [act, h1, Option.map_some]) ?_ g1 (by rw [g2, h3])
    simp only [sact, outV, h4, g3, h5]

theorem steps_sim {cv : Conv B R} (hcv : ∀ k b, Good cv k (cv.toRuby k b)) {a : Act B R} : ∀ (p : List Step) {x : Obj B R}, Ok cv x →
    FitsAt cv x.ty p a → Sim cv (steps cv (act cv a) p) (ssteps (sact cv a) (p.map Step.name)) x
  | [], _, hx, h => act_sim hcv hx h
  | .acc n :: p, _, hx, h => step_sim n hx fun _ hc ht => steps_sim hcv p hc (h _ ht)
  | .get _ :: _, _, _, h => h.elim
  | .raw _ :: _, _, _, h => h.elim

/-- C67: a program that uses the accessors (and `to_byte_array`, `==`, `dup`, `Typelib.copy`), starting with a value whose
objects remember nothing but what the accessors give (a new one for instance): all that it reads is what it wrote last, the
bytes that it gets are those of what it reads, and both are as if there were only one copy of each field. It raises when it
uses fields that do not exist, and only then. -/
theorem C67_accessors_partial {cv : Conv B R} (hcv : ∀ k b, Good cv k (cv.toRuby k b)) (x : Obj B R) (hx : Ok cv x)
    (prog : List (List Step × Act B R)) (hp : ∀ s ∈ prog, FitsAt cv x.ty s.1 s.2) :
    (run cv x prog).map (fun y => (view cv y.1, y.2.map (outV cv))) = srun cv (view cv x) (prog.map fun s => (s.1.map Step.name, s.2)) := by
  induction prog generalizing x with
  | nil => rfl
  | cons s prog ih =>
    obtain ⟨p, a⟩ := s
    rw [run, List.map_cons, srun]
    rcases (steps_sim hcv p hx (hp _ (List.mem_cons_self ..))).elim with ⟨h1, h2⟩ | ⟨y, o, h1, h2, h3, h4⟩
    · rw [h1, h2]; rfl
    · rw [h1, h2]
      simp only [Option.bind_eq_bind, Option.bind_some]
      have h5 := ih y h3 fun s hs => by rw [h4]; exact hp s (List.mem_cons_of_mem _ hs)
      rw [← h5]
      cases run cv y prog with
      | none => rfl
      | some z => rfl

/-- C67: at any point of such a program the bytes are those of what is read, and reading a value made of these bytes gives
the same. -/
theorem C67_bytes_partial {cv : Conv B R} (x : Obj B R) (hx : Ok cv x) :
    ∃ y m, act cv .bytes x = some (y, .mem m) ∧ view cv (fresh m : Obj B R) = view cv x ∧ view cv y = view cv x := by
  obtain ⟨y, h1, _, _, h4, h5⟩ := apply_ok hx
  exact ⟨y, y.mem, by simp only [act, h1, Option.map_some], by rw [view_fresh, h4], h5⟩

end Verif.RubyConverted
