import Verif.VisitorProps

/-!
C49: `value_cast` (typelib/value_cast.hh, typelib/normalized_numerics.hh).
-/

namespace Verif.Visitor
open Verif Verif.Graph

/-! ### Model -/

/-- a C++ arithmetic type, by its normalised form (normalized_numerics.hh:8-41): signed or unsigned integer of 1, 2, 4 or 8
bytes, `float` (4 bytes), `double` (8 bytes) -/
abbrev CType := NumCat × Nat

/-- `CastingVisitor<T>` (value_cast.hh:12-39): `visit_` of the normalised form of `T` keeps the value and asks to stop; the
other numeric overloads return `m_defval`, which is false (value.hh:53-62); enums and opaques return true (value.cc:134-137,
typevisitor.cc: `visit_(Enum const&)`). The state is `m_found`/`m_value`. What is read at an address is a parameter. -/
def caster (H : Heap) (read : Nat → Nat → α) (T : CType) : Visitor (Option α) where
  leaf := fun a t s =>
    match H.kind t with
    | .num c => if (c, H.size t) = T then (false, some (read a (H.size t))) else (false, s)
    | _ => (true, s)
  field := none

/-- `value_cast<T>` (value_cast.hh:26-55); `BadValueCast` if nothing was found -/
def valueCast (H : Heap) (m : Mem) (read : Nat → Nat → α) (T : CType) (fuel a : Nat) (t : TId) : Res α :=
  apply H m (caster H read T) fuel a t none >>= fun r =>
    match r with
    | none => .exn .badValueCast
    | some v => .ok v

/-! ### Proof -/

theorem brkLoop_inv {σ : Type} {rec : Nat → σ → Res (Bool × σ)} {P : σ → Prop} : ∀ (as : List Nat),
    (∀ a ∈ as, ∀ s r, P s → rec a s = .ok r → P r.2) → ∀ s s', P s → brkLoop rec as s = .ok s' → P s' := by
  intro as
  induction as with
  | nil => intro _ s s' hp h; cases h; exact hp
  | cons a as ih =>
    intro hr s s' hp h
    obtain ⟨r, h1, h2⟩ := Res.bind_eq_ok.mp h
    have := hr a (by simp) s r hp h1
    split at h2
    · exact ih (fun x hx => hr x (by simp [hx])) _ _ this h2
    · cases h2; exact this

theorem allLoop_inv {σ : Type} {rec : Nat → σ → Res (Bool × σ)} {P : σ → Prop} : ∀ (as : List Nat),
    (∀ a ∈ as, ∀ s r, P s → rec a s = .ok r → P r.2) → ∀ s s', P s → allLoop rec as s = .ok s' → P s' := by
  intro as
  induction as with
  | nil => intro _ s s' hp h; cases h; exact hp
  | cons a as ih =>
    intro hr s s' hp h
    obtain ⟨r, h1, h2⟩ := Res.bind_eq_ok.mp h
    exact ih (fun x hx => hr x (by simp [hx])) _ _ (hr a (by simp) s r hp h1) h2

theorem fieldLoop_inv {σ : Type} {rec : Nat → FieldD → σ → Res (Bool × σ)} {P : σ → Prop} {b : Nat} : ∀ (fs : List FieldD),
    (∀ f ∈ fs, ∀ s r, P s → rec (b + f.offset) f s = .ok r → P r.2) → ∀ s r, P s → fieldLoop rec b fs s = .ok r → P r.2 := by
  intro fs
  induction fs with
  | nil => intro _ s r hp h; cases h; exact hp
  | cons f fs ih =>
    intro hr s r hp h
    obtain ⟨r1, h1, h2⟩ := Res.bind_eq_ok.mp h
    have := hr f (by simp) s r1 hp h1
    split at h2
    · exact ih (fun x hx => hr x (by simp [hx])) _ _ this h2
    · cases h2; exact this

/-- what the methods of a visitor preserve on the leaves of a value, the visit preserves, also when the visitor stops it -/
theorem visit_inv {σ : Type} {H : Heap} {m : Mem} {V : Visitor σ} (hf : V.field = none) {P : σ → Prop} : ∀ (f a : Nat) (t : TId),
    (∀ p l, follow H m (a, t) p = some l → IsLeaf H l → ∀ s, P s → P (V.leaf l.1 l.2 s).2) →
    ∀ s r, P s → visit H m V f a t s = .ok r → P r.2 := by
  intro f
  induction f with
  | zero => intro a t _ s r _ h; cases h
  | succ f ih =>
    intro a t hl s r hp h
    have leaf : Kind.isLeaf (H.kind t) = true → P (V.leaf a t s).2 := fun hk => hl [] (a, t) rfl hk s hp
    have kid : ∀ st b u, stepTo H m (a, t) st = some (b, u) → ∀ s r, P s → visit H m V f b u s = .ok r → P r.2 := by
      intro st b u hst s r
      refine ih b u (fun p l hfl => hl (st :: p) l ?_) s r
      rw [follow, hst]
      exact hfl
    rw [visit] at h
    cases hk : H.kind t with
    | null => simp only [hk] at h; cases h
    | «opaque» => simp only [hk] at h; cases h; exact leaf (by rw [hk]; rfl)
    | num c =>
      simp only [hk] at h
      split at h
      · cases h; exact leaf (by rw [hk]; rfl)
      · cases h
    | «enum» e => simp only [hk] at h; cases h; exact leaf (by rw [hk]; rfl)
    | ptr e =>
      simp only [hk] at h
      split at h
      · cases h
      · exact kid .deref _ _ (by simp only [stepTo, hk]) s r hp h
    | arr d e =>
      simp only [hk] at h
      obtain ⟨s1, h1, h2⟩ := Res.bind_eq_ok.mp h
      cases h2
      refine brkLoop_inv _ ?_ s s1 hp h1
      intro b hb s r
      obtain ⟨i, hi, rfl⟩ := List.mem_map.mp hb
      exact kid (.idx i) _ _ (by simp only [stepTo, hk]; rw [if_pos (List.mem_range.mp hi)]) s r
    | vec e =>
      simp only [hk] at h
      split at h
      · cases h
      · obtain ⟨s1, h1, h2⟩ := Res.bind_eq_ok.mp h
        cases h2
        refine allLoop_inv _ ?_ s s1 hp h1
        intro b hb s r
        obtain ⟨i, hi, rfl⟩ := List.mem_map.mp hb
        exact kid (.elem i) _ _ (by simp only [stepTo, hk]; rw [if_pos (List.mem_range.mp hi)]) s r
    | str e =>
      simp only [hk] at h
      obtain ⟨s1, h1, h2⟩ := Res.bind_eq_ok.mp h
      cases h2
      refine allLoop_inv _ ?_ s s1 hp h1
      intro b hb s r
      obtain ⟨i, hi, rfl⟩ := List.mem_map.mp hb
      exact kid (.elem i) _ _ (by simp only [stepTo, hk, Nat.mul_one]; rw [if_pos (List.mem_range.mp hi)]) s r
    | comp fs =>
      simp only [hk] at h
      refine fieldLoop_inv fs ?_ s r hp h
      intro fd hfd s r
      obtain ⟨i, hi⟩ := List.getElem?_of_mem hfd
      unfold fieldRec
      rw [hf]
      exact kid (.field i) _ _ (by simp only [stepTo, hk]; rw [hi]; rfl) s r

/-- the location holds a number of the C++ type `T` -/
def OfType (H : Heap) (T : CType) (l : Loc) : Prop := H.kind l.2 = .num T.1 ∧ H.size l.2 = T.2

/-! ### C49 -/

/-- **C49, numbers**: the value of a number is given exactly as the C++ type of its category and size; any other type is
refused. -/
theorem C49_number (H : Heap) (m : Mem) (read : Nat → Nat → α) (T : CType) (fuel a : Nat) (t : TId) (c : NumCat)
    (hk : H.kind t = .num c) (hs : numSupported c (H.size t) = true) :
    valueCast H m read T (fuel + 1) a t =
      if T = (c, H.size t) then .ok (read a (H.size t)) else .exn .badValueCast := by
  unfold valueCast apply
  simp only [visit, hk, hs, if_true, caster, Res.bind_ok]
  by_cases h : (c, H.size t) = T
  · simp only [h, if_true]
  · rw [if_neg h, if_neg (fun e => h e.symm)]

/-- **C49, what can be returned**: whatever the type of the value, the result is what is stored in a number of the wanted
type that is part of the value. -/
theorem C49_sound (H : Heap) (m : Mem) (read : Nat → Nat → α) (T : CType) (fuel a : Nat) (t : TId) (v : α)
    (h : valueCast H m read T fuel a t = .ok v) :
    ∃ p l, follow H m (a, t) p = some l ∧ OfType H T l ∧ v = read l.1 T.2 := by
  obtain ⟨r, h1, h2⟩ := Res.bind_eq_ok.mp h
  obtain ⟨x, hx, h3⟩ := Res.bind_eq_ok.mp h1
  cases h3
  have := visit_inv (V := caster H read T) rfl (P := fun s => ∀ w, s = some w →
    ∃ p l, follow H m (a, t) p = some l ∧ OfType H T l ∧ w = read l.1 T.2) fuel a t (by
      intro p l hl _ s hp w hw
      simp only [caster] at hw
      split at hw
      · rename_i c hc
        split at hw
        · rename_i e
          cases hw
          refine ⟨p, l, hl, ?_, ?_⟩
          · cases e; exact ⟨hc, rfl⟩
          · cases e; rfl
        · exact hp w hw
      · exact hp w hw) none x (by simp) hx
  cases hr : x.2 with
  | none => rw [hr] at h2; cases h2
  | some w => rw [hr] at h2; exact (Res.ok.inj h2) ▸ this w hr

/-- **C49, no such number**: if the value has no part of the wanted type, the cast is refused (whenever the visit
completes, see `C42_completes`). -/
theorem C49_refused (H : Heap) (m : Mem) (read : Nat → Nat → α) (T : CType) (rank : TId → Nat) (a : Nat) (t : TId)
    (hr : ∀ u x, x ∈ H.deps u → rank x < rank u) (hp : ∀ p l, follow H m (a, t) p = some l → Passable H m l)
    (hn : ∀ p l, follow H m (a, t) p = some l → ¬ OfType H T l) :
    ∃ fuel, valueCast H m read T fuel a t = .exn .badValueCast := by
  obtain ⟨fuel, s, h⟩ := C42_completes H m (caster H read T) rank a t none hr hp
  refine ⟨fuel, ?_⟩
  cases s with
  | none => unfold valueCast; rw [h]; rfl
  | some v =>
    have : valueCast H m read T fuel a t = .ok v := by unfold valueCast; rw [h]; rfl
    obtain ⟨p, l, h1, h2, _⟩ := C49_sound H m read T fuel a t v this
    exact absurd h2 (hn p l h1)

/-! ### Examples -/

def castHeap : Heap where
  next := 6
  get := fun t =>
    match t with
    | 0 => ⟨"/int".toList, 4, .num .sint⟩
    | 1 => ⟨"/int[2]".toList, 8, .arr 2 0⟩
    | 2 => ⟨"/S".toList, 12, .comp [⟨"a".toList, 0, 1⟩, ⟨"b".toList, 8, 0⟩]⟩
    | 3 => ⟨"/std/vector</int>".toList, 24, .vec 0⟩
    | 4 => ⟨"/float".toList, 4, .num .float⟩
    | 5 => ⟨"/T".toList, 8, .comp [⟨"x".toList, 0, 4⟩, ⟨"y".toList, 4, 0⟩]⟩
    | _ => ⟨"/E".toList, 4, .enum []⟩

example : valueCast castHeap vMem (fun a n => (a, n)) (.sint, 4) 1 1000 0 = .ok (1000, 4) ∧
    valueCast castHeap vMem (fun a n => (a, n)) (.uint, 4) 1 1000 0 = .exn .badValueCast := by decide

/-- What the cast of a value that is not a number gives: not the first number in `S { int a[2]; int b; }`, but `b`; the
first one of an array; a refusal for `T { float x; int y; }` although it has an `int`; a refusal for an enumeration. -/
theorem C49_compound_counterexample :
    valueCast castHeap vMem (fun a n => (a, n)) (.sint, 4) 3 1000 2 = .ok (1008, 4) ∧
    valueCast castHeap vMem (fun a n => (a, n)) (.sint, 4) 3 1000 1 = .ok (1000, 4) ∧
    valueCast castHeap vMem (fun a n => (a, n)) (.sint, 4) 3 1000 5 = .exn .badValueCast ∧
    valueCast castHeap vMem (fun a n => (a, n)) (.sint, 4) 3 1000 6 = .exn .badValueCast := by decide

end Verif.Visitor
