import Verif.LayoutValidate

/-!
C82: memory layouts as the Ruby bindings show them (`Type.memory_layout`, `Type.compatible_with_memcpy?`;
bindings/ruby/lib/typelib/type.rb:69-76, 389-427, bindings/ruby/ext/value.cc:265-379).
-/

namespace Verif.RubyLayout
open Verif Verif.Layout

/-! ### Model -/

/-- the symbols the arrays are made of (value.cc:269-273, 312-316) -/
inductive Sym where
  | memcpy | skip | array | «end» | container
  | init | initSkip | initRepeat | initEnd | initContainer
  deriving DecidableEq, Repr

/-- one entry of the arrays: a symbol, an integer or the class of a container type. `type_wrap` gives one class per type (C68); the
class is represented by the type it stands for. -/
inductive RW where
  | sym (s : Sym)
  | int (i : Int)
  | cls (c : Ty)

/-- `LONG2NUM(x)` of a `size_t`: converted to `long` first -/
def long2num (v : Nat) : RW :=
  .int (if v < 2 ^ 63 then (v : Int) else (v : Int) - 2 ^ 64)

/-- what `rb_ary_push` puts in front of the rest of the array -/
def push (l : List RW) : Res (List RW) → Res (List RW)
  | .ok r => .ok (l ++ r)
  | x => x

/-- `layout_to_ruby` (value.cc:265-306). Reading beyond the end, printing an address as a number and using a number as an address are
`ub`. -/
def layoutToRuby : List Word → Res (List RW)
  | [] => .ok []
  | .p _ :: _ => .exn .rbArg
  | .n o :: r =>
    if o = FLAG_MEMCPY then
      match r with
      | .n v :: r => push [.sym .memcpy, long2num v] (layoutToRuby r)
      | _ => .ub
    else if o = FLAG_SKIP then
      match r with
      | .n v :: r => push [.sym .skip, long2num v] (layoutToRuby r)
      | _ => .ub
    else if o = FLAG_ARRAY then
      match r with
      | .n v :: r => push [.sym .array, long2num v] (layoutToRuby r)
      | _ => .ub
    else if o = FLAG_END then push [.sym .end] (layoutToRuby r)
    else if o = FLAG_CONTAINER then
      match r with
      | .p c :: r => push [.sym .container, .cls c] (layoutToRuby r)
      | _ => .ub
    else .exn .rbArg

/-- `init_layout_to_ruby` (value.cc:308-351); the first argument is how many bytes of initial values the inner loop (329-330) has still
to push. -/
def initToRuby : Nat → List Word → Res (List RW)
  | 0, [] => .ok []
  | _ + 1, [] => .ub
  | k + 1, .n v :: r => push [long2num v] (initToRuby k r)
  | _ + 1, .p _ :: _ => .ub
  | 0, .p _ :: _ => .exn .rbArg
  | 0, .n o :: r =>
    if o = FLAG_INIT then
      match r with
      | .n v :: r => push [.sym .init, long2num v] (initToRuby v r)
      | _ => .ub
    else if o = FLAG_INIT_SKIP then
      match r with
      | .n v :: r => push [.sym .initSkip, long2num v] (initToRuby 0 r)
      | _ => .ub
    else if o = FLAG_INIT_REPEAT then
      match r with
      | .n v :: r => push [.sym .initRepeat, long2num v] (initToRuby 0 r)
      | _ => .ub
    else if o = FLAG_INIT_END then push [.sym .initEnd] (initToRuby 0 r)
    else if o = FLAG_INIT_CONTAINER then
      match r with
      | .p c :: r => push [.sym .initContainer, .cls c] (initToRuby 0 r)
      | _ => .ub
    else .exn .rbArg

/-- the elements of the array that `memory_layout` returns (here: two arrays) -/
inductive Elt where
  | word (w : RW)
  | arr (l : List RW)

/-- `type_memory_layout` (value.cc:360-379) -/
def doMemoryLayout (t : Ty) (pointers opaques merge rem : Bool) : Res (List Elt) :=
  match layoutOf pointers opaques merge rem t with
  | .ok ml =>
    match layoutToRuby ml.ops with
    | .ok ops =>
      match initToRuby 0 ml.init with
      | .ok init => .ok [.arr ops, .arr init]
      | .exn e => .exn e
      | .ub => .ub
      | .fuel => .fuel
    | .exn e => .exn e
    | .ub => .ub
    | .fuel => .fuel
  | .exn _ => .exn .rbArg
  | .ub => .ub
  | .fuel => .fuel

/-- the option names -/
inductive Key where
  | acceptOpaques | acceptPointers | mergeSkipCopy | removeTrailingSkips
  /-- any other key -/
  | other (name : Str)
  deriving DecidableEq

/-- the hash of options the caller gives: key and truth value, no key twice (a Ruby hash has none) -/
abbrev Given := List (Key × Bool)

/-- value of a key after the defaults have been filled in -/
def Given.getD (g : Given) (k : Key) (default : Bool) : Bool :=
  match g.lookup k with
  | some b => b
  | none => default

/-- a key that is not one of the four -/
def Key.unknown : Key → Bool
  | .other _ => true
  | _ => false

/-- `memory_layout` (type.rb:420-427) with `validate_layout_options` (type.rb:389-394): `Kernel.validate_options` refuses unknown keys
with an ArgumentError and fills in the defaults. -/
def memoryLayout (t : Ty) (g : Given) : Res (List Elt) :=
  if g.any (fun kv => kv.1.unknown) then .exn .rbArg
  else
    doMemoryLayout t (g.getD .acceptPointers false) (g.getD .acceptOpaques false) (g.getD .mergeSkipCopy true)
      (g.getD .removeTrailingSkips true)

/-- comparing an element to a symbol: an array is equal to no symbol -/
def Elt.isSym (s : Sym) : Elt → Bool
  | .word (.sym s') => s = s'
  | _ => false

/-- `compatible_with_memcpy?` (type.rb:69-76) -/
def compatibleWithMemcpy (t : Ty) : Res Bool :=
  match memoryLayout t [] with
  | .ok layout =>
    .ok (layout.length == 2 && ((layout[0]?.map (Elt.isSym .memcpy)).getD false || (layout[0]?.map (Elt.isSym .skip)).getD false))
  | .exn _ => .ok false
  | .ub => .ub
  | .fuel => .fuel

/-! ### Specification: how a user reads the arrays -/

/-- the bytes an array of operations describes (the documentation of the format, memory_layout.hh:60-116, in Ruby's words) -/
inductive Reads (merge : Bool) : List RW → List Item → Prop where
  | nil : Reads merge [] []
  | memcpy {n : Nat} {w k} : Reads merge w k → Reads merge (.sym .memcpy :: .int n :: w) (List.replicate n .data ++ k)
  | skip {n : Nat} {w k} : Reads merge w k → Reads merge (.sym .skip :: .int n :: w) (List.replicate n .pad ++ k)
  | array {n : Nat} {body b w k} : Reads merge body b → Reads merge w k →
      Reads merge (.sym .array :: .int n :: (body ++ .sym .end :: w)) (rep n b ++ k)
  | container {c body w k} : Reads merge body ((elemKinds c).map (mp merge)) → Reads merge w k →
      Reads merge (.sym .container :: .cls c :: (body ++ .sym .end :: w)) (.cont c :: k)

/-- what an array of initialisation operations does -/
inductive ReadsInit : List RW → List IItem → Prop where
  | nil : ReadsInit [] []
  | init {d : List UInt8} {w k} : ReadsInit w k →
      ReadsInit (.sym .init :: .int d.length :: (d.map (fun b => .int b.toNat) ++ w)) (d.map .set ++ k)
  | skip {n : Nat} {w k} : ReadsInit w k → ReadsInit (.sym .initSkip :: .int n :: w) (List.replicate n .leave ++ k)
  | repeat_ {n : Nat} {body b w k} : ReadsInit body b → ReadsInit w k →
      ReadsInit (.sym .initRepeat :: .int n :: (body ++ .sym .initEnd :: w)) (rep n b ++ k)
  | container {c w k} : ReadsInit w k → ReadsInit (.sym .initContainer :: .cls c :: w) (.cont c :: k)

mutual
/-- no type in `t` (fields, elements, their fields and elements, ...) has `B` bytes or more -/
def Below (B : Nat) : Ty → Prop
  | .num n => n < B
  | .enum n _ => n < B
  | .arr d e => wmul d e.size < B ∧ Below B e
  | .vec c e => c < B ∧ Below B e
  | .str c => c < B
  | .comp n fs => n < B ∧ BelowF B fs
  | .ptr n => n < B
  | .opaq n => n < B
def BelowF (B : Nat) : Fields → Prop
  | .nil => True
  | .cons _ t r => Below B t ∧ BelowF B r
end

/-! ### Lemmas -/

theorem below_size {B : Nat} {t : Ty} (h : Below B t) : t.size < B := by
  cases t <;> simp only [Below] at h <;> simp only [Ty.size] <;> first | exact h | exact h.1

/-- the types whose elements are in a container item -/
def ContBelow (B : Nat) (l : List Item) : Prop := ∀ c, Item.cont c ∈ l → Below B c ∧ c.WF

mutual
theorem kinds_below (B : Nat) : ∀ t : Ty, Below B t → t.WF → ContBelow B (kinds t)
  | .num n, _, _ => by intro c h; simp [kinds] at h
  | .enum n vs, _, _ => by intro c h; simp [kinds] at h
  | .arr d e, hb, hw => by
    intro c h
    simp only [kinds, rep, List.mem_flatten, List.mem_replicate] at h
    obtain ⟨l, ⟨_, rfl⟩, h⟩ := h
    exact kinds_below B e hb.2 hw.2.2.2 c h
  | .vec c e, hb, hw => by
    intro c' h
    simp only [kinds, List.mem_singleton, Item.cont.injEq] at h
    subst h; exact ⟨hb, hw⟩
  | .str c, hb, hw => by
    intro c' h
    simp only [kinds, List.mem_singleton, Item.cont.injEq] at h
    subst h; exact ⟨hb, hw⟩
  | .comp n fs, hb, hw => by simp only [kinds]; exact kindsF_below B fs _ _ hb.2 hw.2
  | .ptr n, _, _ => by intro c h; simp [kinds] at h
  | .opaq n, _, _ => by intro c h; simp [kinds] at h
theorem kindsF_below (B : Nat) : ∀ (fs : Fields) (cur n : Nat), BelowF B fs → fs.WF cur n → ContBelow B (kindsF cur n fs)
  | .nil, cur, n, _, _ => by intro c h; simp [kindsF] at h
  | .cons off t r, cur, n, hb, hw => by
    intro c h
    simp only [kindsF, List.mem_append, List.mem_replicate] at h
    rcases h with (h | h) | h
    · cases h.2
    · exact kinds_below B t hb.1 hw.2.1 c h
    · exact kindsF_below B r _ _ hb.2 hw.2.2 c h
end

theorem elemKinds_below {B : Nat} {c : Ty} (hB : 1 < B) (hb : Below B c) (hw : c.WF) :
    ContBelow B (elemKinds c) ∧ (elemKinds c).length < B := by
  cases c with
  | vec c e =>
    refine ⟨kinds_below B e hb.2 hw.2.2.2, ?_⟩
    have := kinds_length_le e hw.2.2.2
    have := below_size hb.2
    simp only [elemKinds]; omega
  | str c => exact ⟨(by intro c' h; simp [elemKinds] at h), by simpa [elemKinds] using hB⟩
  | num n => exact ⟨(by intro c' h; simp [elemKinds] at h), by simp [elemKinds]; omega⟩
  | enum n v => exact ⟨(by intro c' h; simp [elemKinds] at h), by simp [elemKinds]; omega⟩
  | arr n v => exact ⟨(by intro c' h; simp [elemKinds] at h), by simp [elemKinds]; omega⟩
  | comp n v => exact ⟨(by intro c' h; simp [elemKinds] at h), by simp [elemKinds]; omega⟩
  | ptr n => exact ⟨(by intro c' h; simp [elemKinds] at h), by simp [elemKinds]; omega⟩
  | opaq n => exact ⟨(by intro c' h; simp [elemKinds] at h), by simp [elemKinds]; omega⟩

theorem contBelow_mp {B : Nat} {m : Bool} {l : List Item} (h : ContBelow B l) : ContBelow B (l.map (mp m)) := by
  intro c hc
  obtain ⟨x, hx, he⟩ := List.mem_map.mp hc
  have : x = .cont c := by cases x <;> cases m <;> simp_all [mp]
  exact h c (this ▸ hx)

/-- dimensions of the arrays of an operation tree -/
def Dims (B : Nat) : L → Prop
  | .nil => True
  | .mc _ k => Dims B k
  | .sk _ k => Dims B k
  | .ar n b k => n < B ∧ Dims B b ∧ Dims B k
  | .co _ b k => Dims B b ∧ Dims B k

theorem dims_app (B : Nat) (a b : L) : Dims B (a.app b) ↔ Dims B a ∧ Dims B b := by
  induction a <;> simp [L.app, Dims, *] <;> grind

theorem dims_flush (B op c : Nat) (k : L) : Dims B (flush op c k) ↔ Dims B k := by
  unfold flush one; split
  · split <;> simp [Dims]
  · rfl

theorem dims_sT (B : Nat) (merge : Bool) (l : L) (hl : Dims B l) : ∀ mode op c skc, Dims B (sT merge l mode op c skc) := by
  induction l with
  | nil =>
    intro mode op c skc
    cases mode with
    | none => simp only [sT, fin, dims_flush, Dims]
    | some r =>
      simp only [sT, fin]
      split
      · split
        · unfold one; split <;> simp [Dims]
        · simp [Dims]
      · simp [Dims]
  | mc n k ih =>
    intro mode op c skc
    have ih := ih hl
    simp only [sT]
    split
    · exact ih ..
    · split
      · exact ih ..
      · rw [dims_flush]; exact ih ..
  | sk n k ih =>
    intro mode op c skc
    have ih := ih hl
    simp only [sT]
    split
    · exact ih ..
    · split
      · exact ih ..
      · rw [dims_flush]; exact ih ..
  | ar n b k ihb ihk =>
    intro mode op c skc
    have ihk := ihk hl.2.2
    have ihb := ihb hl.2.1
    simp only [sT]
    split
    · split
      · exact ihk ..
      · rw [dims_flush]; exact ihk ..
    · rw [dims_flush]; exact ⟨hl.1, ihb .., ihk ..⟩
  | co ct b k ihb ihk =>
    intro mode op c skc
    simp only [sT]
    rw [dims_flush]
    exact ⟨ihb hl.1 .., ihk hl.2 ..⟩

theorem dim_lt {B d : Nat} {e : Ty} (hb : Below B (.arr d e)) (hw : (Ty.arr d e).WF) : d < B := by
  have h1 := below_size hb
  rw [arr_size hw] at h1
  have h2 := Nat.mul_le_mul_left d hw.2.1
  omega

mutual
theorem dims_raw (B : Nat) : ∀ t : Ty, Below B t → t.WF → Dims B (rawL t)
  | .num n, _, _ => trivial
  | .enum n vs, _, _ => trivial
  | .arr d e, hb, hw => ⟨dim_lt hb hw, dims_raw B e hb.2 hw.2.2.2, trivial⟩
  | .vec c e, hb, hw => ⟨dims_raw B e hb.2 hw.2.2.2, trivial⟩
  | .str c, _, _ => ⟨trivial, trivial⟩
  | .comp n fs, hb, hw => by simp only [rawL]; exact dims_rawF B fs _ _ hb.2 hw.2 _ _
  | .ptr n, _, _ => trivial
  | .opaq n, _, _ => trivial
theorem dims_rawF (B : Nat) : ∀ (fs : Fields) (cur n : Nat), BelowF B fs → fs.WF cur n → ∀ cur' n', Dims B (rawLF cur' n' fs)
  | .nil, cur, n, _, _ => fun _ _ => trivial
  | .cons off t r, cur, n, hb, hw => by
    intro cur' n'
    simp only [rawLF, Dims, dims_app]
    exact ⟨dims_raw B t hb.1 hw.2.1, dims_rawF B r _ _ hb.2 hw.2.2 _ _⟩
end

/-- all numbers of an operation tree -/
def Nums (B : Nat) : L → Prop
  | .nil => True
  | .mc n k => n < B ∧ Nums B k
  | .sk n k => n < B ∧ Nums B k
  | .ar n b k => n < B ∧ Nums B b ∧ Nums B k
  | .co _ b k => Nums B b ∧ Nums B k

theorem rep_mem {α : Type} {n : Nat} {l : List α} {x : α} (hn : 0 < n) (h : x ∈ l) : x ∈ rep n l := by
  cases n with
  | zero => omega
  | succ n => rw [rep_succ]; exact List.mem_append_left _ h

theorem nums_of {B : Nat} (hB : 1 < B) {merge : Bool} : ∀ l : L, Dims B l → l.Pos → l.Good merge → l.expand.length < B →
    ContBelow B l.expand → Nums B l
  | .nil, _, _, _, _, _ => trivial
  | .mc n k, hd, hp, hg, hl, hc => by
    simp only [L.expand, List.length_append, List.length_replicate] at hl
    exact ⟨by omega, nums_of hB k hd hp hg (by omega) (fun c h => hc c (List.mem_append_right _ h))⟩
  | .sk n k, hd, hp, hg, hl, hc => by
    simp only [L.expand, List.length_append, List.length_replicate] at hl
    exact ⟨by omega, nums_of hB k hd hp hg (by omega) (fun c h => hc c (List.mem_append_right _ h))⟩
  | .ar n b k, hd, hp, hg, hl, hc => by
    simp only [L.expand, List.length_append, rep_length] at hl
    have h1 := Nat.mul_le_mul_right b.expand.length hp.1
    exact ⟨hd.1, nums_of hB b hd.2.1 hp.2.1 hg.1 (by omega) (fun c h => hc c (List.mem_append_left _ (rep_mem hp.1 h))),
      nums_of hB k hd.2.2 hp.2.2 hg.2 (by omega) (fun c h => hc c (List.mem_append_right _ h))⟩
  | .co c b k, hd, hp, hg, hl, hc => by
    simp only [L.expand, List.length_cons] at hl
    obtain ⟨hb, hw⟩ := hc c (by simp [L.expand])
    obtain ⟨h1, h2⟩ := elemKinds_below hB hb hw
    refine ⟨nums_of hB b hd.1 hp.1 hg.2.1 ?_ ?_, nums_of hB k hd.2 hp.2 hg.2.2 (by omega) (fun c h => hc c (by simp [L.expand, h]))⟩
    · rw [hg.1, List.length_map]; exact h2
    · rw [hg.1]; exact contBelow_mp h1

theorem nums_layL {B : Nat} (hB : 1 < B) (merge rem : Bool) (t : Ty) (hw : t.WF) (hb : Below B t) : Nums B (layL merge rem t) := by
  obtain ⟨k, X, h1, h2⟩ := layL_expand merge rem t hw
  refine nums_of hB _ (dims_sT B merge _ (dims_raw B t hb hw) _ _ _ _) (layL_pos merge rem t hw) (layL_good merge rem t hw) ?_ ?_
  · rw [h2, List.length_map]
    have := kinds_length_le t hw
    have := below_size hb
    have := congrArg List.length h1
    simp only [List.length_append, List.length_replicate] at this
    omega
  · rw [h2]
    apply contBelow_mp
    intro c hc
    exact kinds_below B t hb hw c (by rw [h1]; exact List.mem_append_left _ hc)

theorem long2num_small {v : Nat} (h : v < 2 ^ 63) : long2num v = .int v := by
  unfold long2num; rw [if_pos h]

theorem push_push (a b : List RW) (r : Res (List RW)) : push a (push b r) = push (a ++ b) r := by
  cases r <;> simp [push]

theorem push_append {a : List RW} {r : Res (List RW)} {k : List RW} (h : r = .ok k) : push a r = .ok (a ++ k) := by
  rw [h]; rfl

/-- the array of an operation tree -/
def toR : L → List RW
  | .nil => []
  | .mc n k => .sym .memcpy :: .int n :: toR k
  | .sk n k => .sym .skip :: .int n :: toR k
  | .ar n b k => .sym .array :: .int n :: (toR b ++ .sym .end :: toR k)
  | .co c b k => .sym .container :: .cls c :: (toR b ++ .sym .end :: toR k)

theorem layoutToRuby_end (r : List Word) : layoutToRuby (.n 4 :: r) = push [.sym .end] (layoutToRuby r) := by
  rw [layoutToRuby.eq_def]; rfl

theorem initToRuby_end (r : List Word) : initToRuby 0 (.n 4 :: r) = push [.sym .initEnd] (initToRuby 0 r) := by
  rw [initToRuby.eq_def]; rfl

theorem layoutToRuby_enc (l : L) : Nums (2 ^ 63) l → ∀ rest, layoutToRuby (l.enc ++ rest) = push (toR l) (layoutToRuby rest) := by
  induction l with
  | nil => intro _ rest; simp only [L.enc, List.nil_append, toR]; cases layoutToRuby rest <;> rfl
  | mc n k ih =>
    intro h rest
    simp only [L.enc, List.cons_append, layoutToRuby, FLAG_MEMCPY, if_true, ih h.2, long2num_small h.1, push_push, toR, List.nil_append]
  | sk n k ih =>
    intro h rest
    simp only [L.enc, List.cons_append, layoutToRuby, FLAG_MEMCPY, FLAG_SKIP, show ¬ (3 : Nat) = 0 by decide, if_false, if_true, ih h.2,
      long2num_small h.1, push_push, toR, List.nil_append]
  | ar n b k ihb ihk =>
    intro h rest
    simp only [L.enc, List.cons_append, List.append_assoc, layoutToRuby, FLAG_MEMCPY, FLAG_SKIP, FLAG_ARRAY,
      show ¬ (1 : Nat) = 0 by decide, show ¬ (1 : Nat) = 3 by decide, if_false, if_true, ihb h.2.1, layoutToRuby_end, ihk h.2.2,
      long2num_small h.1, push_push, toR, List.nil_append]
  | co c b k ihb ihk =>
    intro h rest
    simp only [L.enc, List.cons_append, List.append_assoc, layoutToRuby, FLAG_MEMCPY, FLAG_SKIP, FLAG_ARRAY, FLAG_END, FLAG_CONTAINER,
      show ¬ (2 : Nat) = 0 by decide, show ¬ (2 : Nat) = 1 by decide, show ¬ (2 : Nat) = 3 by decide, show ¬ (2 : Nat) = 4 by decide,
      if_false, if_true, ihb h.1, layoutToRuby_end, ihk h.2, push_push, toR, List.nil_append]

theorem reads_toR {merge : Bool} (l : L) (hg : l.Good merge) : Reads merge (toR l) l.expand := by
  induction l with
  | nil => exact .nil
  | mc n k ih => exact .memcpy (ih hg)
  | sk n k ih => exact .skip (ih hg)
  | ar n b k ihb ihk => exact .array (ihb hg.1) (ihk hg.2)
  | co c b k ihb ihk =>
    have hb := ihb hg.2.1
    rw [hg.1] at hb
    exact .container hb (ihk hg.2.2)

/-! initialisation -/

def DimsI (B : Nat) : LI → Prop
  | .nil => True
  | .ini _ k => DimsI B k
  | .sk _ k => DimsI B k
  | .re n b k => n < B ∧ DimsI B b ∧ DimsI B k
  | .co _ k => DimsI B k

theorem dimsI_app (B : Nat) (a b : LI) : DimsI B (a.app b) ↔ DimsI B a ∧ DimsI B b := by
  induction a <;> simp [LI.app, DimsI, *] <;> grind

theorem dimsI_iniF (B : Nat) (d : List UInt8) (k : LI) : DimsI B (iniF d k) ↔ DimsI B k := by
  unfold iniF; split <;> simp [DimsI]
theorem dimsI_skF (B c : Nat) (k : LI) : DimsI B (skF c k) ↔ DimsI B k := by
  unfold skF; split <;> simp [DimsI]

theorem dimsI_sI (B : Nat) (l : LI) (hl : DimsI B l) : ∀ blk cnt dat, DimsI B (sI l blk cnt dat) := by
  induction l with
  | nil =>
    intro blk cnt dat
    simp only [sI]; split
    · simp [DimsI]
    · rw [dimsI_iniF]; trivial
  | ini d k ih => intro blk cnt dat; simp only [sI, dimsI_skF]; exact ih hl ..
  | sk n k ih => intro blk cnt dat; simp only [sI, dimsI_iniF]; exact ih hl ..
  | re n b k ihb ihk =>
    intro blk cnt dat
    simp only [sI]; split
    · rw [dimsI_iniF]; exact ihk hl.2.2 ..
    · rw [dimsI_iniF, dimsI_skF]; exact ⟨hl.1, ihb hl.2.1 .., ihk hl.2.2 ..⟩
  | co c k ih => intro blk cnt dat; simp only [sI, dimsI_iniF, dimsI_skF]; exact ih hl ..

mutual
theorem dimsI_raw (B : Nat) : ∀ t : Ty, Below B t → t.WF → DimsI B (rawI t)
  | .num n, _, _ => trivial
  | .enum n vs, _, _ => by simp only [rawI, iniOr]; split <;> trivial
  | .arr d e, hb, hw => ⟨dim_lt hb hw, dimsI_raw B e hb.2 hw.2.2.2, trivial⟩
  | .vec c e, hb, hw => trivial
  | .str c, _, _ => trivial
  | .comp n fs, hb, hw => by simp only [rawI]; exact dimsI_rawF B fs _ _ hb.2 hw.2 _ _
  | .ptr n, _, _ => trivial
  | .opaq n, _, _ => trivial
theorem dimsI_rawF (B : Nat) : ∀ (fs : Fields) (cur n : Nat), BelowF B fs → fs.WF cur n → ∀ cur' n', DimsI B (rawIF cur' n' fs)
  | .nil, cur, n, _, _ => fun _ _ => trivial
  | .cons off t r, cur, n, hb, hw => by
    intro cur' n'
    simp only [rawIF, DimsI, dimsI_app]
    exact ⟨dimsI_raw B t hb.1 hw.2.1, dimsI_rawF B r _ _ hb.2 hw.2.2 _ _⟩
end

def NumsI (B : Nat) : LI → Prop
  | .nil => True
  | .ini d k => d.length < B ∧ NumsI B k
  | .sk n k => n < B ∧ NumsI B k
  | .re n b k => n < B ∧ NumsI B b ∧ NumsI B k
  | .co _ k => NumsI B k

theorem numsI_of {B : Nat} : ∀ l : LI, DimsI B l → l.Pos → l.expand.length < B → NumsI B l
  | .nil, _, _, _ => trivial
  | .ini d k, hd, hp, hl => by
    simp only [LI.expand, List.length_append, List.length_map] at hl
    exact ⟨by omega, numsI_of k hd hp (by omega)⟩
  | .sk n k, hd, hp, hl => by
    simp only [LI.expand, List.length_append, List.length_replicate] at hl
    exact ⟨by omega, numsI_of k hd hp (by omega)⟩
  | .re n b k, hd, hp, hl => by
    simp only [LI.expand, List.length_append, rep_length] at hl
    have h1 := Nat.mul_le_mul_right b.expand.length hp.1
    exact ⟨hd.1, numsI_of b hd.2.1 hp.2.1 (by omega), numsI_of k hd.2.2 hp.2.2 (by omega)⟩
  | .co c k, hd, hp, hl => by
    simp only [LI.expand, List.length_cons] at hl
    exact numsI_of k hd hp (by omega)

theorem dimsI_strip {B : Nat} {l : LI} (h : DimsI B l) : DimsI B (stripI l) := by
  unfold stripI; split
  · trivial
  · exact h

theorem numsI_layI {B : Nat} (t : Ty) (hw : t.WF) (hb : Below B t) : NumsI B (layI t) := by
  refine numsI_of _ (dimsI_strip (dimsI_sI B _ (dimsI_raw B t hb hw) _ _ _)) (layI_pos t hw) ?_
  obtain ⟨j, hj⟩ := layI_expand t hw
  have h1 := congrArg List.length hj
  rw [ikinds_length] at h1
  have := kinds_length_le t hw
  have := below_size hb
  simp only [List.length_append] at h1
  omega

def toRI : LI → List RW
  | .nil => []
  | .ini d k => .sym .init :: .int d.length :: (d.map (fun b => RW.int b.toNat) ++ toRI k)
  | .sk n k => .sym .initSkip :: .int n :: toRI k
  | .re n b k => .sym .initRepeat :: .int n :: (toRI b ++ .sym .initEnd :: toRI k)
  | .co c k => .sym .initContainer :: .cls c :: toRI k

theorem initToRuby_bytes (d : List UInt8) : ∀ rest, initToRuby d.length (d.map (fun b => Word.n b.toNat) ++ rest) =
    push (d.map (fun b => RW.int b.toNat)) (initToRuby 0 rest) := by
  induction d with
  | nil => intro rest; simp only [List.length_nil, List.map_nil, List.nil_append]; cases initToRuby 0 rest <;> rfl
  | cons b d ih =>
    intro rest
    have hb : b.toNat < 2 ^ 63 := by have := b.toNat_lt; omega
    simp only [List.length_cons, List.map_cons, List.cons_append, initToRuby, ih, long2num_small hb, push_push, List.nil_append]

theorem initToRuby_enc (l : LI) : NumsI (2 ^ 63) l → ∀ rest, initToRuby 0 (l.enc ++ rest) = push (toRI l) (initToRuby 0 rest) := by
  induction l with
  | nil => intro _ rest; simp only [LI.enc, List.nil_append, toRI]; cases initToRuby 0 rest <;> rfl
  | ini d k ih =>
    intro h rest
    simp only [LI.enc, List.cons_append, initToRuby, FLAG_INIT, if_true, List.append_assoc, initToRuby_bytes, ih h.2, long2num_small h.1,
      push_push, toRI, List.nil_append]
  | sk n k ih =>
    intro h rest
    simp only [LI.enc, List.cons_append, initToRuby, FLAG_INIT, FLAG_INIT_SKIP, show ¬ (3 : Nat) = 0 by decide, if_false, if_true, ih h.2,
      long2num_small h.1, push_push, toRI, List.nil_append]
  | re n b k ihb ihk =>
    intro h rest
    simp only [LI.enc, List.cons_append, List.append_assoc, initToRuby, FLAG_INIT, FLAG_INIT_SKIP, FLAG_INIT_REPEAT,
      show ¬ (1 : Nat) = 0 by decide, show ¬ (1 : Nat) = 3 by decide, if_false, if_true, ihb h.2.1, initToRuby_end, ihk h.2.2, long2num_small h.1, push_push, toRI, List.nil_append]
  | co c k ih =>
    intro h rest
    simp only [LI.enc, List.cons_append, initToRuby, FLAG_INIT, FLAG_INIT_SKIP, FLAG_INIT_REPEAT, FLAG_INIT_END, FLAG_INIT_CONTAINER,
      show ¬ (2 : Nat) = 0 by decide, show ¬ (2 : Nat) = 1 by decide, show ¬ (2 : Nat) = 3 by decide, show ¬ (2 : Nat) = 4 by decide,
      if_false, if_true, ih h, push_push, toRI, List.nil_append]

theorem readsInit_toRI (l : LI) : ReadsInit (toRI l) l.expand := by
  induction l with
  | nil => exact .nil
  | ini d k ih => exact .init ih
  | sk n k ih => exact .skip ih
  | re n b k ihb ihk => exact .repeat_ ihb ihk
  | co c k ih => exact .container ih

theorem doMemoryLayout_eq (t : Ty) (ap ao merge rem : Bool) (hw : t.WF) (hl : t.HasLayout ap ao) (hb : Below (2 ^ 63) t) :
    doMemoryLayout t ap ao merge rem = .ok [.arr (toR (layL merge rem t)), .arr (toRI (layI t))] := by
  have h1 := layoutToRuby_enc _ (nums_layL (by decide) merge rem t hw hb) []
  have h2 := initToRuby_enc _ (numsI_layI t hw hb) []
  simp only [List.append_nil] at h1 h2
  unfold doMemoryLayout
  rw [layoutOf_eq ap ao merge rem t hw hl]
  simp only [h1, h2, layoutToRuby, initToRuby, push, List.append_nil]

end Verif.RubyLayout
