import Verif.Value

/-!
Specification of values: what a piece of memory holds, when two values are equal, serialised form.
-/

namespace Verif.Value
open Verif Verif.Layout

/-- Contents of a value, item by item (`kinds`): a byte (data or padding), the elements of a vector (their number and
their contents one after the other), a string. -/
inductive AV where
  | b (x : UInt8)
  | seq (n : Nat) (flat : List AV)
  | s (bytes : List UInt8)

/-- `Abs env K m v`: the memory `m` is a valid sequence of items `K` with contents `v`. A vector object holds a whole
number of valid elements and its capacity is consistent. -/
inductive Abs (env : Env) : List Item → Mem → List AV → Prop where
  | nil : Abs env [] [] []
  | data {K m v x} : Abs env K m v → Abs env (.data :: K) (.byte x :: m) (.b x :: v)
  | pad {K m v x} : Abs env K m v → Abs env (.pad :: K) (.byte x :: m) (.b x :: v)
  | vec {cs e K cap buf n flat m v} : 0 < cs → Abs env (rep n (kinds e)) buf flat → buf.length ≤ cap →
      cap ≤ env.maxAlloc → Abs env K m v →
      Abs env (.cont (.vec cs e) :: K) (.vec cap buf :: (List.replicate (cs - 1) .tail ++ m)) (.seq n flat :: v)
  | str {cs K bytes m v} : 0 < cs → bytes.length ≤ env.maxAlloc → Abs env K m v →
      Abs env (.cont (.str cs) :: K) (.str bytes :: (List.replicate (cs - 1) .tail ++ m)) (.s bytes :: v)

/-- Equality of values of type items `K`: same data bytes, same container contents; padding is ignored. -/
inductive VEq : List Item → List AV → List AV → Prop where
  | nil : VEq [] [] []
  | data {K v w x} : VEq K v w → VEq (.data :: K) (.b x :: v) (.b x :: w)
  | pad {K v w x y} : VEq K v w → VEq (.pad :: K) (.b x :: v) (.b y :: w)
  | vec {cs e K n f g v w} : VEq (rep n (kinds e)) f g → VEq K v w →
      VEq (.cont (.vec cs e) :: K) (.seq n f :: v) (.seq n g :: w)
  | str {cs K s v w} : VEq K v w → VEq (.cont (.str cs) :: K) (.s s :: v) (.s s :: w)

/-- a valid value of a type: the memory is exactly the value -/
def Valid (env : Env) (t : Ty) (m : Mem) (v : List AV) : Prop := Abs env (kinds t) m v

mutual
/-- Serialised form: bytes as they are, a container as its 64-bit little-endian element count followed by its
elements. -/
def AV.enc : AV → List UInt8
  | .b x => [x]
  | .seq n flat => le64 n ++ encL flat
  | .s bytes => le64 bytes.length ++ bytes
def encL : List AV → List UInt8
  | [] => []
  | a :: r => a.enc ++ encL r
end

/-- every container is empty -/
def Clr : List AV → Prop
  | [] => True
  | .b _ :: r => Clr r
  | .seq n flat :: r => n = 0 ∧ flat = [] ∧ Clr r
  | .s bytes :: r => bytes = [] ∧ Clr r

mutual
/-- no container is empty, at any depth -/
def AV.full : AV → Prop
  | .b _ => True
  | .seq n flat => n ≠ 0 ∧ Full flat
  | .s bytes => bytes ≠ []
def Full : List AV → Prop
  | [] => True
  | a :: r => a.full ∧ Full r
end

/-! ### basic lemmas -/

theorem full_append {a b : List AV} : Full (a ++ b) ↔ Full a ∧ Full b := by
  induction a with
  | nil => simp [Full]
  | cons x a ih => simp [Full, ih, and_assoc]

theorem encL_append (a b : List AV) : encL (a ++ b) = encL a ++ encL b := by
  induction a with
  | nil => simp [encL]
  | cons x a ih => simp [encL, ih]

theorem encL_bytes (bs : List UInt8) : encL (bs.map .b) = bs := by
  induction bs with
  | nil => rfl
  | cons x bs ih => simp [encL, AV.enc, ih]

theorem Abs.length {env : Env} {K : List Item} {m : Mem} {v : List AV} (h : Abs env K m v) :
    m.length = itemsSize K ∧ v.length = K.length := by
  induction h with
  | nil => simp [itemsSize]
  | data _ ih => simp [itemsSize, Item.size] at ih ⊢; omega
  | pad _ ih => simp [itemsSize, Item.size] at ih ⊢; omega
  | vec hc _ _ _ _ _ ih => simp [itemsSize, Item.size, Ty.size] at ih ⊢; omega
  | str hc _ _ ih => simp [itemsSize, Item.size, Ty.size] at ih ⊢; omega

theorem Abs.append {env : Env} {K K' : List Item} {m m' : Mem} {v v' : List AV} (h : Abs env K m v)
    (h' : Abs env K' m' v') : Abs env (K ++ K') (m ++ m') (v ++ v') := by
  induction h with
  | nil => exact h'
  | data _ ih => exact .data ih
  | pad _ ih => exact .pad ih
  | vec hc hb hl hm _ _ ih => simpa using Abs.vec hc hb hl hm ih
  | str hc hl _ ih => simpa using Abs.str hc hl ih

theorem Abs.split {env : Env} {K K' : List Item} {m : Mem} {v : List AV} (h : Abs env (K ++ K') m v) :
    ∃ m1 m2 v1 v2, m = m1 ++ m2 ∧ v = v1 ++ v2 ∧ Abs env K m1 v1 ∧ Abs env K' m2 v2 := by
  induction K generalizing m v with
  | nil => exact ⟨[], m, [], v, rfl, rfl, .nil, h⟩
  | cons k K ih =>
    cases h with
    | data h =>
      obtain ⟨m1, m2, v1, v2, rfl, rfl, h1, h2⟩ := ih h
      exact ⟨_, m2, _, v2, rfl, rfl, .data h1, h2⟩
    | pad h =>
      obtain ⟨m1, m2, v1, v2, rfl, rfl, h1, h2⟩ := ih h
      exact ⟨_, m2, _, v2, rfl, rfl, .pad h1, h2⟩
    | vec hc hb hl hm h =>
      obtain ⟨m1, m2, v1, v2, rfl, rfl, h1, h2⟩ := ih h
      exact ⟨_, m2, _, v2, by simp, rfl, .vec hc hb hl hm h1, h2⟩
    | str hc hl h =>
      obtain ⟨m1, m2, v1, v2, rfl, rfl, h1, h2⟩ := ih h
      exact ⟨_, m2, _, v2, by simp, rfl, .str hc hl h1, h2⟩

theorem Abs.bytes {env : Env} {n : Nat} {i : Item} (hi : i = .data ∨ i = .pad) {m : Mem} {v : List AV}
    (h : Abs env (List.replicate n i) m v) :
    ∃ bs : List UInt8, bs.length = n ∧ m = bs.map .byte ∧ v = bs.map .b := by
  induction n generalizing m v with
  | zero => cases h; exact ⟨[], rfl, rfl, rfl⟩
  | succ n ih =>
    rw [List.replicate_succ] at h
    rcases hi with rfl | rfl
    · cases h with
      | data h => obtain ⟨bs, rfl, rfl, rfl⟩ := ih h; exact ⟨_ :: bs, rfl, rfl, rfl⟩
    · cases h with
      | pad h => obtain ⟨bs, rfl, rfl, rfl⟩ := ih h; exact ⟨_ :: bs, rfl, rfl, rfl⟩

theorem Abs.ofBytes (env : Env) {i : Item} (hi : i = .data ∨ i = .pad) (bs : List UInt8) :
    Abs env (List.replicate bs.length i) (bs.map .byte) (bs.map .b) := by
  induction bs with
  | nil => exact .nil
  | cons x bs ih =>
    rcases hi with rfl | rfl
    · exact .data ih
    · exact .pad ih

/-- whether padding is called data does not matter for validity -/
theorem Abs.map_mp {env : Env} {m : Bool} {K : List Item} {mem : Mem} {v : List AV} :
    Abs env (K.map (mp m)) mem v ↔ Abs env K mem v := by
  constructor
  · intro h
    induction K generalizing mem v with
    | nil => exact h
    | cons k K ih =>
      cases k with
      | data => cases h with | data h => exact .data (ih h)
      | pad =>
        cases m
        · cases h with | pad h => exact .pad (ih h)
        · cases h with | data h => exact .pad (ih h)
      | cont c =>
        cases h with
        | vec hc hb hl hm h => exact .vec hc hb hl hm (ih h)
        | str hc hl h => exact .str hc hl (ih h)
  · intro h
    induction h with
    | nil => exact .nil
    | data _ ih => exact .data ih
    | pad _ ih =>
      cases m
      · exact .pad ih
      · exact .data ih
    | vec hc hb hl hm _ _ ih => exact .vec hc hb hl hm ih
    | str hc hl _ ih => exact .str hc hl ih

theorem VEq.refl_of_abs {env : Env} {K : List Item} {m : Mem} {v : List AV} (h : Abs env K m v) : VEq K v v := by
  induction h with
  | nil => exact .nil
  | data _ ih => exact .data ih
  | pad _ ih => exact .pad ih
  | vec _ _ _ _ _ ih1 ih2 => exact .vec ih1 ih2
  | str _ _ _ ih => exact .str ih

theorem VEq.symm {K : List Item} {v w : List AV} (h : VEq K v w) : VEq K w v := by
  induction h with
  | nil => exact .nil
  | data _ ih => exact .data ih
  | pad _ ih => exact .pad ih
  | vec _ _ ih1 ih2 => exact .vec ih1 ih2
  | str _ ih => exact .str ih

theorem VEq.trans {K : List Item} {u v w : List AV} (h : VEq K u v) (h' : VEq K v w) : VEq K u w := by
  induction h generalizing w with
  | nil => exact h'
  | data _ ih => cases h' with | data h' => exact .data (ih h')
  | pad _ ih => cases h' with | pad h' => exact .pad (ih h')
  | vec _ _ ih1 ih2 => cases h' with | vec h1 h2 => exact .vec (ih1 h1) (ih2 h2)
  | str _ ih => cases h' with | str h' => exact .str (ih h')

theorem VEq.length {K : List Item} {v w : List AV} (h : VEq K v w) : v.length = K.length ∧ w.length = K.length := by
  induction h with
  | nil => simp
  | data _ ih => simpa using ih
  | pad _ ih => simpa using ih
  | vec _ _ _ ih => simpa using ih
  | str _ ih => simpa using ih

theorem VEq.append {K K' : List Item} {v w v' w' : List AV} (h : VEq K v w) (h' : VEq K' v' w') :
    VEq (K ++ K') (v ++ v') (w ++ w') := by
  induction h with
  | nil => exact h'
  | data _ ih => exact .data ih
  | pad _ ih => exact .pad ih
  | vec h1 _ _ ih => exact .vec h1 ih
  | str _ ih => exact .str ih

theorem VEq.split {K K' : List Item} {v w v' w' : List AV} (h : VEq (K ++ K') (v ++ v') (w ++ w'))
    (hv : v.length = K.length) (hw : w.length = K.length) : VEq K v w ∧ VEq K' v' w' := by
  induction K generalizing v w with
  | nil =>
    have := List.length_eq_zero_iff.mp hv; subst this
    have := List.length_eq_zero_iff.mp hw; subst this
    exact ⟨.nil, h⟩
  | cons k K ih =>
    cases v with
    | nil => simp at hv
    | cons a v =>
      cases w with
      | nil => simp at hw
      | cons b w =>
        simp only [List.length_cons, Nat.add_right_cancel_iff] at hv hw
        cases h with
        | data h => obtain ⟨h1, h2⟩ := ih h hv hw; exact ⟨.data h1, h2⟩
        | pad h => obtain ⟨h1, h2⟩ := ih h hv hw; exact ⟨.pad h1, h2⟩
        | vec h0 h => obtain ⟨h1, h2⟩ := ih h hv hw; exact ⟨.vec h0 h1, h2⟩
        | str h => obtain ⟨h1, h2⟩ := ih h hv hw; exact ⟨.str h1, h2⟩

theorem VEq.bytes_pad (x y : List UInt8) (h : x.length = y.length) :
    VEq (List.replicate x.length .pad) (x.map .b) (y.map .b) := by
  induction x generalizing y with
  | nil => cases y <;> simp_all; exact .nil
  | cons a x ih =>
    cases y with
    | nil => simp at h
    | cons b y => exact .pad (ih y (by simpa using h))

theorem VEq.bytes_data {x y : List UInt8} {n : Nat} (hx : x.length = n) (hy : y.length = n) :
    VEq (List.replicate n .data) (x.map .b) (y.map .b) ↔ x = y := by
  constructor
  · intro h
    induction n generalizing x y with
    | zero => rw [List.length_eq_zero_iff.mp hx, List.length_eq_zero_iff.mp hy]
    | succ n ih =>
      cases x with
      | nil => simp at hx
      | cons a x =>
        cases y with
        | nil => simp at hy
        | cons b y =>
          rw [List.replicate_succ] at h
          cases h with
          | data h => rw [ih (by simpa using hx) (by simpa using hy) h]
  · rintro rfl
    induction n generalizing x with
    | zero => rw [List.length_eq_zero_iff.mp hx]; exact .nil
    | succ n ih =>
      cases x with
      | nil => simp at hx
      | cons a x => exact .data (ih (by simpa using hx) (by simpa using hx))

/-- containers in `VEq` do not depend on whether padding counts -/
theorem VEq.of_map_mp {m : Bool} {K : List Item} {v w : List AV} (h : VEq (K.map (mp m)) v w) : VEq K v w := by
  induction K generalizing v w with
  | nil => exact h
  | cons k K ih =>
    cases k with
    | data => cases h with | data h => exact .data (ih h)
    | pad =>
      cases m
      · cases h with | pad h => exact .pad (ih h)
      · cases h with | data h => exact .pad (ih h)
    | cont c =>
      cases h with
      | vec h0 h => exact .vec h0 (ih h)
      | str h => exact .str (ih h)

theorem clr_append {a b : List AV} : Clr (a ++ b) ↔ Clr a ∧ Clr b := by
  induction a with
  | nil => simp [Clr]
  | cons x a ih => cases x <;> simp [Clr, ih] <;> grind

theorem clr_bytes (bs : List UInt8) : Clr (bs.map .b) := by
  induction bs with
  | nil => trivial
  | cons x bs ih => exact ih

theorem VEq.clr {K : List Item} {v w : List AV} (h : VEq K v w) (hc : Clr v) : Clr w := by
  induction h with
  | nil => trivial
  | data _ ih => exact ih hc
  | pad _ ih => exact ih hc
  | vec h1 _ ih1 ih =>
    obtain ⟨rfl, rfl, hc⟩ := hc
    cases h1
    exact ⟨rfl, rfl, ih hc⟩
  | str _ ih => exact ⟨hc.1, ih hc.2⟩

end Verif.Value
