import Verif.RubyConvert

/-!
C53: conversions between Ruby strings and `char` arrays (bindings/ruby/ext/strings.cc, RubySetter::visit_ of arrays in
bindings/ruby/ext/convert.cc:98-112; used by lib/typelib/standard_convertions.rb:79-119).
-/

namespace Verif.RubyConvert
open Verif Verif.Graph
open Verif.Value (leVal)

/-! ### Model -/

/-- what `strncpy(dst, src, n)` leaves in `dst`: `src` up to `n` bytes, then NUL bytes -/
def strncpyBytes (src : List UInt8) (n : Nat) : List UInt8 := src.take n ++ List.replicate (n - src.length) 0

/-- `strncpy(dst, src, n)`. No object has more than 2^63 - 1 bytes: writing more is out of every object. -/
def strncpy (m : Mem) (dst : Nat) (src : List UInt8) (n : Nat) : Mem × Res Unit :=
  if 9223372036854775808 ≤ n then (m, .ub) else (store m dst (strncpyBytes src n), .ok ())

/-- `std::string::npos` -/
def npos : Nat := W - 1

/-- the end of `value_from_string` (strings.cc:64-72), once `string_buffer_get` has given `buffer` and `buffer_size`.
`StringValueCStr` raises `ArgumentError` on a string with a NUL byte. -/
def fromBuffer (m : Mem) (buffer size : Nat) (s : List UInt8) : Mem × Res Unit :=
  if wsub size 1 < s.length then (m, .exn .rbArg)
  else if 0 ∈ s then (m, .exn .rbArg)
  else
    match strncpy m buffer s size with
    | (m1, .ok ()) => (store m1 (wadd buffer (wsub size 1)) [0], .ok ())
    | r => r

/-- `value_from_string` (strings.cc:53-73) on an array of `dim` characters (`string_buffer_get`, strings.cc:28-33) -/
def fromString (dim : Nat) (m : Mem) (a : Nat) (s : List UInt8) : Mem × Res Unit := fromBuffer m a dim s

/-- `value_from_string` on a pointer, with `known_good_type` (as standard_convertions.rb:100-104 calls it): the buffer is what
the pointer points to, and its size is `npos` (strings.cc:34-38) -/
def fromStringPtr (m : Mem) (a : Nat) (s : List UInt8) : Mem × Res Unit := fromBuffer m (leVal (load m a 8)) npos s

/-- the loop of `value_to_string` (strings.cc:94-99): the index of the first NUL byte from `i`, at most `size` -/
def realSize (m : Mem) (a size : Nat) : Nat → Nat → Nat
  | 0, i => i
  | f + 1, i => if i < size then if m (a + i) = 0 then i else realSize m a size f (i + 1) else i

/-- `value_to_string` (strings.cc:79-101) on an array of `dim` characters -/
def toString (dim : Nat) (m : Mem) (a : Nat) : List UInt8 := load m a (realSize m a dim dim 0)

/-- `RubySetter::visit_(Value const&, Array const&)` (convert.cc:98-112) for an array of `dim` elements, `isChar` telling if the
element type is `/char`; `typelib_from_ruby` turns `UnsupportedType` into `TypeError` (convert.cc:186-196). `StringValuePtr` of
what is not a string is a `TypeError`. -/
def setArray (isChar : Bool) (dim : Nat) (m : Mem) (a : Nat) (v : RVal) : Mem × Res Unit :=
  if isChar then
    match v with
    | .str s =>
      if (s.takeWhile (· ≠ 0)).length < dim then (store m a (s.takeWhile (· ≠ 0) ++ [0]), .ok ()) else (m, .exn .rbType)
    | _ => (m, .exn .rbType)
  else (m, .exn .rbType)

/-! ### Specification -/

/-- the array of `dim` characters at `a` holds the C string `s`: its bytes, none of which is NUL, then a NUL byte or the end of
the array -/
def HoldsStr (dim : Nat) (m : Mem) (a : Nat) (s : List UInt8) : Prop :=
  s.length ≤ dim ∧ (∀ i (h : i < s.length), m (a + i) = s[i] ∧ s[i] ≠ 0) ∧ (s.length < dim → m (a + s.length) = 0)

/-! ### Lemmas -/

theorem load_eq (m : Mem) : ∀ (k a i : Nat) (h : i < (load m a k).length), (load m a k)[i] = m (a + i) := by
  intro k
  induction k with
  | zero => intro a i h; simp [load] at h
  | succ k ih =>
    intro a i h
    cases i with
    | zero => simp [load]
    | succ i =>
      simp only [load, List.getElem_cons_succ]
      rw [ih]
      congr 1
      omega

theorem realSize_spec (m : Mem) (a size : Nat) : ∀ (f i : Nat), i ≤ size → size ≤ i + f → (∀ j, j < i → m (a + j) ≠ 0) →
    i ≤ realSize m a size f i ∧ realSize m a size f i ≤ size ∧ (∀ j, j < realSize m a size f i → m (a + j) ≠ 0) ∧
      (realSize m a size f i < size → m (a + realSize m a size f i) = 0) := by
  intro f
  induction f with
  | zero => intro i h1 h2 h3; exact ⟨Nat.le_refl _, h1, h3, fun h => by simp only [realSize] at h; omega⟩
  | succ f ih =>
    intro i h1 h2 h3
    rw [realSize]
    split
    · rename_i hlt
      split
      · rename_i h0
        exact ⟨Nat.le_refl _, h1, h3, fun _ => h0⟩
      · rename_i h0
        obtain ⟨b1, b2, b3, b4⟩ := ih (i + 1) (by omega) (by omega) (by
          intro j hj
          by_cases e : j = i
          · subst e; exact h0
          · exact h3 j (by omega))
        exact ⟨by omega, b2, b3, b4⟩
    · exact ⟨Nat.le_refl _, h1, h3, fun h => by omega⟩

theorem holdsStr_unique {dim : Nat} {m : Mem} {a : Nat} {s s' : List UInt8} (h : HoldsStr dim m a s) (h' : HoldsStr dim m a s') :
    s = s' := by
  have key : ∀ {s s' : List UInt8}, HoldsStr dim m a s → HoldsStr dim m a s' → s.length ≤ s'.length := by
    intro s s' h h'
    refine Nat.le_of_not_lt fun hlt => ?_
    have h0 := h'.2.2 (by have := h.1; omega)
    exact (h.2.1 s'.length hlt).2 ((h.2.1 s'.length hlt).1 ▸ h0)
  have hl : s.length = s'.length := Nat.le_antisymm (key h h') (key h' h)
  refine List.ext_getElem hl fun i h1 h2 => ?_
  rw [← (h.2.1 i h1).1, ← (h'.2.1 i h2).1]

theorem takeWhile_nonzero (s : List UInt8) : ∀ b ∈ s.takeWhile (· ≠ 0), b ≠ 0 := by
  intro b hb
  induction s with
  | nil => simp at hb
  | cons x s ih =>
    rw [List.takeWhile_cons] at hb
    split at hb
    · rename_i h
      rcases List.mem_cons.mp hb with rfl | hb
      · simpa using h
      · exact ih hb
    · simp at hb

/-! ### C53 -/

/-- **C53, reading**: the Ruby string is the C string that the array holds; there is always exactly one. -/
theorem C53_to_string (dim : Nat) (m : Mem) (a : Nat) :
    HoldsStr dim m a (toString dim m a) ∧ ∀ s, HoldsStr dim m a s → toString dim m a = s := by
  have h : HoldsStr dim m a (toString dim m a) := by
    obtain ⟨_, b2, b3, b4⟩ := realSize_spec m a dim dim 0 (Nat.zero_le _) (by omega) (by intro j hj; omega)
    unfold toString
    refine ⟨by rw [load_length]; exact b2, fun i hi => ?_, by rw [load_length]; exact b4⟩
    rw [load_eq]
    refine ⟨rfl, b3 i ?_⟩
    rwa [load_length] at hi
  exact ⟨h, fun s hs => holdsStr_unique h hs⟩

/-- **C53, from_string**: a Ruby string is accepted exactly if it has no NUL byte and leaves room for the terminator. The array
then holds that string, all its other bytes are NUL, nothing out of the array is changed, and reading it back gives the
string. Otherwise it is an `ArgumentError`, and nothing is changed. -/
theorem C53_from_string (dim : Nat) (hd : 0 < dim) (hd' : dim < 9223372036854775808) (m : Mem) (a : Nat)
    (ha : a + dim ≤ W) (s : List UInt8) :
    (s.length < dim ∧ (0 : UInt8) ∉ s → ∃ m', fromString dim m a s = (m', .ok ()) ∧ HoldsStr dim m' a s ∧
      (∀ i, s.length ≤ i → i < dim → m' (a + i) = 0) ∧ SameOutside a dim m m' ∧ toString dim m' a = s) ∧
    (¬ (s.length < dim ∧ (0 : UInt8) ∉ s) → fromString dim m a s = (m, .exn .rbArg)) := by
  have hw : wsub dim 1 = dim - 1 := by unfold wsub W; omega
  constructor
  · rintro ⟨h1, h2⟩
    have hlen : (strncpyBytes s dim).length = dim := by
      unfold strncpyBytes
      rw [List.length_append, List.length_take, List.length_replicate]
      omega
    have hget : ∀ i, i < dim → (strncpyBytes s dim).getD i 0 = s.getD i 0 := by
      intro i hi
      unfold strncpyBytes
      rw [List.take_of_length_le (Nat.le_of_lt h1)]
      simp only [List.getD_eq_getElem?_getD]
      by_cases hs : i < s.length
      · rw [List.getElem?_append_left hs]
      · rw [List.getElem?_append_right (by omega), List.getElem?_eq_none (l := s) (by omega)]
        rw [List.getElem?_replicate]
        split <;> rfl
    have hwa : wadd a (dim - 1) = a + (dim - 1) := by
      unfold wadd
      exact Nat.mod_eq_of_lt (by omega)
    obtain ⟨m', hm'⟩ : ∃ m', m' = store (store m a (strncpyBytes s dim)) (a + (dim - 1)) [0] := ⟨_, rfl⟩
    have hcall : fromString dim m a s = (m', .ok ()) := by
      unfold fromString fromBuffer strncpy
      rw [hw, if_neg (by omega), if_neg h2, if_neg (by omega), hwa, hm']
    have hin : ∀ i, i < dim → m' (a + i) = s.getD i 0 := by
      intro i hi
      rw [hm']
      unfold store
      rw [hlen]
      simp only [List.length_singleton]
      by_cases e : i = dim - 1
      · rw [if_pos (by omega)]
        subst e
        rw [List.getD_eq_getElem?_getD, List.getD_eq_getElem?_getD, List.getElem?_eq_none (l := s) (by omega)]
        rw [show a + (dim - 1) - (a + (dim - 1)) = 0 by omega]
        rfl
      · rw [if_neg (by omega), if_pos (by omega), Nat.add_sub_cancel_left]
        exact hget i hi
    have hholds : HoldsStr dim m' a s := by
      refine ⟨Nat.le_of_lt h1, fun i hi => ⟨?_, fun e => h2 (e ▸ List.getElem_mem hi)⟩, fun hlt => ?_⟩
      · rw [hin i (by omega), List.getD_eq_getElem?_getD, List.getElem?_eq_getElem hi]; rfl
      · rw [hin _ hlt, List.getD_eq_getElem?_getD, List.getElem?_eq_none (Nat.le_refl _)]; rfl
    refine ⟨m', hcall, hholds, fun i hi hlt => ?_, ?_, (C53_to_string dim m' a).2 s hholds⟩
    · rw [hin i hlt, List.getD_eq_getElem?_getD, List.getElem?_eq_none hi]; rfl
    · intro x hx
      rw [hm']
      unfold store
      rw [hlen]
      simp only [List.length_singleton]
      rw [if_neg (by omega), if_neg hx]
  · intro h
    unfold fromString fromBuffer
    rw [hw]
    by_cases h1 : dim - 1 < s.length
    · rw [if_pos h1]
    · rw [if_neg h1, if_pos]
      exact Classical.byContradiction fun h2 => h ⟨by omega, h2⟩

/-- **C53 fails for empty arrays**: converting a string to an array of no character writes a NUL byte before the array. -/
theorem C53_zero_dim_counterexample (m : Mem) (a : Nat) (ha : 0 < a) (ha' : a ≤ W) (s : List UInt8) (hs : (0 : UInt8) ∉ s)
    (hl : s.length < W) :
    (fromString 0 m a s).2 = .ok () ∧ (fromString 0 m a s).1 (a - 1) = 0 := by
  have hw : wsub 0 1 = W - 1 := by decide
  have hwa : wadd a (W - 1) = a - 1 := by
    unfold wadd
    rw [show a + (W - 1) = (a - 1) + W by unfold W at *; omega, Nat.add_mod_right]
    exact Nat.mod_eq_of_lt (by omega)
  unfold fromString fromBuffer strncpy
  rw [hw, if_neg (by omega), if_neg hs, if_neg (by decide), hwa]
  refine ⟨rfl, ?_⟩
  unfold store
  simp only [List.length_singleton]
  rw [if_pos (by omega)]
  rw [Nat.sub_self]
  rfl

/-- **C53 fails for pointers**: converting a string to a `char*` writes 2^64 - 1 bytes. -/
theorem C53_pointer_counterexample (m : Mem) (a : Nat) (s : List UInt8) (hs : (0 : UInt8) ∉ s) (hl : s.length < W - 2) :
    (fromStringPtr m a s).2 = .ub := by
  have hw : wsub npos 1 = W - 2 := by decide
  have hn : 9223372036854775808 ≤ npos := by decide
  unfold fromStringPtr fromBuffer strncpy
  rw [hw, if_neg (by omega), if_neg hs, if_pos hn]

/-- **C53, assigning a string to a field**: the part of the string before its first NUL byte is what the array holds
afterwards, if there is room for it and its terminator; nothing after the terminator is changed. Otherwise, and for anything
but a string or a `/char` array, it is a `TypeError`, and nothing is changed. -/
theorem C53_set (isChar : Bool) (dim : Nat) (m : Mem) (a : Nat) (v : RVal) :
    (∀ s, v = .str s → isChar = true → (s.takeWhile (· ≠ 0)).length < dim →
      ∃ m', setArray isChar dim m a v = (m', .ok ()) ∧ HoldsStr dim m' a (s.takeWhile (· ≠ 0)) ∧
        toString dim m' a = s.takeWhile (· ≠ 0) ∧ SameOutside a ((s.takeWhile (· ≠ 0)).length + 1) m m') ∧
    ((¬ ∃ s, v = .str s ∧ isChar = true ∧ (s.takeWhile (· ≠ 0)).length < dim) →
      setArray isChar dim m a v = (m, .exn .rbType)) := by
  constructor
  · rintro s rfl rfl hl
    have hnz := takeWhile_nonzero s
    have hcall : setArray true dim m a (.str s) = (store m a (s.takeWhile (· ≠ 0) ++ [0]), .ok ()) := by
      unfold setArray
      rw [if_pos rfl]
      dsimp only
      rw [if_pos hl]
    generalize s.takeWhile (· ≠ 0) = c at hl hnz hcall ⊢
    have hin : ∀ i, i ≤ c.length → store m a (c ++ [0]) (a + i) = c.getD i 0 := by
      intro i hi
      unfold store
      rw [if_pos (by rw [List.length_append, List.length_singleton]; omega), Nat.add_sub_cancel_left]
      simp only [List.getD_eq_getElem?_getD]
      by_cases e : i < c.length
      · rw [List.getElem?_append_left e]
      · rw [List.getElem?_append_right (by omega), List.getElem?_eq_none (l := c) (by omega)]
        rw [show i - c.length = 0 by omega]
        rfl
    have hholds : HoldsStr dim (store m a (c ++ [0])) a c := by
      refine ⟨Nat.le_of_lt hl, fun i hi => ⟨?_, hnz _ (List.getElem_mem hi)⟩, fun _ => ?_⟩
      · rw [hin i (by omega), List.getD_eq_getElem?_getD, List.getElem?_eq_getElem hi]; rfl
      · rw [hin _ (Nat.le_refl _), List.getD_eq_getElem?_getD, List.getElem?_eq_none (Nat.le_refl _)]; rfl
    refine ⟨_, hcall, hholds, (C53_to_string dim _ a).2 c hholds, ?_⟩
    intro x hx
    unfold store
    rw [if_neg (by rw [List.length_append, List.length_singleton]; omega)]
  · intro h
    unfold setArray
    cases isChar with
    | false => rfl
    | true =>
      rw [if_pos rfl]
      cases v with
      | str s =>
        dsimp only
        rw [if_neg (fun hl => h ⟨s, rfl, rfl, hl⟩)]
      | _ => rfl

/-! ### Examples -/

example : ∃ m', fromString 4 (fun _ => 7) 100 [97, 98] = (m', .ok ()) ∧ load m' 99 6 = [7, 97, 98, 0, 0, 7] :=
  ⟨_, rfl, by decide +kernel⟩
example : toString 4 (fun x => if x < 102 then 97 else 0) 100 = [97, 97] := by decide +kernel
example : fromString 2 (fun _ => 7) 100 [97, 98] = (fun _ => 7, .exn .rbArg) := by
  exact (C53_from_string 2 (by decide) (by decide) (fun _ => 7) 100 (by decide) [97, 98]).2 (by decide)
example : ∃ m', setArray true 4 (fun _ => 7) 100 (.str [97, 0, 98]) = (m', .ok ()) ∧ load m' 100 4 = [97, 0, 7, 7] :=
  ⟨_, rfl, by decide +kernel⟩

end Verif.RubyConvert
