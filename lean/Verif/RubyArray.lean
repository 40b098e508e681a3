import Verif.RubyConvert

/-!
C54: access to the elements of arrays from Ruby (bindings/ruby/ext/specialized_types.cc:215-311,
bindings/ruby/lib/typelib/array_type.rb:78-86, 141-177).
-/

namespace Verif.RubyArray
open Verif Verif.RubyConvert

/-! ### Model -/

/-- an array value: number of elements, size of an element, address of the first one -/
structure Arr where
  dim : Nat
  esz : Nat
  base : Nat

/-- `size_t x = NUM2INT(v)`: a negative number wraps -/
def toSize (z : Int) : Nat := (z % 18446744073709551616).toNat

/-- what `array_get` makes a Ruby object of: the array itself, one address, or a list of them -/
inductive Got where
  | self
  | one (addr : Nat)
  | many (addrs : List Nat)
  deriving DecidableEq, Repr

/-- the loop of `array_get` (specialized_types.cc:265-271): `for (i = index; i < stop; ++i)`; at most `fuel` turns -/
def sliceLoop (A : Arr) (stop : Nat) : Nat → Nat → List Nat
  | 0, _ => []
  | f + 1, i => if i < stop then (A.base + A.esz * i) :: sliceLoop A stop f (i + 1) else []

/-- `array_get` (specialized_types.cc:239-277), called `do_get` in Ruby, with one or two arguments -/
def arrayGet (A : Arr) (index : Int) (len : Option Int) : Res Got :=
  if A.dim = 0 then .ok .self
  else
    num2int index >>= fun i =>
    if A.dim ≤ toSize i then .exn .rbIndex
    else
      match len with
      | none => .ok (.one (A.base + A.esz * toSize i))
      | some l =>
        num2int l >>= fun l =>
        if A.dim < wadd (toSize i) (toSize l) then .exn .rbIndex
        else .ok (.many (sliceLoop A (wadd (toSize i) (toSize l)) A.dim (toSize i)))

/-- `array_element` (specialized_types.cc:215-231): where `array_set` writes -/
def arrayElement (A : Arr) (index : Int) : Res Nat :=
  num2int index >>= fun i =>
  if A.dim ≤ toSize i then .exn .rbIndex else .ok (A.base + A.esz * toSize i)

/-- `array_do_each` (specialized_types.cc:297-313) -/
def arrayEach (A : Arr) : List Nat := (List.range A.dim).map fun i => A.base + A.esz * i

/-- a Ruby object that `do_get` returns: each call makes a new one (`id`) -/
structure Wrapper where
  id : Nat
  got : Got
  deriving DecidableEq, Repr

/-- the Ruby `ArrayType` object: `@elements` (missing elements are nil), and the number of wrappers made so far -/
structure St where
  A : Arr
  elements : List (Option Wrapper)
  made : Nat

/-- `@elements[index]` of a Ruby `Array`: a negative index counts from the end -/
def rubyAt (l : List (Option Wrapper)) (i : Int) : Option Wrapper :=
  if 0 ≤ i then (l[i.toNat]?).join
  else if -i ≤ l.length then (l[(l.length + i).toNat]?).join
  else none

/-- `@elements[index] = v` of a Ruby `Array`: it is extended with nil as needed; a negative index before the beginning is an
`IndexError` -/
def rubyPut (l : List (Option Wrapper)) (i : Int) (v : Wrapper) : Option (List (Option Wrapper)) :=
  if 0 ≤ i then some ((l ++ List.replicate (i.toNat + 1 - l.length) none).set i.toNat (some v))
  else if -i ≤ l.length then some (l.set (l.length + i).toNat (some v))
  else none

/-- `ArrayType#raw_get` (array_type.rb:149-151): `@elements[index] ||= do_get(index)` -/
def rawGet (s : St) (i : Int) : St × Res Wrapper :=
  match rubyAt s.elements i with
  | some w => (s, .ok w)
  | none =>
    match arrayGet s.A i none with
    | .ok g =>
      match rubyPut s.elements i ⟨s.made, g⟩ with
      | some l => ({ s with elements := l, made := s.made + 1 }, .ok ⟨s.made, g⟩)
      | none => ({ s with made := s.made + 1 }, .exn .rbIndex)
    | .exn e => (s, .exn e)
    | .ub => (s, .ub)
    | .fuel => (s, .fuel)

/-- a new `ArrayType` object (array_type.rb:41-45) -/
def St.start (A : Arr) : St := ⟨A, [], 0⟩

/-- a history of accesses; the caller goes on after an exception -/
def run (s : St) : List Int → St
  | [] => s
  | i :: is => run (rawGet s i).1 is

/-! ### Specification -/

/-- the address of an element of the array -/
def IsElement (A : Arr) (addr : Nat) : Prop := ∃ i, i < A.dim ∧ addr = A.base + A.esz * i

/-! ### Lemmas -/

theorem toSize_nonneg {z : Int} (h : 0 ≤ z) (h' : z < 2147483648) : toSize z = z.toNat := by unfold toSize; omega

theorem toSize_neg {z : Int} (h : z < 0) (h' : -2147483648 ≤ z) : toSize z = (18446744073709551616 + z).toNat := by
  unfold toSize; omega

theorem num2int_ok {z y : Int} (h : num2int z = .ok y) : y = z ∧ -2147483648 ≤ z ∧ z < 2147483648 := by
  unfold num2int at h
  split at h
  · rename_i hz
    cases h
    exact ⟨rfl, hz⟩
  · cases h

theorem sliceLoop_spec (A : Arr) (stop : Nat) : ∀ (f i : Nat), stop ≤ i + f →
    sliceLoop A stop f i = (List.range (stop - i)).map fun k => A.base + A.esz * (i + k) := by
  intro f
  induction f with
  | zero =>
    intro i h
    rw [show stop - i = 0 by omega]
    rfl
  | succ f ih =>
    intro i h
    rw [sliceLoop]
    split
    · rename_i hlt
      rw [ih (i + 1) (by omega), show stop - i = (stop - (i + 1)) + 1 by omega, List.range_succ_eq_map, List.map_cons, List.map_map]
      congr 1
      refine List.map_congr_left fun k _ => ?_
      show A.base + A.esz * (i + 1 + k) = A.base + A.esz * (i + (k + 1))
      rw [show i + 1 + k = i + (k + 1) by omega]
    · rw [show stop - i = 0 by omega]
      rfl

/-! ### C54 -/

/-- **C54, one element** (`do_get(i)`, and `do_set(i, v)`): an index in the array gives the address of that element; any other
integer is an error. -/
theorem C54_element (A : Arr) (hd : 0 < A.dim) (hd' : A.dim < 9223372036854775808) (i : Int) :
    (0 ≤ i ∧ i < A.dim ∧ i < 2147483648 →
      arrayGet A i none = .ok (.one (A.base + A.esz * i.toNat)) ∧ arrayElement A i = .ok (A.base + A.esz * i.toNat)) ∧
    (¬ (0 ≤ i ∧ i < A.dim) →
      (∃ e, arrayGet A i none = .exn e ∧ (e = .rbIndex ∨ e = .rbRange)) ∧
      ∃ e, arrayElement A i = .exn e ∧ (e = .rbIndex ∨ e = .rbRange)) := by
  unfold arrayGet arrayElement
  rw [if_neg (by omega)]
  constructor
  · rintro ⟨h1, h2, h3⟩
    have hn : num2int i = .ok i := by unfold num2int; rw [if_pos (by omega)]
    rw [hn, Res.bind_ok, Res.bind_ok, toSize_nonneg h1 h3, if_neg (by omega), if_neg (by omega)]
    exact ⟨rfl, rfl⟩
  · intro h
    by_cases hr : -2147483648 ≤ i ∧ i < 2147483648
    · have hn : num2int i = .ok i := by unfold num2int; rw [if_pos hr]
      have hs : A.dim ≤ toSize i := by
        by_cases h0 : 0 ≤ i
        · rw [toSize_nonneg h0 hr.2]; omega
        · rw [toSize_neg (by omega) hr.1]; omega
      rw [hn, Res.bind_ok, Res.bind_ok, if_pos hs, if_pos hs]
      exact ⟨⟨_, rfl, .inl rfl⟩, _, rfl, .inl rfl⟩
    · have hn : num2int i = .exn .rbRange := by unfold num2int; rw [if_neg hr]
      rw [hn]
      exact ⟨⟨_, rfl, .inr rfl⟩, _, rfl, .inr rfl⟩

/-- **C54, a slice** (`do_get(i, n)`): the elements `i` to `i + n - 1`, in order; it is an error if one of them is not in the
array. -/
theorem C54_slice (A : Arr) (hd : 0 < A.dim) (hd' : A.dim < 9223372036854775808) (i n : Int) (hn : 0 ≤ n) :
    (0 ≤ i ∧ i < A.dim ∧ i + n ≤ A.dim ∧ i < 2147483648 ∧ n < 2147483648 →
      arrayGet A i (some n) = .ok (.many ((List.range n.toNat).map fun k => A.base + A.esz * (i.toNat + k)))) ∧
    (¬ (0 ≤ i ∧ i < A.dim ∧ i + n ≤ A.dim) → ∃ e, arrayGet A i (some n) = .exn e ∧ (e = .rbIndex ∨ e = .rbRange)) := by
  unfold arrayGet
  rw [if_neg (by omega)]
  constructor
  · rintro ⟨h1, h2, h3, h4, h5⟩
    have e1 : num2int i = .ok i := by unfold num2int; rw [if_pos (by omega)]
    have e2 : num2int n = .ok n := by unfold num2int; rw [if_pos (by omega)]
    have e3 : wadd i.toNat n.toNat = i.toNat + n.toNat := Nat.mod_eq_of_lt (by unfold W; omega)
    rw [e1, Res.bind_ok, toSize_nonneg h1 h4, if_neg (by omega)]
    dsimp only
    rw [e2, Res.bind_ok, toSize_nonneg hn h5, e3, if_neg (by omega), sliceLoop_spec A _ _ _ (by omega), Nat.add_sub_cancel_left]
  · intro h
    by_cases hr : -2147483648 ≤ i ∧ i < 2147483648
    · have e1 : num2int i = .ok i := by unfold num2int; rw [if_pos hr]
      rw [e1, Res.bind_ok]
      by_cases h0 : 0 ≤ i ∧ i < A.dim
      · rw [toSize_nonneg h0.1 hr.2, if_neg (by omega)]
        dsimp only
        by_cases hn' : n < 2147483648
        · have e2 : num2int n = .ok n := by unfold num2int; rw [if_pos (by omega)]
          have e3 : wadd i.toNat n.toNat = i.toNat + n.toNat := Nat.mod_eq_of_lt (by unfold W; omega)
          rw [e2, Res.bind_ok, toSize_nonneg hn hn', e3, if_pos (by omega)]
          exact ⟨_, rfl, .inl rfl⟩
        · have e2 : num2int n = .exn .rbRange := by unfold num2int; rw [if_neg (by omega)]
          rw [e2]
          exact ⟨_, rfl, .inr rfl⟩
      · have hs : A.dim ≤ toSize i := by
          by_cases hi : 0 ≤ i
          · rw [toSize_nonneg hi hr.2]; omega
          · rw [toSize_neg (by omega) hr.1]; omega
        rw [if_pos hs]
        exact ⟨_, rfl, .inl rfl⟩
    · have e1 : num2int i = .exn .rbRange := by unfold num2int; rw [if_neg hr]
      rw [e1]
      exact ⟨_, rfl, .inr rfl⟩

/-- **C54, no access out of the array**: whatever the two integers, also negative ones, every address handed out is that of an
element. -/
theorem C54_in_bounds (A : Arr) (hd' : A.dim < 9223372036854775808) (i : Int) (n : Option Int) (g : Got)
    (h : arrayGet A i n = .ok g) :
    match g with
    | .self => A.dim = 0
    | .one x => IsElement A x
    | .many xs => ∀ x ∈ xs, IsElement A x := by
  unfold arrayGet at h
  split at h
  · rename_i h0; cases h; exact h0
  · obtain ⟨i', hi, h⟩ := Res.bind_eq_ok.mp h
    split at h
    · cases h
    · rename_i hlt
      cases n with
      | none =>
        dsimp only at h
        cases h
        exact ⟨toSize i', by omega, rfl⟩
      | some l =>
        dsimp only at h
        obtain ⟨l', hl, h⟩ := Res.bind_eq_ok.mp h
        split at h
        · cases h
        · rename_i hle
          cases h
          intro x hx
          rw [sliceLoop_spec A _ _ _ (by omega)] at hx
          obtain ⟨k, hk, rfl⟩ := List.mem_map.mp hx
          have := List.mem_range.mp hk
          exact ⟨toSize i' + k, by omega, rfl⟩

/-- **C54, iteration**: `do_each` gives every element once, in order. -/
theorem C54_each (A : Arr) :
    (arrayEach A).length = A.dim ∧ ∀ i (h : i < (arrayEach A).length), (arrayEach A)[i] = A.base + A.esz * i := by
  unfold arrayEach
  refine ⟨by simp, fun i h => by simp⟩

/-- the cached wrappers are those of the elements at their index -/
structure Good (s : St) : Prop where
  len : s.elements.length ≤ s.A.dim
  at_ : ∀ (i : Nat) (w : Wrapper), s.elements[i]? = some (some w) → w.got = .one (s.A.base + s.A.esz * i) ∧ w.id < s.made

theorem rubyAt_nonneg {l : List (Option Wrapper)} {i : Int} (h : 0 ≤ i) {w : Wrapper} :
    rubyAt l i = some w ↔ l[i.toNat]? = some (some w) := by
  unfold rubyAt
  rw [if_pos h]
  cases l[i.toNat]? with
  | none => simp
  | some o => cases o <;> simp

/-- what an access leaves -/
theorem rawGet_spec {s : St} (hs : Good s) (hd : 0 < s.A.dim) (hd' : s.A.dim < 2147483648) (i : Int) :
    Good (rawGet s i).1 ∧ (rawGet s i).1.A = s.A ∧
    (∀ (j : Nat) (w : Wrapper), s.elements[j]? = some (some w) → (rawGet s i).1.elements[j]? = some (some w)) ∧
    (0 ≤ i ∧ i < s.A.dim → ∃ w, (rawGet s i).2 = .ok w ∧ w.got = .one (s.A.base + s.A.esz * i.toNat) ∧
      (rawGet s i).1.elements[i.toNat]? = some (some w)) ∧
    ((s.A.dim : Int) ≤ i → ∃ e, (rawGet s i).2 = .exn e) := by
  unfold rawGet
  cases hc : rubyAt s.elements i with
  | some w =>
    dsimp only
    refine ⟨hs, by trivial, fun _ _ h => h, fun hi => ?_, fun hi => ?_⟩
    · have h := (rubyAt_nonneg hi.1).mp hc
      exact ⟨w, rfl, (hs.at_ _ _ h).1, h⟩
    · exfalso
      have h := (rubyAt_nonneg (by omega)).mp hc
      have := (List.getElem?_eq_some_iff.mp h).1
      have := hs.len
      omega
  | none =>
    dsimp only
    have hel := C54_element s.A hd (by omega) i
    by_cases hi : 0 ≤ i ∧ i < s.A.dim
    · rw [(hel.1 (by omega)).1]
      dsimp only
      obtain ⟨l, hl⟩ : ∃ l, l = (s.elements ++ List.replicate (i.toNat + 1 - s.elements.length) none).set i.toNat
        (some ⟨s.made, .one (s.A.base + s.A.esz * i.toNat)⟩) := ⟨_, rfl⟩
      have hput : rubyPut s.elements i ⟨s.made, .one (s.A.base + s.A.esz * i.toNat)⟩ = some l := by
        unfold rubyPut
        rw [if_pos hi.1, hl]
      rw [hput]
      have hlen : l.length = max s.elements.length (i.toNat + 1) := by
        rw [hl, List.length_set, List.length_append, List.length_replicate]
        omega
      have hself : l[i.toNat]? = some (some ⟨s.made, .one (s.A.base + s.A.esz * i.toNat)⟩) := by
        rw [hl, List.getElem?_set_self]
        rw [List.length_append, List.length_replicate]
        omega
      have hold : ∀ (j : Nat) (w : Wrapper), j ≠ i.toNat → (l[j]? = some (some w) ↔ s.elements[j]? = some (some w)) := by
        intro j w hj
        rw [hl, List.getElem?_set_ne (Ne.symm hj)]
        by_cases hjl : j < s.elements.length
        · rw [List.getElem?_append_left hjl]
        · rw [List.getElem?_append_right (by omega), List.getElem?_eq_none (l := s.elements) (by omega), List.getElem?_replicate]
          split <;> simp
      refine ⟨⟨?_, ?_⟩, rfl, ?_, fun _ => ⟨_, rfl, rfl, hself⟩, fun h => by omega⟩
      · dsimp only
        have := hs.len
        omega
      · intro j w hj
        dsimp only at hj ⊢
        by_cases e : j = i.toNat
        · subst e
          rw [hself] at hj
          cases hj
          exact ⟨rfl, Nat.lt_succ_self _⟩
        · have := hs.at_ j w ((hold j w e).mp hj)
          exact ⟨this.1, Nat.lt_succ_of_lt this.2⟩
      · intro j w hj
        dsimp only
        by_cases e : j = i.toNat
        · subst e
          rw [(rubyAt_nonneg hi.1).mpr hj] at hc
          cases hc
        · exact (hold j w e).mpr hj
    · obtain ⟨e, he, _⟩ := (hel.2 hi).1
      rw [he]
      exact ⟨hs, rfl, fun _ _ h => h, fun h => absurd h hi, fun _ => ⟨e, rfl⟩⟩

theorem run_spec (is : List Int) : ∀ s : St, Good s → 0 < s.A.dim → s.A.dim < 2147483648 →
    Good (run s is) ∧ (run s is).A = s.A ∧ ∀ (j : Nat) (w : Wrapper), s.elements[j]? = some (some w) → (run s is).elements[j]? = some (some w) := by
  induction is with
  | nil => intro s hs _ _; exact ⟨hs, rfl, fun _ _ h => h⟩
  | cons i is ih =>
    intro s hs hd hd'
    obtain ⟨h1, h2, h3, _, _⟩ := rawGet_spec hs hd hd' i
    obtain ⟨k1, k2, k3⟩ := ih _ h1 (by rw [h2]; exact hd) (by rw [h2]; exact hd')
    exact ⟨k1, k2.trans h2, fun j w h => k3 j w (h3 j w h)⟩

theorem good_start (A : Arr) : Good (St.start A) := ⟨Nat.zero_le _, by intro i w h; simp [St.start] at h⟩

/-- **C54, histories**: after any history of accesses (failed ones included), an index in the array gives a wrapper of that
element, and an index after its end is an error. -/
theorem C54_raw_get (A : Arr) (hd : 0 < A.dim) (hd' : A.dim < 2147483648) (hist : List Int) (i : Int) :
    (0 ≤ i ∧ i < A.dim → ∃ w, (rawGet (run (St.start A) hist) i).2 = .ok w ∧ w.got = .one (A.base + A.esz * i.toNat)) ∧
    ((A.dim : Int) ≤ i → ∃ e, (rawGet (run (St.start A) hist) i).2 = .exn e) := by
  obtain ⟨h1, h2, _⟩ := run_spec hist (St.start A) (good_start A) hd hd'
  have hA : (run (St.start A) hist).A = A := h2
  obtain ⟨_, _, _, k1, k2⟩ := rawGet_spec h1 (by rw [hA]; exact hd) (by rw [hA]; exact hd') i
  rw [hA] at k1 k2
  exact ⟨fun h => let ⟨w, a, b, _⟩ := k1 h; ⟨w, a, b⟩, k2⟩

/-- **C54, identity**: the same index always gives the same Ruby object, whatever happened in between. -/
theorem C54_same_object (A : Arr) (hd : 0 < A.dim) (hd' : A.dim < 2147483648) (hist between : List Int) (i : Int)
    (hi : 0 ≤ i ∧ i < A.dim) :
    let s1 := rawGet (run (St.start A) hist) i
    (rawGet (run s1.1 between) i).2 = s1.2 := by
  obtain ⟨h1, h2, _⟩ := run_spec hist (St.start A) (good_start A) hd hd'
  have hA : (run (St.start A) hist).A = A := h2
  obtain ⟨k1, k2, _, k4, _⟩ := rawGet_spec h1 (by rw [hA]; exact hd) (by rw [hA]; exact hd') i
  have hA1 := k2.trans hA
  obtain ⟨w, e1, _, e3⟩ := k4 (by rw [hA]; exact hi)
  obtain ⟨_, _, l3⟩ := run_spec between _ k1 (by rw [hA1]; exact hd) (by rw [hA1]; exact hd')
  have := l3 _ _ e3
  intro s1
  show (rawGet (run (rawGet (run (St.start A) hist) i).1 between) i).2 = (rawGet (run (St.start A) hist) i).2
  rw [e1]
  generalize run (rawGet (run (St.start A) hist) i).1 between = s at this ⊢
  unfold rawGet
  rw [(rubyAt_nonneg hi.1).mpr this]

/-- **C54 fails for negative indexes**: what `a[-1]` does depends on the accesses made before: an error on a new object, then
the last element *accessed so far*. -/
theorem C54_negative_counterexample :
    ∃ A : Arr, 0 < A.dim ∧ (rawGet (run (St.start A) []) (-1)).2 = .exn .rbIndex ∧
      (rawGet (run (St.start A) [2]) (-1)).2 = .ok ⟨0, .one (A.base + A.esz * 2)⟩ ∧
      (rawGet (run (St.start A) [2, 4]) (-1)).2 = .ok ⟨1, .one (A.base + A.esz * 4)⟩ :=
  ⟨⟨5, 8, 1000⟩, by decide, by decide, by decide, by decide⟩

/-- **C54 fails for empty arrays**: any index gives the array itself. -/
theorem C54_empty_counterexample (A : Arr) (h : A.dim = 0) (i : Int) (n : Option Int) : arrayGet A i n = .ok .self := by
  unfold arrayGet
  rw [if_pos h]

/-! ### Examples -/

example : arrayGet ⟨5, 8, 1000⟩ 3 (some 2) = .ok (.many [1024, 1032]) := by decide
example : arrayGet ⟨5, 8, 1000⟩ 3 (some 3) = .exn .rbIndex := by decide
example : arrayGet ⟨5, 8, 1000⟩ 3 (some (-2)) = .ok (.many []) := by decide
example : arrayGet ⟨5, 8, 1000⟩ 1 (some (-2)) = .exn .rbIndex := by decide

/-! ### The theorems on concrete cases -/

example := (C54_element ⟨5, 8, 1000⟩ (by decide) (by decide) 3).1 (by decide)
example := (C54_element ⟨5, 8, 1000⟩ (by decide) (by decide) (-1)).2 (by decide)
example := (C54_slice ⟨5, 8, 1000⟩ (by decide) (by decide) 3 2 (by decide)).1 (by decide)
example := C54_in_bounds ⟨5, 8, 1000⟩ (by decide) 3 (some 2) (.many [1024, 1032]) (by decide)
example := (C54_raw_get ⟨5, 8, 1000⟩ (by decide) (by decide) [0, 3, 7] 3).1 (by decide)
example := C54_same_object ⟨5, 8, 1000⟩ (by decide) (by decide) [0, 3, 7] [1, 2] 4 (by decide)

end Verif.RubyArray
