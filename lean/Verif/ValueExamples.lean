import Verif.ValueProps

/-!
The hypotheses of C10–C18 are met by non-trivial values, and what fails without them.
-/

namespace Verif.Value
open Verif Verif.Layout

/-- an allocator that gives exactly what is asked, up to 1 MiB -/
def env0 : Env := ⟨1048576, fun _ n => n, by decide, fun _ n h => ⟨Nat.le_refl n, h⟩⟩

/-- `struct { enum{-1,2} (1 byte) a; std::vector<std::vector<uint8_t>> b; std::string c; uint16_t d; }` with padding after `a` and `d` -/
def rec0 : Ty :=
  .comp 64 (.cons 0 (.enum 1 [-1, 2]) (.cons 8 (.vec 24 (.vec 24 (.num 1))) (.cons 32 (.str 24) (.cons 56 (.num 2) .nil))))

/-- a, [[7, 8], []], "hi", 258, with padding bytes p -/
def mem0 (p : UInt8) : Mem :=
  .byte 2 :: .byte p :: .byte p :: .byte p :: .byte p :: .byte p :: .byte p :: .byte p ::
  .vec 48 (.vec 4 [.byte 7, .byte 8] :: (List.replicate 23 .tail ++ (.vec 0 [] :: (List.replicate 23 .tail ++ [])))) ::
  (List.replicate 23 .tail ++
  (.str [104, 105] :: (List.replicate 23 .tail ++
  [.byte 2, .byte 1, .byte p, .byte p, .byte p, .byte p, .byte p, .byte p])))

def val0 (p : UInt8) : List AV :=
  [.b 2, .b p, .b p, .b p, .b p, .b p, .b p, .b p, .seq 2 [.seq 2 [.b 7, .b 8], .seq 0 []], .s [104, 105], .b 2, .b 1,
   .b p, .b p, .b p, .b p, .b p, .b p]

theorem rec0_ok : OkType rec0 := by
  simp [OkType, rec0, Ty.WF, Fields.WF, Ty.HasLayout, Fields.HasLayout, Ty.size, HALF, W]

theorem mem0_valid (p : UInt8) : Valid env0 rec0 (mem0 p) (val0 p) := by
  have h1 : Abs env0 (rep 2 (kinds (.num 1))) [.byte 7, .byte 8] [.b 7, .b 8] := .data (.data .nil)
  have h2 : Abs env0 (rep 2 (kinds (.vec 24 (.num 1)))) _ [.seq 2 [.b 7, .b 8], .seq 0 []] :=
    .vec (cap := 4) (by decide) h1 (by decide) (by decide) (.vec (cap := 0) (by decide) .nil (by decide) (by decide) .nil)
  exact .data (.pad (.pad (.pad (.pad (.pad (.pad (.pad (.vec (by decide) h2 (by decide) (by decide)
    (.str (by decide) (by decide) (.data (.data (.pad (.pad (.pad (.pad (.pad (.pad .nil)))))))))))))))))

/-- its dump: the padding between fields is dumped as data, the padding at the end is not dumped -/
example : dump env0 rec0 (mem0 9) [] = .ok () ([2, 9, 9, 9, 9, 9, 9, 9, 2, 0, 0, 0, 0, 0, 0, 0, 2, 0, 0, 0, 0, 0, 0, 0, 7, 8,
    0, 0, 0, 0, 0, 0, 0, 0, 2, 0, 0, 0, 0, 0, 0, 0, 104, 105, 2, 1]) := by
  rfl

/-- C10 on it: load into an initialised value -/
example : ∃ dst dst' v', init rec0 (List.replicate 64 (.byte 255)) = .ok () dst ∧
    load env0 rec0 [2, 9, 9, 9, 9, 9, 9, 9, 2, 0, 0, 0, 0, 0, 0, 0, 2, 0, 0, 0, 0, 0, 0, 0, 7, 8,
      0, 0, 0, 0, 0, 0, 0, 0, 2, 0, 0, 0, 0, 0, 0, 0, 104, 105, 2, 1] dst = .ok () dst' ∧
    Valid env0 rec0 dst' v' ∧ VEq (kinds rec0) (val0 9) v' := by
  obtain ⟨dst, w, h1, h2, h3, _⟩ := C17_init (env := env0) rec0_ok (List.replicate 64 255) rfl
  obtain ⟨dst', v', h4⟩ := C10_dump_load rec0_ok (mem0_valid 9) rfl h2 h3
  exact ⟨dst, dst', v', by simpa using h1, h4⟩

/-- C16 on it: padding is ignored -/
example : ∃ s, compare rec0 (mem0 1) (mem0 2) = .ok true s := ⟨_, rfl⟩
/-- C15 and C18 on it -/
example : ∃ m v, copy env0 rec0 (mem0 1) (mem0 2) = .ok () m ∧ Valid env0 rec0 m v ∧ VEq (kinds rec0) (val0 1) v :=
  C15_copy rec0_ok (mem0_valid 1) (mem0_valid 2)
example : ∃ m v, zero env0 rec0 (mem0 1) = .ok () m ∧ Valid env0 rec0 m v ∧ VEq (kinds rec0) v (zeroV (kinds rec0)) ∧ Clr v :=
  C18_zero rec0_ok (mem0_valid 1)
/-- C17 on it: there is an enum with symbols at offset 0 -/
example : EnumAt rec0 0 1 [-1, 2] := by
  have : EnumAt rec0 (0 + 0) 1 [-1, 2] := .field .head .enum
  exact this
/-- C13 on it: a hostile buffer that meets the hypothesis -/
example : ∀ e, VecIn rec0 e → ∀ i, leVal ((List.drop i [1, 2, 3, 4]).take 8) * e.size < W := by
  have hv : ∀ e, VecIn rec0 e → e.size ≤ 24 := by
    intro e h
    cases h with
    | field hm h =>
      cases hm with
      | head => cases h
      | tail hm =>
        cases hm with
        | head =>
          cases h with
          | vec => decide
          | elem h =>
            cases h with
            | vec => decide
            | elem h => cases h
        | tail hm =>
          cases hm with
          | head => cases h
          | tail hm =>
            cases hm with
            | head => cases h
            | tail hm => cases hm
  intro e he i
  have h1 := hv e he
  have h2 : leVal ((List.drop i [1, 2, 3, 4]).take 8) ≤ 67305985 := by
    match i with
    | 0 => decide
    | 1 => decide
    | 2 => decide
    | 3 => decide
    | i + 4 => simp [leVal]
  have := Nat.mul_le_mul h2 h1
  unfold W
  omega

/-! ### what does not hold -/

/-- C46 does not hold in general: loading the dump of an empty vector succeeds and leaves the elements of the destination
(value_ops.cc:174 `if (element_count == 0) it = skipBlock(it, end)`). -/
theorem C46_load_empty_counterexample : ∃ (t : Ty) (src dst dst' : Mem) (v v' : List AV) (B : List UInt8), OkType t ∧
    Valid env0 t src v ∧ Valid env0 t dst v' ∧ dump env0 t src [] = .ok () B ∧ load env0 t B dst = .ok () dst' ∧
    Valid env0 t dst' v' ∧ ¬ VEq (kinds t) v v' := by
  have hv : ∀ (c : Nat) (b : Mem) n f, Abs env0 (rep n (kinds (.num 1))) b f → b.length ≤ c → c ≤ 1048576 →
      Valid env0 (.vec 24 (.num 1)) (.vec c b :: (List.replicate 23 .tail ++ [])) [.seq n f] :=
    fun c b n f h h1 h2 => .vec (by decide) h h1 h2 .nil
  refine ⟨.vec 24 (.num 1), _, _, _, _, _, _, by simp [OkType, Ty.WF, Ty.HasLayout, Ty.size, HALF, W],
    hv 0 [] 0 [] .nil (by decide) (by decide), hv 1 [.byte 7] 1 [.b 7] (.data .nil) (by decide) (by decide), rfl, rfl,
    hv 1 [.byte 7] 1 [.b 7] (.data .nil) (by decide) (by decide), ?_⟩
  intro h
  cases h

/-- the same with a string -/
theorem C46_load_empty_string_counterexample : ∃ (src dst dst' : Mem) (v v' : List AV) (B : List UInt8),
    Valid env0 (.str 32) src v ∧ Valid env0 (.str 32) dst v' ∧ dump env0 (.str 32) src [] = .ok () B ∧
    load env0 (.str 32) B dst = .ok () dst' ∧ Valid env0 (.str 32) dst' v' ∧ ¬ VEq (kinds (.str 32)) v v' := by
  have hv : ∀ (b : List UInt8), b.length ≤ 1048576 →
      Valid env0 (.str 32) (.str b :: (List.replicate 31 .tail ++ [])) [.s b] :=
    fun b h => .str (by decide) h .nil
  refine ⟨_, _, _, _, _, _, hv [] (by decide), hv [65] (by decide), rfl, rfl, hv [65] (by decide), ?_⟩
  intro h
  cases h

/-- C13 does not hold for every buffer: an element count of 2^59 for elements of 32 bytes makes `Vector::resize` compute a
size of 0 (containers.cc:100); here each element is a pair of a vector and a number, and the load loop writes to
the elements of an empty buffer. -/
theorem C13_overflow_counterexample : ∃ (t : Ty) (dst : Mem) (v : List AV) (input : List UInt8), OkType t ∧ Valid env0 t dst v ∧
    input.length < HALF ∧ load env0 t input dst = .ub := by
  refine ⟨.vec 24 (.comp 32 (.cons 0 (.vec 24 (.num 1)) (.cons 24 (.num 8) .nil))), _, _, le64 (2 ^ 59) ++ le64 0 ++ List.replicate 8 0,
    by simp [OkType, Ty.WF, Fields.WF, Ty.HasLayout, Fields.HasLayout, Ty.size, HALF, W],
    .vec (cap := 0) (buf := []) (n := 0) (flat := []) (by decide) .nil (by decide) (by decide) .nil, by decide, ?_⟩
  rfl

/-! ### The theorems on concrete cases -/

/-- the dump of `mem0 9` -/
def dump0 : List UInt8 := [2, 9, 9, 9, 9, 9, 9, 9, 2, 0, 0, 0, 0, 0, 0, 0, 2, 0, 0, 0, 0, 0, 0, 0, 7, 8,
    0, 0, 0, 0, 0, 0, 0, 0, 2, 0, 0, 0, 0, 0, 0, 0, 104, 105, 2, 1]

theorem dump0_eq : dump env0 rec0 (mem0 9) [] = .ok () dump0 := rfl

example := C10_dump_init_load rec0_ok (mem0_valid 9) dump0_eq (List.replicate 64 255) rfl
example := C11_dump_size rec0_ok (mem0_valid 9)
example := C11_dump_size_agrees rec0_ok (mem0_valid 9) (o := [1, 2, 3]) (o' := [1, 2, 3] ++ dump0) (by decide) rfl
example := C12_fixed_buffer rec0_ok (mem0_valid 9) 20 (List.replicate 32 0) (by decide) (by decide)
example := C14_truncated rec0_ok (mem0_valid 9) dump0_eq (mem0_valid 1) 40 (by decide)
example := (C14_trailing rec0_ok (mem0_valid 9) dump0_eq (mem0_valid 1) [1, 2] (by decide)).2 (by decide)
example := C16_compare rec0_ok.1 rec0_ok.2.1 (mem0_valid 9) (mem0_valid 1)
example := C16_equivalence rec0_ok.1 rec0_ok.2.1 (mem0_valid 9) (mem0_valid 1) (mem0_valid 2)
example := C17_destroy rec0_ok (mem0_valid 9)
/-- a string, any input -/
example := by
  have h : Valid env0 (.str 32) (.str [65] :: (List.replicate 31 .tail ++ [])) [.s [65]] := .str (by decide) (by decide) .nil
  exact C13_load_arbitrary_no_vector (by simp [OkType, Ty.WF, Ty.HasLayout, Ty.size, HALF, W])
    (fun e h => by cases h) h (input := [255, 255, 255, 255, 255, 255, 255, 255, 1]) (by decide)

end Verif.Value
