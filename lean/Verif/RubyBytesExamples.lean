import Verif.RubyBytes
import Verif.ValueExamples

/-! Non-trivial cases of C65, and silent corruption by `of_size`. -/

namespace Verif.RubyBytes
open Verif Verif.Layout Verif.Value

/-- `struct { std::string s; uint16_t a; uint16_t b; uint32_t c; }`: no padding -/
def noPad : Ty := .comp 32 (.cons 0 (.str 24) (.cons 24 (.num 2) (.cons 26 (.num 2) (.cons 28 (.num 4) .nil))))

def noPadMem : Mem := .str [104, 105] :: (List.replicate 23 .tail ++ [.byte 1, .byte 2, .byte 3, .byte 4, .byte 5, .byte 6, .byte 7, .byte 8])
def noPadVal : List AV := [.s [104, 105], .b 1, .b 2, .b 3, .b 4, .b 5, .b 6, .b 7, .b 8]

theorem noPad_valid : Valid env0 noPad noPadMem noPadVal :=
  .str (by decide) (by decide) (.data (.data (.data (.data (.data (.data (.data (.data .nil))))))))

theorem noPad_noTail : NoTailPad noPad := by
  intro X h
  have h1 := congrArg List.getLast? h
  rw [List.getLast?_concat] at h1
  have h2 : (kinds noPad).getLast? = some .data := rfl
  rw [h2] at h1
  cases h1

/-- `of_size(3, element)` on it -/
example : ∃ m' v', ofSize env0 24 noPad 3 noPadMem (List.replicate 24 255) = .ok () m' ∧ Valid env0 (.vec 24 noPad) m' v' ∧
    VEq (kinds (.vec 24 noPad)) [.seq 3 (noPadVal ++ (noPadVal ++ (noPadVal ++ [])))] v' := by
  have h1 : OkType (.vec 24 noPad) := by
    simp [OkType, noPad, Ty.WF, Fields.WF, Ty.HasLayout, Fields.HasLayout, Ty.size, HALF, W]
  have h2 : OkType noPad := by
    simp [OkType, noPad, Ty.WF, Fields.WF, Ty.HasLayout, Fields.HasLayout, Ty.size, HALF, W]
  exact C65_of_size h1 h2 noPad_noTail noPad_valid 3 (by unfold W; decide) (by decide) (by decide) (by decide) _ rfl

/-- `struct { uint32_t a; uint8_t b; }`: three bytes of padding at the end -/
def tailPad : Ty := .comp 8 (.cons 0 (.num 4) (.cons 4 (.num 1) .nil))

/-- `of_size(2, element)` on it raises -/
example : ∃ x m' w, ofSize env0 24 tailPad 2 ([1, 2, 3, 4, 5, 0, 0, 0].map .byte) (List.replicate 24 255) = .exn x m' ∧
    Valid env0 (.vec 24 tailPad) m' w := by
  have h1 : OkType (.vec 24 tailPad) := by
    simp [OkType, tailPad, Ty.WF, Fields.WF, Ty.HasLayout, Fields.HasLayout, Ty.size, HALF, W]
  have h2 : OkType tailPad := by
    simp [OkType, tailPad, Ty.WF, Fields.WF, Ty.HasLayout, Fields.HasLayout, Ty.size, HALF, W]
  have hv : Valid env0 tailPad ([1, 2, 3, 4, 5, 0, 0, 0].map .byte) ([1, 2, 3, 4, 5, 0, 0, 0].map .b) :=
    .data (.data (.data (.data (.data (.pad (.pad (.pad .nil)))))))
  have hpl : Plain tailPad := by
    intro c hc
    have hk : kinds tailPad = [.data, .data, .data, .data, .data, .pad, .pad, .pad] := rfl
    rw [hk] at hc
    simp at hc
  exact C65_of_size_padding_counterexample (B := [1, 2, 3, 4, 5]) h1 h2 hpl hv rfl (by decide) 2 (by decide) (by decide) _ rfl

/-- `struct { std::vector<uint8_t> v; uint8_t x[7]; }`: one byte of padding at the end -/
def vecPad : Ty := .comp 32 (.cons 0 (.vec 24 (.num 1)) (.cons 24 (.arr 7 (.num 1)) .nil))

/-- v = [0, 9], x = [11 .. 17] -/
def vecPadMem : Mem := .vec 2 [.byte 0, .byte 9] :: (List.replicate 23 .tail ++
  [.byte 11, .byte 12, .byte 13, .byte 14, .byte 15, .byte 16, .byte 17, .byte 0])

/-- C65 fails silently: with an element that holds a vector and ends with padding, `of_size(2, element)` returns a container whose second
element is another value: `v = []`, `x = [9, 11 .. 16]` instead of `v = [0, 9]`, `x = [11 .. 17]`. -/
theorem C65_of_size_garbage_counterexample :
    Valid env0 vecPad vecPadMem [.seq 2 [.b 0, .b 9], .b 11, .b 12, .b 13, .b 14, .b 15, .b 16, .b 17, .b 0] ∧
    ∃ m', ofSize env0 24 vecPad 2 vecPadMem (List.replicate 24 255) = .ok () m' ∧
      Valid env0 (.vec 24 vecPad) m'
        [.seq 2 [.seq 2 [.b 0, .b 9], .b 11, .b 12, .b 13, .b 14, .b 15, .b 16, .b 17, .b 2,
          .seq 0 [], .b 9, .b 11, .b 12, .b 13, .b 14, .b 15, .b 16, .b 17]] := by
  refine ⟨.vec (by decide) (.data (.data .nil)) (by decide) (by decide) (.data (.data (.data (.data (.data (.data (.data (.pad .nil)))))))), _, rfl, ?_⟩
  exact .vec (by decide) (.vec (n := 2) (by decide) (.data (.data .nil)) (by decide) (by decide)
    (.data (.data (.data (.data (.data (.data (.data (.pad (.vec (n := 0) (by decide) .nil (by decide) (by decide)
      (.data (.data (.data (.data (.data (.data (.data (.pad .nil))))))))))))))))))
    (by decide) (by decide) .nil

/-- the string "é" (2 bytes, 1 character) converted to `/std/string` and back is the first byte only -/
theorem C65_string_counterexample : ∃ m, stringFromRuby env0 32 [[0xc3, 0xa9]] (List.replicate 32 0) = .ok () m ∧
    stringToRuby env0 32 m = .ok [0xc3] () := ⟨_, rfl, rfl⟩

/-- "hello" is kept -/
example : ∃ m, stringFromRuby env0 32 [[104], [101], [108], [108], [111]] (List.replicate 32 0) = .ok () m ∧
    stringToRuby env0 32 m = .ok [104, 101, 108, 108, 111] () := ⟨_, rfl, rfl⟩

/-- a packed `std::vector<uint16_t>` -/
example : packedContainer env0 24 (.num 2) (.vec 8 ([1, 2, 3, 4, 5, 6].map .byte) :: List.replicate 23 .tail) = .ok [1, 2, 3, 4, 5, 6] () := rfl
example : packedArray env0 3 (.num 2) ([1, 2, 3, 4, 5, 6].map .byte) = .ok [1, 2, 3, 4, 5, 6] () := rfl

/-! ### The theorems on concrete cases -/

/-- "aé" -/
example := C65_string (env := env0) (cs := 32) (by decide) (by decide) [[97], [0xc3, 0xa9]] (by decide) (by decide)
  (List.replicate 32 0) rfl
example := C65_string_round_trip (env := env0) (cs := 32) (by decide) (by decide) [[97], [0xc3, 0xa9]] (by decide) (by decide)
  (List.replicate 32 0) rfl
example := C65_packed_container (env := env0) (cs := 24) (k := 2) (cap := 8) (by decide) (by decide) (by decide) (by decide)
  [[1, 2], [3, 4], [5, 6]] (by decide) (by decide) (by decide) (by decide)
example := C65_packed_array (env := env0) (k := 2) (by decide) [[1, 2], [3, 4], [5, 6]] (by decide) (by decide) (by decide)

end Verif.RubyBytes
