import Verif.ValueExamples
import Verif.RubyMarshal

/-!
C87: concrete cases, and what does not hold.
-/

namespace Verif.RubyMarshal
open Verif Verif.Layout Verif.Value Verif.RubyLayout

/-! ### The hypotheses are met -/

def noMerge : Given := [(.mergeSkipCopy, false)]
def oNoMerge : Opts := ⟨false, false, false, true⟩

theorem noMerge_inForce : InForce noMerge oNoMerge := validate_inForce.mp rfl
theorem default_inForce : InForce [] ⟨false, false, true, true⟩ := validate_inForce.mp rfl

/-- a structure with an enum, a vector of vectors of bytes, a string, a number and padding can be marshalled with any options that do not
concern pointers and opaques -/
theorem rec0_fit (merge skips : Bool) : Fit ⟨false, false, merge, skips⟩ rec0 := by
  refine ⟨rec0_ok.1, rec0_ok.2.1, rec0_ok.2.2, ?_⟩
  intro _ e h
  cases h with
  | field hm h =>
    cases hm with
    | head => cases h
    | tail hm =>
      cases hm with
      | head =>
        cases h with
        | vec => exact .inl ⟨.vec 24 (.num 1), by simp [kinds]⟩
        | elem h =>
          cases h with
          | vec => exact .inr .num
          | elem h => cases h
      | tail hm =>
        cases hm with
        | head => cases h
        | tail hm =>
          cases hm with
          | head => cases h
          | tail hm => cases hm

/-- the padding is not marshalled without merge_skip_copy -/
def bytes0 : List UInt8 := [2, 2, 0, 0, 0, 0, 0, 0, 0, 2, 0, 0, 0, 0, 0, 0, 0, 7, 8,
    0, 0, 0, 0, 0, 0, 0, 0, 2, 0, 0, 0, 0, 0, 0, 0, 104, 105, 2, 1]

theorem rec0_bytes (p : UInt8) : toByteArray env0 rec0 noMerge (mem0 p) = .value bytes0 := rfl

example : ∃ dst dst' v', init rec0 ((List.replicate 64 255).map .byte) = .ok () dst ∧ fromBuffer env0 rec0 noMerge bytes0 dst = (.value (), dst') ∧
    Valid env0 rec0 dst' v' ∧ VEq (kinds rec0) (val0 9) v' :=
  C87_from_buffer_new_partial noMerge_inForce (rec0_fit _ _) rec0_ok.2.1 (mem0_valid 9) (rec0_bytes 9) (List.replicate 64 255) rfl

/-- a structure around an array of three integers is one number -/
example : OneNumber (.comp 12 (.cons 0 (.arr 3 (.num 4)) .nil)) := .wrap (t := .arr 3 (.num 4)) (.arr .num)

example : ∃ B, toByteArray env0 rec0 [] (mem0 9) = .value B ∧ B.length = 46 ∧ marshallingSize rec0 (mem0 9) = .value (some 46) :=
  ⟨_, rfl, rfl, C87_size_partial rec0_ok (mem0_valid 9) rfl (by decide)⟩

example : toByteArray env0 rec0 [(.mergeSkipCopy, true), (.other "align".toList, true)] (mem0 1) = .raised .rbArg :=
  (C87_unknown_option (List.mem_cons_of_mem _ (List.mem_cons_self ..)) _ []).1

/-! ### What does not hold -/

/-- C87 is false of `marshalling_size` when there are options: it takes none, and gives the size for the default ones. -/
theorem C87_size_options_counterexample : ∃ t m v B, OkType t ∧ Valid env0 t m v ∧ Fit oNoMerge t ∧
    toByteArray env0 t noMerge m = .value B ∧ marshallingSize t m ≠ .value (some (B.length : Int)) :=
  ⟨rec0, mem0 0, val0 0, bytes0, rec0_ok, mem0_valid 0, rec0_fit _ _, rec0_bytes 0, by decide +kernel⟩

/-- C87 is false without merge_skip_copy: a vector of structures, even without padding, ends the process when it has elements; with the
default options it is marshalled. (The elements are a single block with the layout of the element type, which is always merged, lang/csupport/containers.cc:26-29,
but several ones with the layout in force.) -/
theorem C87_unmerged_counterexample : ∃ t m v B, OkType t ∧ Valid env0 t m v ∧ toByteArray env0 t [] m = .value B ∧
    toByteArray env0 t noMerge m = .died := by
  refine ⟨.vec 24 (.comp 8 (.cons 0 (.num 4) (.cons 4 (.num 4) .nil))), _, _, _,
    by simp [OkType, Ty.WF, Fields.WF, Ty.HasLayout, Fields.HasLayout, Ty.size, HALF, W],
    .vec (cap := 8) (n := 1) (buf := [.byte 1, .byte 2, .byte 3, .byte 4, .byte 5, .byte 6, .byte 7, .byte 8]) (by decide)
      (.data (.data (.data (.data (.data (.data (.data (.data .nil)))))))) (by decide) (by decide) .nil, rfl, ?_⟩
  rfl

/-- C87 is false of a value that has no byte to marshal, here an opaque with `accept_opaques: true`: `&buffer[0]` is evaluated on an empty
vector (value.cc:584), which is undefined behaviour; `marshalling_size` is nil. -/
theorem C87_empty_counterexample : ∃ t m v, Ty.WF t ∧ Ty.HasLayout false true t ∧ Valid env0 t m v ∧
    toByteArray env0 t [(.acceptOpaques, true)] m = .ub ∧ marshallingSize t m = .value none :=
  ⟨.opaq 2, [.byte 1, .byte 2], [.b 1, .b 2], by simp [Ty.WF, W], by simp [Ty.HasLayout], .pad (.pad .nil), rfl, rfl⟩

/-- C87: `accept_pointers` does not ignore pointers, as its documentation says (type.rb:696-698): the address is marshalled, and
`from_buffer` stores it in the receiver. -/
theorem C87_pointers_copied_counterexample (a b : List UInt8) (ha : a.length = 8) (hb : b.length = 8) :
    toByteArray env0 (.ptr 8) [(.acceptPointers, true)] (a.map .byte) = .value a ∧
    fromBuffer env0 (.ptr 8) [(.acceptPointers, true)] a (b.map .byte) = (.value (), a.map .byte) := by
  match a, ha with
  | [a0, a1, a2, a3, a4, a5, a6, a7], _ =>
    match b, hb with
    | [b0, b1, b2, b3, b4, b5, b6, b7], _ => exact ⟨rfl, rfl⟩

/-- the hypotheses of `C87_round_trip_partial` with accept_pointers and accept_opaques: a structure with a pointer and an opaque -/
example : Fit ⟨true, true, false, false⟩ (.comp 16 (.cons 0 (.ptr 8) (.cons 8 (.opaq 4) (.cons 12 (.num 4) .nil)))) := by
  refine ⟨by simp [Ty.WF, Fields.WF, Ty.size, W], by simp [Ty.HasLayout, Fields.HasLayout], by simp [Ty.size, HALF], ?_⟩
  intro _ e h
  cases h with
  | field hm h =>
    cases hm with
    | head => cases h
    | tail hm =>
      cases hm with
      | head => cases h
      | tail hm =>
        cases hm with
        | head => cases h
        | tail hm => cases hm

/-- there, the opaque is not marshalled and the receiver keeps its own -/
example : toByteArray env0 (.comp 8 (.cons 0 (.opaq 4) (.cons 4 (.num 4) .nil))) [(.acceptOpaques, true), (.mergeSkipCopy, false)]
      ([1, 2, 3, 4, 5, 6, 7, 8].map .byte) = .value [5, 6, 7, 8] ∧
    fromBuffer env0 (.comp 8 (.cons 0 (.opaq 4) (.cons 4 (.num 4) .nil))) [(.acceptOpaques, true), (.mergeSkipCopy, false)] [5, 6, 7, 8]
      ([0, 0, 0, 0, 0, 0, 0, 0].map .byte) = (.value (), [0, 0, 0, 0, 5, 6, 7, 8].map .byte) := ⟨rfl, rfl⟩

/-- C87 is false of `accept_opaques` with the default `merge_skip_copy`: the bytes of an opaque that lies between other fields are
marshalled like padding, and `from_buffer` overwrites the receiver's opaque with them ("simply ignored", type.rb:699-701). -/
theorem C87_opaques_copied_counterexample (a b : List UInt8) (ha : a.length = 4) (hb : b.length = 4) :
    toByteArray env0 (.comp 12 (.cons 0 (.num 4) (.cons 4 (.opaq 4) (.cons 8 (.num 4) .nil)))) [(.acceptOpaques, true)]
      (([1, 1, 1, 1] ++ a ++ [2, 2, 2, 2]).map .byte) = .value ([1, 1, 1, 1] ++ a ++ [2, 2, 2, 2]) ∧
    fromBuffer env0 (.comp 12 (.cons 0 (.num 4) (.cons 4 (.opaq 4) (.cons 8 (.num 4) .nil)))) [(.acceptOpaques, true)]
      ([1, 1, 1, 1] ++ a ++ [2, 2, 2, 2]) (([0, 0, 0, 0] ++ b ++ [0, 0, 0, 0]).map .byte) =
      (.value (), ([1, 1, 1, 1] ++ a ++ [2, 2, 2, 2]).map .byte) := by
  match a, ha with
  | [a0, a1, a2, a3], _ =>
    match b, hb with
    | [b0, b1, b2, b3], _ => exact ⟨rfl, rfl⟩

end Verif.RubyMarshal
