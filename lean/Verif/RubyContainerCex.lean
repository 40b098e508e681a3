import Verif.RubyContainerEach
import Verif.RubyContainerObjs

/-! C73: the theorems on concrete vectors, and what the code gets wrong. -/

namespace Verif.Container
open Verif Verif.Layout Verif.Value

/-! ### Concrete cases -/

/-- the vector [[7, 8], []] of vectors of bytes, with room for two more elements -/
def c0 : Cont := ⟨vec0, 0, []⟩
def e0 : Ty := .vec 24 (.num 1)
/-- the element [9] -/
def m9 : Mem := .vec 1 [.byte 9] :: (List.replicate 23 .tail ++ [])

theorem big0 : env0.maxAlloc < 2147483648 * e0.size := by decide
theorem big1 : env0.maxAlloc < 2147483648 * (Ty.num 4).size := by decide
theorem clean0 (st : Bool) : Clean st e0 c0 := fun _ h => by cases h

/-- a vector of two 4-byte numbers, full -/
def c1 : Cont := ⟨⟨8, [.byte 7, .byte 0, .byte 0, .byte 0] ++ ([.byte 8, .byte 0, .byte 0, .byte 0] ++ [])⟩, 0, []⟩
def xs1 : List (List AV) := [[.b 7, .b 0, .b 0, .b 0], [.b 8, .b 0, .b 0, .b 0]]

theorem c1_holds : Holds env0 (.num 4) c1.v xs1 :=
  ⟨.cons (.data (.data (.data (.data .nil)))) (.cons (.data (.data (.data (.data .nil)))) .nil), by decide, by decide⟩

theorem elem1_ok : ElemOk (.num 4) := by simp [ElemOk, Ty.WF, Ty.HasLayout, Ty.size, W]

theorem clean1 : Clean true (.num 4) c1 := fun _ _ => rfl

/-- a history: reads, a push that moves the buffer, an element that is appended to its own vector, a refused index and an erase -/
def ops1 : List Op := [.size, .get 1, .concat [.own 0, .val [.byte 9, .byte 0, .byte 0, .byte 0], .own 1], .get 5, .set 0 (.own 4),
  .erase (.own 0), .each, .clear, .empty]

theorem ops1_ok : ∀ o ∈ ops1, OkOp env0 true (.num 4) o := by
  intro o ho
  simp only [ops1, List.mem_cons, List.not_mem_nil, or_false] at ho
  rcases ho with rfl | rfl | rfl | rfl | rfl | rfl | rfl | rfl | rfl
  · trivial
  · trivial
  · refine ⟨fun x hx => ?_, .inl ⟨rfl, rfl⟩⟩
    simp only [List.mem_cons, List.not_mem_nil, or_false, Arg.val.injEq, reduceCtorEq, false_or] at hx
    subst hx
    exact ⟨[.b 9, .b 0, .b 0, .b 0], .data (.data (.data (.data .nil)))⟩
  all_goals trivial

example := C73_call_partial elem0_ok big0 (by decide) (clean0 true) vec0_holds (.concat [.val m9])
  ⟨fun x hx => ⟨[.seq 1 [.b 9]], by simp at hx; subst hx; exact elem9_valid⟩, .inr (by simp)⟩
example := C73_call_partial elem1_ok big1 (by decide) clean1 c1_holds (.get 1) trivial
example := C73_history_partial elem1_ok big1 (by decide) ops1 clean1 c1_holds ops1_ok
example := C73_own_room_partial (st := true) elem0_ok big0 (by decide) (c := c0) vec0_holds [.own 0, .own 1] (by simp) (by decide)

/-- what the history gives -/
example : (runAll env0 (.num 4) ops1 c1).bind (fun rs c => .ok (rs.length, c.v.buf.length) c) =
    .ok (9, 0) ⟨⟨20, []⟩, 3, []⟩ := rfl

/-- a block that appends what it sees -/
example := C73_each_partial elem1_ok big1 (by decide) (st := true) (blk := fun i => [.concat [.own i]])
  (fun i o ho => by simp at ho; subst ho; exact ⟨⟨by simp, .inl ⟨rfl, rfl⟩⟩, trivial⟩) clean1 c1_holds

/-- objects for both elements, then one element is removed: one object is left; a push that moves the buffer drops it -/
def ops2 : List Op := [.rawGet 0, .rawGet 1, .erase (.val [.byte 7, .byte 0, .byte 0, .byte 0])]

theorem ops2_ok : ∀ o ∈ ops2, OkOp env0 false (.num 4) o := by
  intro o ho
  simp only [ops2, List.mem_cons, List.not_mem_nil, or_false] at ho
  rcases ho with rfl | rfl | rfl
  · exact fun h => by cases h
  · exact fun h => by cases h
  · exact ⟨[.b 7, .b 0, .b 0, .b 0], .data (.data (.data (.data .nil)))⟩

example : (match runAll env0 (.num 4) ops2 c1 with
  | .ok _ c => c.objs == [0] && c.v.buf.length == 4
  | _ => false) = true := by decide +kernel
example := @C73_objects_history_partial env0 (.num 4) elem1_ok big1 (by decide) false ops2 c1 xs1 (fun h => by cases h) c1_holds ops2_ok
  (fun i hi => by simp [c1] at hi)
example := @C73_objects_partial env0 (.num 4) elem1_ok big1 (by decide) false ⟨c1.v, 0, [1, 0]⟩ (fun h => by cases h) xs1 c1_holds
  (.concat [.val [.byte 9, .byte 0, .byte 0, .byte 0]])
  ⟨fun x hx => ⟨[.b 9, .b 0, .b 0, .b 0], by simp at hx; subst hx; exact .data (.data (.data (.data .nil)))⟩, .inr (by simp)⟩
  (fun i hi => by
    simp at hi
    rcases hi with rfl | rfl <;> decide) _ _ rfl

/-! ### What the code gets wrong -/

/-- the vector [[7, 8], []] of vectors of bytes, full -/
def c2 : Cont := ⟨⟨48, vec0.buf⟩, 0, []⟩

theorem c2_holds : Holds env0 e0 c2.v [[.seq 2 [.b 7, .b 8]], [.seq 0 []]] := ⟨vec0_holds.elems, by decide, by decide⟩

example := C73_own_full_partial elem0_ok big0 (by decide) c2_holds rfl (i := 0) (.inl rfl) (by decide) (by decide) (by decide) [] (by simp)

/-- **Undefined behaviour**: `v.push(v[0])`, if the elements are not numbers and the buffer has to grow. On an array this appends the
element. -/
theorem C73_cex_push_own : step env0 e0 c2 (.concat [.own 0]) = .ub ∧
    Sem env0 e0 [[.seq 2 [.b 7, .b 8]], [.seq 0 []]] (.concat [.own 0]) [[.seq 2 [.b 7, .b 8]], [.seq 0 []], [.seq 2 [.b 7, .b 8]]] .done := by
  refine ⟨rfl, ?_⟩
  exact .concat (l := [[.seq 2 [.b 7, .b 8]]]) (fun a ha => by
    simp at ha
    subst ha
    rintro ⟨i, h1, h2⟩
    injection h1 with h1
    subst h1
    simp at h2) (.cons (.own (i := 0) rfl) .nil)

/-- **Undefined behaviour**: a block of `each` that empties the vector: the next element is read past the end. -/
theorem C73_cex_each_clear : doEachBlock env0 e0 (fun _ => [.clear]) c0 = .ub := rfl

/-- **A number becomes an object**: `v[0]` is a number; after `v[0, 1]` (or `v.raw_get(0)`), `v[0]` is an object of the element type that
refers to the memory of the vector, until it is invalidated. -/
theorem C73_cex_number_object :
    step env0 (.num 4) c1 (.get 0) = .ok (.elem false [.byte 7, .byte 0, .byte 0, .byte 0]) c1 ∧
    ∃ v c, runAll env0 (.num 4) [.slice 0 1, .get 0] c1 = .ok [.vec v, .elem true [.byte 7, .byte 0, .byte 0, .byte 0]] c :=
  ⟨rfl, _, _, rfl⟩

/-- **A negative number of elements**: `v[i, n]` with a negative `n` is an empty vector, and no error, even if `i` is out of bounds. -/
theorem C73_cex_negative_slice (env : Env) (e : Ty) (c : Cont) (i k : Nat) (h : (i : Int) - (k + 1) ≤ rbSize e c.v) :
    ∃ c', step env e c (.slice i (-(k + 1 : Nat))) = .ok (.vec ⟨0, []⟩) c' := by
  simp only [step, doSlice]
  rw [if_neg (by omega), if_neg (by omega), show Int.toNat (-((k + 1 : Nat) : Int)) = 0 by omega]
  exact ⟨_, rfl⟩

example := C73_cex_negative_slice env0 (.num 4) c1 3 0 (by decide)

/-- **Big vectors**: the size of a vector of 2^31 elements or more (up to 2^32 - 1) is negative, and no element can be read by its index. -/
theorem C73_cex_big_size (e : Ty) (v : Vec) (h1 : 2147483648 ≤ vecCount e v) (h2 : vecCount e v < 4294967296) :
    rbSize e v < 0 ∧ ∀ i g o, doGet e i ⟨v, g, o⟩ = .ok (.raised .rbArg) ⟨v, g, o⟩ := by
  have h : rbSize e v < 0 := by
    unfold rbSize
    rw [Nat.mod_eq_of_lt h2, if_neg (by omega)]
    omega
  refine ⟨h, fun i g o => ?_⟩
  unfold doGet
  have : outside e v i = true := by
    unfold outside
    by_cases hi : i < 0
    · simp [hi]
    · simp; omega
  simp only [this, if_true]

/-- and an append to it that does not move the buffer never ends -/
theorem C73_cex_big_hang (e : Ty) (old c : Cont) (r : Rep) (h1 : 2147483648 ≤ vecCount e c.v) (h2 : vecCount e c.v < 4294967296)
    (h3 : c.gen = old.gen) (h4 : c.v.buf ≠ []) : settled e old (.ok r c) = .fuel := by
  have h := (C73_cex_big_size e c.v h1 h2).1
  have : settle e old c = none := by
    unfold settle
    rw [if_neg (fun h => by rcases h.2 with h | h; exact h4 h; exact h h3), if_pos h]
  simp only [settled, this]

/-- there are such vectors -/
theorem big_vec : ∃ v : Vec, vecCount (.num 1) v = 2147483648 := by
  have h : ∀ n, vecCount (.num 1) ⟨n, List.replicate n (.byte 0)⟩ = n := by
    intro n
    simp [vecCount, Ty.size]
  exact ⟨_, h 2147483648⟩

example : ∃ v, rbSize (.num 1) v < 0 := by
  obtain ⟨v, h⟩ := big_vec
  exact ⟨v, (C73_cex_big_size (.num 1) v (by omega) (by omega)).1⟩

/-- **Elements before a refused one stay**: `concat` is not undone. -/
theorem C73_cex_concat_prefix : ∃ c', step env0 (.num 4) c1 (.concat [.val [.byte 9, .byte 0, .byte 0, .byte 0], .bad .rbType]) =
    .ok (.raised .rbType) c' ∧ c'.v.buf = c1.v.buf ++ [.byte 9, .byte 0, .byte 0, .byte 0] := ⟨_, rfl, rfl⟩

end Verif.Container
