import Verif.RubyCastProps
import Verif.ValueExamples

/-! Examples and counterexamples for C72. -/

namespace Verif.Cast
open Verif Verif.Graph Verif.Layout Verif.LayoutGraph Verif.Value

/-- structures with and without padding, vectors of them, two enums, a structure with a pointer -/
def castGet : TId → TypeDef
  | 0 => ⟨"/int".toList, 4, .num .sint⟩
  | 1 => ⟨"/C".toList, 4, .comp [⟨['x'], 0, 0⟩]⟩
  | 2 => ⟨"/D".toList, 8, .comp [⟨['x'], 0, 0⟩]⟩
  | 3 => ⟨"/std/vector</C>".toList, 24, .vec 1⟩
  | 4 => ⟨"/std/vector</D>".toList, 24, .vec 2⟩
  | 5 => ⟨"/P".toList, 32, .comp [⟨['c'], 0, 1⟩, ⟨['v'], 8, 3⟩]⟩
  | 6 => ⟨"/Q".toList, 32, .comp [⟨['c'], 0, 2⟩, ⟨['v'], 8, 4⟩]⟩
  | 7 => ⟨"/E".toList, 4, .enum [("A".toList, 0)]⟩
  | 8 => ⟨"/F".toList, 4, .enum [("A".toList, 0), ("B".toList, 1)]⟩
  | 9 => ⟨"/int*".toList, 8, .ptr 0⟩
  | 10 => ⟨"/N".toList, 16, .comp [⟨['p'], 0, 9⟩, ⟨['v'], 8, 0⟩]⟩
  | 11 => ⟨"/std/vector</int>".toList, 24, .vec 0⟩
  | 12 => ⟨"/R".toList, 36, .comp [⟨['c'], 0, 1⟩, ⟨['v'], 8, 11⟩, ⟨['d'], 32, 1⟩]⟩
  | 13 => ⟨"/S".toList, 40, .comp [⟨['c'], 0, 2⟩, ⟨['v'], 8, 11⟩, ⟨['d'], 32, 2⟩]⟩
  | _ => ⟨[], 0, .opaque⟩

def castHeap : Heap := ⟨14, castGet⟩

def castTree : TId → Option Ty := Verif.LayoutGraph.unfold castHeap 5

theorem cast_wf : WF castHeap := by
  constructor
  · intro t d ht hd
    match t with
    | 0 | 1 | 2 | 3 | 4 | 5 | 6 | 7 | 8 | 9 | 10 | 11 | 12 | 13 =>
      revert d
      decide
    | n + 14 => exact absurd hd (by show ¬ d ∈ ([] : List TId); simp)
  · intro t s h
    match t with
    | 0 | 1 | 2 | 3 | 4 | 5 | 6 | 9 | 10 | 11 | 12 | 13 => cases h
    | 7 => cases h; decide
    | 8 => cases h; decide
    | n + 14 => cases h

theorem cast_sane : Sane castHeap := by
  constructor
  · intro t d e h
    match t with
    | 0 | 1 | 2 | 3 | 4 | 5 | 6 | 7 | 8 | 9 | 10 | 11 | 12 | 13 => cases h
    | n + 14 => cases h
  · intro t e h
    match t with
    | 0 | 1 | 2 | 3 | 4 | 5 | 6 | 7 | 8 | 9 | 10 | 11 | 12 | 13 => cases h
    | n + 14 => cases h

theorem cast_some : ∀ t : TId, ∃ ty, castTree t = some ty := by
  intro t
  match t with
  | 0 | 1 | 2 | 3 | 4 | 5 | 6 | 7 | 8 | 9 | 10 | 11 | 12 | 13 => exact ⟨_, rfl⟩
  | n + 14 => exact ⟨_, rfl⟩

theorem cast_setup : Setup castHeap castTree := by
  refine ⟨cast_wf, cast_sane, fun t ty => ⟨fun h => ⟨5, h⟩, fun h => ?_⟩⟩
  obtain ⟨ty', h'⟩ := cast_some t
  rw [h', tree_unique h ⟨5, h'⟩]

theorem cast_noNull (a : TId) : NoNull castHeap a := by
  intro p t _ h
  obtain ⟨ty, h'⟩ := cast_some t
  simp only [castTree, Verif.LayoutGraph.unfold, h] at h'
  cases h'

def tC : Ty := .comp 4 (.cons 0 (.num 4) .nil)
def tD : Ty := .comp 8 (.cons 0 (.num 4) .nil)
def tR : Ty := .comp 36 (.cons 0 tC (.cons 8 (.vec 24 (.num 4)) (.cons 32 tC .nil)))
def tS : Ty := .comp 40 (.cons 0 tD (.cons 8 (.vec 24 (.num 4)) (.cons 32 tD .nil)))

theorem tR_tree : IsTree castHeap 12 tR := ⟨5, rfl⟩
theorem tS_tree : IsTree castHeap 13 tS := ⟨5, rfl⟩

theorem tR_ok : OkType tR := by
  simp [OkType, tR, tC, Ty.WF, Fields.WF, Ty.HasLayout, Fields.HasLayout, Ty.size, HALF, W]
theorem tS_ok : OkType tS := by
  simp [OkType, tS, tD, Ty.WF, Fields.WF, Ty.HasLayout, Fields.HasLayout, Ty.size, HALF, W]

/-- only one vector can be reached in both, by the same path, and it is the same -/
theorem cast_elements : SameElements castHeap 12 13 := by
  intro p x y ex ey h1 h2 h3 h4
  have key : ∀ (p : List Sel) (a b x y : TId), ((a = 12 ∧ b = 13) ∨ (a = 1 ∧ b = 2) ∨ a = b) → follow castHeap a p = some x →
      follow castHeap b p = some y → ((x = 12 ∧ y = 13) ∨ (x = 1 ∧ y = 2) ∨ x = y) := by
    intro p
    induction p with
    | nil => intro a b x y h h1 h2; cases h1; cases h2; exact h
    | cons s p ih =>
      intro a b x y h h1 h2
      unfold follow at h1 h2
      cases ha : part castHeap a s with
      | none => rw [ha] at h1; cases h1
      | some u =>
        cases hb : part castHeap b s with
        | none => rw [hb] at h2; cases h2
        | some v =>
          rw [ha] at h1; rw [hb] at h2
          refine ih u v x y ?_ h1 h2
          rcases h with ⟨rfl, rfl⟩ | ⟨rfl, rfl⟩ | rfl
          · cases s with
            | elem => cases ha
            | field i =>
              match i with
              | 0 => cases ha; cases hb; simp
              | 1 => cases ha; cases hb; simp
              | 2 => cases ha; cases hb; simp
              | i + 3 => cases ha
          · cases s with
            | elem => cases ha
            | field i =>
              match i with
              | 0 => cases ha; cases hb; simp
              | i + 1 => cases ha
          · rw [ha] at hb; cases hb; simp
  rcases key p 12 13 x y (by simp) h1 h2 with ⟨rfl, rfl⟩ | ⟨rfl, rfl⟩ | rfl
  · cases h3
  · cases h3
  · rw [h3] at h4; cases h4; rfl

theorem cast_compatible : Compatible castHeap 12 13 :=
  ⟨by decide, by decide, cast_noNull 12, by decide +kernel, cast_elements⟩
theorem cast_compatible' : Compatible castHeap 13 12 :=
  ⟨by decide, by decide, cast_noNull 13, by decide +kernel, cast_elements.symm⟩

/-- a value of type `/R` -/
def memR : Mem := [.byte 1, .byte 2, .byte 3, .byte 4, .byte 9, .byte 9, .byte 9, .byte 9] ++
  (.vec 4 [.byte 5, .byte 6, .byte 7, .byte 8] :: (List.replicate 23 .tail ++ [.byte 1, .byte 1, .byte 1, .byte 1]))
def valR : List AV := [.b 1, .b 2, .b 3, .b 4, .b 9, .b 9, .b 9, .b 9, .seq 1 [.b 5, .b 6, .b 7, .b 8], .b 1, .b 1, .b 1, .b 1]
/-- a value of type `/S` -/
def memS : Mem := [.byte 0, .byte 0, .byte 0, .byte 0, .byte 0, .byte 0, .byte 0, .byte 0] ++
  (.vec 0 [] :: (List.replicate 23 .tail ++ [.byte 0, .byte 0, .byte 0, .byte 0, .byte 7, .byte 7, .byte 7, .byte 7]))
def valS : List AV := [.b 0, .b 0, .b 0, .b 0, .b 0, .b 0, .b 0, .b 0, .seq 0 [], .b 0, .b 0, .b 0, .b 0, .b 7, .b 7, .b 7, .b 7]

theorem memR_valid : Valid env0 tR memR valR := by
  have h1 : Abs env0 (rep 1 (kinds (.num 4))) [.byte 5, .byte 6, .byte 7, .byte 8] [.b 5, .b 6, .b 7, .b 8] := .data (.data (.data (.data .nil)))
  have h2 : Abs env0 (.cont (.vec 24 (.num 4)) :: List.replicate 4 .data) _ _ :=
    .vec (cap := 4) (by decide) h1 (by decide) (by decide) (.data (x := 1) (.data (x := 1) (.data (x := 1) (.data (x := 1) .nil))))
  exact .data (.data (.data (.data (.pad (.pad (.pad (.pad h2)))))))

theorem memS_valid : Valid env0 tS memS valS := by
  have h1 : Abs env0 (rep 0 (kinds (.num 4))) [] [] := .nil
  have h2 : Abs env0 (.cont (.vec 24 (.num 4)) :: (List.replicate 4 .data ++ List.replicate 4 .pad)) _ _ :=
    .vec (cap := 0) (by decide) h1 (by decide) (by decide) (.data (x := 0) (.data (x := 0) (.data (x := 0) (.data (x := 0)
      (.pad (x := 7) (.pad (x := 7) (.pad (x := 7) (.pad (x := 7) .nil))))))))
  exact .data (.data (.data (.data (.pad (.pad (.pad (.pad h2)))))))

/-- zone 1 holds a `/R`, zone 2 a `/S` -/
def castStore : Store := fun
  | 1 => memR
  | 2 => memS
  | _ => []

def vR : RVal := ⟨12, some 1⟩
def vS : RVal := ⟨13, some 2⟩
theorem vR_holds : Holds castHeap env0 castStore vR tR valR := ⟨tR_tree, 1, rfl, memR_valid⟩
theorem vS_holds : Holds castHeap env0 castStore vS tS valS := ⟨tS_tree, 2, rfl, memS_valid⟩

example := C72_copy_partial cast_setup vR_holds vS_holds tR_ok tS_ok.1 cast_compatible
example := C72_copy_partial cast_setup vS_holds vR_holds tS_ok tR_ok.1 cast_compatible'
example := C72_compare_partial cast_setup vR_holds vS_holds tR_ok.1 (hasLayout_ptr _ _ tR_ok.2.1) tS_ok.1 cast_compatible
example := C72_copy_equal_partial cast_setup vR_holds vS_holds tR_ok tS_ok.1 cast_compatible
example := C72_compare_symmetric_partial cast_setup vR_holds vS_holds tR_ok.1 (hasLayout_ptr _ _ tR_ok.2.1) tS_ok.1
  (hasLayout_ptr _ _ tS_ok.2.1) cast_compatible cast_compatible'
example := C72_cast_partial cast_setup vR_holds tS_tree tR_ok.1 (hasLayout_ptr _ _ tR_ok.2.1) tS_ok.1 cast_compatible
example := C72_dup_partial cast_setup vR_holds tR_ok (cast_noNull 12) (by decide) (p := 3) (by decide) memR_valid

/-- what the copy does -/
example : rbCopy castHeap castTree env0 castStore vS vR = .ok () (castStore.set 2
    ([.byte 1, .byte 2, .byte 3, .byte 4, .byte 9, .byte 9, .byte 9, .byte 9] ++
      (.vec 4 [.byte 5, .byte 6, .byte 7, .byte 8] :: (List.replicate 23 .tail ++
        [.byte 1, .byte 1, .byte 1, .byte 1, .byte 7, .byte 7, .byte 7, .byte 7])))) := rfl
example : rbCompare castHeap castTree castStore vS vR = .ok false castStore := rfl
/-- three values that are equal -/
example : rbCompare castHeap castTree castStore vR vR = .ok true castStore := rfl
theorem same_twice : Compatible castHeap 12 12 := ⟨by decide, by decide, cast_noNull 12, by decide, by
  intro pa a b ea eb h1 h2 h3 h4
  rw [h1] at h2; cases h2
  rw [h3] at h4; cases h4
  rfl⟩
example : rbCompare castHeap castTree castStore vR vR = .ok true castStore :=
  C72_compare_transitive_partial cast_setup vR_holds vR_holds vR_holds tR_ok.1 tR_ok.1 (hasLayout_ptr _ _ tR_ok.2.1) tR_ok.1
    (hasLayout_ptr _ _ tR_ok.2.1) same_twice same_twice same_twice rfl rfl
/-- an integer is not a structure -/
example : rbCompare castHeap castTree castStore vR ⟨0, some 3⟩ = .exn .rbArg castStore :=
  ((C72_refused castTree env0 castStore vR ⟨0, some 3⟩).1 (by decide +kernel)).2.1

/-! ### Counterexamples -/

/-- a `/P` with three elements, an empty `/Q` -/
def vecStore : Store := fun
  | 1 => List.replicate 8 (.byte 0) ++ (.vec 12 (List.replicate 12 (.byte 1)) :: List.replicate 23 .tail)
  | 2 => List.replicate 8 (.byte 0) ++ (.vec 0 [] :: List.replicate 23 .tail)
  | _ => []

def tP : Ty := .comp 32 (.cons 0 tC (.cons 8 (.vec 24 tC) .nil))
def tQ : Ty := .comp 32 (.cons 0 tD (.cons 8 (.vec 24 tD) .nil))

theorem tP_tree : IsTree castHeap 5 tP := ⟨5, rfl⟩
theorem tQ_tree : IsTree castHeap 6 tQ := ⟨5, rfl⟩

def valP : List AV := [.b 0, .b 0, .b 0, .b 0, .b 0, .b 0, .b 0, .b 0, .seq 3 (List.replicate 12 (.b 1))]
def valQ : List AV := [.b 0, .b 0, .b 0, .b 0, .b 0, .b 0, .b 0, .b 0, .seq 0 []]
theorem vecP_holds : Holds castHeap env0 vecStore ⟨5, some 1⟩ tP valP := by
  refine ⟨tP_tree, 1, rfl, ?_⟩
  have h1 : Abs env0 (rep 3 (kinds tC)) (List.replicate 12 (.byte 1)) (List.replicate 12 (.b 1)) :=
    .data (.data (.data (.data (.data (.data (.data (.data (.data (.data (.data (.data .nil)))))))))))
  have h2 : Abs env0 [.cont (.vec 24 tC)] _ _ := .vec (cap := 12) (by decide) h1 (by decide) (by decide) .nil
  exact .data (.data (.data (.data (.pad (.pad (.pad (.pad h2)))))))
theorem vecQ_holds : Holds castHeap env0 vecStore ⟨6, some 2⟩ tQ valQ := by
  refine ⟨tQ_tree, 2, rfl, ?_⟩
  have h2 : Abs env0 [.cont (.vec 24 tD)] _ _ := .vec (cap := 0) (n := 0) (buf := []) (flat := []) (by decide) .nil (by decide) (by decide) .nil
  exact .data (.data (.data (.data (.pad (.pad (.pad (.pad h2)))))))

def after : Store := vecStore.set 2 (List.replicate 8 (.byte 0) ++ (.vec 12 (List.replicate 12 (.byte 1)) :: List.replicate 23 .tail))

theorem vec_copy : rbCopy castHeap castTree env0 vecStore ⟨6, some 2⟩ ⟨5, some 1⟩ = .ok () after := rfl

theorem not_whole {w : List AV} : ¬ Valid env0 tQ (after 2) w := by
  intro h
  unfold Valid at h
  have e : kinds tQ = List.replicate 4 .data ++ (List.replicate 4 .pad ++ [.cont (.vec 24 tD)]) := rfl
  rw [e] at h
  obtain ⟨m1, m2, v1, v2, hm, _, h1, h2⟩ := h.split
  obtain ⟨m3, m4, v3, v4, hm2, _, h3, h4⟩ := h2.split
  have l1 := h1.length.1
  have l3 := h3.length.1
  have l1 : m1.length = 4 := by simpa [itemsSize, Item.size] using l1
  have l3 : m3.length = 4 := by simpa [itemsSize, Item.size] using l3
  have : m4 = (after 2).drop 8 := by
    rw [hm, hm2, ← List.append_assoc, List.drop_left' (by simp [l1, l3])]
  rw [this] at h4
  have e2 : (after 2).drop 8 = .vec 12 (List.replicate 12 (.byte 1)) :: List.replicate 23 .tail := rfl
  rw [e2] at h4
  generalize hg : (Cell.vec 12 (List.replicate 12 (.byte 1)) :: List.replicate 23 .tail) = M at h4
  cases h4 with
  | @vec _ _ _ cap buf n flat m v _ hb _ _ _ =>
    injection hg with hg _
    injection hg with _ hg
    have l := hb.length.1
    rw [← hg] at l
    rw [show kinds tD = List.replicate 4 .data ++ List.replicate 4 .pad from rfl] at l
    have e3 : ∀ n, itemsSize (rep n (List.replicate 4 Item.data ++ List.replicate 4 .pad)) = n * 8 := by
      intro n
      induction n with
      | zero => rfl
      | succ n ih => rw [rep_succ, itemsSize_append, ih]; show 8 + n * 8 = _; omega
    rw [e3] at l
    simp only [List.length_replicate] at l
    omega

/-- **C72 fails for vectors of structures with different padding**: the types can be cast, the copy is done and the target holds a
vector with 12 bytes of 8-byte elements. -/
theorem C72_vector_counterexample :
    canCastTo castHeap 5 6 = .ok true ∧ Holds castHeap env0 vecStore ⟨5, some 1⟩ tP valP ∧
    Holds castHeap env0 vecStore ⟨6, some 2⟩ tQ valQ ∧
    ∃ st', rbCopy castHeap castTree env0 vecStore ⟨6, some 2⟩ ⟨5, some 1⟩ = .ok () st' ∧
      ∀ w, ¬ Holds castHeap env0 st' ⟨6, some 2⟩ tQ w := by
  refine ⟨by decide +kernel, vecP_holds, vecQ_holds, after, vec_copy, fun w h => ?_⟩
  obtain ⟨_, p, hp, hv⟩ := h
  cases hp
  exact not_whole hv

/-- **C72: `==` raises an error instead of answering false**, and one way round only: an enum with less symbols than another one. -/
theorem C72_equality_counterexample (st : Store) (hst : st 1 = [.byte 0, .byte 0, .byte 0, .byte 0] ∧ st 2 = [.byte 0, .byte 0, .byte 0, .byte 0]) :
    rbCompare castHeap castTree st ⟨8, some 2⟩ ⟨7, some 1⟩ = .ok true st ∧
    rbCompare castHeap castTree st ⟨7, some 1⟩ ⟨8, some 2⟩ = .exn .rbArg st := by
  constructor
  · have hc : canCastTo castHeap 7 8 = .ok true := by decide +kernel
    have hz : compare (.enum 4 [0]) [.byte 0, .byte 0, .byte 0, .byte 0] [.byte 0, .byte 0, .byte 0, .byte 0] = .ok true ⟨4, 4⟩ := rfl
    unfold rbCompare
    rw [if_pos (show (⟨7, some 1⟩ : RVal).ty ≠ (⟨8, some 2⟩ : RVal).ty by decide), hc]
    simp only [compareZone, Store.at, hst.1, hst.2]
    rw [show castTree 7 = some (.enum 4 [0]) from rfl]
    simp only
    rw [hz]
  · exact ((C72_refused castTree env0 st ⟨7, some 1⟩ ⟨8, some 2⟩).1 (by decide +kernel)).2.1

example : castStore.set 1 [.byte 0, .byte 0, .byte 0, .byte 0] 1 = [.byte 0, .byte 0, .byte 0, .byte 0] := rfl

/-- **C72: copying a value that contains a pointer ends the process**: it has no layout, and the exception is not caught. Comparing
such values works. -/
theorem C72_abort_counterexample (st : Store) (x p : Nat) (fresh m : Mem) (hm : st x = m) (hl : m = List.replicate 16 (.byte 0)) :
    rbDup castHeap castTree env0 st ⟨10, some x⟩ p fresh = .ub ∧
    rbCompare castHeap castTree st ⟨10, some x⟩ ⟨10, some x⟩ = .ok true st := by
  subst hm
  constructor
  · rfl
  · have hz : compare (.comp 16 (.cons 0 (.ptr 8) (.cons 8 (.num 4) .nil))) (List.replicate 16 (.byte 0)) (List.replicate 16 (.byte 0)) =
        .ok true ⟨12, 12⟩ := rfl
    unfold rbCompare
    rw [if_neg (by simp)]
    simp only [compareZone, Store.at, hl]
    rw [show castTree 10 = some (.comp 16 (.cons 0 (.ptr 8) (.cons 8 (.num 4) .nil))) from rfl]
    simp only
    rw [hz]

/-- **C72: comparing an invalidated value reads from a null pointer** (a copy is refused, a comparison is not). -/
theorem C72_invalidated_counterexample (st : Store) (x : RVal) :
    rbCompare castHeap castTree st ⟨0, none⟩ ⟨0, x.data⟩ = .ub := by
  have hz : ∀ m, compare (.num 4) [] m = .ub := fun _ => rfl
  unfold rbCompare
  rw [if_neg (by simp)]
  simp only [compareZone, Store.at]
  rw [show castTree 0 = some (.num 4) from rfl]
  simp only
  rw [hz]

/-- `value_memory_eql_p` (value.cc:602-614): `memcmp` over the size of the type -/
def rbMemoryEql (H : Heap) (st : Store) (x y : RVal) : Out Store Bool :=
  if x.data = y.data then .ok true st
  else
    match readBytes (st.at x.data) 0 (H.size x.ty), readBytes (st.at y.data) 0 (H.size x.ty) with
    | some a, some b => .ok (a == b) st
    | _, _ => .ub

/-- **C72: a cast to a larger type is allowed**, and the new value is larger than the memory it refers to. -/
theorem C72_overrun_counterexample (st : Store) (h1 : st 1 = [.byte 0, .byte 0, .byte 0, .byte 0]) :
    rbCast castHeap ⟨1, some 1⟩ 2 = .ok ⟨2, some 1⟩ ∧ (∀ w, ¬ Valid env0 tD (st 1) w) ∧
    rbMemoryEql castHeap st ⟨2, some 1⟩ ⟨2, some 2⟩ = .ub := by
  refine ⟨?_, fun w h => ?_, ?_⟩
  · have : canCastTo castHeap 1 2 = .ok true := by decide +kernel
    simp [rbCast, this]
  · have l := h.length.1
    rw [h1] at l
    cases l
  · simp only [rbMemoryEql, Store.at, h1]
    rfl

end Verif.Cast
