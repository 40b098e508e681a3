import Verif.MergeConflict
import Verif.MergeExamples

/-! Concrete registries for `C29_conflict` and `C29_no_damage`. -/

namespace Verif.Merge
open Verif Verif.Names Verif.Graph Verif.Registry Verif.TypeBuilder

set_option linter.unusedSimpArgs false
set_option linter.unusedVariables false

/-- a type that is only made of types of `S` -/
theorem depStar_mem {H : Heap} {S : List TId} (h : ∀ u ∈ S, ∀ d ∈ H.deps u, d ∈ S) {t u : TId} (ht : t ∈ S)
    (hs : DepStar H t u) : u ∈ S := by
  induction hs with
  | refl => exact ht
  | step _ hd ih => exact h _ ih _ hd

/-! ### `/N/S` … into a registry with another `/A` -/

theorem mgNoShare : NoShare mgHeap mgDst mgSrc := by
  intro u t hu ht hs
  have h1 := mgSrc_types hu
  have h2 := depStar_mem (S := [7, 8]) (by decide +kernel) (mgDst_types ht) hs
  have : ∀ u ∈ [0, 1, 2, 3, 4, 5, 6], u ∉ [7, 8] := by decide
  exact this u h1 h2

theorem mgNoNull : NoNull (ignoreContainerSizes mgHeap) 7 := by
  intro p t h
  cases p with
  | nil => cases h; decide
  | cons s p => cases s <;> cases h

example : SameDefinition (ignoreContainerSizes mgHeap) 7 0 :=
  C29_conflict ascii_inj mgDst_reachable mgSrc_reachable mgWF mgCopyable.deps mgNoShare 100 (by decide +kernel) 0 7
    (mgSrc_regd 0 (by decide)) (by decide +kernel) mgNoNull

example := C29_no_damage ascii_inj mgDst_reachable mgSrc_reachable mgWF mgCopyable.deps mgNoShare 100

/-! ### Two types `/B` of different sizes: the merge never succeeds, and the destination's `/B` stays -/

def maDst : Reg := run ascii maHeap Reg.empty [.addAuto 2 []]
def maSrc : Reg := run ascii maHeap Reg.empty [.addAuto 0 [], .addAuto 1 []]

theorem maAcyclic : Acyclic maHeap := by
  intro u x h
  match u with
  | 0 | 1 | 2 => cases h
  | n + 3 => cases h

theorem maWF : WF maHeap := by
  refine ⟨?_, ?_⟩
  · intro t d ht hd
    have : ∀ t ∈ List.range 3, ∀ d ∈ maHeap.deps t, d < 3 := by decide +kernel
    exact this t (List.mem_range.mpr ht) d hd
  · intro t s h
    have h' : (maGet t).kind = .enum s := h
    match t with
    | 0 | 1 | 2 => cases h'
    | n + 3 => cases h'

theorem maSrc_reachable : Reachable ascii maHeap maSrc := by
  refine reachable_ops maAcyclic [.addAuto 0 [], .addAuto 1 []] ?_
  intro o ho
  simp only [List.mem_cons, List.mem_nil_iff, or_false] at ho
  rcases ho with rfl | rfl
  all_goals exact ⟨by decide, by decide⟩

theorem maDst_reachable : Reachable ascii maHeap maDst := by
  refine reachable_ops maAcyclic [.addAuto 2 []] ?_
  intro o ho
  simp only [List.mem_cons, List.mem_nil_iff, or_false] at ho
  subst ho
  exact ⟨by decide, by decide⟩

theorem maSrc_types {u : TId} (hu : Regd maHeap maSrc u) : u ∈ [0, 1] := by
  obtain ⟨p, hp, rfl⟩ := regd_entry (reachable_inv ascii_inj maSrc_reachable).2 hu
  have : ∀ p ∈ maSrc.global, p.2.ty ∈ [0, 1] := by decide +kernel
  exact this p hp

theorem maDst_types {u : TId} (hu : Regd maHeap maDst u) : u ∈ [2] := by
  obtain ⟨p, hp, rfl⟩ := regd_entry (reachable_inv ascii_inj maDst_reachable).2 hu
  have : ∀ p ∈ maDst.global, p.2.ty ∈ [2] := by decide +kernel
  exact this p hp

theorem maNoShare : NoShare maHeap maDst maSrc := by
  intro u t hu ht hs
  have h1 := maSrc_types hu
  have h2 := depStar_mem (S := [2]) (by decide +kernel) (maDst_types ht) hs
  have : ∀ u ∈ [0, 1], u ∉ [2] := by decide
  exact this u h1 h2

theorem maClosed (u d : TId) (hu : Regd maHeap maSrc u) (hd : d ∈ maHeap.deps u) : Regd maHeap maSrc d := by
  have h1 := maSrc_types hu
  simp only [List.mem_cons, List.mem_nil_iff, or_false] at h1
  rcases h1 with rfl | rfl <;> cases hd

example (fuel : Nat) : (merge ascii fuel (maHeap, maDst) maSrc).2 ≠ .ok () := by
  intro h
  have := C29_conflict ascii_inj maDst_reachable maSrc_reachable maWF maClosed maNoShare fuel h 1 2
    (by unfold Regd; decide +kernel) (by decide +kernel) (by
      intro p t h
      cases p with
      | nil => cases h; decide
      | cons s p => cases s <;> cases h) []
  revert this
  decide +kernel

example (fuel : Nat) : (merge ascii fuel (maHeap, maDst) maSrc).1.2.reg "/B".toList = some 2 :=
  (C29_no_damage ascii_inj maDst_reachable maSrc_reachable maWF maClosed maNoShare fuel).2 _ _ (by decide) (by decide +kernel)

end Verif.Merge
