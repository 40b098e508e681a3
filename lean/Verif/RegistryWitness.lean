import Verif.RegistryExamples
import Verif.RegistryEntry
import Verif.RegistryMore

/-! The theorems on registries (C02, C21 – C25, C47) on the registry of `RegistryExamples`: their hypotheses are met by a
registry with aliases, derived names and a default namespace. -/

namespace Verif.Registry
open Verif Verif.Names Verif.Graph

/-! ### C02 -/

example := C02_default_namespace ascii_inj exAcyclic exReachable ["N".toList] "/N".toList
  (by unfold Ident; decide) (.inr ⟨by decide, by decide⟩)

example := C02_import_namespace ascii_inj exAcyclic exReachable ["std".toList] "/std/".toList
  (by unfold PlainTok; decide) (.inl (by decide)) false

/-! ### C21 -/

example := C21_add ascii_inj exAcyclic exReachable 5 (by decide) (by decide) true []

/-- `/B[3]` is an alias of `/A`; the name `/B[3]*` it gives to `/A*` is not valid -/
def failReg : Reg := run ascii exHeap Reg.empty [.addAuto 0 [], .alias "/A".toList "/B[3]".toList true []]

theorem failReg_reachable : Reachable ascii exHeap failReg := by
  refine reachable_ops exAcyclic _ ?_
  intro o ho
  simp only [List.mem_cons, List.mem_nil_iff, or_false] at ho
  rcases ho with rfl | rfl
  · exact ⟨by decide, by decide⟩
  · show isAbsoluteName _ = true; decide

example := C21_failed_add_partial ascii_inj exAcyclic failReg_reachable 1 (by decide) (by decide) false [] (by decide +kernel)

/-- the derived names of a registry are made of its entries -/
theorem derived_entries {H : Heap} {R : Reg} (hR : Reachable ascii H R) {n : Str} {u : TId} (h : DerivedName H R n u) :
    ∃ p ∈ R.global, ∃ q ∈ R.global, p.2.ty = u ∧ (H.kind u).indirectName.map (· q.1) = some n ∧
      (H.kind u).elem? = some q.2.ty ∧ q.1 ≠ H.name q.2.ty := by
  obtain ⟨hu, ind, x, a, h1, h2, rfl, ha, hg, hne⟩ := h
  have hi := (reachable_inv ascii_inj hR).2
  obtain ⟨e, he, hte⟩ := reg_mem ((hi.regd_iff u).mp hu)
  rw [hi.abs a ha] at hg
  obtain ⟨e', he', rfl⟩ := reg_mem hg
  exact ⟨_, he, _, he', hte, by rw [h1]; rfl, h2, hne⟩

/-- the vector of `/A` is added to a registry where `/A` has an alias -/
example : (add ascii exHeap (run ascii exHeap Reg.empty (exOps.take 4)) 3 true []).2 = .ok () := by
  have hr : ∀ k, Reachable ascii exHeap (run ascii exHeap Reg.empty (exOps.take k)) := by
    intro k
    refine reachable_ops exAcyclic _ ?_
    intro o ho
    have ho := List.mem_of_mem_take ho
    simp only [exOps, List.mem_cons, List.mem_nil_iff, or_false] at ho
    rcases ho with rfl | rfl | rfl | rfl | rfl | rfl | rfl
    all_goals first | exact ⟨by decide, by decide⟩ | (show isAbsoluteName _ = true; decide) |
      (show ∀ c ∈ "/N".toList, c ≠ '<' ∧ c ≠ '>'; decide)
  refine C21_add_succeeds ascii_inj exAcyclic (hr 4) 3 (by decide) (by decide) true [] (by decide +kernel)
    (.inl (by decide +kernel)) ?_
  intro n u hd
  have hr' : Reachable ascii exHeap (add ascii exHeap (run ascii exHeap Reg.empty (exOps.take 4)) 3 true []).1 :=
    reachable_run (hr 4) [.add 3 true []] (by intro o ho; rw [List.mem_singleton] at ho; subst ho; exact ⟨by decide, by decide⟩)
  obtain ⟨p, hp, q, hq, h1, h2, h3, h4⟩ := derived_entries hr' hd
  have key : ∀ p ∈ (add ascii exHeap (run ascii exHeap Reg.empty (exOps.take 4)) 3 true []).1.global,
      ∀ q ∈ (add ascii exHeap (run ascii exHeap Reg.empty (exOps.take 4)) 3 true []).1.global,
      (((exHeap.kind p.2.ty).elem? != some q.2.ty) ||
        ((exHeap.kind p.2.ty).indirectName.map (fun f => isValidTypename (f q.1) true)).all id) = true := by decide +kernel
  have := key p hp q hq
  rw [h1] at this
  cases hi : (exHeap.kind u).indirectName with
  | none => rw [hi] at h2; cases h2
  | some f =>
    rw [hi] at h2 this
    cases h2
    simpa [h3] using this

example := C21_alias ascii_inj exAcyclic exReachable "/A".toList "/C".toList (by decide) true []

example := C21_removeAlias ascii_inj exAcyclic exReachable "/N/B".toList (by decide)

example := C21_clearAliases ascii_inj exAcyclic exReachable "/N/B*".toList (by decide)

example := C21_namespaces_keep ascii_inj exAcyclic exReachable "/N/B*".toList (by decide)

/-- `/N/B*` through the removal of another alias, and of a type that does not need it -/
example := C21_lifetime ascii_inj exAcyclic exReachable [.removeAlias "/N/B".toList, .remove 2, .addAuto 5 []]
  (by
    intro o ho
    simp only [List.mem_cons, List.mem_nil_iff, or_false] at ho
    rcases ho with rfl | rfl | rfl
    · trivial
    · trivial
    · exact ⟨by decide, by decide⟩)
  "/N/B*".toList 1 (by decide) (by decide +kernel)

/-! ### C22 -/

theorem exOps_ok : ∀ o ∈ exOps, OkOp exHeap o := by
  intro o ho
  simp only [exOps, List.mem_cons, List.mem_nil_iff, or_false] at ho
  rcases ho with rfl | rfl | rfl | rfl | rfl | rfl | rfl
  all_goals first | exact ⟨by decide, by decide⟩ | (show isAbsoluteName _ = true; decide) |
    (show ∀ c ∈ "/N".toList, c ≠ '<' ∧ c ≠ '>'; decide)

example := C22_root_namespace_partial ascii_inj exAcyclic (exOps.take 6)
  (fun o ho => exOps_ok o (List.mem_of_mem_take ho))
  (by
    intro o ho
    simp only [exOps, List.take, List.mem_cons, List.mem_nil_iff, or_false] at ho
    rcases ho with rfl | rfl | rfl | rfl | rfl | rfl <;> trivial)
  "N/B*".toList (by decide)

/-- the example with another default namespace: the same absolute names -/
example := C22_refreshed_partial ascii_inj exAcyclic exReachable
  (R2 := (setDefaultNamespace ascii exReg "/std".toList).1)
  (reachable_run exReachable [.setDefaultNamespace "/std".toList]
    (by
      intro o ho
      rw [List.mem_singleton] at ho
      subst ho
      show ∀ c ∈ "/std".toList, c ≠ '<' ∧ c ≠ '>'
      decide))
  (fun n hn => ((C21_namespaces_keep ascii_inj exAcyclic exReachable n hn).1 "/std".toList (by
    show ∀ c ∈ "/std".toList, c ≠ '<' ∧ c ≠ '>'
    decide)).symm)
  "/N".toList (by decide) "B".toList

/-- `/T` and `/Z/T`, in both orders, with the default namespace `/Z` -/
example (n : Str) : (run ascii exHeap Reg.empty [.setDefaultNamespace "/Z".toList, .addAuto 5 [], .addAuto 6 []]).get n =
    (run ascii exHeap Reg.empty [.setDefaultNamespace "/Z".toList, .addAuto 6 [], .addAuto 5 []]).get n := by
  have hz : OkOp exHeap (.setDefaultNamespace "/Z".toList) := by
    show ∀ c ∈ "/Z".toList, c ≠ '<' ∧ c ≠ '>'
    decide
  have h5 : OkOp exHeap (.addAuto 5 []) := ⟨by decide, by decide⟩
  have h6 : OkOp exHeap (.addAuto 6 []) := ⟨by decide, by decide⟩
  have hr : ∀ ops, (∀ o ∈ ops, OkOp exHeap o) → Inv ascii exHeap (run ascii exHeap Reg.empty ops) := fun ops ho =>
    (reachable_inv ascii_inj (reachable_ops exAcyclic ops ho)).2
  have ok1 : ∀ o ∈ [Op.addAuto 5 [], .addAuto 6 []], OkOp exHeap o ∧ AddOp o := by
    intro o ho
    simp only [List.mem_cons, List.mem_nil_iff, or_false] at ho
    rcases ho with rfl | rfl
    · exact ⟨h5, trivial⟩
    · exact ⟨h6, trivial⟩
  have ok2 : ∀ o ∈ [Op.addAuto 6 [], .addAuto 5 []], OkOp exHeap o ∧ AddOp o := by
    intro o ho
    simp only [List.mem_cons, List.mem_nil_iff, or_false] at ho
    rcases ho with rfl | rfl
    · exact ⟨h6, trivial⟩
    · exact ⟨h5, trivial⟩
  refine C22_registrations_partial ascii_inj exAcyclic "/Z".toList hz _ _ ok1 ok2 ?_ n
  intro m hm
  rw [(hr _ (by
    intro o ho
    rcases List.mem_cons.mp ho with rfl | ho
    · exact hz
    · exact (ok1 o ho).1)).abs m hm, (hr _ (by
    intro o ho
    rcases List.mem_cons.mp ho with rfl | ho
    · exact hz
    · exact (ok2 o ho).1)).abs m hm]
  unfold Reg.reg
  have : (run ascii exHeap Reg.empty [.setDefaultNamespace "/Z".toList, .addAuto 5 [], .addAuto 6 []]).global =
    (run ascii exHeap Reg.empty [.setDefaultNamespace "/Z".toList, .addAuto 6 [], .addAuto 5 []]).global := by decide +kernel
  rw [this]

/-! ### C23, C24 -/

example := C23_remove ascii_inj exAcyclic exReachable 1

example := C24_resolved_types_are_registered ascii_inj exAcyclic exReachable "B*".toList 1 (by decide +kernel)

example := C24_relative_names_sound ascii_inj exAcyclic exReachable "B*".toList 1 (by decide) (by decide +kernel)

example := C24_getAliasesOf ascii_inj exAcyclic exReachable 1 "/N/B*".toList

example := C24_types_survive ascii_inj exAcyclic exReachable 1 (by unfold Regd; decide +kernel)

/-! ### C25 -/

example := C25_alias_terminates ascii_inj exAcyclic exReachable "/A".toList "/C".toList (by decide) true []

/-- `/A`, `/A*`, the alias `/N/B`, then the vector of `/A` -/
def builtReg : Reg := run ascii exHeap Reg.empty
  [.add 0 true [], .add 1 false [], .alias "/A".toList "/N/B".toList true [], .add 3 true []]

theorem builtReg_built : Built ascii exHeap builtReg :=
  .add 3 true [] (.alias "/A".toList "/N/B".toList true [] (.add 1 false [] (.add 0 true [] .empty ⟨by decide, by decide⟩
    (by decide +kernel)) ⟨by decide, by decide⟩ (by decide +kernel)) (by show isAbsoluteName _ = true; decide)
    (by decide +kernel)) ⟨by decide, by decide⟩ (by decide +kernel)

example : ∃ v, builtReg.get "/std/vector</N/B>".toList = some v :=
  C25_all_aliases_propagated ascii_inj exAcyclic builtReg_built "/N/B".toList 0 3 (fun n => "/std/vector<".toList ++ n ++ ['>'])
    (by decide) (by decide +kernel) (by decide) (by unfold Regd; decide +kernel) rfl rfl

/-! ### C47 -/

example := C47_add ascii_inj exReachable 5 (by decide) (by decide) true "t.hh".toList (by decide +kernel) (by decide +kernel)

example := C47_add_default ascii_inj exReachable 5 (by decide) (by decide) "t.hh".toList (by decide +kernel) (by decide +kernel)

example := C47_alias ascii_inj exReachable "/A".toList "/C".toList (by decide) false "c.hh".toList (by decide +kernel)
  (by decide +kernel)

example := C47_alias_default ascii_inj exReachable "/A".toList "/C".toList (by decide) "c.hh".toList (by decide +kernel)
  (by decide +kernel)

example (n : Str) (e : Entry) := C47_history ascii_inj exAcyclic autoOps autoOps_ok.1 autoOps_ok.2 n e

end Verif.Registry
