import Verif.RegistryOrder

/-! A concrete heap and registry: the hypotheses of the theorems on registries are satisfiable; the
counterexamples to C21 (failed `add`) and C22. -/

namespace Verif.Registry
open Verif Verif.Names Verif.Graph

/-- character codes: a collating sequence -/
def ascii : Char → Int := fun c => (c.toNat : Int)

theorem ascii_inj : ∀ a b, ascii a = ascii b → a = b := by
  intro a b h
  have : a.toNat = b.toNat := by unfold ascii at h; omega
  exact Char.toNat_inj.mp this

/-- `/A`, `/A*`, `/A*[2]`, `/std/vector</A>`, a compound `/N/S`, `/T`, `/Z/T`, and two types with names
that the validity check accepts although they are not absolute names -/
def exGet : TId → TypeDef
  | 0 => ⟨"/A".toList, 4, .num .sint⟩
  | 1 => ⟨"/A*".toList, 8, .ptr 0⟩
  | 2 => ⟨"/A*[2]".toList, 16, .arr 2 1⟩
  | 3 => ⟨"/std/vector</A>".toList, 24, .vec 0⟩
  | 4 => ⟨"/N/S".toList, 32, .comp [⟨"p".toList, 0, 1⟩, ⟨"v".toList, 8, 3⟩]⟩
  | 5 => ⟨"/T".toList, 4, .num .uint⟩
  | 6 => ⟨"/Z/T".toList, 8, .num .uint⟩
  | 7 => ⟨"3>".toList, 8, .num .uint⟩
  | 8 => ⟨"/A>//x".toList, 8, .num .uint⟩
  | _ => ⟨[], 0, .null⟩

def exHeap : Heap := ⟨9, exGet⟩

theorem exAcyclic : Acyclic exHeap := by
  intro u x h
  match u with
  | 0 | 4 | 5 | 6 | 7 | 8 => cases h
  | 1 => cases h; show (0 : Nat) < 1; decide
  | 2 => cases h; show (1 : Nat) < 2; decide
  | 3 => cases h; show (0 : Nat) < 3; decide
  | n + 9 => cases h

theorem exNamed : NamedByElement exHeap := by
  intro u ind x hi he
  match u with
  | 0 | 4 | 5 | 6 | 7 | 8 => cases he
  | 1 => cases hi; cases he; decide
  | 2 => cases hi; cases he; decide
  | 3 => cases hi; cases he; decide
  | n + 9 => cases he

/-- a history with all kinds of operations -/
def exOps : List Op :=
  [.addAuto 0 [], .addAuto 1 [], .addAuto 2 [], .alias "/A".toList "/N/B".toList true [],
   .addAuto 3 [], .addAuto 4 [], .setDefaultNamespace "/N".toList]

def exReg : Reg := run ascii exHeap Reg.empty exOps

theorem exReachable : Reachable ascii exHeap exReg := by
  refine reachable_ops exAcyclic exOps ?_
  intro o ho
  simp only [exOps, List.mem_cons, List.mem_nil_iff, or_false] at ho
  rcases ho with rfl | rfl | rfl | rfl | rfl | rfl | rfl
  all_goals first | exact ⟨by decide, by decide⟩ | (show isAbsoluteName _ = true; decide) |
    (show ∀ c ∈ "/N".toList, c ≠ '<' ∧ c ≠ '>'; decide)

/-- the alias `/N/B` of `/A` propagated to the pointer, to the array of pointers, and to the vector
registered later; relative names resolve in `/N/` first -/
example : exReg.get "/N/B*[2]".toList = some 2 ∧ exReg.get "/std/vector</N/B>".toList = some 3 ∧
    exReg.get "B*".toList = some 1 ∧ exReg.get "A".toList = some 0 ∧ exReg.get "S".toList = some 4 := by
  decide +kernel

/-- removal of `/A*` takes the array of pointers and the compound with it, and nothing else -/
example : (remove exHeap exReg 1).2 = .ok [1, 2, 4] ∧
    (remove exHeap exReg 1).1.get "/N/B*[2]".toList = none ∧
    (remove exHeap exReg 1).1.get "/N/B".toList = some 0 := by
  decide +kernel

/-- the theorems apply to this registry -/
example : ∀ u ind, Regd exHeap (alias ascii exHeap exReg "/A".toList "/C".toList true []).1 u →
    (exHeap.kind u).indirectName = some ind → (exHeap.kind u).elem? = some 0 →
    ∃ v, (alias ascii exHeap exReg "/A".toList "/C".toList true []).1.get (ind "/C".toList) = some v ∧
      (exReg.get (ind "/C".toList) = none → ind "/C".toList ≠ "/C".toList → v = u) :=
  (C25_alias_propagates ascii_inj exAcyclic exNamed exReachable "/A".toList "/C".toList (by decide) true []
    0 (by decide +kernel) (by decide) (by decide +kernel)).2 _ _ (by decide) (Or.inl ⟨rfl, rfl⟩)

/-! ### C21: a failed `add` is not always without effect -/

/-- **C21, the unrestricted "a failed `add` changes nothing" is false.** `/B[3]` is a valid name for an
alias of `/A`; registering the pointer type `/A*` then registers it, tries the alias `/B[3]*`, which is
not a valid name, and throws. -/
theorem C21_failed_add_counterexample :
    ∃ (H : Heap) (R : Reg) (t : TId), Acyclic H ∧ Reachable ascii H R ∧ t < H.next ∧
      isAbsoluteName (H.name t) = true ∧ R.get (H.name t) = none ∧
      (add ascii H R t false []).2 = .exn .badName ∧
      (add ascii H R t false []).1.get (H.name t) = some t := by
  refine ⟨exHeap, run ascii exHeap Reg.empty
    [.addAuto 0 [], .alias "/A".toList "/B[3]".toList true []], 1, exAcyclic, reachable_ops exAcyclic _ ?_,
    by decide, by decide, by decide +kernel, by decide +kernel, by decide +kernel⟩
  intro o ho
  simp only [List.mem_cons, List.mem_nil_iff, or_false] at ho
  rcases ho with rfl | rfl
  · exact ⟨by decide, by decide⟩
  · show isAbsoluteName _ = true; decide

/-- The side conditions of `OkOp` are needed. The validity check accepts `3>` as an absolute type name;
with such a name and the namespace `/A>/`, which `setDefaultNamespace` accepts as well, a type is found
under an absolute name that nobody registered. -/
theorem C21_side_conditions_needed :
    (add ascii exHeap Reg.empty 7 true []).2 = .ok () ∧ isAbsoluteName (exHeap.name 7) = false ∧
    (let R := run ascii exHeap Reg.empty [.addAuto 8 [], .importNamespace "/A>/".toList true]
     R.get "/x".toList = some 8 ∧ "/x".toList ∉ getAliasesOf exHeap R 8 ∧ exHeap.name 8 ≠ "/x".toList) := by
  decide +kernel

/-! ### C22 -/

/-- **C22 is false as stated.** With the types `/T` and `/Z/T` and the default namespace `/Z`, the
relative name `T` designates `/Z/T` when the namespace is set after the registrations and `/T` when it
is set before; absolute names agree. -/
theorem C22_counterexample :
    ∃ (H : Heap) (ops1 ops2 : List Op) (rel : Str), Acyclic H ∧ (∀ o ∈ ops1, OkOp H o) ∧
      (∀ o ∈ ops2, OkOp H o) ∧
      (run ascii H Reg.empty ops1).ns = (run ascii H Reg.empty ops2).ns ∧
      (run ascii H Reg.empty ops1).global = (run ascii H Reg.empty ops2).global ∧
      (run ascii H Reg.empty ops1).get rel = some 6 ∧ (run ascii H Reg.empty ops2).get rel = some 5 := by
  refine ⟨exHeap, [.addAuto 5 [], .addAuto 6 [], .setDefaultNamespace "/Z".toList],
    [.setDefaultNamespace "/Z".toList, .addAuto 5 [], .addAuto 6 []], "T".toList, exAcyclic, ?_, ?_,
    by decide +kernel, by decide +kernel, by decide +kernel, by decide +kernel⟩
  all_goals
    intro o ho
    simp only [List.mem_cons, List.mem_nil_iff, or_false] at ho
    rcases ho with rfl | rfl | rfl
    all_goals first | exact ⟨by decide, by decide⟩ |
      (show ∀ c ∈ "/Z".toList, c ≠ '<' ∧ c ≠ '>'; decide)

/-- **C22, removals.** Removing the type a relative name designates does not uncover the type it hid:
`T` is unknown although `/T` is registered and the root is searched. -/
theorem C22_remove_counterexample :
    let ops : List Op := [.addAuto 5 [], .addAuto 6 [], .setDefaultNamespace "/Z".toList, .remove 6]
    (run ascii exHeap Reg.empty ops).get "T".toList = none ∧
    (run ascii exHeap Reg.empty ops).get "/T".toList = some 5 ∧
    (setDefaultNamespace ascii (run ascii exHeap Reg.empty ops) "/Z".toList).1.get "T".toList = some 5 := by
  decide +kernel

end Verif.Registry
