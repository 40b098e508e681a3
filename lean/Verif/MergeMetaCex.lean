import Verif.MergeMetaProps
import Verif.MergeExamples

/-! C78 on concrete registries, and counterexamples to the unrestricted claims. -/

namespace Verif.MergeMeta
open Verif Verif.Names Verif.Graph Verif.Registry Verif.TypeBuilder Verif.Merge

def docOf (s : String) : Meta.MetaData := Meta.set [] "doc".toList s.toList

/-- `/A` of the source is documented, as are `/N/S` and its field `v`; so is `/A` of the destination. -/
def mgMeta : Store := fun t s =>
  if t = 0 ∧ s = none then docOf "a length"
  else if t = 3 ∧ s = none then docOf "a tree"
  else if t = 3 ∧ s = some 1 then docOf "the values"
  else if t = 7 ∧ s = none then docOf "in meters"
  else []

/-- after the types were created -/
def mgMeta1 : Store := fun t s => if t < 9 then mgMeta t s else []

theorem mgMeta_built (t : TId) (s : Spot) : Built (mgMeta t s) := by
  unfold mgMeta
  repeat' split
  all_goals first | exact ⟨_, .set _ _ .init⟩ | exact ⟨_, .init⟩

theorem mgCreated (H' : Heap) : Created mgHeap H' mgSrc mgMeta mgMeta1 := by
  refine ⟨fun t s h => if_pos h, fun t i h => if_neg (Nat.not_lt.mpr h), fun t h => Or.inl (if_neg (Nat.not_lt.mpr h))⟩

example := C78_merge_partial ascii_inj mgSrc_reachable mgCopyable (mgDest (fun u hu => mgSrc_types hu)) 100 (by decide)
  mgMeta mgMeta1 mgMeta_built (by decide +kernel) (mgCreated _)

example := C78_kept_partial ascii_inj mgSrc_reachable mgCopyable (mgDest (fun u hu => mgSrc_types hu)) 100 (by decide)
  mgMeta mgMeta1 mgMeta_built 3 (mgSrc_regd 3 (by decide)) (by decide +kernel) (mgCreated _)

theorem mgDisjoint (u : TId) (hu : Regd mgHeap mgSrc u) : ¬ Regd mgHeap mgDst u := by
  intro h
  have h1 := mgSrc_types hu
  have h2 := mgDst_types h
  have : ∀ u ∈ [0, 1, 2, 3, 4, 5, 6], u ∉ [7, 8] := by decide
  exact this u h1 h2

example := C78_minimal_partial ascii_inj mgSrc_reachable mgCopyable "/N/S".toList 3 (by decide +kernel)
  (mgDest (fun u hu => mgStar hu)) mgDisjoint 100 (by decide) true mgMeta mgMeta1 mgMeta_built (by decide +kernel) (mgCreated _)

/-- The merge on these registries: `/A` has both documentations, `/N/S` and its field `v` got theirs. -/
example :
    let o := mergeM ascii 100 (mgHeap, mgDst) mgSrc mgMeta1
    o.2 = .ok () ∧ o.1.1.2.get "/A".toList = some 7 ∧
    Meta.get (o.1.2 7 none) "doc".toList = ["a length".toList, "in meters".toList] ∧
    (o.1.1.2.get "/N/S".toList).map (fun t => (Meta.get (o.1.2 t none) "doc".toList, Meta.get (o.1.2 t (some 0)) "doc".toList,
      Meta.get (o.1.2 t (some 1)) "doc".toList)) = some (["a tree".toList], [], ["the values".toList]) := by decide +kernel

/-! ### counterexamples -/

/-- `/A` and `/T`, both signed integers of 4 bytes -/
def mmxGet : TId → TypeDef
  | 0 => ⟨"/A".toList, 4, .num .sint⟩
  | 1 => ⟨"/T".toList, 4, .num .sint⟩
  | _ => ⟨[], 0, .null⟩
def mmxHeap : Heap := ⟨2, mmxGet⟩
def mmxMeta : Store := fun t s => if t = 0 ∧ s = none then docOf "a length" else []

/-- **A type can get the documentation of another type.** The destination calls `/T` also `/B`, the other registry uses `/B` for
its `/A`. As they have the same structure `merge` accepts it, and `/T` gets the documentation of `/A`. -/
theorem C78_alias_counterexample :
    let dst := run ascii mmxHeap Reg.empty [.addAuto 1 [], .alias "/T".toList "/B".toList true []]
    let src := run ascii mmxHeap Reg.empty [.addAuto 0 [], .alias "/A".toList "/B".toList true []]
    let o := mergeM ascii 9 (mmxHeap, dst) src mmxMeta
    src.get "/T".toList = none ∧ o.2 = .ok () ∧ o.1.1.2.get "/T".toList = some 1 ∧ o.1.1.2.get "/A".toList = some 2 ∧
    Meta.get (o.1.2 1 none) "doc".toList = ["a length".toList] := by decide +kernel

/-- two types `/A` -/
def msxGet : TId → TypeDef
  | 0 => ⟨"/A".toList, 4, .num .sint⟩
  | 1 => ⟨"/A".toList, 4, .num .sint⟩
  | _ => ⟨[], 0, .null⟩
def msxHeap : Heap := ⟨2, msxGet⟩
def msxMeta : Store := fun t s =>
  if s = none then Meta.set [] sourceKey (if t = 0 then "b.hh".toList else "a.hh".toList) else []

/-- **The `source_id` metadata and the source of a type can disagree**: the source stays `a.hh`, the metadata lists `a.hh` and
`b.hh`. -/
theorem C78_source_counterexample :
    let dst := run ascii msxHeap Reg.empty [.addAuto 1 "a.hh".toList]
    let src := run ascii msxHeap Reg.empty [.addAuto 0 "b.hh".toList]
    let o := mergeM ascii 9 (msxHeap, dst) src msxMeta
    o.2 = .ok () ∧ o.1.1.2.get "/A".toList = some 1 ∧
    (glookup o.1.1.2.global "/A".toList).map (·.source) = some "a.hh".toList ∧
    Meta.get (o.1.2 1 none) sourceKey = ["a.hh".toList, "b.hh".toList] := by decide +kernel

/-- two compounds `/C` with two fields of the same name -/
def mfxGet : TId → TypeDef
  | 0 => ⟨"/I".toList, 4, .num .sint⟩
  | 1 => ⟨"/C".toList, 8, .comp [⟨"x".toList, 0, 0⟩, ⟨"x".toList, 4, 0⟩]⟩
  | _ => ⟨[], 0, .null⟩
def mfxHeap : Heap := ⟨2, mfxGet⟩
def mfxMeta : Store := fun t s => if t = 1 ∧ s = some 1 then docOf "second" else if t = 1 ∧ s = some 0 then docOf "first" else []

/-- **The documentation of a field is lost when another field has its name**: the second field gets that of the first. -/
theorem C78_same_name_counterexample :
    let src := run ascii mfxHeap Reg.empty [.addAuto 0 [], .addAuto 1 []]
    let o := mergeM ascii 9 (mfxHeap, Reg.empty) src mfxMeta
    o.2 = .ok () ∧
    (o.1.1.2.get "/C".toList).map (fun t => (Meta.get (o.1.2 t (some 0)) "doc".toList, Meta.get (o.1.2 t (some 1)) "doc".toList)) =
      some (["first".toList], ["first".toList]) := by decide +kernel

end Verif.MergeMeta
