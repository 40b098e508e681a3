import Verif.MergeMinimal
import Verif.MergeSources
import Verif.RegistryExamples

/-! Concrete registries: the hypotheses of C29 and C30 are satisfiable; counterexamples to the unrestricted statements. -/

namespace Verif.Merge
open Verif Verif.Names Verif.Graph Verif.Registry Verif.TypeBuilder

set_option linter.unusedSimpArgs false
set_option linter.unusedVariables false

/-- The types of the registry to be copied: `/A`, `/A*`, `/std/vector</A>`, the recursive `/N/S` with `/N/S*` and
`/std/vector</N/S>`, and `/N/S[3]`; those of the destination: another `/A`, and `/T`. -/
def mgGet : TId → TypeDef
  | 0 => ⟨"/A".toList, 4, .num .sint⟩
  | 1 => ⟨"/A*".toList, 8, .ptr 0⟩
  | 2 => ⟨"/std/vector</A>".toList, 24, .vec 0⟩
  | 3 => ⟨"/N/S".toList, 64, .comp [⟨"p".toList, 0, 1⟩, ⟨"v".toList, 8, 2⟩, ⟨"next".toList, 32, 5⟩, ⟨"kids".toList, 40, 6⟩]⟩
  | 4 => ⟨"/N/S[3]".toList, 192, .arr 3 3⟩
  | 5 => ⟨"/N/S*".toList, 8, .ptr 3⟩
  | 6 => ⟨"/std/vector</N/S>".toList, 24, .vec 3⟩
  | 7 => ⟨"/A".toList, 4, .num .sint⟩
  | 8 => ⟨"/T".toList, 4, .num .uint⟩
  | _ => ⟨[], 0, .null⟩

def mgHeap : Heap := ⟨9, mgGet⟩

theorem mgAcyclic : Acyclic mgHeap := by
  intro u x h
  match u with
  | 0 | 3 | 7 | 8 => cases h
  | 1 => cases h; show (0 : Nat) < 1; decide
  | 2 => cases h; show (0 : Nat) < 2; decide
  | 4 => cases h; show (3 : Nat) < 4; decide
  | 5 => cases h; show (3 : Nat) < 5; decide
  | 6 => cases h; show (3 : Nat) < 6; decide
  | n + 9 => cases h

theorem mgWF : WF mgHeap := by
  refine ⟨?_, ?_⟩
  · intro t d ht hd
    have : ∀ t ∈ List.range 9, ∀ d ∈ mgHeap.deps t, d < 9 := by decide +kernel
    exact this t (List.mem_range.mpr ht) d hd
  · intro t s h
    have h' : (mgGet t).kind = .enum s := h
    match t with
    | 0 | 1 | 2 | 3 | 4 | 5 | 6 | 7 | 8 => cases h'
    | n + 9 => cases h'

def mgSrcOps : List Op :=
  [.addAuto 0 "a.hh".toList, .addAuto 1 [], .addAuto 2 [], .addAuto 3 "s.hh".toList, .addAuto 4 [], .addAuto 5 [],
    .addAuto 6 [], .alias "/A".toList "/B".toList true "b.hh".toList]
def mgDstOps : List Op := [.addAuto 7 [], .addAuto 8 "t.hh".toList, .alias "/T".toList "/U".toList true []]

def mgSrc : Reg := run ascii mgHeap Reg.empty mgSrcOps
def mgDst : Reg := run ascii mgHeap Reg.empty mgDstOps

theorem mgSrc_reachable : Reachable ascii mgHeap mgSrc := by
  refine reachable_ops mgAcyclic mgSrcOps ?_
  intro o ho
  simp only [mgSrcOps, List.mem_cons, List.mem_nil_iff, or_false] at ho
  rcases ho with rfl | rfl | rfl | rfl | rfl | rfl | rfl | rfl
  all_goals first | exact ⟨by decide, by decide⟩ | (show isAbsoluteName _ = true; decide)

theorem mgDst_reachable : Reachable ascii mgHeap mgDst := by
  refine reachable_ops mgAcyclic mgDstOps ?_
  intro o ho
  simp only [mgDstOps, List.mem_cons, List.mem_nil_iff, or_false] at ho
  rcases ho with rfl | rfl | rfl
  all_goals first | exact ⟨by decide, by decide⟩ | (show isAbsoluteName _ = true; decide)

theorem regd_entry {key : Char → Int} {H : Heap} {R : Reg} (h : Inv key H R) {u : TId} (hu : Regd H R u) :
    ∃ p ∈ R.global, p.2.ty = u := by
  obtain ⟨e, he, hte⟩ := reg_mem ((h.regd_iff u).mp hu)
  exact ⟨_, he, hte⟩

theorem mgSrc_types {u : TId} (hu : Regd mgHeap mgSrc u) : u ∈ [0, 1, 2, 3, 4, 5, 6] := by
  obtain ⟨p, hp, rfl⟩ := regd_entry (reachable_inv ascii_inj mgSrc_reachable).2 hu
  have : ∀ p ∈ mgSrc.global, p.2.ty ∈ [0, 1, 2, 3, 4, 5, 6] := by decide +kernel
  exact this p hp

theorem mgDst_types {u : TId} (hu : Regd mgHeap mgDst u) : u ∈ [7, 8] := by
  obtain ⟨p, hp, rfl⟩ := regd_entry (reachable_inv ascii_inj mgDst_reachable).2 hu
  have : ∀ p ∈ mgDst.global, p.2.ty ∈ [7, 8] := by decide +kernel
  exact this p hp

theorem mgSrc_regd : ∀ u ∈ [0, 1, 2, 3, 4, 5, 6], Regd mgHeap mgSrc u := by
  unfold Regd
  decide +kernel

theorem mgCopyable : Copyable mgHeap mgSrc := by
  have hdep : ∀ u ∈ [0, 1, 2, 3, 4, 5, 6], ∀ d ∈ mgHeap.deps u, d ∈ [0, 1, 2, 3, 4, 5, 6] := by decide +kernel
  refine ⟨?_, ?_, ?_, ?_, ?_, ?_⟩
  · intro u d hu hd
    exact mgSrc_regd d (hdep u (mgSrc_types hu) d hd)
  · intro u e hu hk hds
    have hm := mgSrc_types hu
    have hstar : ∀ x, DepStar mgHeap 3 x → x ∈ [0, 1, 2, 3, 5, 6] := by
      intro x hx
      induction hx with
      | refl => decide
      | step _ hd ih =>
        have : ∀ u ∈ [0, 1, 2, 3, 5, 6], ∀ d ∈ mgHeap.deps u, d ∈ [0, 1, 2, 3, 5, 6] := by decide +kernel
        exact this _ ih _ hd
    simp only [List.mem_cons, List.mem_nil_iff, or_false] at hm
    rcases hm with rfl | rfl | rfl | rfl | rfl | rfl | rfl <;> rcases hk with ⟨d, hk⟩ | hk <;> cases hk
    have := hstar 4 hds
    revert this
    decide
  · intro u d e hu hk
    have hm := mgSrc_types hu
    simp only [List.mem_cons, List.mem_nil_iff, or_false] at hm
    rcases hm with rfl | rfl | rfl | rfl | rfl | rfl | rfl
    all_goals first | (cases hk; done) | (cases hk; rfl)
  · intro u e hu hk
    have hm := mgSrc_types hu
    simp only [List.mem_cons, List.mem_nil_iff, or_false] at hm
    rcases hm with rfl | rfl | rfl | rfl | rfl | rfl | rfl
    all_goals first | (cases hk; done) | (cases hk; rfl)
  · intro u e hu hk
    have hm := mgSrc_types hu
    simp only [List.mem_cons, List.mem_nil_iff, or_false] at hm
    rcases hm with rfl | rfl | rfl | rfl | rfl | rfl | rfl
    all_goals first | (cases hk; done) | (cases hk; decide)
  · intro u e hu hk
    have hm := mgSrc_types hu
    simp only [List.mem_cons, List.mem_nil_iff, or_false] at hm
    rcases hm with rfl | rfl | rfl | rfl | rfl | rfl | rfl
    all_goals (cases hk; done)

theorem indirect_chars {k : Kind} {ind : Str → Str} (h : k.indirectName = some ind) {c : Char} {n : Str} (hc : c ∈ n) : c ∈ ind n := by
  cases k <;> simp only [Kind.indirectName, Option.some.injEq, reduceCtorEq] at h <;> subst h <;> simp [hc]

theorem fromAlias_chars {H : Heap} {R : Reg} {c : Char} (h : ∀ p ∈ R.global, p.1 ≠ H.name p.2.ty → c ∈ p.1) {n : Str}
    (hn : FromAlias H R n) : c ∈ n := by
  induction hn with
  | alias h1 h2 =>
    obtain ⟨e, he, rfl⟩ := reg_mem h1
    exact h _ he h2
  | step _ hi ih => exact indirect_chars hi ih

theorem mgDest {S : TId → Prop} (hS : ∀ u, S u → u ∈ [0, 1, 2, 3, 4, 5, 6]) : Dest ascii mgHeap mgDst S := by
  refine ⟨(reachable_inv ascii_inj mgDst_reachable).2, mgAcyclic, mgWF, ?_, ?_, ?_, ?_⟩
  · intro t d ht hd
    have := mgDst_types ht
    simp only [List.mem_cons, List.mem_nil_iff, or_false] at this
    rcases this with rfl | rfl <;> cases hd
  · intro u hu ht
    have h1 := hS u hu
    have h2 := mgDst_types ht
    have : ∀ u ∈ [0, 1, 2, 3, 4, 5, 6], u ∉ [7, 8] := by decide
    exact this u h1 h2
  · intro u t hu ht
    have h1 := hS u hu
    have : ∀ u ∈ [0, 1, 2, 3, 4, 5, 6], mgDst.get (mgHeap.name u) = none ∨ (u = 0 ∧ mgDst.get (mgHeap.name u) = some 7) := by
      decide +kernel
    rcases this u h1 with e | ⟨rfl, e⟩
    · rw [e] at ht; cases ht
    · rw [e] at ht; cases ht; decide
  · intro u hu hfa
    have h1 := hS u hu
    have h2 : 'U' ∈ mgHeap.name u := fromAlias_chars (by decide +kernel) hfa
    have : ∀ u ∈ [0, 1, 2, 3, 4, 5, 6], 'U' ∉ mgHeap.name u := by decide +kernel
    exact this u h1 h2

/-- The hypotheses of C29 hold of these registries, and the merge succeeds: the copy of `/N/S[3]` is there, and so is the
alias `/B` and the names derived from it. -/
example :
    let o := merge ascii 100 (mgHeap, mgDst) mgSrc
    o.2 = .ok () ∧ (o.1.2.get "/N/S[3]".toList).isSome ∧ o.1.2.get "/B".toList = some 7 ∧ o.1.2.get "/A".toList = some 7 ∧
    o.1.2.get "/std/vector</B>".toList = o.1.2.get "/std/vector</A>".toList := by decide +kernel

example : ∃ t, (merge ascii 100 (mgHeap, mgDst) mgSrc).1.2.get "/N/S[3]".toList = some t ∧
    definition (merge ascii 100 (mgHeap, mgDst) mgSrc).1.1 t = definition mgHeap 4 :=
  ((C29_merge_partial ascii_inj mgSrc_reachable mgCopyable (mgDest (fun u hu => mgSrc_types hu)) 100 (by decide)).2.2 (by decide +kernel)).1 4 (mgSrc_regd 4 (by decide))

example := C29_merge_again_partial ascii_inj mgSrc_reachable mgCopyable (mgDest (fun u hu => mgSrc_types hu)) 100 (by decide) (by decide +kernel)

theorem mgStar {u : TId} (h : DepStar mgHeap 3 u) : u ∈ [0, 1, 2, 3, 4, 5, 6] := mgSrc_types (h.regd mgCopyable (mgSrc_regd 3 (by decide)))

/-- `minimal("/N/S")`: `/N/S`, `/N/S*`, the vectors, `/A*` and `/A`, but not `/N/S[3]`. -/
example :
    let o := minimal ascii 100 mgHeap mgSrc Reg.empty "/N/S".toList true
    o.2 = .ok () ∧ (o.1.2.get "/N/S".toList).isSome ∧ (o.1.2.get "/B*".toList).isSome ∧
    o.1.2.get "/N/S[3]".toList = none ∧ o.1.2.global.length = 9 := by decide +kernel

example := C30_minimal_partial ascii_inj mgSrc_reachable mgCopyable "/N/S".toList 3 (by decide +kernel)
  (mgDest (fun u hu => mgStar hu)) 100 (by decide) true

example := (C30_minimal_alone_partial ascii_inj mgSrc_reachable mgWF mgCopyable "/N/S".toList 3 (by decide +kernel) 100 (by decide)
  true).2 (by decide +kernel)

theorem mgNeeded {u : TId} (h : Needed mgHeap mgSrc mgDst u) : u ∈ [0, 1, 2, 3, 4, 5, 6] := by
  obtain ⟨t, h1, _, h2⟩ := h
  exact mgSrc_types (h2.regd mgCopyable h1)

/-- `minimal(auto_types)`: `/A` and `/A*` are known to the other registry; `/A` and `/A*` come back as components. -/
example :
    let o := minimalAuto ascii 100 mgHeap mgSrc Reg.empty mgDst false
    o.2 = .ok () ∧ (o.1.2.get "/N/S".toList).isSome ∧ (o.1.2.get "/A".toList).isSome := by decide +kernel

example := C30_minimal_auto_partial ascii_inj mgSrc_reachable mgCopyable (mgDest (fun u hu => mgNeeded hu)) 100 (by decide) true

/-! ### Counterexamples -/

/-- The destination has `/int` and `/S1 { a: /int }`; the other registry has `/int`, `/myint`, `/S1 { a: /myint }` and
`/S2 { a: /int }`. -/
def mmGet : TId → TypeDef
  | 0 => ⟨"/int".toList, 4, .num .sint⟩
  | 1 => ⟨"/S1".toList, 4, .comp [⟨"a".toList, 0, 0⟩]⟩
  | 2 => ⟨"/int".toList, 4, .num .sint⟩
  | 3 => ⟨"/myint".toList, 4, .num .sint⟩
  | 4 => ⟨"/S1".toList, 4, .comp [⟨"a".toList, 0, 3⟩]⟩
  | 5 => ⟨"/S2".toList, 4, .comp [⟨"a".toList, 0, 2⟩]⟩
  | _ => ⟨[], 0, .null⟩

def mmHeap : Heap := ⟨6, mmGet⟩
def mmSrc : Reg := run ascii mmHeap Reg.empty [.addAuto 2 [], .addAuto 3 [], .addAuto 4 [], .addAuto 5 []]
def mmDst : Reg := run ascii mmHeap Reg.empty [.addAuto 0 [], .addAuto 1 []]

/-- **C29 is false of registries that disagree on names only.** The comparison of compounds does not look at the names of
the types of the fields: `/S1 { a: /myint }` is taken to be `/S1 { a: /int }`; the merge succeeds, but the definition of
`/S1` is not the one of the other registry, and the same merge fails when it is done again, because the
correspondence of `/int` with `/myint` that the first comparison leaves in the stack is then used for `/S2`. -/
theorem C29_counterexample :
    let o := merge ascii 9 (mmHeap, mmDst) mmSrc
    mmSrc.get "/S1".toList = some 4 ∧ o.2 = .ok () ∧ o.1.2.get "/S1".toList = some 1 ∧
    definition o.1.1 1 = ("/S1".toList, 4, .comp [("a".toList, 0, "/int".toList)]) ∧
    definition mmHeap 4 = ("/S1".toList, 4, .comp [("a".toList, 0, "/myint".toList)]) ∧
    (merge ascii 9 o.1 mmSrc).2 = .exn .mismatch := by decide +kernel

/-- `/A`, `/B`; another `/B` of a different size -/
def maGet : TId → TypeDef
  | 0 => ⟨"/A".toList, 4, .num .sint⟩
  | 1 => ⟨"/B".toList, 4, .num .sint⟩
  | 2 => ⟨"/B".toList, 8, .num .sint⟩
  | _ => ⟨[], 0, .null⟩
def maHeap : Heap := ⟨3, maGet⟩

/-- **A failed merge is not undone**: the types copied before the conflict stay. -/
theorem C29_not_atomic_counterexample :
    let R := run ascii maHeap Reg.empty [.addAuto 2 []]
    let o := merge ascii 9 (maHeap, R) (run ascii maHeap Reg.empty [.addAuto 0 [], .addAuto 1 []])
    R.get "/A".toList = none ∧ o.2 = .exn .mismatch ∧ o.1.2.get "/A".toList = some 3 := by decide +kernel

/-- `/D`, `/std/vector</D>`; `/E` and `/std/vector</E>` of another size -/
def mvGet : TId → TypeDef
  | 0 => ⟨"/D".toList, 4, .num .sint⟩
  | 1 => ⟨"/std/vector</D>".toList, 24, .vec 0⟩
  | 2 => ⟨"/E".toList, 4, .num .sint⟩
  | 3 => ⟨"/std/vector</E>".toList, 32, .vec 2⟩
  | _ => ⟨[], 0, .null⟩
def mvHeap : Heap := ⟨4, mvGet⟩

/-- **A merge can modify an existing type** when the destination calls `/D` what the other registry calls `/E`: the vector
of `/E` becomes the vector of `/D`, whose size is then set. The two registries disagree on the size of these vectors, which
goes unnoticed if the name `/std/vector</E>` derived from the alias was removed. -/
theorem C29_modified_counterexample :
    let R := run ascii mvHeap Reg.empty [.addAuto 0 [], .addAuto 1 [], .alias "/D".toList "/E".toList true [],
      .removeAlias "/std/vector</E>".toList]
    let o := merge ascii 9 (mvHeap, R) (run ascii mvHeap Reg.empty [.addAuto 2 [], .addAuto 3 []])
    R.get "/std/vector</D>".toList = some 1 ∧ mvHeap.size 1 = 24 ∧ o.1.1.size 1 = 32 := by decide +kernel

/-- `/S { next: /T* }`, where `/T { s: /S[2] }` -/
def mrGet : TId → TypeDef
  | 0 => ⟨"/S".toList, 8, .comp [⟨"next".toList, 0, 3⟩]⟩
  | 1 => ⟨"/S[2]".toList, 16, .arr 2 0⟩
  | 2 => ⟨"/T".toList, 16, .comp [⟨"s".toList, 0, 1⟩]⟩
  | 3 => ⟨"/T*".toList, 8, .ptr 2⟩
  | _ => ⟨[], 0, .null⟩
def mrHeap : Heap := ⟨4, mrGet⟩

/-- **Arrays that are part of their own elements are not copied right**: the array is created while the compound still has no fields, with a size of zero, and
keeps it. -/
theorem C29_recursive_counterexample :
    let src := run ascii mrHeap Reg.empty [.addAuto 0 [], .addAuto 1 [], .addAuto 2 [], .addAuto 3 []]
    let o := merge ascii 9 (mrHeap, Reg.empty) src
    o.2 = .ok () ∧ mrHeap.size 1 = 16 ∧
    (o.1.2.get "/S[2]".toList).map o.1.1.size = some 0 ∧ (o.1.2.get "/S".toList).map o.1.1.size = some 8 := by
  decide +kernel

/-- `/A`, `/A*` and `/B` -/
def mlGet : TId → TypeDef
  | 0 => ⟨"/A".toList, 4, .num .sint⟩
  | 1 => ⟨"/A*".toList, 8, .ptr 0⟩
  | 2 => ⟨"/B".toList, 4, .num .sint⟩
  | _ => ⟨[], 0, .null⟩
def mlHeap : Heap := ⟨3, mlGet⟩

/-- **Success is not guaranteed with aliases**: a registry where `/X` is an alias of `/A` and `/X*` one of `/B` cannot be
merged into an empty one, where `/X*` is derived from `/X`. -/
theorem C29_alias_counterexample :
    let src := run ascii mlHeap Reg.empty
      [.addAuto 0 [], .addAuto 2 [], .alias "/B".toList "/X*".toList true [], .alias "/A".toList "/X".toList true [],
       .addAuto 1 []]
    src.get "/X*".toList = some 2 ∧ src.get "/X".toList = some 0 ∧ src.get "/A*".toList = some 1 ∧
    (merge ascii 9 (mlHeap, Reg.empty) src).2 = .exn .mismatch := by decide +kernel

/-- The same registry: `minimal` of `/A*` with the aliases throws when it takes the alias `/X*` of `/B` along and `/B` is there. -/
theorem C30_alias_counterexample :
    let src := run ascii mlHeap Reg.empty
      [.addAuto 0 [], .addAuto 2 [], .alias "/B".toList "/X*".toList true [], .alias "/A".toList "/X".toList true [],
       .addAuto 1 []]
    let fresh := run ascii mlHeap Reg.empty [.addAuto 2 []]
    (minimal ascii 9 mlHeap src fresh "/A*".toList true).2 = .exn .alreadyDefined := by decide +kernel

/-! ### sources (C51) -/

theorem mgNoBare : NoBareAlias (merge ascii 100 (mgHeap, mgDst) mgSrc).1.1 (merge ascii 100 (mgHeap, mgDst) mgSrc).1.2 mgSrc := by
  have h : ∀ x ∈ mgSrc.global, x.2.source ≠ [] → ∀ y ∈ (merge ascii 100 (mgHeap, mgDst) mgSrc).1.2.global, y.1 = x.1 →
      y.1 = (merge ascii 100 (mgHeap, mgDst) mgSrc).1.1.name y.2.ty ∨ y.2.source ≠ [] := by decide +kernel
  intro n p e h1 h2 h3
  exact h (n, p) h1 h2 (n, e) h3 rfl

/-- the destination's `/A` had no source and gets the one of the source registry; `/T` keeps its own -/
example := (C51_merge_partial ascii_inj mgSrc_reachable mgCopyable (mgDest (fun u hu => mgSrc_types hu)) 100 (by decide)
  (by decide +kernel)).2.1 mgNoBare

example : sourceOf (merge ascii 100 (mgHeap, mgDst) mgSrc).1.2 "/A".toList = "a.hh".toList ∧
    sourceOf (merge ascii 100 (mgHeap, mgDst) mgSrc).1.2 "/T".toList = "t.hh".toList ∧
    sourceOf (merge ascii 100 (mgHeap, mgDst) mgSrc).1.2 "/B".toList = "b.hh".toList := by decide +kernel

/-- Without the condition on aliases, an existing source is overwritten: `/T` comes from `t.hh` and its alias `/U` has no
source; a registry that gives the alias `/U` the source `u.hh` makes `/T` come from `u.hh`. -/
theorem C51_alias_counterexample :
    let src := run ascii mgHeap Reg.empty [.addAuto 8 [], .alias "/T".toList "/U".toList true "u.hh".toList]
    Reachable ascii mgHeap mgDst ∧ Reachable ascii mgHeap src ∧
    sourceOf mgDst "/T".toList = "t.hh".toList ∧
    sourceOf (copySourceIDs mgHeap mgDst src.global) "/T".toList = "u.hh".toList ∧
    sourceOf (copySourceIDs mgHeap mgDst src.global) "/U".toList = [] := by
  refine ⟨mgDst_reachable, ?_, by decide +kernel, by decide +kernel, by decide +kernel⟩
  refine reachable_ops mgAcyclic _ ?_
  intro o ho
  simp only [List.mem_cons, List.mem_nil_iff, or_false] at ho
  rcases ho with rfl | rfl
  all_goals first | exact ⟨by decide, by decide⟩ | (show isAbsoluteName _ = true; decide)

/-! ### The theorems on concrete cases -/

example := C29_merge_succeeds_partial ascii_inj mgSrc_reachable mgCopyable (mgDest (fun u hu => mgSrc_types hu)) 100 (by decide)

example := C30_minimal_succeeds_partial ascii_inj mgSrc_reachable mgCopyable "/N/S".toList 3 (by decide +kernel)
  (mgDest (fun u hu => mgStar hu)) 100 (by decide) true

example := C30_minimal_unknown (key := ascii) 100 mgHeap mgSrc mgDst "/N/Q".toList (by decide +kernel) true

example := C51_copySourceIDs ascii_inj mgDst_reachable mgSrc_reachable

/-- `/A`, `/A*` and `/std/vector</A>`, without aliases -/
def mnSrc : Reg := run ascii mgHeap Reg.empty [.addAuto 0 [], .addAuto 1 [], .addAuto 2 []]

theorem mnSrc_reachable : Reachable ascii mgHeap mnSrc := by
  refine reachable_ops mgAcyclic _ ?_
  intro o ho
  simp only [List.mem_cons, List.mem_nil_iff, or_false] at ho
  rcases ho with rfl | rfl | rfl
  all_goals exact ⟨by decide, by decide⟩

theorem mnSrc_types {u : TId} (hu : Regd mgHeap mnSrc u) : u ∈ [0, 1, 2] := by
  obtain ⟨p, hp, rfl⟩ := regd_entry (reachable_inv ascii_inj mnSrc_reachable).2 hu
  have : ∀ p ∈ mnSrc.global, p.2.ty ∈ [0, 1, 2] := by decide +kernel
  exact this p hp

theorem mnSrc_regd : ∀ u ∈ [0, 1, 2], Regd mgHeap mnSrc u := by
  unfold Regd
  decide +kernel

theorem mnCopyable : Copyable mgHeap mnSrc := by
  have hdep : ∀ u ∈ [0, 1, 2], ∀ d ∈ mgHeap.deps u, d ∈ [0, 1, 2] := by decide +kernel
  refine ⟨fun u d hu hd => mnSrc_regd d (hdep u (mnSrc_types hu) d hd), ?_, ?_, ?_, ?_, ?_⟩
  · intro u e hu hk _
    have hm := mnSrc_types hu
    simp only [List.mem_cons, List.mem_nil_iff, or_false] at hm
    rcases hm with rfl | rfl | rfl <;> rcases hk with ⟨d, hk⟩ | hk <;> cases hk
  · intro u d e hu hk
    have hm := mnSrc_types hu
    simp only [List.mem_cons, List.mem_nil_iff, or_false] at hm
    rcases hm with rfl | rfl | rfl <;> cases hk
  · intro u e hu hk
    have hm := mnSrc_types hu
    simp only [List.mem_cons, List.mem_nil_iff, or_false] at hm
    rcases hm with rfl | rfl | rfl <;> cases hk
    rfl
  · intro u e hu hk
    have hm := mnSrc_types hu
    simp only [List.mem_cons, List.mem_nil_iff, or_false] at hm
    rcases hm with rfl | rfl | rfl <;> cases hk
    decide
  · intro u e hu hk
    have hm := mnSrc_types hu
    simp only [List.mem_cons, List.mem_nil_iff, or_false] at hm
    rcases hm with rfl | rfl | rfl <;> cases hk

/-- a registry without aliases -/
theorem mn_noAlias : ∀ n t, mnSrc.get n = some t → isAbsoluteName n = true → n = mgHeap.name t := by
  intro n t h ha
  rw [(reachable_inv ascii_inj mnSrc_reachable).2.abs n ha] at h
  obtain ⟨e, he, rfl⟩ := reg_mem h
  have : ∀ p ∈ mnSrc.global, p.1 = mgHeap.name p.2.ty := by decide +kernel
  exact this _ he

example : (minimalAuto ascii 100 mgHeap mnSrc Reg.empty mgDst true).2 = .ok () := by
  refine C30_minimal_auto_succeeds_partial ascii_inj mnSrc_reachable mnCopyable (Dest.empty ascii_inj mnSrc_reachable mgWF _)
    100 (by decide) true ?_ (fun n t h => nomatch h) mn_noAlias
  intro u hu
  have hm := mnSrc_types hu
  simp only [List.mem_cons, List.mem_nil_iff, or_false] at hm
  rcases hm with rfl | rfl | rfl
  · exact ⟨true, by decide +kernel⟩
  · exact ⟨true, by decide +kernel⟩
  · exact ⟨false, by decide +kernel⟩

end Verif.Merge
