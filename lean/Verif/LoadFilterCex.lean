import Verif.LoadFilterProps
import Verif.MergeExamples

/-! C77: a concrete case of the hypotheses, and counterexamples to the unrestricted statement. -/

namespace Verif.LoadFilter
open Verif Verif.Names Verif.Graph Verif.Registry Verif.TypeBuilder Verif.Merge

set_option linter.unusedSimpArgs false
set_option linter.unusedVariables false

theorem mgPropagates : Propagates mgHeap mgSrc := by
  intro n x u ind ha hn hne hu hi he
  have hinv := (reachable_inv ascii_inj mgSrc_reachable).2
  obtain ⟨e, hm, hte⟩ := reg_mem (by rw [← hinv.abs n ha]; exact hn : mgSrc.reg n = some x)
  have hum := mgSrc_types hu
  have hall : ∀ p ∈ mgSrc.global, p.1 ≠ mgHeap.name p.2.ty → ∀ u ∈ [0, 1, 2, 3, 4, 5, 6], (mgHeap.kind u).elem? = some p.2.ty →
      (((mgHeap.kind u).indirectName).all fun f => mgSrc.get (f p.1) == some u) = true := by decide +kernel
  have := hall (n, e) hm (by simp only; rw [hte]; exact hne) u hum (by simp only; rw [hte]; exact he)
  rw [hi] at this
  simpa using this

/-- The registry has `/A`, which was known at the start, the types of `mgHeap` and the typedef `/B` of `/A`: the typedef and the names
derived from it are returned, because `/A` is part of a new type. -/
example :
    let o := filtered ascii mgDst mgSrc ["/B".toList] mgHeap
    o.2 = .ok () ∧ (o.1.2.get "/N/S[3]".toList).isSome ∧ o.1.2.get "/B".toList = o.1.2.get "/A".toList ∧
    (o.1.2.get "/std/vector</B>".toList).isSome := by decide +kernel

example := C77_filtered_partial ascii_inj mgSrc_reachable mgWF mgCopyable mgPropagates mgDst ["/B".toList]

example : Wanted mgHeap mgDst mgSrc 0 := ⟨1, mgSrc_regd 1 (by decide), by decide +kernel, .step .refl (by decide)⟩

/-- `/int` and `/S { a: /int }` -/
def tdGet : TId → TypeDef
  | 0 => ⟨"/int".toList, 4, .num .sint⟩
  | 1 => ⟨"/S".toList, 4, .comp [⟨"a".toList, 0, 0⟩]⟩
  | _ => ⟨[], 0, .null⟩
def tdHeap : Heap := ⟨2, tdGet⟩
def tdBase : Reg := run ascii tdHeap Reg.empty [.addAuto 0 []]

/-- **The typedefs of basic types are lost**: a header with `typedef int Count;` only gives an empty registry, in which the name
`/Count` is unknown. With a structure that has an `int` in the same header, the typedef is returned, even if this structure does not
use it. -/
theorem C77_cex_basic :
    let alone := run ascii tdHeap Reg.empty [.addAuto 0 [], .alias "/int".toList "/Count".toList true []]
    let used := run ascii tdHeap Reg.empty [.addAuto 0 [], .addAuto 1 [], .alias "/int".toList "/Count".toList true []]
    alone.get "/Count".toList = some 0 ∧
    (filtered ascii tdBase alone ["/Count".toList] tdHeap).2 = .ok () ∧
    (filtered ascii tdBase alone ["/Count".toList] tdHeap).1.2.global = [] ∧
    (filtered ascii tdBase used ["/Count".toList] tdHeap).2 = .ok () ∧
    ((filtered ascii tdBase used ["/Count".toList] tdHeap).1.2.get "/Count".toList).isSome = true := by decide +kernel

end Verif.LoadFilter
