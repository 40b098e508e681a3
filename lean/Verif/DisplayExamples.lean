import Verif.DisplayDump
import Verif.MergeExamples

/-! C80: concrete displays and dumps; what is not told. -/

namespace Verif.Display
open Verif Verif.Names Verif.Graph Verif.Registry

/-- an `int`, an enum, a compound with both, an array of the compound, a compound with the array, a pointer, an opaque -/
def dyGet (k : Nat) : TId → TypeDef
  | 0 => ⟨"/i".toList, 4, .num .sint⟩
  | 1 => ⟨"/E".toList, 4, .enum [("a".toList, 0), ("b".toList, -2)]⟩
  | 2 => ⟨"/S".toList, 8, .comp [⟨"x".toList, 0, 0⟩, ⟨"e".toList, 4, 1⟩]⟩
  | 3 => ⟨"/S[2]".toList, 16, .arr 2 2⟩
  | 4 => ⟨"/T".toList, 24, .comp [⟨"l".toList, 0, 3⟩, ⟨"p".toList, 16, 5⟩]⟩
  | 5 => ⟨"/T*".toList, 8, .ptr 4⟩
  | 6 => ⟨"/O".toList, k, .opaque⟩
  | _ => ⟨[], 0, .null⟩

def dyHeap (k : Nat) : Heap := ⟨7, dyGet k⟩

theorem dyPlain (k : Nat) : Plain (dyHeap k) := by
  refine ⟨?_, ?_, ?_⟩
  · intro t
    show ∀ c ∈ (dyGet k t).name, _
    match t with
    | 0 | 1 | 2 | 3 | 4 | 5 | 6 => simp [dyGet]
    | n + 7 => simp [dyGet]
  · intro t s h
    change (dyGet k t).kind = _ at h
    match t, h with
    | 1, h => cases h; intro p hp c hc; simp at hp; rcases hp with rfl | rfl <;> (simp at hc; subst hc; decide)
    | 0, h | 2, h | 3, h | 4, h | 5, h | 6, h => cases h
    | n + 7, h => cases h
  · intro t fs h
    change (dyGet k t).kind = _ at h
    match t, h with
    | 2, h => cases h; intro p hp c hc; simp at hp; rcases hp with rfl | rfl <;> (simp at hc; subst hc; decide)
    | 4, h => cases h; intro p hp c hc; simp at hp; rcases hp with rfl | rfl <;> (simp at hc; subst hc; decide)
    | 0, h | 1, h | 3, h | 5, h | 6, h => cases h
    | n + 7, h => cases h

/-- the text of `/T`, with the nesting of array and compound -/
theorem dyText : disp (dyHeap 4) 5 [] 4 = .ok
    ("compound /T [24] {\n  (+0) array[2] of\n    compound /S [8] {\n      (+0) sint(4) (/i) x\n      (+4) enum /E\n    a -> 0\n    b -> -2 e\n    }; l\n" ++
     "  (+16) pointer on /T\n p\n};").toList := by decide +kernel

example : disp (dyHeap 4) 5 [] 4 = disp (dyHeap 8) 6 [] 4 ∧ ∃ s, disp (dyHeap 4) 5 [] 4 = .ok s :=
  ⟨by decide +kernel, _, dyText⟩

example : ∃ d, Shows (dyHeap 4) 4 d ∧ Shows (dyHeap 8) 4 d :=
  C80_display_partial (f := 5) (f' := 6) (ind := []) (dyPlain 4) (dyPlain 8) dyText (by decide +kernel)

/-- a type that points to itself is displayed: the pointer is named -/
def dyLevel : TId → Nat
  | 2 => 1
  | 3 => 2
  | 4 => 3
  | _ => 0

example : ∃ f, ∃ s : Str → Str, ∀ ind, disp (dyHeap 4) f ind 4 = .ok (s ind) := by
  refine C80_ends_partial (rank := dyLevel) ?_ 4
  intro t
  change ∀ e ∈ inside (dyGet 4 t).kind, _
  match t with
  | 0 | 1 | 2 | 3 | 4 | 5 | 6 => simp [dyGet, inside, dyLevel]
  | n + 7 => simp [dyGet, inside]

example : disp (dyHeap 4) 4 [' '] 2 = disp (dyHeap 4) 9 [' '] 2 ∧ ∃ s, disp (dyHeap 4) 4 [' '] 2 = .ok s := by
  obtain ⟨s, hs⟩ : ∃ s, disp (dyHeap 4) 4 [' '] 2 = .ok s := ⟨_, rfl⟩
  obtain ⟨s', hs'⟩ : ∃ s, disp (dyHeap 4) 9 [' '] 2 = .ok s := ⟨_, rfl⟩
  have := C80_deterministic hs hs'
  subst this
  exact ⟨hs.trans hs'.symm, _, hs⟩

/-! ### dumps -/

open Verif.Merge in
/-- the dump of a registry of C29's examples -/
theorem dyDump : dump mgHeap 3 mgDst false true ['*'] = .ok
    "Types in registry\nsint(4) (/A)\nuint(4) (/T)\n/U is an alias for /T\n".toList := by decide +kernel

open Verif.Merge in
theorem mgPlain : Plain mgHeap := by
  refine ⟨?_, ?_, ?_⟩
  · intro t
    have hall : ∀ t ∈ List.range 9, ∀ c ∈ (mgGet t).name, c ≠ ' ' ∧ c ≠ '\n' := by decide +kernel
    by_cases ht : (t : Nat) < 9
    · exact hall t (List.mem_range.mpr ht)
    · obtain ⟨n, rfl⟩ : ∃ n : Nat, t = n + 9 := ⟨(t : Nat) - 9, (Nat.sub_add_cancel (Nat.le_of_not_lt ht)).symm⟩
      intro c hc
      cases hc
  · intro t s h
    have h' : (mgGet t).kind = .enum s := h
    match t with
    | 0 | 1 | 2 | 3 | 4 | 5 | 6 | 7 | 8 => cases h'
    | n + 9 => cases h'
  · intro t fs h
    change (mgGet t).kind = _ at h
    match t, h with
    | 3, h =>
      cases h
      intro p hp c hc
      simp at hp
      rcases hp with rfl | rfl | rfl | rfl
      all_goals (simp at hc; try rcases hc with rfl | rfl | rfl | rfl)
      all_goals first | decide | (subst hc; decide)
    | 0, h | 1, h | 2, h | 4, h | 5, h | 6, h | 7, h | 8, h => cases h
    | n + 9, h => cases h

open Verif.Merge in
example : ∃ is, Items mgHeap (mgDst.global.filter fun p => p.2.persistent && (['*'] == ['*'] || ['*'] == p.2.source)) is := by
  have hn : ∀ p ∈ mgDst.global, (∃ x, p.1 = '/' :: x) ∧ Line p.1 := by
    have e : mgDst.global.map (·.1) = ["/A".toList, "/T".toList, "/U".toList] := by decide +kernel
    intro p hp
    have h : p.1 ∈ ["/A".toList, "/T".toList, "/U".toList] := e ▸ List.mem_map_of_mem hp
    simp at h
    rcases h with h | h | h <;> (rw [h]; exact ⟨⟨_, rfl⟩, by intro c hc; revert c; decide⟩)
  obtain ⟨is, h, _⟩ := C80_dump_partial mgPlain mgPlain hn hn dyDump dyDump
  exact ⟨is, h⟩

/-! ### what is not told -/

/-- The size of an opaque is not displayed: two registries that differ in it have the same display. (The same holds for
enums, pointers and containers.) -/
theorem C80_size_counterexample : ∃ (H H' : Heap) (t : TId) (s : Str), Plain H ∧ Plain H' ∧ disp H 1 [] t = .ok s ∧
    disp H' 1 [] t = .ok s ∧ H.size t ≠ H'.size t :=
  ⟨dyHeap 4, dyHeap 8, 6, "opaque /O\n".toList, dyPlain 4, dyPlain 8, by decide +kernel, by decide +kernel, by decide +kernel⟩

open Verif.Merge in
/-- Without `AllType` a dump names, for an alias, the type it is for: registries with aliases of different names have the
same dump, and a name is listed once per alias. -/
theorem C80_names_counterexample : ∃ (R R' : Reg) (s : Str), Reachable ascii mgHeap R ∧ Reachable ascii mgHeap R' ∧
    dump mgHeap 1 R false false ['*'] = .ok s ∧ dump mgHeap 1 R' false false ['*'] = .ok s ∧
    R.has "/U".toList = true ∧ R'.has "/U".toList = false ∧
    s = "Types in registry\n\t/A\n\t/T\n\t/T\n".toList := by
  refine ⟨mgDst, run ascii mgHeap Reg.empty
    [.addAuto 7 [], .addAuto 8 "t.hh".toList, .alias "/T".toList "/V".toList true []], _, mgDst_reachable, ?_, ?_, ?_, ?_, ?_, rfl⟩
  · refine reachable_ops mgAcyclic _ ?_
    intro o ho
    simp only [List.mem_cons, List.mem_nil_iff, or_false] at ho
    rcases ho with rfl | rfl | rfl
    all_goals first | exact ⟨by decide, by decide⟩ | (show isAbsoluteName _ = true; decide)
  all_goals decide +kernel

open Verif.Merge in
/-- Types that are not persistent, like the arrays and pointers that are built on the way, are not dumped. -/
theorem C80_hidden_counterexample : ∃ (R : Reg) (s : Str), Reachable ascii mgHeap R ∧
    dump mgHeap 3 R false true ['*'] = .ok s ∧ R.has "/A".toList = true ∧ s = "Types in registry\n".toList := by
  refine ⟨run ascii mgHeap Reg.empty [.add 7 false []], _, ?_, ?_, ?_, rfl⟩
  · refine reachable_ops mgAcyclic _ ?_
    intro o ho
    simp only [List.mem_cons, List.mem_nil_iff, or_false] at ho
    subst ho
    exact ⟨by decide, by decide⟩
  all_goals decide +kernel

end Verif.Display
