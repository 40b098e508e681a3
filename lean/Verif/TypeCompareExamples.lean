import Verif.TypeCompareProps
import Verif.RegistryProps

/-! Examples and counterexamples for the comparison of types (C26-C28), and `Registry::isSame` (C31). -/

namespace Verif.Graph
open Verif

/-- numerics, compounds sharing them, padded compounds and their vectors, a recursive type and its copy -/
def cmpGet : TId → TypeDef
  | 0 => ⟨"/X".toList, 4, .num .sint⟩
  | 1 => ⟨"/Y".toList, 4, .num .sint⟩
  | 2 => ⟨"/Z".toList, 4, .num .sint⟩
  | 3 => ⟨"/S".toList, 8, .comp [⟨['a'], 0, 0⟩, ⟨['b'], 4, 1⟩]⟩
  | 4 => ⟨"/T".toList, 8, .comp [⟨['a'], 0, 2⟩, ⟨['b'], 4, 2⟩]⟩
  | 5 => ⟨"/N".toList, 0, .null⟩
  | 6 => ⟨"/N".toList, 4, .num .uint⟩
  | 7 => ⟨"/C".toList, 4, .comp [⟨['x'], 0, 0⟩]⟩
  | 8 => ⟨"/D".toList, 8, .comp [⟨['x'], 0, 0⟩]⟩
  | 9 => ⟨"/std/vector</C>".toList, 24, .vec 7⟩
  | 10 => ⟨"/std/vector</D>".toList, 24, .vec 8⟩
  | 11 => ⟨"/P".toList, 32, .comp [⟨['c'], 0, 7⟩, ⟨['v'], 8, 9⟩]⟩
  | 12 => ⟨"/Q".toList, 32, .comp [⟨['c'], 0, 8⟩, ⟨['v'], 8, 10⟩]⟩
  | 13 => ⟨"/P2".toList, 32, .comp [⟨['v'], 0, 9⟩, ⟨['c'], 24, 7⟩]⟩
  | 14 => ⟨"/Q2".toList, 32, .comp [⟨['v'], 0, 10⟩, ⟨['c'], 24, 8⟩]⟩
  | 15 => ⟨"/L".toList, 16, .comp [⟨['n'], 0, 16⟩, ⟨['v'], 8, 0⟩]⟩
  | 16 => ⟨"/L*".toList, 8, .ptr 15⟩
  | 17 => ⟨"/M".toList, 16, .comp [⟨['n'], 0, 18⟩, ⟨['v'], 8, 1⟩]⟩
  | 18 => ⟨"/M*".toList, 8, .ptr 17⟩
  | _ => ⟨[], 0, .opaque⟩

def cmpHeap : Heap := ⟨19, cmpGet⟩

theorem cmpHeap_wf : WF cmpHeap := by
  constructor
  · intro t d ht hd
    match t with
    | 0 | 1 | 2 | 5 | 6 | 3 | 4 | 7 | 8 | 9 | 10 | 11 | 12 | 13 | 14 | 15 | 16 | 17 | 18 =>
      revert d
      decide
    | n + 19 => exact absurd hd (by show ¬ d ∈ ([] : List TId); simp)
  · intro t s h
    match t with
    | 0 | 1 | 2 | 3 | 4 | 5 | 6 | 7 | 8 | 9 | 10 | 11 | 12 | 13 | 14 | 15 | 16 | 17 | 18 => cases h
    | n + 19 => cases h

/-- a recursive type and its copy are the same, in both directions -/
example : isSame cmpHeap 15 17 = .ok true ∧ isSame cmpHeap 17 15 = .ok true ∧
    isSame cmpHeap 15 3 = .ok false := by
  decide +kernel

/-- the recursive type contains no null type: `C26_isSame_structural_partial` applies to it -/
theorem cmp_noNull : NoNull cmpHeap 15 := by
  have main : ∀ (p : List Sel) (t u : TId), (t = 0 ∨ t = 15 ∨ t = 16) → follow cmpHeap t p = some u →
      (u = 0 ∨ u = 15 ∨ u = 16) := by
    intro p
    induction p with
    | nil => intro t u ht hu; cases hu; exact ht
    | cons s p ih =>
      intro t u ht hu
      unfold follow at hu
      have : ∀ v, part cmpHeap t s = some v → (v = 0 ∨ v = 15 ∨ v = 16) := by
        intro v hv
        rcases ht with rfl | rfl | rfl
        · cases s <;> cases hv
        · cases s with
          | elem => cases hv
          | field i =>
            match i with
            | 0 => cases hv; simp
            | 1 => cases hv; simp
            | i + 2 => cases hv
        · cases s with
          | elem => cases hv; simp
          | field i => cases hv
      cases hp : part cmpHeap t s with
      | none => rw [hp] at hu; cases hu
      | some v => rw [hp] at hu; exact ih v u (this v hp) hu
  intro p t ht
  rcases main p 15 t (by simp) ht with rfl | rfl | rfl <;> decide

example : SameDefinition cmpHeap 15 17 :=
  C26_isSame_structural_partial cmpHeap cmpHeap_wf 15 17 (by decide) (by decide) cmp_noNull (by decide +kernel)

/-- **C26, null types.** `isSame` says that a null type and a numeric of the same name are the same,
though their sizes and categories differ. -/
theorem C26_null_counterexample :
    ∃ (H : Heap) (a b : TId), WF H ∧ a < H.next ∧ b < H.next ∧ isSame H a b = .ok true ∧
      H.cat a ≠ H.cat b ∧ H.size a ≠ H.size b ∧ isSame H b a = .ok false :=
  ⟨cmpHeap, 5, 6, cmpHeap_wf, by decide, by decide, by decide +kernel, by decide, by decide, by decide +kernel⟩

/-- **C27 is false as stated**: `struct S { X a; Y b; }` is the same as `struct T { Z a; Z b; }`, but not
the other way round (`X`, `Y` and `Z` being 32-bit integers). -/
theorem C27_counterexample :
    ∃ (H : Heap) (a b : TId), WF H ∧ a < H.next ∧ b < H.next ∧ isSame H a b = .ok true ∧
      isSame H b a = .ok false ∧ SameDefinition H a b := by
  refine ⟨cmpHeap, 3, 4, cmpHeap_wf, by decide, by decide, by decide +kernel, by decide +kernel, ?_⟩
  apply C26_isSame_structural_partial cmpHeap cmpHeap_wf 3 4 (by decide) (by decide) _ (by decide +kernel)
  intro p t ht
  match p, ht with
  | [], ht => cases ht; decide
  | .elem :: p, ht => cases ht
  | .field 0 :: [], ht => cases ht; decide
  | .field 1 :: [], ht => cases ht; decide
  | .field 0 :: .elem :: p, ht => cases ht
  | .field 0 :: .field j :: p, ht => cases ht
  | .field 1 :: .elem :: p, ht => cases ht
  | .field 1 :: .field j :: p, ht => cases ht
  | .field (i + 2) :: p, ht => cases ht

/-- **C28, elements of containers.** A cast is accepted between `struct { C c; vector<C> v; }` and
`struct { D c; vector<D> v; }` although `C` and `D` have different sizes, so that the elements of the
vectors are at different addresses; it is refused when the fields come in the other order, and between
the vectors themselves. -/
theorem C28_container_elements_counterexample :
    ∃ (H : Heap) (a b a' b' v w : TId), WF H ∧ canCastTo H a b = .ok true ∧
      follow H a [.field 1] = some v ∧ follow H b [.field 1] = some w ∧ canCastTo H v w = .ok false ∧
      (follow H v [.elem]).map H.size ≠ (follow H w [.elem]).map H.size ∧
      canCastTo H a' b' = .ok false ∧ (H.deps a').reverse = H.deps a ∧ (H.deps b').reverse = H.deps b :=
  ⟨cmpHeap, 11, 12, 13, 14, 9, 10, cmpHeap_wf, by decide +kernel, by decide, by decide, by decide +kernel,
    by decide, by decide +kernel, by decide, by decide⟩

/-- `C28_canCast_layout_partial` is about real casts: padding may differ -/
example : canCastTo cmpHeap 7 8 = .ok true ∧ isSame cmpHeap 7 8 = .ok false := by decide +kernel

end Verif.Graph

namespace Verif.Registry
open Verif Verif.Names Verif.Graph

variable {key : Char → Int} {H : Heap}

/-! ### C31 -/

/-- `Registry::isSame` (registry.cc:553-570). The loop increments `left_it` and `left_end`, which is
`m_global.end()`: undefined behaviour as soon as the first two entries compare equal. `right_it` is
never incremented. -/
def regIsSame (H : Heap) (R R' : Reg) : Res Bool :=
  if R.global.length ≠ R'.global.length then .ok false
  else match R.global, R'.global with
    | (_, e) :: _, (_, e') :: _ => isSame H e.ty e'.ty >>= fun b => if b then .ub else .ok false
    | _, _ => .ok true

/-- the same names, with types that are the same -/
def SameContents (H : Heap) (R R' : Reg) : Prop :=
  (∀ n, isAbsoluteName n = true → (R.has n = true ↔ R'.has n = true)) ∧
  (∀ n t t', isAbsoluteName n = true → R.get n = some t → R'.get n = some t' → isSame H t t' = .ok true)

theorem sorted_keys_unique : ∀ (l l' : List (Str × Entry)), Sorted key l → Sorted key l' →
    (∀ n, n ∈ l.map (·.1) ↔ n ∈ l'.map (·.1)) → l.map (·.1) = l'.map (·.1) := by
  intro l
  induction l with
  | nil =>
    intro l' _ _ h
    cases l' with
    | nil => rfl
    | cons p l' => exact absurd ((h p.1).mpr (by simp)) (by simp)
  | cons p l ih =>
    intro l' hs hs' h
    cases l' with
    | nil => exact absurd ((h p.1).mp (by simp)) (by simp)
    | cons q l' =>
      have h1 := List.pairwise_cons.mp hs
      have h2 := List.pairwise_cons.mp hs'
      have hpq : p.1 = q.1 := by
        have m1 := (h p.1).mp (by simp)
        have m2 := (h q.1).mpr (by simp)
        rw [List.map_cons, List.mem_cons] at m1 m2
        rcases m1 with e | e
        · exact e
        · rcases m2 with e' | e'
          · exact e'.symm
          · obtain ⟨x, hx, hxe⟩ := List.mem_map.mp e
            obtain ⟨y, hy, hye⟩ := List.mem_map.mp e'
            have a1 := h2.1 x hx
            have a2 := h1.1 y hy
            rw [hxe] at a1
            rw [hye] at a2
            have := nameSort_asymm key _ _ a1
            rw [a2] at this; cases this
      have hn1 : p.1 ∉ l.map (·.1) := by
        intro e
        obtain ⟨x, hx, hxe⟩ := List.mem_map.mp e
        have := h1.1 x hx
        rw [hxe, nameSort_irrefl] at this; cases this
      have hn2 : q.1 ∉ l'.map (·.1) := by
        intro e
        obtain ⟨x, hx, hxe⟩ := List.mem_map.mp e
        have := h2.1 x hx
        rw [hxe, nameSort_irrefl] at this; cases this
      rw [List.map_cons, List.map_cons, hpq, ih l' h1.2 h2.2 (fun n => ?_)]
      have := h n
      rw [List.map_cons, List.map_cons, List.mem_cons, List.mem_cons, hpq] at this
      constructor
      · intro hn
        rcases this.mp (Or.inr hn) with e | e
        · rw [e, ← hpq] at hn; exact absurd hn hn1
        · exact e
      · intro hn
        rcases this.mpr (Or.inr hn) with e | e
        · rw [e] at hn; exact absurd hn hn2
        · exact e

/-- **C31**, as far as it goes: the comparison of two registries answers "different" only when their
contents differ, and answers "same" only when both are empty. Missing: it never answers "same" for
registries that are not empty (`C31_counterexample`). -/
theorem C31_answers_partial (hk : ∀ a b, key a = key b → a = b) (hac : Acyclic H) {R R' : Reg}
    (hR : Reachable key H R) (hR' : Reachable key H R') :
    (regIsSame H R R' = .ok false → ¬ SameContents H R R') ∧
    (regIsSame H R R' = .ok true → SameContents H R R' ∧ ∀ n, R.has n = false) := by
  have h := inv_reachable hk hac hR
  have h' := inv_reachable hk hac hR'
  have hmem : ∀ {R : Reg}, Inv key H R → ∀ n, n ∈ R.global.map (·.1) ↔ isAbsoluteName n = true ∧ R.has n = true := by
    intro R h n
    constructor
    · intro hn
      obtain ⟨p, hp, rfl⟩ := List.mem_map.mp hn
      have ha := (h.names p hp).2
      refine ⟨ha, ?_⟩
      rw [has_iff]
      exact ⟨p.2.ty, by rw [h.abs _ ha]; exact mem_reg h.sorted hp⟩
    · rintro ⟨ha, hh⟩
      obtain ⟨u, hu⟩ := (has_iff R n).mp hh
      rw [h.abs n ha] at hu
      obtain ⟨e, he, _⟩ := reg_mem hu
      exact List.mem_map.mpr ⟨_, he, rfl⟩
  constructor
  · intro hf ⟨hs1, hs2⟩
    have hkeys : R.global.map (·.1) = R'.global.map (·.1) := by
      refine sorted_keys_unique _ _ h.sorted h'.sorted (fun n => ?_)
      rw [hmem h n, hmem h' n]
      constructor
      · rintro ⟨h1, h2⟩; exact ⟨h1, (hs1 n h1).mp h2⟩
      · rintro ⟨h1, h2⟩; exact ⟨h1, (hs1 n h1).mpr h2⟩
    have hlen : R.global.length = R'.global.length := by
      have := congrArg List.length hkeys
      simpa using this
    unfold regIsSame at hf
    rw [if_neg (by simpa using hlen)] at hf
    cases hg : R.global with
    | nil => rw [hg] at hf; cases hf
    | cons p l =>
      cases hg' : R'.global with
      | nil => rw [hg, hg'] at hlen; simp at hlen
      | cons q l' =>
        rw [hg, hg'] at hf hkeys
        obtain ⟨n, e⟩ := p
        obtain ⟨n', e'⟩ := q
        simp only [List.map_cons, List.cons.injEq] at hkeys
        obtain ⟨rfl, _⟩ := hkeys
        have hp : (n, e) ∈ R.global := by rw [hg]; simp
        have hq : (n, e') ∈ R'.global := by rw [hg']; simp
        have ha := (h.names _ hp).2
        have := hs2 n e.ty e'.ty ha (by rw [h.abs _ ha]; exact mem_reg h.sorted hp)
          (by rw [h'.abs _ ha]; exact mem_reg h'.sorted hq)
        simp only [this, Res.bind_ok, if_true] at hf
        cases hf
  · intro hf
    unfold regIsSame at hf
    by_cases hlen : R.global.length ≠ R'.global.length
    · rw [if_pos hlen] at hf; cases hf
    · rw [if_neg hlen] at hf
      have hnil : R.global = [] := by
        cases hg : R.global with
        | nil => rfl
        | cons p l =>
          cases hg' : R'.global with
          | nil => rw [hg, hg'] at hlen; simp at hlen
          | cons q l' =>
            rw [hg, hg'] at hf
            simp only at hf
            obtain ⟨b, _, hb⟩ := Res.bind_eq_ok.mp hf
            cases b <;> cases hb
      have hnil' : R'.global = [] := by
        rw [hnil] at hlen
        simp only [List.length_nil] at hlen
        exact List.length_eq_zero_iff.mp (by omega)
      have hno : ∀ {R : Reg}, Inv key H R → R.global = [] → ∀ n, R.get n = none := by
        intro R h hn n
        cases hg : R.get n with
        | none => rfl
        | some u =>
          have := h.get_regd hg
          obtain ⟨e, he, _⟩ := reg_mem this
          rw [hn] at he; cases he
      have hno2 : ∀ {R : Reg}, Inv key H R → R.global = [] → ∀ n, R.has n = false := by
        intro R h hn n
        cases hh : R.has n with
        | false => rfl
        | true =>
          obtain ⟨u, hu⟩ := (has_iff R n).mp hh
          rw [hno h hn n] at hu; cases hu
      refine ⟨⟨fun n _ => ?_, fun n t t' _ ht => ?_⟩, hno2 h hnil⟩
      · rw [hno2 h hnil n, hno2 h' hnil' n]
      · rw [hno h hnil n] at ht; cases ht

/-- **C31 is false**: comparing any registry that is not empty with itself (or with a copy) is undefined
behaviour. -/
theorem C31_counterexample (hk : ∀ a b, key a = key b → a = b) (hac : Acyclic H) {R : Reg}
    (hR : Reachable key H R) (n : Str) (t : TId) (hg : R.get n = some t) :
    SameContents H R R ∧ regIsSame H R R = .ub := by
  have h := inv_reachable hk hac hR
  refine ⟨⟨fun _ _ => Iff.rfl, fun n t t' _ h1 h2 => ?_⟩, ?_⟩
  · rw [h1] at h2; cases h2; exact C26_reflexive H t
  · unfold regIsSame
    rw [if_neg (by simp)]
    obtain ⟨e, he, _⟩ := reg_mem (h.get_regd hg)
    cases hgl : R.global with
    | nil => rw [hgl] at he; cases he
    | cons p l =>
      simp only
      rw [C26_reflexive]
      rfl

/-! ### The theorems on concrete cases -/

example := Graph.C26_compare_terminates Graph.cmpHeap Graph.cmpHeap_wf 15 17 (by decide) (by decide)
example := Graph.C26_isSame_iff Graph.cmpHeap Graph.cmpHeap_wf 15 17 (by decide) (by decide)
example := Graph.C28_isSame_canCast Graph.cmpHeap Graph.cmpHeap_wf 15 17 (by decide) (by decide) (by decide +kernel)

end Verif.Registry
