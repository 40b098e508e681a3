import Verif.RegistryInv

/-! `reverseDepends` computes the reverse dependency closure. -/

namespace Verif.Registry
open Verif Verif.Names Verif.Graph

variable {key : Char → Int} {H : Heap}

/-- `v` is `t`, or a type that depends on it through registered types. `regd u` means that `u` is
registered (under its own name). -/
inductive Reaches (H : Heap) (regd : TId → Prop) (t : TId) : TId → Prop
  | self : Reaches H regd t t
  | step {u v : TId} : Reaches H regd t u → regd v → u ∈ H.deps v → Reaches H regd t v

/-- the type is registered under its own name -/
def Reg.regd (H : Heap) (R : Reg) (u : TId) : Prop := R.reg (H.name u) = some u

theorem mem_revRound {R : Reg} (h : Sorted key R.global) {result queue : List TId} {v : TId} :
    v ∈ revRound H R result queue ↔ R.regd H v ∧ v ∉ result ∧ v ∉ queue ∧ ∃ q ∈ queue, q ∈ H.deps v := by
  unfold revRound
  simp only [List.mem_map, List.mem_filter, Bool.and_eq_true, Bool.not_eq_true', isAlias,
    bne_eq_false_iff_eq, Bool.or_eq_false_iff, List.any_eq_true, List.contains_iff_mem]
  constructor
  · rintro ⟨p, ⟨h1, ⟨h2, h3, h4⟩, q, h5, h6⟩, rfl⟩
    have := mem_reg h h1
    rw [h2] at this
    exact ⟨this, by simpa using h3, by simpa using h4, q, h5, by simpa using h6⟩
  · rintro ⟨h1, h2, h3, q, h4, h5⟩
    obtain ⟨e, he, rfl⟩ := reg_mem h1
    exact ⟨(H.name e.ty, e), ⟨he, ⟨rfl, by simpa using h2, by simpa using h3⟩, q, h4, by simpa using h5⟩, rfl⟩

/-- number of registered types not yet reached -/
def revLeft (R : Reg) (seen : List TId) : Nat := (R.global.filter (fun p => !seen.contains p.2.ty)).length

theorem revLeft_lt {R : Reg} {seen new : List TId} {v : TId} {n : Str} (hv : R.reg n = some v)
    (h1 : v ∉ seen) (h2 : v ∈ new) : revLeft R (seen ++ new) < revLeft R seen := by
  obtain ⟨e, he, rfl⟩ := reg_mem hv
  unfold revLeft
  have : ∀ l : List (Str × Entry), (n, e) ∈ l →
      (l.filter (fun p => !(seen ++ new).contains p.2.ty)).length <
      (l.filter (fun p => !seen.contains p.2.ty)).length ∧ True := by
    intro l hl
    refine ⟨?_, trivial⟩
    induction l with
    | nil => cases hl
    | cons p l ih =>
      have hle : ∀ l : List (Str × Entry), (l.filter (fun p => !(seen ++ new).contains p.2.ty)).length ≤
          (l.filter (fun p => !seen.contains p.2.ty)).length := by
        intro l
        rw [← List.countP_eq_length_filter, ← List.countP_eq_length_filter]
        apply List.countP_mono_left
        intro x _
        simp only [Bool.not_eq_true', List.contains_eq_mem, decide_eq_false_iff_not, List.mem_append, not_or]
        exact fun h => h.1
      rcases List.mem_cons.mp hl with rfl | hl
      · rw [List.filter_cons_of_neg (by simp [h2]), List.filter_cons_of_pos (by simpa using h1)]
        have := hle l
        simp only [List.length_cons]
        omega
      · have hi := ih hl
        by_cases hp : p.2.ty ∈ seen
        · rw [List.filter_cons_of_neg (by simp [hp]), List.filter_cons_of_neg (by simp [hp])]
          exact hi
        · by_cases hp2 : p.2.ty ∈ new
          · rw [List.filter_cons_of_neg (by simp [hp2]), List.filter_cons_of_pos (by simpa using hp)]
            simp only [List.length_cons]; omega
          · rw [List.filter_cons_of_pos (by simp [hp, hp2]), List.filter_cons_of_pos (by simpa using hp)]
            simp only [List.length_cons]; omega
  exact (this _ he).1

theorem revLoop_spec {R : Reg} (h : Sorted key R.global) (t : TId) : ∀ (f : Nat) (result queue : List TId),
    (∀ u ∈ result ++ queue, Reaches H (R.regd H) t u) →
    (∀ u ∈ result, ∀ v, R.regd H v → u ∈ H.deps v → v ∈ result ++ queue) →
    (t ∈ result ++ queue) →
    (revLeft R (result ++ queue) + 2 ≤ f ∨ (queue = [] ∧ 1 ≤ f)) →
    ∃ types, revLoop H R f result queue = .ok types ∧ ∀ u, u ∈ types ↔ Reaches H (R.regd H) t u := by
  intro f
  induction f with
  | zero => intro result queue _ _ _ hf; omega
  | succ f ih =>
    intro result queue h1 h2 h3 hf
    unfold revLoop
    by_cases hq : queue.isEmpty = true
    · rw [if_pos hq]
      have hq' : queue = [] := List.isEmpty_iff.mp hq
      subst hq'
      simp only [List.append_nil] at h1 h2 h3
      refine ⟨result, rfl, fun u => ⟨h1 u, fun hr => ?_⟩⟩
      induction hr with
      | self => exact h3
      | step hr' hv hd ihr => exact h2 _ ihr _ hv hd
    · rw [if_neg hq]
      apply ih
      · intro u hu
        rcases List.mem_append.mp hu with hu | hu
        · exact h1 u hu
        · obtain ⟨r1, r2, r3, q, r4, r5⟩ := (mem_revRound h).mp hu
          exact .step (h1 q (List.mem_append.mpr (Or.inr r4))) r1 r5
      · intro u hu v hv hd
        by_cases hvs : v ∈ result ++ queue
        · exact List.mem_append.mpr (Or.inl hvs)
        · refine List.mem_append.mpr (Or.inr ?_)
          rcases List.mem_append.mp hu with hu | hu
          · exact absurd (h2 u hu v hv hd) hvs
          · rw [List.mem_append, not_or] at hvs
            exact (mem_revRound h).mpr ⟨hv, hvs.1, hvs.2, u, hu, hd⟩
      · exact List.mem_append.mpr (Or.inl h3)
      · have hf' : revLeft R (result ++ queue) + 2 ≤ f + 1 := by
          rcases hf with hf | ⟨hf, _⟩
          · exact hf
          · exact absurd (List.isEmpty_iff.mpr hf) hq
        cases hn : revRound H R result queue with
        | nil => right; exact ⟨rfl, by omega⟩
        | cons v vs =>
          left
          have hv : v ∈ revRound H R result queue := by rw [hn]; simp
          obtain ⟨r1, r2, r3, _⟩ := (mem_revRound h).mp hv
          have := revLeft_lt (seen := result ++ queue) (new := v :: vs) r1
            (by rw [List.mem_append, not_or]; exact ⟨r2, r3⟩) (by simp)
          omega

theorem reverseDepends_spec {R : Reg} (h : Sorted key R.global) (t : TId) :
    ∃ types, reverseDepends H R t = .ok types ∧ ∀ u, u ∈ types ↔ Reaches H (R.regd H) t u := by
  unfold reverseDepends
  apply revLoop_spec h
  · intro u hu
    have : u = t := by simpa using hu
    subst this; exact .self
  · intro u hu; cases hu
  · simp
  · left
    have : revLeft R [t] ≤ R.global.length := List.length_filter_le _ _
    simp only [List.nil_append]
    omega

end Verif.Registry
