import Verif.NameProps

/-! What remains of a valid name after a namespace made of plain identifiers. -/

namespace Verif.Names
open Verif

/-- the scanner rejects an empty component after a plain prefix -/
theorem validLoop_after (q rest : Str) : ∀ (f : Nat) (p w : Str) (j : Nat),
    (∀ c ∈ q, special c = false) →
    validLoop f (p ++ '/' :: w ++ q ++ '/' :: rest) (p ++ '/' :: w).length p.length true false = some (true, j) →
    rest ≠ [] ∧ rest.head? ≠ some '/' := by
  induction q with
  | nil =>
    intro f p w j _ h
    cases f with
    | zero => simp [validLoop] at h
    | succ f =>
      have e0 : p ++ '/' :: w ++ [] ++ '/' :: rest = (p ++ '/' :: w) ++ '/' :: rest := by simp
      rw [e0] at h
      have hc : charAt ((p ++ '/' :: w) ++ '/' :: rest) (p ++ '/' :: w).length = '/' := charAt_mid _ _ _
      rw [validLoop, if_pos (by simp)] at h
      simp only [hc, if_true] at h
      split at h
      · simp at h
      · cases f with
        | zero => simp [validLoop] at h
        | succ f =>
          have hb : isValidTypeBasename ['/'] true false = false := by decide
          cases rest with
          | nil =>
            rw [validLoop, if_neg (by len_tac)] at h
            have hs : sub (p ++ '/' :: w ++ ['/']) (p ++ '/' :: w).length (p ++ '/' :: w ++ ['/']).length = ['/'] := by
              have := sub_mid (p ++ '/' :: w) ['/'] []
              simpa using this
            rw [if_pos (by simp), hs, hb] at h
            simp at h
          | cons c r =>
            refine ⟨by simp, ?_⟩
            intro hcs
            simp only [List.head?_cons, Option.some.injEq] at hcs
            subst hcs
            have e : p ++ '/' :: w ++ '/' :: '/' :: r = (p ++ '/' :: w ++ ['/']) ++ '/' :: r := by simp
            have el : (p ++ '/' :: w).length + 1 = (p ++ '/' :: w ++ ['/']).length := by len_tac
            rw [e, el, validLoop, if_pos (by simp)] at h
            have hc2 : charAt ((p ++ '/' :: w ++ ['/']) ++ '/' :: r) (p ++ '/' :: w ++ ['/']).length = '/' :=
              charAt_mid _ _ _
            simp only [hc2, if_true] at h
            have hs : sub ((p ++ '/' :: w ++ ['/']) ++ '/' :: r) (p ++ '/' :: w).length
                (p ++ '/' :: w ++ ['/']).length = ['/'] := sub_mid (p ++ '/' :: w) ['/'] _
            rw [hs, hb] at h
            simp at h
  | cons c q ih =>
    intro f p w j hq h
    cases f with
    | zero => simp [validLoop] at h
    | succ f =>
      have e0 : p ++ '/' :: w ++ c :: q ++ '/' :: rest = (p ++ '/' :: w) ++ c :: (q ++ '/' :: rest) := by simp
      rw [e0] at h
      have hc : charAt ((p ++ '/' :: w) ++ c :: (q ++ '/' :: rest)) (p ++ '/' :: w).length = c := charAt_mid _ _ _
      by_cases hcs : c = '/'
      · subst hcs
        rw [validLoop, if_pos (by simp)] at h
        simp only [hc, if_true] at h
        split at h
        · simp at h
        · refine ih f (p ++ '/' :: w) [] j (fun x hx => hq x (by simp [hx])) ?_
          have e : p ++ '/' :: w ++ ['/'] ++ q ++ '/' :: rest = p ++ '/' :: w ++ '/' :: (q ++ '/' :: rest) := by simp
          rw [e, show (p ++ '/' :: w ++ ['/']).length = (p ++ '/' :: w).length + 1 by len_tac]
          exact h
      · have hsp := hq c (by simp)
        have hpl : plain c = true := by
          simp [special] at hsp
          simp [plain, hcs, hsp]
        rw [validLoop_plain_step _ _ _ _ _ _ (by simp) (by rw [hc]; exact hpl)] at h
        refine ih f p (w ++ [c]) j (fun x hx => hq x (by simp [hx])) ?_
        have e : p ++ '/' :: (w ++ [c]) ++ q ++ '/' :: rest = p ++ '/' :: w ++ c :: (q ++ '/' :: rest) := by simp
        rw [e, show (p ++ '/' :: (w ++ [c])).length = (p ++ '/' :: w).length + 1 by len_tac]
        exact h

/-- A valid name that starts with a namespace `…/` free of template, array and pointer characters goes
on with a non-empty component. -/
theorem valid_after (p rest : Str) (hp : ∀ c ∈ p, special c = false) (habs : p.head? = some '/' ∨ p = [])
    (h : isValidTypename (p ++ '/' :: rest) true = true) : rest ≠ [] ∧ rest.head? ≠ some '/' := by
  unfold isValidTypename at h
  rw [if_neg (by simp)] at h
  split at h
  · rename_i b j hv
    subst h
    generalize nameFuel (p ++ '/' :: rest) = f at hv
    cases f with
    | zero => simp [validTn] at hv
    | succ f =>
      rw [validTn] at hv
      cases p with
      | nil =>
        rw [if_pos (show charAt ([] ++ '/' :: rest) 0 = '/' from rfl)] at hv
        simp only [List.nil_append] at hv
        cases f with
        | zero => simp [validLoop] at hv
        | succ f =>
          have hb : isValidTypeBasename ['/'] true false = false := by decide
          cases rest with
          | nil => exact absurd hv (by rw [validLoop]; simp [sub, hb])
          | cons c r =>
            refine ⟨by simp, ?_⟩
            intro hcs
            simp only [List.head?_cons, Option.some.injEq] at hcs
            subst hcs
            rw [validLoop, if_pos (by simp)] at hv
            have hc2 : charAt ('/' :: '/' :: r) (0 + 1) = '/' := rfl
            simp only [hc2, if_true] at hv
            have hs : sub ('/' :: '/' :: r) 0 (0 + 1) = ['/'] := rfl
            rw [hs, hb] at hv
            simp at hv
      | cons c p =>
        have hc : c = '/' := by simpa using habs
        subst hc
        rw [if_pos (show charAt ('/' :: p ++ '/' :: rest) 0 = '/' from rfl)] at hv
        exact validLoop_after p rest f [] [] j (fun x hx => hp x (by simp [hx])) (by simpa using hv)
  · cases h

theorem tokensGo_mem {cur s t : Str} (h : t ∈ tokensGo cur s) (hc : ∀ c ∈ cur, c ≠ '/') :
    t ≠ [] ∧ ∀ c ∈ t, c ≠ '/' ∧ (c ∈ cur ∨ c ∈ s) := by
  induction s generalizing cur with
  | nil =>
    unfold tokensGo at h
    split at h
    · cases h
    · rename_i hne
      rw [List.mem_singleton.mp h]
      exact ⟨by simpa using hne, fun c hcc => ⟨hc c hcc, Or.inl hcc⟩⟩
  | cons c r ih =>
    unfold tokensGo at h
    split at h
    · rcases List.mem_append.mp h with h | h
      · split at h
        · cases h
        · rename_i hne
          rw [List.mem_singleton.mp h]
          exact ⟨by simpa using hne, fun c hcc => ⟨hc c hcc, Or.inl hcc⟩⟩
      · obtain ⟨h1, h2⟩ := ih h (by simp)
        refine ⟨h1, fun c hcc => ⟨(h2 c hcc).1, ?_⟩⟩
        rcases (h2 c hcc).2 with h | h
        · cases h
        · exact Or.inr (by simp [h])
    · rename_i hcs
      obtain ⟨h1, h2⟩ := ih h (by
        intro x hx
        rcases List.mem_append.mp hx with hx | hx
        · exact hc x hx
        · rw [List.mem_singleton.mp hx]; exact hcs)
      refine ⟨h1, fun x hx => ⟨(h2 x hx).1, ?_⟩⟩
      rcases (h2 x hx).2 with h | h
      · rcases List.mem_append.mp h with h | h
        · exact Or.inl h
        · exact Or.inr (by simp [List.mem_singleton.mp h])
      · exact Or.inr (by simp [h])

theorem tokens_mem {s t : Str} (h : t ∈ tokens s) : t ≠ [] ∧ ∀ c ∈ t, c ≠ '/' ∧ c ∈ s := by
  obtain ⟨h1, h2⟩ := tokensGo_mem h (by simp)
  exact ⟨h1, fun c hc => ⟨(h2 c hc).1, by simpa using (h2 c hc).2⟩⟩

theorem tokensGo_comp {t : Str} (ht : ∀ c ∈ t, c ≠ '/') (cur r : Str) :
    tokensGo cur (t ++ r) = tokensGo (cur ++ t) r := by
  induction t generalizing cur with
  | nil => simp
  | cons c t ih =>
    rw [List.cons_append, tokensGo, if_neg (ht c (by simp)), ih (fun x hx => ht x (by simp [hx]))]
    simp

/-- the tokens of `"/c1/…/ck"` and `"/c1/…/ck/"` are `c1 … ck` -/
theorem tokens_join (l : List Str) (hl : ∀ x ∈ l, x ≠ [] ∧ ∀ c ∈ x, c ≠ '/') :
    tokens (joinAbs l) = l ∧ tokens (joinAbs l ++ ['/']) = l := by
  have aux : ∀ (l : List Str) (cur : Str), (∀ x ∈ l, x ≠ [] ∧ ∀ c ∈ x, c ≠ '/') →
      tokensGo cur (joinAbs l) = (if cur.isEmpty then [] else [cur]) ++ l ∧
      tokensGo cur (joinAbs l ++ ['/']) = (if cur.isEmpty then [] else [cur]) ++ l := by
    intro l
    induction l with
    | nil => intro cur _; simp [joinAbs, tokensGo]
    | cons a l ih =>
      intro cur hl
      obtain ⟨ha, hac⟩ := hl a (by simp)
      have e : joinAbs (a :: l) = '/' :: (a ++ joinAbs l) := by simp [joinAbs]
      obtain ⟨i1, i2⟩ := ih a (fun x hx => hl x (by simp [hx]))
      have hae : a.isEmpty = false := by simpa using ha
      constructor
      · rw [e, tokensGo, if_pos rfl, tokensGo_comp hac, List.nil_append, i1, hae]
        simp
      · rw [e, List.cons_append, tokensGo, if_pos rfl, List.append_assoc, tokensGo_comp hac,
          List.nil_append, i2, hae]
        simp
  have := aux l [] hl
  simpa [tokens] using this

end Verif.Names
