import Verif.NameValid

/-! Helper lemmas: soundness of `isValidTypename` on plain names, `strFind`, minimal paths. -/

namespace Verif.Names
open Verif

/-- characters that give a name structure beyond '/'-separated identifiers -/
def special (c : Char) : Bool := c == '<' || c == '>' || c == '[' || c == ']' || c == ',' || c == '*'

theorem basename_sound {w : Str} (h : isValidTypeBasename ('/' :: w) true false = true)
    (hs : ∀ c ∈ w, special c = false) : Ident w := by
  unfold isValidTypeBasename at h
  simp only [Bool.false_and, Bool.false_eq_true, if_false, List.head?_cons, bne_self_eq_false, Bool.and_false,
    beq_self_eq_true, if_true, List.drop_succ_cons, List.drop_zero] at h
  have ht : List.takeWhile (fun c => c != '*' && c != '[') w = w := by
    have : ∀ x ∈ w, (x != '*' && x != '[') = true := by
      intro x hx
      have := hs x hx
      simp [special] at this ⊢
      exact ⟨this.2, this.1.1.1.2⟩
    have h2 := List.takeWhile_append_of_pos (l₂ := []) this
    simpa using h2
  rw [ht] at h
  simp only [isValidIdentifier, Bool.and_eq_true, Bool.not_eq_true', List.isEmpty_eq_false_iff, List.all_eq_true] at h
  refine ⟨h.1, ?_⟩
  intro c hc
  have h1 := h.2 c hc
  have h2 := hs c hc
  simp [special] at h2
  simp only [identChar, Bool.or_eq_true, beq_iff_eq] at h1
  rcases h1 with (((h1 | h1) | h1) | h1) | h1
  · exact Or.inr (Or.inl h1)
  · exact Or.inr (Or.inr h1)
  · exact Or.inl h1
  · exact absurd h1 h2.1.1.1.1.1
  · exact absurd h1 h2.1.1.1.1.2

theorem validLoop_sound (rest : Str) : ∀ (f : Nat) (p w : Str) (j : Nat),
    (∀ c ∈ w, special c = false) → (∀ c ∈ rest, special c = false) →
    validLoop f (p ++ '/' :: w ++ rest) (p ++ '/' :: w).length p.length true false = some (true, j) →
    (∀ c ∈ w, c ≠ '/') →
    ∃ comps : List Str, comps ≠ [] ∧ (∀ x ∈ comps, Ident x) ∧ '/' :: w ++ rest = joinAbs comps := by
  induction rest with
  | nil =>
    intro f p w j hw _ h _
    cases f with
    | zero => simp [validLoop] at h
    | succ f =>
      rw [validLoop] at h
      rw [if_neg (by simp)] at h
      rw [if_pos (by simp)] at h
      have hs : sub (p ++ '/' :: w ++ []) p.length (p ++ '/' :: w ++ []).length = '/' :: w := by
        have := sub_mid p ('/' :: w) []
        simpa using this
      rw [hs] at h
      simp only [Option.some.injEq, Prod.mk.injEq] at h
      exact ⟨[w], by simp, by simpa using basename_sound h.1 hw, by simp [joinAbs]⟩
  | cons c rest ih =>
    intro f p w j hw hr h hsl
    cases f with
    | zero => simp [validLoop] at h
    | succ f =>
      have hc : charAt (p ++ '/' :: w ++ c :: rest) (p ++ '/' :: w).length = c := charAt_mid _ _ _
      by_cases hcs : c = '/'
      · subst hcs
        rw [validLoop, if_pos (by simp)] at h
        simp only [hc, if_true] at h
        have hs : sub (p ++ '/' :: w ++ '/' :: rest) p.length (p ++ '/' :: w).length = '/' :: w :=
          sub_mid p ('/' :: w) _
        rw [hs] at h
        split at h
        · simp at h
        · rename_i hb
          simp only [Bool.not_eq_true, Bool.not_eq_false'] at hb
          obtain ⟨comps, h1, h2, h3⟩ := ih f (p ++ '/' :: w) [] j (by simp) (fun x hx => hr x (by simp [hx]))
            (by
              have e : p ++ '/' :: w ++ '/' :: [] ++ rest = p ++ '/' :: w ++ '/' :: rest := by simp
              rw [e, show (p ++ '/' :: w ++ '/' :: []).length = (p ++ '/' :: w).length + 1 by len_tac]
              exact h) (by simp)
          refine ⟨w :: comps, by simp, ?_, ?_⟩
          · intro x hx
            rcases List.mem_cons.mp hx with rfl | hx
            · exact basename_sound (by simpa using hb) hw
            · exact h2 x hx
          · have : '/' :: rest = joinAbs comps := by simpa using h3
            simp [joinAbs] at this ⊢
            exact this
      · have hsp := hr c (by simp)
        have hpl : plain c = true := by
          simp [special] at hsp
          simp [plain, hcs, hsp]
        rw [validLoop_plain_step _ _ _ _ _ _ (by simp) (by rw [hc]; exact hpl)] at h
        obtain ⟨comps, h1, h2, h3⟩ := ih f p (w ++ [c]) j
          (by intro x hx
              rcases List.mem_append.mp hx with hx | hx
              · exact hw x hx
              · rw [List.mem_singleton.mp hx]; exact hsp)
          (fun x hx => hr x (by simp [hx]))
          (by
            have e : p ++ '/' :: (w ++ [c]) ++ rest = p ++ '/' :: w ++ c :: rest := by simp
            rw [e, show (p ++ '/' :: (w ++ [c])).length = (p ++ '/' :: w).length + 1 by len_tac]
            exact h)
          (by intro x hx
              rcases List.mem_append.mp hx with hx | hx
              · exact hsl x hx
              · rw [List.mem_singleton.mp hx]; exact hcs)
        exact ⟨comps, h1, h2, by simpa using h3⟩

/-- a relative first character is rejected in absolute mode -/
theorem validLoop_rel (rest : Str) : ∀ (f : Nat) (w : Str) (j : Nat),
    w.head? ≠ some '/' → w ≠ [] →
    (∀ c ∈ rest, special c = false) →
    validLoop f (w ++ rest) w.length 0 true false ≠ some (true, j) := by
  induction rest with
  | nil =>
    intro f w j hw hne _ h
    cases f with
    | zero => simp [validLoop] at h
    | succ f =>
      rw [validLoop, if_neg (by simp)] at h
      have hl : (0 : Nat) ≠ (w ++ []).length := by
        have : w.length ≠ 0 := by simpa using hne
        simp; omega
      rw [if_pos hl] at h
      have hs : sub (w ++ []) 0 (w ++ []).length = w := by simp [sub]
      rw [hs] at h
      unfold isValidTypeBasename at h
      cases hh : w.head? with
      | none => simp [hh] at h
      | some c =>
        have : c ≠ '/' := fun e => hw (by rw [hh, e])
        simp [hh, this] at h
  | cons c rest ih =>
    intro f w j hw hne hr h
    cases f with
    | zero => simp [validLoop] at h
    | succ f =>
      have hc : charAt (w ++ c :: rest) w.length = c := charAt_mid _ _ _
      by_cases hcs : c = '/'
      · subst hcs
        rw [validLoop, if_pos (by simp)] at h
        simp only [hc, if_true] at h
        have hs : sub (w ++ '/' :: rest) 0 w.length = w := by simp [sub]
        rw [hs] at h
        have : isValidTypeBasename w true false = false := by
          unfold isValidTypeBasename
          cases hh : w.head? with
          | none => simp
          | some c =>
            have : c ≠ '/' := fun e => hw (by rw [hh, e])
            simp [this]
        simp [this] at h
      · have hsp := hr c (by simp)
        have hpl : plain c = true := by
          simp [special] at hsp
          simp [plain, hcs, hsp]
        rw [validLoop_plain_step _ _ _ _ _ _ (by simp) (by rw [hc]; exact hpl)] at h
        have e : w ++ c :: rest = (w ++ [c]) ++ rest := by simp
        rw [e, show w.length + 1 = (w ++ [c]).length by simp] at h
        exact ih f (w ++ [c]) j (by cases w <;> simp_all) (by simp) (fun x hx => hr x (by simp [hx])) h

/-! ### substring search -/

theorem strFind_iff (s pat : Str) : strFind s pat = true ↔ pat <:+: s := by
  induction s with
  | nil => simp [strFind]
  | cons c s ih =>
    rw [strFind, Bool.or_eq_true, ih, List.isPrefixOf_iff_prefix, List.infix_cons_iff]

theorem commonTokens_spec (a b : List Str) :
    a = (commonTokens a b).1 ++ (commonTokens a b).2 ∧ (commonTokens a b).1 <+: b := by
  induction a generalizing b with
  | nil => cases b <;> simp [commonTokens]
  | cons x xs ih =>
    cases b with
    | nil => simp [commonTokens]
    | cons y ys =>
      simp only [commonTokens]
      split
      · rename_i h; subst h
        have := ih ys
        refine ⟨by simpa using this.1, ?_⟩
        obtain ⟨t, ht⟩ := this.2
        exact ⟨t, by simp [ht]⟩
      · simp

/-- tokens joined with '/' but without a leading one -/
def joinRel : List Str → Str
  | [] => []
  | x :: xs => x ++ joinAbs xs

theorem disambiguate_spec (ns : Str) (common : List Str) (toks : List Str) (hne : toks ≠ []) :
    ∃ k : List Str, ∃ c',
      disambiguate ns common (joinRel toks) = (c', joinRel (k ++ toks)) ∧
      common.reverse = c'.reverse ++ k ∧
      (c' ≠ [] → strFind ns (joinRel (k ++ toks)) = false) := by
  induction common generalizing toks with
  | nil => exact ⟨[], [], by simp [disambiguate], by simp, by simp⟩
  | cons c cs ih =>
    simp only [disambiguate]
    by_cases h : strFind ns (joinRel toks) = true
    · rw [if_pos h]
      have e : c ++ '/' :: joinRel toks = joinRel (c :: toks) := by
        cases toks with
        | nil => exact absurd rfl hne
        | cons t ts => simp [joinRel, joinAbs]
      rw [e]
      obtain ⟨k, c', h1, h2, h3⟩ := ih (c :: toks) (by simp)
      refine ⟨k ++ [c], c', ?_, ?_, ?_⟩
      · rw [h1]; simp
      · simp [h2]
      · intro hc'; have := h3 hc'; simpa using this
    · rw [if_neg h]
      exact ⟨[], c :: cs, by simp, by simp, fun _ => by simpa using h⟩

theorem splitGo_join_slash (c : Str) (l : List Str) (hc : Comp c) (hl : ∀ x ∈ l, Comp x) :
    splitGo 0 [] (c ++ joinAbs l ++ ['/']) = c :: l := by
  induction l generalizing c with
  | nil =>
    have e : c ++ joinAbs [] ++ ['/'] = c ++ ['/'] := by simp [joinAbs]
    rw [e, splitGo_comp hc]
    simp [splitGo]
  | cons d l ih =>
    have e : c ++ joinAbs (d :: l) ++ ['/'] = c ++ ('/' :: (d ++ joinAbs l ++ ['/'])) := by simp [joinAbs]
    rw [e, splitGo_comp hc]
    simp only [splitGo, if_true, List.nil_append]
    rw [ih d (hl d (by simp)) (fun x hx => hl x (by simp [hx]))]

/-- splitting a namespace -/
theorem split_ns (l : List Str) (hl : ∀ x ∈ l, Comp x) :
    splitTypename (joinAbs l ++ ['/']) = l := by
  cases l with
  | nil => rfl
  | cons c l =>
    have e : joinAbs (c :: l) ++ ['/'] = '/' :: (c ++ joinAbs l ++ ['/']) := by simp [joinAbs]
    rw [e, splitTypename]
    exact splitGo_join_slash c l (hl c (by simp)) (fun x hx => hl x (by simp [hx]))

theorem split_name (l : List Str) (hne : l ≠ []) (hl : ∀ x ∈ l, Comp x ∧ x ≠ []) :
    splitTypename (joinAbs l) = l := by
  cases l with
  | nil => exact absurd rfl hne
  | cons c l =>
    have e : joinAbs (c :: l) = '/' :: (c ++ joinAbs l) := by simp [joinAbs]
    rw [e, splitTypename]
    exact splitGo_join_comps c l (hl c (by simp)).1 (fun x hx => (hl x (by simp [hx])).1)
      (fun x hx => (hl x hx).2)

end Verif.Names
