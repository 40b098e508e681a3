import Verif.NameLemmas

/-! Helper lemmas about `isValidTypename`: fuel, completeness for the grammar of names. -/

namespace Verif.Names
open Verif

theorem valid_mono (f : Nat) :
    (∀ s pos a b r, validTn f s pos a b = some r → validTn (f + 1) s pos a b = some r) ∧
    (∀ s i st a b r, validLoop f s i st a b = some r → validLoop (f + 1) s i st a b = some r) ∧
    (∀ s i r, validArgs f s i = some r → validArgs (f + 1) s i = some r) := by
  induction f with
  | zero => simp [validTn, validLoop, validArgs]
  | succ f ih =>
    obtain ⟨ih1, ih2, ih3⟩ := ih
    refine ⟨?_, ?_, ?_⟩
    · intro s pos a b r h
      rw [validTn] at h ⊢
      exact ih2 _ _ _ _ _ _ h
    · intro s i st a b r h
      rw [validLoop] at h ⊢
      split
      · rename_i hi
        rw [if_pos hi] at h
        dsimp only at h ⊢
        split
        · rename_i hc
          rw [if_pos hc] at h
          split
          · rename_i hb; rw [if_pos hb] at h; exact h
          · rename_i hb; rw [if_neg hb] at h; exact ih2 _ _ _ _ _ _ h
        · rename_i hc
          rw [if_neg hc] at h
          split
          · rename_i hc2
            rw [if_pos hc2] at h
            split
            · rename_i hb; rw [if_pos hb] at h; exact h
            · rename_i hb; rw [if_neg hb] at h
              cases ha : validArgs f s i with
              | none => rw [ha] at h; simp at h
              | some p =>
                rw [ih3 _ _ _ ha]
                rw [ha] at h
                obtain ⟨ok, j⟩ := p
                cases ok with
                | false => exact h
                | true =>
                  dsimp only at h ⊢
                  split
                  · rename_i hj; rw [if_pos hj] at h
                    split
                    · rename_i hk; rw [if_pos hk] at h; exact ih2 _ _ _ _ _ _ h
                    · rename_i hk; rw [if_neg hk] at h
                      split
                      · rename_i hk; rw [if_pos hk] at h; exact h
                      · rename_i hk; rw [if_neg hk] at h; exact ih2 _ _ _ _ _ _ h
                  · rename_i hj; rw [if_neg hj] at h; exact ih2 _ _ _ _ _ _ h
          · rename_i hc2
            rw [if_neg hc2] at h
            split
            · rename_i hc3
              rw [if_pos hc3] at h
              split
              · rename_i hb; rw [if_pos hb] at h; exact h
              · rename_i hb; rw [if_neg hb] at h
                split
                · rename_i hb; rw [if_pos hb] at h; exact h
                · rename_i hb; rw [if_neg hb] at h; exact ih2 _ _ _ _ _ _ h
            · rename_i hc3
              rw [if_neg hc3] at h
              split
              · rename_i hc4
                rw [if_pos hc4] at h
                split
                · rename_i hb; rw [if_pos hb] at h; exact h
                · rename_i hb; rw [if_neg hb] at h
                  split
                  · rename_i hb; rw [if_pos hb] at h; exact h
                  · rename_i hb; rw [if_neg hb] at h
                    split
                    · rename_i hb; rw [if_pos hb] at h
                      split
                      · rename_i hb; rw [if_pos hb] at h; exact ih2 _ _ _ _ _ _ h
                      · rename_i hb; rw [if_neg hb] at h
                        split
                        · rename_i hb; rw [if_pos hb] at h; exact h
                        · rename_i hb; rw [if_neg hb] at h; exact ih2 _ _ _ _ _ _ h
                    · rename_i hb; rw [if_neg hb] at h; exact ih2 _ _ _ _ _ _ h
              · rename_i hc4
                rw [if_neg hc4] at h
                split
                · rename_i hc5; rw [if_pos hc5] at h; exact h
                · rename_i hc5; rw [if_neg hc5] at h; exact ih2 _ _ _ _ _ _ h
      · rename_i hi
        rw [if_neg hi] at h
        exact h
    · intro s i r h
      rw [validArgs] at h ⊢
      split
      · rename_i hc; rw [if_pos hc] at h; exact h
      · rename_i hc; rw [if_neg hc] at h
        cases ha : validTn f s (i + 1) true true with
        | none => rw [ha] at h; simp at h
        | some p =>
          rw [ih1 _ _ _ _ _ ha]
          rw [ha] at h
          obtain ⟨ok, j⟩ := p
          dsimp only at h ⊢
          split
          · rename_i hb; rw [if_pos hb] at h; exact h
          · rename_i hb; rw [if_neg hb] at h
            split
            · rename_i hb; rw [if_pos hb] at h; exact h
            · rename_i hb; rw [if_neg hb] at h; exact ih3 _ _ _ h

theorem validTn_mono {f g : Nat} (hfg : f ≤ g) {s pos a b r} (h : validTn f s pos a b = some r) :
    validTn g s pos a b = some r := by
  induction hfg with
  | refl => exact h
  | step _ ih => exact (valid_mono _).1 _ _ _ _ _ ih
theorem validLoop_mono {f g : Nat} (hfg : f ≤ g) {s i st a b r} (h : validLoop f s i st a b = some r) :
    validLoop g s i st a b = some r := by
  induction hfg with
  | refl => exact h
  | step _ ih => exact (valid_mono _).2.1 _ _ _ _ _ _ ih
theorem validArgs_mono {f g : Nat} (hfg : f ≤ g) {s i r} (h : validArgs f s i = some r) :
    validArgs g s i = some r := by
  induction hfg with
  | refl => exact h
  | step _ ih => exact (valid_mono _).2.2 _ _ _ ih

/-- termination: enough fuel always gives a verdict, at a position between the start and the end. -/
theorem valid_total (s : Str) (f : Nat) :
    (∀ pos a b, pos ≤ s.length → 3 * (s.length - pos) + 2 ≤ f →
        ∃ ok j, validTn f s pos a b = some (ok, j) ∧ pos ≤ j ∧ j ≤ s.length) ∧
    (∀ i st a b, i ≤ s.length → st ≤ i → 3 * (s.length - i) + 1 ≤ f →
        ∃ ok j, validLoop f s i st a b = some (ok, j) ∧ st ≤ j ∧ (ok = true → i ≤ j) ∧ j ≤ s.length) ∧
    (∀ i, i < s.length → 3 * (s.length - i) ≤ f →
        ∃ ok j, validArgs f s i = some (ok, j) ∧ i ≤ j ∧ (ok = true → j < s.length)∧ j ≤ s.length) := by
  induction f with
  | zero =>
    refine ⟨fun _ _ _ _ h => by omega, fun _ _ _ _ _ _ h => by omega, fun i hi h => by omega⟩
  | succ f ih =>
    obtain ⟨ih1, ih2, ih3⟩ := ih
    refine ⟨?_, ?_, ?_⟩
    · intro pos a b hp hf
      rw [validTn]
      by_cases hc : charAt s pos = '/'
      · have hlt : pos < s.length := by
          apply Decidable.byContradiction; intro hn
          have : s[pos]? = none := by simp; omega
          simp [charAt, this] at hc
        simp only [hc, if_true]
        obtain ⟨ok, j, h1, h2, _, h3⟩ := ih2 (pos + 1) pos a b (by omega) (by omega) (by omega)
        exact ⟨ok, j, h1, h2, h3⟩
      · simp only [hc, if_false]
        obtain ⟨ok, j, h1, h2, _, h3⟩ := ih2 pos pos a b (by omega) (by omega) (by omega)
        exact ⟨ok, j, h1, h2, h3⟩
    · intro i st a b hi hst hf
      obtain ⟨P, hP⟩ : ∃ P : Option (Bool × Nat) → Prop, P = fun r => ∃ ok j, r = some (ok, j) ∧
          st ≤ j ∧ (ok = true → i ≤ j) ∧ j ≤ s.length := ⟨_, rfl⟩
      have step : ∀ k st', i < k → k ≤ s.length → st ≤ st' → st' ≤ k →
          P (validLoop f s k st' a b) := by
        intro k st' h1 h2 h3 h4
        obtain ⟨ok, j, e, e1, e2, e3⟩ := ih2 k st' a b h2 h4 (by omega)
        rw [hP]
        exact ⟨ok, j, e, by omega, fun h => by have := e2 h; omega, e3⟩
      have rej : ∀ j, st ≤ j → j ≤ s.length → P (some (false, j)) := by
        intro j h1 h2; rw [hP]; exact ⟨_, _, rfl, h1, by simp, h2⟩
      have acc : ∀ ok j, st ≤ j → i ≤ j → j ≤ s.length → P (some (ok, j)) := by
        intro ok j h1 h2 h3; rw [hP]; exact ⟨_, _, rfl, h1, fun _ => h2, h3⟩
      have slash : ∀ k, charAt s k = '/' → k < s.length := by
        intro k hk
        apply Decidable.byContradiction; intro hn
        have : s[k]? = none := by simp; omega
        simp [charAt, this] at hk
      have goal : P (validLoop (f + 1) s i st a b) := by
        clear hP
        rw [validLoop]
        by_cases hlt : i < s.length
        · rw [if_pos hlt]
          dsimp only
          by_cases c1 : charAt s i = '/'
          · rw [if_pos c1]
            split
            · exact rej _ (by omega) (by omega)
            · exact step _ _ (by omega) (by omega) (by omega) (by omega)
          rw [if_neg c1]
          by_cases c2 : charAt s i = '<'
          · rw [if_pos c2]
            split
            · exact rej _ (by omega) (by omega)
            · obtain ⟨ok, j, e, e1, e2, e3⟩ := ih3 i hlt (by omega)
              rw [e]
              cases ok with
              | false => exact rej _ (by omega) (by omega)
              | true =>
                have := e2 rfl
                dsimp only
                have hji : i ≤ j := e1
                split
                · split
                  · rename_i hs; have := slash _ hs
                    exact step _ _ (by omega) (by omega) (by omega) (by omega)
                  · split
                    · exact rej _ (by omega) (by omega)
                    · exact step _ _ (by omega) (by omega) (by omega) (by omega)
                · exact step _ _ (by omega) (by omega) (by omega) (by omega)
          rw [if_neg c2]
          by_cases c3 : charAt s i = '['
          · rw [if_pos c3]
            split
            · exact rej _ (by omega) (by omega)
            · split
              · exact rej _ (by omega) (by omega)
              · exact step _ _ (by omega) (by omega) (by omega) (by omega)
          rw [if_neg c3]
          by_cases c4 : charAt s i = ']'
          · rw [if_pos c4]
            split
            · exact rej _ (by omega) (by omega)
            · split
              · exact rej _ (by omega) (by omega)
              · split
                · split
                  · rename_i hs; have := slash _ hs
                    exact step _ _ (by omega) (by omega) (by omega) (by omega)
                  · split
                    · exact rej _ (by omega) (by omega)
                    · exact step _ _ (by omega) (by omega) (by omega) (by omega)
                · exact step _ _ (by omega) (by omega) (by omega) (by omega)
          rw [if_neg c4]
          split
          · exact acc _ _ (by omega) (by omega) (by omega)
          · exact step _ _ (by omega) (by omega) (by omega) (by omega)
        · rw [if_neg hlt]
          split
          · exact acc _ _ (by omega) (by omega) (by omega)
          · exact acc _ _ (by omega) (by omega) (by omega)
      rw [hP] at goal
      exact goal
    · intro i hi hf
      rw [validArgs]
      split
      · exact ⟨_, _, rfl, by omega, fun _ => hi, by omega⟩
      · obtain ⟨ok, j, e, e1, e2⟩ := ih1 (i + 1) true true (by omega) (by omega)
        rw [e]
        dsimp only
        split
        · exact ⟨_, _, rfl, by omega, by simp, by omega⟩
        · split
          · exact ⟨_, _, rfl, by omega, by simp, by omega⟩
          · rename_i hj
            have hjl : j ≠ s.length := fun h => hj (Or.inl h)
            obtain ⟨ok', j', e', e1', e2', e3'⟩ := ih3 j (by omega) (by omega)
            exact ⟨ok', j', e', by omega, e2', e3'⟩

/-! ### the grammar of well-formed names -/

mutual
/-- What follows a component `"/ident"` in a well-formed name. -/
inductive NTail where
  | done
  /-- `"/ident***"` and the rest -/
  | seg (ident : Str) (stars : Nat) (t : NTail)
  /-- `"<args>"` and the rest -/
  | tmpl (args : NArgs) (t : NTail)
  /-- `"[digits]"` and the rest -/
  | arr (digits : Str) (t : NTail)
/-- Template arguments. -/
inductive NArgs where
  | one (ident : Str) (stars : Nat) (t : NTail)
  | num (digits : Str)
  | more (ident : Str) (stars : Nat) (t : NTail) (rest : NArgs)
  | moreNum (digits : Str) (rest : NArgs)
end

mutual
def NTail.render : NTail → Str
  | .done => []
  | .seg id n t => '/' :: (id ++ List.replicate n '*') ++ t.render
  | .tmpl a t => '<' :: a.render ++ '>' :: t.render
  | .arr d t => '[' :: d ++ ']' :: t.render
def NArgs.render : NArgs → Str
  | .one id n t => '/' :: (id ++ List.replicate n '*') ++ t.render
  | .num d => d
  | .more id n t r => '/' :: (id ++ List.replicate n '*') ++ t.render ++ ',' :: r.render
  | .moreNum d r => d ++ ',' :: r.render
end

/-- where we are in a component: after its identifier, after a template, after an array suffix -/
inductive Ctx where
  | ident | tmpl | arr
  deriving DecidableEq

/-- an identifier: letters, digits, underscore, space; not empty -/
def Ident (s : Str) : Prop := s ≠ [] ∧ ∀ c ∈ s, c.isAlphanum = true ∨ c = '_' ∨ c = ' '

def Digits (s : Str) : Prop := s ≠ [] ∧ ∀ c ∈ s, c.isDigit = true

/-- does the name end with an array suffix? -/
def NTail.endsArr : Ctx → NTail → Bool
  | c, .done => c == .arr
  | _, .seg _ _ t => t.endsArr .ident
  | _, .tmpl _ t => t.endsArr .tmpl
  | _, .arr _ t => t.endsArr .arr

mutual
/-- well-formedness: a template only directly after an identifier. (The scanner rejects pointers to arrays,
and arrays used as a template argument other than the last one.) -/
def NTail.WF : Ctx → NTail → Prop
  | _, .done => True
  | _, .seg id _ t => Ident id ∧ t.WF .ident
  | c, .tmpl a t => c = .ident ∧ a.WF ∧ t.WF .tmpl
  | _, .arr d t => Digits d ∧ t.WF .arr
def NArgs.WF : NArgs → Prop
  | .one id _ t => Ident id ∧ t.WF .ident
  | .num d => Digits d
  | .more id _ t r => Ident id ∧ t.WF .ident ∧ t.endsArr .ident = false ∧ r.WF
  | .moreNum d r => Digits d ∧ r.WF
end

theorem charAt_mid (pre r : Str) (c : Char) : charAt (pre ++ c :: r) pre.length = c := by
  simp [charAt]

theorem charAt_end (pre : Str) : charAt pre pre.length = '\x00' := by
  simp [charAt]

theorem sub_mid (p w r : Str) : sub (p ++ w ++ r) p.length (p ++ w).length = w := by
  simp [sub]

/-- characters that the main loop passes over -/
def plain (c : Char) : Bool := c != '/' && c != '<' && c != '[' && c != ']' && c != '>' && c != ','

theorem validLoop_plain_step (f : Nat) (s : Str) (i st : Nat) (a b : Bool) (hi : i < s.length)
    (hp : plain (charAt s i) = true) :
    validLoop (f + 1) s i st a b = validLoop f s (i + 1) st a b := by
  simp only [plain, Bool.and_eq_true, bne_iff_ne, ne_eq] at hp
  obtain ⟨⟨⟨⟨⟨h1, h2⟩, h3⟩, h4⟩, h5⟩, h6⟩ := hp
  rw [validLoop]
  simp [hi, h1, h2, h3, h4, h5, h6]

theorem validLoop_plain (w : Str) (hw : ∀ c ∈ w, plain c = true) (f : Nat) (pre post : Str) (st : Nat)
    (a b : Bool) :
    validLoop (f + w.length) (pre ++ w ++ post) pre.length st a b
      = validLoop f (pre ++ w ++ post) (pre ++ w).length st a b := by
  induction w generalizing pre f with
  | nil => simp
  | cons c w ih =>
    have e : pre ++ c :: w ++ post = (pre ++ [c]) ++ w ++ post := by simp
    rw [show f + (c :: w).length = (f + w.length) + 1 by simp; omega]
    rw [validLoop_plain_step _ _ _ _ _ _ (by simp)
      (by rw [show pre ++ c :: w ++ post = pre ++ c :: (w ++ post) by simp, charAt_mid]; exact hw c (by simp))]
    rw [e]
    have := ih (fun x hx => hw x (by simp [hx])) f (pre ++ [c])
    simp only [List.length_append, List.length_cons, List.length_nil] at this ⊢
    rw [show pre.length + (w.length + 1) = pre.length + (0 + 1) + w.length by omega]
    exact this

theorem alnum_plain {c : Char} (h : c.isAlphanum = true ∨ c = '_' ∨ c = ' ') : plain c = true := by
  rcases h with h | h | h
  · unfold plain
    simp only [Bool.and_eq_true, bne_iff_ne, ne_eq]
    refine ⟨⟨⟨⟨⟨?_, ?_⟩, ?_⟩, ?_⟩, ?_⟩, ?_⟩ <;> (intro hc; subst hc; revert h; decide)
  · subst h; decide
  · subst h; decide

theorem alnum_ident {c : Char} (h : c.isAlphanum = true ∨ c = '_' ∨ c = ' ') :
    identChar c = true ∧ c ≠ '*' ∧ c ≠ '[' := by
  rcases h with h | h | h
  · refine ⟨by simp [identChar, h], ?_, ?_⟩ <;> (intro hc; subst hc; revert h; decide)
  · subst h; decide
  · subst h; decide

/-- an identifier with pointer marks, as it appears in a component -/
def IdStars (w : Str) : Prop := ∃ id n, Ident id ∧ w = id ++ List.replicate n '*'

theorem IdStars.plain {w : Str} (h : IdStars w) : ∀ c ∈ w, plain c = true := by
  obtain ⟨id, n, hid, rfl⟩ := h
  intro c hc
  rw [List.mem_append] at hc
  rcases hc with hc | hc
  · exact alnum_plain (hid.2 c hc)
  · rw [List.mem_replicate] at hc; rw [hc.2]; decide

theorem IdStars.basename {w : Str} (h : IdStars w) (a b : Bool) :
    isValidTypeBasename ('/' :: w) a b = true := by
  obtain ⟨id, n, hid, rfl⟩ := h
  unfold isValidTypeBasename
  have h0 : (('/' :: (id ++ List.replicate n '*')).all intChar) = false := by
    simp [List.all_cons, show intChar '/' = false by decide]
  rw [h0]
  have ht : List.takeWhile (fun c => c != '*' && c != '[') (id ++ List.replicate n '*') = id := by
    have h1 : ∀ x ∈ id, (x != '*' && x != '[') = true := by
      intro x hx
      have := alnum_ident (hid.2 x hx)
      simp [this.2.1, this.2.2]
    rw [List.takeWhile_append_of_pos h1]
    cases n <;> simp [List.replicate_succ]
  simp only [Bool.and_false, Bool.false_eq_true, if_false, List.head?_cons, bne_self_eq_false, beq_self_eq_true,
    if_true, List.drop_succ_cons, List.drop_zero, ht]
  simp only [isValidIdentifier]
  have h2 : id.all identChar = true := by
    rw [List.all_eq_true]
    intro x hx
    exact (alnum_ident (hid.2 x hx)).1
  simp [h2, hid.1]

theorem digit_plain {c : Char} (h : c.isDigit = true) : plain c = true ∧ intChar c = true := by
  constructor
  · apply alnum_plain; left; simp [Char.isAlphanum, h]
  · simp [intChar, h]

/-- what the scanner does after a template (`k = .tmpl`, typename.cc:127-134) or after an array suffix
(`k = .arr`, typename.cc:154-161). -/
def contAfter (k : Ctx) (f : Nat) (s : Str) (i : Nat) (a b : Bool) : Option (Bool × Nat) :=
  if i < s.length then
    if charAt s i = '/' then validLoop f s (i + 1) i a b
    else if charAt s i ≠ '>' ∧ charAt s i ≠ '[' ∧ (k = .tmpl → charAt s i ≠ ',') then some (false, i)
    else validLoop f s i i a b
  else validLoop f s i i a b

theorem contAfter_mono {k : Ctx} {f g : Nat} (hfg : f ≤ g) {s i a b r}
    (h : contAfter k f s i a b = some r) : contAfter k g s i a b = some r := by
  unfold contAfter at *
  split at h
  · rename_i h1; rw [if_pos h1]
    split at h
    · rename_i h2; rw [if_pos h2]; exact validLoop_mono hfg h
    · rename_i h2; rw [if_neg h2]
      split at h
      · rename_i h3; rw [if_pos h3]; exact h
      · rename_i h3; rw [if_neg h3]; exact validLoop_mono hfg h
  · rename_i h1; rw [if_neg h1]; exact validLoop_mono hfg h

/-- what may follow a complete name: nothing, `>` or (not after an array suffix) `,` -/
def Post (e : Bool) (post : Str) : Prop :=
  post = [] ∨ (∃ r, post = '>' :: r) ∨ (e = false ∧ ∃ r, post = ',' :: r)

/-- end of a name: the scanner accepts it -/
theorem validLoop_finish (pre post : Str) (st : Nat) (a b : Bool)
    (hst : isValidTypeBasename (sub (pre ++ post) st pre.length) a b = true ∨ st = pre.length)
    (hst2 : isValidTypeBasename (sub (pre ++ post) st pre.length) true true = true)
    (hpost : Post false post) :
    validLoop 1 (pre ++ post) pre.length st a b = some (true, pre.length) := by
  rw [validLoop]
  rcases hpost with h | ⟨r, h⟩ | ⟨_, r, h⟩
  · subst h
    simp only [List.append_nil, Nat.lt_irrefl, if_false] at *
    split
    · rename_i h; rcases hst with h' | h'
      · rw [h']
      · exact absurd h' h
    · rfl
  · subst h
    rw [if_pos (by simp)]
    simp only [charAt_mid]
    simp [hst2]
  · subst h
    rw [if_pos (by simp)]
    simp only [charAt_mid]
    simp [hst2]

/-- arithmetic on lengths of concatenations -/
macro "len_tac" : tactic =>
  `(tactic| (simp only [List.length_append, List.length_cons, List.length_nil] at * <;> omega))

theorem basename_nil : isValidTypeBasename [] true true = true := by decide

theorem sub_self (s : Str) (i : Nat) : sub s i i = [] := by simp [sub]

/-- the scanner over `"[digits]"` -/
theorem validLoop_arr (p d q : Str) (st f : Nat) (a b : Bool) (hd : Digits d)
    (hst : isValidTypeBasename (sub (p ++ '[' :: d ++ ']' :: q) st p.length) a b = true ∨ st = p.length) :
    validLoop (f + 1 + d.length + 1) (p ++ '[' :: d ++ ']' :: q) p.length st a b
      = contAfter .arr f (p ++ '[' :: d ++ ']' :: q) (p ++ '[' :: d ++ [']']).length a b := by
  have e1 : p ++ '[' :: d ++ ']' :: q = p ++ '[' :: (d ++ ']' :: q) := by simp
  have e2 : p ++ '[' :: d ++ ']' :: q = (p ++ ['[']) ++ d ++ ']' :: q := by simp
  have e3 : p ++ '[' :: d ++ ']' :: q = (p ++ '[' :: d) ++ ']' :: q := by simp
  have hdl : d.length ≠ 0 := by simpa using hd.1
  rw [validLoop]
  rw [if_pos (by simp)]
  have hc : charAt (p ++ '[' :: d ++ ']' :: q) p.length = '[' := by rw [e1, charAt_mid]
  simp only [hc]
  rw [if_neg (by decide), if_neg (by decide), if_pos trivial]
  rw [if_neg (by rcases hst with h | h <;> intro hx <;> simp only [h] at hx <;> simp at hx)]
  rw [if_neg (by len_tac)]
  have hl := validLoop_plain d (fun c hc => (digit_plain (hd.2 c hc)).1) (f + 1) (p ++ ['[']) (']' :: q)
    (p ++ ['[']).length a b
  rw [show p.length + 1 = (p ++ ['[']).length by simp, e2, hl]
  rw [validLoop]
  rw [if_pos (by simp)]
  have hc2 : charAt (p ++ ['['] ++ d ++ ']' :: q) (p ++ ['['] ++ d).length = ']' := charAt_mid _ _ _
  simp only [hc2]
  rw [if_neg (by decide), if_neg (by decide), if_neg (by decide), if_pos trivial]
  rw [if_neg (by len_tac)]
  have hs : sub (p ++ ['['] ++ d ++ ']' :: q) (p ++ ['[']).length (p ++ ['['] ++ d).length = d := sub_mid _ _ _
  rw [hs]
  rw [if_neg (by
    simp only [List.any_eq_true, not_exists, not_and]
    intro x hx; simp [hd.2 x hx])]
  unfold contAfter
  have hlen : (p ++ '[' :: d ++ [']']).length = (p ++ ['['] ++ d).length + 1 := by len_tac
  rw [hlen]
  simp only [show Ctx.arr = Ctx.tmpl ↔ False by simp, false_imp_iff, and_true]

/-- an integer template argument -/
theorem numTn (p d : Str) (c e : Char) (post : Str) (he : e = '>' ∨ e = ',') (hd : Digits d) :
    validTn (d.length + 3) (p ++ c :: d ++ e :: post) (p.length + 1) true true
      = some (true, (p ++ c :: d).length) := by
  have hpl : ∀ x ∈ d, plain x = true := fun x hx => (digit_plain (hd.2 x hx)).1
  have hne : charAt (p ++ c :: d ++ e :: post) (p.length + 1) ≠ '/' := by
    obtain ⟨x, d', rfl⟩ : ∃ x d', d = x :: d' := by
      cases hd' : d with
      | nil => exact absurd hd' hd.1
      | cons x d' => exact ⟨x, d', rfl⟩
    have := charAt_mid (p ++ [c]) (d' ++ e :: post) x
    have h2 : charAt (p ++ c :: x :: d' ++ e :: post) (p.length + 1) = x := by simpa using this
    rw [h2]
    have := hpl x (by simp)
    intro hx; subst hx; revert this; decide
  rw [validTn, if_neg hne]
  have hl := validLoop_plain d hpl 2 (p ++ [c]) (e :: post) (p.length + 1) true true
  have e2 : p ++ [c] ++ d ++ e :: post = p ++ c :: d ++ e :: post := by simp
  rw [e2] at hl
  rw [show d.length + 2 = 2 + d.length by omega]
  rw [show validLoop (2 + d.length) (p ++ c :: d ++ e :: post) (p.length + 1) (p.length + 1) true true
    = validLoop (2 + d.length) (p ++ c :: d ++ e :: post) (p ++ [c]).length (p.length + 1) true true by simp, hl]
  rw [show (p ++ [c] ++ d).length = (p ++ c :: d).length by len_tac]
  apply validLoop_mono (f := 1) (by omega)
  have hs : sub (p ++ c :: d ++ e :: post) (p.length + 1) (p ++ c :: d).length = d := by
    have := sub_mid (p ++ [c]) d (e :: post)
    simpa using this
  have hb : isValidTypeBasename d true true = true := by
    unfold isValidTypeBasename
    have : d.all intChar = true := by
      rw [List.all_eq_true]; intro x hx; exact (digit_plain (hd.2 x hx)).2
    simp [this]
  apply validLoop_finish (p ++ c :: d) (e :: post)
  · left; rw [hs]; exact hb
  · rw [hs]; exact hb
  · rcases he with h | h
    · exact Or.inr (Or.inl ⟨post, by rw [h]⟩)
    · exact Or.inr (Or.inr ⟨rfl, post, by rw [h]⟩)

mutual
theorem tailA : ∀ (t : NTail) (p w post : Str) (a b : Bool), t.WF .ident → IdStars w →
    Post (t.endsArr .ident) post →
    ∃ f, validLoop f (p ++ '/' :: w ++ t.render ++ post) (p ++ '/' :: w).length p.length a b
      = some (true, (p ++ '/' :: w ++ t.render).length)
  | .done, p, w, post, a, b, _, hw, hpost => by
    refine ⟨1, ?_⟩
    have hs := sub_mid p ('/' :: w) post
    simp only [NTail.render, List.append_nil]
    exact validLoop_finish (p ++ '/' :: w) post p.length a b
      (by rw [hs]; left; exact hw.basename a b) (by rw [hs]; exact hw.basename _ _)
      (by simpa [NTail.endsArr, show (Ctx.ident == Ctx.arr) = false by decide] using hpost)
  | .seg id n t, p, w, post, a, b, hwf, hw, hpost => by
    have hw' : IdStars (id ++ List.replicate n '*') := ⟨id, n, hwf.1, rfl⟩
    obtain ⟨f, hf⟩ := tailA t (p ++ '/' :: w) (id ++ List.replicate n '*') post a b hwf.2 hw' hpost
    generalize hv : id ++ List.replicate n '*' = v at *
    refine ⟨f + v.length + 1, ?_⟩
    have e : p ++ '/' :: w ++ NTail.render (.seg id n t) ++ post
        = (p ++ '/' :: w) ++ '/' :: v ++ t.render ++ post := by simp [NTail.render, ← hv]
    have e' : p ++ '/' :: w ++ NTail.render (.seg id n t)
        = (p ++ '/' :: w) ++ '/' :: v ++ t.render := by simp [NTail.render, ← hv]
    rw [e, e']
    rw [validLoop, if_pos (by simp)]
    have hc : charAt (p ++ '/' :: w ++ '/' :: v ++ t.render ++ post) (p ++ '/' :: w).length = '/' := by
      have := charAt_mid (p ++ '/' :: w) (v ++ (t.render ++ post)) '/'
      simpa using this
    simp only [hc, if_true]
    have hs : sub (p ++ '/' :: w ++ '/' :: v ++ t.render ++ post) p.length (p ++ '/' :: w).length = '/' :: w := by
      have := sub_mid p ('/' :: w) ('/' :: v ++ t.render ++ post)
      simpa using this
    rw [hs, hw.basename]
    simp only [Bool.not_true, Bool.false_eq_true, if_false]
    have hl := validLoop_plain v (IdStars.plain hw') f (p ++ '/' :: w ++ ['/']) (t.render ++ post)
      (p ++ '/' :: w).length a b
    have e2 : p ++ '/' :: w ++ ['/'] ++ v ++ (t.render ++ post) = p ++ '/' :: w ++ '/' :: v ++ t.render ++ post := by
      simp
    rw [e2] at hl
    rw [show (p ++ '/' :: w).length + 1 = (p ++ '/' :: w ++ ['/']).length by len_tac, hl]
    rw [show (p ++ '/' :: w ++ ['/'] ++ v).length = (p ++ '/' :: w ++ '/' :: v).length by len_tac]
    exact hf
  | .tmpl g t, p, w, post, a, b, hwf, hw, hpost => by
    obtain ⟨f1, h1⟩ := argsG g (p ++ '/' :: w) '<' (t.render ++ post) (Or.inl rfl) hwf.2.1
    obtain ⟨f2, h2⟩ := contB t .tmpl (p ++ '/' :: w ++ '<' :: g.render ++ ['>']) post a b (by decide) hwf.2.2 hpost
    refine ⟨(f1 + f2) + 1, ?_⟩
    have h1 := validArgs_mono (show f1 ≤ f1 + f2 by omega) h1
    have h2 := contAfter_mono (show f2 ≤ f1 + f2 by omega) h2
    generalize f1 + f2 = f at h1 h2
    have e : p ++ '/' :: w ++ NTail.render (.tmpl g t) ++ post
        = p ++ '/' :: w ++ '<' :: g.render ++ '>' :: (t.render ++ post) := by simp [NTail.render]
    have e2 : p ++ '/' :: w ++ '<' :: g.render ++ ['>'] ++ t.render ++ post
        = p ++ '/' :: w ++ '<' :: g.render ++ '>' :: (t.render ++ post) := by simp
    rw [e]
    rw [e2] at h2
    rw [validLoop, if_pos (by simp)]
    have hc : charAt (p ++ '/' :: w ++ '<' :: g.render ++ '>' :: (t.render ++ post)) (p ++ '/' :: w).length = '<' := by
      have := charAt_mid (p ++ '/' :: w) (g.render ++ '>' :: (t.render ++ post)) '<'
      simpa using this
    simp only [hc]
    rw [if_neg (by decide), if_pos trivial]
    have hs : sub (p ++ '/' :: w ++ '<' :: g.render ++ '>' :: (t.render ++ post)) p.length (p ++ '/' :: w).length = '/' :: w := by
      have := sub_mid p ('/' :: w) ('<' :: g.render ++ '>' :: (t.render ++ post))
      simpa using this
    rw [hs, hw.basename]
    simp only [Bool.not_true, Bool.false_eq_true, if_false]
    rw [h1]
    have e3 : (p ++ '/' :: w ++ '<' :: g.render ++ ['>']).length = (p ++ '/' :: w ++ '<' :: g.render).length + 1 := by
      len_tac
    rw [e3] at h2
    simp only [contAfter, forall_const] at h2
    simp only
    rw [h2]
    simp [NTail.render]
  | .arr d t, p, w, post, a, b, hwf, hw, hpost => by
    obtain ⟨f, hf⟩ := contB t .arr (p ++ '/' :: w ++ '[' :: d ++ [']']) post a b (by decide) hwf.2 hpost
    refine ⟨f + 1 + d.length + 1, ?_⟩
    have e : p ++ '/' :: w ++ NTail.render (.arr d t) ++ post
        = p ++ '/' :: w ++ '[' :: d ++ ']' :: (t.render ++ post) := by simp [NTail.render]
    have e2 : p ++ '/' :: w ++ '[' :: d ++ [']'] ++ t.render ++ post
        = p ++ '/' :: w ++ '[' :: d ++ ']' :: (t.render ++ post) := by simp
    rw [e]
    rw [e2] at hf
    rw [validLoop_arr (p ++ '/' :: w) d (t.render ++ post) p.length f a b hwf.1, hf]
    · simp [NTail.render]
    · left
      have := sub_mid p ('/' :: w) ('[' :: d ++ ']' :: (t.render ++ post))
      have e4 : p ++ '/' :: w ++ ('[' :: d ++ ']' :: (t.render ++ post)) = p ++ '/' :: w ++ '[' :: d ++ ']' :: (t.render ++ post) := by simp
      rw [e4] at this
      rw [this]; exact hw.basename a b

theorem contB : ∀ (t : NTail) (k : Ctx) (p post : Str) (a b : Bool), k ≠ .ident → t.WF k →
    Post (t.endsArr k) post →
    ∃ f, contAfter k f (p ++ t.render ++ post) p.length a b = some (true, (p ++ t.render).length)
  | .done, k, p, post, a, b, hk, _, hpost => by
    refine ⟨1, ?_⟩
    simp only [NTail.render, List.append_nil]
    have hfin : Post false post → validLoop 1 (p ++ post) p.length p.length a b = some (true, p.length) := by
      intro h
      exact validLoop_finish p post p.length a b (Or.inr rfl) (by rw [sub_self]; exact basename_nil) h
    unfold contAfter
    rcases hpost with h | ⟨r, h⟩ | ⟨he, r, h⟩
    · subst h
      rw [if_neg (by simp)]
      exact hfin (Or.inl rfl)
    · have hp : Post false post := Or.inr (Or.inl ⟨r, h⟩)
      rw [hfin hp]
      subst h
      rw [if_pos (by simp), if_neg (by rw [charAt_mid]; decide), if_neg (by rw [charAt_mid]; simp)]
    · have hp : Post false post := Or.inr (Or.inr ⟨rfl, r, h⟩)
      rw [hfin hp]
      have hkt : k = .tmpl := by cases k <;> simp_all [NTail.endsArr]
      subst h
      rw [if_pos (by simp), if_neg (by rw [charAt_mid]; decide), if_neg (by rw [charAt_mid]; simp [hkt])]
  | .seg id n t, k, p, post, a, b, hk, hwf, hpost => by
    have hw' : IdStars (id ++ List.replicate n '*') := ⟨id, n, hwf.1, rfl⟩
    obtain ⟨f, hf⟩ := tailA t p (id ++ List.replicate n '*') post a b hwf.2 hw' hpost
    generalize hv : id ++ List.replicate n '*' = v at *
    refine ⟨f + v.length, ?_⟩
    have e : p ++ NTail.render (.seg id n t) ++ post = p ++ '/' :: v ++ t.render ++ post := by
      simp [NTail.render, ← hv]
    have e' : p ++ NTail.render (.seg id n t) = p ++ '/' :: v ++ t.render := by simp [NTail.render, ← hv]
    rw [e, e']
    have hc : charAt (p ++ '/' :: v ++ t.render ++ post) p.length = '/' := by
      have := charAt_mid p (v ++ (t.render ++ post)) '/'
      simpa using this
    unfold contAfter
    rw [if_pos (by simp), if_pos hc]
    have hl := validLoop_plain v (IdStars.plain hw') f (p ++ ['/']) (t.render ++ post) p.length a b
    have e2 : p ++ ['/'] ++ v ++ (t.render ++ post) = p ++ '/' :: v ++ t.render ++ post := by simp
    rw [e2] at hl
    rw [show p.length + 1 = (p ++ ['/']).length by simp, hl]
    rw [show (p ++ ['/'] ++ v).length = (p ++ '/' :: v).length by len_tac]
    exact hf
  | .tmpl g t, k, p, post, a, b, hk, hwf, hpost => absurd hwf.1 hk
  | .arr d t, k, p, post, a, b, hk, hwf, hpost => by
    obtain ⟨f, hf⟩ := contB t .arr (p ++ '[' :: d ++ [']']) post a b (by decide) hwf.2 hpost
    refine ⟨f + 1 + d.length + 1, ?_⟩
    have e : p ++ NTail.render (.arr d t) ++ post
        = p ++ '[' :: d ++ ']' :: (t.render ++ post) := by simp [NTail.render]
    have e2 : p ++ '[' :: d ++ [']'] ++ t.render ++ post
        = p ++ '[' :: d ++ ']' :: (t.render ++ post) := by simp
    rw [e]
    rw [e2] at hf
    have hc : charAt (p ++ '[' :: d ++ ']' :: (t.render ++ post)) p.length = '[' := by
      have := charAt_mid p (d ++ ']' :: (t.render ++ post)) '['
      simpa using this
    unfold contAfter
    rw [if_pos (by simp), if_neg (by rw [hc]; decide), if_neg (by rw [hc]; simp)]
    rw [validLoop_arr p d (t.render ++ post) p.length f a b hwf.1 (Or.inr rfl), hf]
    simp [NTail.render]

theorem argsG : ∀ (g : NArgs) (p : Str) (c : Char) (post : Str), (c = '<' ∨ c = ',') → g.WF →
    ∃ f, validArgs f (p ++ c :: g.render ++ '>' :: post) p.length
      = some (true, (p ++ c :: g.render).length)
  | .one id n t, p, c, post, hc, hwf => by
    have hw' : IdStars (id ++ List.replicate n '*') := ⟨id, n, hwf.1, rfl⟩
    obtain ⟨f, hf⟩ := tailA t (p ++ [c]) (id ++ List.replicate n '*') ('>' :: post) true true hwf.2 hw'
      (Or.inr (Or.inl ⟨post, rfl⟩))
    generalize hv : id ++ List.replicate n '*' = v at *
    refine ⟨f + v.length + 3, ?_⟩
    have e : p ++ c :: NArgs.render (.one id n t) ++ '>' :: post
        = p ++ [c] ++ '/' :: v ++ t.render ++ '>' :: post := by simp [NArgs.render, ← hv]
    have e' : p ++ c :: NArgs.render (.one id n t) = p ++ [c] ++ '/' :: v ++ t.render := by
      simp [NArgs.render, ← hv]
    rw [e, e']
    have hca : charAt (p ++ [c] ++ '/' :: v ++ t.render ++ '>' :: post) p.length = c := by
      have := charAt_mid p ('/' :: v ++ t.render ++ '>' :: post) c
      simpa using this
    have hcb : charAt (p ++ [c] ++ '/' :: v ++ t.render ++ '>' :: post) (p.length + 1) = '/' := by
      have := charAt_mid (p ++ [c]) (v ++ t.render ++ '>' :: post) '/'
      simpa using this
    rw [validArgs, if_neg (by rw [hca]; rcases hc with h | h <;> subst h <;> decide)]
    rw [validTn]
    rw [hcb]
    simp only [if_true]
    have hl := validLoop_plain v (IdStars.plain hw') f (p ++ [c] ++ ['/']) (t.render ++ '>' :: post)
      (p.length + 1) true true
    have e2 : p ++ [c] ++ ['/'] ++ v ++ (t.render ++ '>' :: post) = p ++ [c] ++ '/' :: v ++ t.render ++ '>' :: post := by simp
    rw [e2] at hl
    rw [show p.length + 1 + 1 = (p ++ [c] ++ ['/']).length by simp, validLoop_mono (f := f + v.length) (by omega)
      (r := (true, (p ++ [c] ++ '/' :: v ++ t.render).length)) (by
        rw [hl, show (p ++ [c] ++ ['/'] ++ v).length = (p ++ [c] ++ '/' :: v).length by len_tac,
          show p.length + 1 = (p ++ [c]).length by simp]; exact hf)]
    have hcc := charAt_mid (p ++ [c] ++ '/' :: v ++ t.render) post '>'
    simp only [Bool.not_true, Bool.false_eq_true, if_false]
    rw [if_neg (by rw [hcc]; simp)]
    rw [show f + v.length + 2 = (f + v.length + 1) + 1 by omega, validArgs, if_pos hcc]
  | .num d, p, c, post, hc, hwf => by
    refine ⟨d.length + 4, ?_⟩
    simp only [NArgs.render]
    have hca : charAt (p ++ c :: d ++ '>' :: post) p.length = c := by
      have := charAt_mid p (d ++ '>' :: post) c
      simpa using this
    rw [validArgs, if_neg (by rw [hca]; rcases hc with h | h <;> subst h <;> decide)]
    rw [numTn p d c '>' post (by simp) hwf]
    have hcc := charAt_mid (p ++ c :: d) post '>'
    simp only [Bool.not_true, Bool.false_eq_true, if_false]
    rw [if_neg (by rw [hcc]; simp)]
    rw [validArgs, if_pos hcc]
  | .more id n t r, p, c, post, hc, hwf => by
    have hw' : IdStars (id ++ List.replicate n '*') := ⟨id, n, hwf.1, rfl⟩
    obtain ⟨f1, hf⟩ := tailA t (p ++ [c]) (id ++ List.replicate n '*') (',' :: r.render ++ '>' :: post) true true
      hwf.2.1 hw' (Or.inr (Or.inr ⟨hwf.2.2.1, _, rfl⟩))
    generalize hv : id ++ List.replicate n '*' = v at *
    obtain ⟨f2, hr⟩ := argsG r (p ++ [c] ++ '/' :: v ++ t.render) ',' post (Or.inr rfl) hwf.2.2.2
    refine ⟨f1 + f2 + v.length + 3, ?_⟩
    have e : p ++ c :: NArgs.render (.more id n t r) ++ '>' :: post
        = p ++ [c] ++ '/' :: v ++ t.render ++ ',' :: r.render ++ '>' :: post := by simp [NArgs.render, ← hv]
    have e' : p ++ c :: NArgs.render (.more id n t r) = p ++ [c] ++ '/' :: v ++ t.render ++ ',' :: r.render := by
      simp [NArgs.render, ← hv]
    have e'' : p ++ [c] ++ '/' :: v ++ t.render ++ (',' :: r.render ++ '>' :: post)
      = p ++ [c] ++ '/' :: v ++ t.render ++ ',' :: r.render ++ '>' :: post := by simp
    rw [e''] at hf
    rw [e, e']
    have hca : charAt (p ++ [c] ++ '/' :: v ++ t.render ++ ',' :: r.render ++ '>' :: post) p.length = c := by
      have := charAt_mid p ('/' :: v ++ t.render ++ ',' :: r.render ++ '>' :: post) c
      simpa using this
    have hcb : charAt (p ++ [c] ++ '/' :: v ++ t.render ++ ',' :: r.render ++ '>' :: post) (p.length + 1) = '/' := by
      have := charAt_mid (p ++ [c]) (v ++ t.render ++ ',' :: r.render ++ '>' :: post) '/'
      simpa using this
    rw [validArgs, if_neg (by rw [hca]; rcases hc with h | h <;> subst h <;> decide)]
    rw [validTn]
    rw [hcb]
    simp only [if_true]
    have hl := validLoop_plain v (IdStars.plain hw') f1 (p ++ [c] ++ ['/']) (t.render ++ ',' :: r.render ++ '>' :: post)
      (p.length + 1) true true
    have e2 : p ++ [c] ++ ['/'] ++ v ++ (t.render ++ ',' :: r.render ++ '>' :: post)
      = p ++ [c] ++ '/' :: v ++ t.render ++ ',' :: r.render ++ '>' :: post := by simp
    rw [e2] at hl
    rw [show p.length + 1 + 1 = (p ++ [c] ++ ['/']).length by simp, validLoop_mono (f := f1 + v.length) (by omega)
      (r := (true, (p ++ [c] ++ '/' :: v ++ t.render).length)) (by
        rw [hl, show (p ++ [c] ++ ['/'] ++ v).length = (p ++ [c] ++ '/' :: v).length by len_tac,
          show p.length + 1 = (p ++ [c]).length by simp]; exact hf)]
    have hcc : charAt (p ++ [c] ++ '/' :: v ++ t.render ++ ',' :: r.render ++ '>' :: post)
        (p ++ [c] ++ '/' :: v ++ t.render).length = ',' := by
      have := charAt_mid (p ++ [c] ++ '/' :: v ++ t.render) (r.render ++ '>' :: post) ','
      simpa using this
    simp only [Bool.not_true, Bool.false_eq_true, if_false]
    rw [if_neg (by rw [hcc]; simp)]
    exact validArgs_mono (by omega) hr
  | .moreNum d r, p, c, post, hc, hwf => by
    obtain ⟨f2, hr⟩ := argsG r (p ++ c :: d) ',' post (Or.inr rfl) hwf.2
    refine ⟨d.length + f2 + 4, ?_⟩
    simp only [NArgs.render]
    have e : p ++ c :: (d ++ ',' :: r.render) ++ '>' :: post = p ++ c :: d ++ ',' :: (r.render ++ '>' :: post) := by simp
    have e3 : p ++ c :: d ++ ',' :: r.render ++ '>' :: post = p ++ c :: d ++ ',' :: (r.render ++ '>' :: post) := by simp
    have e4 : (p ++ c :: (d ++ ',' :: r.render)) = (p ++ c :: d ++ ',' :: r.render) := by simp
    rw [e, e4]
    rw [e3] at hr
    have hca : charAt (p ++ c :: d ++ ',' :: (r.render ++ '>' :: post)) p.length = c := by
      have := charAt_mid p (d ++ ',' :: (r.render ++ '>' :: post)) c
      simpa using this
    rw [validArgs, if_neg (by rw [hca]; rcases hc with h | h <;> subst h <;> decide)]
    rw [validTn_mono (f := d.length + 3) (by omega) (numTn p d c ',' _ (by simp) hwf.1)]
    have hcc := charAt_mid (p ++ c :: d) (r.render ++ '>' :: post) ','
    simp only [Bool.not_true, Bool.false_eq_true, if_false]
    rw [if_neg (by rw [hcc]; simp)]
    exact validArgs_mono (by omega) hr
end

end Verif.Names
