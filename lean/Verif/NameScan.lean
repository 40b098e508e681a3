import Verif.NameProps

/-! C05: what `isValidTypename` accepts, beyond plain names. `Scan` is the accepting run of the scanner
(typename.cc:97-174) on the text itself, without positions or fuel; it is a proof device: the two theorems at
the end do not mention it. -/

namespace Verif.Names
open Verif

/-- where a component starts: `if (s[pos] == '/') pos++` (typename.cc:100-101) and `if (s[i+1] == '/') i++`
(typename.cc:130-131, 161-162). First the pending text, then what remains. -/
def start : Str → Str × Str
  | '/' :: r => (['/'], r)
  | r => ([], r)

theorem start_append (r : Str) : (start r).1 ++ (start r).2 = r := by
  unfold start
  split <;> simp

theorem start_ne {r : Str} (h : r.head? ≠ some '/') : start r = ([], r) := by
  unfold start
  split
  · simp at h
  · rfl

mutual
/-- accepting runs of the main loop: pending text since `start_pos`, remaining text, unread text. -/
inductive Scan : Bool → Bool → Str → Str → Str → Prop
  | finish0 (a b : Bool) : Scan a b [] [] []
  | finish (a b : Bool) (w : Str) : isValidTypeBasename w a b = true → Scan a b w [] []
  | stop (a b : Bool) (w r : Str) (c : Char) : (c = '>' ∨ c = ',') → isValidTypeBasename w true true = true →
      Scan a b w (c :: r) (c :: r)
  | char (a b : Bool) (w r u : Str) (c : Char) : plain c = true → Scan a b (w ++ [c]) r u → Scan a b w (c :: r) u
  | slash (a b : Bool) (w r u : Str) : isValidTypeBasename w a b = true → Scan a b ['/'] r u →
      Scan a b w ('/' :: r) u
  | tmpl (a b : Bool) (w r r' u : Str) : isValidTypeBasename w a b = true → SArgs r r' →
      (∀ c, r'.head? = some c → c = '/' ∨ c = '>' ∨ c = '[' ∨ c = ',') →
      Scan a b (start r').1 (start r').2 u → Scan a b w ('<' :: r) u
  | opn (a b : Bool) (w r u : Str) : (w = [] ∨ isValidTypeBasename w a b = true) → r ≠ [] → Scan a b [] r u →
      Scan a b w ('[' :: r) u
  | cls (a b : Bool) (w r u : Str) : w ≠ [] → (∀ c ∈ w, c.isDigit = true) →
      (∀ c, r.head? = some c → c = '/' ∨ c = '>' ∨ c = '[') →
      Scan a b (start r).1 (start r).2 u → Scan a b w (']' :: r) u
/-- accepting runs over a template argument list: the text after '<', the text after the closing '>'. -/
inductive SArgs : Str → Str → Prop
  | last (r r' : Str) : Scan true true (start r).1 (start r).2 ('>' :: r') → SArgs r r'
  | more (r r1 r' : Str) : Scan true true (start r).1 (start r).2 (',' :: r1) → SArgs r1 r' → SArgs r r'
end

theorem charAt_append (q u : Str) : charAt (q ++ u) q.length = (u.head?).getD '\x00' := by
  cases u with
  | nil => simp [charAt]
  | cons c u => simp [charAt]

theorem scan_of (f : Nat) :
    (∀ (p r : Str) (a b : Bool) (j : Nat), validTn f (p ++ r) p.length a b = some (true, j) →
        ∃ q u, p ++ r = q ++ u ∧ j = q.length ∧ Scan a b (start r).1 (start r).2 u) ∧
    (∀ (p w r : Str) (a b : Bool) (j : Nat),
        validLoop f (p ++ w ++ r) (p ++ w).length p.length a b = some (true, j) →
        ∃ q u, p ++ w ++ r = q ++ u ∧ j = q.length ∧ Scan a b w r u) ∧
    (∀ (p r : Str) (c : Char) (j : Nat), c ≠ '>' → validArgs f (p ++ c :: r) p.length = some (true, j) →
        ∃ q u, p ++ c :: r = q ++ '>' :: u ∧ j = q.length ∧ SArgs r u) := by
  induction f with
  | zero =>
    refine ⟨?_, ?_, ?_⟩
    · intro p r a b j h; simp [validTn] at h
    · intro p w r a b j h; simp [validLoop] at h
    · intro p r c j _ h; simp [validArgs] at h
  | succ f ih =>
    obtain ⟨ih1, ih2, ih3⟩ := ih
    -- continuing at a fresh component
    have fresh : ∀ (p r : Str) (a b : Bool) (j : Nat),
        validLoop f (p ++ r) (if charAt (p ++ r) p.length = '/' then p.length + 1 else p.length) p.length a b
          = some (true, j) →
        ∃ q u, p ++ r = q ++ u ∧ j = q.length ∧ Scan a b (start r).1 (start r).2 u := by
      intro p r a b j h
      rw [charAt_append] at h
      by_cases hc : r.head? = some '/'
      · obtain ⟨r', rfl⟩ : ∃ r', r = '/' :: r' := by
          cases r with
          | nil => simp at hc
          | cons c r' => simp at hc; exact ⟨r', by rw [hc]⟩
        simp only [List.head?_cons, Option.getD_some, if_true] at h
        have e : p ++ '/' :: r' = p ++ ['/'] ++ r' := by simp
        have e2 : (p ++ ['/']).length = p.length + 1 := by simp
        rw [e, ← e2] at h
        obtain ⟨q, u, h1, h2, h3⟩ := ih2 p ['/'] r' a b j h
        exact ⟨q, u, by rw [e]; exact h1, h2, h3⟩
      · have hne : (r.head?).getD '\x00' ≠ '/' := by
          cases r with
          | nil => simp
          | cons c r' => simpa using hc
        rw [if_neg hne] at h
        obtain ⟨q, u, h1, h2, h3⟩ := ih2 p [] r a b j (by simpa using h)
        refine ⟨q, u, by simpa using h1, h2, ?_⟩
        rw [start_ne hc]
        exact h3
    refine ⟨?_, ?_, ?_⟩
    · intro p r a b j h
      rw [validTn] at h
      exact fresh p r a b j h
    · intro p w r a b j h
      cases r with
      | nil =>
        rw [validLoop, if_neg (by simp)] at h
        by_cases hw : w = []
        · subst hw
          rw [if_neg (by simp)] at h
          simp only [Option.some.injEq, Prod.mk.injEq] at h
          exact ⟨p, [], by simp, by simpa using h.2.symm, .finish0 _ _⟩
        · rw [if_pos (by simp [hw])] at h
          have hs : sub (p ++ w ++ []) p.length (p ++ w ++ []).length = w := by
            have := sub_mid p w []
            simpa using this
          rw [hs] at h
          simp only [Option.some.injEq, Prod.mk.injEq] at h
          exact ⟨p ++ w, [], by simp, by simpa using h.2.symm, .finish _ _ _ h.1⟩
      | cons c r =>
        have hc : charAt (p ++ w ++ c :: r) (p ++ w).length = c := charAt_mid _ _ _
        have hs : sub (p ++ w ++ c :: r) p.length (p ++ w).length = w := sub_mid p w _
        have hstart : p.length = (p ++ w).length ↔ w = [] := by simp
        by_cases hp : plain c = true
        · rw [validLoop_plain_step _ _ _ _ _ _ (by simp) (by rw [hc]; exact hp)] at h
          have e : p ++ w ++ c :: r = p ++ (w ++ [c]) ++ r := by simp
          have e2 : (p ++ w).length + 1 = (p ++ (w ++ [c])).length := by simp; omega
          rw [e, e2] at h
          obtain ⟨q, u, h1, h2, h3⟩ := ih2 p (w ++ [c]) r a b j h
          exact ⟨q, u, by rw [e]; exact h1, h2, .char _ _ _ _ _ _ hp h3⟩
        -- the text after the current character, as a fresh component
        have next : ∀ a b, ∀ j, (r.head? = some '/' →
              validLoop f (p ++ w ++ c :: r) ((p ++ w).length + 2) ((p ++ w).length + 1) a b = some (true, j)) →
            (r.head? ≠ some '/' →
              validLoop f (p ++ w ++ c :: r) ((p ++ w).length + 1) ((p ++ w).length + 1) a b = some (true, j)) →
            ∃ q u, p ++ w ++ c :: r = q ++ u ∧ j = q.length ∧ Scan a b (start r).1 (start r).2 u := by
          intro a b j h1 h2
          have e : p ++ w ++ c :: r = (p ++ w ++ [c]) ++ r := by simp
          have e2 : (p ++ w ++ [c]).length = (p ++ w).length + 1 := by simp; omega
          obtain ⟨q, u, g1, g2, g3⟩ := fresh (p ++ w ++ [c]) r a b j (by
            rw [charAt_append, ← e, e2]
            by_cases hh : r.head? = some '/'
            · have := h1 hh
              rw [hh]
              simpa using this
            · have hne : (r.head?).getD '\x00' ≠ '/' := by
                cases r with
                | nil => simp
                | cons c r' => simpa using hh
              rw [if_neg hne]
              exact h2 hh)
          exact ⟨q, u, by rw [e]; exact g1, g2, g3⟩
        have nextc : charAt (p ++ w ++ c :: r) ((p ++ w).length + 1) = (r.head?).getD '\x00' := by
          have e : p ++ w ++ c :: r = (p ++ w ++ [c]) ++ r := by simp
          have e2 : (p ++ w ++ [c]).length = (p ++ w).length + 1 := by simp; omega
          rw [e, ← e2, charAt_append]
        have nextl : (p ++ w).length + 1 < (p ++ w ++ c :: r).length ↔ r ≠ [] := by
          cases r <;> simp <;> omega
        rw [validLoop, if_pos (by simp)] at h
        dsimp only at h
        rw [hc] at h
        by_cases c1 : c = '/'
        · subst c1
          rw [if_pos rfl, hs] at h
          split at h
          · simp at h
          rename_i hb
          have e : p ++ w ++ '/' :: r = (p ++ w) ++ ['/'] ++ r := by simp
          have e2 : ((p ++ w) ++ ['/']).length = (p ++ w).length + 1 := by simp; omega
          rw [e, ← e2] at h
          obtain ⟨q, u, h1, h2, h3⟩ := ih2 (p ++ w) ['/'] r a b j h
          exact ⟨q, u, by rw [e]; exact h1, h2, .slash _ _ _ _ _ (by simpa using hb) h3⟩
        rw [if_neg c1] at h
        by_cases c2 : c = '<'
        · subst c2
          rw [if_pos rfl, hs] at h
          split at h
          · simp at h
          rename_i hb
          split at h
          · simp at h
          · simp at h
          · rename_i k hk
            obtain ⟨q, u, h1, h2, h3⟩ := ih3 (p ++ w) r '<' k (by decide) hk
            have hl : k + 1 < (p ++ w ++ '<' :: r).length ↔ u ≠ [] := by
              rw [h1, h2]; cases u <;> simp
            have hcc : charAt (p ++ w ++ '<' :: r) (k + 1) = (u.head?).getD '\x00' := by
              have e : q ++ '>' :: u = (q ++ ['>']) ++ u := by simp
              have e2 : (q ++ ['>']).length = q.length + 1 := by simp
              rw [h1, h2, e, ← e2, charAt_append]
            have key : ∃ q' u', p ++ w ++ '<' :: r = q' ++ u' ∧ j = q'.length ∧
                Scan a b (start u).1 (start u).2 u' ∧
                (∀ c, u.head? = some c → c = '/' ∨ c = '>' ∨ c = '[' ∨ c = ',') := by
              have e : q ++ '>' :: u = (q ++ ['>']) ++ u := by simp
              have e2 : (q ++ ['>']).length = k + 1 := by rw [h2]; simp
              by_cases hu : u = []
              · subst hu
                rw [if_neg (by rw [hl]; simp)] at h
                obtain ⟨q', u', g1, g2, g3⟩ := fresh (q ++ ['>']) [] a b j (by
                  rw [charAt_append, if_neg (by simp), ← e, e2, ← h1]; exact h)
                exact ⟨q', u', by rw [h1, e]; exact g1, g2, g3, by simp⟩
              rw [if_pos (hl.mpr hu)] at h
              obtain ⟨d, u1, rfl⟩ : ∃ d u1, u = d :: u1 := by
                cases u with
                | nil => exact absurd rfl hu
                | cons d u1 => exact ⟨d, u1, rfl⟩
              rw [show charAt (p ++ w ++ '<' :: r) (k + 1) = d by rw [hcc]; rfl] at h
              by_cases hd : d = '/'
              · rw [if_pos hd] at h
                obtain ⟨q', u', g1, g2, g3⟩ := fresh (q ++ ['>']) (d :: u1) a b j (by
                  rw [show charAt (q ++ ['>'] ++ d :: u1) (q ++ ['>']).length = d from charAt_mid _ _ _,
                    ← e, e2, ← h1, if_pos hd]; exact h)
                exact ⟨q', u', by rw [h1, e]; exact g1, g2, g3, by simp [hd]⟩
              · rw [if_neg hd] at h
                split at h
                · simp at h
                rename_i hn
                obtain ⟨q', u', g1, g2, g3⟩ := fresh (q ++ ['>']) (d :: u1) a b j (by
                  rw [show charAt (q ++ ['>'] ++ d :: u1) (q ++ ['>']).length = d from charAt_mid _ _ _,
                    ← e, e2, ← h1, if_neg hd]; exact h)
                refine ⟨q', u', by rw [h1, e]; exact g1, g2, g3, ?_⟩
                intro c hc
                simp only [List.head?_cons, Option.some.injEq] at hc
                subst hc
                by_cases x1 : d = '>'
                · exact Or.inr (Or.inl x1)
                by_cases x2 : d = '['
                · exact Or.inr (Or.inr (Or.inl x2))
                by_cases x3 : d = ','
                · exact Or.inr (Or.inr (Or.inr x3))
                exact absurd ⟨x1, x2, x3⟩ hn
            obtain ⟨q', u', g1, g2, g3, g4⟩ := key
            exact ⟨q', u', g1, g2, .tmpl _ _ _ _ _ _ (by simpa using hb) h3 g4 g3⟩
        rw [if_neg c2] at h
        by_cases c3 : c = '['
        · subst c3
          rw [if_pos rfl, hs] at h
          split at h
          · simp at h
          rename_i hb
          split at h
          · simp at h
          rename_i hlen
          have hr : r ≠ [] := by
            rintro rfl
            apply hlen
            simp; omega
          have e : p ++ w ++ '[' :: r = (p ++ w ++ ['[']) ++ [] ++ r := by simp
          have e2 : (p ++ w).length + 1 = ((p ++ w ++ ['[']) ++ []).length := by simp; omega
          have e3 : (p ++ w).length + 1 = (p ++ w ++ ['[']).length := by simp; omega
          have h' : validLoop f ((p ++ w ++ ['[']) ++ [] ++ r) ((p ++ w ++ ['[']) ++ []).length
              (p ++ w ++ ['[']).length a b = some (true, j) := by
            rw [← e, ← e2, ← e3]; exact h
          obtain ⟨q, u, h1, h2, h3⟩ := ih2 (p ++ w ++ ['[']) [] r a b j h'
          refine ⟨q, u, by rw [e]; exact h1, h2, .opn _ _ _ _ _ ?_ hr h3⟩
          by_cases hw : w = []
          · exact Or.inl hw
          · right
            have hne : p.length ≠ (p ++ w).length := fun h => hw (hstart.mp h)
            cases hbb : isValidTypeBasename w a b with
            | true => rfl
            | false => exact absurd ⟨hne, by rw [hbb]; rfl⟩ hb
        rw [if_neg c3] at h
        by_cases c4 : c = ']'
        · subst c4
          rw [if_pos rfl, hs] at h
          split at h
          · simp at h
          rename_i hw
          have hw' : w ≠ [] := fun hh => hw (hstart.mpr hh)
          split at h
          · simp at h
          rename_i hd
          have hdig : ∀ c ∈ w, c.isDigit = true := by
            intro x hx
            cases hxd : x.isDigit with
            | true => rfl
            | false =>
              exfalso; apply hd
              rw [List.any_eq_true]
              exact ⟨x, hx, by simp [hxd]⟩
          by_cases hr : r = []
          · rw [if_neg (by rw [nextl]; simp [hr])] at h
            obtain ⟨q, u, g1, g2, g3⟩ := next a b j (by simp [hr]) (fun _ => h)
            exact ⟨q, u, g1, g2, .cls _ _ _ _ _ hw' hdig (by simp [hr]) g3⟩
          rw [if_pos (nextl.mpr hr)] at h
          obtain ⟨d, u1, rfl⟩ : ∃ d u1, r = d :: u1 := by
            cases r with
            | nil => exact absurd rfl hr
            | cons d u1 => exact ⟨d, u1, rfl⟩
          rw [show charAt (p ++ w ++ ']' :: d :: u1) ((p ++ w).length + 1) = d by rw [nextc]; rfl] at h
          by_cases hd : d = '/'
          · rw [if_pos hd] at h
            obtain ⟨q, u, g1, g2, g3⟩ := next a b j (fun _ => h) (by simp [hd])
            exact ⟨q, u, g1, g2, .cls _ _ _ _ _ hw' hdig (by simp [hd]) g3⟩
          · rw [if_neg hd] at h
            split at h
            · simp at h
            rename_i hn
            obtain ⟨q, u, g1, g2, g3⟩ := next a b j (by simp [hd]) (fun _ => h)
            refine ⟨q, u, g1, g2, .cls _ _ _ _ _ hw' hdig ?_ g3⟩
            intro c hc
            simp only [List.head?_cons, Option.some.injEq] at hc
            subst hc
            by_cases x1 : d = '>'
            · exact Or.inr (Or.inl x1)
            by_cases x2 : d = '['
            · exact Or.inr (Or.inr x2)
            exact absurd ⟨x1, x2⟩ hn
        rw [if_neg c4] at h
        by_cases c5 : c = '>' ∨ c = ','
        · rw [if_pos c5, hs] at h
          simp only [Option.some.injEq, Prod.mk.injEq] at h
          exact ⟨p ++ w, c :: r, rfl, h.2.symm, .stop _ _ _ _ _ c5 h.1⟩
        · exfalso
          apply hp
          simp only [not_or] at c5
          simp [plain, c1, c2, c3, c4, c5]
    · intro p r c j hcne h
      rw [validArgs, show charAt (p ++ c :: r) p.length = c from charAt_mid _ _ _, if_neg hcne] at h
      split at h
      · simp at h
      · rename_i ok k hv
        cases ok with
        | false => simp at h
        | true =>
          have e : p ++ c :: r = (p ++ [c]) ++ r := by simp
          have e2 : (p ++ [c]).length = p.length + 1 := by simp
          rw [e, ← e2] at hv
          obtain ⟨q, u, h1, h2, h3⟩ := ih1 (p ++ [c]) r true true k hv
          rw [← e] at h1
          simp only [Bool.not_true, Bool.false_eq_true, if_false] at h
          rw [h1, h2] at h
          cases u with
          | nil => simp at h
          | cons d u =>
            rw [show charAt (q ++ d :: u) q.length = d from charAt_mid _ _ _] at h
            by_cases hd : d = '>'
            · subst hd
              have : j = q.length := by
                cases f with
                | zero => simp [validArgs] at h
                | succ f =>
                  rw [validArgs, charAt_append] at h
                  simp at h
                  exact h.symm
              exact ⟨q, u, h1, this, .last _ _ h3⟩
            · by_cases hd2 : d = ','
              · subst hd2
                rw [if_neg (by simp)] at h
                obtain ⟨q', u', g1, g2, g3⟩ := ih3 q u ',' j (by decide) h
                exact ⟨q', u', by rw [h1]; exact g1, g2, .more _ _ _ h3 g3⟩
              · rw [if_pos (Or.inr ⟨hd2, hd⟩)] at h
                simp at h

/-- an accepted name has an accepting run -/
theorem scan_valid {name : Str} {a : Bool} (h : isValidTypename name a = true) :
    name ≠ [] ∧ ∃ u, Scan a false (start name).1 (start name).2 u ∧ ∃ q, name = q ++ u := by
  unfold isValidTypename at h
  cases name with
  | nil => simp at h
  | cons c r =>
    simp only [List.isEmpty_cons, Bool.false_eq_true, if_false] at h
    split at h
    · rename_i b j hv
      subst h
      obtain ⟨q, u, h1, _, h3⟩ := (scan_of _).1 [] (c :: r) a false j (by simpa using hv)
      exact ⟨by simp, u, h3, q, by simpa using h1⟩
    · simp at h

theorem basename_ident {w : Str} {a b : Bool} (h : isValidTypeBasename ('/' :: w) a b = true)
    (hs : ∀ c ∈ w, special c = false) : Ident w := by
  apply basename_sound _ hs
  unfold isValidTypeBasename at h ⊢
  have : (('/' :: w).all intChar) = false := by simp [intChar]
  simp only [this, Bool.and_false, Bool.false_eq_true, if_false] at h
  simp only [Bool.false_and, Bool.false_eq_true, if_false, List.head?_cons, bne_self_eq_false, Bool.and_false,
    beq_self_eq_true, if_true] at h ⊢
  exact h

theorem basename_rel {w : Str} (hw : w.head? ≠ some '/') : isValidTypeBasename w true false = false := by
  simp [isValidTypeBasename, hw]

theorem basename_int {w : Str} (hw : w.head? ≠ some '/') (h : isValidTypeBasename w true true = true) :
    ∀ c ∈ w, intChar c = true := by
  unfold isValidTypeBasename at h
  split at h
  · rename_i hi
    simpa using hi
  · simp [hw] at h

theorem plain_special {c : Char} (h : plain c = true) (h2 : c ≠ '*') : special c = false := by
  simp only [plain, Bool.and_eq_true, bne_iff_ne, ne_eq] at h
  obtain ⟨⟨⟨⟨⟨_, h2⟩, h3⟩, h4⟩, h5⟩, h6⟩ := h
  simp [special, *]

theorem infix_tail {l r : Str} {c : Char} (h : ¬ l <:+: c :: r) : ¬ l <:+: r :=
  fun hh => h (hh.trans (List.suffix_cons c r).isInfix)

theorem arr_scan (n : Nat) : ∀ (w r u : Str), r.length ≤ n →
    (∀ c ∈ r, c ≠ '<' ∧ c ≠ '>' ∧ c ≠ ',' ∧ c ≠ '*') → ¬ ['[', '['] <:+: r → Scan true false w r u →
    (∀ x, w = '/' :: x → (∀ c ∈ x, special c = false) →
      ∃ y, ∃ t : NTail, r = y ++ t.render ∧ Ident (x ++ y) ∧ t.WF .ident) ∧
    (w = [] → (r = [] ∨ r.head? = some '[') → ∃ t : NTail, r = t.render ∧ t.WF .arr) ∧
    (w.head? ≠ some '/' → (w = [] → r ≠ [] ∧ r.head? ≠ some '[') →
      ∃ y, ∃ t : NTail, r = y ++ ']' :: t.render ∧ Digits (w ++ y) ∧ t.WF .arr) := by
  induction n with
  | zero =>
    intro w r u hl _ _ h
    have hr : r = [] := List.length_eq_zero_iff.mp (by omega)
    subst hr
    refine ⟨?_, ?_, ?_⟩
    · rintro x rfl hx
      refine ⟨[], .done, by simp [NTail.render], ?_, by simp [NTail.WF]⟩
      cases h with
      | finish _ _ _ hb => simpa using basename_ident hb hx
    · intro _ _
      exact ⟨.done, by simp [NTail.render], by simp [NTail.WF]⟩
    · intro hw hn
      exfalso
      cases h with
      | finish0 => exact (hn rfl).1 rfl
      | finish _ _ _ hb => rw [basename_rel hw] at hb; simp at hb
  | succ n ih =>
    intro w r u hl hc hbb h
    cases r with
    | nil => exact ih w [] u (by simp) hc hbb h
    | cons c r =>
      have hl' : r.length ≤ n := by simp at hl; omega
      have hcr : ∀ c ∈ r, c ≠ '<' ∧ c ≠ '>' ∧ c ≠ ',' ∧ c ≠ '*' := fun x hx => hc x (by simp [hx])
      have hc0 := hc c (by simp)
      have hbr : ¬ ['[', '['] <:+: r := infix_tail hbb
      -- after a closing bracket
      have closed : ∀ (r : Str), r.length ≤ n → (∀ c ∈ r, c ≠ '<' ∧ c ≠ '>' ∧ c ≠ ',' ∧ c ≠ '*') →
          ¬ ['[', '['] <:+: r →
          (∀ c, r.head? = some c → c = '/' ∨ c = '>' ∨ c = '[') → Scan true false (start r).1 (start r).2 u →
          ∃ t : NTail, r = t.render ∧ t.WF .arr := by
        intro r hl hc hbr hh hs
        cases r with
        | nil => exact ⟨.done, by simp [NTail.render], by simp [NTail.WF]⟩
        | cons d r =>
          rcases hh d rfl with rfl | rfl | rfl
          · obtain ⟨y, t, e1, e2, e3⟩ := (ih ['/'] r u (by simp at hl; omega) (fun x hx => hc x (by simp [hx]))
              (infix_tail hbr) hs).1 [] rfl (by simp)
            refine ⟨.seg y 0 t, ?_, ?_⟩
            · simp [NTail.render, e1]
            · simp only [NTail.WF]
              exact ⟨by simpa using e2, e3⟩
          · exact absurd rfl (hc '>' (by simp)).2.1
          · exact (ih [] ('[' :: r) u hl hc hbr hs).2.1 rfl (Or.inr rfl)
      cases h with
      | stop _ _ _ _ _ hst _ =>
        exfalso
        rcases hst with rfl | rfl
        · exact hc0.2.1 rfl
        · exact hc0.2.2.1 rfl
      | char _ _ _ _ _ _ hp h =>
        have hne : c ≠ '/' := by rintro rfl; simp [plain] at hp
        have hnb : c ≠ '[' := by rintro rfl; simp [plain] at hp
        have IH := ih (w ++ [c]) r u hl' hcr hbr h
        refine ⟨?_, ?_, ?_⟩
        · rintro x rfl hx
          obtain ⟨y, t, e1, e2, e3⟩ := IH.1 (x ++ [c]) (by simp) (by
            intro d hd
            rcases List.mem_append.mp hd with hd | hd
            · exact hx d hd
            · rw [List.mem_singleton.mp hd]; exact plain_special hp hc0.2.2.2)
          exact ⟨c :: y, t, by simp [e1], by simpa using e2, e3⟩
        · intro _ hh
          simp [hnb] at hh
        · intro hw _
          obtain ⟨y, t, e1, e2, e3⟩ := IH.2.2 (by
            cases w with
            | nil => simpa using hne
            | cons d w => simpa using hw) (by simp)
          exact ⟨c :: y, t, by simp [e1], by simpa using e2, e3⟩
      | slash _ _ _ _ _ hb h =>
        refine ⟨?_, ?_, ?_⟩
        · rintro x rfl hx
          obtain ⟨y, t, e1, e2, e3⟩ := (ih ['/'] r u hl' hcr hbr h).1 [] rfl (by simp)
          refine ⟨[], .seg y 0 t, ?_, by simpa using basename_ident hb hx, ?_⟩
          · simp [NTail.render, e1]
          · simp only [NTail.WF]
            exact ⟨by simpa using e2, e3⟩
        · intro _ hh
          simp at hh
        · intro hw _
          rw [basename_rel hw] at hb; simp at hb
      | tmpl => exact absurd rfl hc0.1
      | opn _ _ _ _ _ hb hne h =>
        have hnb : r.head? ≠ some '[' := by
          intro hh
          cases r with
          | nil => simp at hh
          | cons d r =>
            simp at hh; subst hh
            exact hbb ⟨[], r, by simp⟩
        have IH : ∃ t : NTail, '[' :: r = t.render ∧ ∀ c, t.WF c := by
          obtain ⟨y, t, e1, e2, e3⟩ := (ih [] r u hl' hcr hbr h).2.2 (by simp) (fun _ => ⟨hne, hnb⟩)
          refine ⟨.arr y t, by simp [NTail.render, e1], ?_⟩
          intro c
          simp only [NTail.WF]
          exact ⟨by simpa using e2, e3⟩
        obtain ⟨t, e1, e2⟩ := IH
        refine ⟨?_, ?_, ?_⟩
        · rintro x rfl hx
          refine ⟨[], t, by simpa using e1, ?_, e2 _⟩
          rcases hb with hb | hb
          · simp at hb
          · simpa using basename_ident hb hx
        · intro _ _
          exact ⟨t, e1, e2 _⟩
        · intro hw hn
          exfalso
          rcases hb with rfl | hb
          · exact (hn rfl).2 rfl
          · rw [basename_rel hw] at hb; simp at hb
      | cls _ _ _ _ _ hne hd hh h =>
        refine ⟨?_, ?_, ?_⟩
        · rintro x rfl _
          exact absurd (hd '/' (by simp)) (by decide)
        · intro hw; exact absurd hw hne
        · intro _ _
          obtain ⟨t, e1, e2⟩ := closed r hl' hcr hbr hh h
          exact ⟨[], t, by simp [e1], by simpa using ⟨hne, hd⟩, e2⟩

/-- C05, soundness on names with array suffixes: an absolute name without template or pointer characters and
without the sequence `[[` is accepted exactly when it is a sequence of `/identifier` components, each possibly
followed by `[digits]` suffixes (never an empty `[]`, never an unclosed bracket). -/
theorem C05_arrays (name : Str) (h0 : name.head? = some '/')
    (hc : ∀ c ∈ name, c ≠ '<' ∧ c ≠ '>' ∧ c ≠ ',' ∧ c ≠ '*') (hbb : ¬ ['[', '['] <:+: name) :
    isValidTypename name true = true ↔
      ∃ (ident : Str) (t : NTail), Ident ident ∧ t.WF .ident ∧ name = '/' :: ident ++ t.render := by
  constructor
  · intro h
    obtain ⟨_, u, hs, _⟩ := scan_valid h
    cases name with
    | nil => simp at h0
    | cons c r =>
      simp at h0; subst h0
      obtain ⟨y, t, e1, e2, e3⟩ := (arr_scan r.length ['/'] r u (Nat.le_refl _) (fun x hx => hc x (by simp [hx]))
        (infix_tail hbb) hs).1 [] rfl (by simp)
      exact ⟨y, t, by simpa using e2, e3, by simp [e1]⟩
  · rintro ⟨id, t, h1, h2, rfl⟩
    have := C05_wellformed_accepted id 0 t true h1 h2
    simpa using this

/-- non-vacuity of `C05_arrays`: `/base/T[3][4]/f` meets the hypotheses and is accepted, `/base/T[]` meets them
and is rejected. -/
example : (∀ c ∈ "/base/T[3][4]/f".toList, c ≠ '<' ∧ c ≠ '>' ∧ c ≠ ',' ∧ c ≠ '*') ∧
    ¬ ['[', '['] <:+: "/base/T[3][4]/f".toList ∧ isValidTypename "/base/T[3][4]/f".toList true = true ∧
    isValidTypename "/base/T[]".toList true = false ∧ isValidTypename "/base/T[3".toList true = false := by
  refine ⟨by decide, ?_, by decide +kernel, by decide +kernel, by decide +kernel⟩
  decide +kernel

/-- the exclusions of `C05_arrays` are needed: doubled and leading brackets are accepted. -/
theorem C05_array_leaks :
    isValidTypename "/A[[3]".toList true = true ∧ isValidTypename "[3]".toList true = true := by
  decide +kernel

mutual
/-- what may follow a component, in a name without array or pointer characters -/
inductive LTail : Str → Prop
  | done : LTail []
  /-- another component -/
  | seg (ident t : Str) : Ident ident → LTail t → LTail ('/' :: ident ++ t)
  /-- a template argument list; only another component may follow it -/
  | tmpl (args t : Str) : LArgs args → LTail t → (t = [] ∨ t.head? = some '/') → LTail ('<' :: args ++ '>' :: t)
/-- a template argument: a type name or a (possibly empty) string of digits and minus signs -/
inductive LArg : Str → Prop
  | type (ident t : Str) : Ident ident → LTail t → LArg ('/' :: ident ++ t)
  | int (d t : Str) : (∀ c ∈ d, c = '-' ∨ c.isDigit = true) → LTail t → LArg (d ++ t)
/-- template arguments, separated by commas -/
inductive LArgs : Str → Prop
  | one (x : Str) : LArg x → LArgs x
  | more (x xs : Str) : LArg x → LArgs xs → LArgs (x ++ ',' :: xs)
end

/-- what the scanner leaves unread -/
def Unread (u : Str) : Prop := u = [] ∨ u.head? = some '>' ∨ u.head? = some ','

/-- no array or pointer character -/
def Flat (r : Str) : Prop := ∀ c ∈ r, c ≠ '[' ∧ c ≠ ']' ∧ c ≠ '*'

theorem Flat.tail {c : Char} {r : Str} (h : Flat (c :: r)) : Flat r := fun x hx => h x (by simp [hx])

theorem Flat.start {r : Str} (h : Flat r) : Flat (start r).2 := by
  intro x hx
  have := start_append r
  exact h x (by rw [← this]; simp [hx])

/-- what an accepting run says, for each kind of pending text -/
def TS (b : Bool) (w r u : Str) : Prop :=
  Unread u ∧
  (∀ x, w = '/' :: x → (∀ c ∈ x, special c = false) →
    ∃ y t, r = y ++ t ++ u ∧ Ident (x ++ y) ∧ LTail t) ∧
  (b = true → w.head? ≠ some '/' → ∃ y t, r = y ++ t ++ u ∧ (∀ c ∈ w ++ y, intChar c = true) ∧ LTail t) ∧
  (w = [] → (r = [] ∨ r.head? = some '>' ∨ r.head? = some ',') → r = u)

theorem TS.fresh {b : Bool} {r u : Str} (h : TS b (start r).1 (start r).2 u)
    (hh : r = [] ∨ r.head? = some '/' ∨ r.head? = some '>' ∨ r.head? = some ',') :
    Unread u ∧ ∃ t, r = t ++ u ∧ LTail t ∧ (t = [] ∨ t.head? = some '/') := by
  refine ⟨h.1, ?_⟩
  have other : (r = [] ∨ r.head? = some '>' ∨ r.head? = some ',') →
      ∃ t, r = t ++ u ∧ LTail t ∧ (t = [] ∨ t.head? = some '/') := by
    intro hr
    have hs : start r = ([], r) := start_ne (by
                                                       rcases hr with rfl | hr | hr
                                                       · simp
                                                       · simp [hr]
                                                       · simp [hr])
    rw [hs] at h
    exact ⟨[], by simpa using h.2.2.2 rfl hr, .done, Or.inl rfl⟩
  rcases hh with hh | hh | hh | hh
  · exact other (Or.inl hh)
  · cases r with
    | nil => simp at hh
    | cons c r =>
      simp at hh; subst hh
      obtain ⟨y, t, e1, e2, e3⟩ := h.2.1 [] rfl (by simp)
      have e1' : r = y ++ t ++ u := e1
      refine ⟨'/' :: y ++ t, by simp [e1'], .seg y t (by simpa using e2) e3, Or.inr rfl⟩
  · exact other (Or.inr (Or.inl hh))
  · exact other (Or.inr (Or.inr hh))

theorem TS.arg {r u : Str} (h : TS true (start r).1 (start r).2 u) : ∃ x, r = x ++ u ∧ LArg x := by
  by_cases hh : r.head? = some '/'
  · cases r with
    | nil => simp at hh
    | cons c r =>
      simp at hh; subst hh
      obtain ⟨y, t, e1, e2, e3⟩ := h.2.1 [] rfl (by simp)
      have e1' : r = y ++ t ++ u := e1
      exact ⟨'/' :: y ++ t, by simp [e1'], .type y t (by simpa using e2) e3⟩
  · rw [start_ne hh] at h
    obtain ⟨y, t, e1, e2, e3⟩ := h.2.2.1 rfl (by simp)
    have e1' : r = y ++ t ++ u := e1
    refine ⟨y ++ t, e1', .int y t ?_ e3⟩
    intro c hc
    have := e2 c (by simpa using hc)
    simpa [intChar] using this

theorem basename_int' {w : Str} {a b : Bool} (ha : a = true) (hb : b = true) (hw : w.head? ≠ some '/')
    (h : isValidTypeBasename w a b = true) : ∀ c ∈ w, intChar c = true := by
  subst ha; subst hb; exact basename_int hw h

theorem after {r : Str} (hh : ∀ c, r.head? = some c → c = '/' ∨ c = '>' ∨ c = '[' ∨ c = ',') (hf : Flat r) :
    r = [] ∨ r.head? = some '/' ∨ r.head? = some '>' ∨ r.head? = some ',' := by
  cases r with
  | nil => exact Or.inl rfl
  | cons d r =>
    rcases hh d rfl with rfl | rfl | rfl | rfl
    · simp
    · simp
    · exact absurd rfl (hf '[' (by simp)).1
    · simp

mutual
theorem tmpl_scan {a b : Bool} {w r u : Str} : Scan a b w r u → a = true → Flat r → TS b w r u
  | .finish0 _ _, _, _ => by
    refine ⟨Or.inl rfl, ?_, ?_, fun _ _ => rfl⟩
    · intro x h; simp at h
    · intro _ _; exact ⟨[], [], by simp, by simp, .done⟩
  | .finish _ _ _ hb, ha, _ => by
    refine ⟨Or.inl rfl, ?_, ?_, fun _ _ => rfl⟩
    · rintro x rfl hx
      exact ⟨[], [], by simp, by simpa using basename_ident hb hx, .done⟩
    · intro hb1 hw
      exact ⟨[], [], by simp, by simpa using basename_int' ha hb1 hw hb, .done⟩
  | .stop _ _ _ _ c hc hb, ha, _ => by
    refine ⟨?_, ?_, ?_, fun _ _ => rfl⟩
    · rcases hc with rfl | rfl
      · exact Or.inr (Or.inl rfl)
      · exact Or.inr (Or.inr rfl)
    · rintro x rfl hx
      exact ⟨[], [], by simp, by simpa using basename_ident hb hx, .done⟩
    · intro hb1 hw
      exact ⟨[], [], by simp, by simpa using basename_int hw hb, .done⟩
  | .char _ _ _ _ _ c hp h, ha, hf => by
    have IH := tmpl_scan h ha hf.tail
    have hc := hf c (by simp)
    have hns : c ≠ '/' ∧ c ≠ '>' ∧ c ≠ ',' := by
      refine ⟨?_, ?_, ?_⟩ <;> · rintro rfl; simp [plain] at hp
    refine ⟨IH.1, ?_, ?_, ?_⟩
    · rintro x rfl hx
      obtain ⟨y, t, e1, e2, e3⟩ := IH.2.1 (x ++ [c]) (by simp) (by
        intro d hd
        rcases List.mem_append.mp hd with hd | hd
        · exact hx d hd
        · rw [List.mem_singleton.mp hd]; exact plain_special hp hc.2.2)
      exact ⟨c :: y, t, by simp [e1], by simpa using e2, e3⟩
    · intro hb hw
      obtain ⟨y, t, e1, e2, e3⟩ := IH.2.2.1 hb (by
        revert hw
        cases w with
        | nil => simp [hns.1]
        | cons d w => simp)
      exact ⟨c :: y, t, by simp [e1], by simpa using e2, e3⟩
    · intro _ hh
      simp [hns] at hh
  | .slash _ _ _ _ _ hb h, ha, hf => by
    have IH := tmpl_scan h ha hf.tail
    obtain ⟨y, t, e1, e2, e3⟩ := IH.2.1 [] rfl (by simp)
    have ht : LTail ('/' :: y ++ t) := .seg y t (by simpa using e2) e3
    refine ⟨IH.1, ?_, ?_, ?_⟩
    · rintro x rfl hx
      exact ⟨[], '/' :: y ++ t, by simp [e1], by simpa using basename_ident hb hx, ht⟩
    · intro hb1 hw
      exact ⟨[], '/' :: y ++ t, by simp [e1], by simpa using basename_int' ha hb1 hw hb, ht⟩
    · intro _ hh
      simp at hh
  | .tmpl _ _ _ _ _ _ hb hargs hh h, ha, hf => by
    obtain ⟨as, e1, e2⟩ := args_scan hargs hf.tail
    have hf' : Flat (_ : Str) := fun x hx => hf.tail x (by rw [e1]; exact List.mem_append_right _ (List.mem_cons_of_mem _ hx))
    have IH := tmpl_scan h ha hf'.start
    obtain ⟨hu, t, e3, e4, e5⟩ := IH.fresh (by
      exact after hh hf')
    have ht : LTail ('<' :: as ++ '>' :: t) := .tmpl as t e2 e4 e5
    refine ⟨hu, ?_, ?_, ?_⟩
    · rintro x rfl hx
      exact ⟨[], _, by simp [e1, e3], by simpa using basename_ident hb hx, ht⟩
    · intro hb1 hw
      exact ⟨[], _, by simp [e1, e3], by simpa using basename_int' ha hb1 hw hb, ht⟩
    · intro _ hh
      simp at hh
  | .opn _ _ _ _ _ _ _ _, _, hf => absurd rfl (hf '[' (by simp)).1
  | .cls _ _ _ _ _ _ _ _ _, _, hf => absurd rfl (hf ']' (by simp)).2.1
theorem args_scan {r r' : Str} : SArgs r r' → Flat r → ∃ as, r = as ++ '>' :: r' ∧ LArgs as
  | .last _ _ h, hf => by
    obtain ⟨x, e1, e2⟩ := (tmpl_scan h rfl hf.start).arg
    exact ⟨x, e1, .one x e2⟩
  | .more _ _ _ h hs, hf => by
    obtain ⟨x, e1, e2⟩ := (tmpl_scan h rfl hf.start).arg
    obtain ⟨as, e3, e4⟩ := args_scan hs (fun c hc => hf c (by rw [e1]; exact List.mem_append_right _ (List.mem_cons_of_mem _ hc)))
    exact ⟨x ++ ',' :: as, by rw [e1, e3]; simp, .more x as e2 e4⟩
end

/-- C05, soundness on names with templates: an accepted absolute name without array or pointer characters is a
component `/identifier`, followed by further components and balanced template argument lists whose arguments are
again such names or integers; the only text that escapes is what follows a `>` or `,` outside any argument list. -/
theorem C05_templates (name : Str) (h0 : name.head? = some '/')
    (hc : ∀ c ∈ name, c ≠ '[' ∧ c ≠ ']' ∧ c ≠ '*') (h : isValidTypename name true = true) :
    ∃ ident t u : Str, name = '/' :: ident ++ t ++ u ∧ Ident ident ∧ LTail t ∧
      (u = [] ∨ u.head? = some '>' ∨ u.head? = some ',') := by
  obtain ⟨_, u, hs, _⟩ := scan_valid h
  cases name with
  | nil => simp at h0
  | cons c r =>
    simp at h0; subst h0
    have T := tmpl_scan hs rfl (fun x hx => hc x (List.mem_cons_of_mem _ hx))
    obtain ⟨y, t, e1, e2, e3⟩ := T.2.1 [] rfl (by simp)
    have e1' : r = y ++ t ++ u := e1
    exact ⟨y, t, u, by simp [e1'], by simpa using e2, e3, T.1⟩

/-- non-vacuity of `C05_templates`: `/m</a/B,/v<3>>/i` meets the hypotheses. -/
example : (∀ c ∈ "/m</a/B,/v<3>>/i".toList, c ≠ '[' ∧ c ≠ ']' ∧ c ≠ '*') ∧
    isValidTypename "/m</a/B,/v<3>>/i".toList true = true ∧
    isValidTypename "/m</a,/v<3>".toList true = false ∧
    isValidTypename "/m</a,b>".toList true = false ∧
    isValidTypename "/m</a>x".toList true = false := by
  refine ⟨by decide, ?_, ?_, ?_, ?_⟩ <;> decide +kernel

/-- the integer arguments of `LArg` are as lax as the code: empty and malformed integers are accepted, alone or
before further components; and brackets inside an argument need not match. -/
theorem C05_template_leaks :
    isValidTypename "/A<>".toList true = true ∧ isValidTypename "/A<--,>".toList true = true ∧
    isValidTypename "/A<12/B>".toList true = true ∧ isValidTypename "/A<3]>".toList true = true ∧
    isValidTypename "/A</B[3>".toList true = true := by
  decide +kernel

end Verif.Names
