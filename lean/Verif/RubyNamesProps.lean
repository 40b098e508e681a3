import Verif.RubyNames

/-!
C60: proofs about C++ type names in the Ruby bindings.
-/

namespace Verif.RubyNames
open Verif Verif.CxxNames

/-! ### The tokenizer as a scanner -/

def tk (acc : Str) : Str → List Str
  | [] => textTok (strip acc)
  | c :: s => if isSep c then textTok (strip acc) ++ [c] :: tk [] s else tk (acc ++ [c]) s

theorem tk_span {m : Str} (h : ∀ c ∈ m, isSep c = false) (acc b : Str) : tk acc (m ++ b) = tk (acc ++ m) b := by
  induction m generalizing acc with
  | nil => simp
  | cons c m ih =>
    simp only [List.cons_append, tk]
    rw [h c (by simp)]
    simp only [Bool.false_eq_true, if_false]
    rw [ih (fun x hx => h x (by simp [hx]))]
    simp

theorem tk_sep {c : Char} (h : isSep c = true) (acc b : Str) : tk acc (c :: b) = textTok (strip acc) ++ [c] :: tk [] b := by
  simp [tk, h]

theorem takeWhile_no {p : Char → Bool} {s : Str} : ∀ c ∈ s.takeWhile p, p c = true := by
  induction s with
  | nil => simp
  | cons a s ih =>
    intro c hc
    rw [List.takeWhile_cons] at hc
    split at hc
    · rcases List.mem_cons.mp hc with rfl | h
      · assumption
      · exact ih c h
    · simp at hc

theorem dropWhile_cons_no {p : Char → Bool} {s : Str} {d : Char} {r : Str} (h : s.dropWhile p = d :: r) : p d = false := by
  induction s with
  | nil => simp at h
  | cons a s ih =>
    rw [List.dropWhile_cons] at h
    split at h
    · exact ih h
    · rename_i hp
      cases h
      simpa using hp

theorem tokenizerF_eq : ∀ (f : Nat) (s : Str), s.length ≤ f → tokenizerF f s = tk [] s := by
  intro f
  induction f with
  | zero =>
    intro s h
    have : s = [] := List.length_eq_zero_iff.mp (by omega)
    subst this; rfl
  | succ f ih =>
    intro s h
    cases s with
    | nil => rfl
    | cons c s =>
      obtain ⟨x, hx⟩ : ∃ x, x = c :: s := ⟨_, rfl⟩
      have e := List.takeWhile_append_dropWhile (p := fun x => !isSep x) (l := x)
      have hm : ∀ y ∈ x.takeWhile (fun x => !isSep x), isSep y = false := by
        intro y hy
        simpa using takeWhile_no y hy
      have hr : tk [] x = textTok (strip (x.takeWhile (fun x => !isSep x))) ++
          match x.dropWhile (fun x => !isSep x) with
          | [] => []
          | d :: r => [d] :: tokenizerF f r := by
        have e2 : tk [] x = tk [] (x.takeWhile (fun x => !isSep x) ++ x.dropWhile (fun x => !isSep x)) := by rw [e]
        rw [e2, tk_span hm, List.nil_append]
        split
        · rename_i hd
          rw [hd]; simp [tk]
        · rename_i d r hd
          have hl : x.length = (x.takeWhile (fun x => !isSep x)).length + (r.length + 1) := by
            have := congrArg List.length e
            rw [List.length_append, hd, List.length_cons] at this
            exact this.symm
          have hdl : r.length ≤ f := by
            rw [hx] at hl
            simp only [List.length_cons] at hl h
            omega
          rw [hd, tk_sep (by simpa using dropWhile_cons_no hd), ih r hdl]
      rw [← hx, hr, hx]
      rfl

theorem tokenizer_eq (s : Str) : tokenizer s = tk [] s := tokenizerF_eq _ _ (Nat.le_refl _)

/-! ### `strip` -/

theorem dropWhile_spaces {p : Str} (h : Spaces p) (b : Str) : (p ++ b).dropWhile isSpace = b.dropWhile isSpace := by
  induction p with
  | nil => rfl
  | cons c p ih =>
    rw [List.cons_append, List.dropWhile_cons, if_pos (h c (by simp))]
    exact ih (fun x hx => h x (by simp [hx]))

theorem dropWhile_head {x : Str} (h : ∀ c, x.head? = some c → isSpace c = false) : x.dropWhile isSpace = x := by
  cases x with
  | nil => rfl
  | cons c x => rw [List.dropWhile_cons, if_neg (by simp [h c rfl])]

theorem Spaces.reverse {p : Str} (h : Spaces p) : Spaces p.reverse := fun c hc => h c (by simpa using hc)

theorem strip_spaces {p q x : Str} (hp : Spaces p) (hq : Spaces q) (h1 : ∀ c, x.head? = some c → isSpace c = false)
    (h2 : ∀ c, x.getLast? = some c → isSpace c = false) (hx : x ≠ []) : strip (p ++ x ++ q) = x := by
  unfold strip
  rw [List.append_assoc, dropWhile_spaces hp]
  have : (x ++ q).dropWhile isSpace = x ++ q := dropWhile_head (by
    intro c hc
    cases x with
    | nil => exact absurd rfl hx
    | cons a x => exact h1 c (by simpa using hc))
  rw [this, List.reverse_append, dropWhile_spaces hq.reverse, dropWhile_head (by simpa using h2), List.reverse_reverse]

theorem strip_only {p : Str} (hp : Spaces p) : strip p = [] := by
  unfold strip
  have := dropWhile_spaces hp []
  rw [List.append_nil] at this
  rw [this]; rfl

theorem spaces_sep {p : Str} (h : Spaces p) : ∀ c ∈ p, isSep c = false := by
  intro c hc
  have := h c hc
  unfold isSpace at this
  unfold isSep
  simp only [Bool.or_eq_true, beq_iff_eq] at this
  rcases this with ((((((rfl | rfl) | rfl) | rfl) | rfl) | rfl) | rfl) <;> decide

theorem tk_spaces {p : Str} (h : Spaces p) (b : Str) (hb : b = [] ∨ ∃ c r, b = c :: r ∧ isSep c = true) : tk [] (p ++ b) = tk [] b := by
  rw [tk_span (spaces_sep h), List.nil_append]
  rcases hb with rfl | ⟨c, r, rfl, hc⟩
  · simp only [tk]; rw [strip_only h]; rfl
  · rw [tk_sep hc, tk_sep hc, strip_only h]; rfl

/-! ### The replacement of `> >` -/

theorem rep3_cases (s : Str) : (∃ r, s = '>' :: ' ' :: '>' :: r ∧ rep ['>', ' ', '>'] ['>', '>'] 0 s = '>' :: '>' :: rep ['>', ' ', '>'] ['>', '>'] 0 r) ∨
    s = [] ∨ ∃ c r, s = c :: r ∧ rep ['>', ' ', '>'] ['>', '>'] 0 s = c :: rep ['>', ' ', '>'] ['>', '>'] 0 r := by
  cases s with
  | nil => exact .inr (.inl rfl)
  | cons c r =>
    by_cases h : ['>', ' ', '>'].isPrefixOf (c :: r) = true
    · left
      obtain ⟨t, ht⟩ := List.isPrefixOf_iff_prefix.mp h
      refine ⟨t, ht.symm, ?_⟩
      rw [← ht]
      simp [rep, List.isPrefixOf]
    · right; right
      refine ⟨c, r, rfl, ?_⟩
      simp only [rep, h, if_false, Bool.false_eq_true]

theorem tk_rep3 : ∀ (k : Nat) (acc s : Str), s.length ≤ k → tk acc (rep ['>', ' ', '>'] ['>', '>'] 0 s) = tk acc s := by
  intro k
  induction k with
  | zero =>
    intro acc s h
    have : s = [] := List.length_eq_zero_iff.mp (by omega)
    subst this; rfl
  | succ k ih =>
    intro acc s h
    rcases rep3_cases s with ⟨r, rfl, e⟩ | rfl | ⟨c, r, rfl, e⟩
    · rw [e]
      have hg : isSep '>' = true := by decide
      have hs : Spaces [' '] := by intro c hc; rw [List.mem_singleton.mp hc]; decide
      rw [tk_sep hg, tk_sep hg, tk_sep hg, ih [] r (by simp at h; omega)]
      have e2 : tk [] (' ' :: '>' :: r) = tk [] ('>' :: r) := tk_spaces hs _ (.inr ⟨_, _, rfl, hg⟩)
      rw [e2, tk_sep hg]
    · rfl
    · rw [e]
      simp only [tk]
      rw [ih _ r (by simp at h; omega), ih _ r (by simp at h; omega)]

/-! ### Words -/

theorem WordOk.no {w : Str} (h : WordOk w) : '<' ∉ w ∧ ',' ∉ w ∧ '>' ∉ w ∧ '/' ∉ w ∧ ':' ∉ w ∧ '(' ∉ w ∧ '\n' ∉ w := by
  refine ⟨?_, ?_, ?_, ?_, ?_, ?_, ?_⟩ <;> intro hm <;> exact absurd (by decide) (h.2.1 _ hm)

theorem WordOk.sep {w : Str} (h : WordOk w) : ∀ c ∈ w, isSep c = false := by
  intro c hc
  obtain ⟨n1, n2, n3, _⟩ := h.no
  unfold isSep
  simp only [Bool.or_eq_false_iff, beq_eq_false_iff_ne]
  exact ⟨⟨fun e => n1 (e ▸ hc), fun e => n2 (e ▸ hc)⟩, fun e => n3 (e ▸ hc)⟩

theorem spaces_no {p : Str} (h : Spaces p) {x : Char} (hx : isSpace x = false) : x ∉ p := by
  intro hm
  rw [h x hm] at hx
  cases hx

/-! ### Tokens of a name -/

mutual
/-- the tokens of a name, after the text `acc` -/
inductive TokN (sep : Str) (leads : List Str) : Str → Name → List Str → Prop
  | word (acc w : Str) : TokN sep leads acc (.word w) [acc ++ w]
  | scope {acc w n ts} : TokN sep leads (acc ++ w ++ sep) n ts → TokN sep leads acc (.scope w n) ts
  | tmpl {acc w a ts} : TokA sep leads a ts → TokN sep leads acc (.tmpl w a) ((acc ++ w) :: ['<'] :: (ts ++ [['>']]))
  | tmplScope {acc w a n ts us} : TokA sep leads a ts → TokN sep leads sep n us →
      TokN sep leads acc (.tmplScope w a n) ((acc ++ w) :: ['<'] :: (ts ++ ['>'] :: us))
inductive TokA (sep : Str) (leads : List Str) : Args → List Str → Prop
  | one {n l ts} : Lead leads n l → TokN sep leads l n ts → TokA sep leads (.one n) ts
  | more {n a l ts us} : Lead leads n l → TokN sep leads l n ts → TokA sep leads a us → TokA sep leads (.more n a) (ts ++ [','] :: us)
end

/-- a text that comes before a word -/
structure AccOk (acc : Str) : Prop where
  head : ∀ c, acc.head? = some c → isSpace c = false
  sep : ∀ c ∈ acc, isSep c = false

theorem accOk_nil : AccOk [] := ⟨by simp, by simp⟩
theorem accOk_slash : AccOk ['/'] := ⟨by simp; decide, by simp; decide⟩
theorem accOk_colons : AccOk [':', ':'] := ⟨by simp; decide, by simp; decide⟩
theorem accOk_lead {leads : List Str} (h : ∀ l ∈ leads, AccOk l) {n : Name} {l : Str} (hl : Lead leads n l) : AccOk l := by
  unfold Lead at hl
  split at hl
  · rw [hl]; exact accOk_nil
  · exact h l hl

theorem AccOk.scope {acc w sep : Str} (h : AccOk acc) (hw : WordOk w) (hs : AccOk sep) : AccOk (acc ++ w ++ sep) := by
  refine ⟨?_, ?_⟩
  · intro c hc
    cases acc with
    | nil =>
      cases w with
      | nil => exact absurd rfl hw.1
      | cons x w => exact hw.2.2.1 c (by simpa using hc)
    | cons x acc => exact h.head c (by simpa using hc)
  · intro c hc
    simp only [List.mem_append] at hc
    rcases hc with (hc | hc) | hc
    · exact h.sep c hc
    · exact hw.sep c hc
    · exact hs.sep c hc

/-- the text `acc ++ w` between spaces is one token -/
theorem tk_text {acc w p q b : Str} (ha : AccOk acc) (hw : WordOk w) (hp : Spaces p) (hq : Spaces q)
    (hb : b = [] ∨ ∃ c r, b = c :: r ∧ isSep c = true) : tk (p ++ acc) (w ++ (q ++ b)) = (acc ++ w) :: tk [] b := by
  rw [tk_span hw.sep, tk_span (spaces_sep hq)]
  have hne : acc ++ w ≠ [] := by
    intro e
    exact hw.1 (List.append_eq_nil_iff.mp e).2
  have hs : strip (p ++ acc ++ w ++ q) = acc ++ w := by
    rw [show p ++ acc ++ w ++ q = p ++ (acc ++ w) ++ q by simp]
    refine strip_spaces hp hq ?_ ?_ hne
    · intro c hc
      cases acc with
      | nil => exact hw.2.2.1 c (by simpa using hc)
      | cons x acc => exact ha.head c (by simpa using hc)
    · intro c hc
      rw [List.getLast?_append] at hc
      cases hl : w.getLast? with
      | none => exact absurd (List.getLast?_eq_none_iff.mp hl) hw.1
      | some d => rw [hl] at hc; exact hw.2.2.2 c (by rw [hl]; simpa using hc)
  rcases hb with rfl | ⟨c, r, rfl, hc⟩
  · simp only [tk]
    rw [hs]
    have h2 : textTok (strip []) = [] := rfl
    rw [h2]
    unfold textTok
    rw [if_neg hne]
  · rw [tk_sep hc, tk_sep hc, hs]
    have h2 : textTok (strip []) = [] := rfl
    rw [h2]
    unfold textTok
    rw [if_neg hne]
    rfl

def Stop (b : Str) : Prop := b = [] ∨ ∃ c r, b = c :: r ∧ isSep c = true

theorem stop_sep {c : Char} (h : isSep c = true) (b : Str) : Stop (c :: b) := .inr ⟨c, b, rfl, h⟩

section
variable {sep : Str} {leads : List Str}

mutual
theorem tok_name (hs : AccOk sep) (hls : ∀ l ∈ leads, AccOk l) : ∀ (n : Name), n.Ok → ∀ {acc p q b s : Str}, AccOk acc → Spaces p →
    Spaces q → Stop b → Writes sep leads n s → ∃ ts, TokN sep leads acc n ts ∧ tk (p ++ acc) (s ++ (q ++ b)) = ts ++ tk [] b
  | .word w, ok, acc, p, q, b, s, ha, hp, hq, hb, hw => by
    cases hw
    exact ⟨_, .word acc w, by rw [tk_text ha ok hp hq hb]; rfl⟩
  | .scope w n, ok, acc, p, q, b, s, ha, hp, hq, hb, hw => by
    cases hw with
    | scope hn =>
      rename_i s'
      obtain ⟨ts, h1, h2⟩ := tok_name hs hls n ok.2.2 (ha.scope ok.1 hs) hp hq hb hn
      refine ⟨ts, .scope h1, ?_⟩
      rw [← h2]
      have : ∀ c ∈ w ++ sep, isSep c = false := by
        intro c hc
        rcases List.mem_append.mp hc with hc | hc
        · exact ok.1.sep c hc
        · exact hs.sep c hc
      rw [show w ++ sep ++ s' ++ (q ++ b) = (w ++ sep) ++ (s' ++ (q ++ b)) by simp, tk_span this]
      simp
  | .tmpl w a, ok, acc, p, q, b, s, ha, hp, hq, hb, hw => by
    cases hw with
    | tmpl hp' hs' =>
      rename_i p' s'
      obtain ⟨ts, h1, h2⟩ := tok_args hs hls a ok.2.2 (b := '>' :: (q ++ b)) (stop_sep (by decide) _) hs'
      refine ⟨_, .tmpl h1, ?_⟩
      rw [show w ++ p' ++ ['<'] ++ s' ++ ['>'] ++ (q ++ b) = w ++ (p' ++ '<' :: (s' ++ '>' :: (q ++ b))) by simp,
        tk_text ha ok.1 hp hp' (stop_sep (by decide) _), tk_sep (by decide), h2, tk_sep (by decide), tk_spaces hq b hb]
      simp [textTok, strip]
  | .tmplScope w a n, ok, acc, p, q, b, s, ha, hp, hq, hb, hw => by
    cases hw with
    | tmplScope hp' hs' hq' hn =>
      rename_i p' s' q' r'
      obtain ⟨us, g1, g2⟩ := tok_name hs hls n ok.2.2.2 hs hq' hq hb hn
      obtain ⟨ts, h1, h2⟩ := tok_args hs hls a ok.2.2.1 (b := '>' :: (q' ++ (sep ++ (r' ++ (q ++ b))))) (stop_sep (by decide) _) hs'
      refine ⟨_, .tmplScope h1 g1, ?_⟩
      rw [show w ++ p' ++ ['<'] ++ s' ++ ['>'] ++ q' ++ sep ++ r' ++ (q ++ b) =
          w ++ (p' ++ '<' :: (s' ++ '>' :: (q' ++ (sep ++ (r' ++ (q ++ b)))))) by simp,
        tk_text ha ok.1 hp hp' (stop_sep (by decide) _), tk_sep (by decide), h2, tk_sep (by decide)]
      have e : tk [] (q' ++ (sep ++ (r' ++ (q ++ b)))) = us ++ tk [] b := by
        rw [← g2, show q' ++ (sep ++ (r' ++ (q ++ b))) = (q' ++ sep) ++ (r' ++ (q ++ b)) by simp, tk_span]
        · rfl
        · intro c hc
          rcases List.mem_append.mp hc with hc | hc
          · exact spaces_sep hq' c hc
          · exact hs.sep c hc
      rw [e]
      simp [textTok, strip]
theorem tok_args (hs : AccOk sep) (hls : ∀ l ∈ leads, AccOk l) : ∀ (a : Args), a.Ok → ∀ {b s : Str}, Stop b →
    WritesArgs sep leads a s → ∃ ts, TokA sep leads a ts ∧ tk [] (s ++ b) = ts ++ tk [] b
  | .one n, ok, b, s, hb, hw => by
    cases hw with
    | one hp hl hn hq =>
      rename_i p l s' q
      obtain ⟨ts, h1, h2⟩ := tok_name hs hls n ok (accOk_lead hls hl) hp hq hb hn
      refine ⟨ts, .one hl h1, ?_⟩
      rw [← h2, show p ++ l ++ s' ++ q ++ b = (p ++ l) ++ (s' ++ (q ++ b)) by simp, tk_span]
      · rfl
      · intro c hc
        rcases List.mem_append.mp hc with hc | hc
        · exact spaces_sep hp c hc
        · exact (accOk_lead hls hl).sep c hc
  | .more n a, ok, b, s, hb, hw => by
    cases hw with
    | more hp hl hn hq ha =>
      rename_i p l s' q r'
      obtain ⟨us, g1, g2⟩ := tok_args hs hls a ok.2 hb ha
      obtain ⟨ts, h1, h2⟩ := tok_name hs hls n ok.1 (b := ',' :: (r' ++ b)) (accOk_lead hls hl) hp hq (stop_sep (by decide) _) hn
      refine ⟨_, .more hl h1 g1, ?_⟩
      rw [show p ++ l ++ s' ++ q ++ [','] ++ r' ++ b = (p ++ l) ++ (s' ++ (q ++ ',' :: (r' ++ b))) by simp, tk_span, List.nil_append,
        h2, tk_sep (by decide), g2]
      · simp [textTok, strip]
      · intro c hc
        rcases List.mem_append.mp hc with hc | hc
        · exact spaces_sep hp c hc
        · exact (accOk_lead hls hl).sep c hc
end

/-- the tokens of a text -/
theorem tokenizer_name (hs : AccOk sep) (hls : ∀ l ∈ leads, AccOk l) {n : Name} (ok : n.Ok) {p q l t : Str} (hp : Spaces p)
    (hq : Spaces q) (hl : Lead leads n l) (h : Writes sep leads n t) :
    ∃ ts, TokN sep leads l n ts ∧ tokenizer (p ++ l ++ t ++ q) = ts := by
  obtain ⟨ts, g1, g2⟩ := tok_name hs hls n ok (b := []) (accOk_lead hls hl) hp hq (.inl rfl) h
  refine ⟨ts, g1, ?_⟩
  rw [tokenizer_eq, show p ++ l ++ t ++ q = (p ++ l) ++ (t ++ (q ++ [])) by simp, tk_span]
  · rw [List.nil_append, g2]
    simp [tk, textTok, strip]
  · intro c hc
    rcases List.mem_append.mp hc with hc | hc
    · exact spaces_sep hp c hc
    · exact (accOk_lead hls hl).sep c hc
end

/-! ### The replacement of `::` -/

theorem rep_lead {sep : Str} (hs : sep = "::".toList ∨ sep = "/".toList) (b : Str) :
    rep [':', ':'] ['/'] 0 (sep ++ b) = ['/'] ++ rep [':', ':'] ['/'] 0 b := by
  rcases hs with rfl | rfl
  · exact rep_hit ':' ':' ['/'] b
  · exact rep_pass1 (by decide) b

theorem rep_opt {sep l : Str} {n : Name} (hs : sep = "::".toList ∨ sep = "/".toList) (hl : Lead [[], sep] n l) :
    ∃ l', Lead [[], ['/']] n l' ∧ ∀ b, rep [':', ':'] ['/'] 0 (l ++ b) = l' ++ rep [':', ':'] ['/'] 0 b := by
  unfold Lead at hl ⊢
  split at hl
  · subst hl
    exact ⟨[], by simp [*], fun b => rfl⟩
  · simp only [List.mem_cons, List.not_mem_nil, or_false] at hl
    rcases hl with rfl | rfl
    · exact ⟨[], by simp [*], fun b => rfl⟩
    · exact ⟨['/'], by simp [*], fun b => rep_lead hs b⟩

mutual
theorem rep_name : ∀ (n : Name), n.Ok → ∀ {sep s : Str}, (sep = "::".toList ∨ sep = "/".toList) → Writes sep [[], sep] n s →
    ∃ s', Writes ['/'] [[], ['/']] n s' ∧ ∀ b, rep [':', ':'] ['/'] 0 (s ++ b) = s' ++ rep [':', ':'] ['/'] 0 b
  | .word w, ok, sep, s, hs, hw => by
    cases hw
    exact ⟨w, .word w, fun b => rep_pass ok.no.2.2.2.2.1 b⟩
  | .scope w n, ok, sep, s, hs, hw => by
    cases hw with
    | scope hn =>
      rename_i s'
      obtain ⟨t, h1, h2⟩ := rep_name n ok.2.2 hs hn
      refine ⟨_, .scope h1, fun b => ?_⟩
      rw [show w ++ sep ++ s' ++ b = w ++ (sep ++ (s' ++ b)) by simp, rep_pass ok.1.no.2.2.2.2.1, rep_lead hs, h2]
      simp
  | .tmpl w a, ok, sep, s, hs, hw => by
    cases hw with
    | tmpl hp' ha =>
      rename_i p' s'
      obtain ⟨t, h1, h2⟩ := rep_args a ok.2.2 hs ha
      refine ⟨_, .tmpl hp' h1, fun b => ?_⟩
      rw [show w ++ p' ++ ['<'] ++ s' ++ ['>'] ++ b = w ++ (p' ++ '<' :: (s' ++ '>' :: b)) by simp, rep_pass ok.1.no.2.2.2.2.1,
        rep_pass (spaces_no hp' (by decide)), rep_pass1 (by decide), h2, rep_pass1 (by decide)]
      simp
  | .tmplScope w a n, ok, sep, s, hs, hw => by
    cases hw with
    | tmplScope hp' ha hq' hn =>
      rename_i p' s' q' r'
      obtain ⟨t, h1, h2⟩ := rep_args a ok.2.2.1 hs ha
      obtain ⟨u, g1, g2⟩ := rep_name n ok.2.2.2 hs hn
      refine ⟨_, .tmplScope hp' h1 hq' g1, fun b => ?_⟩
      rw [show w ++ p' ++ ['<'] ++ s' ++ ['>'] ++ q' ++ sep ++ r' ++ b =
          w ++ (p' ++ '<' :: (s' ++ '>' :: (q' ++ (sep ++ (r' ++ b))))) by simp, rep_pass ok.1.no.2.2.2.2.1,
        rep_pass (spaces_no hp' (by decide)), rep_pass1 (by decide), h2, rep_pass1 (by decide),
        rep_pass (spaces_no hq' (by decide)), rep_lead hs, g2]
      simp
theorem rep_args : ∀ (a : Args), a.Ok → ∀ {sep s : Str}, (sep = "::".toList ∨ sep = "/".toList) → WritesArgs sep [[], sep] a s →
    ∃ s', WritesArgs ['/'] [[], ['/']] a s' ∧ ∀ b, rep [':', ':'] ['/'] 0 (s ++ b) = s' ++ rep [':', ':'] ['/'] 0 b
  | .one n, ok, sep, s, hs, hw => by
    cases hw with
    | one hp hl hn hq =>
      rename_i p l s' q
      obtain ⟨t, h1, h2⟩ := rep_name n ok hs hn
      obtain ⟨l', hl', e⟩ := rep_opt hs hl
      refine ⟨_, .one hp hl' h1 hq, fun b => ?_⟩
      rw [show p ++ l ++ s' ++ q ++ b = p ++ (l ++ (s' ++ (q ++ b))) by simp, rep_pass (spaces_no hp (by decide)), e, h2,
        rep_pass (spaces_no hq (by decide))]
      simp
  | .more n a, ok, sep, s, hs, hw => by
    cases hw with
    | more hp hl hn hq ha =>
      rename_i p l s' q r'
      obtain ⟨t, h1, h2⟩ := rep_name n ok.1 hs hn
      obtain ⟨u, g1, g2⟩ := rep_args a ok.2 hs ha
      obtain ⟨l', hl', e⟩ := rep_opt hs hl
      refine ⟨_, .more hp hl' h1 hq g1, fun b => ?_⟩
      rw [show p ++ l ++ s' ++ q ++ [','] ++ r' ++ b = p ++ (l ++ (s' ++ (q ++ ',' :: (r' ++ b)))) by simp,
        rep_pass (spaces_no hp (by decide)), e, h2, rep_pass (spaces_no hq (by decide)), rep_pass1 (by decide), g2]
      simp
end

theorem leads_ok : ∀ l ∈ [[], ['/']], AccOk l := by
  intro l hl
  simp only [List.mem_cons, List.not_mem_nil, or_false] at hl
  rcases hl with rfl | rfl
  · exact accOk_nil
  · exact accOk_slash

/-- what `cxx_to_typelib` reads -/
theorem written_tokens {n : Name} (ok : n.Ok) {s : Str} (h : Written n s) :
    ∃ l ts, Lead [[], ['/']] n l ∧ TokN ['/'] [[], ['/']] l n ts ∧
      tokenizer (replaceAll ['>', ' ', '>'] ['>', '>'] (replaceAll [':', ':'] ['/'] s)) = ts := by
  obtain ⟨sep, hs, p, q, hp, hq, l, t, hl, hw, rfl⟩ := h
  obtain ⟨l', hl', e⟩ := rep_opt hs hl
  obtain ⟨t', h1, h2⟩ := rep_name n ok hs hw
  obtain ⟨ts, g1, g2⟩ := tokenizer_name accOk_slash leads_ok ok hp hq hl' h1
  refine ⟨l', ts, hl', g1, ?_⟩
  rw [← g2, replaceAll_eq (List.cons_ne_nil _ _), replaceAll_eq (List.cons_ne_nil _ _), tokenizer_eq, tk_rep3 _ _ _ (Nat.le_refl _),
    tokenizer_eq]
  rw [show p ++ l ++ t ++ q = p ++ (l ++ (t ++ (q ++ []))) by simp, rep_pass (spaces_no hp (by decide)), e, h2,
    rep_pass (spaces_no hq (by decide))]
  simp [rep]

/-! ### Collecting the arguments -/

/-- a token that is a text -/
def Text (t : Tk) : Prop := t ≠ lt ∧ t ≠ gt ∧ t ≠ comma

theorem text_of {acc w : Str} (hw : WordOk w) : Text (some (acc ++ w)) := by
  obtain ⟨n1, n2, n3, _⟩ := hw.no
  have key : ∀ c, c ∉ w → some (acc ++ w) ≠ some [c] := by
    intro c hc e
    have e := Option.some.inj e
    cases acc with
    | nil => exact hc (by rw [List.nil_append] at e; rw [e]; simp)
    | cons x acc =>
      simp only [List.cons_append, List.cons.injEq, List.append_eq_nil_iff] at e
      exact hw.1 e.2.2
  exact ⟨key _ n1, key _ n3, key _ n2⟩

theorem collect_text {t : Tk} (h : Text t) (l : Int) (A : List (List Tk)) (cur ts : List Tk) :
    collect l A cur (t :: ts) = collect l A (cur ++ [t]) ts := by
  obtain ⟨h1, h2, h3⟩ := h
  cases ts <;> simp only [collect, if_neg h1, if_neg h2, if_neg h3]

theorem collect_lt {t : Tk} (h : Text t) {l : Int} (hl : 1 ≤ l) (A : List (List Tk)) (cur ts : List Tk) :
    collect l A cur (lt :: t :: ts) = collect (l + 1) A (cur ++ [lt]) (t :: ts) := by
  have : l + 1 > 1 := by omega
  rw [collect_text h, show cur ++ [lt] ++ [t] = cur ++ [lt, t] by simp]
  simp only [collect, if_true, if_pos this]

theorem collect_comma {t : Tk} (h : Text t) {l : Int} (hl : 1 < l) (A : List (List Tk)) (cur ts : List Tk) :
    collect l A cur (comma :: t :: ts) = collect l A (cur ++ [comma]) (t :: ts) := by
  have : ¬ l = 1 := by omega
  rw [collect_text h, show cur ++ [comma] ++ [t] = cur ++ [comma, t] by simp]
  simp only [collect, if_true, if_neg this, if_neg (show comma ≠ lt by decide), if_neg (show comma ≠ gt by decide)]

theorem collect_gt {l : Int} (hl : 1 < l) (A : List (List Tk)) (cur ts : List Tk) :
    collect l A cur (gt :: ts) = collect (l - 1) A (cur ++ [gt]) ts := by
  have : ¬ l - 1 = 0 := by omega
  cases ts <;> simp only [collect, if_true, if_neg this, if_neg (show gt ≠ lt by decide)]

theorem collect_end (A : List (List Tk)) (cur ts : List Tk) : collect 1 A cur (gt :: ts) = (A ++ [cur], ts) := by
  cases ts <;> simp [collect, show gt ≠ lt by decide]

theorem collect_next (A : List (List Tk)) (cur ts : List Tk) : collect 1 A cur (comma :: ts) = collect 1 (A ++ [cur]) [] ts := by
  cases ts <;> simp [collect, show comma ≠ lt by decide, show comma ≠ gt by decide]

theorem collect_begin (A : List (List Tk)) (cur ts : List Tk) : collect 0 A cur (lt :: ts) = collect 1 A [] ts := by
  cases ts <;> simp [collect]

theorem first_name : ∀ (n : Name), n.Ok → ∀ {sep leads acc ts}, TokN sep leads acc n ts → ∃ t r, ts = t :: r ∧ Text (some t)
  | .word w, ok, sep, leads, acc, ts, h => by cases h; exact ⟨_, _, rfl, text_of ok⟩
  | .scope w n, ok, sep, leads, acc, ts, h => by cases h with | scope h => exact first_name n ok.2.2 h
  | .tmpl w a, ok, sep, leads, acc, ts, h => by cases h; exact ⟨_, _, rfl, text_of ok.1⟩
  | .tmplScope w a n, ok, sep, leads, acc, ts, h => by cases h; exact ⟨_, _, rfl, text_of ok.1⟩

theorem first_args : ∀ (a : Args), a.Ok → ∀ {sep leads ts}, TokA sep leads a ts → ∃ t r, ts = t :: r ∧ Text (some t)
  | .one n, ok, sep, leads, ts, h => by cases h with | one hl h => exact first_name n ok h
  | .more n a, ok, sep, leads, ts, h => by
    cases h with
    | more hl h ha =>
      obtain ⟨t, r, e, ht⟩ := first_name n ok.1 h
      exact ⟨t, r ++ [','] :: _, by rw [e]; rfl, ht⟩

mutual
/-- below the top level, names are copied -/
theorem collect_name : ∀ (n : Name), n.Ok → ∀ {sep leads acc ts}, TokN sep leads acc n ts → ∀ {l : Int}, 1 ≤ l → ∀ A cur rest,
    collect l A cur (ts.map some ++ rest) = collect l A (cur ++ ts.map some) rest
  | .word w, ok, sep, leads, acc, ts, h, l, hl, A, cur, rest => by
    cases h
    exact collect_text (text_of ok) _ _ _ _
  | .scope w n, ok, sep, leads, acc, ts, h, l, hl, A, cur, rest => by
    cases h with | scope h => exact collect_name n ok.2.2 h hl A cur rest
  | .tmpl w a, ok, sep, leads, acc, ts, h, l, hl, A, cur, rest => by
    cases h with
    | tmpl ha =>
      rename_i us
      obtain ⟨t, r, e, ht⟩ := first_args a ok.2.2 ha
      have h1 := collect_args a ok.2.2 ha (l := l + 1) (by omega) A (cur ++ [some (acc ++ w)] ++ [lt]) (gt :: rest)
      have h2 : (((acc ++ w) :: ['<'] :: (us ++ [['>']])).map some : List Tk) ++ rest =
          some (acc ++ w) :: lt :: (us.map some ++ gt :: rest) := by simp [lt, gt]
      rw [h2, collect_text (text_of ok.1)]
      rw [e] at h1 ⊢
      simp only [List.map_cons, List.cons_append] at h1 ⊢
      rw [collect_lt ht hl, h1, collect_gt (by omega)]
      simp [lt, gt]
  | .tmplScope w a n, ok, sep, leads, acc, ts, h, l, hl, A, cur, rest => by
    cases h with
    | tmplScope ha hn =>
      rename_i us vs
      obtain ⟨t, r, e, ht⟩ := first_args a ok.2.2.1 ha
      have h1 := collect_args a ok.2.2.1 ha (l := l + 1) (by omega) A (cur ++ [some (acc ++ w)] ++ [lt]) (gt :: (vs.map some ++ rest))
      have h2 : (((acc ++ w) :: ['<'] :: (us ++ ['>'] :: vs)).map some : List Tk) ++ rest =
          some (acc ++ w) :: lt :: (us.map some ++ gt :: (vs.map some ++ rest)) := by simp [lt, gt]
      rw [h2, collect_text (text_of ok.1)]
      rw [e] at h1 ⊢
      simp only [List.map_cons, List.cons_append] at h1 ⊢
      rw [collect_lt ht hl, h1, collect_gt (by omega), show l + 1 - 1 = l by omega, collect_name n ok.2.2.2 hn hl]
      simp [lt, gt]
theorem collect_args : ∀ (a : Args), a.Ok → ∀ {sep leads ts}, TokA sep leads a ts → ∀ {l : Int}, 1 < l → ∀ A cur rest,
    collect l A cur (ts.map some ++ rest) = collect l A (cur ++ ts.map some) rest
  | .one n, ok, sep, leads, ts, h, l, hl, A, cur, rest => by
    cases h with | one _ h => exact collect_name n ok h (by omega) A cur rest
  | .more n a, ok, sep, leads, ts, h, l, hl, A, cur, rest => by
    cases h with
    | more hlead h ha =>
      rename_i l' us vs
      obtain ⟨t, r, e, ht⟩ := first_args a ok.2 ha
      have h1 := collect_args a ok.2 ha hl A (cur ++ us.map some ++ [comma]) rest
      have h2 : ((us ++ [','] :: vs).map some : List Tk) ++ rest = us.map some ++ comma :: (vs.map some ++ rest) := by simp [comma]
      rw [h2, collect_name n ok.1 h (by omega)]
      rw [e] at h1 ⊢
      simp only [List.map_cons, List.cons_append] at h1 ⊢
      rw [collect_comma ht hl, h1]
      simp [comma]
end

/-- the tokens of each argument -/
inductive Split (sep : Str) (leads : List Str) : Args → List (List Str) → Prop
  | one {n l ts} : Lead leads n l → TokN sep leads l n ts → Split sep leads (.one n) [ts]
  | more {n a l ts us} : Lead leads n l → TokN sep leads l n ts → Split sep leads a us → Split sep leads (.more n a) (ts :: us)

theorem collect_top : ∀ (a : Args), a.Ok → ∀ {sep leads ts}, TokA sep leads a ts → ∃ us, Split sep leads a us ∧ (∀ u ∈ us, u.length ≤ ts.length) ∧ ∀ A rest,
    collect 1 A [] (ts.map some ++ gt :: rest) = (A ++ us.map (·.map some), rest)
  | .one n, ok, sep, leads, ts, h => by
    cases h with
    | one hl h =>
      refine ⟨[ts], .one hl h, by simp, fun A rest => ?_⟩
      rw [collect_name n ok h (by omega), collect_end]
      simp
  | .more n a, ok, sep, leads, ts, h => by
    cases h with
    | more hl h ha =>
      rename_i l us vs
      obtain ⟨ws, h1, h3, h2⟩ := collect_top a ok.2 ha
      refine ⟨us :: ws, .more hl h h1, ?_, fun A rest => ?_⟩
      · intro u hu
        rcases List.mem_cons.mp hu with rfl | hu
        · simp
        · have := h3 u hu; simp; omega
      · have e : ((us ++ [','] :: vs).map some : List Tk) ++ gt :: rest = us.map some ++ comma :: (vs.map some ++ gt :: rest) := by
          simp [comma]
        rw [e, collect_name n ok.1 h (by omega), collect_next, h2]
        simp

theorem collect_lt0 {a : Args} (ok : a.Ok) {sep : Str} {leads : List Str} {ts : List Str} (h : TokA sep leads a ts) : ∃ us, Split sep leads a us ∧ (∀ u ∈ us, u.length ≤ ts.length) ∧
    ∀ rest, collect 0 [] [] (lt :: (ts.map some ++ gt :: rest)) = (us.map (·.map some), rest) := by
  obtain ⟨us, h1, h3, h2⟩ := collect_top a ok h
  refine ⟨us, h1, h3, fun rest => ?_⟩
  rw [collect_begin]
  simpa using h2 [] rest

/-! ### Conversion -/

/-- `needsSlash` looks at the first character only, if there is one line -/
def needsHead (c : Option Char) : Bool := c != some '/' && !c.any numChar

theorem lineHas_head {p : Char → Bool} {s : Str} (h : '\n' ∉ s) : lineHas p true s = s.head?.any p ∧ lineHas p false s = false := by
  have hf : ∀ s : Str, '\n' ∉ s → lineHas p false s = false := by
    intro s
    induction s with
    | nil => intro _; rfl
    | cons c s ih =>
      intro h
      simp only [List.mem_cons, not_or] at h
      have : (c == '\n') = false := beq_eq_false_iff_ne.mpr (Ne.symm h.1)
      simp only [lineHas, this, Bool.false_and, Bool.false_or]
      exact ih h.2
  refine ⟨?_, hf s h⟩
  cases s with
  | nil => rfl
  | cons c s =>
    simp only [List.mem_cons, not_or] at h
    have : (c == '\n') = false := beq_eq_false_iff_ne.mpr (Ne.symm h.1)
    simp only [lineHas, this, hf s h.2, Bool.true_and, Bool.or_false, List.head?_cons, Option.any_some]

theorem needsSlash_head {s : Str} (h : '\n' ∉ s) : needsSlash s = needsHead s.head? := by
  unfold needsSlash needsHead
  rw [(lineHas_head h).1]

/-- the slash is added -/
def fix (s : Str) : Str := if needsHead s.head? then '/' :: s else s

theorem fix_append {a : Str} (h : a ≠ []) (b : Str) : fix (a ++ b) = fix a ++ b := by
  unfold fix
  cases a with
  | nil => exact absurd rfl h
  | cons c a => simp only [List.cons_append, List.head?_cons]; by_cases hc : needsHead (some c) = true <;> simp [hc]

theorem fix_fix (s : Str) : fix (fix s) = fix s := by
  cases h : needsHead s.head? with
  | true =>
    have e : fix s = '/' :: s := by unfold fix; rw [h]; rfl
    have : needsHead ('/' :: s).head? = false := by
      rw [List.head?_cons]
      exact (by decide : needsHead (some '/') = false)
    rw [e]; unfold fix; rw [this]; rfl
  | false =>
    have e : fix s = s := by unfold fix; rw [h]; rfl
    rw [e, e]

theorem fix_slash (s : Str) : fix ('/' :: s) = '/' :: s := by
  unfold fix
  have : needsHead ('/' :: s).head? = false := by
    rw [List.head?_cons]
    exact (by decide : needsHead (some '/') = false)
  rw [this]; rfl

theorem number_eq (w : Str) : number w = w.head?.any numChar := by
  unfold number
  congr 1
  funext c
  unfold numChar
  rw [Bool.eq_iff_iff]
  simp only [List.contains_iff_mem, Bool.or_eq_true, Bool.and_eq_true, decide_eq_true_eq, beq_iff_eq]
  have e1 : (("0123456789+-".toList : List Char)) = ['0','1','2','3','4','5','6','7','8','9','+','-'] := rfl
  rw [e1]
  simp only [List.mem_cons, List.not_mem_nil, or_false]
  constructor
  · rintro (rfl | rfl | rfl | rfl | rfl | rfl | rfl | rfl | rfl | rfl | rfl | rfl) <;> decide
  · rintro ((⟨h1, h2⟩ | rfl) | rfl)
    · have a : 48 ≤ c.toNat := by simpa using (UInt32.le_iff_toNat_le.mp h1)
      have b : c.toNat ≤ 57 := by simpa using (UInt32.le_iff_toNat_le.mp h2)
      have hc : c = Char.ofNat c.toNat := (Char.ofNat_toNat c).symm
      have : c.toNat = 48 ∨ c.toNat = 49 ∨ c.toNat = 50 ∨ c.toNat = 51 ∨ c.toNat = 52 ∨ c.toNat = 53 ∨ c.toNat = 54 ∨
          c.toNat = 55 ∨ c.toNat = 56 ∨ c.toNat = 57 := by omega
      rcases this with h | h | h | h | h | h | h | h | h | h <;> rw [h] at hc <;> rw [hc] <;> decide
    · decide
    · decide

theorem show_head : ∀ (n : Name), n.Ok → ∃ x r, (∀ sep abs, ∃ t, n.show sep abs = x :: r ++ t) ∧ WordOk (x :: r) ∧
    number (x :: r) = n.isNumber
  | .word w, ok => by
    cases w with
    | nil => exact absurd rfl ok.1
    | cons x r => exact ⟨x, r, fun _ _ => ⟨[], by simp [Name.show]⟩, ok, rfl⟩
  | .scope w n, ok => by
    cases w with
    | nil => exact absurd rfl ok.1.1
    | cons x r => exact ⟨x, r, fun sep abs => ⟨sep ++ n.show sep abs, by simp [Name.show]⟩, ok.1, ok.2.1⟩
  | .tmpl w a, ok => by
    cases w with
    | nil => exact absurd rfl ok.1.1
    | cons x r => exact ⟨x, r, fun sep abs => ⟨'<' :: a.show sep abs ++ ['>'], by simp [Name.show]⟩, ok.1, ok.2.1⟩
  | .tmplScope w a n, ok => by
    cases w with
    | nil => exact absurd rfl ok.1.1
    | cons x r =>
      exact ⟨x, r, fun sep abs => ⟨'<' :: a.show sep abs ++ ['>'] ++ sep ++ n.show sep abs, by simp [Name.show]⟩, ok.1, ok.2.1⟩

theorem lead_cases {n : Name} {l : Str} (h : Lead [[], ['/']] n l) : l = [] ∨ l = ['/'] ∧ n.isNumber = false := by
  unfold Lead at h
  split at h
  · exact .inl h
  · rename_i hn
    simp only [List.mem_cons, List.not_mem_nil, or_false] at h
    rcases h with h | h
    · exact .inl h
    · exact .inr ⟨h, by simpa using hn⟩

theorem fix_show {n : Name} (ok : n.Ok) {l : Str} (hl : Lead [[], ['/']] n l) :
    fix (l ++ n.show ['/'] ['/']) = n.typelib := by
  obtain ⟨x, r, h1, h2, h3⟩ := show_head n ok
  obtain ⟨t, ht⟩ := h1 ['/'] ['/']
  unfold Name.typelib
  rcases lead_cases hl with rfl | ⟨rfl, hn⟩
  · unfold fix
    rw [List.nil_append]
    have hx : x ≠ '/' := by
      intro e
      exact h2.no.2.2.2.1 (by rw [e]; simp)
    have hh : needsHead (n.show ['/'] ['/']).head? = !n.isNumber := by
      rw [ht, ← h3, number_eq]
      unfold needsHead
      simp [hx]
    rw [hh]
    cases n.isNumber <;> simp
  · rw [hn]
    exact fix_slash _

mutual
theorem show_nl : ∀ (n : Name), n.Ok → ∀ {sep abs : Str}, '\n' ∉ sep → '\n' ∉ abs → '\n' ∉ n.show sep abs
  | .word w, ok, sep, abs, h1, h2 => ok.no.2.2.2.2.2.2
  | .scope w n, ok, sep, abs, h1, h2 => by
    simp only [Name.show, List.mem_append, not_or]
    exact ⟨⟨ok.1.no.2.2.2.2.2.2, h1⟩, show_nl n ok.2.2 h1 h2⟩
  | .tmpl w a, ok, sep, abs, h1, h2 => by
    simp only [Name.show, List.mem_append, List.mem_cons, not_or]
    exact ⟨⟨ok.1.no.2.2.2.2.2.2, by decide, showA_nl a ok.2.2 h1 h2⟩, by decide, by simp⟩
  | .tmplScope w a n, ok, sep, abs, h1, h2 => by
    simp only [Name.show, List.mem_append, List.mem_cons, not_or]
    exact ⟨⟨⟨⟨ok.1.no.2.2.2.2.2.2, by decide, showA_nl a ok.2.2.1 h1 h2⟩, by decide, by simp⟩, h1⟩, show_nl n ok.2.2.2 h1 h2⟩
theorem showA_nl : ∀ (a : Args), a.Ok → ∀ {sep abs : Str}, '\n' ∉ sep → '\n' ∉ abs → '\n' ∉ a.show sep abs
  | .one n, ok, sep, abs, h1, h2 => by
    simp only [Args.show, List.mem_append, not_or]
    exact ⟨by split <;> simp [h2], show_nl n ok h1 h2⟩
  | .more n a, ok, sep, abs, h1, h2 => by
    simp only [Args.show, List.mem_append, List.mem_cons, not_or]
    exact ⟨⟨by split <;> simp [h2], show_nl n ok.1 h1 h2⟩, by decide, showA_nl a ok.2 h1 h2⟩
end

theorem text_conv (f : Nat) (R : List Str) {acc w : Str} (ha : '\n' ∉ acc) (hw : WordOk w) (ts : List Tk) :
    conv (f + 1) R (some (acc ++ w) :: ts) = conv f (R ++ [fix (acc ++ w)]) ts := by
  have hn : '\n' ∉ acc ++ w := by simp [ha, hw.no.2.2.2.2.2.2]
  simp only [conv, if_neg (text_of hw).1]
  rw [needsSlash_head hn]
  rfl

/-- the typelib names of the arguments -/
def Args.typelibs (a : Args) : List Str := a.toList.map Name.typelib

theorem toList_ne (a : Args) : a.toList ≠ [] := by cases a <;> simp [Args.toList]

theorem joinComma_cons (x : Str) {l : List Str} (h : l ≠ []) : joinComma (x :: l) = x ++ ',' :: joinComma l := by
  cases l with
  | nil => exact absurd rfl h
  | cons y l => rfl

theorem joinComma_typelibs : ∀ (a : Args), joinComma a.typelibs = a.show ['/'] ['/']
  | .one n => by simp [Args.typelibs, Args.toList, joinComma, Args.show, Name.typelib]
  | .more n a => by
    have e : (Args.more n a).typelibs = n.typelib :: a.typelibs := rfl
    rw [e, joinComma_cons _ (by simpa [Args.typelibs] using toList_ne a), joinComma_typelibs a]
    simp [Args.show, Name.typelib]

mutual
theorem conv_name : ∀ (n : Name), n.Ok → ∀ {acc : Str} {ts : List Str} {f : Nat} {R : List Str}, '\n' ∉ acc → '\n' ∉ R.flatten →
    TokN ['/'] [[], ['/']] acc n ts → ts.length < f → conv f R (ts.map some) = .ok (fix (R.flatten ++ fix (acc ++ n.show ['/'] ['/'])))
  | .word w, ok, acc, ts, f, R, ha, hR, h, hf => by
    cases h
    obtain ⟨f, rfl⟩ : ∃ g, f = g + 2 := ⟨f - 2, by simp at hf; omega⟩
    rw [List.map_cons, text_conv _ _ ha ok]
    simp only [List.map_nil, conv, Name.show, List.flatten_append, List.flatten_cons, List.flatten_nil, List.append_nil]
    have hn : '\n' ∉ R.flatten ++ fix (acc ++ w) := by
      have : '\n' ∉ fix (acc ++ w) := by
        unfold fix; split <;> simp [ha, ok.no.2.2.2.2.2.2]
      simp only [List.mem_append, not_or]
      exact ⟨hR, this⟩
    rw [needsSlash_head hn]
    rfl
  | .scope w n, ok, acc, ts, f, R, ha, hR, h, hf => by
    cases h with
    | scope h =>
      rw [conv_name n ok.2.2 (by simp [ha, ok.1.no.2.2.2.2.2.2]) hR h hf]
      simp [Name.show]
  | .tmpl w a, ok, acc, ts, f, R, ha, hR, h, hf => by
    cases h with
    | tmpl h =>
      rename_i us
      obtain ⟨f, rfl⟩ : ∃ g, f = g + 3 := ⟨f - 3, by simp at hf; omega⟩
      obtain ⟨vs, h1, h3, h2⟩ := collect_lt0 ok.2.2 h
      have e : (((acc ++ w) :: ['<'] :: (us ++ [['>']])).map some : List Tk) = some (acc ++ w) :: lt :: (us.map some ++ gt :: []) := by
        simp [lt, gt]
      rw [e, text_conv _ _ ha ok.1]
      simp only [conv, if_true]
      rw [h2, convA a ok.2.2 h1 (fun u hu => by have := h3 u hu; simp at hf; omega)]
      simp only [Res.bind_ok, List.getLast?_append, List.getLast?_singleton, Option.some_or, List.dropLast_concat]
      rw [joinComma_typelibs]
      simp only [conv, List.flatten_append, List.flatten_cons, List.flatten_nil, List.append_nil]
      have e2 : fix (acc ++ w) ++ '<' :: a.show ['/'] ['/'] ++ ['>'] = fix (acc ++ Name.show ['/'] ['/'] (.tmpl w a)) := by
        have hne : acc ++ w ≠ [] := fun e => ok.1.1 (List.append_eq_nil_iff.mp e).2
        rw [show acc ++ Name.show ['/'] ['/'] (.tmpl w a) = (acc ++ w) ++ ('<' :: a.show ['/'] ['/'] ++ ['>']) by simp [Name.show],
          fix_append hne]
        simp
      rw [e2]
      have hn : '\n' ∉ R.flatten ++ fix (acc ++ Name.show ['/'] ['/'] (.tmpl w a)) := by
        have h5 := show_nl (.tmpl w a) ok (sep := ['/']) (abs := ['/']) (by decide) (by decide)
        have : '\n' ∉ fix (acc ++ Name.show ['/'] ['/'] (.tmpl w a)) := by
          unfold fix; split <;> simp [ha, h5]
        simp only [List.mem_append, not_or]
        exact ⟨hR, this⟩
      rw [needsSlash_head hn]
      rfl
  | .tmplScope w a n, ok, acc, ts, f, R, ha, hR, h, hf => by
    cases h with
    | tmplScope h hn =>
      rename_i us ws
      obtain ⟨f, rfl⟩ : ∃ g, f = g + 2 := ⟨f - 2, by simp at hf; omega⟩
      obtain ⟨vs, h1, h3, h2⟩ := collect_lt0 ok.2.2.1 h
      have e : (((acc ++ w) :: ['<'] :: (us ++ ['>'] :: ws)).map some : List Tk) =
          some (acc ++ w) :: lt :: (us.map some ++ gt :: ws.map some) := by
        simp [lt, gt]
      rw [e, text_conv _ _ ha ok.1]
      simp only [conv, if_true]
      rw [h2, convA a ok.2.2.1 h1 (fun u hu => by have := h3 u hu; simp at hf; omega)]
      simp only [Res.bind_ok, List.getLast?_append, List.getLast?_singleton, Option.some_or, List.dropLast_concat]
      rw [joinComma_typelibs]
      have h5 := showA_nl a ok.2.2.1 (sep := ['/']) (abs := ['/']) (by decide) (by decide)
      have hfx : '\n' ∉ fix (acc ++ w) := by
        unfold fix; split <;> simp [ha, ok.1.no.2.2.2.2.2.2]
      rw [conv_name n ok.2.2.2 (acc := ['/']) (by decide) (by simp [hfx, h5]; simpa using hR) hn (by simp at hf; omega)]
      have hne : acc ++ w ≠ [] := fun e => ok.1.1 (List.append_eq_nil_iff.mp e).2
      rw [show acc ++ Name.show ['/'] ['/'] (.tmplScope w a n) =
          (acc ++ w) ++ ('<' :: a.show ['/'] ['/'] ++ ['>'] ++ ['/'] ++ n.show ['/'] ['/']) by simp [Name.show],
          fix_append hne, List.cons_append, List.nil_append, fix_slash]
      simp
theorem convA : ∀ (a : Args), a.Ok → ∀ {us : List (List Str)} {f : Nat}, Split ['/'] [[], ['/']] a us → (∀ u ∈ us, u.length < f) →
    convAll (conv f []) (us.map (·.map some)) = .ok a.typelibs
  | .one n, ok, us, f, h, hf => by
    cases h with
    | one hl h =>
      simp only [List.map_cons, List.map_nil, convAll]
      rw [conv_name n ok (by rcases lead_cases hl with rfl | ⟨rfl, _⟩ <;> decide) (by simp) h (hf _ (by simp))]
      simp only [List.flatten_nil, List.nil_append]
      rw [fix_fix, fix_show ok hl]
      rfl
  | .more n a, ok, us, f, h, hf => by
    cases h with
    | more hl h ha =>
      simp only [List.map_cons, convAll]
      rw [conv_name n ok.1 (by rcases lead_cases hl with rfl | ⟨rfl, _⟩ <;> decide) (by simp) h (hf _ (by simp)),
        convA a ok.2 ha (fun u hu => hf u (by simp [hu]))]
      simp only [List.flatten_nil, List.nil_append]
      rw [fix_fix, fix_show ok.1 hl]
      rfl
end

end Verif.RubyNames
