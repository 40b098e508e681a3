import Verif.RubyNamesProps

/-!
C60: the theorems about C++ type names in the Ruby bindings.
-/

namespace Verif.RubyNames
open Verif Verif.CxxNames

/-! ### Writing names -/

theorem spaces_nil : Spaces [] := by intro c hc; simp at hc

mutual
theorem writes_show {sep abs : Str} {leads : List Str} (h : abs ∈ leads) : ∀ (n : Name), Writes sep leads n (n.show sep abs)
  | .word w => .word w
  | .scope w n => .scope (writes_show h n)
  | .tmpl w a => by
    have := Writes.tmpl (sep := sep) (w := w) spaces_nil (writesA_show h a)
    simpa [Name.show] using this
  | .tmplScope w a n => by
    have := Writes.tmplScope (sep := sep) (w := w) spaces_nil (writesA_show h a) spaces_nil (writes_show h n)
    simpa [Name.show] using this
theorem writesA_show {sep abs : Str} {leads : List Str} (h : abs ∈ leads) : ∀ (a : Args), WritesArgs sep leads a (a.show sep abs)
  | .one n => by
    have := WritesArgs.one (sep := sep) (leads := leads) (l := if n.isNumber then [] else abs) spaces_nil
      (by unfold Lead; split <;> simp [*]) (writes_show h n) spaces_nil
    simpa [Args.show] using this
  | .more n a => by
    have := WritesArgs.more (sep := sep) (leads := leads) (l := if n.isNumber then [] else abs) spaces_nil
      (by unfold Lead; split <;> simp [*]) (writes_show h n) spaces_nil (writesA_show h a)
    simpa [Args.show] using this
end

theorem written_cxx (n : Name) : Written n n.cxx :=
  ⟨_, .inl rfl, [], [], spaces_nil, spaces_nil, [], n.cxx, by unfold Lead; split <;> simp,
    writes_show (by simp) n, by simp⟩

theorem written_typelib (n : Name) : Written n n.typelib :=
  ⟨"/".toList, .inr rfl, [], [], spaces_nil, spaces_nil, if n.isNumber then [] else ['/'], n.show ['/'] ['/'],
    by unfold Lead; split <;> simp, writes_show (by simp) n, by simp [Name.typelib]⟩

/-! ### Parsing templates -/

mutual
theorem flatten_name {sep abs : Str} : ∀ (n : Name) {acc : Str} {ts : List Str}, TokN sep [abs] acc n ts →
    ts.flatten = acc ++ n.show sep abs
  | .word w, acc, ts, h => by cases h; simp [Name.show]
  | .scope w n, acc, ts, h => by
    cases h with | scope h => rw [flatten_name n h]; simp [Name.show]
  | .tmpl w a, acc, ts, h => by
    cases h with | tmpl h => simp [Name.show, flatten_args a h]
  | .tmplScope w a n, acc, ts, h => by
    cases h with | tmplScope h hn => simp [Name.show, flatten_args a h, flatten_name n hn]
theorem flatten_args {sep abs : Str} : ∀ (a : Args) {ts : List Str}, TokA sep [abs] a ts → ts.flatten = a.show sep abs
  | .one n, ts, h => by
    cases h with
    | one hl h =>
      rw [flatten_name n h]
      unfold Lead at hl
      split at hl <;> simp_all [Args.show]
  | .more n a, ts, h => by
    cases h with
    | more hl h ha =>
      rw [List.flatten_append, List.flatten_cons, flatten_name n h, flatten_args a ha]
      unfold Lead at hl
      split at hl <;> simp_all [Args.show]
end

/-- the arguments, each written with `sep` and `abs` -/
def Args.shows (sep abs : Str) (a : Args) : List Str :=
  a.toList.map fun n => (if n.isNumber then [] else abs) ++ n.show sep abs

theorem split_shows {sep abs : Str} : ∀ (a : Args) {us : List (List Str)}, Split sep [abs] a us → us.map List.flatten = a.shows sep abs
  | .one n, us, h => by
    cases h with
    | one hl h =>
      simp only [List.map_cons, List.map_nil, Args.shows, Args.toList]
      rw [flatten_name n h]
      unfold Lead at hl
      split at hl <;> simp_all
  | .more n a, us, h => by
    cases h with
    | more hl h ha =>
      have := split_shows a ha
      simp only [Args.shows] at this
      simp only [List.map_cons, Args.shows, Args.toList, this]
      rw [flatten_name n h]
      unfold Lead at hl
      split at hl <;> simp_all

theorem join_some (l : List Str) : join (l.map some) = l.flatten := by
  unfold join
  induction l with
  | nil => rfl
  | cons a l ih => simp [ih]

theorem parse_tokens {sep : Str} {leads : List Str} : ∀ (n : Name), n.Ok → ∀ {acc : Str} {ts : List Str}, TokN sep leads acc n ts →
    (∀ b a, n.template sep = some (b, a) → ∃ us, Split sep leads a us ∧ ∃ r, ts = (acc ++ b) :: r ∧
      (collect 0 [] [] (r.map some)).1 = us.map (·.map some)) ∧
    (n.template sep = none → n.Simple → ts = [acc ++ n.show sep []])
  | .word w, ok, acc, ts, h => by
    cases h
    exact ⟨fun b a e => by simp [Name.template] at e, fun _ _ => by simp [Name.show]⟩
  | .scope w n, ok, acc, ts, h => by
    cases h with
    | scope h =>
      obtain ⟨h1, h2⟩ := parse_tokens n ok.2.2 h
      refine ⟨fun b a e => ?_, fun e hs => ?_⟩
      · simp only [Name.template, Option.map_eq_some_iff] at e
        obtain ⟨⟨b', a'⟩, e1, e2⟩ := e
        cases e2
        obtain ⟨us, g1, r, g2, g3⟩ := h1 b' _ e1
        exact ⟨us, g1, r, by rw [g2]; simp, g3⟩
      · simp only [Name.template, Option.map_eq_none_iff] at e
        rw [h2 e hs]
        simp [Name.show]
  | .tmpl w a, ok, acc, ts, h => by
    cases h with
    | tmpl h =>
      rename_i us
      refine ⟨fun b a' e => ?_, fun e => by simp [Name.template] at e⟩
      simp only [Name.template, Option.some.injEq, Prod.mk.injEq] at e
      obtain ⟨rfl, rfl⟩ := e
      obtain ⟨vs, h1, _, h2⟩ := collect_lt0 ok.2.2 h
      refine ⟨vs, h1, _, rfl, ?_⟩
      have := h2 []
      simp only [lt, gt] at this
      simp only [List.map_cons, List.map_append, List.map_nil, this]
  | .tmplScope w a n, ok, acc, ts, h => ⟨fun b a' e => by simp [Name.template] at e, fun _ hs => hs.elim⟩

/-! ### Back to C++ -/

theorem rep_flatMap (c : Char) (to : Str) (s : Str) : rep [c] to 0 s = s.flatMap fun x => if x = c then to else [x] := by
  induction s with
  | nil => rfl
  | cons x s ih =>
    simp only [rep, List.isPrefixOf, Bool.and_true, List.length_singleton, Nat.sub_self, List.flatMap_cons, ih, eq_comm]
    split <;> simp_all

theorem rep_absent {x : Char} {pat to : Str} (hx : x ∈ pat) : ∀ {s : Str}, x ∉ s → rep pat to 0 s = s := by
  intro s
  induction s with
  | nil => intro _; rfl
  | cons c s ih =>
    intro h
    have : pat.isPrefixOf (c :: s) = false := by
      cases hp : pat.isPrefixOf (c :: s) with
      | false => rfl
      | true =>
        obtain ⟨t, ht⟩ := List.isPrefixOf_iff_prefix.mp hp
        exact absurd (by rw [← ht]; simp [hx]) h
    simp only [rep, this, Bool.false_eq_true, if_false]
    rw [ih (fun hm => h (by simp [hm]))]

mutual
/-- `a` with leading colons, `b` without those after `<` -/
inductive J : Name → Str → Str → Prop
  | word (w : Str) : J (.word w) w w
  | scope {w n a b} : J n a b → J (.scope w n) (w ++ ':' :: ':' :: a) (w ++ ':' :: ':' :: b)
  | tmpl {w r a b} : JA true r a b → J (.tmpl w r) (w ++ '<' :: (a ++ ['>'])) (w ++ '<' :: (b ++ ['>']))
  | tmplScope {w r n a b c d} : JA true r a b → J n c d →
      J (.tmplScope w r n) (w ++ '<' :: (a ++ '>' :: ':' :: ':' :: c)) (w ++ '<' :: (b ++ '>' :: ':' :: ':' :: d))
inductive JA : Bool → Args → Str → Str → Prop
  | one {f n l a b} : (l = [] ∨ l = [':', ':']) → J n a b → JA f (.one n) (l ++ a) ((if f then [] else l) ++ b)
  | more {f n r l a b c d} : (l = [] ∨ l = [':', ':']) → J n a b → JA false r c d →
      JA f (.more n r) (l ++ (a ++ ',' :: c)) ((if f then [] else l) ++ (b ++ ',' :: d))
end

def colons (s : Str) : Str := s.flatMap fun x => if x = '/' then [':', ':'] else [x]

theorem colons_word {w : Str} (h : '/' ∉ w) : colons w = w := by
  unfold colons
  induction w with
  | nil => rfl
  | cons x w ih =>
    simp only [List.mem_cons, not_or] at h
    rw [List.flatMap_cons, ih h.2, if_neg (Ne.symm h.1)]
    rfl

theorem cxxTok_text {acc w : Str} (hw : WordOk w) (ha : ∀ c ∈ acc, isSep c = false) (hnl : '\n' ∉ acc)
    (hd : acc = [] ∨ ∃ c, acc.head? = some c ∧ numChar c = false) : cxxTok (acc ++ w) = colons acc ++ w := by
  have e : replaceAll ['/'] [':', ':'] (acc ++ w) = colons acc ++ w := by
    rw [replaceAll_eq (List.cons_ne_nil _ _), rep_flatMap, List.flatMap_append]
    have := colons_word hw.no.2.2.2.1
    unfold colons at this ⊢
    rw [this]
  unfold cxxTok
  split
  · rename_i h
    rcases Bool.or_eq_true_iff.mp h with h | h
    · obtain ⟨c, hc, h⟩ := List.any_eq_true.mp h
      rcases List.mem_append.mp hc with hc | hc
      · rw [ha c hc] at h; cases h
      · rw [hw.sep c hc] at h; cases h
    · rw [(lineHas_head (by simp [hnl, hw.no.2.2.2.2.2.2])).1] at h
      rcases hd with rfl | ⟨c, hc, hn⟩
      · rfl
      · cases acc with
        | nil => cases hc
        | cons x acc =>
          simp only [List.head?_cons, Option.some.injEq] at hc
          subst hc
          simp only [List.cons_append, List.head?_cons, Option.any_some] at h
          unfold numChar at hn
          rw [h] at hn
          cases hn
  · exact e

/-- a text before a word, in typelib's notation -/
structure AccT (acc : Str) : Prop where
  sep : ∀ c ∈ acc, isSep c = false
  nl : '\n' ∉ acc
  head : acc = [] ∨ ∃ c, acc.head? = some c ∧ numChar c = false

theorem accT_nil : AccT [] := ⟨by simp, by simp, .inl rfl⟩
theorem accT_slash : AccT ['/'] := ⟨by simp; decide, by decide, .inr ⟨'/', rfl, by decide⟩⟩

theorem AccT.scope {acc w : Str} (h : AccT acc) (hw : WordOk w) (hn : number w = false) : AccT (acc ++ w ++ ['/']) := by
  refine ⟨?_, by simp [h.nl, hw.no.2.2.2.2.2.2], .inr ?_⟩
  · intro c hc
    simp only [List.mem_append, List.mem_singleton] at hc
    rcases hc with (hc | hc) | rfl
    · exact h.sep c hc
    · exact hw.sep c hc
    · decide
  · rcases h.head with rfl | ⟨c, hc, h⟩
    · cases w with
      | nil => exact absurd rfl hw.1
      | cons x w =>
        refine ⟨x, rfl, ?_⟩
        rw [number_eq] at hn
        simpa using hn
    · cases acc with
      | nil => cases hc
      | cons x acc => exact ⟨c, by simpa using hc, by assumption⟩

theorem cxxTok_sep {c : Char} (h : isSep c = true) : cxxTok [c] = [c] := by
  unfold cxxTok
  rw [if_pos (by simp [h])]

theorem lead_colons {n : Name} {l : Str} (h : Lead [[], ['/']] n l) : AccT l ∧ (colons l = [] ∨ colons l = [':', ':']) := by
  rcases lead_cases h with rfl | ⟨rfl, _⟩
  · exact ⟨accT_nil, .inl rfl⟩
  · exact ⟨accT_slash, .inr rfl⟩

mutual
theorem back_name : ∀ (n : Name), n.Ok → ∀ {acc : Str} {ts : List Str}, AccT acc → TokN ['/'] [[], ['/']] acc n ts →
    ∃ a b, J n a b ∧ (ts.map cxxTok).flatten = colons acc ++ a
  | .word w, ok, acc, ts, ha, h => by
    cases h
    exact ⟨w, w, .word w, by simp [cxxTok_text ok ha.sep ha.nl ha.head]⟩
  | .scope w n, ok, acc, ts, ha, h => by
    cases h with
    | scope h =>
      obtain ⟨a, b, h1, h2⟩ := back_name n ok.2.2 (ha.scope ok.1 ok.2.1) h
      refine ⟨_, _, .scope h1, ?_⟩
      rw [h2]
      have : colons (acc ++ w ++ ['/']) = colons acc ++ w ++ [':', ':'] := by
        have := colons_word ok.1.no.2.2.2.1
        unfold colons at this ⊢
        rw [List.flatMap_append, List.flatMap_append, this]
        rfl
      rw [this]
      simp
  | .tmpl w r, ok, acc, ts, ha, h => by
    cases h with
    | tmpl h =>
      obtain ⟨a, b, h1, h2⟩ := back_args r ok.2.2 true h
      refine ⟨_, _, .tmpl h1, ?_⟩
      simp only [List.map_cons, List.map_append, List.map_nil, List.flatten_cons, List.flatten_append, List.flatten_nil, h2]
      rw [cxxTok_text ok.1 ha.sep ha.nl ha.head, cxxTok_sep (by decide), cxxTok_sep (by decide)]
      simp
  | .tmplScope w r n, ok, acc, ts, ha, h => by
    cases h with
    | tmplScope h hn =>
      obtain ⟨a, b, h1, h2⟩ := back_args r ok.2.2.1 true h
      obtain ⟨c, d, g1, g2⟩ := back_name n ok.2.2.2 accT_slash hn
      refine ⟨_, _, .tmplScope h1 g1, ?_⟩
      simp only [List.map_cons, List.map_append, List.flatten_cons, List.flatten_append, h2, g2]
      rw [cxxTok_text ok.1 ha.sep ha.nl ha.head, cxxTok_sep (by decide), cxxTok_sep (by decide)]
      simp [colons]
theorem back_args : ∀ (r : Args), r.Ok → ∀ (f : Bool) {ts : List Str}, TokA ['/'] [[], ['/']] r ts →
    ∃ a b, JA f r a b ∧ (ts.map cxxTok).flatten = a
  | .one n, ok, f, ts, h => by
    cases h with
    | one hl h =>
      obtain ⟨a, b, h1, h2⟩ := back_name n ok (lead_colons hl).1 h
      exact ⟨_, _, .one (lead_colons hl).2 h1, h2⟩
  | .more n r, ok, f, ts, h => by
    cases h with
    | more hl h hr =>
      obtain ⟨a, b, h1, h2⟩ := back_name n ok.1 (lead_colons hl).1 h
      obtain ⟨c, d, g1, g2⟩ := back_args r ok.2 false hr
      refine ⟨_, _, .more (lead_colons hl).2 h1 g1, ?_⟩
      simp only [List.map_cons, List.map_append, List.flatten_cons, List.flatten_append, h2, g2]
      rw [cxxTok_sep (by decide)]
      simp
end

theorem J.head : ∀ (n : Name), n.Ok → ∀ {a b : Str}, J n a b → (∀ c, a.head? = some c → c ≠ ':') ∧ (∀ c, b.head? = some c → c ≠ ':')
  | .word w, ok, a, b, h => by
    cases h
    have := ok.no.2.2.2.2.1
    exact ⟨fun c hc e => this (e ▸ List.mem_of_mem_head? hc), fun c hc e => this (e ▸ List.mem_of_mem_head? hc)⟩
  | .scope w n, ok, a, b, h => by
    have hw := ok.1.no.2.2.2.2.1
    cases w with
    | nil => exact absurd rfl ok.1.1
    | cons x w => cases h; exact ⟨fun c hc e => hw (by simp at hc; simp [hc, e]), fun c hc e => hw (by simp at hc; simp [hc, e])⟩
  | .tmpl w r, ok, a, b, h => by
    have hw := ok.1.no.2.2.2.2.1
    cases w with
    | nil => exact absurd rfl ok.1.1
    | cons x w => cases h; exact ⟨fun c hc e => hw (by simp at hc; simp [hc, e]), fun c hc e => hw (by simp at hc; simp [hc, e])⟩
  | .tmplScope w r n, ok, a, b, h => by
    have hw := ok.1.no.2.2.2.2.1
    cases w with
    | nil => exact absurd rfl ok.1.1
    | cons x w => cases h; exact ⟨fun c hc e => hw (by simp at hc; simp [hc, e]), fun c hc e => hw (by simp at hc; simp [hc, e])⟩

/-- `c::` becomes `c`, whether the colons are there or not -/
theorem rep3_opt {c : Char} {l a b r : Str} (hl : l = [] ∨ l = [':', ':']) (ha : ∀ x, a.head? = some x → x ≠ ':') (hne : a ≠ [])
    (h : rep [c, ':', ':'] [c] 0 (a ++ r) = b) : rep [c, ':', ':'] [c] 0 (c :: (l ++ (a ++ r))) = c :: b := by
  rcases hl with rfl | rfl
  · rw [List.nil_append, rep_miss3, h]
    cases a with
    | nil => exact absurd rfl hne
    | cons x a => simpa using ha x rfl
  · rw [show c :: ([':', ':'] ++ (a ++ r)) = c :: ':' :: ':' :: (a ++ r) by rfl, rep_hit3, h]

theorem J.ne : ∀ (n : Name), n.Ok → ∀ {a b : Str}, J n a b → a ≠ [] ∧ b ≠ []
  | .word w, ok, a, b, h => by cases h; exact ⟨ok.1, ok.1⟩
  | .scope w n, ok, a, b, h => by cases h; simp
  | .tmpl w r, ok, a, b, h => by cases h; simp
  | .tmplScope w r n, ok, a, b, h => by cases h; simp

theorem rep3_colons {c : Char} (hc : c ≠ ':') (s : Str) : rep [c, ':', ':'] [c] 0 (':' :: ':' :: s) = ':' :: ':' :: rep [c, ':', ':'] [c] 0 s := by
  rw [rep_pass1 (Ne.symm hc), rep_pass1 (Ne.symm hc)]

theorem rep3_lead {c : Char} (hc : c ≠ ':') {l : Str} (hl : l = [] ∨ l = [':', ':']) (s : Str) :
    rep [c, ':', ':'] [c] 0 (l ++ s) = l ++ rep [c, ':', ':'] [c] 0 s := by
  rcases hl with rfl | rfl
  · rfl
  · exact rep3_colons hc s

mutual
theorem rep1_name : ∀ (n : Name), n.Ok → ∀ {a b : Str}, J n a b → ∀ r,
    rep ['<', ':', ':'] ['<'] 0 (a ++ r) = b ++ rep ['<', ':', ':'] ['<'] 0 r
  | .word w, ok, a, b, h, r => by
    cases h
    exact rep_pass ok.no.1 r
  | .scope w n, ok, a, b, h, r => by
    cases h with
    | scope h =>
      rename_i a b
      rw [show w ++ ':' :: ':' :: a ++ r = w ++ (':' :: ':' :: (a ++ r)) by simp, rep_pass ok.1.no.1, rep3_colons (by decide),
        rep1_name n ok.2.2 h]
      simp
  | .tmpl w ar, ok, a, b, h, r => by
    cases h with
    | tmpl h =>
      rename_i a b
      rw [show w ++ '<' :: (a ++ ['>']) ++ r = w ++ ('<' :: (a ++ ('>' :: r))) by simp, rep_pass ok.1.no.1,
        (rep1_args ar ok.2.2 true h ('>' :: r)).1 rfl, rep_pass1 (by decide)]
      simp
  | .tmplScope w ar n, ok, a, b, h, r => by
    cases h with
    | tmplScope h hn =>
      rename_i a b c d
      rw [show w ++ '<' :: (a ++ '>' :: ':' :: ':' :: c) ++ r = w ++ ('<' :: (a ++ ('>' :: ':' :: ':' :: (c ++ r)))) by simp,
        rep_pass ok.1.no.1, (rep1_args ar ok.2.2.1 true h ('>' :: ':' :: ':' :: (c ++ r))).1 rfl, rep_pass1 (by decide),
        rep3_colons (by decide), rep1_name n ok.2.2.2 hn]
      simp
theorem rep1_args : ∀ (ar : Args), ar.Ok → ∀ (f : Bool) {a b : Str}, JA f ar a b → ∀ r,
    (f = true → rep ['<', ':', ':'] ['<'] 0 ('<' :: (a ++ r)) = '<' :: (b ++ rep ['<', ':', ':'] ['<'] 0 r)) ∧
    (f = false → rep ['<', ':', ':'] ['<'] 0 (a ++ r) = b ++ rep ['<', ':', ':'] ['<'] 0 r)
  | .one n, ok, f, a, b, h, r => by
    cases h with
    | one hl h =>
      rename_i l a b
      refine ⟨fun e => ?_, fun e => ?_⟩
      · subst e
        rw [List.append_assoc, rep3_opt hl (J.head n ok h).1 (J.ne n ok h).1 (rep1_name n ok h r)]
        simp
      · subst e
        rw [List.append_assoc, rep3_lead (by decide) hl, rep1_name n ok h r]
        simp
  | .more n ar, ok, f, a, b, h, r => by
    cases h with
    | more hl h hr =>
      rename_i l a b c d
      have e1 : rep ['<', ':', ':'] ['<'] 0 (a ++ (',' :: (c ++ r))) = b ++ ',' :: (d ++ rep ['<', ':', ':'] ['<'] 0 r) := by
        rw [rep1_name n ok.1 h, rep_pass1 (by decide), (rep1_args ar ok.2 false hr r).2 rfl]
      refine ⟨fun e => ?_, fun e => ?_⟩
      · subst e
        rw [show l ++ (a ++ ',' :: c) ++ r = l ++ (a ++ (',' :: (c ++ r))) by simp, rep3_opt hl (J.head n ok.1 h).1 (J.ne n ok.1 h).1 e1]
        simp
      · subst e
        rw [show l ++ (a ++ ',' :: c) ++ r = l ++ (a ++ (',' :: (c ++ r))) by simp, rep3_lead (by decide) hl, e1]
        simp
end

mutual
theorem rep2_name : ∀ (n : Name), n.Ok → ∀ {a b : Str}, J n a b → ∀ r,
    rep [',', ':', ':'] [','] 0 (b ++ r) = n.cxx ++ rep [',', ':', ':'] [','] 0 r
  | .word w, ok, a, b, h, r => by
    cases h
    exact rep_pass ok.no.2.1 r
  | .scope w n, ok, a, b, h, r => by
    cases h with
    | scope h =>
      rename_i a b
      rw [show w ++ ':' :: ':' :: b ++ r = w ++ (':' :: ':' :: (b ++ r)) by simp, rep_pass ok.1.no.2.1, rep3_colons (by decide),
        rep2_name n ok.2.2 h]
      simp [Name.cxx, Name.show]
  | .tmpl w ar, ok, a, b, h, r => by
    cases h with
    | tmpl h =>
      rename_i a b
      rw [show w ++ '<' :: (b ++ ['>']) ++ r = w ++ ('<' :: (b ++ ('>' :: r))) by simp, rep_pass ok.1.no.2.1, rep_pass1 (by decide),
        (rep2_args ar ok.2.2 true h ('>' :: r)).1 rfl, rep_pass1 (by decide)]
      simp [Name.cxx, Name.show]
  | .tmplScope w ar n, ok, a, b, h, r => by
    cases h with
    | tmplScope h hn =>
      rename_i a b c d
      rw [show w ++ '<' :: (b ++ '>' :: ':' :: ':' :: d) ++ r = w ++ ('<' :: (b ++ ('>' :: ':' :: ':' :: (d ++ r)))) by simp,
        rep_pass ok.1.no.2.1, rep_pass1 (by decide), (rep2_args ar ok.2.2.1 true h ('>' :: ':' :: ':' :: (d ++ r))).1 rfl,
        rep_pass1 (by decide), rep3_colons (by decide), rep2_name n ok.2.2.2 hn]
      simp [Name.cxx, Name.show]
theorem rep2_args : ∀ (ar : Args), ar.Ok → ∀ (f : Bool) {a b : Str}, JA f ar a b → ∀ r,
    (f = true → rep [',', ':', ':'] [','] 0 (b ++ r) = ar.show "::".toList [] ++ rep [',', ':', ':'] [','] 0 r) ∧
    (f = false → rep [',', ':', ':'] [','] 0 (',' :: (b ++ r)) = ',' :: (ar.show "::".toList [] ++ rep [',', ':', ':'] [','] 0 r))
  | .one n, ok, f, a, b, h, r => by
    cases h with
    | one hl h =>
      rename_i l a b
      refine ⟨fun e => ?_, fun e => ?_⟩
      · subst e
        simp only [if_true, List.nil_append]
        rw [rep2_name n ok h r]
        simp [Args.show, Name.cxx]
      · subst e
        rw [List.append_assoc, rep3_opt (by simpa using hl) (J.head n ok h).2 (J.ne n ok h).2 (rep2_name n ok h r)]
        simp [Args.show, Name.cxx]
  | .more n ar, ok, f, a, b, h, r => by
    cases h with
    | more hl h hr =>
      rename_i l a b c d
      have e1 : rep [',', ':', ':'] [','] 0 (b ++ (',' :: (d ++ r))) =
          n.cxx ++ ',' :: (ar.show "::".toList [] ++ rep [',', ':', ':'] [','] 0 r) := by
        rw [rep2_name n ok.1 h, (rep2_args ar ok.2 false hr r).2 rfl]
      refine ⟨fun e => ?_, fun e => ?_⟩
      · subst e
        simp only [if_true, List.nil_append]
        rw [show b ++ ',' :: d ++ r = b ++ (',' :: (d ++ r)) by simp, e1]
        simp [Args.show, Name.cxx]
      · subst e
        rw [show (if false = true then [] else l) ++ (b ++ ',' :: d) ++ r = l ++ (b ++ (',' :: (d ++ r))) by simp,
          rep3_opt hl (J.head n ok.1 h).2 (J.ne n ok.1 h).2 e1]
        simp [Args.show, Name.cxx]
end

mutual
theorem cxx_paren : ∀ (n : Name), n.Ok → '(' ∉ n.show "::".toList []
  | .word w, ok => ok.no.2.2.2.2.2.1
  | .scope w n, ok => by
    have h1 := ok.1.no.2.2.2.2.2.1
    have h2 := cxx_paren n ok.2.2
    simp only [Name.show, List.mem_append, not_or]
    exact ⟨⟨h1, by decide⟩, h2⟩
  | .tmpl w a, ok => by
    have h1 := ok.1.no.2.2.2.2.2.1
    have h2 := cxx_parenA a ok.2.2
    simp only [Name.show, List.mem_append, List.mem_cons, not_or]
    exact ⟨⟨h1, by decide, h2⟩, by decide, by simp⟩
  | .tmplScope w a n, ok => by
    have h1 := ok.1.no.2.2.2.2.2.1
    have h2 := cxx_parenA a ok.2.2.1
    have h3 := cxx_paren n ok.2.2.2
    simp only [Name.show, List.mem_append, List.mem_cons, not_or]
    exact ⟨⟨⟨⟨h1, by decide, h2⟩, by decide, by simp⟩, by decide⟩, h3⟩
theorem cxx_parenA : ∀ (a : Args), a.Ok → '(' ∉ a.show "::".toList []
  | .one n, ok => by
    have h := cxx_paren n ok
    simp only [Args.show, List.mem_append, not_or]
    exact ⟨by split <;> simp, h⟩
  | .more n a, ok => by
    have h := cxx_paren n ok.1
    have h2 := cxx_parenA a ok.2
    simp only [Args.show, List.mem_append, List.mem_cons, not_or]
    exact ⟨⟨by split <;> simp, h⟩, by decide, h2⟩
end

/-! ### Namespaces -/

/-- `firstLoop` as a scanner -/
def sf : Int → Str → Str → Str → Str × Str
  | _, ns, pend, [] => (ns, pend)
  | level, ns, pend, c :: b =>
    if isMark c then
      if c = '/' then if level = 0 then (ns ++ pend ++ [c], b) else sf level (ns ++ pend ++ [c]) [] b
      else if c = '<' then sf (level + 1) (ns ++ pend ++ [c]) [] b
      else sf (level - 1) (ns ++ pend ++ [c]) [] b
    else sf level ns (pend ++ [c]) b

theorem sf_span {m : Str} (h : ∀ c ∈ m, isMark c = false) (l : Int) (ns pend b : Str) : sf l ns pend (m ++ b) = sf l ns (pend ++ m) b := by
  induction m generalizing pend with
  | nil => simp
  | cons c m ih =>
    simp only [List.cons_append, sf]
    rw [h c (by simp)]
    simp only [Bool.false_eq_true, if_false]
    rw [ih (fun x hx => h x (by simp [hx]))]
    simp

theorem firstLoop_eq : ∀ (f : Nat) (l : Int) (ns b : Str), b.length < f → firstLoop f l ns b = sf l ns [] b := by
  intro f
  induction f with
  | zero => intro l ns b h; omega
  | succ f ih =>
    intro l ns b h
    have e := List.takeWhile_append_dropWhile (p := fun x => !isMark x) (l := b)
    have hm : ∀ y ∈ b.takeWhile (fun x => !isMark x), isMark y = false := by
      intro y hy
      simpa using takeWhile_no y hy
    have e2 : sf l ns [] b = sf l ns [] (b.takeWhile (fun x => !isMark x) ++ b.dropWhile (fun x => !isMark x)) := by rw [e]
    rw [e2, sf_span hm, List.nil_append]
    simp only [firstLoop]
    split
    · rename_i hd
      rw [hd] at e ⊢
      rw [List.append_nil] at e
      rw [e]; rfl
    · rename_i c r hd
      have hl : r.length < f := by
        have := congrArg List.length e
        rw [List.length_append, hd, List.length_cons] at this
        omega
      have hc : isMark c = true := by simpa using dropWhile_cons_no hd
      rw [hd]
      simp only [sf, hc, if_true, ih _ _ _ hl]

theorem word_mark {w : Str} (h : WordOk w) : ∀ c ∈ w, isMark c = false := by
  intro c hc
  obtain ⟨n1, n2, n3, n4, _⟩ := h.no
  unfold isMark
  simp only [Bool.or_eq_false_iff, beq_eq_false_iff_ne]
  exact ⟨⟨fun e => n4 (e ▸ hc), fun e => n1 (e ▸ hc)⟩, fun e => n3 (e ▸ hc)⟩

theorem sf_lt (l : Int) (ns pend b : Str) : sf l ns pend ('<' :: b) = sf (l + 1) (ns ++ pend ++ ['<']) [] b := by
  simp [sf, show isMark '<' = true by decide]

theorem sf_gt (l : Int) (ns pend b : Str) : sf l ns pend ('>' :: b) = sf (l - 1) (ns ++ pend ++ ['>']) [] b := by
  simp [sf, show isMark '>' = true by decide]

theorem sf_slash {l : Int} (h : 1 ≤ l) (ns pend b : Str) : sf l ns pend ('/' :: b) = sf l (ns ++ pend ++ ['/']) [] b := by
  have : ¬ l = 0 := by omega
  simp [sf, show isMark '/' = true by decide, this]

/-- the state after a text: what was seen so far, whatever is still pending -/
def sfJ (l : Int) (s b : Str) (ns pend : Str) : Prop := ∃ ns' pend', ns' ++ pend' = ns ++ pend ++ s ∧ sf l ns pend (s ++ b) = sf l ns' pend' b

theorem sfJ_word {w : Str} (h : WordOk w) (l : Int) (b ns pend : Str) : sfJ l w b ns pend :=
  ⟨ns, pend ++ w, by simp, sf_span (word_mark h) l ns pend b⟩

mutual
theorem sf_name : ∀ (n : Name), n.Ok → ∀ {l : Int}, 1 ≤ l → ∀ b ns pend, sfJ l (n.show ['/'] ['/']) b ns pend
  | .word w, ok, l, hl, b, ns, pend => sfJ_word ok l b ns pend
  | .scope w n, ok, l, hl, b, ns, pend => by
    obtain ⟨ns1, p1, e1, e2⟩ := sfJ_word ok.1 l ('/' :: (n.show ['/'] ['/'] ++ b)) ns pend
    obtain ⟨ns2, p2, e3, e4⟩ := sf_name n ok.2.2 hl b (ns1 ++ p1 ++ ['/']) []
    refine ⟨ns2, p2, ?_, ?_⟩
    · rw [e3, e1]; simp [Name.show]
    · rw [← e4, ← sf_slash hl, ← e2]; simp [Name.show]
  | .tmpl w a, ok, l, hl, b, ns, pend => by
    obtain ⟨ns1, p1, e1, e2⟩ := sfJ_word ok.1 l ('<' :: (a.show ['/'] ['/'] ++ '>' :: b)) ns pend
    obtain ⟨ns2, p2, e3, e4⟩ := sf_args a ok.2.2 (l := l + 1) (by omega) ('>' :: b) (ns1 ++ p1 ++ ['<']) []
    refine ⟨ns2 ++ p2 ++ ['>'], [], ?_, ?_⟩
    · rw [e3, e1]; simp [Name.show]
    · have := sf_gt (l + 1) ns2 p2 b
      rw [show l + 1 - 1 = l by omega] at this
      rw [← this, ← e4, ← sf_lt, ← e2]; simp [Name.show]
  | .tmplScope w a n, ok, l, hl, b, ns, pend => by
    obtain ⟨ns1, p1, e1, e2⟩ := sfJ_word ok.1 l ('<' :: (a.show ['/'] ['/'] ++ '>' :: '/' :: (n.show ['/'] ['/'] ++ b))) ns pend
    obtain ⟨ns2, p2, e3, e4⟩ := sf_args a ok.2.2.1 (l := l + 1) (by omega) ('>' :: '/' :: (n.show ['/'] ['/'] ++ b)) (ns1 ++ p1 ++ ['<']) []
    obtain ⟨ns3, p3, e5, e6⟩ := sf_name n ok.2.2.2 hl b (ns2 ++ p2 ++ ['>'] ++ [] ++ ['/']) []
    refine ⟨ns3, p3, ?_, ?_⟩
    · rw [e5]
      have : ns2 ++ p2 = ns1 ++ p1 ++ ['<'] ++ a.show ['/'] ['/'] := by rw [e3]; simp
      rw [this, e1]; simp [Name.show]
    · have := sf_gt (l + 1) ns2 p2 ('/' :: (n.show ['/'] ['/'] ++ b))
      rw [show l + 1 - 1 = l by omega] at this
      rw [← e6, ← sf_slash hl, ← this, ← e4, ← sf_lt, ← e2]; simp [Name.show]
theorem sf_args : ∀ (a : Args), a.Ok → ∀ {l : Int}, 1 ≤ l → ∀ b ns pend, sfJ l (a.show ['/'] ['/']) b ns pend
  | .one n, ok, l, hl, b, ns, pend => by
    by_cases hn : n.isNumber = true
    · have := sf_name n ok hl b ns pend
      simpa [Args.show, hn] using this
    · obtain ⟨ns1, p1, e1, e2⟩ := sf_name n ok hl b (ns ++ pend ++ ['/']) []
      refine ⟨ns1, p1, ?_, ?_⟩
      · rw [e1]; simp [Args.show, hn]
      · rw [← e2, ← sf_slash hl]; simp [Args.show, hn]
  | .more n a, ok, l, hl, b, ns, pend => by
    have h0 : ∀ ns1 p1, sf l ns1 p1 (',' :: (a.show ['/'] ['/'] ++ b)) = sf l ns1 (p1 ++ [',']) (a.show ['/'] ['/'] ++ b) := by
      intro ns1 p1
      simp [sf, show isMark ',' = false by decide]
    by_cases hn : n.isNumber = true
    · obtain ⟨ns1, p1, e1, e2⟩ := sf_name n ok.1 hl (',' :: (a.show ['/'] ['/'] ++ b)) ns pend
      obtain ⟨ns2, p2, e3, e4⟩ := sf_args a ok.2 hl b ns1 (p1 ++ [','])
      refine ⟨ns2, p2, ?_, ?_⟩
      · rw [e3, ← List.append_assoc, e1]; simp [Args.show, hn]
      · rw [← e4, ← h0, ← e2]; simp [Args.show, hn]
    · obtain ⟨ns1, p1, e1, e2⟩ := sf_name n ok.1 hl (',' :: (a.show ['/'] ['/'] ++ b)) (ns ++ pend ++ ['/']) []
      obtain ⟨ns2, p2, e3, e4⟩ := sf_args a ok.2 hl b ns1 (p1 ++ [','])
      refine ⟨ns2, p2, ?_, ?_⟩
      · rw [e3, ← List.append_assoc, e1]; simp [Args.show, hn]
      · rw [← e4, ← h0, ← e2, ← sf_slash hl]; simp [Args.show, hn]
end

theorem firstLoop_tmpl {w : Str} {a : Args} (hw : WordOk w) (ha : a.Ok) (ns b : Str) :
    sf 0 ns [] (w ++ '<' :: (a.show ['/'] ['/'] ++ '>' :: b)) = sf 0 (ns ++ w ++ '<' :: a.show ['/'] ['/'] ++ ['>']) [] b := by
  rw [sf_span (word_mark hw), sf_lt]
  obtain ⟨ns2, p2, e3, e4⟩ := sf_args a ha (l := 0 + 1) (by omega) ('>' :: b) (ns ++ ([] ++ w) ++ ['<']) []
  rw [e4, sf_gt, e3]
  simp

/-- `lastLoop` as a scanner -/
def sl : Int → Str → Str → Str × Str
  | _, base, [] => ([], base)
  | level, base, c :: t =>
    if c = '/' then if level = 0 then (c :: t, base) else sl level (base ++ [c]) t
    else if c = '<' then sl (level + 1) (base ++ [c]) t
    else if c = '>' then sl (level - 1) (base ++ [c]) t
    else sl level (base ++ [c]) t

theorem sl_span {m : Str} (h : ∀ c ∈ m, isMark c = false) (l : Int) (base b : Str) : sl l base (m ++ b) = sl l (base ++ m) b := by
  induction m generalizing base with
  | nil => simp
  | cons c m ih =>
    have := h c (by simp)
    simp only [isMark, Bool.or_eq_false_iff, beq_eq_false_iff_ne] at this
    simp only [List.cons_append, sl, this.1.1, this.1.2, this.2, if_false]
    rw [ih (fun x hx => h x (by simp [hx]))]
    simp

theorem lastLoop_eq : ∀ (f : Nat) (l : Int) (base t : Str), t.length < f → lastLoop f l base t = sl l base t := by
  intro f
  induction f with
  | zero => intro l base t h; omega
  | succ f ih =>
    intro l base t h
    have e := List.takeWhile_append_dropWhile (p := fun x => !isMark x) (l := t)
    have hm : ∀ y ∈ t.takeWhile (fun x => !isMark x), isMark y = false := by
      intro y hy
      simpa using takeWhile_no y hy
    have e2 : sl l base t = sl l base (t.takeWhile (fun x => !isMark x) ++ t.dropWhile (fun x => !isMark x)) := by rw [e]
    rw [e2, sl_span hm]
    simp only [lastLoop]
    split
    · rename_i hd
      rw [hd] at e ⊢
      rw [List.append_nil] at e
      rw [e]; rfl
    · rename_i c r hd
      have hl : r.length < f := by
        have := congrArg List.length e
        rw [List.length_append, hd, List.length_cons] at this
        omega
      have hc : isMark c = true := by simpa using dropWhile_cons_no hd
      simp only [isMark, Bool.or_eq_true, beq_iff_eq] at hc
      rw [hd]
      simp only [sl, ih _ _ _ hl]
      rcases hc with (rfl | rfl) | rfl <;> simp

theorem rev_mark {w : Str} (h : WordOk w) : ∀ c ∈ w.reverse, isMark c = false := fun c hc => word_mark h c (by simpa using hc)

theorem sl_slash {l : Int} (h : l < 0) (base b : Str) : sl l base ('/' :: b) = sl l (base ++ ['/']) b := by
  have : ¬ l = 0 := by omega
  simp [sl, this]

theorem sl_lt (l : Int) (base b : Str) : sl l base ('<' :: b) = sl (l + 1) (base ++ ['<']) b := by simp [sl]
theorem sl_gt (l : Int) (base b : Str) : sl l base ('>' :: b) = sl (l - 1) (base ++ ['>']) b := by simp [sl]

mutual
theorem sl_name : ∀ (n : Name), n.Ok → ∀ {l : Int}, l < 0 → ∀ b base,
    sl l base ((n.show ['/'] ['/']).reverse ++ b) = sl l (base ++ (n.show ['/'] ['/']).reverse) b
  | .word w, ok, l, hl, b, base => sl_span (rev_mark ok) l base b
  | .scope w n, ok, l, hl, b, base => by
    have := sl_name n ok.2.2 hl ('/' :: (w.reverse ++ b)) base
    simp only [Name.show, List.reverse_append, List.reverse_cons, List.reverse_nil, List.nil_append, List.append_assoc,
      List.cons_append] at this ⊢
    rw [this, sl_slash hl, sl_span (rev_mark ok.1)]
    simp
  | .tmpl w a, ok, l, hl, b, base => by
    have := sl_args a ok.2.2 (l := l - 1) (by omega) ('<' :: (w.reverse ++ b)) (base ++ ['>'])
    simp only [Name.show, List.reverse_append, List.reverse_cons, List.reverse_nil, List.nil_append, List.append_assoc,
      List.cons_append] at this ⊢
    rw [sl_gt, this, sl_lt, sl_span (rev_mark ok.1), show l - 1 + 1 = l by omega]
    simp
  | .tmplScope w a n, ok, l, hl, b, base => by
    have h1 := sl_name n ok.2.2.2 hl ('/' :: '>' :: ((a.show ['/'] ['/']).reverse ++ '<' :: (w.reverse ++ b))) base
    have := sl_args a ok.2.2.1 (l := l - 1) (by omega) ('<' :: (w.reverse ++ b))
      (base ++ (n.show ['/'] ['/']).reverse ++ ['/'] ++ ['>'])
    simp only [Name.show, List.reverse_append, List.reverse_cons, List.reverse_nil, List.nil_append, List.append_assoc,
      List.cons_append] at this h1 ⊢
    rw [h1, sl_slash hl, sl_gt]
    simp only [List.append_assoc, List.cons_append, List.nil_append] at this ⊢
    rw [this, sl_lt, sl_span (rev_mark ok.1), show l - 1 + 1 = l by omega]
    simp
theorem sl_args : ∀ (a : Args), a.Ok → ∀ {l : Int}, l < 0 → ∀ b base,
    sl l base ((a.show ['/'] ['/']).reverse ++ b) = sl l (base ++ (a.show ['/'] ['/']).reverse) b
  | .one n, ok, l, hl, b, base => by
    by_cases hn : n.isNumber = true
    · have := sl_name n ok hl b base
      simpa [Args.show, hn] using this
    · have := sl_name n ok hl ('/' :: b) base
      simp only [Args.show, hn, List.reverse_append, List.append_assoc] at this ⊢
      simp only [Bool.false_eq_true, if_false, List.reverse_cons, List.reverse_nil, List.nil_append, List.cons_append]
      rw [this, sl_slash hl]
      simp
  | .more n a, ok, l, hl, b, base => by
    have hc : ∀ base b, sl l base (',' :: b) = sl l (base ++ [',']) b := fun base b => by simp [sl]
    by_cases hn : n.isNumber = true
    · have h1 := sl_args a ok.2 hl (',' :: ((n.show ['/'] ['/']).reverse ++ b)) base
      simp only [Args.show, hn, List.reverse_append, List.append_assoc, List.reverse_cons, if_true, List.nil_append,
        List.cons_append] at h1 ⊢
      rw [h1, hc, sl_name n ok.1 hl]
      simp
    · have h1 := sl_args a ok.2 hl (',' :: ((n.show ['/'] ['/']).reverse ++ '/' :: b)) base
      simp only [Args.show, hn, List.reverse_append, List.append_assoc, List.reverse_cons, if_false, List.nil_append,
        List.cons_append, Bool.false_eq_true, List.reverse_nil] at h1 ⊢
      rw [h1, hc, sl_name n ok.1 hl, sl_slash hl]
      simp
end

/-! ### Theorems -/

/-- Every way to write a C++ name (or a typelib name), with relative or absolute arguments and with any spaces around `<`, `,` and `>`,
gives the typelib name of the same components. -/
theorem C60_to_typelib {n : Name} (ok : n.Ok) {s : Str} (h : Written n s) : cxxToTypelib s = .ok n.typelib := by
  obtain ⟨l, ts, hl, ht, e⟩ := written_tokens ok h
  unfold cxxToTypelib
  simp only [e]
  rw [conv_name n ok (by rcases lead_cases hl with rfl | ⟨rfl, _⟩ <;> decide) (by simp) ht (Nat.lt_succ_self _)]
  simp only [List.flatten_nil, List.nil_append]
  rw [fix_fix, fix_show ok hl]

/-- Every way to write a typelib name becomes the C++ name, without spaces. -/
theorem C60_to_cxx {n : Name} (ok : n.Ok) {p q l t : Str} (hp : Spaces p) (hq : Spaces q) (hl : Lead [[], ['/']] n l)
    (h : Writes ['/'] [[], ['/']] n t) : typelibToCxx (p ++ l ++ t ++ q) = n.cxx := by
  obtain ⟨ts, ht, e⟩ := tokenizer_name accOk_slash leads_ok ok hp hq hl h
  obtain ⟨a, b, h1, h2⟩ := back_name n ok (lead_colons hl).1 ht
  unfold typelibToCxx
  simp only [e, h2]
  have hc := (lead_colons hl).2
  have r1 := rep1_name n ok h1 []
  have r2 := rep2_name n ok h1 []
  simp only [List.append_nil, rep] at r1 r2
  rw [replaceAll_eq (pat := ['<', ':', ':']) (List.cons_ne_nil _ _), rep3_lead (by decide) hc, r1,
    replaceAll_eq (pat := [',', ':', ':']) (List.cons_ne_nil _ _), rep3_lead (by decide) hc, r2,
    replaceAll_eq (by decide), rep_absent (x := '(') (by decide)]
  · obtain ⟨x, r, g1, g2, _⟩ := show_head n ok
    obtain ⟨u, hu⟩ := g1 "::".toList []
    have hx : x ≠ ':' := fun e => g2.no.2.2.2.2.1 (by rw [e]; simp)
    rcases hc with hc | hc <;> rw [hc]
    · have : ¬ (([] : Str) ++ n.cxx).take 2 = [':', ':'] := by
        unfold Name.cxx
        rw [hu]
        intro e
        have := congrArg List.head? e
        simp [hx] at this
      rw [if_neg this]
      rfl
    · rw [if_pos (by simp)]
      simp
  · have := cxx_paren n ok
    rcases hc with hc | hc <;> rw [hc] <;> simpa [Name.cxx] using this

/-- A C++ name without spaces survives the conversion to typelib and back, and a typelib name the conversion to C++ and back. -/
theorem C60_round_trip {n : Name} (ok : n.Ok) :
    cxxToTypelib n.cxx = .ok n.typelib ∧ typelibToCxx n.typelib = n.cxx ∧ cxxToTypelib n.typelib = .ok n.typelib := by
  refine ⟨C60_to_typelib ok (written_cxx n), ?_, C60_to_typelib ok (written_typelib n)⟩
  have := C60_to_cxx ok spaces_nil spaces_nil (l := if n.isNumber then [] else ['/']) (by unfold Lead; split <;> simp)
    (writes_show (sep := ['/']) (abs := ['/']) (leads := [[], ['/']]) (by simp) n)
  simpa [Name.typelib] using this

/-- Different names have different typelib names. -/
theorem C60_injective {n m : Name} (hn : n.Ok) (hm : m.Ok) (h : n.typelib = m.typelib) : n.cxx = m.cxx := by
  rw [← (C60_round_trip hn).2.1, ← (C60_round_trip hm).2.1, h]

/-- `parse_template` of a template, however it is nested and spaced: the path, and the arguments without the optional spaces. -/
theorem C60_parse {n : Name} (ok : n.Ok) {sep abs : Str} (hs : sep = "::".toList ∨ sep = "/".toList) (ha : abs = [] ∨ abs = sep)
    {p q l t : Str} (hp : Spaces p) (hq : Spaces q) (hl : Lead [abs] n l) (h : Writes sep [abs] n t) {base : Str} {a : Args}
    (ht : n.template sep = some (base, a)) :
    parseTemplate (p ++ l ++ t ++ q) = (some (l ++ base), a.shows sep abs) := by
  have hsep : AccOk sep := by
    rcases hs with rfl | rfl
    · exact accOk_colons
    · exact accOk_slash
  obtain ⟨ts, h1, h2⟩ := tokenizer_name hsep (leads := [abs]) (by
    intro x hx
    rw [List.mem_singleton.mp hx]
    rcases ha with rfl | rfl
    · exact accOk_nil
    · exact hsep) ok hp hq hl h
  obtain ⟨us, g1, r, g2, g3⟩ := (parse_tokens n ok h1).1 base a ht
  unfold parseTemplate
  rw [h2, g2]
  simp only [g3, List.map_map]
  refine Prod.ext rfl ?_
  rw [← split_shows a g1]
  refine List.map_congr_left fun u _ => ?_
  exact join_some u

/-- In particular a typelib name gives typelib names. -/
theorem C60_parse_typelib {n : Name} (ok : n.Ok) {base : Str} {a : Args} (ht : n.template ['/'] = some (base, a)) :
    parseTemplate n.typelib = (some ('/' :: base), a.toList.map Name.typelib) := by
  have hn : n.isNumber = false := by
    cases n <;> simp [Name.template] at ht <;> rfl
  have := C60_parse ok (sep := ['/']) (abs := ['/']) (.inr rfl) (.inr rfl) spaces_nil spaces_nil (l := ['/'])
    (by simp [Lead, hn]) (writes_show (abs := ['/']) (by simp) n) ht
  rw [show n.typelib = [] ++ ['/'] ++ n.show ['/'] ['/'] ++ [] by simp [Name.typelib, hn], this]
  rfl

/-- A name without templates has no arguments. -/
theorem C60_parse_plain {n : Name} (ok : n.Ok) (hs : n.Simple) (ht : n.template ['/'] = none) :
    parseTemplate n.typelib = (some n.typelib, []) := by
  obtain ⟨ts, h1, h2⟩ := tokenizer_name accOk_slash leads_ok ok spaces_nil spaces_nil (l := if n.isNumber then [] else ['/'])
    (by unfold Lead; split <;> simp) (writes_show (abs := ['/']) (by simp) n)
  have h3 := (parse_tokens n ok h1).2 ht hs
  have e : ∀ (m : Name), m.template ['/'] = none → m.Simple → m.show ['/'] [] = m.show ['/'] ['/'] := by
    intro m
    match m with
    | .word w => intros; rfl
    | .tmpl w a => intro h; simp [Name.template] at h
    | .tmplScope w a k => intro _ h; exact h.elim
    | .scope w k =>
      intro h1 h2
      simp only [Name.template, Option.map_eq_none_iff] at h1
      have : ∀ (m : Name), m.template ['/'] = none → m.Simple → m.show ['/'] [] = m.show ['/'] ['/'] := by
        intro m
        induction m using Name.rec (motive_2 := fun _ => True) with
        | word w => intros; rfl
        | scope w n ih =>
          intro h1 h2
          simp only [Name.template, Option.map_eq_none_iff] at h1
          simp only [Name.show, ih h1 h2]
        | tmpl w a => intro h; simp [Name.template] at h
        | tmplScope w a n => intro _ h; exact h.elim
        | one => trivial
        | more => trivial
      simp only [Name.show, this k h1 h2]
  unfold parseTemplate
  rw [show n.typelib = [] ++ (if n.isNumber then [] else ['/']) ++ n.show ['/'] ['/'] ++ [] by simp [Name.typelib], h2, h3, e n ht hs]
  simp [collect]

/-- the components of a name, in typelib's notation -/
def Name.components : Name → List Str
  | .word w => [w]
  | .scope w n => w :: n.components
  | .tmpl w a => [w ++ '<' :: a.show ['/'] ['/'] ++ ['>']]
  | .tmplScope w a n => (w ++ '<' :: a.show ['/'] ['/'] ++ ['>']) :: n.components

theorem components_ne (n : Name) : n.components ≠ [] := by cases n <;> simp [Name.components]

theorem intercalate_cons (s a : Str) {l : List Str} (h : l ≠ []) : List.intercalate s (a :: l) = a ++ s ++ List.intercalate s l := by
  cases l with
  | nil => exact absurd rfl h
  | cons b l => simp [List.intercalate, List.intersperse]

theorem show_components : ∀ (n : Name), n.show ['/'] ['/'] = List.intercalate ['/'] n.components
  | .word w => by simp [Name.show, Name.components, List.intercalate]
  | .scope w n => by
    rw [Name.components, intercalate_cons _ _ (components_ne n), ← show_components n]
    rfl
  | .tmpl w a => by simp [Name.show, Name.components, List.intercalate]
  | .tmplScope w a n => by
    rw [Name.components, intercalate_cons _ _ (components_ne n), ← show_components n]
    simp [Name.show]

/-- `split_first_namespace` takes the first component off, even if it is a template with slashes in its arguments. -/
theorem C60_first {n : Name} (ok : n.Ok) (hn : n.isNumber = false) {c : Str} {rest : List Str} (h : n.components = c :: rest) :
    splitFirst n.typelib = .ok (if rest = [] then (['/'], c) else ('/' :: c ++ ['/'], List.intercalate ['/'] rest)) := by
  have e : n.typelib = '/' :: n.show ['/'] ['/'] := by simp [Name.typelib, hn]
  rw [e]
  unfold splitFirst
  simp only
  rw [firstLoop_eq _ _ _ _ (Nat.lt_succ_self _)]
  have hslash : ∀ (ns pend b : Str), sf 0 ns pend ('/' :: b) = (ns ++ pend ++ ['/'], b) := by
    intro ns pend b
    simp [sf, show isMark '/' = true by decide]
  have hsh : ∀ (m : Name), m.Ok → m.show ['/'] ['/'] ≠ [] := by
    intro m hm
    obtain ⟨x, r, g1, _⟩ := show_head m hm
    obtain ⟨t, ht⟩ := g1 ['/'] ['/']
    rw [ht]; simp
  cases n with
  | word w =>
    injection h with h1 h2
    subst h1; subst h2
    have : sf 0 ['/'] [] (w ++ []) = (['/'], w) := by rw [sf_span (word_mark ok)]; rfl
    rw [List.append_nil] at this
    simp only [Name.show, this]
    cases w with
    | nil => exact absurd rfl ok.1
    | cons x w => simp
  | scope w n =>
    injection h with h1 h2
    subst h1; subst h2
    have : sf 0 ['/'] [] (w ++ '/' :: n.show ['/'] ['/']) = (['/'] ++ ([] ++ w) ++ ['/'], n.show ['/'] ['/']) := by
      rw [sf_span (word_mark ok.1), hslash]
    rw [show Name.show ['/'] ['/'] (.scope w n) = w ++ '/' :: n.show ['/'] ['/'] by simp [Name.show], this, if_neg (components_ne n),
      ← show_components]
    have := hsh n ok.2.2
    cases hx : n.show ['/'] ['/'] with
    | nil => exact absurd hx this
    | cons x r => simp
  | tmpl w a =>
    injection h with h1 h2
    subst h1; subst h2
    have := firstLoop_tmpl ok.1 ok.2.2 ['/'] []
    rw [show Name.show ['/'] ['/'] (.tmpl w a) = w ++ '<' :: (a.show ['/'] ['/'] ++ '>' :: []) by simp [Name.show], this]
    simp [sf]
  | tmplScope w a n =>
    injection h with h1 h2
    subst h1; subst h2
    have := firstLoop_tmpl ok.1 ok.2.2.1 ['/'] ('/' :: n.show ['/'] ['/'])
    rw [show Name.show ['/'] ['/'] (.tmplScope w a n) = w ++ '<' :: (a.show ['/'] ['/'] ++ '>' :: '/' :: n.show ['/'] ['/']) by simp [Name.show],
      this, hslash, if_neg (components_ne n), ← show_components]
    have := hsh n ok.2.2.2
    cases hx : n.show ['/'] ['/'] with
    | nil => exact absurd hx this
    | cons x r => simp

theorem sl_top : ∀ (n : Name), n.Ok → ∀ {ini : List Str} {c : Str}, n.components = ini ++ [c] → ∀ X,
    sl 0 [] ((n.show ['/'] ['/']).reverse ++ '/' :: X) = (('/' :: ini.flatMap (· ++ ['/'])).reverse ++ X, c.reverse) := by
  have hslash : ∀ (base b : Str), sl 0 base ('/' :: b) = ('/' :: b, base) := by intro base b; simp [sl]
  intro n
  induction n using Name.rec (motive_2 := fun _ => True) with
  | word w =>
    intro ok ini c h X
    have hi : ini = [] ∧ w = c := by
      cases ini with
      | nil => simpa [Name.components] using h
      | cons x ini => simp [Name.components] at h
    obtain ⟨rfl, rfl⟩ := hi
    rw [Name.show, sl_span (rev_mark ok), hslash]
    simp
  | scope w n ih =>
    intro ok ini c h X
    obtain ⟨ini', rfl, h'⟩ : ∃ ini', ini = w :: ini' ∧ n.components = ini' ++ [c] := by
      cases ini with
      | nil => simp [Name.components, components_ne] at h
      | cons x ini => simp only [Name.components, List.cons_append, List.cons.injEq] at h; exact ⟨ini, by rw [h.1], h.2⟩
    have := ih ok.2.2 h' (w.reverse ++ '/' :: X)
    simp only [Name.show, List.reverse_append, List.reverse_cons, List.reverse_nil, List.nil_append, List.append_assoc,
      List.cons_append] at this ⊢
    rw [this]
    simp
  | tmpl w a =>
    intro ok ini c h X
    have hi : ini = [] ∧ w ++ '<' :: a.show ['/'] ['/'] ++ ['>'] = c := by
      cases ini with
      | nil => simpa [Name.components] using h
      | cons x ini => simp [Name.components] at h
    obtain ⟨rfl, rfl⟩ := hi
    have := sl_args a ok.2.2 (l := 0 - 1) (by omega) ('<' :: (w.reverse ++ '/' :: X)) ([] ++ ['>'])
    simp only [Name.show, List.reverse_append, List.reverse_cons, List.reverse_nil, List.nil_append, List.append_assoc,
      List.cons_append] at this ⊢
    rw [sl_gt, List.nil_append, this, sl_lt, sl_span (rev_mark ok.1), show (0 : Int) - 1 + 1 = 0 by omega, hslash]
    simp
  | tmplScope w a n _ ih =>
    intro ok ini c h X
    obtain ⟨ini', rfl, h'⟩ : ∃ ini', ini = (w ++ '<' :: a.show ['/'] ['/'] ++ ['>']) :: ini' ∧ n.components = ini' ++ [c] := by
      cases ini with
      | nil => simp [Name.components, components_ne] at h
      | cons x ini => simp only [Name.components, List.cons_append, List.cons.injEq] at h; exact ⟨ini, by rw [← h.1], h.2⟩
    have := ih ok.2.2.2 h' ((w ++ '<' :: a.show ['/'] ['/'] ++ ['>']).reverse ++ '/' :: X)
    rw [show (Name.show ['/'] ['/'] (.tmplScope w a n)).reverse ++ '/' :: X =
      (n.show ['/'] ['/']).reverse ++ '/' :: ((w ++ '<' :: a.show ['/'] ['/'] ++ ['>']).reverse ++ '/' :: X) by simp [Name.show], this]
    simp
  | one => trivial
  | more => trivial

/-- `split_last_namespace` takes the last component off. -/
theorem C60_last {n : Name} (ok : n.Ok) (hn : n.isNumber = false) {c : Str} {ini : List Str} (h : n.components = ini ++ [c]) :
    splitLast n.typelib = ('/' :: ini.flatMap (· ++ ['/']), c) := by
  have e : n.typelib = '/' :: n.show ['/'] ['/'] := by simp [Name.typelib, hn]
  rw [e]
  unfold splitLast
  simp only
  rw [lastLoop_eq _ _ _ _ (by simp)]
  have := sl_top n ok h []
  rw [List.reverse_cons, this]
  simp

end Verif.RubyNames
