import Verif.ClangMetaProps

/-! C84: locations noted by the gccxml importer and read back; what does not hold; concrete cases. -/

namespace Verif.ClangMeta
open Verif Verif.Registry Verif.StdMap Verif.Tlb Verif.Graph

/-! ### Specification -/

/-- a line with nothing but white space and at most one opening brace -/
def Empty (l : Str) : Prop := ∃ a b, (l = a ++ b ∨ l = a ++ '{' :: b) ∧ (∀ c ∈ a, isSp c = true) ∧ (∀ c ∈ b, isSp c = true)

/-- line `i` (counted from 1) of a file -/
def lineAt (content : List Str) (i : Nat) (l : Str) : Prop := 1 ≤ i ∧ content[i - 1]? = some l

/-- the definition that line `n` belongs to starts at line `i`: the last line up to `n` that is not empty -/
def StartsAt (content : List Str) (n i : Nat) : Prop :=
  i ≤ n ∧ (∃ l, lineAt content i l ∧ ¬ Empty l) ∧ ∀ j, i < j → j ≤ n → ∃ l, lineAt content j l ∧ Empty l

/-! ### Lines -/

theorem dropWhile_part (p : Char → Bool) : ∀ l : Str, ∃ a, (∀ c ∈ a, p c = true) ∧ l = a ++ l.dropWhile p ∧
    (l.dropWhile p = [] ∨ ∃ c r, l.dropWhile p = c :: r ∧ p c = false)
  | [] => ⟨[], by simp, rfl, .inl rfl⟩
  | x :: l => by
    by_cases hx : p x = true
    · obtain ⟨a, h1, h2, h3⟩ := dropWhile_part p l
      refine ⟨x :: a, fun c hc => ?_, ?_, ?_⟩
      · rcases List.mem_cons.mp hc with rfl | hc
        · exact hx
        · exact h1 c hc
      · rw [List.dropWhile_cons_of_pos hx, List.cons_append, ← h2]
      · rw [List.dropWhile_cons_of_pos hx]; exact h3
    · exact ⟨[], by simp, by rw [List.dropWhile_cons_of_neg hx]; rfl, .inr ⟨x, l, by rw [List.dropWhile_cons_of_neg hx], by simpa using hx⟩⟩

theorem dropWhile_pre (p : Char → Bool) : ∀ (a r : Str), (∀ c ∈ a, p c = true) → (a ++ r).dropWhile p = r.dropWhile p
  | [], r, _ => rfl
  | x :: a, r, h => by
    rw [List.cons_append, List.dropWhile_cons_of_pos (h x (by simp)), dropWhile_pre p a r (fun c hc => h c (by simp [hc]))]

theorem dropWhile_nil (p : Char → Bool) (a : Str) (h : ∀ c ∈ a, p c = true) : a.dropWhile p = [] := by
  have := dropWhile_pre p a [] h
  rwa [List.append_nil] at this

theorem brace_iff (l : Str) : braceLine l = true ↔ Empty l := by
  obtain ⟨a, h1, h2, h3⟩ := dropWhile_part isSp l
  constructor
  · intro h
    unfold braceLine at h
    split at h
    · rename_i r hr
      exact ⟨a, r, .inr (by rw [h2, hr]), h1, by simpa using h⟩
    · rename_i hr
      exact ⟨a, [], .inl (by rw [h2, hr]), h1, by simp⟩
    · cases h
  · rintro ⟨x, y, h, hx, hy⟩
    unfold braceLine
    rcases h with h | h
    · rw [h, dropWhile_pre _ _ _ hx, dropWhile_nil _ _ hy]
    · rw [h, dropWhile_pre _ _ _ hx, List.dropWhile_cons_of_neg (by decide)]
      simpa using hy

/-- **C84, the line of a definition**: the gccxml importer, given the line of the opening brace, notes the line the definition starts at. -/
theorem C84_line_partial {content : List Str} {n i : Nat} (h : StartsAt content n i) : gccLine n (some content) = i := by
  show goBack content n = i
  obtain ⟨h1, ⟨l, ⟨h2, h3⟩, h4⟩, h5⟩ := h
  induction n with
  | zero => omega
  | succ n ih =>
    by_cases hn : i = n + 1
    · subst hn
      have hb : braceAt content[n]? = false := by
        have h3 : content[n]? = some l := by simpa using h3
        rw [h3, ← Bool.not_eq_true]
        exact fun hx => h4 ((brace_iff l).mp hx)
      simp only [goBack, hb, Bool.false_eq_true, if_false]
    · obtain ⟨u, ⟨_, h6⟩, h7⟩ := h5 (n + 1) (by omega) (by omega)
      have h6 : content[n]? = some u := by simpa using h6
      have hb : braceAt content[n]? = true := by rw [h6]; exact (brace_iff u).mpr h7
      simp only [goBack, hb, if_true]
      exact ih (by omega) (fun j hj1 hj2 => h5 j hj1 (by omega))

/-- there is such a line for every line of the file, unless all lines up to it are empty -/
theorem C84_line_found {content : List Str} {n : Nat} (hn : n ≤ content.length) (h : ∃ j l, j ≤ n ∧ lineAt content j l ∧ ¬ Empty l) :
    ∃ i, StartsAt content n i := by
  induction n with
  | zero =>
    obtain ⟨j, l, h1, h2, _⟩ := h
    have := h2.1
    omega
  | succ n ih =>
    have hl : lineAt content (n + 1) (content[n]'(by omega)) := ⟨by omega, by simp⟩
    by_cases he : Empty (content[n]'(by omega))
    · obtain ⟨j, l, h1, h2, h3⟩ := h
      have hj : j ≠ n + 1 := by
        intro e
        subst e
        have e1 := h2.2
        rw [hl.2] at e1
        injection e1 with e1
        rw [← e1] at h3
        exact h3 he
      obtain ⟨i, g1, g2, g3⟩ := ih (by omega) ⟨j, l, by omega, h2, h3⟩
      refine ⟨i, by omega, g2, fun k hk1 hk2 => ?_⟩
      by_cases hk : k = n + 1
      · subst hk; exact ⟨_, hl, he⟩
      · exact g3 k hk1 (by omega)
    · exact ⟨n + 1, Nat.le_refl _, ⟨_, hl, he⟩, fun j h1 h2 => by omega⟩

/-- **C84, what the gccxml importer records**: file and line of the definition, and nothing else. -/
theorem C84_gccxml_recorded {m : Meta.MetaData} {s : Meta.Spec} (hm : Meta.Hist m s) (file : Option Str) (line : Option Nat)
    (content : Option (List Str)) (j v : Str) : v ∈ Meta.get (gccSource file line content m) j ↔ v ∈ Meta.get m j ∨
      (j = "source_file_line".toList ∧ ∃ f, file = some f ∧
        ((line = none ∧ v = f) ∨ ∃ l, line = some l ∧ v = f ++ ':' :: intStr (gccLine l content))) := by
  have hm := Meta.hist_ok hm
  cases file with
  | none => simp [gccSource]
  | some f =>
    cases line with
    | none =>
      have := (adds_add hm "source_file_line".toList f).2 j v
      show v ∈ Meta.get (Meta.add m _ f) j ↔ _
      rw [this]
      constructor
      · rintro (h | ⟨h1, h2⟩)
        · exact .inl h
        · exact .inr ⟨h1, f, rfl, .inl ⟨rfl, h2⟩⟩
      · rintro (h | ⟨h1, f', h2, ⟨_, h3⟩ | ⟨l, h3, _⟩⟩)
        · exact .inl h
        · cases h2; exact .inr ⟨h1, h3⟩
        · cases h3
    | some l =>
      have := (adds_add hm "source_file_line".toList (f ++ ':' :: intStr (gccLine l content))).2 j v
      show v ∈ Meta.get (Meta.add m _ (f ++ ':' :: intStr (gccLine l content))) j ↔ _
      rw [this]
      constructor
      · rintro (h | ⟨h1, h2⟩)
        · exact .inl h
        · exact .inr ⟨h1, f, rfl, .inr ⟨l, rfl, h2⟩⟩
      · rintro (h | ⟨h1, f', h2, ⟨h3, _⟩ | ⟨l', h3, h4⟩⟩)
        · exact .inl h
        · cases h3
        · cases h2; cases h3; exact .inr ⟨h1, h4⟩

/-! ### Reading the location back -/

theorem natStr_all (n : Nat) : (natStr n).all (·.isDigit) = true := List.all_eq_true.mpr (natStr_digits n)

theorem integer_natStr (n : Nat) : integer (natStr n) = .ok n := by
  have h1 := natStr_ne n
  have h2 := natStr_all n
  have h3 := natStr_val n
  generalize natStr n = s at h1 h2 h3
  cases s with
  | nil => exact absurd rfl h1
  | cons c r =>
    have hc : c.isDigit = true := by
      rw [List.all_cons, Bool.and_eq_true] at h2
      exact h2.1
    have hne : c ≠ '-' := fun e => by subst e; cases hc
    unfold integer
    split
    · rename_i ds e
      cases e
      exact absurd rfl hne
    · rw [if_pos ⟨h1, h2⟩, h3]

theorem integer_intStr (z : Int) : integer (intStr z) = .ok z := by
  rw [intStr_eq]
  split
  · rename_i hz
    simp only [integer]
    rw [if_pos ⟨natStr_ne _, natStr_all _⟩, natStr_val]
    congr 1
    omega
  · rename_i hz
    rw [integer_natStr]
    congr 1
    omega

theorem intStr_no_colon (z : Int) : ∀ c ∈ intStr z, c ≠ ':' := by
  intro c hc
  rw [intStr_eq] at hc
  have hd : ∀ n, c ∈ natStr n → c ≠ ':' := fun n h e => by
    subst e
    have := natStr_digits n _ h
    cases this
  split at hc
  · rcases List.mem_cons.mp hc with rfl | hc
    · decide
    · exact hd _ hc
  · exact hd _ hc

theorem intStr_ne (z : Int) : intStr z ≠ [] := by
  rw [intStr_eq]
  split
  · simp
  · exact natStr_ne _

theorem afterColon_app : ∀ (f r : Str), ':' ∉ f → afterColon (f ++ ':' :: r) = some r
  | [], r, _ => by simp [afterColon]
  | c :: f, r, h => by
    rw [List.cons_append]
    simp only [afterColon]
    rw [if_neg (fun e => h (by simp [e])), afterColon_app f r (fun hm => h (by simp [hm]))]

/-- **C84, locations are read back**: from the location noted for a file without `:` in its path, the loader finds the file and the line. -/
theorem C84_location_partial {f : Str} (hf : ':' ∉ f) (z : Int) : locate (f ++ ':' :: intStr z) = .ok (f, z) := by
  have hn : ∀ x ∈ f, (decide (x ≠ ':')) = true := by
    intro x hx
    have : x ≠ ':' := fun e => hf (by rw [← e]; exact hx)
    simpa using this
  have hz : ∀ x ∈ intStr z, (decide (x ≠ ':')) = true := by
    intro x hx
    simpa using intStr_no_colon z x hx
  have hall : (intStr z).all (· = ':') = false := by
    cases h : intStr z with
    | nil => exact absurd h (intStr_ne z)
    | cons c r =>
      have := intStr_no_colon z c (by rw [h]; simp)
      simp [this]
  unfold locate
  rw [afterColon_app f _ hf]
  simp only [hall, Bool.false_eq_true, if_false, takeWhile_all _ _ hz, takeWhile_stop _ _ _ _ hn (by simp : decide (':' ≠ ':') = false),
    integer_intStr, Res.bind]

/-- the clang importer writes the same -/
theorem C84_location_clang_partial {f : Str} (hf : ':' ∉ f) (n : Nat) : locate (f ++ ':' :: natStr n) = .ok (f, n) := by
  have := C84_location_partial hf (n : Int)
  rwa [intStr_eq, if_neg (by omega), Int.natAbs_natCast] at this

/-- **C84, files that cannot be read**: the line that was reported is noted and read back. -/
theorem C84_unreadable_partial {m : Meta.MetaData} {s : Meta.Spec} (hm : Meta.Hist m s) {f : Str} (hf : ':' ∉ f) (l : Nat) :
    ∃ v, v ∈ Meta.get (gccSource (some f) (some l) none m) "source_file_line".toList ∧ locate v = .ok (f, (l : Int)) :=
  ⟨f ++ ':' :: intStr l, (C84_gccxml_recorded hm (some f) (some l) none _ _).mpr (.inr ⟨rfl, f, rfl, .inr ⟨l, rfl, rfl⟩⟩), C84_location_partial hf l⟩

/-! ### What does not hold -/

/-- **C84, counterexample**: two paragraphs are run together: the last word of the first and the first of the second become one. -/
theorem C84_paragraphs_counterexample : Doc [.paragraph [.text ['a', '.']], .paragraph [.text ['B']]] ['a', '.', 'B'] :=
  (doc_iff _ _).mpr rfl

/-- **C84, counterexample**: a block that is none of the three kinds (`\code`, `\param`) makes the whole documentation disappear. -/
theorem C84_block_counterexample (links : Links) (k : What) (w : Where) (n : Named) (bases : Option (List Str)) (t : Str) (bs : List Block)
    {m' : Meta.MetaData} (h : describe links k ⟨some w, bases, some (.verbatimLine t :: .other :: bs), n⟩ [] = .ok m') :
    Meta.get m' "doc".toList = [] := by
  apply List.eq_nil_iff_forall_not_mem.mpr
  intro v hv
  rw [C84_recorded Meta.Hist.init h] at hv
  rcases hv with hv | hv
  · cases hv
  · rw [added_iff] at hv
    rcases hv with ⟨_, _, e, _⟩ | ⟨bs', h1, h2, _⟩ | ⟨e, _⟩ | ⟨_, _, _, e, _⟩
    · exact absurd e (by decide)
    · cases h1; cases h2
    · exact absurd e (by decide)
    · exact absurd e (by decide)

/-- **C84, counterexample**: the argument of an inline command is not part of the documentation. -/
theorem C84_inline_counterexample : Doc [.paragraph [.text ['s', 'e', 'e', ' '], .other, .text ['.']]] ['s', 'e', 'e', ' ', '\n', '.'] :=
  (doc_iff _ _).mpr rfl

/-- **C84, counterexample**: a comment of white space is an empty documentation. -/
theorem C84_blank_counterexample : Doc [.paragraph [.text [' ']]] [] := (doc_iff _ _).mpr rfl

/-- **C84, counterexample**: a relative link is noted as it is, a path that means another file (or none) elsewhere; of a link to a link only
the first is resolved. -/
theorem C84_link_counterexample : ∃ m', describe (fun p => if p = ['/', 'd', '/', 'a'] then some ['b'] else if p = ['/', 'd', '/', 'b'] then some ['c'] else none)
    .enum ⟨some ⟨['/', 'd'], ['a'], 7⟩, none, none, .other⟩ [] = .ok m' ∧ Meta.get m' "source_file_line".toList = [['b', ':', '7']] :=
  ⟨_, rfl, rfl⟩

/-- **C84, counterexample**: a path with a `:` is not read back. -/
theorem C84_colon_counterexample : locate (['a', ':', 'b'] ++ ':' :: natStr 3) = .exn .rbArg ∧ locate (['a', ':', '2'] ++ ':' :: natStr 3) = .ok (['a'], 2) :=
  ⟨rfl, rfl⟩

/-- **C84, counterexample**: the location of a type whose node has no line makes the loading fail with a `TypeError`. -/
theorem C84_no_line_counterexample {f : Str} (hf : ':' ∉ f) : Meta.get (gccSource (some f) none none []) "source_file_line".toList = [f] ∧
    locate f = .exn .rbType := by
  refine ⟨rfl, ?_⟩
  have : afterColon f = none := by
    induction f with
    | nil => rfl
    | cons c f ih =>
      simp only [afterColon]
      rw [if_neg (fun e => hf (by simp [e])), ih (fun hm => hf (by simp [hm]))]
  simp only [locate, this]

/-- **C84, counterexample**: if all lines up to the reported one are empty, the line noted is 0, or -1 if the last line of the file is empty
too. -/
theorem C84_empty_counterexample : gccLine 2 (some [['\n'], ['{', '\n'], ['}', '\n']]) = 0 ∧ gccLine 2 (some [['\n'], ['{', '\n'], ['\n']]) = -1 :=
  ⟨rfl, rfl⟩

/-! ### the hypotheses are met -/

def exDecl : Decl := ⟨some ⟨['/', 'd'], ['x', '/', 'a', '.', 'h'], 12⟩, some [['/', 'B'], ['/', 'A']],
  some [.paragraph [.text ['o', 'n', 'e'], .text ['t', 'w', 'o']]], .tag ['s', ' ', 'S']⟩

example : ∃ m', describe (fun _ => none) .compound exDecl [] = .ok m' ∧
    Meta.get m' "source_file_line".toList = [['/', 'd', '/', 'a', '.', 'h', ':', '1', '2']] ∧
    Meta.get m' "base_classes".toList = [['/', 'A'], ['/', 'B']] ∧ Meta.get m' "doc".toList = [['o', 'n', 'e', '\n', 't', 'w', 'o']] ∧
    Meta.get m' "cxxname".toList = [['s', ' ', 'S']] := ⟨_, rfl, rfl, rfl, rfl, rfl⟩
example := @C84_recorded (fun _ => none) .compound exDecl [] _ _ Meta.Hist.init rfl
example := C84_described (fun _ => none) .compound exDecl [] (w := ⟨['/', 'd'], ['x', '/', 'a', '.', 'h'], 12⟩) rfl
example := @C84_lines_partial _ _ (Para.paragraph (ts := [['a'], ['b']]) ⟨['a'], by simp, 'a', by simp, rfl⟩)
example := C84_text_partial (.paragraph (kids := [.text ['a'], .other, .text ['b']])
  (fun h => by obtain ⟨_, h, _⟩ := h .other (by simp); cases h) (.verbatim (t := ['c']) .nil))
example := C84_doc_unique C84_paragraphs_counterexample C84_paragraphs_counterexample
example : StartsAt [['s', '\n'], ['\n'], [' ', '{', '\n']] 3 1 :=
  ⟨by decide, ⟨['s', '\n'], ⟨by decide, rfl⟩, fun h => by have := (brace_iff _).mpr h; cases this⟩, fun j h1 h2 => by
    have : j = 2 ∨ j = 3 := by omega
    rcases this with rfl | rfl
    · exact ⟨['\n'], ⟨by decide, rfl⟩, (brace_iff _).mp rfl⟩
    · exact ⟨[' ', '{', '\n'], ⟨by decide, rfl⟩, (brace_iff _).mp rfl⟩⟩
example := @C84_line_found [['s', '\n'], ['\n']] 2 (by decide)
  ⟨1, ['s', '\n'], by decide, ⟨by decide, rfl⟩, fun h => by have := (brace_iff _).mpr h; cases this⟩
example := C84_gccxml_recorded Meta.Hist.init (some ['f']) (some 3) none
example := C84_location_partial (f := ['/', 'f']) (by decide) (-1)
example := C84_location_clang_partial (f := ['/', 'f']) (by decide) 12
example := C84_no_line_counterexample (f := ['/', 'f']) (by decide)
example : ∃ m', describe (fun _ => none) .enum ⟨some ⟨['/', 'd'], ['a'], 7⟩, none, some [.verbatimLine ['t'], .other], .other⟩ [] = .ok m' ∧
    Meta.get m' "doc".toList = [] := ⟨_, rfl, C84_block_counterexample (fun _ => none) .enum ⟨['/', 'd'], ['a'], 7⟩ .other none ['t'] [] rfl⟩

end Verif.ClangMeta
