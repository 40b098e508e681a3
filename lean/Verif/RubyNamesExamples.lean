import Verif.RubyNamesThms

/-!
C60: the two C++ importers give the same names; examples and counterexamples.
-/

namespace Verif.RubyNames
open Verif Verif.CxxNames

/-! ### The names as clang prints them -/

mutual
/-- does the name end with `>` -/
def Name.ends : Name → Bool
  | .word _ => false
  | .scope _ n => n.ends
  | .tmpl _ _ => true
  | .tmplScope _ _ n => n.ends
def Args.ends : Args → Bool
  | .one n => n.ends
  | .more _ a => a.ends
end

mutual
/-- the lexical elements of the name -/
def Name.toks : Name → List Tok
  | .word w => [.word w]
  | .scope w n => .word w :: .scope :: n.toks
  | .tmpl w a => .word w :: .opn :: (a.toks ++ [.cls a.ends])
  | .tmplScope w a n => .word w :: .opn :: (a.toks ++ .cls a.ends :: .scope :: n.toks)
def Args.toks : Args → List Tok
  | .one n => n.toks
  | .more n a => n.toks ++ .sep :: a.toks
end

mutual
/-- no dimensions, no plus signs, no numbers but as arguments -/
def Name.Plain : Name → Prop
  | .word w => '[' ∉ w ∧ w.head? ≠ some '+'
  | .scope w n => '[' ∉ w ∧ n.isNumber = false ∧ n.Plain
  | .tmpl w a => '[' ∉ w ∧ a.Plain
  | .tmplScope w a n => '[' ∉ w ∧ a.Plain ∧ n.isNumber = false ∧ n.Plain
def Args.Plain : Args → Prop
  | .one n => n.Plain
  | .more n a => n.Plain ∧ a.Plain
end

/-- the text clang prints: `, ` between arguments, `> >` for two closing brackets -/
def Name.clang (n : Name) : Str := n.toks.flatMap Tok.cxx

theorem isSpace_space : isSpace ' ' = true := by decide

theorem spaces_one : Spaces [' '] := by intro c hc; rw [List.mem_singleton.mp hc]; decide

theorem spaces_if (b : Bool) : Spaces (if b then [' '] else []) := by
  cases b
  · exact spaces_nil
  · exact spaces_one

mutual
theorem writes_toks : ∀ (n : Name), Writes "::".toList [[], "::".toList] n (n.toks.flatMap Tok.cxx)
  | .word w => by
    have := Writes.word (sep := "::".toList) (leads := [[], "::".toList]) w
    simpa [Name.toks, Tok.cxx] using this
  | .scope w n => by
    have := Writes.scope (w := w) (writes_toks n)
    simpa [Name.toks, Tok.cxx] using this
  | .tmpl w a => by
    have h := writesA_toks a (p := []) (q := if a.ends then [' '] else []) spaces_nil (spaces_if a.ends)
    have := Writes.tmpl (w := w) spaces_nil h
    have e : (Name.tmpl w a).toks.flatMap Tok.cxx =
        w ++ [] ++ ['<'] ++ ([] ++ a.toks.flatMap Tok.cxx ++ if a.ends then [' '] else []) ++ ['>'] := by
      cases hb : a.ends <;> simp [Name.toks, Tok.cxx, hb]
    rw [e]; exact this
  | .tmplScope w a n => by
    have h := writesA_toks a (p := []) (q := if a.ends then [' '] else []) spaces_nil (spaces_if a.ends)
    have := Writes.tmplScope (w := w) spaces_nil h spaces_nil (writes_toks n)
    have e : (Name.tmplScope w a n).toks.flatMap Tok.cxx =
        w ++ [] ++ ['<'] ++ ([] ++ a.toks.flatMap Tok.cxx ++ if a.ends then [' '] else []) ++ ['>'] ++ [] ++ "::".toList ++
          n.toks.flatMap Tok.cxx := by
      cases hb : a.ends <;> simp [Name.toks, Tok.cxx, hb]
    rw [e]; exact this
theorem writesA_toks : ∀ (a : Args) {p q : Str}, Spaces p → Spaces q →
    WritesArgs "::".toList [[], "::".toList] a (p ++ a.toks.flatMap Tok.cxx ++ q)
  | .one n, p, q, hp, hq => by
    have := WritesArgs.one (l := []) hp (by unfold Lead; split <;> simp) (writes_toks n) hq
    simpa [Args.toks] using this
  | .more n a, p, q, hp, hq => by
    have h := writesA_toks a (p := [' ']) (q := q) spaces_one hq
    have := WritesArgs.more (l := []) hp (by unfold Lead; split <;> simp) (writes_toks n) spaces_nil h
    simpa [Args.toks, Tok.cxx] using this
end

theorem written_clang (n : Name) : Written n n.clang :=
  ⟨_, .inl rfl, [], [], spaces_nil, spaces_nil, [], n.clang, by unfold Lead; split <;> simp, writes_toks n, by simp⟩

theorem numeric_eq {w : Str} (h : w.head? ≠ some '+') : numeric w = number w := by
  unfold numeric number
  cases hw : w.head? with
  | none => rfl
  | some c =>
    rw [hw] at h
    simp only [Option.any_some]
    rw [Bool.eq_iff_iff]
    simp only [List.contains_iff_mem]
    have hc : c ≠ '+' := fun e => h (by rw [e])
    have e1 : (("0123456789-".toList : List Char)) = ['0','1','2','3','4','5','6','7','8','9','-'] := rfl
    have e2 : (("0123456789+-".toList : List Char)) = ['0','1','2','3','4','5','6','7','8','9','+','-'] := rfl
    rw [e1, e2]
    simp [hc]

theorem number_plus {w : Str} (h : number w = false) : w.head? ≠ some '+' := by
  intro e
  unfold number at h
  rw [e] at h
  exact absurd h (by decide)

theorem wordOk_of {w : Str} (h : WordOk w) (hb : '[' ∉ w) : CxxNames.WordOk w := by
  obtain ⟨n1, n2, n3, n4, n5, _⟩ := h.no
  refine ⟨fun c hc => ⟨fun e => n5 (e ▸ hc), fun e => n1 (e ▸ hc), fun e => n3 (e ▸ hc), fun e => n2 (e ▸ hc), fun e => n4 (e ▸ hc),
    fun e => hb (e ▸ hc)⟩, h.1, ?_, ?_⟩
  · intro e
    have := h.2.2.1 _ e
    rw [isSpace_space] at this; cases this
  · intro e
    have := h.2.2.2 _ e
    rw [isSpace_space] at this; cases this

/-- the first word -/
def Name.first : Name → Str
  | .word w => w
  | .scope w _ => w
  | .tmpl w _ => w
  | .tmplScope w _ _ => w

/-- the last element -/
def Name.lastTok : Name → Tok
  | .word w => .word w
  | .scope _ n => n.lastTok
  | .tmpl _ a => .cls a.ends
  | .tmplScope _ _ n => n.lastTok

def Args.firstName : Args → Name
  | .one n => n
  | .more n _ => n

def Args.lastTok : Args → Tok
  | .one n => n.lastTok
  | .more _ a => a.lastTok

theorem last_cases : ∀ n : Name, (∃ w, n.lastTok = .word w ∧ n.ends = false) ∨ (∃ b, n.lastTok = .cls b ∧ n.ends = true)
  | .word w => .inl ⟨w, rfl, rfl⟩
  | .scope _ n => last_cases n
  | .tmpl _ a => .inr ⟨a.ends, rfl, rfl⟩
  | .tmplScope _ _ n => last_cases n

theorem lastA_cases : ∀ a : Args, (∃ w, a.lastTok = .word w ∧ a.ends = false) ∨ (∃ b, a.lastTok = .cls b ∧ a.ends = true)
  | .one n => last_cases n
  | .more _ a => lastA_cases a

theorem follows_cls (a : Args) : follows a.lastTok (.cls a.ends) = true := by
  rcases lastA_cases a with ⟨w, h1, h2⟩ | ⟨b, h1, h2⟩ <;> rw [h1, h2] <;> rfl

theorem follows_sep (n : Name) : follows n.lastTok .sep = true := by
  rcases last_cases n with ⟨w, h1, h2⟩ | ⟨b, h1, h2⟩ <;> rw [h1] <;> rfl

theorem first_number : ∀ n : Name, n.Ok → n.Plain → numeric n.first = n.isNumber
  | .word w, _, hp => numeric_eq hp.2
  | .scope w n, ok, _ => by rw [Name.first, numeric_eq (number_plus ok.2.1), ok.2.1]; rfl
  | .tmpl w a, ok, _ => by rw [Name.first, numeric_eq (number_plus ok.2.1), ok.2.1]; rfl
  | .tmplScope w a n, ok, _ => by rw [Name.first, numeric_eq (number_plus ok.2.1), ok.2.1]; rfl

mutual
theorem chain_name : ∀ (n : Name), n.Ok → n.Plain → ∀ {p : Tok} {rest : List Tok}, follows p (.word n.first) = true →
    Chain n.lastTok rest → Chain p (n.toks ++ rest)
  | .word w, ok, pl, p, rest, hf, hc => ⟨hf, wordOk_of ok pl.1, hc⟩
  | .scope w n, ok, pl, p, rest, hf, hc => by
    refine ⟨hf, wordOk_of ok.1 pl.1, rfl, trivial, chain_name n ok.2.2 pl.2.2 ?_ hc⟩
    simp only [follows]
    rw [first_number n ok.2.2 pl.2.2, pl.2.1]; rfl
  | .tmpl w a, ok, pl, p, rest, hf, hc => by
    have := chain_args a ok.2.2 pl.2 (p := .opn) (rest := .cls a.ends :: rest) rfl ⟨follows_cls a, trivial, hc⟩
    refine ⟨hf, wordOk_of ok.1 pl.1, rfl, trivial, ?_⟩
    simpa using this
  | .tmplScope w a n, ok, pl, p, rest, hf, hc => by
    have h1 := chain_name n ok.2.2.2 pl.2.2.2 (p := .scope) (rest := rest) (by
      simp only [follows]
      rw [first_number n ok.2.2.2 pl.2.2.2, pl.2.2.1]; rfl) hc
    have := chain_args a ok.2.2.1 pl.2.1 (p := .opn) (rest := .cls a.ends :: .scope :: (n.toks ++ rest)) rfl
      ⟨follows_cls a, trivial, rfl, trivial, h1⟩
    refine ⟨hf, wordOk_of ok.1 pl.1, rfl, trivial, ?_⟩
    simpa using this
theorem chain_args : ∀ (a : Args), a.Ok → a.Plain → ∀ {p : Tok} {rest : List Tok}, follows p (.word a.firstName.first) = true →
    Chain a.lastTok rest → Chain p (a.toks ++ rest)
  | .one n, ok, pl, p, rest, hf, hc => chain_name n ok pl hf hc
  | .more n a, ok, pl, p, rest, hf, hc => by
    have h1 := chain_args a ok.2 pl.2 (p := .sep) (rest := rest) rfl hc
    have := chain_name n ok.1 pl.1 (rest := .sep :: (a.toks ++ rest)) hf ⟨follows_sep n, trivial, h1⟩
    simpa [Args.toks] using this
end

theorem typelib_abs {n : Name} (h : n.isNumber = false) : n.typelib = '/' :: n.show ['/'] ['/'] := by
  unfold Name.typelib
  rw [h]
  rfl

mutual
theorem typelib_toks : ∀ (n : Name), n.Ok → n.Plain → n.toks.flatMap Tok.typelib = n.typelib
  | .word w, ok, pl => by
    have hn : (Name.word w).isNumber = number w := rfl
    have e : (Name.word w).toks = [.word w] := rfl
    unfold Name.typelib
    rw [hn, e]
    cases hw : number w <;> simp [Tok.typelib, numeric_eq pl.2, hw, Name.show]
  | .scope w n, ok, pl => by
    have h := typelib_toks n ok.2.2 pl.2.2
    have hw : numeric w = false := by rw [numeric_eq (number_plus ok.2.1)]; exact ok.2.1
    rw [typelib_abs (n := .scope w n) rfl]
    rw [typelib_abs pl.2.1] at h
    simp [Name.toks, h, Tok.typelib, hw, Name.show]
  | .tmpl w a, ok, pl => by
    have h := typelib_toksA a ok.2.2 pl.2
    have hw : numeric w = false := by rw [numeric_eq (number_plus ok.2.1)]; exact ok.2.1
    rw [typelib_abs (n := .tmpl w a) rfl]
    simp [Name.toks, h, Tok.typelib, hw, Name.show, Tok.compact, Tok.cxx]
  | .tmplScope w a n, ok, pl => by
    have h := typelib_toksA a ok.2.2.1 pl.2.1
    have h2 := typelib_toks n ok.2.2.2 pl.2.2.2
    have hw : numeric w = false := by rw [numeric_eq (number_plus ok.2.1)]; exact ok.2.1
    rw [typelib_abs (n := .tmplScope w a n) rfl]
    rw [typelib_abs pl.2.2.1] at h2
    simp [Name.toks, h, h2, Tok.typelib, hw, Name.show, Tok.compact, Tok.cxx]
theorem typelib_toksA : ∀ (a : Args), a.Ok → a.Plain → a.toks.flatMap Tok.typelib = a.show ['/'] ['/']
  | .one n, ok, pl => by
    rw [Args.toks, typelib_toks n ok pl]
    rfl
  | .more n a, ok, pl => by
    have h := typelib_toksA a ok.2 pl.2
    have h2 := typelib_toks n ok.1 pl.1
    simp [Args.toks, h, h2, Tok.typelib, Tok.compact, Args.show, Name.typelib]
end

theorem toks_first : ∀ n : Name, ∃ ts, n.toks = .word n.first :: ts
  | .word w => ⟨_, rfl⟩
  | .scope w n => ⟨_, rfl⟩
  | .tmpl w a => ⟨_, rfl⟩
  | .tmplScope w a n => ⟨_, rfl⟩

/-- The Ruby loader gives a type the same name as the importer based on clang (before its table of renamed types), for every name as
clang prints it; names of one letter excepted. -/
theorem C60_importers_agree {n : Name} (ok : n.Ok) (pl : n.Plain) (hn : n.isNumber = false) (hl : 1 < n.clang.length) :
    cxxToTypelib n.clang = plainName n.clang ∧ cxxToTypelib n.clang = .ok n.typelib := by
  have h1 := C60_to_typelib ok (written_clang n)
  refine ⟨?_, h1⟩
  obtain ⟨ts, ht⟩ := toks_first n
  have hc := chain_name n ok pl (p := .opn) (rest := []) rfl (by
    rcases last_cases n with ⟨w, h1, _⟩ | ⟨b, h1, _⟩ <;> rw [h1] <;> rfl)
  rw [List.append_nil, ht] at hc
  have hnum : numeric n.first = false := by rw [first_number n ok pl, hn]
  have hname : IsName n.first ts := ⟨hc.2.1, hnum, hc.2.2⟩
  have e1 : n.clang = CxxNames.cxx n.first ts := by
    unfold Name.clang CxxNames.cxx
    rw [ht]
    rfl
  have e2 : n.typelib = CxxNames.typelib n.first ts := by
    rw [← typelib_toks n ok pl, ht]
    simp [CxxNames.typelib, Tok.typelib, hnum]
  rw [h1, e2, e1]
  refine (C45_to_typelib hname ?_).symm
  cases ts with
  | nil =>
    right
    rw [e1] at hl
    simpa [CxxNames.cxx] using hl
  | cons t ts => exact .inl (by simp)

/-! ### A concrete case -/

/-- `std::map<unsigned int, foo::Vec<double, 3>::Item<bar>, std::less<int> >` -/
def exName60 : Name :=
  .scope "std".toList (.tmpl "map".toList (.more (.word "unsigned int".toList)
    (.more (.scope "foo".toList (.tmplScope "Vec".toList (.more (.word "double".toList) (.one (.word "3".toList)))
      (.tmpl "Item".toList (.one (.word "bar".toList)))))
    (.one (.scope "std".toList (.tmpl "less".toList (.one (.word "int".toList))))))))

theorem wordOk_of_dec {w : Str} (h1 : w ≠ []) (h2 : w.all (fun c => !"<,>/:(\n".toList.contains c) = true)
    (h3 : (w.head?.any isSpace) = false) (h4 : (w.getLast?.any isSpace) = false) : WordOk w := by
  refine ⟨h1, fun c hc hm => ?_, fun c hc => ?_, fun c hc => ?_⟩
  · have := List.all_eq_true.mp h2 c hc
    rw [Bool.not_eq_true', ← Bool.not_eq_true, List.contains_iff_mem] at this
    exact this hm
  · rw [hc] at h3; simpa using h3
  · rw [hc] at h4; simpa using h4

theorem exOk60 : exName60.Ok := by
  refine ⟨?_, by decide, ?_, by decide, ?_, ⟨?_, by decide, ?_, by decide, ⟨?_, ?_⟩, ?_, by decide, ?_⟩, ?_, by decide, ?_, by decide, ?_⟩ <;>
    exact wordOk_of_dec (by decide) (by decide) (by decide) (by decide)

theorem exPlain60 : exName60.Plain := by
  refine ⟨by decide, rfl, by decide, ⟨by decide, by decide⟩, ⟨by decide, rfl, by decide, ⟨⟨by decide, by decide⟩, by decide, by decide⟩, rfl,
    by decide, by decide, by decide⟩, by decide, rfl, by decide, by decide, by decide⟩

theorem exText60 : exName60.clang = "std::map<unsigned int, foo::Vec<double, 3>::Item<bar>, std::less<int> >".toList ∧
    exName60.typelib = "/std/map</unsigned int,/foo/Vec</double,3>/Item</bar>,/std/less</int>>".toList := by
  decide +kernel

example : cxxToTypelib "std::map<unsigned int, foo::Vec<double, 3>::Item<bar>, std::less<int> >".toList =
    .ok "/std/map</unsigned int,/foo/Vec</double,3>/Item</bar>,/std/less</int>>".toList := by
  have := C60_importers_agree exOk60 exPlain60 rfl (by decide +kernel)
  rw [exText60.1, exText60.2] at this
  exact this.2

/-- spaces and absolute arguments -/
example : cxxToTypelib "std::pair < ::a::B<c> , int>".toList = .ok "/std/pair</a/B</c>,/int>".toList := by decide +kernel

/-- the parts of a template -/
example : parseTemplate exName60.typelib = (some "/std/map".toList,
    ["/unsigned int".toList, "/foo/Vec</double,3>/Item</bar>".toList, "/std/less</int>".toList]) := by
  rw [C60_parse_typelib exOk60 (base := "std/map".toList) rfl]
  decide +kernel

example : splitFirst exName60.typelib = .ok ("/std/".toList, "map</unsigned int,/foo/Vec</double,3>/Item</bar>,/std/less</int>>".toList) := by
  rw [C60_first exOk60 rfl rfl]
  decide +kernel

example : splitLast exName60.typelib = ("/std/".toList, "map</unsigned int,/foo/Vec</double,3>/Item</bar>,/std/less</int>>".toList) := by
  rw [C60_last exOk60 rfl (ini := ["std".toList]) rfl]
  decide +kernel

/-! ### Counterexamples -/

/-- What comes after the arguments is lost: a class inside `std::vector<int>` is taken for the vector itself
(gccxml.rb:576-602 then makes its name an alias of the vector type). -/
theorem C60_nested_counterexample : parseTemplate "/std/vector</int>/Item".toList = (some "/std/vector".toList, ["/int".toList]) := by
  decide +kernel

/-- An empty list of arguments, inside another one, swallows the closing bracket. -/
theorem C60_empty_counterexample : parseTemplate "a<b<>,c>".toList = (some "a".toList, ["b<>,c>".toList]) ∧
    parseTemplate "a<b< >>".toList = (some "a".toList, ["b<>>".toList]) := by
  decide +kernel

/-- Pointers, references and arrays of templates get a slash. -/
theorem C60_suffix_counterexample : cxxToTypelib "std::vector<int>*".toList = .ok "/std/vector</int>/*".toList ∧
    cxxToTypelib "a<b>[3]".toList = .ok "/a</b>/[3]".toList := by
  decide +kernel

/-- The two importers do not agree on names of one letter. -/
theorem C60_letter_counterexample : cxxToTypelib ['T'] = .ok "/T".toList ∧ plainName ['T'] = .ok "T".toList := by
  decide +kernel

end Verif.RubyNames
