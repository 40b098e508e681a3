import Verif.NameProps
import Verif.RubyNamesThms

/-!
C88: the parts of a type name in Ruby: `Typelib.basename`, `Typelib.namespace` (bindings/ruby/lib/typelib.rb:87-108), `Typelib.split_typename`
(bindings/ruby/ext/value.cc:176-202), and `basename`, `namespace`, `split_typename` and `full_name` of the classes of types
(bindings/ruby/lib/typelib/type.rb:433-464).
-/

namespace Verif.RubyFullName
open Verif Verif.Names Verif.RubyNames

/-! ### Model -/

/-- `StringValuePtr` given to a `std::string`: what ends at the first NUL -/
def cstr (s : Str) : Str := s.takeWhile (· ≠ '\x00')

/-- `gsub!('/', separator)`; separators with a backslash, which `gsub!` interprets, are not modelled -/
def gsub (sep : Str) (s : Str) : Str := s.flatMap fun c => if c = '/' then sep else [c]

/-- `if separator && separator != NAMESPACE_SEPARATOR` (typelib.rb:89-91, 104-106): `none` is nil -/
def convert (sep : Option Str) (s : Str) : Str :=
  match sep with
  | some sp => if sp ≠ ['/'] then gsub sp s else s
  | none => s

/-- `Typelib.basename` (typelib.rb:87-93) -/
def basename (name : Str) (sep : Option Str) : Str := convert sep (getTypename (cstr name))

/-- `ns[1..-1]`: nil for an empty string -/
def rest : Str → Option Str
  | [] => none
  | _ :: r => some r

/-- `Typelib.namespace` (typelib.rb:99-108); `none`: nil was returned or a method was called on it -/
def «namespace» (name : Str) (sep : Option Str) (removeLeading : Bool) : Option Str :=
  if removeLeading then (rest (getNamespace (cstr name))).map (convert sep) else some (convert sep (getNamespace (cstr name)))

/-- `Typelib.split_typename` (value.cc:195-202) -/
def splitName (name : Str) : List Str := splitTypename (cstr name)

/-- `Type.full_name` (type.rb:462-464) on a type of the given name -/
def fullName (name : Str) (sep : Option Str) (removeLeading : Bool) : Option Str :=
  («namespace» name sep removeLeading).map (· ++ basename name sep)

/-! ### Specification -/

/-- A name from its components: a slash before each. -/
def Absolute (l : List Str) : Str := l.flatMap fun c => '/' :: c

/-- `s` with `sep` in place of each slash. -/
inductive Replaced (sep : Str) : Str → Str → Prop
  | nil : Replaced sep [] []
  | slash {s t} : Replaced sep s t → Replaced sep ('/' :: s) (sep ++ t)
  | char {c s t} : c ≠ '/' → Replaced sep s t → Replaced sep (c :: s) (c :: t)

/-- The components of a type name: not empty, without slash but between `<` and `>`, no NUL. -/
def Components (l : List Str) : Prop := l ≠ [] ∧ ∀ c ∈ l, Comp c ∧ c ≠ [] ∧ '\x00' ∉ c

/-! ### Lemmas -/

theorem gsub_append (sep a b : Str) : gsub sep (a ++ b) = gsub sep a ++ gsub sep b := by unfold gsub; rw [List.flatMap_append]

theorem gsub_plain {sep s : Str} (h : '/' ∉ s) : gsub sep s = s := by
  induction s with
  | nil => rfl
  | cons c r ih =>
    simp only [List.mem_cons, not_or] at h
    show (if c = '/' then sep else [c]) ++ gsub sep r = _
    rw [if_neg (fun e => h.1 e.symm), ih h.2]
    rfl

theorem gsub_slash (sep s : Str) : gsub sep ('/' :: s) = sep ++ gsub sep s := rfl

theorem gsub_id (s : Str) : gsub ['/'] s = s := by
  induction s with
  | nil => rfl
  | cons c r ih =>
    show (if c = '/' then ['/'] else [c]) ++ gsub ['/'] r = _
    rw [ih]
    split
    · rename_i h; rw [h]; rfl
    · rfl

theorem replaced_iff {sep s t : Str} : Replaced sep s t ↔ gsub sep s = t := by
  constructor
  · intro h
    induction h with
    | nil => rfl
    | slash _ ih => rw [gsub_slash, ih]
    | @char c s t hc _ ih =>
      show (if c = '/' then sep else [c]) ++ gsub sep s = _
      rw [if_neg hc, ih]
      rfl
  · rintro rfl
    induction s with
    | nil => exact .nil
    | cons c r ih =>
      by_cases hc : c = '/'
      · subst hc; exact .slash ih
      · have : gsub sep (c :: r) = c :: gsub sep r := by
          show (if c = '/' then sep else [c]) ++ gsub sep r = _
          rw [if_neg hc]; rfl
        rw [this]
        exact .char hc ih

/-- the separator that is used -/
def sepOf : Option Str → Str
  | some s => s
  | none => ['/']

theorem convert_eq (sep : Option Str) (s : Str) : convert sep s = gsub (sepOf sep) s := by
  cases sep with
  | none => exact (gsub_id s).symm
  | some sp =>
    unfold convert sepOf
    simp only []
    split
    · rfl
    · rename_i h
      have : sp = ['/'] := Decidable.not_not.mp h
      rw [this, gsub_id]

theorem cstr_eq {s : Str} (h : '\x00' ∉ s) : cstr s = s := by
  unfold cstr
  induction s with
  | nil => rfl
  | cons c r ih =>
    simp only [List.mem_cons, not_or] at h
    rw [List.takeWhile_cons, if_pos (by simpa using fun e => h.1 e.symm), ih h.2]

theorem absolute_eq (l : List Str) : Absolute l = joinAbs l := rfl

theorem absolute_nul {l : List Str} (h : ∀ c ∈ l, '\x00' ∉ c) : '\x00' ∉ Absolute l := by
  unfold Absolute
  intro hm
  obtain ⟨c, hc, hm⟩ := List.mem_flatMap.mp hm
  rcases List.mem_cons.mp hm with hm | hm
  · exact absurd hm (by decide)
  · exact h c hc hm

/-! ### Theorems -/

/-- C88: the parts of a name. For every name made of components: `split_typename` gives the components; `basename` is the last one and
`namespace` the others, in each of which the separator replaces the slashes, with or without the first one. -/
theorem C88_parts {l : List Str} (h : Components l) (sep : Option Str) :
    splitName (Absolute l) = l ∧
    Replaced (sepOf sep) (l.getLast h.1) (basename (Absolute l) sep) ∧
    (∃ ns, «namespace» (Absolute l) sep false = some ns ∧ Replaced (sepOf sep) (Absolute l.dropLast ++ ['/']) ns) ∧
    (∃ ns, «namespace» (Absolute l) sep true = some ns ∧ Replaced (sepOf sep) ((Absolute l.dropLast ++ ['/']).drop 1) ns) := by
  obtain ⟨h1, h2, h3, _⟩ := C03_split_join l h.1 (fun x hx => ⟨(h.2 x hx).1, (h.2 x hx).2.1⟩)
  have hc : cstr (joinAbs l) = joinAbs l := cstr_eq (absolute_nul fun c hc => (h.2 c hc).2.2)
  unfold splitName basename «namespace»
  simp only [absolute_eq, hc, h1, h2, h3, convert_eq, if_true, Bool.false_eq_true, if_false]
  refine ⟨trivial, replaced_iff.mpr rfl, ⟨_, rfl, replaced_iff.mpr rfl⟩, ⟨gsub (sepOf sep) ((joinAbs l.dropLast ++ ['/']).drop 1), ?_, replaced_iff.mpr rfl⟩⟩
  cases l.dropLast <;> simp only [joinAbs, List.flatMap_nil, List.flatMap_cons, List.nil_append, List.cons_append, rest, Option.map_some, convert_eq, List.drop_succ_cons, List.drop_zero]

theorem namespace_head (name : Str) : ∃ r, getNamespace name = '/' :: r := by
  unfold getNamespace
  split
  · exact ⟨_, rfl⟩
  · cases (splitTypename name).dropLast with
    | nil => exact ⟨_, rfl⟩
    | cons a b => exact ⟨_, rfl⟩

/-- C88: `full_name` of every absolute name, well-formed or not, that does not end with a slash: the separator replaces all slashes; without the
first one if it is to be removed. -/
theorem C88_full_name {r : Str} (h0 : '\x00' ∉ r) (h : ('/' :: r).getLast? ≠ some '/') (sep : Option Str) :
    (∃ s, fullName ('/' :: r) sep false = some s ∧ Replaced (sepOf sep) ('/' :: r) s) ∧
    (∃ s, fullName ('/' :: r) sep true = some s ∧ Replaced (sepOf sep) r s) := by
  have hc : cstr ('/' :: r) = '/' :: r := cstr_eq (by
    intro hm
    rcases List.mem_cons.mp hm with hm | hm
    · exact absurd hm (by decide)
    · exact h0 hm)
  have hj : getNamespace ('/' :: r) ++ getTypename ('/' :: r) = '/' :: r := by
    rcases C03_join_any r with h1 | h1
    · exact h1
    · rw [← h1] at h
      simp at h
  obtain ⟨q, hq⟩ := namespace_head ('/' :: r)
  rw [hq] at hj
  have hr : q ++ getTypename ('/' :: r) = r := by simpa using hj
  unfold fullName «namespace» basename
  simp only [hc, hq, convert_eq, if_true, Bool.false_eq_true, if_false, rest, Option.map_some]
  refine ⟨⟨_, rfl, replaced_iff.mpr ?_⟩, ⟨_, rfl, replaced_iff.mpr ?_⟩⟩
  · rw [← gsub_append, hj]
  · rw [← gsub_append, hr]

/-- C88: the names that `full_name` gives to different names are different, if the first character of the separator does not occur in
the names. -/
theorem C88_distinct {a : Char} {sep : Str} {r r' : Str} (h0 : '\x00' ∉ r) (h0' : '\x00' ∉ r') (h : ('/' :: r).getLast? ≠ some '/')
    (h' : ('/' :: r').getLast? ≠ some '/') (hr : a ∉ r) (hr' : a ∉ r') {b : Bool}
    (he : fullName ('/' :: r) (some (a :: sep)) b = fullName ('/' :: r') (some (a :: sep)) b) : r = r' := by
  have inj : ∀ s t : Str, a ∉ s → a ∉ t → gsub (a :: sep) s = gsub (a :: sep) t → s = t := by
    intro s
    induction s with
    | nil =>
      intro t _ ht he
      cases t with
      | nil => rfl
      | cons d t =>
        have : gsub (a :: sep) (d :: t) = (if d = '/' then a :: sep else [d]) ++ gsub (a :: sep) t := rfl
        rw [this] at he
        split at he <;> simp [gsub] at he
    | cons c s ih =>
      intro t hs ht he
      have e1 : gsub (a :: sep) (c :: s) = (if c = '/' then a :: sep else [c]) ++ gsub (a :: sep) s := rfl
      simp only [List.mem_cons, not_or] at hs
      cases t with
      | nil =>
        rw [e1] at he
        split at he <;> simp [gsub] at he
      | cons d t =>
        have e2 : gsub (a :: sep) (d :: t) = (if d = '/' then a :: sep else [d]) ++ gsub (a :: sep) t := rfl
        simp only [List.mem_cons, not_or] at ht
        rw [e1, e2] at he
        by_cases h1 : c = '/' <;> by_cases h2 : d = '/'
        · rw [if_pos h1, if_pos h2] at he
          rw [h1, h2, ih t hs.2 ht.2 (List.append_cancel_left he)]
        · rw [if_pos h1, if_neg h2] at he
          simp only [List.cons_append, List.cons.injEq] at he
          exact absurd he.1 ht.1
        · rw [if_neg h1, if_pos h2] at he
          simp only [List.cons_append, List.cons.injEq] at he
          exact absurd he.1.symm hs.1
        · rw [if_neg h1, if_neg h2] at he
          simp only [List.cons_append, List.nil_append, List.cons.injEq] at he
          rw [he.1, ih t hs.2 ht.2 he.2]
  obtain ⟨⟨s1, e1, p1⟩, ⟨s2, e2, p2⟩⟩ := C88_full_name h0 h (some (a :: sep))
  obtain ⟨⟨s3, e3, p3⟩, ⟨s4, e4, p4⟩⟩ := C88_full_name h0' h' (some (a :: sep))
  cases b with
  | false =>
    rw [e1, e3] at he
    cases he
    have := (replaced_iff.mp p1).trans (replaced_iff.mp p3).symm
    rw [gsub_slash, gsub_slash] at this
    exact inj _ _ hr hr' (List.append_cancel_left this)
  | true =>
    rw [e2, e4] at he
    cases he
    exact inj _ _ hr hr' ((replaced_iff.mp p2).trans (replaced_iff.mp p4).symm)

theorem wordOk_slash {w : Str} (h : WordOk w) : '/' ∉ w := by
  intro hm
  have := h.2.1 _ hm
  exact absurd this (by decide)

mutual
theorem gsub_show (sep : Str) : (n : Name) → n.Ok → gsub sep (n.show ['/'] ['/']) = n.show sep sep
  | .word w, h => gsub_plain (wordOk_slash h)
  | .scope w n, h => by
    simp only [Name.show, gsub_append, gsub_plain (wordOk_slash h.1), gsub_show sep n h.2.2]
    simp [gsub]
  | .tmpl w a, h => by
    simp only [Name.show, gsub_append, gsub_plain (wordOk_slash h.1), List.append_assoc]
    have := gsub_showA sep a h.2.2
    have e : gsub sep ('<' :: a.show ['/'] ['/']) = '<' :: gsub sep (a.show ['/'] ['/']) := rfl
    rw [e, this]
    rfl
  | .tmplScope w a n, h => by
    simp only [Name.show, gsub_append, gsub_plain (wordOk_slash h.1), List.append_assoc, gsub_show sep n h.2.2.2]
    have := gsub_showA sep a h.2.2.1
    have e : gsub sep ('<' :: a.show ['/'] ['/']) = '<' :: gsub sep (a.show ['/'] ['/']) := rfl
    rw [e, this]
    simp [gsub]
theorem gsub_showA (sep : Str) : (a : Args) → a.Ok → gsub sep (a.show ['/'] ['/']) = a.show sep sep
  | .one n, h => by
    simp only [Args.show, gsub_append, gsub_show sep n h]
    split <;> simp [gsub]
  | .more n a, h => by
    simp only [Args.show, gsub_append, gsub_show sep n h.1]
    have e : gsub sep (',' :: a.show ['/'] ['/']) = ',' :: gsub sep (a.show ['/'] ['/']) := rfl
    rw [e, gsub_showA sep a h.2]
    split <;> simp [gsub]
end

/-- the name has no template -/
def NoTemplate : Name → Prop
  | .word _ => True
  | .scope _ n => NoTemplate n
  | _ => False

theorem show_noTemplate (sep abs abs' : Str) : (n : Name) → NoTemplate n → n.show sep abs = n.show sep abs'
  | .word _, _ => rfl
  | .scope w n, h => by simp only [Name.show, show_noTemplate sep abs abs' n h]

theorem show_last : (n : Name) → n.Ok → (n.show ['/'] ['/']).getLast? ≠ some '/' ∧ n.show ['/'] ['/'] ≠ []
  | .word w, h => by
    refine ⟨fun e => ?_, h.1⟩
    exact wordOk_slash h (List.mem_of_getLast? e)
  | .scope w n, h => by
    obtain ⟨h1, h2⟩ := show_last n h.2.2
    simp only [Name.show]
    refine ⟨?_, by simp⟩
    rw [getLast?_append_ne _ h2]
    exact h1
  | .tmpl w a, _ => by
    simp only [Name.show]
    refine ⟨?_, by simp⟩
    rw [List.getLast?_append]
    simp
  | .tmplScope w a n, h => by
    obtain ⟨h1, h2⟩ := show_last n h.2.2.2
    simp only [Name.show]
    refine ⟨?_, by simp⟩
    rw [getLast?_append_ne _ h2]
    exact h1

/-- C88: for the type of a C++ name, `full_name('::', true)` is this name with `::` in front of each template argument that is not a number. -/
theorem C88_template {n : Name} (ok : n.Ok) (hn : n.isNumber = false) (h0 : '\x00' ∉ n.typelib) :
    fullName n.typelib (some "::".toList) true = some (n.show "::".toList "::".toList) ∧
    fullName n.typelib (some "::".toList) false = some ("::".toList ++ n.show "::".toList "::".toList) := by
  have e : n.typelib = '/' :: n.show ['/'] ['/'] := by simp [Name.typelib, hn]
  rw [e] at h0 ⊢
  obtain ⟨h1, h2⟩ := show_last n ok
  obtain ⟨⟨s, e1, p1⟩, ⟨s', e2, p2⟩⟩ := C88_full_name (r := n.show ['/'] ['/']) (fun h => h0 (List.mem_cons_of_mem _ h))
    (by
      have := getLast?_append_ne ['/'] h2
      simp only [List.cons_append, List.nil_append] at this
      rw [this]; exact h1) (some "::".toList)
  rw [e1, e2]
  have p1' := replaced_iff.mp p1
  have p2' := replaced_iff.mp p2
  rw [gsub_slash] at p1'
  simp only [sepOf] at p1' p2'
  rw [gsub_show _ n ok] at p1' p2'
  exact ⟨by rw [← p2'], by rw [← p1']⟩

/-- C88 (partial): "`full_name('::')` will return the C++ name for the given type" (type.rb:459-461). Missing: templates
(`C88_template_counterexample`). -/
theorem C88_cxx_partial {n : Name} (ok : n.Ok) (hn : n.isNumber = false) (h0 : '\x00' ∉ n.typelib) (ht : NoTemplate n) :
    fullName n.typelib (some "::".toList) true = some n.cxx := by
  rw [(C88_template ok hn h0).1]
  unfold Name.cxx
  rw [show_noTemplate _ _ [] n ht]

/-- `std::vector<int>` -/
def vectorInt : Name := .scope "std".toList (.tmpl "vector".toList (.one (.word "int".toList)))

/-- C88 is false of templates: for `/std/vector</int>`, `full_name('::', true)` is `std::vector<::int>`, which is not C++ (`int` is not
declared in a namespace); the name is `std::vector<int>`. -/
theorem C88_template_counterexample : vectorInt.Ok ∧ vectorInt.typelib = "/std/vector</int>".toList ∧
    fullName vectorInt.typelib (some "::".toList) true = some "std::vector<::int>".toList ∧
    fullName vectorInt.typelib (some "::".toList) true ≠ some vectorInt.cxx := by
  refine ⟨?_, by decide +kernel, by decide +kernel, by decide +kernel⟩
  simp [vectorInt, Name.Ok, Args.Ok, WordOk, number, isSpace]

/-- C88: other separators do not keep names apart. -/
theorem C88_distinct_counterexample : fullName "/a/b_c".toList (some "_".toList) true = fullName "/a_b/c".toList (some "_".toList) true := by
  decide +kernel

/-- C88: `full_name` of a name that is not absolute is absolute; that of a name which ends with a slash is another name. -/
theorem C88_relative_counterexample : fullName "int".toList none false = some "/int".toList ∧ fullName "/a/".toList none false = some "/a".toList := by
  decide +kernel

/-! ### Cases -/

example : Components ["std".toList, "vector</base/Time>".toList] := by
  refine ⟨by simp, ?_⟩
  intro c hc
  simp only [List.mem_cons, List.mem_nil_iff, or_false] at hc
  rcases hc with rfl | rfl
  · exact ⟨comp_plain (by decide), by decide, by decide⟩
  · refine ⟨?_, by decide, by decide⟩
    have h1 : Inner "/base/Time".toList := inner_plain (by decide)
    exact .char (by decide) (by decide) (by decide) (.char (by decide) (by decide) (by decide) (.char (by decide) (by decide) (by decide)
      (.char (by decide) (by decide) (by decide) (.char (by decide) (by decide) (by decide) (.char (by decide) (by decide) (by decide)
      (.tmpl h1 .nil))))))

example : splitName "/std/vector</base/Time>".toList = ["std".toList, "vector</base/Time>".toList] ∧
    basename "/std/vector</base/Time>".toList (some "::".toList) = "vector<::base::Time>".toList ∧
    «namespace» "/std/vector</base/Time>".toList (some "::".toList) false = some "::std::".toList ∧
    «namespace» "/std/vector</base/Time>".toList (some "::".toList) true = some "std::".toList := by decide +kernel

example : (Name.scope "base".toList (.word "Time".toList)).Ok ∧ NoTemplate (.scope "base".toList (.word "Time".toList)) := by
  simp [Name.Ok, WordOk, number, isSpace, NoTemplate]

end Verif.RubyFullName
