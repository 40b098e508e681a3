import Verif.CxxNamesProps

/-!
C60: C++ type names in the Ruby bindings: `CXX.parse_template`, `collect_template_arguments`, `template_tokenizer`
(bindings/ruby/lib/typelib/cxx.rb:8-77), and the conversions of `GCCXMLLoader` (bindings/ruby/lib/typelib/gccxml.rb:199-336).

Strings are lists of characters. `normalize_type_name` gives `tokenized_cxx_to_typelib` a filter for the arguments: not modelled.
-/

namespace Verif.RubyNames
open Verif Verif.CxxNames

/-! ### Model -/

/-- what `String#strip` removes -/
def isSpace (c : Char) : Bool :=
  c == ' ' || c == '\t' || c == '\n' || c == '\x0b' || c == '\x0c' || c == '\r' || c == '\x00'

/-- `String#strip` -/
def strip (s : Str) : Str := ((s.dropWhile isSpace).reverse.dropWhile isSpace).reverse

/-- `[<,>]` -/
def isSep (c : Char) : Bool := c == '<' || c == ',' || c == '>'

/-- a text, unless it is empty -/
def textTok (m : Str) : List Str := if m = [] then [] else [m]

/-- the loop of `template_tokenizer` (cxx.rb:60-76); every turn reads a character -/
def tokenizerF : Nat → Str → List Str
  | 0, _ => []
  | _ + 1, [] => []
  | f + 1, c :: s =>
    textTok (strip ((c :: s).takeWhile (fun x => !isSep x))) ++
      match (c :: s).dropWhile (fun x => !isSep x) with
      | [] => []
      | d :: r => [d] :: tokenizerF f r

/-- `template_tokenizer` (cxx.rb:57-77) -/
def tokenizer (s : Str) : List Str := tokenizerF s.length s

/-- a token, or `nil` -/
abbrev Tk := Option Str

def lt : Tk := some ['<']
def gt : Tk := some ['>']
def comma : Tk := some [',']

/-- the loop of `collect_template_arguments` (cxx.rb:23-49), and what follows it (50-54): the arguments and the tokens that are left;
`shift` on an empty list gives `nil` -/
def collect : Int → List (List Tk) → List Tk → List Tk → List (List Tk) × List Tk
  | _, args, cur, [] => (if cur.isEmpty then args else args ++ [cur], [])
  | level, args, cur, tk :: ts =>
    if tk = lt then
      if level + 1 > 1 then
        match ts with
        | [] => collect (level + 1) args (cur ++ [lt, none]) []
        | t :: ts' => collect (level + 1) args (cur ++ [lt, t]) ts'
      else collect (level + 1) args [] ts
    else if tk = gt then
      if level - 1 = 0 then (args ++ [cur], ts)
      else collect (level - 1) args (cur ++ [gt]) ts
    else if tk = comma then
      if level = 1 then collect level (args ++ [cur]) [] ts
      else
        match ts with
        | [] => collect level args (cur ++ [comma, none]) []
        | t :: ts' => collect level args (cur ++ [comma, t]) ts'
    else collect level args (cur ++ [tk]) ts

/-- `Array#join("")`: `nil` is nothing -/
def join (l : List Tk) : Str := l.flatMap fun t => t.getD []

/-- `parse_template` (cxx.rb:8-17) -/
def parseTemplate (name : Str) : Tk × List Str :=
  match tokenizer name with
  | [] => (none, [])
  | t :: ts => (some t, (collect 0 [] [] (ts.map some)).1.map join)

/-- `=~ /^[-+\d]/`: at the beginning of some line -/
def numChar (c : Char) : Bool := ('0' ≤ c && c ≤ '9') || c == '-' || c == '+'

def lineHas (p : Char → Bool) : Bool → Str → Bool
  | _, [] => false
  | b, c :: s => (b && p c) || lineHas p (c == '\n') s

/-- `x[0, 1] != "/" && x !~ /^[-+\d]/` (gccxml.rb:267, 274) -/
def needsSlash (s : Str) : Bool := s.head? != some '/' && !lineHas numChar true s

/-- `args.join(",")` -/
def joinComma : List Str → Str
  | [] => []
  | [a] => a
  | a :: r => a ++ ',' :: joinComma r

def convAll (rec : List Tk → Res Str) : List (List Tk) → Res (List Str)
  | [] => .ok []
  | a :: as => do
    let x ← rec a
    let r ← convAll rec as
    .ok (x :: r)

/-- `tokenized_cxx_to_typelib` (gccxml.rb:253-278): `R` is `result`; a `nil` token raises `NoMethodError` (modelled as `exception`),
`result[-1] =` on an empty array raises `IndexError`; every step reads a token. -/
def conv : Nat → List Str → List Tk → Res Str
  | 0, _, _ => .fuel
  | _ + 1, R, [] => .ok (if needsSlash R.flatten then '/' :: R.flatten else R.flatten)
  | f + 1, R, tk :: ts =>
    if tk = lt then do
      let args ← convAll (conv f []) (collect 0 [] [] (tk :: ts)).1
      match R.getLast? with
      | none => .exn .rbIndex
      | some l => conv f (R.dropLast ++ [l ++ '<' :: joinComma args ++ ['>']]) (collect 0 [] [] (tk :: ts)).2
    else
      match tk with
      | none => .exn .exception
      | some t => conv f (R ++ [if needsSlash t then '/' :: t else t]) ts

/-- `GCCXMLLoader.cxx_to_typelib` (gccxml.rb:245-251) -/
def cxxToTypelib (name : Str) : Res Str :=
  let name := replaceAll [':', ':'] ['/'] name
  let name := replaceAll ['>', ' ', '>'] ['>', '>'] name
  conv ((tokenizer name).length + 1) [] ((tokenizer name).map some)

/-- `gsub!` of the tokens (gccxml.rb:201-207) -/
def cxxTok (tk : Str) : Str :=
  if tk.any isSep || lineHas (fun c => '0' ≤ c && c ≤ '9') true tk then tk else replaceAll ['/'] [':', ':'] tk

/-- `typelib_to_cxx` (gccxml.rb:199-217). The pattern of the third `gsub` is a string, not a regular expression: it stands for
itself, and `\1` for nothing. -/
def typelibToCxx (name : Str) : Str :=
  let name := ((tokenizer name).map cxxTok).flatten
  let name := replaceAll ['<', ':', ':'] ['<'] name
  let name := replaceAll [',', ':', ':'] [','] name
  let name := replaceAll ",([^\\s])".toList [',', ' '] name
  if name.take 2 = [':', ':'] then name.drop 2 else name

/-- `[\/<>]` -/
def isMark (c : Char) : Bool := c == '/' || c == '<' || c == '>'

/-- the loop of `split_first_namespace` (gccxml.rb:284-299) -/
def firstLoop : Nat → Int → Str → Str → Str × Str
  | 0, _, ns, b => (ns, b)
  | f + 1, level, ns, b =>
    match b.dropWhile (fun x => !isMark x) with
    | [] => (ns, b)
    | c :: r =>
      let ns := ns ++ b.takeWhile (fun x => !isMark x) ++ [c]
      if c = '/' then if level = 0 then (ns, r) else firstLoop f level ns r
      else if c = '<' then firstLoop f (level + 1) ns r
      else firstLoop f (level - 1) ns r

/-- `split_first_namespace` (gccxml.rb:280-306); the empty string raises `NoMethodError` -/
def splitFirst (name : Str) : Res (Str × Str) :=
  match name with
  | [] => .exn .exception
  | _ :: b =>
    match firstLoop (b.length + 1) 0 ['/'] b with
    | (ns, []) => .ok (['/'], ns.drop 1)
    | (ns, b) => .ok (ns, b)

/-- the loop of `split_last_namespace` (gccxml.rb:312-333), on the reversed name -/
def lastLoop : Nat → Int → Str → Str → Str × Str
  | 0, _, base, t => (t, base)
  | f + 1, level, base, t =>
    match t.dropWhile (fun x => !isMark x) with
    | [] => ([], base ++ t)
    | c :: r =>
      let base := base ++ t.takeWhile (fun x => !isMark x)
      if c = '/' then if level = 0 then (c :: r, base) else lastLoop f level (base ++ [c]) r
      else if c = '<' then lastLoop f (level + 1) (base ++ [c]) r
      else lastLoop f (level - 1) (base ++ [c]) r

/-- `split_last_namespace` (gccxml.rb:308-336) -/
def splitLast (name : Str) : Str × Str :=
  let r := lastLoop (name.length + 1) 0 [] name.reverse
  (r.1.reverse, r.2.reverse)

/-! ### Specification: names as trees -/

mutual
/-- A type name: `w`, `w::n`, `w<a>` or `w<a>::n`. -/
inductive Name where
  | word (w : Str)
  | scope (w : Str) (n : Name)
  | tmpl (w : Str) (a : Args)
  | tmplScope (w : Str) (a : Args) (n : Name)
/-- the arguments of a template: at least one -/
inductive Args where
  | one (n : Name)
  | more (n : Name) (a : Args)
end

/-- numbers start with a digit or a sign -/
def number (w : Str) : Bool := w.head?.any (fun c => "0123456789+-".toList.contains c)

/-- a word contains none of the delimiters; it may contain spaces inside (`unsigned int`), but no line ends -/
def WordOk (w : Str) : Prop :=
  w ≠ [] ∧ (∀ c ∈ w, c ∉ "<,>/:(\n".toList) ∧ (∀ c, w.head? = some c → isSpace c = false) ∧
  (∀ c, w.getLast? = some c → isSpace c = false)

mutual
/-- all the words are good, and numbers stand alone -/
def Name.Ok : Name → Prop
  | .word w => WordOk w
  | .scope w n => WordOk w ∧ number w = false ∧ n.Ok
  | .tmpl w a => WordOk w ∧ number w = false ∧ a.Ok
  | .tmplScope w a n => WordOk w ∧ number w = false ∧ a.Ok ∧ n.Ok
def Args.Ok : Args → Prop
  | .one n => n.Ok
  | .more n a => n.Ok ∧ a.Ok
end

/-- is the name a number -/
def Name.isNumber : Name → Bool
  | .word w => number w
  | _ => false

/-- white space -/
def Spaces (s : Str) : Prop := ∀ c ∈ s, isSpace c = true

/-- what may be written before a name: one of `leads`; nothing before a number -/
def Lead (leads : List Str) (n : Name) (l : Str) : Prop := if n.isNumber then l = [] else l ∈ leads

mutual
/-- `s` is a way to write the name, with the separator `sep` of namespaces: there may be any white space next to `<`, `,` and `>` -/
inductive Writes (sep : Str) (leads : List Str) : Name → Str → Prop
  | word (w : Str) : Writes sep leads (.word w) w
  | scope {w n s} : Writes sep leads n s → Writes sep leads (.scope w n) (w ++ sep ++ s)
  | tmpl {w a p s} : Spaces p → WritesArgs sep leads a s → Writes sep leads (.tmpl w a) (w ++ p ++ ['<'] ++ s ++ ['>'])
  | tmplScope {w a n p s q r} : Spaces p → WritesArgs sep leads a s → Spaces q → Writes sep leads n r →
      Writes sep leads (.tmplScope w a n) (w ++ p ++ ['<'] ++ s ++ ['>'] ++ q ++ sep ++ r)
/-- the arguments -/
inductive WritesArgs (sep : Str) (leads : List Str) : Args → Str → Prop
  | one {n p l s q} : Spaces p → Lead leads n l → Writes sep leads n s → Spaces q → WritesArgs sep leads (.one n) (p ++ l ++ s ++ q)
  | more {n a p l s q r} : Spaces p → Lead leads n l → Writes sep leads n s → Spaces q → WritesArgs sep leads a r →
      WritesArgs sep leads (.more n a) (p ++ l ++ s ++ q ++ [','] ++ r)
end

/-- `s` is the name, in C++ or in typelib's notation, relative or absolute (each argument too), with any white space -/
def Written (n : Name) (s : Str) : Prop :=
  ∃ sep, (sep = "::".toList ∨ sep = "/".toList) ∧ ∃ p q, Spaces p ∧ Spaces q ∧ ∃ l t, Lead [[], sep] n l ∧ Writes sep [[], sep] n t ∧
    s = p ++ l ++ t ++ q

mutual
/-- the name without spaces; `abs` is put before each argument that is not a number -/
def Name.show (sep abs : Str) : Name → Str
  | .word w => w
  | .scope w n => w ++ sep ++ n.show sep abs
  | .tmpl w a => w ++ '<' :: a.show sep abs ++ ['>']
  | .tmplScope w a n => w ++ '<' :: a.show sep abs ++ ['>'] ++ sep ++ n.show sep abs
def Args.show (sep abs : Str) : Args → Str
  | .one n => (if n.isNumber then [] else abs) ++ n.show sep abs
  | .more n a => (if n.isNumber then [] else abs) ++ n.show sep abs ++ ',' :: a.show sep abs
end

/-- typelib's name: all names are absolute -/
def Name.typelib (n : Name) : Str := (if n.isNumber then [] else ['/']) ++ n.show ['/'] ['/']

/-- the C++ name, without spaces -/
def Name.cxx (n : Name) : Str := n.show "::".toList []

def Args.toList : Args → List Name
  | .one n => [n]
  | .more n a => n :: a.toList

/-- the path and the arguments, if the last component and no other one is a template -/
def Name.template (sep : Str) : Name → Option (Str × Args)
  | .word _ => none
  | .scope w n => (n.template sep).map fun r => (w ++ sep ++ r.1, r.2)
  | .tmpl w a => some (w, a)
  | .tmplScope _ _ _ => none

/-- no component but the last one is a template -/
def Name.Simple : Name → Prop
  | .word _ => True
  | .scope _ n => n.Simple
  | .tmpl _ _ => True
  | .tmplScope _ _ _ => False

end Verif.RubyNames
