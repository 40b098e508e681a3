import Verif.MetaData

/-!
# The documentation of C++ declarations

The loaders for C++ headers look for the comment which precedes a declaration
and make it the documentation of the type or field
(`GCCXMLLoader#set_source_file`, `GCCXMLLoader.parse_cxx_documentation_before`
and `GCCXMLLoader#extract_doc_metadata`, bindings/ruby/lib/typelib/gccxml.rb).

A file is the list of its lines, each with its line terminator
(`File.readlines`, gccxml.rb:474-484); no line has a line feed inside, and all are
valid UTF-8 (on an invalid line Ruby raises).
-/

namespace Verif.Docs
open Verif

/-! ## Ruby's strings and regular expressions -/

/-- `\s` -/
def isSp (c : Char) : Bool := c == ' ' || c == '\t' || c == '\n' || c == '\r' || c == '\x0b' || c == '\x0c'

/-- what `String#strip` removes -/
def isStrip (c : Char) : Bool := isSp c || c == '\x00'

/-- `String#strip` -/
def strip (l : Str) : Str := ((l.dropWhile isStrip).reverse.dropWhile isStrip).reverse

/-- `Array#[]`: negative indexes count from the end -/
def rbAt (l : List Str) (i : Int) : Option Str :=
  if 0 ≤ i then l[i.toNat]?
  else if 0 ≤ (l.length : Int) + i then l[((l.length : Int) + i).toNat]?
  else none

/-- `/^\s*$/` on one line (gccxml.rb:801) -/
def isBlank (l : Str) : Bool := l.all isSp

/-- `/^\s*(\*|\/\/|\/\*)/` on one line (gccxml.rb:802) -/
def isComment (l : Str) : Bool :=
  match l.dropWhile isSp with
  | '*' :: _ => true
  | '/' :: '/' :: _ => true
  | '/' :: '*' :: _ => true
  | _ => false

/-- `/^\s*{?\s*$/` on one line (gccxml.rb:498) -/
def isOpener (l : Str) : Bool :=
  match l.dropWhile isSp with
  | '{' :: r => r.all isSp
  | r => r.all isSp

/-! ## The loader -/

/-- The loop of `set_source_file` (gccxml.rb:498-500): from the line reported by the
compiler (1-based) to the line of the declaration. -/
def startLine (lines : List Str) : Nat → Int → Res Int
  | 0, _ => .fuel
  | f + 1, i =>
    if 0 ≤ i then
      match rbAt lines (i - 1) with
      | some l => if isOpener l then startLine lines f (i - 1) else .ok i
      | none => .ok i
    else .ok i

/-- The loop of `parse_cxx_documentation_before` (gccxml.rb:798-807), from index `i` on:
the lines of the comment, the last one first. -/
def scan (lines : List Str) : Nat → Int → Res (List Str)
  | 0, _ => .fuel
  | f + 1, i =>
    match rbAt lines i with
    | none => .ok []
    | some l =>
      if isBlank l then scan lines f (i - 1)
      else if isComment l then (scan lines f (i - 1)).bind fun b => .ok (l :: b)
      else .ok []

/-- `gsub(/^\s*(\*+\/?|\/+\**)/, '')` on a stripped line (gccxml.rb:809) -/
def unmark : Str → Str
  | '*' :: r =>
    match r.dropWhile (· == '*') with
    | '/' :: r => r
    | r => r
  | '/' :: r => (r.dropWhile (· == '/')).dropWhile (· == '*')
  | r => r

/-- `strip.empty?` (gccxml.rb:811, 814) -/
def isEmptyS (l : Str) : Bool := l.all isStrip

/-- gccxml.rb:811-816 -/
def trim (b : List Str) : List Str := ((b.dropWhile isEmptyS).reverse.dropWhile isEmptyS).reverse

/-- `l =~ /^(\s*)/; $1.size` (gccxml.rb:819) -/
def margin (l : Str) : Nat := (l.takeWhile isSp).length

/-- gccxml.rb:818-823 -/
def margins (b : List Str) : List Nat := b.filterMap fun l => if margin l ≠ l.length then some (margin l) else none

/-- `gsub!(/\*+\//, '')` (gccxml.rb:828); `n` stars were seen -/
def rmEnd : Nat → Str → Str
  | n, [] => List.replicate n '*'
  | n, c :: r =>
    if c = '*' then rmEnd (n + 1) r
    else if c = '/' ∧ 0 < n then rmEnd 0 r
    else List.replicate n '*' ++ c :: rmEnd 0 r

/-- `join("\n")` -/
def joinNl : List Str → Str
  | [] => []
  | [l] => l
  | l :: ls => l ++ '\n' :: joinNl ls

/-- The rest of `parse_cxx_documentation_before` (gccxml.rb:808-831). A line that is
shorter than the number of spaces to remove becomes `nil`, which `join` takes for
an empty string. -/
def format (block : List Str) : Res (Option Str) :=
  match trim (block.map fun l => unmark (strip l)) with
  | [] => .ok none
  | b :: bs =>
    match (margins (b :: bs)).min? with
    | none => .exn .rbType
    | some n => .ok (some (joinNl ((rmEnd 0 (b.drop n) :: bs.map (·.drop n)).reverse)))

/-- `parse_cxx_documentation_before(lines, line)` (gccxml.rb:791-832) -/
def docBefore (fuel : Nat) (lines : List Str) (line : Int) : Res (Option Str) :=
  (scan lines fuel (line - 2)).bind format

/-- `split("\n")`, without the removal of empty strings at the end (they are not
looked at) -/
def splitNl : Str → List Str
  | [] => [[]]
  | c :: r =>
    if c = '\n' then [] :: splitNl r
    else
      match splitNl r with
      | [] => [[c]]
      | l :: ls => (c :: l) :: ls

/-- `\w` -/
def isWord (c : Char) : Bool := c.isAlphanum || c == '_'

/-- `/^\s*@meta (\w+)\s+(.*)$/` on one line, and `$2.strip` (gccxml.rb:939-941) -/
def metaOf (l : Str) : Option (Str × Str) :=
  match l.dropWhile isSp with
  | '@' :: 'm' :: 'e' :: 't' :: 'a' :: ' ' :: r =>
    let k := r.takeWhile isWord
    let v := r.dropWhile isWord
    if k ≠ [] ∧ v.takeWhile isSp ≠ [] then some (k, strip (v.dropWhile isSp)) else none
  | _ => none

/-- `extract_doc_metadata` (gccxml.rb:937-944) -/
def addMetas (md : Meta.MetaData) (doc : Str) : Meta.MetaData :=
  ((splitNl doc).filterMap metaOf).foldl (fun m p => Meta.add m p.1 p.2) md

/-- The documentation of a type (gccxml.rb:881-888) or of a field (891-897), for a
known line -/
def describe (fuel : Nat) (md : Meta.MetaData) (lines : List Str) (line : Int) : Res Meta.MetaData :=
  (docBefore fuel lines line).bind fun d =>
    match d with
    | none => .ok md
    | some doc => .ok (addMetas (Meta.set md "doc".toList doc) doc)

/-! ## Specification: documented declarations -/

/-- White space only. -/
def Blank (l : Str) : Prop := ∀ c ∈ l, isSp c = true

/-- What is put in front of the lines of a comment. -/
inductive Mark : Str → Prop where
  /-- `//`, `///`, … -/
  | line (n : Nat) : Mark (List.replicate (n + 2) '/')
  /-- `/*`, `/**`, … -/
  | opening (n : Nat) : Mark ('/' :: List.replicate (n + 1) '*')
  /-- ` *` -/
  | middle (n : Nat) : Mark (List.replicate (n + 1) '*')
  /-- ` */` -/
  | closing (n : Nat) : Mark (List.replicate (n + 1) '*' ++ ['/'])

/-- A line of documentation: empty, or with some text and nothing invisible at
its end. -/
def Text (t : Str) : Prop := t = [] ∨ ∃ r c, t = r ++ [c] ∧ isStrip c = false

/-- The line `l` of the file is a line of comment which shows `t`, with `k` spaces
between the mark and the text. -/
inductive Shows (k : Nat) : Str → Str → Prop where
  | empty {indent mark eol : Str} : Blank indent → Mark mark → Blank eol → Shows k [] (indent ++ mark ++ eol)
  | text {indent mark pad t eol : Str} : Blank indent → Mark mark → Blank pad → pad.length = k → t ≠ [] → Text t →
      (k = 0 → ∀ r, t ≠ '*' :: r ∧ t ≠ '/' :: r) → Blank eol → Shows k t (indent ++ mark ++ pad ++ t ++ eol)

/-- The lines `ls` show the lines of text `ts`. -/
inductive ShowsAll (k : Nat) : List Str → List Str → Prop where
  | nil : ShowsAll k [] []
  | cons {t l : Str} {ts ls : List Str} : Shows k t l → ShowsAll k ts ls → ShowsAll k (t :: ts) (l :: ls)

/-- A line which is not white space and does not start as a comment does. -/
def Code (l : Str) : Prop := ∃ indent c r, Blank indent ∧ l = indent ++ c :: r ∧ isSp c = false ∧ c ≠ '*' ∧
  (c = '/' → ∀ s, r ≠ '/' :: s ∧ r ≠ '*' :: s)

/-- A line with nothing but white space, or an opening brace. -/
def Opener (l : Str) : Prop := Blank l ∨ ∃ a b, Blank a ∧ Blank b ∧ l = a ++ '{' :: b

/-- No end of comment. -/
def NoEnd (t : Str) : Prop := ∀ a b, t ≠ a ++ '*' :: '/' :: b

/-- A text: at least one line, the first and the last are not empty, one of the
lines is not indented. -/
structure Doc (ts : List Str) : Prop where
  texts : ∀ t ∈ ts, Text t ∧ '\n' ∉ t
  first : ts.head? ≠ some []
  last : ts.getLast? ≠ some []
  left : ∃ t ∈ ts, ∃ c r, t = c :: r ∧ isSp c = false
  noEnd : ∀ t, ts.getLast? = some t → NoEnd t

/-- The line gives the metadata `k` the value `v`: `@meta k v`. -/
def IsMeta (l k v : Str) : Prop := ∃ a c sp e, Blank a ∧ k ≠ [] ∧ (∀ x ∈ k, isWord x = true) ∧ isSp c = true ∧
  (∀ x ∈ sp, isStrip x = true) ∧ (∀ x ∈ e, isStrip x = true) ∧
  (∀ x, v.head? = some x → isStrip x = false) ∧ (∀ x, v.getLast? = some x → isStrip x = false) ∧
  l = a ++ ("@meta ".toList ++ (k ++ c :: (sp ++ (v ++ e))))

/-- A file with a comment before a declaration: some lines, the last of which is
code; blank lines; the comment, whose first and last lines may be empty; blank
lines; the declaration; lines up to the one the compiler reports; other lines. -/
structure Documented (lines : List Str) (reported : Nat) (decl : Nat) (ts : List Str) : Prop where
  parts : ∃ (before : List Str) (code : Str) (lead comment gap : List Str) (d : Str) (openers after : List Str) (k a b : Nat),
    lines = before ++ code :: (lead ++ (comment ++ (gap ++ d :: (openers ++ after)))) ∧ Code code ∧ (∀ l ∈ lead, Blank l) ∧
    ShowsAll k (List.replicate a [] ++ ts ++ List.replicate b []) comment ∧
    (∀ l ∈ gap, Blank l) ∧ ¬ Opener d ∧ (∀ l ∈ openers, Opener l) ∧
    decl = before.length + 1 + lead.length + comment.length + gap.length + 1 ∧ reported = decl + openers.length

end Verif.Docs
