import Verif.MetaData
import Verif.TlbParts

/-!
C84: the metadata that the clang-based importer adds to types (tools/typelib-clang-tlb-importer/HandleMetaData.cpp:17-214 and the
calls in TypelibBuilder.cpp:183-186, 220-225, 468-470, 588-591). What clang knows of a declaration is the input.
-/

namespace Verif.ClangMeta
open Verif Verif.Registry Verif.StdMap

/-! ### Model: input -/

/-- parts of a paragraph of a comment: lines of text, and others (inline commands, HTML tags) -/
inductive Inline where
  | text (t : Str)
  | other
  deriving DecidableEq, Repr

/-- `clang::comments::BlockContentComment` -/
inductive Block where
  | paragraph (kids : List Inline)
  | verbatimLine (t : Str)
  | command (kids : List Inline)
  | other
  deriving DecidableEq, Repr

/-- the file of a declaration: the canonical name of its directory, its name as it was reached, the line -/
structure Where where
  dir : Str
  file : Str
  line : Nat
  deriving DecidableEq, Repr

/-- what the declaration is for `setMetaDataCxxname` -/
inductive Named where
  | typedefOf (name underlying : Str)
  | tag (name : Str)
  | other
  deriving DecidableEq, Repr

/-- a declaration. `bases` is `none` for what is not a `CXXRecordDecl` or has no definition, else the typelib names of the direct base
classes in order. -/
structure Decl where
  place : Option Where
  bases : Option (List Str)
  comment : Option (List Block)
  named : Named
  deriving DecidableEq, Repr

/-- the symbolic links of the file system: what `readlink` finds -/
abbrev Links := Str → Option Str

/-! ### Model: code -/

/-- `do_readlink` (HandleMetaData.cpp:18-27): the buffer has `PATH_MAX` (4096) bytes -/
def doReadlink (links : Links) (path : Str) : Str :=
  match links path with
  | some target => target.take 4095
  | none => path

/-- the part of a string after its last `/` (`substr(find_last_of("/") + 1)`, HandleMetaData.cpp:48) -/
def afterSlash (s : Str) : Str := (s.reverse.takeWhile (· ≠ '/')).reverse

/-- `setMetaDataSourceFileLine` (HandleMetaData.cpp:29-64). `exit(-1)` is an exception here; a declaration without file (of the
compiler) has no `FileEntry`, which is not looked at. -/
def sourceFileLine (links : Links) (d : Decl) (m : Meta.MetaData) : Res Meta.MetaData :=
  match d.place with
  | none => .ub
  | some w =>
    if afterSlash w.file = [] then .exn .exception
    else
      .ok (Meta.add m "source_file_line".toList
        (doReadlink links (w.dir ++ '/' :: afterSlash w.file) ++ ':' :: Graph.natStr w.line))

/-- `setMetaDataBaseClasses` (HandleMetaData.cpp:66-95) -/
def baseClasses (d : Decl) (m : Meta.MetaData) : Meta.MetaData :=
  match d.bases with
  | none => m
  | some l => l.foldl (fun m b => Meta.add m "base_classes".toList b) m

/-- clang's whitespace -/
def isWs (c : Char) : Bool := c = ' ' || c = '\t' || c = '\n' || c = '\r' || c = '\x0b' || c = '\x0c'

/-- `ParagraphComment::isWhitespace` -/
def blank : List Inline → Bool
  | [] => true
  | .text t :: r => t.all isWs && blank r
  | .other :: _ => false

/-- the loops over the children of a paragraph (HandleMetaData.cpp:121-136, 151-166) -/
def kidsText : List Inline → Str
  | [] => []
  | .text t :: r =>
    match r with
    | [] => t
    | _ :: _ => t ++ '\n' :: kidsText r
  | .other :: r => kidsText r

/-- one round of the loop over the blocks (HandleMetaData.cpp:109-180); `none`: return -/
def blockText : Block → Option Str
  | .paragraph kids => if blank kids then some [] else some (kidsText kids)
  | .verbatimLine t => some t
  | .command kids => some (kidsText kids)
  | .other => none

/-- the loop -/
def blocksText : List Block → Option Str
  | [] => some []
  | b :: bs =>
    match blockText b with
    | none => none
    | some s =>
      match blocksText bs with
      | none => none
      | some r => some (s ++ r)

/-- `setMetaDataDoc` (HandleMetaData.cpp:97-183) -/
def doc (d : Decl) (m : Meta.MetaData) : Meta.MetaData :=
  match d.comment with
  | none => m
  | some bs =>
    match blocksText bs with
    | none => m
    | some s => Meta.add m "doc".toList s

/-- `setMetaDataCxxname` (HandleMetaData.cpp:185-214) -/
def cxxname (d : Decl) (m : Meta.MetaData) : Meta.MetaData :=
  match d.named with
  | .typedefOf n u => Meta.add m "cxxname".toList ("typedef ".toList ++ n ++ ' ' :: u)
  | .tag n => Meta.add m "cxxname".toList n
  | .other => m

/-- what the type is -/
inductive What where
  | container | opaque | enum | compound
  deriving DecidableEq, Repr

/-- the calls for a type (TypelibBuilder.cpp:183-186, 220-225, 468-470, 588-591) -/
def describe (links : Links) (k : What) (d : Decl) (m : Meta.MetaData) : Res Meta.MetaData :=
  match k with
  | .container => (sourceFileLine links d (doc d m)).bind fun m => .ok (cxxname d m)
  | .opaque => (sourceFileLine links d (baseClasses d m)).bind fun m => .ok (cxxname d (doc d m))
  | .enum => (sourceFileLine links d m).bind fun m => .ok (cxxname d (doc d m))
  | .compound => (sourceFileLine links d m).bind fun m => .ok (cxxname d (baseClasses d (doc d m)))

/-! ### Model: the gccxml importer, and the location read back -/

/-- `\s` of Ruby's regular expressions -/
def isSp (c : Char) : Bool := c = ' ' || c = '\t' || c = '\n' || c = '\r' || c = '\x0b' || c = '\x0c'

/-- `line =~ /^\s*{?\s*$/` for a line of `File.readlines`, which has at most one newline, at its end -/
def braceLine (l : Str) : Bool :=
  match l.dropWhile isSp with
  | '{' :: r => r.all isSp
  | [] => true
  | _ => false

/-- `content[i] =~ …`: `nil` does not match -/
def braceAt : Option Str → Bool
  | some l => braceLine l
  | none => false

/-- the `while` loop of `set_source_file` (gccxml.rb:497-499) from line `n`; `content[-1]` is the last line -/
def goBack (content : List Str) : Nat → Int
  | 0 => if braceAt content.getLast? then -1 else 0
  | n + 1 => if braceAt content[n]? then goBack content n else ((n + 1 : Nat) : Int)

/-- the line it notes: the reported one if the file cannot be read (gccxml.rb:490-500) -/
def gccLine (line : Nat) : Option (List Str) → Int
  | none => line
  | some content => goBack content line

/-- `set_source_file` (gccxml.rb:486-507); a node without file is left alone -/
def gccSource (file : Option Str) (line : Option Nat) (content : Option (List Str)) (m : Meta.MetaData) : Meta.MetaData :=
  match file with
  | none => m
  | some f =>
    match line with
    | none => Meta.add m "source_file_line".toList f
    | some l => Meta.add m "source_file_line".toList (f ++ ':' :: Tlb.intStr (gccLine l content))

/-- `Integer(text)` for decimal texts (leading zeros, underscores, prefixes and spaces are not considered) -/
def integer (s : Str) : Res Int :=
  match s with
  | '-' :: ds => if ds ≠ [] ∧ ds.all (·.isDigit) then .ok (-((Nat.ofDigitChars 10 ds 0 : Nat) : Int)) else .exn .rbArg
  | ds => if ds ≠ [] ∧ ds.all (·.isDigit) then .ok ((Nat.ofDigitChars 10 ds 0 : Nat) : Int) else .exn .rbArg

/-- what follows the first `:` -/
def afterColon : Str → Option Str
  | [] => none
  | c :: r => if c = ':' then some r else afterColon r

/-- `file, line = location.split(':'); line = Integer(line)` (gccxml.rb:882-883, 892-893): empty parts at the end are no parts -/
def locate (s : Str) : Res (Str × Int) :=
  match afterColon s with
  | none => .exn .rbType
  | some r =>
    if r.all (· = ':') then .exn .rbType
    else (integer (r.takeWhile (· ≠ ':'))).bind fun z => .ok (s.takeWhile (· ≠ ':'), z)

/-! ### Specification -/

/-- the last component of a path -/
def LastPart (path name : Str) : Prop := '/' ∉ name ∧ (path = name ∨ ∃ pre, path = pre ++ '/' :: name)

/-- the path that is noted for a path: itself, or (up to 4095 bytes of) what it is a link to -/
inductive Target (links : Links) (path : Str) : Str → Prop
  | file : links path = none → Target links path path
  | link {t : Str} : links path = some t → Target links path (t.take 4095)

/-- lines, separated by newlines -/
inductive Lines : List Str → Str → Prop
  | nil : Lines [] []
  | one {t : Str} : Lines [t] t
  | cons {t : Str} {l : List Str} {s : Str} : l ≠ [] → Lines l s → Lines (t :: l) (t ++ '\n' :: s)

/-- a block of lines of text, not only of white space -/
inductive Para : Block → List Str → Prop
  | paragraph {ts : List Str} : (∃ t ∈ ts, ∃ c ∈ t, isWs c = false) → Para (.paragraph (ts.map .text)) ts
  | verbatim {t : Str} : Para (.verbatimLine t) [t]
  | command {ts : List Str} : Para (.command (ts.map .text)) ts

/-- the texts of a paragraph -/
def texts : List Inline → List Str
  | [] => []
  | .text t :: r => t :: texts r
  | .other :: r => texts r

/-- white space only -/
def Space (kids : List Inline) : Prop := ∀ k ∈ kids, ∃ t, k = .text t ∧ ∀ c ∈ t, isWs c = true

/-- the texts of a comment in order, without paragraphs of white space; a comment with a block of another kind has none -/
inductive Says : List Block → List Str → Prop
  | nil : Says [] []
  | paragraph {kids bs r} : ¬ Space kids → Says bs r → Says (.paragraph kids :: bs) (texts kids ++ r)
  | space {kids bs r} : Space kids → Says bs r → Says (.paragraph kids :: bs) r
  | verbatim {t bs r} : Says bs r → Says (.verbatimLine t :: bs) (t :: r)
  | command {kids bs r} : Says bs r → Says (.command kids :: bs) (texts kids ++ r)

/-- the text of a paragraph: each text but the last part of the paragraph ends with a newline -/
inductive KidsDoc : List Inline → Str → Prop
  | nil : KidsDoc [] []
  | last {t} : KidsDoc [.text t] t
  | text {t r s} : r ≠ [] → KidsDoc r s → KidsDoc (.text t :: r) (t ++ '\n' :: s)
  | other {r s} : KidsDoc r s → KidsDoc (.other :: r) s

/-- the documentation that a comment is turned into -/
inductive Doc : List Block → Str → Prop
  | nil : Doc [] []
  | paragraph {kids bs s r} : ¬ Space kids → KidsDoc kids s → Doc bs r → Doc (.paragraph kids :: bs) (s ++ r)
  | space {kids bs r} : Space kids → Doc bs r → Doc (.paragraph kids :: bs) r
  | verbatim {t bs r} : Doc bs r → Doc (.verbatimLine t :: bs) (t ++ r)
  | command {kids bs s r} : KidsDoc kids s → Doc bs r → Doc (.command kids :: bs) (s ++ r)

/-- text without newlines -/
def flat (s : Str) : Str := s.filter (· ≠ '\n')

/-- the values that are added for a key -/
inductive Added (links : Links) (k : What) (d : Decl) : Str → Str → Prop
  | source {w name path} : d.place = some w → LastPart w.file name → Target links (w.dir ++ '/' :: name) path →
      Added links k d "source_file_line".toList (path ++ ':' :: Graph.natStr w.line)
  | base {l b} : k = .opaque ∨ k = .compound → d.bases = some l → b ∈ l → Added links k d "base_classes".toList b
  | doc {bs s} : d.comment = some bs → Doc bs s → Added links k d "doc".toList s
  | typedefOf {n u} : d.named = .typedefOf n u → Added links k d "cxxname".toList ("typedef ".toList ++ n ++ ' ' :: u)
  | tag {n} : d.named = .tag n → Added links k d "cxxname".toList n

end Verif.ClangMeta
