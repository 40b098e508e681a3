import Verif.Basic

/-!
The part of XML 1.0 the TLB files use, as libxml2 reads it (`xmlParseMemory`, called by import.cc:407): elements,
attributes, the predefined entities, CDATA sections, processing instructions. This is the specification of a library that
typelib does not contain, not a model of its code.

Simplifications: text nodes are dropped (the importer skips them), comments, document types and character references are
rejected, element and attribute names are made of ASCII letters, digits, and `_ - . :`, "]]>" is accepted in text. Strings
are sequences of Unicode characters (typelib writes bytes; a file without declared encoding is read as UTF-8).
-/

namespace Verif.Xml
open Verif

inductive Node where
  | elem (name : Str) (attrs : List (Str × Str)) (children : List Node)
  | cdata (text : Str)

/-- an element whose end tag has not been read -/
structure Open where
  name : Str
  attrs : List (Str × Str)
  children : List Node

/-- where the reader is -/
inductive Mode where
  /-- between tags -/
  | content
  /-- after `&` between tags -/
  | ent (e : Str)
  /-- after `<` -/
  | lt
  /-- after `<!` -/
  | bang (b : Str)
  /-- in a CDATA section; what was read, backwards -/
  | cdata (acc : Str)
  /-- after `<?`; whether the last character is `?` -/
  | pi (q : Bool)
  /-- in the name of a start tag -/
  | tag (n : Str)
  /-- in a start tag, where an attribute may start -/
  | gap (n : Str) (as : List (Str × Str))
  /-- in the name of an attribute -/
  | aname (n : Str) (as : List (Str × Str)) (a : Str)
  /-- after `=` -/
  | aeq (n : Str) (as : List (Str × Str)) (a : Str)
  /-- in the value of an attribute -/
  | aval (n : Str) (as : List (Str × Str)) (a : Str) (q : Char) (v : Str)
  /-- after `&` in the value of an attribute -/
  | aent (n : Str) (as : List (Str × Str)) (a : Str) (q : Char) (v : Str) (e : Str)
  /-- after the value of an attribute -/
  | sep (n : Str) (as : List (Str × Str))
  /-- after `/` in a start tag -/
  | slash (n : Str) (as : List (Str × Str))
  /-- in the name of an end tag -/
  | close (n : Str)
  /-- after the name of an end tag -/
  | closeWs (n : Str)

/-- The open elements, innermost first; the last one stands for the document. -/
structure St where
  stack : List Open
  mode : Mode

def ws (c : Char) : Bool := c == ' ' || c == '\t' || c == '\n' || c == '\r'

def nameChar (c : Char) : Bool := c.isAlphanum || c == '_' || c == '-' || c == '.' || c == ':'

/-- the characters a document may contain (XML 1.0, production 2) -/
def xmlChar (c : Char) : Bool :=
  c == '\t' || c == '\n' || c == '\r' || (decide (0x20 ≤ c.toNat) && c.toNat != 0xFFFE && c.toNat != 0xFFFF)

/-- the predefined entities (XML 1.0, section 4.6) -/
def entity (e : Str) : Option Char :=
  if e = "lt".toList then some '<'
  else if e = "gt".toList then some '>'
  else if e = "amp".toList then some '&'
  else if e = "quot".toList then some '"'
  else if e = "apos".toList then some '\''
  else none

def addChild (n : Node) : List Open → List Open
  | [] => []
  | o :: r => { o with children := o.children ++ [n] } :: r

/-- the start tag of `n` is complete; a document has one root element -/
def openTag (stack : List Open) (n : Str) (as : List (Str × Str)) : Option St :=
  match stack with
  | [d] => if d.children.isEmpty then some ⟨[⟨n, as, []⟩, d], .content⟩ else none
  | s => some ⟨⟨n, as, []⟩ :: s, .content⟩

/-- the end tag of `n` is complete -/
def closeTag (stack : List Open) (n : Str) : Option St :=
  match stack with
  | o :: p :: r => if o.name = n then some ⟨addChild (.elem o.name o.attrs o.children) (p :: r), .content⟩ else none
  | _ => none

/-- the empty-element tag of `n` is complete -/
def emptyTag (stack : List Open) (n : Str) (as : List (Str × Str)) : Option St :=
  match openTag stack n as with
  | some s => closeTag s.stack n
  | none => none

/-- the value of an attribute is complete: it must not have been given yet -/
def addAttr (as : List (Str × Str)) (a v : Str) : Option (List (Str × Str)) :=
  match as.lookup a with
  | some _ => none
  | none => some (as ++ [(a, v)])

def step1 (s : St) (c : Char) : Option St :=
  match s.mode with
  | .content =>
    if c = '<' then some { s with mode := .lt }
    else if s.stack.length ≤ 1 && !ws c then none
    else if c = '&' then some { s with mode := .ent [] }
    else some s
  | .ent e =>
    if c = ';' then (match entity e with
      | some _ => some { s with mode := .content }
      | none => none)
    else some { s with mode := .ent (e ++ [c]) }
  | .lt =>
    if c = '/' then some { s with mode := .close [] }
    else if c = '!' then some { s with mode := .bang [] }
    else if c = '?' then some { s with mode := .pi false }
    else if nameChar c then some { s with mode := .tag [c] }
    else none
  | .bang b =>
    if b ++ [c] = "[CDATA[".toList then
      (if s.stack.length ≤ 1 then none else some { s with mode := .cdata [] })
    else if (b ++ [c]).isPrefixOf "[CDATA[".toList then some { s with mode := .bang (b ++ [c]) }
    else none
  | .cdata acc =>
    (match c, acc with
      | '>', ']' :: ']' :: r => some ⟨addChild (.cdata r.reverse) s.stack, .content⟩
      | c, acc => some { s with mode := .cdata (c :: acc) })
  | .pi q => if c = '>' && q then some { s with mode := .content } else some { s with mode := .pi (c == '?') }
  | .tag n =>
    if nameChar c then some { s with mode := .tag (n ++ [c]) }
    else if ws c then some { s with mode := .gap n [] }
    else if c = '>' then openTag s.stack n []
    else if c = '/' then some { s with mode := .slash n [] }
    else none
  | .gap n as =>
    if ws c then some s
    else if c = '>' then openTag s.stack n as
    else if c = '/' then some { s with mode := .slash n as }
    else if nameChar c then some { s with mode := .aname n as [c] }
    else none
  | .aname n as a =>
    if nameChar c then some { s with mode := .aname n as (a ++ [c]) }
    else if c = '=' then some { s with mode := .aeq n as a }
    else none
  | .aeq n as a =>
    if c = '"' || c = '\'' then some { s with mode := .aval n as a c [] }
    else none
  | .aval n as a q v =>
    if c = q then (match addAttr as a v with
      | some as' => some { s with mode := .sep n as' }
      | none => none)
    else if c = '<' then none
    else if c = '&' then some { s with mode := .aent n as a q v [] }
    else if ws c then some { s with mode := .aval n as a q (v ++ [' ']) }
    else some { s with mode := .aval n as a q (v ++ [c]) }
  | .aent n as a q v e =>
    if c = ';' then (match entity e with
      | some d => some { s with mode := .aval n as a q (v ++ [d]) }
      | none => none)
    else some { s with mode := .aent n as a q v (e ++ [c]) }
  | .sep n as =>
    if ws c then some { s with mode := .gap n as }
    else if c = '>' then openTag s.stack n as
    else if c = '/' then some { s with mode := .slash n as }
    else none
  | .slash n as => if c = '>' then emptyTag s.stack n as else none
  | .close n =>
    if nameChar c then some { s with mode := .close (n ++ [c]) }
    else if ws c then some { s with mode := .closeWs n }
    else if c = '>' then closeTag s.stack n
    else none
  | .closeWs n =>
    if ws c then some s
    else if c = '>' then closeTag s.stack n
    else none

/-- one character -/
def step (s : Option St) (c : Char) : Option St :=
  match s with
  | none => none
  | some s => if xmlChar c then step1 s c else none

/-- ends of lines (XML 1.0, section 2.11) -/
def normEol : Str → Str
  | '\r' :: '\n' :: r => '\n' :: normEol r
  | '\r' :: r => '\n' :: normEol r
  | c :: r => c :: normEol r
  | [] => []

def start : St := ⟨[⟨[], [], []⟩], .content⟩

/-- The root element of a document, if it is well-formed. -/
def parseDoc (s : Str) : Option Node :=
  match (normEol s).foldl step (some start) with
  | some ⟨[d], .content⟩ => (match d.children with
    | [n] => some n
    | _ => none)
  | _ => none

end Verif.Xml
