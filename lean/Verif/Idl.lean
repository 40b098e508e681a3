import Verif.TypeGraph
import Verif.StdMap

/-!
C40. Model of `lang/idl/export.cc`. The stream is a list of events, `render` gives its text. `UnsupportedType` and
`NullTypeFound` are `.exn .exportError`.
-/

namespace Verif.Idl
open Verif Verif.Names Verif.Graph Verif.StdMap

/-- text between the separators; `boost::split` -/
def pieces (sep : Char) : Str → List Str
  | [] => [[]]
  | c :: s =>
    if c = sep then [] :: pieces sep s
    else match pieces sep s with
      | [] => [[c]]
      | h :: t => (c :: h) :: t

/-- `nameSplit` (export.cc:21-30): with `token_compress_on` only the first and the last token may be empty, and
these are removed. -/
def nameSplit (s : Str) : List Str := (pieces '/' s).filter (fun p => !p.isEmpty)

/-- `namespaceIndentLevel` (export.cc:32-35) -/
def namespaceIndentLevel (ns : Str) : Nat := (nameSplit ns).length

/-- `split(names, name, is_any_of("::"), token_compress_on)`: runs of colons are one separator. `prev`: the previous
character was a colon. -/
def colonGo (prev : Bool) : Str → List Str
  | [] => [[]]
  | c :: s =>
    if c = ':' then (if prev then colonGo true s else [] :: colonGo true s)
    else match colonGo false s with
      | [] => [[c]]
      | h :: t => (c :: h) :: t

def stripOne : Str → Str
  | '_' :: s => s
  | s => s

/-- `boost::join(names, "::")` -/
def joinColons : List Str → Str
  | [] => []
  | [a] => a
  | a :: r => a ++ ':' :: ':' :: joinColons r

/-- `stripLeadingUnderscore` (export.cc:37-48) -/
def stripLeadingUnderscore (s : Str) : Str := joinColons ((colonGo false s).map stripOne)

def under (c : Char) : Char := if c = '<' ∨ c = '>' ∨ c = '/' ∨ c = ',' then '_' else c

/-- `normalizeIDLName` (export.cc:50-58); every iteration of its loop replaces the first of the characters left, and
the position is an `unsigned int` (names are shorter than 2^32) -/
def normalizeIDLName (s : Str) : Str := stripLeadingUnderscore (s.map under)

/-- The options read by `IDLExport::save` (export.cc:476-485). `selected` is the set of selected types; the size of a
type is assumed to fit an `int`. -/
structure Opts where
  nsPrefix : Str
  nsSuffix : Str
  blob : Int
  opaqueAny : Bool
  selected : List Str

/-- `IDLExport::save` (export.cc:471-487): slashes added to the prefix and the suffix -/
def Opts.mk' (p s : Str) (blob : Int) (any : Bool) (sel : List Str) : Opts :=
  { nsPrefix := if p.isEmpty || p.head? == some '/' then p else '/' :: p
    nsSuffix := if s.isEmpty || s.getLast? == some '/' then s else s ++ ['/']
    blob := blob
    opaqueAny := any
    selected := sel }

/-- `getIDLAbsoluteNamespace` (export.cc:60-70) -/
def absNs (o : Opts) (ns : Str) : Str := o.nsPrefix ++ ns ++ o.nsSuffix

/-- `boost::replace_all(s, "/", "::")` -/
def slashToColons (s : Str) : Str := s.flatMap (fun c => if c = '/' then [':', ':'] else [c])

/-- names of the numeric types (export.cc:200-227) -/
def numName (name : Str) (c : NumCat) (size : Nat) : Str :=
  if name = "/bool".toList then "boolean".toList
  else if c = .float then (if size = 4 then "float".toList else "double".toList)
  else
    (if c = .uint ∧ size ≠ 1 then "unsigned ".toList else []) ++
    (if size = 1 then "octet".toList else if size = 2 then "short".toList else if size = 4 then "long".toList
     else if size = 8 then "long long".toList else [])

/-- name of the typedef of a container (export.cc:188-192) -/
def seqName (kind elemName : Str) : Str :=
  getTypename kind ++ ['_'] ++ elemName.map (fun c => if c = '/' ∨ c = ' ' then '_' else c) ++ ['_']

/-- `Container::kind` -/
def kindName : Kind → Str
  | .vec _ => "/std/vector".toList
  | .str _ => "/std/string".toList
  | _ => []

/-- what `IDLTypeIdentifierVisitor` computes -/
structure Ident where
  ns : Str
  front : Str
  back : Str

/-- `getIDLBase` (export.cc:106-121), from the result of the visitor -/
def Ident.base (i : Ident) (field : Str) : Str × Str :=
  if field.isEmpty then (i.ns, i.front ++ i.back)
  else (i.ns, i.front ++ ' ' :: stripLeadingUnderscore field ++ i.back)

/-- `IDLTypeIdentifierVisitor::apply` and its `visit_` methods (export.cc:72-101, 158-243); the fuel bounds the depth
of arrays and containers -/
def ident (H : Heap) (o : Opts) : Nat → TId → Res Ident
  | 0, _ => .fuel
  | f + 1, t =>
    match H.kind t with
    | .null => .exn .exportError
    | .opaque => if o.opaqueAny then .ok ⟨[], normalizeIDLName "any".toList, []⟩ else .exn .exportError
    | .num c => .ok ⟨[], normalizeIDLName (numName (H.name t) c (H.size t)), []⟩
    | .enum _ => .ok ⟨absNs o (getNamespace (H.name t)), normalizeIDLName (getTypename (H.name t)), []⟩
    | .comp _ => .ok ⟨absNs o (getNamespace (H.name t)), normalizeIDLName (getTypename (H.name t)), []⟩
    | .ptr _ => .exn .exportError
    | .arr d e =>
      if H.cat e = .array then .exn .exportError else do
        let i ← ident H o f e
        let b := i.base []
        .ok ⟨b.1, normalizeIDLName b.2, '[' :: natStr d ++ [']']⟩
    | .vec e | .str e =>
      if H.name t = "/std/string".toList then .ok ⟨[], normalizeIDLName "string".toList, []⟩ else do
        let i ← ident H o f e
        let ns := if i.ns.isEmpty then absNs o ['/'] else i.ns
        .ok ⟨ns, normalizeIDLName (seqName (kindName (H.kind t)) (H.name e)), []⟩

/-- `getIDLAbsolute` (export.cc:141-151) -/
def getIDLAbsolute (H : Heap) (o : Opts) (f : Nat) (t : TId) (field : Str) : Res Str := do
  let i ← ident H o f t
  let b := i.base field
  .ok (if b.1.isEmpty then b.2 else normalizeIDLName (slashToColons b.1) ++ b.2)

def spaces (n : Nat) : Str := List.replicate n ' '

/-- fields of a structure (export.cc:323-331) -/
def fieldLines (H : Heap) (o : Opts) (f : Nat) (indent : Str) : List FieldD → Res Str
  | [] => .ok []
  | fd :: r => do
    let a ← getIDLAbsolute H o f fd.ty fd.name
    let rest ← fieldLines H o f indent r
    .ok (indent ++ a ++ ";\n".toList ++ rest)

/-- `boost::replace_all(s, "::", "_")` -/
def colonsToUnder : Str → Str
  | ':' :: ':' :: r => '_' :: colonsToUnder r
  | c :: r => c :: colonsToUnder r
  | [] => []

/-- `boost::join(symbols, ", ")` -/
def joinComma : List Str → Str
  | [] => []
  | [a] => a
  | a :: r => a ++ ',' :: ' ' :: joinComma r

/-- `IDLExportVisitor::apply` (export.cc:277-394): the target namespace, the text, and the name recorded in
`m_exported_typedefs`. -/
def exportType (H : Heap) (o : Opts) (f : Nat) (t : TId) : Res (Str × Str × Option Str) :=
  let ns := absNs o (getNamespace (H.name t))
  let indent := spaces (4 * namespaceIndentLevel ns)
  let base := getTypename (H.name t)
  match H.kind t with
  | .null => .exn .exportError
  | .opaque => if o.opaqueAny then .ok (ns, [], none) else .exn .exportError
  | .num _ => .ok (ns, [], none)
  | .ptr _ => .exn .exportError
  | .arr _ _ => .exn .exportError
  | .enum syms =>
    .ok (ns, indent ++ "enum ".toList ++ stripLeadingUnderscore base ++ " { ".toList ++
      joinComma (syms.map (fun s => stripLeadingUnderscore s.1)) ++ " };\n".toList, none)
  | .comp fs => do
    let body ← fieldLines H o f (indent ++ spaces 4) fs
    .ok (ns, indent ++ "struct ".toList ++ normalizeIDLName base ++ " {\n".toList ++ body ++ indent ++
      "};\n".toList, none)
  | .vec e | .str e =>
    if H.name t = "/std/string".toList then .ok (ns, [], none) else do
      let i ← ident H o f e
      let ns' := if i.ns.isEmpty then absNs o ['/'] else i.ns
      let elem ← getIDLAbsolute H o f e []
      let self ← ident H o f t
      let tn := colonsToUnder (self.base []).2
      .ok (ns', spaces (4 * namespaceIndentLevel ns') ++ "typedef sequence<".toList ++ elem ++ "> ".toList ++ tn ++
        ";\n".toList, some (getNamespace (H.name e) ++ tn))

/-- events on the stream -/
inductive Ev where
  | openM (indent : Nat) (name : Str)
  | close (indent : Nat)
  | text (s : Str)
  | typedef (indent : Nat) (s : Str)
  deriving DecidableEq

/-- text written for an event (export.cc:418, 453, 498, 599, 613) -/
def Ev.str : Ev → Str
  | .openM i n => spaces i ++ "module ".toList ++ n ++ " {\n".toList
  | .close i => '\n' :: spaces i ++ "};\n".toList
  | .text s => s
  | .typedef i s => spaces i ++ "typedef ".toList ++ s ++ ['\n']

def render (l : List Ev) : Str := l.flatMap Ev.str

/-- the members of `IDLExport` that change (export.hh:20-44); `indent` is the length of `m_indent` -/
structure St where
  ns : Str
  indent : Nat
  out : List Ev
  typedefs : SMap (List Str)
  exported : SMap TId

/-- `IDLExport::IDLExport` (export.cc:398-399) -/
def St.new : St := ⟨['/'], 0, [], [], []⟩

/-- `std::string(m_indent, 0, m_indent.size() - 4)`: the length is a `size_t` -/
def unindent (n : Nat) : Nat := if 4 ≤ n then n - 4 else n

/-- `closeNamespaces` (export.cc:413-420) -/
def closeNamespaces : Nat → St → St
  | 0, s => s
  | n + 1, s => closeNamespaces n { s with
      indent := unindent s.indent
      out := s.out ++ [.close (unindent s.indent)] }

/-- first loop of `adaptNamespace` (export.cc:443-447) -/
def dropCommon : List Str → List Str → List Str × List Str
  | a :: as, b :: bs => if a = b then dropCommon as bs else (a :: as, b :: bs)
  | as, bs => (as, bs)

/-- second loop of `adaptNamespace` (export.cc:451-456) -/
def openNamespaces : List Str → St → St
  | [], s => s
  | n :: r, s => openNamespaces r { s with
      indent := s.indent + 4
      out := s.out ++ [.openM s.indent (normalizeIDLName n)] }

/-- `adaptNamespace` (export.cc:435-459) -/
def adaptNamespace (s : St) (ns : Str) : St :=
  let s' := if s.ns ≠ ns then
      let d := dropCommon (nameSplit s.ns) (nameSplit ns)
      openNamespaces d.2 (closeNamespaces d.1.length s)
    else s
  { s' with ns := ns }

/-- the entry of the registry handed to `save` -/
structure Item where
  name : Str
  ty : TId
  isAlias : Bool

/-- what a call to `save` does -/
inductive Act where
  | skip
  | def_ (ns : Str) (text : Str) (record : Option (Str × TId))
  | typedef (ns : Str) (text : Str)
  | nothing         -- an alias without text: nothing is written, but `save` returns true

/-- `checkType` (export.cc:422-433) -/
def checkType (H : Heap) (t : TId) : Res Unit :=
  match H.kind t with
  | .ptr _ => .exn .exportError
  | .arr _ e => if H.cat e = .array ∨ H.cat e = .pointer then .exn .exportError else .ok ()
  | _ => .ok ()

def structOf (a b : Str) : Bool := a == "struct ".toList ++ b || a == "enum ".toList ++ b

/-- text of the typedef of an alias (export.cc:550-575) -/
def aliasText (H : Heap) (o : Opts) (f : Nat) (name : Str) (t : TId) : Res Str :=
  let base := stripLeadingUnderscore (getTypename name)
  match H.kind t with
  | .arr d e => do
    let a ← getIDLAbsolute H o f e []
    .ok (a ++ ' ' :: base ++ '[' :: natStr d ++ "];".toList)
  | .opaque => .ok (if o.opaqueAny then "any ".toList ++ base ++ ";".toList else [])
  | k =>
    if k.cat = .container ∧ H.name t ≠ "/std/string".toList then do
      let a ← getIDLAbsolute H o f (k.elem?.getD 0) []
      .ok ("sequence<".toList ++ a ++ "> ".toList ++ base ++ ";".toList)
    else if (getTypename name).all (fun c => c != ' ') then do
      let a ← getIDLAbsolute H o f t []
      .ok (a ++ ' ' :: base ++ ";".toList)
    else .ok []

/-- the decisions of `IDLExport::save(stream, type)` (export.cc:511-618) -/
def act (H : Heap) (o : Opts) (f : Nat) (s : St) (it : Item) : Res Act :=
  let tn := H.name it.ty
  if !o.selected.isEmpty && !o.selected.contains tn then .ok .skip
  else if it.isAlias then
    if getNamespace tn ≠ getNamespace it.name ∨
        (!structOf (getTypename tn) (getTypename it.name) && !structOf (getTypename it.name) (getTypename tn)) then do
      checkType H it.ty
      match find s.exported it.name with
      | some t' => if t' ≠ it.ty then .exn .exportError else .ok .skip
      | none =>
        if (getTypename it.name).any (fun c => c == '/' || c == '<' || c == '>') then .ok .skip
        else do
          let d ← aliasText H o f it.name it.ty
          .ok (if d.isEmpty then .nothing else .typedef (absNs o (getNamespace it.name)) d)
    else .ok .skip
  else if o.blob ≠ 0 ∧ (H.size it.ty : Int) > o.blob then
    let ns := absNs o (getNamespace it.name)
    .ok (.def_ ns (spaces (4 * namespaceIndentLevel ns) ++ "typedef sequence<octet> ".toList ++ getTypename tn ++
      ";\n".toList) none)
  else do
    let r ← exportType H o f it.ty
    .ok (if r.2.1.isEmpty then .skip else .def_ r.1 r.2.1 (r.2.2.map (fun n => (n, it.ty))))

/-- the effects of `IDLExport::save(stream, type)` -/
def perform (s : St) : Act → St
  | .skip => s
  | .nothing => s
  | .typedef ns d => { s with typedefs := upsert ns (fun old => old.getD [] ++ [d]) s.typedefs }
  | .def_ ns text rec =>
    let s := match rec with
      | none => s
      | some r => { s with exported := upsert r.1 (fun old => old.getD r.2) s.exported }
    let s := adaptNamespace s ns
    { s with out := s.out ++ [.text text] }

def save (H : Heap) (o : Opts) (f : Nat) (s : St) (it : Item) : Res St := do
  let a ← act H o f s it
  .ok (perform s a)

/-- the calls made by `Exporter::save` (C33), in any order -/
def saveAll (H : Heap) (o : Opts) (f : Nat) : St → List Item → Res St
  | s, [] => .ok s
  | s, it :: r => do
    let s ← save H o f s it
    saveAll H o f s r

/-- lines of `generateTypedefs` (export.cc:496-498) -/
def typedefLines : List Str → St → St
  | [], s => s
  | d :: r, s => typedefLines r { s with out := s.out ++ [.typedef s.indent d] }

/-- `generateTypedefs` (export.cc:489-500) -/
def generateTypedefs : SMap (List Str) → St → St
  | [], s => s
  | (ns, lines) :: r, s => generateTypedefs r (typedefLines lines (adaptNamespace s ns))

/-- `end` (export.cc:403-411) -/
def finish (s : St) : St :=
  let s := generateTypedefs s.typedefs s
  closeNamespaces (namespaceIndentLevel s.ns) s

/-- `Exporter::save` with this exporter -/
def export_ (H : Heap) (o : Opts) (f : Nat) (s : St) (items : List Item) : Res St := do
  let s ← saveAll H o f s items
  .ok (finish s)

end Verif.Idl
