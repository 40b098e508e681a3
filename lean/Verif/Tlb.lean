import Verif.Xml
import Verif.Merge
import Verif.MetaData
import Verif.EnumModel
import Verif.CompoundModel
import Verif.Exporter

/-!
Model of the TLB exporter and importer (lang/tlb/export.cc, lang/tlb/import.cc, lang/tlb/xmltools.hh), property C38.

The text is modelled character by character. Reading the text as XML is done by libxml2, described in `Verif.Xml`.
-/

namespace Verif.Tlb
open Verif Verif.Names Verif.Graph Verif.Registry Verif.TypeBuilder Verif.StdMap Verif.Merge Verif.Xml

/-- the metadata of the types and, in the order of the fields, of their fields -/
structure Metas where
  own : TId → Meta.MetaData
  fields : TId → List Meta.MetaData

/-! ### Export (export.cc) -/

/-- `result.replace(result.find_first_of("<>"), 1, ...)`; `none`: no such character (export.cc:55-62) -/
def escFirst : Str → Option Str
  | [] => none
  | c :: r =>
    if c = '<' then some ("&lt;".toList ++ r)
    else if c = '>' then some ("&gt;".toList ++ r)
    else (escFirst r).map (c :: ·)

/-- the loop of `xmlEscape` (export.cc:56-63); at most one round for each character of the source -/
def escLoop : Nat → Str → Str
  | 0, s => s
  | f + 1, s =>
    match escFirst s with
    | none => s
    | some s' => escLoop f s'

/-- `xmlEscape` (export.cc:52-66) -/
def xmlEscape (s : Str) : Str := escLoop (s.length + 1) s

/-- `ostream << int` -/
def intStr (i : Int) : Str := (toString i).toList

/-- one attribute: what separates it from what precedes, its name, its text -/
structure At where
  ws : Str
  name : Str
  text : Str

def at_ (name : String) (text : Str) : At := ⟨[' '], name.toList, text⟩

def At.txt (a : At) : Str := a.ws ++ a.name ++ "=\"".toList ++ a.text ++ ['"']

/-- a start tag up to its closing `>` or `/>`, excluded -/
def tagTxt (name : String) (as : List At) (trail : Str) : Str := '<' :: name.toList ++ as.flatMap At.txt ++ trail

def closeTxt (name : String) : Str := "</".toList ++ name.toList ++ ['>']

/-- the elements of one key in `emitMetaData(MetaData const&)` (export.cc:79-88) -/
def emitKey (p : Str × List Str) : Str :=
  if p.2.isEmpty then tagTxt "metadata" [at_ "key" p.1] [' '] ++ "/>".toList
  else p.2.flatMap (fun v => tagTxt "metadata" [at_ "key" p.1] [] ++ ">".toList ++ "<![CDATA[".toList ++ v ++
    "]]>".toList ++ closeTxt "metadata" ++ ['\n'])

/-- `emitMetaData(MetaData const&)` (export.cc:72-92) -/
def emitMetaData (m : Meta.MetaData) : Str := m.flatMap emitKey

/-- the last attribute of a type: `emitSourceID` (export.cc:94-99) after a space -/
def srcAttr (src : Str) : List At := if src = [] then [] else [at_ "source_id" (xmlEscape src)]

/-- without a source, the space that precedes `emitSourceID` is followed by `>` -/
def srcTrail (src : Str) : Str := if src = [] then [' '] else []

/-- `getStringCategory` (export.cc:138-151) -/
def catStr : NumCat → Str
  | .sint => "sint".toList
  | .uint => "uint".toList
  | .float => "float".toList

/-- `visit_(Compound const&, Field const&)` (export.cc:124-134), with its metadata -/
def emitField (H : Heap) (ind : Str) (p : FieldD × Meta.MetaData) : Str :=
  ind ++ tagTxt "field" [at_ "name" p.1.name, at_ "type" (xmlEscape (H.name p.1.ty)), at_ "offset" (natStr p.1.offset)] [] ++
    ">\n".toList ++ ind ++ emitMetaData p.2 ++ ['\n'] ++ ind ++ closeTxt "field" ++ ['\n']

/-- one symbol of an enum (export.cc:232) -/
def emitSymbol (ind : Str) (p : Str × Int) : Str :=
  ind ++ tagTxt "value" [at_ "symbol" p.1, at_ "value" (intStr p.2)] [] ++ "/>\n".toList

/-- the end of all elements: `m_indent`, the metadata, the end tag (export.cc:105-106 and alike) -/
def emitEnd (ind : Str) (name : String) (m : Meta.MetaData) : Str :=
  ind ++ emitMetaData m ++ ['\n'] ++ ind ++ closeTxt name

/-- `indirect` (export.cc:177-182): in "<pointer " and alike, the name is preceded by two spaces -/
def indirectAttrs (H : Heap) (t e : TId) : List At :=
  [⟨"  ".toList, "name".toList, xmlEscape (H.name t)⟩, at_ "of" (xmlEscape (H.name e))]

def vectorKind : Str := "/std/vector".toList
def stringKind : Str := "/std/string".toList

/-- `TlbExportVisitor::visit_` of each class (export.cc:101-238). `m_indent` is `ind`, nested elements are indented by two
more spaces. The visit of the fields (`TypeVisitor::visit_(Compound)`, typevisitor.cc:25-33) goes on because
`visit_(Compound, Field)` returns true. -/
def emitType (H : Heap) (M : Metas) (ind : Str) (src : Str) (t : TId) : Str :=
  let sub := ind ++ "  ".toList
  match H.kind t with
  | .opaque => tagTxt "opaque" ([at_ "name" (xmlEscape (H.name t)), at_ "size" (natStr (H.size t))] ++ srcAttr src)
      (srcTrail src) ++ ">\n".toList ++ emitEnd ind "opaque" (M.own t)
  | .comp fs => tagTxt "compound" ([at_ "name" (xmlEscape (H.name t)), at_ "size" (natStr (H.size t))] ++ srcAttr src)
      (srcTrail src) ++ ">\n".toList ++ (fs.zip (M.fields t)).flatMap (emitField H sub) ++ emitEnd ind "compound" (M.own t)
  | .num c => tagTxt "numeric" ([at_ "name" (H.name t), at_ "category" (catStr c), at_ "size" (natStr (H.size t))] ++
      srcAttr src) (srcTrail src) ++ ">\n".toList ++ emitEnd ind "numeric" (M.own t)
  | .null => tagTxt "null" ([⟨"  ".toList, "name".toList, H.name t⟩] ++ srcAttr src) (srcTrail src) ++ ">\n".toList ++
      emitEnd ind "null" (M.own t)
  | .ptr e => tagTxt "pointer" (indirectAttrs H t e ++ srcAttr src) (srcTrail src) ++ ">\n".toList ++
      emitEnd ind "pointer" (M.own t)
  | .arr d e => tagTxt "array" (indirectAttrs H t e ++ [at_ "dimension" (natStr d)] ++ srcAttr src) (srcTrail src) ++
      ">\n".toList ++ emitEnd ind "array" (M.own t)
  | .vec e => tagTxt "container" (indirectAttrs H t e ++ [at_ "size" (natStr (H.size t)),
      at_ "kind" (xmlEscape vectorKind)] ++ srcAttr src) (srcTrail src) ++ ">\n".toList ++ emitEnd ind "container" (M.own t)
  | .str e => tagTxt "container" (indirectAttrs H t e ++ [at_ "size" (natStr (H.size t)),
      at_ "kind" (xmlEscape stringKind)] ++ srcAttr src) (srcTrail src) ++ ">\n".toList ++ emitEnd ind "container" (M.own t)
  | .enum syms => tagTxt "enum" ([at_ "name" (H.name t)] ++ srcAttr src) (srcTrail src) ++ ">\n".toList ++
      syms.flatMap (emitSymbol sub) ++ emitEnd ind "enum" (M.own t)

/-- `TlbExport::save(stream, type)` (export.cc:258-276) -/
def emitEntry (H : Heap) (M : Metas) (p : Str × Entry) : Str :=
  if isAlias H p then
    "  ".toList ++ tagTxt "alias" [at_ "name" (xmlEscape p.1), at_ "source" (xmlEscape (H.name p.2.ty))] [] ++ "/>\n".toList
  else "  ".toList ++ emitType H M "  ".toList p.2.source p.2.ty ++ ['\n']

/-- `TlbExport::begin`, `save` of each entry, `end` (export.cc:243-256) -/
def emitDoc (H : Heap) (M : Metas) (l : List (Str × Entry)) : Str :=
  "<?xml version=\"1.0\"?>\n".toList ++ (tagTxt "typelib" [] [] ++ ">\n".toList ++ l.flatMap (emitEntry H M) ++
    closeTxt "typelib" ++ ['\n'])

/-- `Exporter::save` with a TLB exporter: the text and the outcome. An exception leaves a truncated text. -/
def exportTlb (key : Char → Int) (H : Heap) (M : Metas) (R : Reg) : Res Str :=
  match Exporter.save key H (fun _ => true) R with
  | (l, .ok ()) => .ok (emitDoc H M l)
  | (_, .exn e) => .exn e
  | (_, .ub) => .ub
  | (_, .fuel) => .fuel

/-! ### Import (import.cc) -/

def Node.attr (n : Node) (a : String) : Option Str :=
  match n with
  | .elem _ as _ => as.lookup a.toList
  | .cdata _ => none

def Node.name : Node → Str
  | .elem n _ _ => n
  | .cdata _ => "cdata-section".toList

def Node.children : Node → List Node
  | .elem _ _ c => c
  | .cdata _ => []

/-- `getStringAttribute` (xmltools.hh:19-28): `MissingAttribute` is an `ImportError` -/
def getAttr (n : Node) (a : String) : Res Str :=
  match Node.attr n a with
  | some v => .ok v
  | none => .exn .exception

/-- a decimal number -/
def decimal (s : Str) : Option Nat :=
  if s.isEmpty then none
  else if s.all Char.isDigit then some (Nat.ofDigitChars 10 s 0) else none

/-- sign and digits, as read by `boost::lexical_cast` -/
def signed (s : Str) : Option (Bool × Nat) :=
  match s with
  | '-' :: r => (decimal r).map (true, ·)
  | '+' :: r => (decimal r).map (false, ·)
  | s => (decimal s).map (false, ·)

/-- `boost::lexical_cast<size_t>`: a minus sign is accepted and the value is negated in `size_t` -/
def castSize (s : Str) : Res Nat :=
  match signed s with
  | some (neg, n) => if n < TypeBuilder.W then .ok (if neg then (TypeBuilder.W - n) % TypeBuilder.W else n) else .exn .exception
  | none => .exn .exception

/-- `boost::lexical_cast<int>` -/
def castInt (s : Str) : Res Int :=
  match signed s with
  | some (neg, n) =>
    let i : Int := if neg then -n else n
    if -(2 ^ 31 : Int) ≤ i ∧ i < 2 ^ 31 then .ok i else .exn .exception
  | none => .exn .exception

/-- `getAttribute<size_t>` -/
def getSizeAttr (n : Node) (a : String) : Res Nat := getAttr n a >>= castSize

/-- the first CDATA child -/
def firstCData : List Node → Option Str
  | [] => none
  | .cdata v :: _ => some v
  | _ :: r => firstCData r

/-- one round of the loop of `loadMetaData` (import.cc:66-86) -/
def loadMeta1 (m : Meta.MetaData) (x : Node) : Res Meta.MetaData :=
  match x with
  | .cdata _ => .ok m
  | .elem n _ ch =>
    if n ≠ "metadata".toList then .ok m
    else getAttr x "key" >>= fun key =>
      match firstCData ch with
      | some v => .ok (Meta.add (Meta.addSet m key []) key v)
      | none => .ok (Meta.addSet m key [])

/-- `loadMetaData` (import.cc:63-87) -/
def loadMeta : List Node → Meta.MetaData → Res Meta.MetaData
  | [], m => .ok m
  | x :: r, m => loadMeta1 m x >>= loadMeta r

/-- the loaders of `node_categories` (import.cc:321-336) -/
inductive Loader where
  | alias | numeric | null | opaque | enum | compound | container
  deriving DecidableEq, Repr

/-- `getCategoryFromNode(node_categories, name)` (import.cc:19-28, 327-336) -/
def loaderOf (n : Str) : Res Loader :=
  if n = "alias".toList then .ok .alias
  else if n = "numeric".toList then .ok .numeric
  else if n = "null".toList then .ok .null
  else if n = "opaque".toList then .ok .opaque
  else if n = "enum".toList then .ok .enum
  else if n = "compound".toList then .ok .compound
  else if n = "container".toList then .ok .container
  else .exn .runtime

/-- `TypeNode` (import.cc:40-56) -/
structure TNode where
  xml : Node
  file : Str
  loader : Loader

/-- What an import works on: the type objects with their metadata, the tables of the registry, and `m_map`. -/
structure ISt where
  H : Heap
  R : Reg
  md : Metas
  map : SMap TNode

def bind' {α β : Type} (x : ISt × Res α) (f : ISt → α → ISt × Res β) : ISt × Res β :=
  match x with
  | (s, .ok a) => f s a
  | (s, .exn e) => (s, .exn e)
  | (s, .ub) => (s, .ub)
  | (s, .fuel) => (s, .fuel)

@[simp] theorem bind'_ok {α β : Type} (s : ISt) (a : α) (f : ISt → α → ISt × Res β) : bind' (s, .ok a) f = f s a := rfl

def ISt.world (s : ISt) (H : Heap) (R : Reg) : ISt := { s with H := H, R := R }

/-- an operation on the objects and the tables -/
def onMerge {α : Type} (s : ISt) (x : MSt × Res α) : ISt × Res α := (s.world x.1.H x.1.R, x.2)

def Metas.setOwn (M : Metas) (t : TId) (m : Meta.MetaData) : Metas := { M with own := fun u => if u = t then m else M.own u }
def Metas.setFields (M : Metas) (t : TId) (m : List Meta.MetaData) : Metas :=
  { M with fields := fun u => if u = t then m else M.fields u }

/-- `loadMetaData(type, object->getMetaData())` -/
def loadTypeMeta (s : ISt) (n : TNode) (t : TId) : ISt × Res Unit :=
  match loadMeta (Node.children n.xml) (s.md.own t) with
  | .ok m => ({ s with md := s.md.setOwn t m }, .ok ())
  | .exn e => (s, .exn e)
  | .ub => (s, .ub)
  | .fuel => (s, .fuel)

/-- `new` and `Factory::insert` (import.cc:101-105): a new object has no metadata -/
def insert (key : Char → Int) (s : ISt) (n : TNode) (d : TypeDef) : ISt × Res TId :=
  let t := s.H.next
  bind' (loadTypeMeta { s with H := s.H.alloc d } n t) fun s _ =>
    bind' (s.world s.H (addAuto key s.H s.R t n.file).1, (addAuto key s.H s.R t n.file).2) fun s _ => (s, .ok t)

/-- `numeric_categories` (import.cc:171-176) -/
def catOf (s : Str) : Res NumCat :=
  if s = "sint".toList then .ok .sint
  else if s = "uint".toList then .ok .uint
  else if s = "float".toList then .ok .float
  else .exn .runtime

/-- lifts a computation that does not change anything -/
def pureRes {α : Type} (s : ISt) (r : Res α) : ISt × Res α := (s, r)

/-- `load_numeric` (import.cc:177-187) -/
def loadNumeric (key : Char → Int) (s : ISt) (name : Str) (n : TNode) : ISt × Res TId :=
  bind' (pureRes s (getAttr n.xml "category" >>= catOf)) fun s c =>
    bind' (pureRes s (getSizeAttr n.xml "size")) fun s size => insert key s n ⟨name, size, .num c⟩

/-- `load_null` (import.cc:188-193); `NullType` has size 0 -/
def loadNull (key : Char → Int) (s : ISt) (name : Str) (n : TNode) : ISt × Res TId := insert key s n ⟨name, 0, .null⟩

/-- `load_opaque` (import.cc:194-200) -/
def loadOpaque (key : Char → Int) (s : ISt) (name : Str) (n : TNode) : ISt × Res TId :=
  bind' (pureRes s (getSizeAttr n.xml "size")) fun s size => insert key s n ⟨name, size, .opaque⟩

/-- the loop of `load_enum` (import.cc:228-236) -/
def loadSymbols : List Node → EnumModel.Enum → Res EnumModel.Enum
  | [], e => .ok e
  | x :: r, e =>
    if Node.name x ≠ "value".toList then loadSymbols r e
    else getAttr x "symbol" >>= fun symbol => (getAttr x "value" >>= castInt) >>= fun value =>
      match e.add symbol value with
      | (e', .ok ()) => loadSymbols r e'
      | (_, .exn err) => .exn err
      | (_, .ub) => .ub
      | (_, .fuel) => .fuel

/-- `load_enum` (import.cc:225-240); an `Enum` has the size of a C++ `enum`, 4 (typemodel.cc:453-455) -/
def loadEnum (key : Char → Int) (s : ISt) (name : Str) (n : TNode) : ISt × Res TId :=
  bind' (pureRes s (loadSymbols (Node.children n.xml) ⟨-1, []⟩)) fun s e => insert key s n ⟨name, 4, .enum e.values⟩

/-- insertion in a list of fields sorted by `fieldOffsetOrdering`, after the fields that are not greater -/
def insertPair (f : FieldD × Meta.MetaData) : List (FieldD × Meta.MetaData) → List (FieldD × Meta.MetaData)
  | [] => [f]
  | g :: r => if CompoundModel.fieldLt f.1 g.1 then f :: g :: r else g :: insertPair f r

/-- `Compound::normalizeFieldOrder` (typemodel.cc:317-320) on fields with their metadata; see
`CompoundModel.Comp.normalizeFieldOrder` -/
def sortFields (l : List (FieldD × Meta.MetaData)) : List (FieldD × Meta.MetaData) := l.foldl (fun l f => insertPair f l) []

/-- the loop of `load_compound` (import.cc:255-269). The fields are collected instead of being added to the `Compound`,
which nothing else sees before it is inserted. -/
def loadFields (rec : ISt → Str → ISt × Res TId) : List Node → List (FieldD × Meta.MetaData) → ISt →
    ISt × Res (List (FieldD × Meta.MetaData))
  | [], acc, s => (s, .ok acc)
  | x :: r, acc, s =>
    if Node.name x ≠ "field".toList then loadFields rec r acc s
    else
      bind' (pureRes s (getAttr x "name")) fun s name =>
      bind' (pureRes s (getAttr x "type")) fun s tname =>
      bind' (pureRes s (getSizeAttr x "offset")) fun s offset =>
      bind' (rec s tname) fun s t =>
      bind' (pureRes s (loadMeta (Node.children x) [])) fun s m => loadFields rec r (acc ++ [(⟨name, offset, t⟩, m)]) s

/-- `load_compound` (import.cc:250-275). The object is allocated after its fields are built, not before; `addField`
changes the size, which `setSize` then overwrites. -/
def loadCompound (key : Char → Int) (rec : ISt → Str → ISt × Res TId) (s : ISt) (name : Str) (n : TNode) : ISt × Res TId :=
  bind' (pureRes s (getSizeAttr n.xml "size")) fun s size =>
  bind' (loadFields rec (Node.children n.xml) [] s) fun s fs =>
    let fs := sortFields fs
    insert key { s with md := s.md.setFields s.H.next (fs.map (·.2)) } n ⟨name, size, .comp (fs.map (·.1))⟩

/-- `Container::createContainer` (typemodel.cc:597-608) with the two factories of lang/csupport/containers.cc -/
def createContainer (key : Char → Int) (s : MSt) (kind : Str) (e : TId) : MSt × Res TId :=
  if kind = vectorKind then vectorFactory key s e
  else if kind = stringKind then stringFactory key s
  else (s, .exn .exception)

/-- `load_container` (import.cc:201-224): a missing or null size means the size set by the constructor -/
def loadContainer (key : Char → Int) (rec : ISt → Str → ISt × Res TId) (s : ISt) (n : TNode) : ISt × Res TId :=
  bind' (pureRes s (getAttr n.xml "of")) fun s indirect_name =>
  bind' (rec s indirect_name) fun s e =>
  bind' (pureRes s (getAttr n.xml "kind")) fun s kind =>
  bind' (pureRes s (match Node.attr n.xml "size" with
    | none => .ok 0
    | some v => castInt v)) fun s size =>
  bind' (onMerge s (createContainer key ⟨s.H, s.R, []⟩ kind e)) fun s t =>
  let s := if size ≠ 0 then { s with H := setSize s.H t (toSizeT size) } else s
  bind' (loadTypeMeta s n t) fun s _ => (s, .ok t)

/-- `load_alias` (import.cc:241-247) and `Factory::alias` (import.cc:107-108) -/
def loadAlias (key : Char → Int) (rec : ISt → Str → ISt × Res TId) (s : ISt) (name : Str) (n : TNode) : ISt × Res TId :=
  bind' (pureRes s (getAttr n.xml "source")) fun s source =>
  bind' (rec s source) fun s t =>
  bind' (s.world s.H (aliasAuto key s.H s.R source name []).1, (aliasAuto key s.H s.R source name []).2) fun s _ => (s, .ok t)

/-- `type.loader(type, *this)` -/
def load (key : Char → Int) (rec : ISt → Str → ISt × Res TId) (s : ISt) (name : Str) (n : TNode) : ISt × Res TId :=
  match n.loader with
  | .alias => loadAlias key rec s name n
  | .numeric => loadNumeric key s name n
  | .null => loadNull key s name n
  | .opaque => loadOpaque key s name n
  | .enum => loadEnum key s name n
  | .compound => loadCompound key rec s name n
  | .container => loadContainer key rec s n

/-- `m_registry.alias(t->getName(), name)` unless `t` has that name or the registry has it (import.cc:134-135, 149-150) -/
def aliasTo (key : Char → Int) (s : ISt) (t : TId) (name : Str) : ISt × Res Unit :=
  if s.H.name t ≠ name ∧ s.R.has name = false then
    (s.world s.H (aliasAuto key s.H s.R (s.H.name t) name []).1, (aliasAuto key s.H s.R (s.H.name t) name []).2)
  else (s, .ok ())

/-- the first part of `Factory::build(name)` (import.cc:121-143): the type called `basename` -/
def buildBase (key : Char → Int) (rec : ISt → Str → ISt × Res TId) (s : ISt) (basename : Str) : ISt × Res TId :=
  match s.R.get basename with
  | some base => ({ s with map := erase basename s.map }, .ok base)
  | none =>
    match find s.map basename with
    | none => (s, .exn .undefined)
    | some n =>
      bind' (load key rec { s with map := erase basename s.map } basename n) fun s base =>
      bind' (aliasTo key s base basename) fun s _ => (s, .ok base)

/-- `Factory::build(name)` (import.cc:117-156). `NULL` given by `Registry::build` is dereferenced. The recursion is bounded
by `fuel`. -/
def build (key : Char → Int) : Nat → ISt → Str → ISt × Res TId
  | 0, s, _ => (s, .fuel)
  | f + 1, s, name =>
    match parseTypename name with
    | .exn e => (s, .exn e)
    | .ub => (s, .ub)
    | .fuel => (s, .fuel)
    | .ok (basename, _) =>
      bind' (buildBase key (build key f) s basename) fun s base =>
      if basename = name then (s, .ok base)
      else
        bind' (s.world (TypeBuilder.build key (s.H, s.R) name 0).1.1 (TypeBuilder.build key (s.H, s.R) name 0).1.2,
          (TypeBuilder.build key (s.H, s.R) name 0).2) fun s derived =>
        match derived with
        | none => (s, .ub)
        | some t => bind' (aliasTo key s t name) fun s _ => ({ s with map := erase name s.map }, .ok t)

/-- `Factory::build(map)` (import.cc:110-115); each nested call removes an entry from the map -/
def buildAll (key : Char → Int) : Nat → ISt → ISt × Res Unit
  | 0, s => (s, .fuel)
  | f + 1, s =>
    match s.map with
    | [] => (s, .ok ())
    | p :: _ => bind' (build key (s.map.length + 1) s p.1) fun s _ => buildAll key f s

/-- `load(file, map, node)` (import.cc:338-357), with an empty `file` -/
def register (map : SMap TNode) (x : Node) : Res (SMap TNode) :=
  getAttr x "name" >>= fun name => loaderOf (Node.name x) >>= fun l =>
    match find map name with
    | some _ => .ok map
    | none => .ok (upsert name (fun _ => ⟨x, (Node.attr x "source_id").getD [], l⟩) map)

/-- the loop of `parse` (import.cc:371-382) -/
def registerAll : List Node → SMap TNode → Res (SMap TNode)
  | [], m => .ok m
  | x :: r, m => register m x >>= registerAll r

/-- `parse` (import.cc:359-386): the types of the document are added to the registry -/
def importTree (key : Char → Int) (H : Heap) (R : Reg) (M : Metas) (root : Node) : ISt × Res Unit :=
  let s : ISt := ⟨H, R, M, []⟩
  if Node.name root ≠ "typelib".toList then (s, .exn .exception)
  else bind' (pureRes s (registerAll (Node.children root) [])) fun s map => buildAll key (map.length + 1) { s with map := map }

/-- `TlbImport::load` (import.cc:388-424) -/
def importTlb (key : Char → Int) (H : Heap) (R : Reg) (M : Metas) (text : Str) : ISt × Res Unit :=
  match parseDoc text with
  | none => (⟨H, R, M, []⟩, .exn .exception)
  | some root => importTree key H R M root

end Verif.Tlb
