import Verif.RubyBuilder
import Verif.RubyNames
import Verif.ClangBuilder

/-!
Model of the import of C++ headers through gccxml or castxml (bindings/ruby/lib/typelib/gccxml.rb): `resolve_type_definition` and
the functions it uses, and `load`, up to the extraction of the documentation.

The XML is data: `id_to_node`, with the attributes that the code reads. Each node has the name that `resolve_node_typelib_name` gives
(the conversion of names is modelled in `RubyNames`, property C60), and `find` is `find_node_by_name`. `FundamentalType` nodes have no
context and hence relative names (`double`), that the registry looks up in `/`: here they are absolute. Messages and metadata are not
modelled.
-/

namespace Verif.Gccxml
open Verif Verif.Names Verif.Graph Verif.Registry Verif.TypeBuilder Verif.Merge Verif.RubyBuilder Verif.RubyNames
open Verif.Clang (BKind)

/-- a `Field` node. `offset` is in bits; `bits` is the width of a bit-field, that the code does not ask for -/
structure GField where
  name : Str
  ty : Nat
  pub : Bool
  offset : Nat
  bits : Option Nat
  deriving DecidableEq, Repr

/-- a `Base` node; its offset is in bytes -/
structure GBase where
  ty : Nat
  virt : Bool
  pub : Bool
  offset : Nat
  deriving DecidableEq, Repr

/-- a `Struct` or `Class` node. `pub`: there is no `access` attribute, or it is `public`; `virt`: one of the members is a virtual
method; `size` is in bits -/
structure GRecord where
  name : Option Str
  pub : Bool
  incomplete : Bool
  virt : Bool
  bases : List GBase
  fields : List GField
  size : Nat
  deriving DecidableEq, Repr

/-- a node of the XML (gccxml.rb:43-49); `max` is `none` if it is not a number; the references, unions, functions... are not stored -/
inductive Node where
  | fund (name : Str) (bits : Nat) (k : BKind)
  | ptr (ty : Nat)
  | arr (ty : Nat) (max : Option Nat)
  | cv (ty : Nat) (const volatile : Bool)
  | typedef (name : Option Str) (pub : Bool) (ty : Nat)
  | enum (name : Option Str) (pub : Bool) (bits : Nat) (syms : List (Str × Int))
  | record (r : GRecord)
  | other (name : Option Str)
  deriving DecidableEq, Repr

/-- `resolve_node_typelib_name` (gccxml.rb:401-405) -/
def Node.name : Node → Option Str
  | .fund n _ _ => some n
  | .ptr _ => none
  | .arr _ _ => none
  | .cv _ _ _ => none
  | .typedef n _ _ => n
  | .enum n _ _ _ => n
  | .record r => r.name
  | .other n => n

/-- the access specifier is absent or `public` (gccxml.rb:569-572) -/
def Node.pub : Node → Bool
  | .typedef _ p _ => p
  | .enum _ p _ _ => p
  | .record r => r.pub
  | _ => true

def Node.isTypedef : Node → Bool
  | .typedef .. => true
  | _ => false

/-- What is read from the XML. `find` is `find_node_by_name` (gccxml.rb:747-759); `findTypedef` the same restricted to typedefs;
`targs n` and `canon n` are the template arguments in the name `n`, and `n` with all of them replaced by what the block of
`normalize_type_name` returns (gccxml.rb:222-232). -/
structure Prog where
  nodes : List Node
  find : Str → Option Nat
  findTypedef : Str → Option Nat
  targs : Str → List Str
  canon : Str → Str

/-- the loader: its registry, `id_to_name`, the keys of `ignore_message`, `@empty_compounds`, `permanent_aliases` -/
structure St where
  w : World
  names : Nat → Option Str
  ign : List Nat
  empty : List Nat
  perm : List Str

/-- `id_to_name[id] = n` -/
def St.setName (s : St) (id : Nat) (n : Str) : St := { s with names := fun i => if i = id then some n else s.names i }

/-- `ignore(xmlnode)` (gccxml.rb:429-439): returns `nil` -/
def ignore (s : St) (id : Nat) : St × Res (Option Str) := ({ s with ign := id :: s.ign }, .ok none)

/-- sequencing: an exception stops the import -/
def thenS {α β : Type} (x : St × Res α) (f : St → α → St × Res β) : St × Res β :=
  match x with
  | (s, .ok a) => f s a
  | (s, .exn e) => (s, .exn e)
  | (s, .ub) => (s, .ub)
  | (s, .fuel) => (s, .fuel)

/-- an operation on the registry -/
def onW {α : Type} (s : St) (x : World × Res α) : St × Res α := ({ s with w := x.1 }, x.2)

/-- `Registry#build(name)` (ext/registry.cc:159-176): `NotFound` (here `undefined`) if the name is not that of a type; all C++
exceptions become `RuntimeError` -/
def rbBuild (key : Char → Int) (w : World) (n : Str) : World × Res TId :=
  match build key w n 0 with
  | (w, .ok (some t)) => (w, .ok t)
  | (w, .ok none) => (w, .exn .undefined)
  | (w, .exn _) => (w, .exn .runtime)
  | (w, .ub) => (w, .ub)
  | (w, .fuel) => (w, .fuel)

/-- `registry.build(name)` on the loader -/
def buildS (key : Char → Int) (s : St) (n : Str) : St × Res TId := onW s (rbBuild key s.w n)

/-- `registry.alias(new, old)` -/
def aliasS (key : Char → Int) (s : St) (new old : Str) : St × Res Unit :=
  let o := rbAlias key s.w.1 s.w.2 new old
  ({ s with w := (s.w.1, o.1) }, o.2)

/-- `registry.get(name)` (ext/registry.cc:147-156) -/
def getS (s : St) (n : Str) : Res TId :=
  match s.w.2.get n with
  | some t => .ok t
  | none => .exn .undefined

/-- `resolve_type_id` (gccxml.rb:406-415) -/
def resolveId (P : Prog) (rec : St → Nat → St × Res (Option Str)) (s : St) (id : Nat) : St × Res (Option Str) :=
  if id ∈ s.ign then (s, .ok none)
  else match s.names id with
    | some n => (s, .ok (some n))
    | none =>
      match P.nodes[id]? with
      | none => (s, .ok none)
      | some _ => rec s id

/-- the block of `normalize_type_name` on the template arguments (gccxml.rb:223-231). Numbers (which are not absolute names) are no
types. -/
def resolveArgs (key : Char → Int) (P : Prog) (rec : St → Nat → St × Res (Option Str)) : St → List Str → St × Res Unit
  | s, [] => (s, .ok ())
  | s, a :: as =>
    if !isAbsoluteName a then resolveArgs key P rec s as
    else match buildS key s a with
      | (s, .ok _) => resolveArgs key P rec s as
      | (s, .exn .undefined) =>
        match P.find a with
        | none => resolveArgs key P rec s as
        | some id => thenS (rec s id) fun s _ => resolveArgs key P rec s as
      | (s, .exn e) => (s, .exn e)
      | (s, .ub) => (s, .ub)
      | (s, .fuel) => (s, .fuel)

/-- `normalize_type_name` (gccxml.rb:219-243) -/
def normalize (key : Char → Int) (P : Prog) (rec : St → Nat → St × Res (Option Str)) (s : St) (n : Str) : St × Res Str :=
  match buildS key s n with
  | (s, .ok t) => (s, .ok (s.w.1.name t))
  | (s, .exn .undefined) => thenS (resolveArgs key P rec s (P.targs n)) fun s _ => (s, .ok (P.canon n))
  | (s, .exn e) => (s, .exn e)
  | (s, .ub) => (s, .ub)
  | (s, .fuel) => (s, .fuel)

/-- `" const"`, `" volatile"`, `" const volatile"` (gccxml.rb:447-456) -/
def cvText (const volatile : Bool) : Str :=
  ' ' :: (if const && volatile then "const volatile".toList else if const then "const".toList
    else if volatile then "volatile".toList else [])

def isWord (c : Char) : Bool := c.isAlphanum || c == '_'

/-- `name =~ /\/__\w+$/` (gccxml.rb:558), for names of one line -/
def isPrivateName (n : Str) : Bool :=
  let r := n.reverse.takeWhile isWord
  decide (3 ≤ r.length) && decide (r.reverse.take 2 = ['_', '_']) && (n.reverse.drop r.length).head? == some '/'

/-- `name =~ /gccxml_workaround/` (gccxml.rb:549) -/
def isWorkaround : Str → Bool
  | [] => false
  | c :: s => "gccxml_workaround".toList.isPrefixOf (c :: s) || isWorkaround s

def stdVector : Str := "/std/vector".toList

/-- `registry.create_container "/std/vector", elem` (registry.rb:399-404, ext/registry.cc:551-568): `Container::createContainer`; no
exception of the factory is caught -/
def createVector (key : Char → Int) (s : St) (elem : Str) : St × Res TId :=
  thenS (buildS key s elem) fun s e =>
    match Clang.onM (vectorFactory key ⟨s.w.1, s.w.2, []⟩ e) with
    | (w, .ok t) => ({ s with w := w }, .ok t)
    | (w, .exn _) => ({ s with w := w }, .ub)
    | (w, .ub) => ({ s with w := w }, .ub)
    | (w, .fuel) => ({ s with w := w }, .fuel)

/-- the element of a container is made sure to be defined (gccxml.rb:580-593): `false` if it is ignored -/
def resolveElem (P : Prog) (rec : St → Nat → St × Res (Option Str)) (s : St) (a : Str) : St × Res Bool :=
  if s.w.2.has a then (s, .ok true)
  else match P.find a with
    | none => (s, .exn .runtime)
    | some i =>
      if i ∈ s.ign then (s, .ok false)
      else thenS (rec s i) fun s o => (s, .ok o.isSome)

/-- a container (gccxml.rb:577-601) -/
def resolveVector (key : Char → Int) (P : Prog) (rec : St → Nat → St × Res (Option Str)) (s : St) (id : Nat) (name : Str)
    (args : List Str) : St × Res (Option Str) :=
  match args with
  | [] => (s, .exn .rbType)
  | a :: _ =>
    thenS (resolveElem P rec s a) fun s b =>
      if !b then ignore s id
      else thenS (createVector key s a) fun s t =>
        thenS (if name ≠ s.w.1.name t then aliasS key s name (s.w.1.name t) else (s, .ok ())) fun s _ =>
          (s.setName id (s.w.1.name t), .ok (some (s.w.1.name t)))

/-- the loop over the base classes (gccxml.rb:604-623): `none` is `return ignore` -/
def resolveBases (P : Prog) (rec : St → Nat → St × Res (Option Str)) : St → List GBase → St × Res (Option (List (TId × Nat)))
  | s, [] => (s, .ok (some []))
  | s, b :: bs =>
    thenS (resolveId P rec s b.ty) fun s o =>
      if b.ty ∈ s.empty then resolveBases P rec s bs
      else match o with
        | none => (s, .ok none)
        | some n =>
          match getS s n with
          | .ok t =>
            if b.virt then (s, .ok none)
            else if !b.pub then (s, .ok none)
            else thenS (resolveBases P rec s bs) fun s o => (s, .ok (o.map ((t, b.offset) :: ·)))
          | .exn e => (s, .exn e)
          | .ub => (s, .ub)
          | .fuel => (s, .fuel)

/-- the fields of a base class, as `each_field` gives them (compound_type.rb:257-263, 340-343); the classes of other types have no
such method -/
def baseFields (w : World) (t : TId) : Res (List FieldD) :=
  match w.1.kind t with
  | .comp fs => .ok fs
  | _ => .exn .exception

/-- `base_classes.all? { |type, _| type.empty? }` -/
def allEmpty (w : World) : List (TId × Nat) → Res Bool
  | [] => .ok true
  | b :: bs => baseFields w b.1 >>= fun fs => if fs.isEmpty then allEmpty w bs else .ok false

/-- the loop over the fields (gccxml.rb:653-666): the name, the name of the type, the offset; `none` is `return ignore` -/
def resolveFields (P : Prog) (rec : St → Nat → St × Res (Option Str)) : St → List GField → St × Res (Option (List (Str × Str × Nat)))
  | s, [] => (s, .ok (some []))
  | s, f :: fs =>
    if !f.pub then (s, .ok none)
    else thenS (resolveId P rec s f.ty) fun s o =>
      match o with
      | none => (s, .ok none)
      | some n => thenS (resolveFields P rec s fs) fun s o => (s, .ok (o.map ((f.name, n, f.offset / 8) :: ·)))

/-- `base_type.offset_of(name)` (compound_type.rb:310-316): the first field with this name -/
def offsetOf (fs : List FieldD) (n : Str) : Nat :=
  match fs.find? (fun f => f.name == n) with
  | some f => f.offset
  | none => 0

/-- the fields that come from the base classes (gccxml.rb:669-674) -/
def inherited (w : World) : List (TId × Nat) → Res (List FieldReq)
  | [] => .ok []
  | b :: bs => baseFields w b.1 >>= fun fs => inherited w bs >>= fun r =>
    .ok (fs.map (fun f => ⟨f.name, f.ty, some ((b.2 + offsetOf fs f.name : Nat) : Int)⟩) ++ r)

/-- `c.add(field_name, field_type, field_offset)` (gccxml.rb:676-678, registry.rb:322-327) -/
def ownFields (key : Char → Int) : St → List (Str × Str × Nat) → St × Res (List FieldReq)
  | s, [] => (s, .ok [])
  | s, f :: fs => thenS (buildS key s f.2.1) fun s t => thenS (ownFields key s fs) fun s r => (s, .ok (⟨f.1, t, some (f.2.2 : Int)⟩ :: r))

/-- `registry.alias(name, normalized_name)`, if they differ -/
def aliasIf (key : Char → Int) (s : St) (name nn : Str) : St × Res Unit :=
  if name ≠ nn then aliasS key s name nn else (s, .ok ())

/-- a result that does not depend on the state -/
def liftS {α : Type} (s : St) (r : Res α) : St × Res α := (s, r)

/-- the compound itself (gccxml.rb:667-685) -/
def defineRecord (key : Char → Int) (s : St) (r : GRecord) (name nn : Str) (bases : List (TId × Nat))
    (fields : List (Str × Str × Nat)) : St × Res (Option Str) :=
  thenS (liftS s (inherited s.w bases)) fun s inh =>
    thenS (ownFields key s fields) fun s own =>
      thenS (onW s (createCompound key s.w nn (inh ++ own) ((r.size / 8 : Nat) : Int))) fun s _ =>
        thenS (aliasIf key s name nn) fun s _ => (s, .ok (some nn))

/-- a class which is not a container (gccxml.rb:603-701) -/
def resolveRecord (key : Char → Int) (P : Prog) (rec : St → Nat → St × Res (Option Str)) (s : St) (id : Nat) (r : GRecord)
    (name nn : Str) : St × Res (Option Str) :=
  thenS (resolveBases P rec s r.bases) fun s o =>
    match o with
    | none => ignore s id
    | some bases =>
      if r.incomplete then ignore s id
      else if r.virt then ignore s id
      else thenS (liftS s (if r.fields.isEmpty then allEmpty s.w bases else .ok false)) fun s e =>
        if e then ignore { s with empty := id :: s.empty } id
        else thenS (resolveFields P rec s r.fields) fun s o =>
          match o with
          | none => ignore s id
          | some fields => defineRecord key s r name nn bases fields

/-- `Typelib.basename(name).start_with?("__")` -/
def startsUnder (n : Str) : Bool := decide ((getTypename n).take 2 = ['_', '_'])

/-- a typedef (gccxml.rb:706-724). `id_to_name` gets the name of the type, but the value returned is `normalized_name`. -/
def resolveTypedef (key : Char → Int) (P : Prog) (rec : St → Nat → St × Res (Option Str)) (s : St) (id ty : Nat) (name nn : Str) :
    St × Res (Option Str) :=
  thenS (resolveId P rec s ty) fun s o =>
    match o with
    | none => ignore s id
    | some n =>
      thenS (liftS s (getS s n)) fun s t =>
        thenS (aliasIf key s name (s.w.1.name t)) fun s _ =>
          thenS (if nn ≠ s.w.1.name t then
              thenS (aliasS key s nn (s.w.1.name t)) fun s _ =>
                if startsUnder nn then (s, .ok ())
                else thenS (aliasS key s nn (s.w.1.name t)) fun s _ => ({ s with perm := nn :: s.perm }, .ok ())
            else (s, .ok ())) fun s _ =>
            (s.setName id (s.w.1.name t), .ok (some nn))

/-- an enumeration (gccxml.rb:726-736) -/
def resolveEnum (key : Char → Int) (s : St) (syms : List (Str × Int)) (name nn : Str) : St × Res (Option Str) :=
  thenS (onW s (createEnum key s.w nn (syms.map fun p => (p.1, some p.2)) 0)) fun s _ =>
    thenS (aliasIf key s name nn) fun s _ => (s, .ok (some nn))

/-- what is done of each kind of node, once it has a name (gccxml.rb:574-744) -/
def resolveKind (key : Char → Int) (P : Prog) (rec : St → Nat → St × Res (Option Str)) (s : St) (id : Nat) (nd : Node) (name nn : Str) :
    St × Res (Option Str) :=
  match nd with
  | .record r =>
    if (parseTemplate name).1 = some stringName then (s, .ok (some nn))
    else if (parseTemplate name).1 = some stdVector then resolveVector key P rec s id name (parseTemplate name).2
    else resolveRecord key P rec s id r name nn
  | .fund .. => if s.w.2.has name then (s, .ok (some nn)) else ignore s id
  | .typedef _ _ ty => resolveTypedef key P rec s id ty name nn
  | .enum _ _ _ syms => resolveEnum key s syms name nn
  | _ => ignore s id

/-- the part of `resolve_type_definition` for nodes that have names (gccxml.rb:547-572) -/
def resolveNamed (key : Char → Int) (P : Prog) (rec : St → Nat → St × Res (Option Str)) (s : St) (id : Nat) (nd : Node) :
    St × Res (Option Str) :=
  match nd.name with
  | none => (s, .ok none)
  | some name =>
    if isWorkaround name then (s, .ok none)
    else match s.w.2.get name with
      | some t => (s.setName id (s.w.1.name t), .ok (some (s.w.1.name t)))
      | none =>
        if !nd.isTypedef && isPrivateName name then ignore s id
        else thenS (normalize key P rec s name) fun s nn =>
          if !nd.pub then ignore (s.setName id nn) id
          else resolveKind key P rec (s.setName id nn) id nd name nn

/-- a pointer (gccxml.rb:514-521) -/
def resolvePtr (key : Char → Int) (P : Prog) (rec : St → Nat → St × Res (Option Str)) (s : St) (id ty : Nat) : St × Res (Option Str) :=
  thenS (resolveId P rec s ty) fun s o =>
    match o with
    | none => ignore s id
    | some n => thenS (buildS key (s.setName id (n ++ ['*'])) (n ++ ['*'])) fun s _ => (s, .ok (some (n ++ ['*'])))

/-- an array (gccxml.rb:522-535, registry.rb:414-419) -/
def resolveArr (key : Char → Int) (P : Prog) (rec : St → Nat → St × Res (Option Str)) (s : St) (id ty : Nat) (max : Option Nat) :
    St × Res (Option Str) :=
  thenS (resolveId P rec s ty) fun s o =>
    match o with
    | none => ignore s id
    | some n =>
      match max with
      | none => (s, .exn .runtime)
      | some m => thenS (buildS key (s.setName id (n ++ arrSuffix (m + 1))) (n ++ arrSuffix (m + 1))) fun s _ =>
          (s, .ok (some (n ++ arrSuffix (m + 1))))

/-- a qualified type (gccxml.rb:536-543, 446-461) -/
def resolveCv (key : Char → Int) (P : Prog) (rec : St → Nat → St × Res (Option Str)) (s : St) (id ty : Nat) (c v : Bool) :
    St × Res (Option Str) :=
  thenS (resolveId P rec s ty) fun s o =>
    match o with
    | none => (s, .ok none)
    | some n => thenS (aliasS key (s.setName id (n ++ cvText c v)) (n ++ cvText c v) n) fun s _ => (s, .ok (some n))

/-- `resolve_type_definition` (gccxml.rb:507-745). The recursion goes through the nodes: `fuel` bounds its depth. -/
def resolveDef (key : Char → Int) (P : Prog) : Nat → St → Nat → St × Res (Option Str)
  | 0, s, _ => (s, .fuel)
  | f + 1, s, id =>
    match s.names id with
    | some n => (s, .ok (some n))
    | none =>
      match P.nodes[id]? with
      | none => (s, .ok none)
      | some (.ptr ty) => resolvePtr key P (resolveDef key P f) s id ty
      | some (.arr ty max) => resolveArr key P (resolveDef key P f) s id ty max
      | some (.cv ty c v) => resolveCv key P (resolveDef key P f) s id ty c v
      | some nd => resolveNamed key P (resolveDef key P f) s id nd

/-- `resolve_type_definition` on each node of a list (gccxml.rb:871-878) -/
def resolveAll (key : Char → Int) (P : Prog) (f : Nat) : St → List Nat → St × Res Unit
  | s, [] => (s, .ok ())
  | s, i :: is => thenS (resolveDef key P f s i) fun s _ => resolveAll key P f s is

/-- the definition of the opaque types (gccxml.rb:863-865) -/
def createOpaques (key : Char → Int) : St → List Str → St × Res Unit
  | s, [] => (s, .ok ())
  | s, n :: ns => thenS (onW s (createOpaque key s.w n 0)) fun s _ => createOpaques key s ns

/-- `resolve_opaques` (gccxml.rb:778-795): the opaque types that are typedefs; `normalize_type_name(nil)` raises `TypeError` -/
def resolveOpaques (key : Char → Int) (P : Prog) (f : Nat) : St → List Str → St × Res Unit
  | s, [] => (s, .ok ())
  | s, o :: os =>
    match P.findTypedef o with
    | none => resolveOpaques key P f s os
    | some id =>
      match P.nodes[id]? with
      | some (.typedef _ _ ty) =>
        match (P.nodes[ty]?).bind Node.name with
        | none => (s, .exn .rbType)
        | some full =>
          thenS (normalize key P (resolveDef key P f) s full) fun s nn =>
            thenS (aliasS key s full o) fun s _ => thenS (aliasS key s nn o) fun s _ => resolveOpaques key P f s os
      | _ => (s, .exn .exception)

def basicString : Str := "/std/basic_string</char>".toList

/-- `resolve_std_string` (gccxml.rb:761-768); `alias(nil, ..)` raises `TypeError` -/
def resolveStdString (key : Char → Int) (P : Prog) (s : St) : St × Res Unit :=
  match P.findTypedef stringName with
  | none => (s, .ok ())
  | some id =>
    match P.nodes[id]? with
    | some (.typedef _ _ ty) =>
      match (P.nodes[ty]?).bind Node.name with
      | none => (s, .exn .rbType)
      | some full => aliasS key s full stringName
    | _ => (s, .exn .exception)

/-- the loader, with the standard types in its registry -/
def St.start (w : World) : St := ⟨w, fun _ => none, [], [], []⟩

/-- `load` (gccxml.rb:837-878), on a registry `w` that has the standard types; `types` and `typedefs` are the nodes declared in the
files, `opaques` the names of the opaque types, sorted -/
def load (key : Char → Int) (P : Prog) (f : Nat) (w : World) (opaques : List Str) (types typedefs : List Nat) : St × Res Unit :=
  thenS (aliasS key (.start w) basicString stringName) fun s _ =>
    thenS (resolveStdString key P s) fun s _ =>
      thenS (createOpaques key s opaques) fun s _ =>
        thenS (resolveOpaques key P f s opaques) fun s _ =>
          thenS (resolveAll key P f s types) fun s _ => resolveAll key P f s typedefs

end Verif.Gccxml
