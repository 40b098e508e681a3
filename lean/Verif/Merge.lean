import Verif.TypeCompare
import Verif.TypeBuilder

/-!
Model of the copy of types from a registry to another: `Type::merge`, `Type::try_merge`,
`Indirect::merge`, the `do_merge` of each class (typemodel.cc:104-138, 249-250, 266-274, 379-395, 517-518,
544-550, 570-576, 616-626, typemodel.hh:252-266), `Vector::factory`, `String::factory`
(lang/csupport/containers.cc:367-387, 491-512), `Registry::merge`, `copySourceIDs` and the two
`Registry::minimal` (registry.cc:133-257).

Both registries live in the same heap: their types are objects of `H`. The metadata of types and
fields are not part of this model (`mergeMetaData`, registry.cc:170-179, is left out).
-/

namespace Verif.Merge
open Verif Verif.Names Verif.Graph Verif.Registry Verif.TypeBuilder

/-- What a merge works on: the heap, the tables of the destination, and the `RecursionStack`, a
`std::map<Type const*, Type const*>` shared by the calls. -/
structure MSt where
  H : Heap
  R : Reg
  st : Stack

/-- `stack.insert(make_pair(k, v))`: keeps an existing value. -/
def sins (st : Stack) (k v : TId) : Stack :=
  match st.lookup k with
  | some _ => st
  | none => (k, v) :: st

/-- `stack.erase(it)` -/
def serase (st : Stack) (k : TId) : Stack := st.filter (fun p => p.1 != k)

/-- sequencing: an exception (or undefined behaviour) stops the computation where it is -/
def andThen {α β : Type} (x : MSt × Res α) (f : MSt → α → MSt × Res β) : MSt × Res β :=
  match x with
  | (s, .ok a) => f s a
  | (s, .exn e) => (s, .exn e)
  | (s, .ub) => (s, .ub)
  | (s, .fuel) => (s, .fuel)

@[simp] theorem andThen_ok {α β : Type} (s : MSt) (a : α) (f : MSt → α → MSt × Res β) :
    andThen (s, .ok a) f = f s a := rfl
@[simp] theorem andThen_exn {α β : Type} (s : MSt) (e : Err) (f : MSt → α → MSt × Res β) :
    andThen (s, .exn e) f = (s, .exn e) := rfl

/-- an operation on the tables only -/
def onReg (s : MSt) (x : Reg × Res Unit) : MSt × Res Unit := ({ s with R := x.1 }, x.2)

/-- `new`: a fresh object; gives its address -/
def MSt.new (s : MSt) (d : TypeDef) : MSt := { s with H := s.H.alloc d }

/-- a change of the attributes of an object -/
def MSt.set (s : MSt) (t : TId) (d : TypeDef) : MSt :=
  { s with H := { s.H with get := fun u => if u = t then d else s.H.get u } }

/-- `Type::try_merge` (typemodel.cc:109-126): `NULL` is `none`. The comparison gets the stack of the
merge. -/
def tryMerge (s : MSt) (u : TId) : MSt × Res (Option TId) :=
  match s.st.lookup u with
  | some v => (s, .ok (some v))
  | none =>
    match s.R.get (s.H.name u) with
    | none => (s, .ok none)
    | some old =>
      match doCompare s.H (s.H.next + 1) true old u s.st with
      | .ok (true, st') => ({ s with st := sins st' u old }, .ok (some old))
      | .ok (false, st') => ({ s with st := st' }, .exn .mismatch)
      | .exn e => (s, .exn e)
      | .ub => (s, .ub)
      | .fuel => (s, .fuel)

/-- `Vector::fullName` (containers.cc:17-18) -/
def vecName (n : Str) : Str := "/std/vector<".toList ++ n ++ ['>']

/-- `Vector::Vector` (containers.cc:20-24): `sizeof(std::vector<void>)` is 24 on the modelled platform. The layout
computed by the constructor is not an attribute of the type. -/
def vecDef (H : Heap) (e : TId) : TypeDef := ⟨vecName (H.name e), 24, .vec e⟩

def stringName : Str := "/std/string".toList
def int8Name : Str := "/int8_t".toList

/-- `registry.has(name)`, whose `build_if_missing` is true -/
def hasM (s : MSt) (n : Str) : MSt × Res Bool := (s, TypeBuilder.has s.R n true)

/-- `Vector::factory` (containers.cc:367-387). `get` gives `NULL` when `has` only knows how to build the name: the
dereference is undefined behaviour. `BadCategory` is a plain exception. -/
def vectorFactory (key : Char → Int) (s : MSt) (e : TId) : MSt × Res TId :=
  let n := vecName (s.H.name e)
  andThen (hasM s n) fun s b =>
    if !b then
      let s1 := s.new (vecDef s.H e)
      andThen (onReg s1 (addAuto key s1.H s1.R s.H.next [])) fun s2 _ => (s2, .ok s.H.next)
    else match s.R.get n with
      | none => (s, .ub)
      | some t => if s.H.cat t = .container then (s, .ok t) else (s, .exn .exception)

/-- the character type of `String::factory` (containers.cc:499-507) -/
def stringElement (key : Char → Int) (s : MSt) : MSt × Res TId :=
  andThen (hasM s int8Name) fun s b =>
    if !b then
      let s1 := s.new ⟨int8Name, 1, .num .sint⟩
      andThen (onReg s1 (addAuto key s1.H s1.R s.H.next [])) fun s2 _ => (s2, .ok s.H.next)
    else match s.R.get int8Name with
      | none => (s, .ub)
      | some t => (s, .ok t)

/-- `String::factory` (containers.cc:491-512); `sizeof(std::string)` is 32. A failed `dynamic_cast` of a reference
throws `std::bad_cast`. The number of template arguments is always one here. -/
def stringFactory (key : Char → Int) (s : MSt) : MSt × Res TId :=
  andThen (hasM s stringName) fun s b =>
    if b then
      match s.R.get stringName with
      | none => (s, .ub)
      | some t => if s.H.cat t = .container then (s, .ok t) else (s, .exn .exception)
    else
      andThen (stringElement key s) fun s e =>
        let s1 := s.new ⟨stringName, 32, .str e⟩
        andThen (onReg s1 (addAuto key s1.H s1.R s.H.next [])) fun s2 _ => (s2, .ok s.H.next)

/-- `Type::setSize` -/
def MSt.setSize (s : MSt) (t : TId) (n : Nat) : MSt := s.set t { s.H.get t with size := n }

/-- `Compound::addField` (typemodel.cc:372-383) on the compound `p` -/
def MSt.addField (s : MSt) (p : TId) (name : Str) (t : TId) (offset : Nat) : MSt :=
  match s.H.kind p with
  | .comp gs =>
    let new_size := (offset + s.H.size t) % TypeBuilder.W
    s.set p { name := s.H.name p,
              size := if s.H.size p < new_size then new_size else s.H.size p,
              kind := .comp (gs ++ [⟨name, offset, t⟩]) }
  | _ => s

/-- the loop over the fields of `Compound::do_merge` (typemodel.cc:385-386) -/
def mergeFields (rec : MSt → TId → MSt × Res TId) (p : TId) : List FieldD → MSt → MSt × Res Unit
  | [], s => (s, .ok ())
  | f :: fs, s => andThen (rec s f.ty) fun s t => mergeFields rec p fs (s.addField p f.name t f.offset)

/-- the `catch` of `Compound::do_merge` (typemodel.cc:388-391) -/
def eraseOnExn {α : Type} (u : TId) (x : MSt × Res α) : MSt × Res α :=
  match x with
  | (s, .exn e) => ({ s with st := serase s.st u }, .exn e)
  | x => x

/-- `do_merge` of each class: copy constructors for `NullType`, `OpaqueType`, `Numeric`, `Enum` (typemodel.hh:252-266,
typemodel.cc:249-250, 517-518), `Array::do_merge` (typemodel.cc:544-550), `Pointer::do_merge` (typemodel.cc:570-576),
`Container::do_merge` (typemodel.cc:616-626), `Compound::do_merge` (typemodel.cc:379-395). -/
def doMerge (key : Char → Int) (rec : MSt → TId → MSt × Res TId) (s : MSt) (u : TId) : MSt × Res TId :=
  match s.H.kind u with
  | .arr d e => andThen (rec s e) fun s e' => (s.new (arrDef s.H e' d), .ok s.H.next)
  | .ptr e => andThen (rec s e) fun s e' => (s.new (ptrDef s.H e'), .ok s.H.next)
  | .vec e => andThen (rec s e) fun s e' =>
      andThen (vectorFactory key s e') fun s r => (s.setSize r (s.H.size u), .ok r)
  | .str e => andThen (rec s e) fun s _ =>
      andThen (stringFactory key s) fun s r => (s.setSize r (s.H.size u), .ok r)
  | .comp fs =>
    let p := s.H.next
    let s1 := s.new ⟨s.H.name u, 0, .comp []⟩
    andThen (eraseOnExn u (mergeFields rec p fs { s1 with st := sins s1.st u p })) fun s _ =>
      (s.setSize p (s.H.size u), .ok p)
  | _ => (s.new (s.H.get u), .ok s.H.next)

/-- `Type::merge` (typemodel.cc:127-138) -/
def typeMerge (key : Char → Int) (rec : MSt → TId → MSt × Res TId) (s : MSt) (u : TId) : MSt × Res TId :=
  andThen (tryMerge s u) fun s old =>
    match old with
    | some v => (s, .ok v)
    | none =>
      andThen (doMerge key rec s u) fun s n =>
        let s1 := { s with st := sins s.st u n }
        andThen (onReg s1 (addAuto key s1.H s1.R n [])) fun s2 _ => (s2, .ok n)

/-- `Type::merge` / `Indirect::merge` (typemodel.cc:266-274). The recursion is bounded by `fuel`. -/
def mergeF (key : Char → Int) : Nat → MSt → TId → MSt × Res TId
  | 0, s, _ => (s, .fuel)
  | f + 1, s, u =>
    match (s.H.kind u).elem? with
    | none => typeMerge key (mergeF key f) s u
    | some e =>
      andThen (tryMerge s u) fun s old =>
        match old with
        | some v => (s, .ok v)
        | none => andThen (mergeF key f s e) fun s _ => typeMerge key (mergeF key f) s u

/-- the first loop of `Registry::merge` (registry.cc:139-143) -/
def mergeTypes (key : Char → Int) (fuel : Nat) : List (Str × Entry) → MSt → MSt × Res Unit
  | [], s => (s, .ok ())
  | p :: ps, s =>
    if isAlias s.H p then mergeTypes key fuel ps s
    else andThen (mergeF key fuel s p.2.ty) fun s _ => mergeTypes key fuel ps s

/-- the second loop of `Registry::merge` (registry.cc:145-165) -/
def mergeAliases (key : Char → Int) : List (Str × Entry) → MSt → MSt × Res Unit
  | [], s => (s, .ok ())
  | p :: ps, s =>
    if !isAlias s.H p then mergeAliases key ps s
    else match s.R.get p.1 with
      | some old =>
        (match isSame s.H old p.2.ty with
          | .ok true => mergeAliases key ps s
          | .ok false => (s, .exn .mismatch)
          | .exn e => (s, .exn e)
          | .ub => (s, .ub)
          | .fuel => (s, .fuel))
      | none =>
        andThen (onReg s (alias key s.H s.R (s.H.name p.2.ty) p.1 p.2.persistent p.2.source)) fun s _ =>
          mergeAliases key ps s

/-- one step of `Registry::copySourceIDs` (registry.cc:183-191) -/
def copySource (H : Heap) (R : Reg) (p : Str × Entry) : Reg :=
  match glookup R.global p.1 with
  | none => R
  | some e => if p.2.source ≠ [] ∧ e.source = [] then setSourceID H R e.ty p.2.source else R

/-- `Registry::copySourceIDs` (registry.cc:181-192) -/
def copySourceIDs (H : Heap) (R : Reg) (src : List (Str × Entry)) : Reg := src.foldl (copySource H) R

/-- `Registry::merge` (registry.cc:133-168) -/
def merge (key : Char → Int) (fuel : Nat) (w : World) (src : Reg) : World × Res Unit :=
  let o := andThen (mergeTypes key fuel src.global ⟨w.1, w.2, []⟩) fun s _ => mergeAliases key src.global s
  match o with
  | (s, .ok ()) => ((s.H, copySourceIDs s.H s.R src.global), .ok ())
  | (s, r) => ((s.H, s.R), r)

/-- the loop over the aliases of `Registry::minimal(name)` (registry.cc:204-212) -/
def minimalAliases (key : Char → Int) : List (Str × Entry) → MSt → MSt × Res Unit
  | [], s => (s, .ok ())
  | p :: ps, s =>
    if !isAlias s.H p then minimalAliases key ps s
    else if s.R.has (s.H.name p.2.ty) then
      andThen (onReg s (aliasAuto key s.H s.R (s.H.name p.2.ty) p.1 [])) fun s _ => minimalAliases key ps s
    else minimalAliases key ps s

/-- `Registry::minimal(name, with_aliases)` (registry.cc:194-217). `fresh` is what `new Registry` contains: the types
registered by the plugins. -/
def minimal (key : Char → Int) (fuel : Nat) (H : Heap) (src fresh : Reg) (name : Str) (with_aliases : Bool) :
    World × Res Unit :=
  match src.get name with
  | none => ((H, fresh), .exn .runtime)
  | some t =>
    let o := andThen (mergeF key fuel ⟨H, fresh, []⟩ t) fun s _ =>
      if with_aliases then minimalAliases key src.global s else (s, .ok ())
    match o with
    | (s, .ok ()) => ((s.H, copySourceIDs s.H s.R src.global), .ok ())
    | (s, r) => ((s.H, s.R), r)

/-- the first loop of `Registry::minimal(auto_types)` (registry.cc:225-230): each type has its own stack -/
def minimalTypes (key : Char → Int) (fuel : Nat) (auto : Reg) : List (Str × Entry) → MSt → MSt × Res Unit
  | [], s => (s, .ok ())
  | p :: ps, s =>
    if isAlias s.H p then minimalTypes key fuel auto ps s
    else andThen (s, TypeBuilder.has auto (s.H.name p.2.ty) true) fun s b =>
      if b then minimalTypes key fuel auto ps s
      else andThen (mergeF key fuel { s with st := [] } p.2.ty) fun s _ => minimalTypes key fuel auto ps s

/-- the second loop of `Registry::minimal(auto_types)` (registry.cc:232-253) -/
def minimalAutoAliases (key : Char → Int) (auto : Reg) (keep : Bool) : List (Str × Entry) → MSt → MSt × Res Unit
  | [], s => (s, .ok ())
  | p :: ps, s =>
    if !isAlias s.H p then minimalAutoAliases key auto keep ps s
    else andThen (if keep then (s, .ok false) else (s, TypeBuilder.has auto p.1 true)) fun s skip =>
      if skip then minimalAutoAliases key auto keep ps s
      else if !s.R.has (s.H.name p.2.ty) then minimalAutoAliases key auto keep ps s
      else match s.R.get p.1 with
        | some old =>
          (match isSame s.H old p.2.ty with
            | .ok true => minimalAutoAliases key auto keep ps s
            | .ok false => (s, .exn .mismatch)
            | .exn e => (s, .exn e)
            | .ub => (s, .ub)
            | .fuel => (s, .fuel))
        | none =>
          andThen (onReg s (alias key s.H s.R (s.H.name p.2.ty) p.1 p.2.persistent p.2.source)) fun s _ =>
            minimalAutoAliases key auto keep ps s

/-- `Registry::minimal(auto_types, keep_auto_aliases)` (registry.cc:219-257) -/
def minimalAuto (key : Char → Int) (fuel : Nat) (H : Heap) (src fresh auto : Reg) (keep : Bool) :
    World × Res Unit :=
  let o := andThen (minimalTypes key fuel auto src.global ⟨H, fresh, []⟩) fun s _ =>
    minimalAutoAliases key auto keep src.global s
  match o with
  | (s, .ok ()) => ((s.H, copySourceIDs s.H s.R src.global), .ok ())
  | (s, r) => ((s.H, s.R), r)

/-! ### Specification -/

/-- What a type is made of, its components given by their names. -/
inductive Desc where
  | null
  | opaque
  | num (cat : NumCat)
  | enum (syms : List (Str × Int))
  | arr (dim : Nat) (elem : Str)
  | ptr (elem : Str)
  | vec (elem : Str)
  | str (elem : Str)
  | comp (fields : List (Str × Nat × Str))
  deriving DecidableEq, Repr

def Kind.desc (nm : TId → Str) : Kind → Desc
  | .null => .null
  | .opaque => .opaque
  | .num c => .num c
  | .enum s => .enum s
  | .arr d e => .arr d (nm e)
  | .ptr e => .ptr (nm e)
  | .vec e => .vec (nm e)
  | .str e => .str (nm e)
  | .comp fs => .comp (fs.map (fun f => (f.name, f.offset, nm f.ty)))

/-- The definition of a type: its name, its size, and its class with its attributes. -/
def definition (H : Heap) (t : TId) : Str × Nat × Desc := (H.name t, H.size t, Kind.desc H.name (H.kind t))

/-- Names obtained from the name of an alias of the registry by array, pointer or vector decorations. -/
inductive FromAlias (H : Heap) (R : Reg) : Str → Prop
  | alias {n : Str} {t : TId} : R.reg n = some t → n ≠ H.name t → FromAlias H R n
  | step {n : Str} {k : Kind} {ind : Str → Str} : FromAlias H R n → k.indirectName = some ind → FromAlias H R (ind n)

/-- `u` is `t` or one of the types it is made of, directly or not: the transitive closure of `dependsOn`. -/
inductive DepStar (H : Heap) (t : TId) : TId → Prop
  | refl : DepStar H t t
  | step {u d : TId} : DepStar H t u → d ∈ H.deps u → DepStar H t d

/-- The types `S` to be copied: made of each other, possibly recursive except that no array or string is part of its own
elements,
with the names and sizes their constructors give to arrays, pointers, vectors and strings. -/
structure Source (H : Heap) (S : TId → Prop) : Prop where
  alloc : ∀ u, S u → u < H.next
  valid : ∀ u, S u → isValidTypename (H.name u) true = true
  abs : ∀ u, S u → isAbsoluteName (H.name u) = true
  inj : ∀ u v, S u → S v → H.name u = H.name v → u = v
  deps : ∀ u d, S u → d ∈ H.deps u → S d
  noloop : ∀ u e, S u → (∃ d, H.kind u = .arr d e) ∨ H.kind u = .str e → ¬ DepStar H e u
  arr : ∀ u d e, S u → H.kind u = .arr d e → H.get u = arrDef H e d
  ptr : ∀ u e, S u → H.kind u = .ptr e → H.get u = ptrDef H e
  vec : ∀ u e, S u → H.kind u = .vec e → H.name u = vecName (H.name e)
  str : ∀ u e, S u → H.kind u = .str e → H.name u = stringName ∧ H.name e = int8Name

/-- The destination: its tables are consistent, it is closed under `dependsOn`, it shares no type object with `S`, it
agrees with the types of `S` it knows by name, and no type of `S` has a name its aliases give to another type. -/
structure Dest (key : Char → Int) (H : Heap) (R : Reg) (S : TId → Prop) : Prop where
  inv : Inv key H R
  acyclic : Acyclic H
  wf : WF H
  closed : ∀ t d, Regd H R t → d ∈ H.deps t → Regd H R d
  disjoint : ∀ u, S u → ¬ Regd H R u
  agree : ∀ u t, S u → R.get (H.name u) = some t → definition H t = definition H u
  aliases : ∀ u, S u → ¬ FromAlias H R (H.name u)

end Verif.Merge
