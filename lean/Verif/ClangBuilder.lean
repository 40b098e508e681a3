import Verif.Merge
import Verif.CompoundModel
import Verif.EnumModel
import Verif.CxxNames

/-!
Model of the clang-based importer, `tools/typelib-clang-tlb-importer/TypelibBuilder.cpp`: how the declarations of a C++
program become types of a registry.

The clang AST is data: for each declaration, what the code asks clang. The names that `cxxToTypelibName` gives
(NamingConversions.cpp, modelled in `CxxNames`) are part of this data. Messages and metadata are not modelled.
-/

namespace Verif.Clang
open Verif Verif.Names Verif.Graph Verif.Registry Verif.TypeBuilder Verif.Merge Verif.CompoundModel

/-- the answers of `isFloatingPoint`, `isSignedInteger`, `isUnsignedInteger` (TypelibBuilder.cpp:281-308) -/
inductive BKind where
  | float | sint | uint | other
  deriving DecidableEq, Repr

/-- `clang::Type`, by type class (TypelibBuilder.cpp:345-399). A record or template specialisation gives the declaration of
`getAsCXXRecordDecl`, which can be `NULL`. `elemName` is `cxxToTypelibName` of the element of a constant array.
`other` is a type of another class (a vector of floats, a function...), which the code cannot import. -/
inductive CT where
  | builtin (bits : Nat) (k : BKind)
  | ref (t : CT)
  | ptr (t : CT)
  | record (d : Option Nat)
  | enum (d : Nat)
  | arr (elemName : Str) (elem : CT) (n : Nat)
  | typedef (d : Nat)
  | elaborated (t : CT)
  | other (id size : Nat)
  deriving DecidableEq, Repr

/-- `clang::FieldDecl`: `ty` is the canonical type, `tyName` its name, `offset` the answer (in bits) of the record layout
of the class the field is declared in. `bits` is the width of a bit-field: the code does not ask for it. -/
structure CField where
  name : Str
  tyName : Str
  ty : CT
  anonymous : Bool
  priv : Bool
  offset : Nat
  bits : Option Nat
  deriving DecidableEq, Repr

/-- `clang::CXXBaseSpecifier`. `offset` (in bytes) is where the base is in the derived class: the code does not ask for
it. -/
structure CBase where
  decl : Option Nat
  name : Str
  ty : CT
  priv : Bool
  offset : Nat
  deriving DecidableEq, Repr

/-- `clang::CXXRecordDecl`. `tmpl` is set for a `ClassTemplateSpecialization`: the name of the template
(`cxxToTypelibName(getQualifiedNameAsString())`) and the arguments with the names of their canonical types. `poly` is
`isPolymorphic() || isAbstract()`, `dependent` is `isDependentType() || isInvalidDecl()`, `injected` is
`isInjectedClassName()`. -/
structure CRecord where
  name : Str
  ident : Bool
  injected : Bool
  dependent : Bool
  hasDef : Bool
  poly : Bool
  tmpl : Option (Str × List (Str × CT))
  size : Nat
  fields : List CField
  bases : List CBase
  deriving DecidableEq, Repr

/-- `clang::EnumDecl`: `width` is the number of bits of the values (`APSInt`) and of the underlying type, `syms` the
enumerators with their mathematical values. -/
structure CEnum where
  name : Str
  ident : Bool
  priv : Bool
  width : Nat
  syms : List (Str × Int)
  deriving DecidableEq, Repr

/-- `clang::TypedefNameDecl`: its name, the name of the canonical underlying type, the underlying type. -/
structure CTypedef where
  name : Str
  canonName : Str
  ty : CT
  deriving DecidableEq, Repr

/-- the declarations of the program -/
structure AST where
  records : List CRecord
  enums : List CEnum
  typedefs : List CTypedef
  deriving DecidableEq, Repr

/-- sequencing: what is not a normal return stops the computation where it is -/
def thenW {α β : Type} (x : World × Res α) (f : World → α → World × Res β) : World × Res β :=
  match x with
  | (w, .ok a) => f w a
  | (w, .exn e) => (w, .exn e)
  | (w, .ub) => (w, .ub)
  | (w, .fuel) => (w, .fuel)

/-- `registry.add(new T(...))` (source ID empty, registry.hh:201) -/
def addNew (key : Char → Int) (w : World) (d : TypeDef) : World × Res TId :=
  let H := w.1.alloc d
  let o := addAuto key H w.2 w.1.next []
  thenW ((H, o.1), o.2) fun w' _ => (w', .ok w.1.next)

/-- `registry.alias(base, new)` (source ID empty, registry.hh:221) -/
def aliasW (key : Char → Int) (w : World) (base new : Str) : World × Res Unit :=
  let o := aliasAuto key w.1 w.2 base new []
  ((w.1, o.1), o.2)

/-- a factory of containers, called on the registry -/
def onM {α : Type} (x : MSt × Res α) : World × Res α := ((x.1.H, x.1.R), x.2)

/-- `"/int" + size * 8 + "_t"` and `"/uint" + ...` (TypelibBuilder.cpp:293-295, 301-303) -/
def intName (k : BKind) (bits : Nat) : Str :=
  (if k = .sint then "/int".toList else "/uint".toList) ++ natStr bits ++ "_t".toList

/-- the type object made by `registerBuiltIn` (TypelibBuilder.cpp:281-308) -/
def numDef (name : Str) (bits : Nat) : BKind → Option TypeDef
  | .float => some ⟨name, bits / 8, .num .float⟩
  | .sint => some ⟨intName .sint (bits / 8 * 8), bits / 8, .num .sint⟩
  | .uint => some ⟨intName .uint (bits / 8 * 8), bits / 8, .num .uint⟩
  | .other => none

/-- `TypelibBuilder::registerBuiltIn` (TypelibBuilder.cpp:256-331) -/
def registerBuiltIn (key : Char → Int) (w : World) (name : Str) (bits : Nat) (k : BKind) : World × Res (Option TId) :=
  match w.2.get name with
  | some t => (w, .ok (some t))
  | none =>
    if bits % 8 ≠ 0 then (w, .ok none)
    else match numDef name bits k with
      | none => (w, .ok none)
      | some d =>
        match w.2.get d.name with
        | none => thenW (addNew key w d) fun w t => thenW (aliasW key w d.name name) fun w _ => (w, .ok (some t))
        | some t => thenW (aliasW key w (w.1.name t) name) fun w _ => (w, .ok (some t))

/-- `vTemplateArgsToBeIgnored`, `isTemplateArgumentIgnored` (IgnoredOrRenamedTypes.cpp:35-45, 78-79):
`typelibName.find(prefix) == 0` -/
def argIgnored (n : Str) : Bool :=
  "/std/allocator".toList.isPrefixOf n || "/std/char_traits".toList.isPrefixOf n

/-- the containers known to typelib (`Container::availableContainers`: lang/csupport/plugin.cc registers these two) -/
inductive Cont where
  | vector | string
  deriving DecidableEq, Repr

/-- `availableContainers().find(containerName)` after the renaming (TypelibBuilder.cpp:83-103) -/
def findContainer (tmplName : Str) : Option Cont :=
  let n := (CxxNames.isTypeRenamed CxxNames.renames tmplName).2
  if n = "/std/vector".toList then some .vector
  else if n = "/std/string".toList then some .string
  else none

/-- the loop over the template arguments (TypelibBuilder.cpp:115-161): `none` is the `return NULL` -/
def addArgs (rec : World → Str → CT → World × Res (Option TId)) (c : Cont) :
    World → List (Str × CT) → List TId → World × Res (Option (List TId))
  | w, [], acc => (w, .ok (some acc))
  | w, (n, ty) :: r, acc =>
    if argIgnored n then addArgs rec c w r acc
    else if c = .string ∧ n ≠ "/char".toList then (w, .ok none)
    else thenW (rec w n ty) fun w o =>
      match o with
      | none => (w, .ok none)
      | some t => addArgs rec c w r (acc ++ [t])

/-- `Vector::factory`, `String::factory` (containers.cc:367-387, 491-512), with the check of the number of arguments -/
def factory (key : Char → Int) (w : World) (c : Cont) (args : List TId) : World × Res TId :=
  match c, args with
  | .vector, [e] => onM (vectorFactory key ⟨w.1, w.2, []⟩ e)
  | .vector, _ => (w, .exn .runtime)
  | .string, [_] => onM (stringFactory key ⟨w.1, w.2, []⟩)
  | .string, _ =>
    thenW (onM (hasM ⟨w.1, w.2, []⟩ stringName)) fun w b =>
      if b then onM (stringFactory key ⟨w.1, w.2, []⟩) else (w, .exn .runtime)

/-- `TypelibBuilder::checkRegisterContainer` (TypelibBuilder.cpp:67-189) -/
def checkRegisterContainer (key : Char → Int) (rec : World → Str → CT → World × Res (Option TId)) (w : World) (name : Str)
    (r : CRecord) : World × Res (Option TId) :=
  match r.tmpl with
  | none => (w, .ok none)
  | some (tname, args) =>
    match findContainer tname with
    | none => (w, .ok none)
    | some c =>
      thenW (addArgs rec c w args []) fun w o =>
        match o with
        | none => (w, .ok none)
        | some l =>
          thenW (factory key w c l) fun w t =>
            if w.1.name t ≠ name then thenW (aliasW key w (w.1.name t) name) fun w _ => (w, .ok (some t))
            else (w, .ok (some t))

/-- the loop over the fields of `addMembersOfClassToCompound` (TypelibBuilder.cpp:613-667): `none` is `return false` -/
def addFields (rec : World → Str → CT → World × Res (Option TId)) : World → Comp → List CField → World × Res (Option Comp)
  | w, c, [] => (w, .ok (some c))
  | w, c, f :: fs =>
    if f.anonymous then (w, .ok none)
    else if f.priv then (w, .ok none)
    else thenW (rec w f.tyName f.ty) fun w o =>
      match o with
      | none => (w, .ok none)
      | some t =>
        if f.offset % 8 ≠ 0 then (w, .ok none)
        else addFields rec w (c.addField w.1.size f.name t (f.offset / 8)) fs

/-- the loop over the bases (TypelibBuilder.cpp:669-682): `getAsCXXRecordDecl` is dereferenced -/
def addBases (mem : World → Comp → Nat → World × Res (Option Comp)) : World → Comp → List CBase → World × Res (Option Comp)
  | w, c, [] => (w, .ok (some c))
  | w, c, b :: bs =>
    match b.decl with
    | none => (w, .ub)
    | some d =>
      thenW (mem w c d) fun w o =>
        match o with
        | none => (w, .ok none)
        | some c => addBases mem w c bs

/-- `TypelibBuilder::addMembersOfClassToCompound` (TypelibBuilder.cpp:605-687). -/
def addMembers (A : AST) (rec : World → Str → CT → World × Res (Option TId)) :
    Nat → World → Comp → Nat → World × Res (Option Comp)
  | 0, w, _, _ => (w, .fuel)
  | g + 1, w, c, d =>
    match A.records[d]? with
    | none => (w, .ub)
    | some r =>
      thenW (addFields rec w c r.fields) fun w o =>
        match o with
        | none => (w, .ok none)
        | some c => addBases (addMembers A rec g) w c r.bases

/-- the second loop over the bases, in `addRecord` (TypelibBuilder.cpp:551-586): `false` is the `return NULL` for a private
base; a base that cannot be registered is only reported -/
def registerBases (rec : World → Str → CT → World × Res (Option TId)) : World → List CBase → World × Res Bool
  | w, [] => (w, .ok true)
  | w, b :: bs =>
    match b.decl with
    | none => registerBases rec w bs
    | some _ =>
      if b.priv then (w, .ok false)
      else thenW (rec w b.name b.ty) fun w _ => registerBases rec w bs

/-- `TypelibBuilder::addRecord` (TypelibBuilder.cpp:477-603). The `Compound` object is made where the code registers it. -/
def addRecord (key : Char → Int) (A : AST) (rec : World → Str → CT → World × Res (Option TId)) (f : Nat) (w : World)
    (name : Str) (decl : Option Nat) : World × Res (Option TId) :=
  match w.2.get name with
  | some t => (w, .ok (some t))
  | none =>
    match decl with
    | none => (w, .ok none)
    | some d =>
      match A.records[d]? with
      | none => (w, .ub)
      | some r =>
        if !r.ident || r.injected || r.dependent then (w, .ok none)
        else
          thenW (checkRegisterContainer key rec w name r) fun w o =>
            match o with
            | some t => (w, .ok (some t))
            | none =>
              if !r.hasDef || r.poly then (w, .ok none)
              else
                thenW (addMembers A rec f w (Comp.new.setSize r.size) d) fun w o =>
                  match o with
                  | none => (w, .ok none)
                  | some c =>
                    if c.fields.isEmpty then (w, .ok none)
                    else
                      thenW (registerBases rec w r.bases) fun w b =>
                        if !b then (w, .ok none)
                        else thenW (addNew key w ⟨name, c.size, .comp c.fields⟩) fun w t => (w, .ok (some t))

/-- `APInt::getSExtValue` of a value of `width` bits -/
def sext (width : Nat) (v : Int) : Int :=
  let m := v % 2 ^ width
  if 2 * m < 2 ^ width then m else m - 2 ^ width

/-- conversion of an `int64_t` to `Enum::integral_type`, an `int` -/
def toI32 (v : Int) : Int :=
  let m := v % 4294967296
  if m < 2147483648 then m else m - 4294967296

/-- the loop of `addEnum` (TypelibBuilder.cpp:462-466) -/
def addSyms (width : Nat) : EnumModel.Enum → List (Str × Int) → Res EnumModel.Enum
  | e, [] => .ok e
  | e, (n, v) :: r =>
    match e.add n (toI32 (sext width v)) with
    | (e, .ok _) => addSyms width e r
    | (_, .exn x) => .exn x
    | (_, .ub) => .ub
    | (_, .fuel) => .fuel

/-- `TypelibBuilder::addEnum` (TypelibBuilder.cpp:443-475). `Enum::Enum` gives all enums the size of an `int`
(typemodel.cc:453-455). -/
def addEnum (key : Char → Int) (A : AST) (w : World) (name : Str) (d : Nat) : World × Res (Option TId) :=
  match A.enums[d]? with
  | none => (w, .ub)
  | some r =>
    if !r.ident || r.priv then (w, .ok none)
    else
      match addSyms r.width ⟨-1, []⟩ r.syms with
      | .ok e => thenW (addNew key w ⟨name, 4, .enum e.values⟩) fun w t => (w, .ok (some t))
      | .exn x => (w, .exn x)
      | .ub => (w, .ub)
      | .fuel => (w, .fuel)

/-- is the type class of the element `ConstantArray`? -/
def CT.isArr : CT → Bool
  | .arr .. => true
  | _ => false

/-- `TypelibBuilder::addArray` (TypelibBuilder.cpp:402-441) -/
def addArray (key : Char → Int) (rec : World → Str → CT → World × Res (Option TId)) (w : World) (elemName : Str) (elem : CT)
    (n : Nat) : World × Res (Option TId) :=
  if elem.isArr then (w, .ok none)
  else thenW (rec w elemName elem) fun w o =>
    match o with
    | none => (w, .ok none)
    | some x => thenW (addNew key w (arrDef w.1 x n)) fun w t => (w, .ok (some t))

/-- `TypelibBuilder::registerTypedefNameDecl` (TypelibBuilder.cpp:689-719): `exit(EXIT_FAILURE)` is modelled as an
exception -/
def registerTypedef (key : Char → Int) (A : AST) (rec : World → Str → CT → World × Res (Option TId)) (w : World) (d : Nat) :
    World × Res (Option TId) :=
  match A.typedefs[d]? with
  | none => (w, .ub)
  | some td =>
    if !isValidTypename td.name true then (w, .exn .exception)
    else thenW (rec w td.canonName td.ty) fun w o =>
      match o with
      | none => (w, .ok none)
      | some t => thenW (aliasW key w td.canonName td.name) fun w _ => (w, .ok (some t))

/-- `TypelibBuilder::registerType` (TypelibBuilder.cpp:333-400). The recursion goes through declarations and need not end:
`fuel` bounds its depth. -/
def registerType (key : Char → Int) (A : AST) : Nat → World → Str → CT → World × Res (Option TId)
  | 0, w, _, _ => (w, .fuel)
  | f + 1, w, name, ty =>
    match w.2.get name with
    | some t => (w, .ok (some t))
    | none =>
      match ty with
      | .ref _ => (w, .ok none)
      | .ptr _ => (w, .ok none)
      | .builtin bits k => registerBuiltIn key w name bits k
      | .record d => addRecord key A (registerType key A f) f w name d
      | .enum d => addEnum key A w name d
      | .arr en e n => addArray key (registerType key A f) w en e n
      | .typedef d => registerTypedef key A (registerType key A f) w d
      | .elaborated t => registerType key A f w name t
      | .other .. => (w, .ok none)

/-- what the AST visitors hand to the builder (main.cpp:52-104): declarations of types and of typedefs. A declaration of a
type says whether it is inside a function, hidden, in an anonymous namespace, and whether clang has a type for it. -/
inductive Decl where
  | type (name : Str) (ty : Option CT) (injected inFunction hidden anonNs : Bool)
  | typedef (d : Nat)
  | opaque (name : Str) (canonName : Option Str)
  deriving DecidableEq, Repr

/-- `TypelibBuilder::registerTypeDecl` (TypelibBuilder.cpp:21-65), `registerTypedefNameDecl`, `registerOpaque`
(TypelibBuilder.cpp:191-254; `canonName` is set for a typedef, the rest is metadata) -/
def registerDecl (key : Char → Int) (A : AST) (f : Nat) (w : World) : Decl → World × Res (Option TId)
  | .type name ty injected inFunction hidden anonNs =>
    if injected then (w, .ok none)
    else match ty with
      | none => (w, .ok none)
      | some ty =>
        if inFunction || hidden || anonNs then (w, .ok none)
        else registerType key A f w name ty
  | .typedef d => registerTypedef key A (registerType key A f) w d
  | .opaque name canonName =>
    match w.2.get name with
    | none => (w, .ok none)
    | some t =>
      match canonName with
      | none => (w, .ok (some t))
      | some c => thenW (aliasW key w name c) fun w _ => (w, .ok (some t))

/-- an import: the declarations one after the other; an exception that is not caught ends the program -/
def importDecls (key : Char → Int) (A : AST) (f : Nat) : World → List Decl → World × Res Unit
  | w, [] => (w, .ok ())
  | w, d :: ds => thenW (registerDecl key A f w d) fun w _ => importDecls key A f w ds

end Verif.Clang
