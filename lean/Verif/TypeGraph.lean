import Verif.NameModel

/-!
Type objects, as nodes of a graph: the model used for everything that depends on the identity of
`Type` objects (registries, comparison, merging, resizing, exporting).

A `Type*` is a natural number (its allocation order); the heap maps it to the object's attributes.
-/

namespace Verif.Graph
open Verif

/-- The identity (address) of a `Type` object. -/
abbrev TId := Nat

/-- `Numeric::NumericCategory` (typemodel.hh:203-208). -/
inductive NumCat where
  | sint | uint | float
  deriving DecidableEq, Repr

/-- `Field` (typemodel.hh, class Field; typemodel.cc:634-659), without its metadata. -/
structure FieldD where
  name : Str
  offset : Nat
  ty : TId
  deriving DecidableEq, Repr

/-- The concrete class of a `Type` and its own attributes (typemodel.hh: NullType, OpaqueType, Numeric,
Enum, Array, Pointer, Container, Compound; containers.hh: Vector, String). `syms` is the
`std::map<std::string, integral_type>` of an enum in key order. -/
inductive Kind where
  | null
  | opaque
  | num (cat : NumCat)
  | enum (syms : List (Str × Int))
  | arr (dim : Nat) (elem : TId)
  | ptr (elem : TId)
  | vec (elem : TId)
  | str (elem : TId)
  | comp (fields : List FieldD)
  deriving DecidableEq, Repr

/-- `Type::Category` (typemodel.hh:53-65). -/
inductive Cat where
  | null | array | pointer | numeric | enum | compound | opaque | container
  deriving DecidableEq, Repr

/-- `Type::getCategory` of each class (constructor calls of typemodel.cc:243, 295, 441, 520, 561, 578). -/
def Kind.cat : Kind → Cat
  | .null => .null
  | .opaque => .opaque
  | .num _ => .numeric
  | .enum _ => .enum
  | .arr .. => .array
  | .ptr _ => .pointer
  | .vec _ => .container
  | .str _ => .container
  | .comp _ => .compound

/-- The attributes of `Type` itself (typemodel.hh:90-106): name, size; and the derived class. -/
structure TypeDef where
  name : Str
  size : Nat
  kind : Kind
  deriving DecidableEq, Repr

/-- The objects that exist: addresses below `next` have been allocated. -/
structure Heap where
  next : Nat
  get : TId → TypeDef

namespace Heap
variable (H : Heap)

def name (t : TId) : Str := (H.get t).name
def size (t : TId) : Nat := (H.get t).size
def kind (t : TId) : Kind := (H.get t).kind
def cat (t : TId) : Cat := (H.kind t).cat

end Heap

/-- `new`: a fresh object. -/
def Heap.alloc (H : Heap) (d : TypeDef) : Heap :=
  { next := H.next + 1, get := fun u => if u = H.next then d else H.get u }

/-- `Indirect::getIndirection` (typemodel.cc:256): the element of an array, pointer or container. -/
def Kind.elem? : Kind → Option TId
  | .arr _ e => some e
  | .ptr e => some e
  | .vec e => some e
  | .str e => some e
  | _ => none

/-- `Type::dependsOn`, `Indirect::dependsOn` (typemodel.cc:259-264), `Compound::dependsOn`
(typemodel.cc:396-402). The `std::set` is a list: only membership is used. -/
def Kind.deps : Kind → List TId
  | .comp fs => fs.map (·.ty)
  | k => k.elem?.toList

def Heap.deps (H : Heap) (t : TId) : List TId := (H.kind t).deps

/-- `ostream << size_t` in `Array::getArrayName` (typemodel.cc:529-534). -/
def natStr (n : Nat) : Str := (toString n).toList

/-- The class-specific name decorations: `Array::getArrayName` (typemodel.cc:529-534),
`Pointer::getPointerName` (typemodel.cc:563-564), `Vector::fullName` (containers.cc:17-18).
`none`: the class has no derived names (`String` redefines `modifiedDependencyAliases` as a no-op,
containers.hh:90-92; the other classes inherit the no-op of typemodel.cc:47). -/
def Kind.indirectName : Kind → Option (Str → Str)
  | .arr d _ => some fun n => n ++ '[' :: natStr d ++ [']']
  | .ptr _ => some fun n => n ++ ['*']
  | .vec _ => some fun n => "/std/vector<".toList ++ n ++ ['>']
  | _ => none

end Verif.Graph
