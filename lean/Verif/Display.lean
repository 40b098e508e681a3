import Verif.TlbDoc
import Verif.RegistryProps

/-!
Model of the textual display of types and registries: `TypeDisplayVisitor` (typelib/typedisplay.cc) on top of
`TypeVisitor` (typelib/typevisitor.cc), and `Registry::dump` (typelib/registry.cc:484-530).

Texts are what is written to the stream, which is assumed to accept everything and to print numbers in decimal.
-/

namespace Verif.Display
open Verif Verif.Graph Verif.Registry

/-- `Container::kind()` (containers.cc:20, 392) -/
def contKind : Kind → Str
  | .str _ => ['/', 's', 't', 'd', '/', 's', 't', 'r', 'i', 'n', 'g']
  | _ => ['/', 's', 't', 'd', '/', 'v', 'e', 'c', 't', 'o', 'r']

/-- the names of the categories (typedisplay.cc:56-66) -/
def catName : NumCat → Str
  | .sint => ['s', 'i', 'n', 't']
  | .uint => ['u', 'i', 'n', 't']
  | .float => ['f', 'l', 'o', 'a', 't']

/-- one line of an enum (typedisplay.cc:82-83) -/
def symTxt (p : Str × Int) : Str :=
  ['\n', ' ', ' ', ' ', ' '] ++ p.1 ++ [' ', '-', '>', ' '] ++ Tlb.intStr p.2

/-- the loop of `TypeVisitor::visit_(Compound const&)` (typevisitor.cc:23-35) with the redefined
`visit_(Compound const&, Field const&)` (typedisplay.cc:49-55), which always returns true. `std::endl` is a newline. -/
def fieldsTxt (rec : Str → TId → Res Str) (ind : Str) : List FieldD → Res Str
  | [] => .ok []
  | f :: fs =>
    match rec ind f.ty with
    | .ok s =>
      (match fieldsTxt rec ind fs with
       | .ok r => .ok (ind ++ ['(', '+'] ++ natStr f.offset ++ [')', ' '] ++ s ++ [' '] ++ f.name ++ ['\n'] ++ r)
       | e => e)
    | e => e

/-- `TypeDisplayVisitor` dispatched on the type `t` (typevisitor.cc:38-61, typedisplay.cc:21-110), the indentation being `ind`.
The depth of the recursion is bounded by `fuel`. -/
def disp (H : Heap) : Nat → Str → TId → Res Str
  | 0, _, _ => .fuel
  | f + 1, ind, t =>
    match H.kind t with
    | .null => .ok ['n', 'u', 'l', 'l', '\n']
    | .opaque => .ok (['o', 'p', 'a', 'q', 'u', 'e', ' '] ++ H.name t ++ ['\n'])
    | .num c => .ok (catName c ++ ['('] ++ natStr (H.size t) ++ [')', ' ', '('] ++ H.name t ++ [')'])
    | .enum syms => .ok (['e', 'n', 'u', 'm', ' '] ++ H.name t ++ syms.flatMap symTxt)
    | .ptr e => .ok (['p', 'o', 'i', 'n', 't', 'e', 'r', ' ', 'o', 'n', ' '] ++ H.name e ++ ['\n'])
    | .arr d e =>
      let ind' := ind ++ [' ', ' ']
      (match disp H f ind' e with
       | .ok s => .ok (['a', 'r', 'r', 'a', 'y', '['] ++ natStr d ++ [']', ' ', 'o', 'f', '\n'] ++ ind' ++ s)
       | e => e)
    | .vec e => .ok (['c', 'o', 'n', 't', 'a', 'i', 'n', 'e', 'r', ' '] ++ contKind (H.kind t) ++ ['<'] ++ H.name e ++ ['>'])
    | .str e => .ok (['c', 'o', 'n', 't', 'a', 'i', 'n', 'e', 'r', ' '] ++ contKind (H.kind t) ++ ['<'] ++ H.name e ++ ['>'])
    | .comp fs =>
      (match fieldsTxt (disp H f) (ind ++ [' ', ' ']) fs with
       | .ok s => .ok (['c', 'o', 'm', 'p', 'o', 'u', 'n', 'd', ' '] ++ H.name t ++ [' ', '['] ++ natStr (H.size t) ++
           [']', ' ', '{', '\n'] ++ s ++ ind ++ ['}', ';'])
       | e => e)

/-- `filter_source` (registry.cc:486-491) -/
def filterSource (filter source : Str) : Bool := filter == ['*'] || filter == source

/-- the entries `dump` lists (registry.cc:507-510) -/
def listed (filter : Str) (l : List (Str × Entry)) : List (Str × Entry) :=
  l.filter (fun p => p.2.persistent && filterSource filter p.2.source)

/-- the text of an alias (registry.cc:526) -/
def aliasTxt (n target : Str) : Str :=
  n ++ [' ', 'i', 's', ' ', 'a', 'n', ' ', 'a', 'l', 'i', 'a', 's', ' ', 'f', 'o', 'r', ' '] ++ target ++ ['\n']

/-- one round of the loop of `Registry::dump` (registry.cc:512-528). `withSource` and `allType` are the bits
`WithSourceId` and `AllType` of the mode. -/
def entryTxt (H : Heap) (fuel : Nat) (withSource allType : Bool) (p : Str × Entry) : Res Str :=
  let src := if withSource then (if p.2.source = [] then ['\t', '\t'] else p.2.source ++ ['\t']) else []
  if allType then
    if H.name p.2.ty = p.1 then
      match disp H fuel [] p.2.ty with
      | .ok s => .ok (src ++ s ++ ['\n'])
      | e => e
    else .ok (src ++ aliasTxt p.1 (H.name p.2.ty))
  else .ok (src ++ ['\t'] ++ H.name p.2.ty ++ ['\n'])

/-- the loop of `Registry::dump` -/
def entriesTxt (H : Heap) (fuel : Nat) (withSource allType : Bool) : List (Str × Entry) → Res Str
  | [] => .ok []
  | p :: ps =>
    match entryTxt H fuel withSource allType p with
    | .ok s =>
      (match entriesTxt H fuel withSource allType ps with
       | .ok r => .ok (s ++ r)
       | e => e)
    | e => e

/-- the first line of a dump (registry.cc:496-501) -/
def dumpHead (filter : Str) : Str :=
  "Types in registry".toList ++
    (if filter = [] then " not defined in any type library".toList
     else if filter ≠ ['*'] then " defined in ".toList ++ filter else []) ++ ['\n']

/-- `Registry::dump` (registry.cc:494-530) -/
def dump (H : Heap) (fuel : Nat) (R : Reg) (withSource allType : Bool) (filter : Str) : Res Str :=
  match entriesTxt H fuel withSource allType (listed filter R.global) with
  | .ok s => .ok (dumpHead filter ++ s)
  | e => e

/-! ### Specification: what a text tells -/

mutual
/-- What is told about a type: opaques, pointers, containers and enums without their size, pointers and containers with the
name of what they refer to, arrays and compounds with what they are made of. -/
inductive Shown where
  | null
  | opaque (name : Str)
  | num (cat : NumCat) (size : Nat) (name : Str)
  | enum (name : Str) (symbols : List (Str × Int))
  | ptr (target : Str)
  | arr (dim : Nat) (elem : Shown)
  | cont (kind elem : Str)
  | comp (name : Str) (size : Nat) (fields : ShownFields)
/-- offset, type and name of each field -/
inductive ShownFields where
  | nil
  | cons (offset : Nat) (type : Shown) (name : Str) (rest : ShownFields)
end

mutual
/-- `d` is what is to be told about the type `t`. -/
inductive Shows (H : Heap) : TId → Shown → Prop
  | null {t : TId} : H.kind t = .null → Shows H t .null
  | opaque {t : TId} : H.kind t = .opaque → Shows H t (.opaque (H.name t))
  | num {t : TId} {c : NumCat} : H.kind t = .num c → Shows H t (.num c (H.size t) (H.name t))
  | enum {t : TId} {s : List (Str × Int)} : H.kind t = .enum s → Shows H t (.enum (H.name t) s)
  | ptr {t e : TId} : H.kind t = .ptr e → Shows H t (.ptr (H.name e))
  | arr {t e : TId} {n : Nat} {d : Shown} : H.kind t = .arr n e → Shows H e d → Shows H t (.arr n d)
  | vec {t e : TId} : H.kind t = .vec e → Shows H t (.cont "/std/vector".toList (H.name e))
  | str {t e : TId} : H.kind t = .str e → Shows H t (.cont "/std/string".toList (H.name e))
  | comp {t : TId} {fs : List FieldD} {ds : ShownFields} : H.kind t = .comp fs → ShowsAll H fs ds →
      Shows H t (.comp (H.name t) (H.size t) ds)
inductive ShowsAll (H : Heap) : List FieldD → ShownFields → Prop
  | nil : ShowsAll H [] .nil
  | cons {f : FieldD} {fs : List FieldD} {d : Shown} {ds : ShownFields} : Shows H f.ty d → ShowsAll H fs ds →
      ShowsAll H (f :: fs) (.cons f.offset d f.name ds)
end

/-- What a dump tells about an entry. -/
inductive Item where
  | type (d : Shown)
  | alias (name target : Str)

/-- The items of a list of entries, in the same order. -/
inductive Items (H : Heap) : List (Str × Entry) → List Item → Prop
  | nil : Items H [] []
  | type {p : Str × Entry} {ps : List (Str × Entry)} {d : Shown} {is : List Item} : H.name p.2.ty = p.1 → Shows H p.2.ty d →
      Items H ps is → Items H (p :: ps) (.type d :: is)
  | alias {p : Str × Entry} {ps : List (Str × Entry)} {is : List Item} : H.name p.2.ty ≠ p.1 →
      Items H ps is → Items H (p :: ps) (.alias p.1 (H.name p.2.ty) :: is)

/-- no space, no newline -/
def Word (s : Str) : Prop := ∀ c ∈ s, c ≠ ' ' ∧ c ≠ '\n'

/-- no newline -/
def Line (s : Str) : Prop := ∀ c ∈ s, c ≠ '\n'

/-- The names of types and of enumeration symbols have no blank, field names no newline. -/
structure Plain (H : Heap) : Prop where
  names : ∀ t, Word (H.name t)
  symbols : ∀ t s, H.kind t = .enum s → ∀ p ∈ s, Word p.1
  fields : ∀ t fs, H.kind t = .comp fs → ∀ f ∈ fs, Line f.name

end Verif.Display
