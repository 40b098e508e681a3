import Verif.MergeMinimal
import Verif.MetaData

/-!
Model of what happens to the metadata of types and fields when registries are merged: the last two steps of
`Registry::merge` and `Registry::minimal(name)` (registry.cc:166-167, 214-215), `Registry::mergeMetaData`
(registry.cc:170-179), `Registry::copySourceIDs` with the metadata written by `Registry::setSourceID`
(registry.cc:181-192, 676-684), and the virtual `mergeMetaData` of types (typemodel.cc:180-183, 426-439).
The first steps are `Verif.Merge`; the metadata of the objects they create are given by `Created`.
-/

namespace Verif.MergeMeta
open Verif Verif.Names Verif.Graph Verif.Registry Verif.TypeBuilder Verif.Merge

/-- Where metadata is stored: `none` is the metadata of the type itself (`Type::m_metadata`, typemodel.hh:95), `some i`
that of its field number `i` (`Field::m_metadata`, typemodel.hh:366). -/
abbrev Spot := Option Nat

/-- The metadata objects of all types and fields. -/
abbrev Store := TId → Spot → Meta.MetaData

/-- a change of one metadata object -/
def Store.put (M : Store) (t : TId) (s : Spot) (m : Meta.MetaData) : Store :=
  fun x y => if x = t ∧ y = s then m else M x y

/-- The field of `u` that `getField` finds for the name of the field `i` of `t`, when both are compounds
(typemodel.cc:299-307, 429-434). -/
def counterpart (H : Heap) (t u : TId) (i : Nat) : Option Nat :=
  match H.kind t, H.kind u with
  | .comp fs, .comp gs => (fs[i]?).bind (fun f => gs.findIdx? (fun g => g.name == f.name))
  | _, _ => none

/-- `Type::mergeMetaData` and `Compound::mergeMetaData` (typemodel.cc:180-183, 426-439). The loop over the fields is
written as one simultaneous change: field `i` only reads the metadata of a field of the other type, and a field
merged with itself keeps its metadata. -/
def typeMergeMeta (H : Heap) (M : Store) (t u : TId) : Store := fun x s =>
  if x = t then
    match s with
    | none => Meta.merge (M t none) (M u none)
    | some i =>
      match counterpart H t u i with
      | some j => Meta.merge (M t (some i)) (M u (some j))
      | none => M t (some i)
  else M x s

/-- one step of `Registry::mergeMetaData` (registry.cc:173-177) -/
def mergeMetaStep (H : Heap) (R : Reg) (M : Store) (p : Str × Entry) : Store :=
  match glookup R.global p.1 with
  | none => M
  | some e => typeMergeMeta H M e.ty p.2.ty

/-- `Registry::mergeMetaData` (registry.cc:170-179) -/
def mergeMetaData (H : Heap) (R : Reg) (M : Store) (src : List (Str × Entry)) : Store :=
  src.foldl (mergeMetaStep H R) M

def sourceKey : Str := "source_id".toList

/-- `Registry::setSourceID` (registry.cc:676-684): the metadata it writes -/
def setSourceMeta (H : Heap) (R : Reg) (M : Store) (t : TId) (source : Str) : Store :=
  match glookup R.global (H.name t) with
  | none => M
  | some _ => M.put t none (Meta.set (M t none) sourceKey source)

/-- one step of `Registry::copySourceIDs` (registry.cc:183-191): the tables and the metadata -/
def copySourceM (H : Heap) (w : Reg × Store) (p : Str × Entry) : Reg × Store :=
  match glookup w.1.global p.1 with
  | none => w
  | some e =>
    if p.2.source ≠ [] ∧ e.source = [] then (setSourceID H w.1 e.ty p.2.source, setSourceMeta H w.1 w.2 e.ty p.2.source)
    else w

/-- `Registry::copySourceIDs` (registry.cc:181-192) -/
def copySourceIDsM (H : Heap) (w : Reg × Store) (src : List (Str × Entry)) : Reg × Store :=
  src.foldl (copySourceM H) w

/-- the two loops of `Registry::merge` (registry.cc:139-165) -/
def mergeLoops (key : Char → Int) (fuel : Nat) (w : World) (src : Reg) : MSt × Res Unit :=
  andThen (mergeTypes key fuel src.global ⟨w.1, w.2, []⟩) fun s _ => mergeAliases key src.global s

/-- what `Registry::minimal(name)` does before the metadata (registry.cc:194-212) -/
def minimalLoops (key : Char → Int) (fuel : Nat) (H : Heap) (src fresh : Reg) (name : Str) (with_aliases : Bool) :
    MSt × Res Unit :=
  match src.get name with
  | none => (⟨H, fresh, []⟩, .exn .runtime)
  | some t =>
    andThen (mergeF key fuel ⟨H, fresh, []⟩ t) fun s _ =>
      if with_aliases then minimalAliases key src.global s else (s, .ok ())

/-- the last two lines of `Registry::merge` and `Registry::minimal` (registry.cc:166-167, 214-215), run when what
precedes did not throw -/
def finish (o : MSt × Res Unit) (M : Store) (src : Reg) : (World × Store) × Res Unit :=
  match o with
  | (s, .ok ()) =>
    let p := copySourceIDsM s.H (s.R, M) src.global
    (((s.H, p.1), mergeMetaData s.H p.1 p.2 src.global), .ok ())
  | (s, r) => (((s.H, s.R), M), r)

/-- `Registry::merge` (registry.cc:133-168) with the metadata -/
def mergeM (key : Char → Int) (fuel : Nat) (w : World) (src : Reg) (M : Store) : (World × Store) × Res Unit :=
  finish (mergeLoops key fuel w src) M src

/-- `Registry::minimal(name, with_aliases)` (registry.cc:194-217) with the metadata -/
def minimalM (key : Char → Int) (fuel : Nat) (H : Heap) (src fresh : Reg) (name : Str) (with_aliases : Bool) (M : Store) :
    (World × Store) × Res Unit :=
  finish (minimalLoops key fuel H src fresh name with_aliases) M src

/-- The metadata `M'` of all the objects once types were created in the course of a merge, `M` being that of the objects that
existed: the constructors start with no metadata (typemodel.cc:24, 635), the copy constructor used by
`NullType`, `OpaqueType`, `Numeric` and `Enum` takes that of the copied type, which has the same name (typemodel.cc:33,
249-250, 517-518, typemodel.hh:263, 276). -/
structure Created (H H' : Heap) (src : Reg) (M M' : Store) : Prop where
  old : ∀ t s, t < H.next → M' t s = M t s
  field : ∀ t i, H.next ≤ t → M' t (some i) = []
  own : ∀ t, H.next ≤ t → M' t none = [] ∨ ∃ u, Regd H src u ∧ H.name u = H'.name t ∧ M' t none = M u none

/-! ### Specification -/

/-- The metadata has the key `k` (`v = none`), or the value `v` for the key `k`. -/
def Holds (m : Meta.MetaData) (k : Str) : Option Str → Prop
  | none => Meta.includes m k = true
  | some v => v ∈ Meta.get m k

/-- The metadata objects that correspond to each other in the types `t` and `u`: those of the types; those of a field of `t`
and of the first field of `u` that has the same name. -/
inductive Corresponds (H : Heap) (t u : TId) : Spot → Spot → Prop
  | own : Corresponds H t u none none
  | field {fs gs : List FieldD} {f g : FieldD} {i j : Nat} : H.kind t = .comp fs → H.kind u = .comp gs →
      fs[i]? = some f → gs[j]? = some g → g.name = f.name →
      (∀ (j' : Nat) (g' : FieldD), j' < j → gs[j']? = some g' → g'.name ≠ f.name) →
      Corresponds H t u (some i) (some j)

/-- Objects built through the API (C34). -/
def Built (m : Meta.MetaData) : Prop := ∃ s, Meta.Hist m s

end Verif.MergeMeta
