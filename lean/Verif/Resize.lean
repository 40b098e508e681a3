import Verif.RegistryHist

/-!
Model of `Registry::resize` (registry.cc:572-593), `Type::resize` and the `do_resize` of each class
(typemodel.cc:140-168, 289-293, 404-422, 546-553).

The objects change while the traversal runs: the state is the heap and the map `new_sizes`
(name → old size, new size), which is only searched and inserted into. An object that (transitively)
depends on itself makes the recursion go on forever (`C32_recursive_type_diverges`), so `fuel` bounds the depth.
-/

namespace Verif.Resize
open Verif Verif.Names Verif.Graph Verif.Registry

/-- `std::map<std::string, std::pair<size_t, size_t>>`. -/
abbrev Memo := Str → Option (Nat × Nat)

/-- `map::insert(make_pair(n, v))`: keeps an existing value. -/
def minsert (m : Memo) (n : Str) (v : Nat × Nat) : Memo :=
  fun k => if k = n then (match m n with | some w => some w | none => some v) else m k

structure St where
  H : Heap
  memo : Memo

def setDef (H : Heap) (t : TId) (d : TypeDef) : Heap := { H with get := fun u => if u = t then d else H.get u }

/-- `Type::setSize`. -/
def St.setSize (s : St) (t : TId) (n : Nat) : St :=
  { s with H := setDef s.H t { s.H.get t with size := n } }

/-- `it->setOffset(...)` on the `i`-th field. -/
def setOff (fs : List FieldD) (i : Nat) (off : Nat) : List FieldD :=
  match fs[i]? with
  | some f => fs.set i { f with offset := off }
  | none => fs

def St.setOffset (s : St) (t : TId) (i : Nat) (off : Nat) : St :=
  match s.H.kind t with
  | .comp fs => { s with H := setDef s.H t { s.H.get t with kind := .comp (setOff fs i off) } }
  | _ => s

/-- sequencing: an exception (or undefined behaviour) stops the computation where it is -/
def andThen {α β : Type} (x : St × Res α) (f : St → α → St × Res β) : St × Res β :=
  match x with
  | (s, .ok a) => f s a
  | (s, .exn e) => (s, .exn e)
  | (s, .ub) => (s, .ub)
  | (s, .fuel) => (s, .fuel)

@[simp] theorem andThen_ok {α β : Type} (s : St) (a : α) (f : St → α → St × Res β) :
    andThen (s, .ok a) f = f s a := rfl

/-- `Type::do_resize` (typemodel.cc:154-168). -/
def typeDoResize (s : St) (t : TId) : St × Bool :=
  match s.memo (s.H.name t) with
  | some (_, new) => if s.H.size t ≠ new then (s.setSize t new, true) else (s, false)
  | none => (s, false)

/-- the loop of `Compound::do_resize` over the fields (typemodel.cc:406-416); `g` is `global_offset`; the
result is its final value. -/
def fieldLoop (rec : St → TId → St × Res Bool) (R : Reg) (t : TId) : List Nat → Nat → St → St × Res Nat
  | [], g, s => (s, .ok g)
  | i :: is, g, s =>
    match s.H.kind t with
    | .comp fs =>
      match fs[i]? with
      | none => (s, .ub)
      | some f =>
        let s1 := s.setOffset t i (wadd f.offset g)
        match R.get (s1.H.name f.ty) with
        | none => (s1, .exn .undefined)
        | some ft =>
          andThen (rec s1 ft) fun s2 changed =>
            if changed then
              match s2.memo (s2.H.name ft) with
              | none => (s2, .ub)
              | some (old, _) => fieldLoop rec R t is (wadd g (wsub (s2.H.size ft) old)) s2
            else fieldLoop rec R t is g s2
    | _ => (s, .ub)

/-- `Indirect::do_resize` (typemodel.cc:289-293). -/
def indirectDoResize (rec : St → TId → St × Res Bool) (R : Reg) (t e : TId) (s : St) : St × Res Bool :=
  let (s1, result) := typeDoResize s t
  match R.get (s1.H.name e) with
  | none => (s1, .exn .undefined)
  | some ft => andThen (rec s1 ft) fun s2 r => (s2, .ok (r || result))

/-- `do_resize` of each class: `Type` (typemodel.cc:154-168), `Indirect` (pointers and containers,
typemodel.cc:289-293), `Array` (typemodel.cc:546-553), `Compound` (typemodel.cc:404-422). -/
def doResize (rec : St → TId → St × Res Bool) (R : Reg) (t : TId) (s : St) : St × Res Bool :=
  match s.H.kind t with
  | .comp fs =>
    andThen (fieldLoop rec R t (List.range fs.length) 0 s) fun s1 g =>
      if g ≠ 0 then (s1.setSize t (wadd (s1.H.size t) g), .ok true) else (s1, .ok false)
  | .arr d e =>
    andThen (indirectDoResize rec R t e s) fun s1 r =>
      if r then (s1.setSize t (wmul d (s1.H.size e)), .ok true) else (s1, .ok false)
  | .ptr e => indirectDoResize rec R t e s
  | .vec e => indirectDoResize rec R t e s
  | .str e => indirectDoResize rec R t e s
  | _ => let (s1, r) := typeDoResize s t; (s1, .ok r)

/-- `Type::resize` (typemodel.cc:140-152). -/
def resizeType (R : Reg) : Nat → St → TId → St × Res Bool
  | 0, s, _ => (s, .fuel)
  | f + 1, s, t =>
    match s.memo (s.H.name t) with
    | some _ => (s, .ok true)
    | none =>
      andThen (doResize (resizeType R f) R t s) fun s1 r =>
        if r then ({ s1 with memo := minsert s1.memo (s.H.name t) (s.H.size t, s1.H.size t) }, .ok true)
        else (s1, .ok false)

/-- the first loop of `Registry::resize` (registry.cc:578-586); `*get_(name)` dereferences a null pointer for
an unknown name. -/
def startSizes (R : Reg) : List (Str × Nat) → St → St × Res Unit
  | [], s => (s, .ok ())
  | (n, v) :: r, s =>
    match R.get n with
    | none => (s, .ub)
    | some t =>
      startSizes R r (({ s with memo := minsert s.memo (s.H.name t) (s.H.size t, v) } : St).setSize t v)

/-- the second loop of `Registry::resize` (registry.cc:588-592) -/
def resizeAll (R : Reg) (fuel : Nat) : List (Str × Entry) → St → St × Res Unit
  | [], s => (s, .ok ())
  | p :: r, s =>
    if isAlias s.H p then resizeAll R fuel r s
    else andThen (resizeType R fuel s p.2.ty) fun s1 _ => resizeAll R fuel r s1

/-- `Registry::resize` (registry.cc:572-593). -/
def resize (fuel : Nat) (H : Heap) (R : Reg) (req : List (Str × Nat)) : Heap × Res Unit :=
  let r := andThen (startSizes R req ⟨H, fun _ => none⟩) fun s _ => resizeAll R fuel R.global s
  (r.1.H, r.2)

/-! ### Specification -/

/-- the type is given a size by the caller -/
def Explicit (R : Reg) (req : List (Str × Nat)) (t : TId) : Prop := ∃ p ∈ req, R.get p.1 = some t

def sumOf (g : TId → Nat) (fs : List FieldD) : Nat := (fs.map (fun f => g f.ty)).sum

/-- `g` is a consistent assignment of new sizes: the requested ones, compounds grow by the total growth of
their fields, arrays are `dimension * element size`, everything else keeps its size; all of them are
representable. -/
structure Sizing (H : Heap) (R : Reg) (req : List (Str × Nat)) (g : TId → Nat) : Prop where
  known : ∀ p ∈ req, ∃ t, R.get p.1 = some t
  explicit : ∀ p ∈ req, ∀ t, R.get p.1 = some t → g t = p.2
  comp : ∀ t fs, R.regd H t → ¬ Explicit R req t → H.kind t = .comp fs →
    g t + sumOf H.size fs = H.size t + sumOf g fs
  arr : ∀ t d e, R.regd H t → ¬ Explicit R req t → H.kind t = .arr d e → g t = d * g e
  other : ∀ t, R.regd H t → ¬ Explicit R req t →
    (match H.kind t with | .comp _ => False | .arr .. => False | _ => True) → g t = H.size t
  range : ∀ t, g t < W

/-- no compound has fields that grow and others that shrink by the same total amount -/
def NoCancel (H : Heap) (R : Reg) (req : List (Str × Nat)) (g : TId → Nat) : Prop :=
  ∀ t fs, R.regd H t → ¬ Explicit R req t → H.kind t = .comp fs → g t = H.size t →
    ∀ f ∈ fs, g f.ty = H.size f.ty

/-- a sane set of definitions: everything a registered type depends on is registered, sizes and offsets are
`size_t`, arrays have the size of their elements -/
structure Sane (H : Heap) (R : Reg) : Prop where
  closed : ∀ t d, R.regd H t → d ∈ H.deps t → R.regd H d
  sizes : ∀ t, H.size t < W
  offsets : ∀ t fs, H.kind t = .comp fs → ∀ f ∈ fs, f.offset < W
  arrays : ∀ t d e, R.regd H t → H.kind t = .arr d e → H.size t = d * H.size e

/-- no type depends on itself (except through a type whose size is given) -/
def Ranked (H : Heap) (R : Reg) (req : List (Str × Nat)) (rk : TId → Nat) : Prop :=
  ∀ t d, R.regd H t → ¬ Explicit R req t → d ∈ H.deps t → rk d < rk t

end Verif.Resize
