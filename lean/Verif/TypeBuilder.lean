import Verif.RegistryExamples

/-!
Model of `typelib/typebuilder.cc` (and of `Registry::has`/`build` that use it, registry.cc:259-278).
-/

namespace Verif.TypeBuilder
open Verif Verif.Names Verif.Graph Verif.Registry

/-- `size_t` arithmetic wraps -/
def W : Nat := 2 ^ 64

/-- conversion of an `int` to `size_t` -/
def toSizeT (i : Int) : Nat := (i % (W : Int)).toNat

/-- conversion of a `size_t` to `int` -/
def toInt (n : Nat) : Int := if n % 2 ^ 32 < 2 ^ 31 then (n % 2 ^ 32 : Nat) else (n % 2 ^ 32 : Nat) - 2 ^ 32

/-- `TypeBuilder::Modifier` (typebuilder.hh:59-63). Other categories than these two are ignored by `build`.
A negative pointer level makes `addPointer` loop for 2^31 rounds or more; it is not modelled (`parseTypename` only
makes 1). -/
inductive Modifier where
  | ptr (level : Nat)
  | arr (dim : Int)
  deriving DecidableEq, Repr

/-- `isspace` in the "C" locale -/
def isSpaceC (c : Char) : Bool :=
  c == ' ' || c == '\t' || c == '\n' || c == Char.ofNat 11 || c == Char.ofNat 12 || c == '\r'

/-- the value read by `atoi`: leading spaces, an optional sign, digits -/
def atoiVal (s : Str) : Int :=
  let s := s.dropWhile isSpaceC
  let neg := s.head? == some '-'
  let s := if s.head? == some '-' || s.head? == some '+' then s.drop 1 else s
  let v : Nat := Nat.ofDigitChars 10 (s.takeWhile Char.isDigit) 0
  if neg then -(v : Int) else v

/-- `atoi`: undefined when the value does not fit an `int`. -/
def atoi (s : Str) : Res Int :=
  if -(2 ^ 31 : Int) ≤ atoiVal s ∧ atoiVal s < 2 ^ 31 then .ok (atoiVal s) else .ub

/-- The loop of `parseTypename` (typebuilder.cc:119-147), on the *reversed* text `full_name[0..end]`: the head of
the list is `full_name[end]`; `end > 0` is "two characters or more". The text given to `atoi` goes on to the end of
the name; it is cut here after the `]`, where the digits end anyway. `fuel` bounds the number of rounds by the length
of the name. -/
def parseLoop : Nat → Str → List Modifier → Res (Str × List Modifier)
  | 0, _, _ => .fuel
  | _ + 1, [], _ => .exn .runtime
  | _ + 1, [_], _ => .exn .runtime
  | f + 1, c :: r, mods =>
    if c = ']' then
      -- find_last_of('[', end)
      match r.dropWhile (fun x => x != '[') with
      | [] => .exn .runtime
      | _ :: rest =>
        match atoi ((r.takeWhile (fun x => x != '[')).reverse ++ [']']) with
        | .ok d => parseLoop f rest (.arr d :: mods)
        | .exn e => .exn e
        | .ub => .ub
        | .fuel => .fuel
    else if c = '*' then parseLoop f r (.ptr 1 :: mods)
    else if c = ' ' then parseLoop f r mods
    else .ok ((c :: r).reverse, mods)

/-- `TypeBuilder::parseTypename` (typebuilder.cc:114-149). -/
def parseTypename (full_name : Str) : Res (Str × List Modifier) :=
  parseLoop (full_name.length + 1) full_name.reverse []

/-- `[dim]` -/
def arrSuffix (d : Nat) : Str := '[' :: natStr d ++ [']']

/-- `Array::Array` (typemodel.cc:520-522) -/
def arrDef (H : Heap) (t : TId) (d : Nat) : TypeDef := ⟨H.name t ++ arrSuffix d, d * H.size t % W, .arr d t⟩

/-- `Pointer::Pointer` (typemodel.cc:561-562); pointers have 8 bytes -/
def ptrDef (H : Heap) (t : TId) : TypeDef := ⟨H.name t ++ ['*'], 8, .ptr t⟩

/-- the type objects that exist and the registry -/
abbrev World := Heap × Reg

/-- common part of `addPointer` and `addArrayMajor`: look the name up, or create and register the type -/
def getOrAdd (key : Char → Int) (w : World) (d : TypeDef) : World × Res TId :=
  match w.2.get d.name with
  | some u => (w, .ok u)
  | none =>
    let H := w.1.alloc d
    match addAuto key H w.2 w.1.next [] with
    | (R, .ok _) => ((H, R), .ok w.1.next)
    | (R, .exn e) => ((H, R), .exn e)
    | (R, .ub) => ((H, R), .ub)
    | (R, .fuel) => ((H, R), .fuel)

/-- `TypeBuilder::addArrayMajor` (typebuilder.cc:74-85) -/
def addArrayMajor (key : Char → Int) (w : World) (t : TId) (new_dim : Int) : World × Res TId :=
  getOrAdd key w (arrDef w.1 t (toSizeT new_dim))

/-- `TypeBuilder::addPointer` (typebuilder.cc:38-53) -/
def addPointer (key : Char → Int) : Nat → World → TId → World × Res TId
  | 0, w, t => (w, .ok t)
  | level + 1, w, t =>
    match getOrAdd key w (ptrDef w.1 t) with
    | (w', .ok u) => addPointer key level w' u
    | r => r

/-- one round of the loop of `build` (typebuilder.cc:99-105) -/
def applyMod (key : Char → Int) (w : World) (t : TId) : Modifier → World × Res TId
  | .ptr level => addPointer key level w t
  | .arr d => addArrayMajor key w t d

/-- the loop of `build` (typebuilder.cc:97-106) -/
def applyMods (key : Char → Int) : World → TId → List Modifier → World × Res TId
  | w, t, [] => (w, .ok t)
  | w, t, m :: ms =>
    match applyMod key w t m with
    | (w', .ok u) => applyMods key w' u ms
    | r => r

/-- `Type::setSize` -/
def setSize (H : Heap) (t : TId) (n : Nat) : Heap :=
  { H with get := fun u => if u = t then { H.get t with size := n } else H.get u }

/-- `TypeBuilder::build(registry, spec, size)` (typebuilder.cc:92-111). -/
def buildSpec (key : Char → Int) (w : World) (base : TId) (mods : List Modifier) (size : Int) : World × Res TId :=
  match applyMods key w base mods with
  | (w', .ok u) => if size ≠ 0 then ((setSize w'.1 u (toSizeT size), w'.2), .ok u) else (w', .ok u)
  | r => r

/-- `TypeBuilder::build(registry, full_name, size)` (typebuilder.cc:161-168); `none` is NULL: `Undefined`
thrown by `parse` is caught, other exceptions are not. -/
def buildName (key : Char → Int) (w : World) (full_name : Str) (size : Int) : World × Res (Option TId) :=
  match parseTypename full_name with
  | .ok (base, mods) =>
    match w.2.get base with
    | none => (w, .ok none)
    | some t =>
      match buildSpec key w t mods size with
      | (w', .ok u) => (w', .ok (some u))
      | (w', .exn e) => (w', .exn e)
      | (w', .ub) => (w', .ub)
      | (w', .fuel) => (w', .fuel)
  | .exn e => (w, .exn e)
  | .ub => (w, .ub)
  | .fuel => (w, .fuel)

/-- `Registry::getFullName` (registry.cc:108-113) -/
def getFullName (R : Reg) (name : Str) : Str := if isAbsoluteName name then name else R.ns ++ name

/-- `Registry::build` (registry.cc:271-278) -/
def build (key : Char → Int) (w : World) (name : Str) (size : Nat) : World × Res (Option TId) :=
  match w.2.get name with
  | some t => (w, .ok (some t))
  | none => buildName key w (getFullName w.2 name) (toInt size)

/-- `TypeBuilder::getBaseType` (typebuilder.cc:170-176) -/
def getBaseType (R : Reg) (full_name : Str) : Res (Option TId) :=
  match parseTypename full_name with
  | .ok (base, _) => .ok (R.get base)
  | .exn e => .exn e
  | .ub => .ub
  | .fuel => .fuel

/-- `Registry::has` (registry.cc:259-269) -/
def has (R : Reg) (name : Str) (build_if_missing : Bool) : Res Bool :=
  if R.has name then .ok true
  else if !build_if_missing then .ok false
  else match getBaseType R (getFullName R name) with
    | .ok b => .ok b.isSome
    | .exn e => .exn e
    | .ub => .ub
    | .fuel => .fuel

/-- the dimensions collected by the first loop of `addArrayMinor` (typebuilder.cc:60-65), outermost first, and the
innermost element -/
def peel (H : Heap) : Nat → TId → List Int × TId
  | 0, t => ([], t)
  | f + 1, t =>
    match H.kind t with
    | .arr d e => let r := peel H f e; (toInt d :: r.1, r.2)
    | _ => ([], t)

/-- `TypeBuilder::addArrayMinor` (typebuilder.cc:55-72). An element is older than its array: the number of objects
bounds the rounds of the first loop. -/
def addArrayMinor (key : Char → Int) (w : World) (t : TId) (new_dim : Int) : World × Res TId :=
  let p := peel w.1 (w.1.next + 1) t
  applyMods key w p.2 (.arr new_dim :: p.1.reverse.map .arr)

end Verif.TypeBuilder
