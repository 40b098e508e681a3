import Verif.TypeGraph

/-!
Model of `typelib/registry.cc`: the name tables of a registry and the operations on them.

`m_global` is a list sorted by `nameSort` (a `std::map` with that comparator); `m_current`
(`std::map<string, RegistryType>`), which is only searched, inserted into, erased from and filtered,
is a partial function. Exceptions leave the tables as they are at the point of the `throw`: every
operation returns the new tables *and* an outcome.
-/

namespace Verif.Registry
open Verif Verif.Names Verif.Graph

/-- `Registry::RegistryType` (registry.hh:92-97). -/
structure Entry where
  ty : TId
  persistent : Bool
  source : Str
  deriving DecidableEq, Repr

/-- The tables of a `Registry` (registry.hh:98-110). -/
structure Reg where
  global : List (Str × Entry)
  current : Str → Option Entry
  ns : Str

/-- `m_global.find(name)`. -/
def glookup (l : List (Str × Entry)) (n : Str) : Option Entry :=
  (l.find? (fun p => p.1 == n)).map (·.2)

/-- `m_global.insert(make_pair(n, e))`: keeps the order, does nothing when the key is present. -/
def ginsert (key : Char → Int) (n : Str) (e : Entry) : List (Str × Entry) → List (Str × Entry)
  | [] => [(n, e)]
  | (m, f) :: r =>
    if n = m then (m, f) :: r
    else if nameSort key n m then (n, e) :: (m, f) :: r
    else (m, f) :: ginsert key n e r

/-- `m_current.insert(make_pair(n, e))`: no effect when the key is present. -/
def cinsert (c : Str → Option Entry) (n : Str) (e : Entry) : Str → Option Entry :=
  fun m => if m = n then (match c n with | some f => some f | none => some e) else c m

/-- `m_current.erase(n)`. -/
def cerase (c : Str → Option Entry) (n : Str) : Str → Option Entry :=
  fun m => if m = n then none else c m

/-- `Registry::get` / `get_` (registry.cc:280-302). -/
def Reg.get (R : Reg) (n : Str) : Option TId := (R.current n).map (·.ty)

/-- `Registry::has(name, false)` (registry.cc:259-265). -/
def Reg.has (R : Reg) (n : Str) : Bool := (R.current n).isSome

/-- body of the loop of `importNamespace` (registry.cc:98-105). -/
def importStep (plen : Nat) (erase : Bool) (c : Str → Option Entry) (p : Str × Entry) :
    Str → Option Entry :=
  let rel := p.1.drop plen
  cinsert (if erase then cerase c rel else c) rel p.2

/-- `Registry::importNamespace` (registry.cc:91-106): the map is scanned from `lower_bound` to the
first name outside of the namespace. -/
def importNamespace (key : Char → Int) (R : Reg) (name : Str) (erase : Bool) : Reg :=
  let norm := getNormalizedNamespace name
  let block := (R.global.dropWhile (fun p => nameSort key p.1 norm)).takeWhile
    (fun p => isInNamespace p.1 norm true)
  { R with current := block.foldl (importStep norm.length erase) R.current }

/-- the token loop of `updateCurrentNameMap` (registry.cc:72-77). -/
def importTokens (key : Char → Int) (R : Reg) (space : Str) : List Str → Reg
  | [] => R
  | t :: ts =>
    let space' := space ++ t ++ ['/']
    importTokens key (importNamespace key R space' true) space' ts

/-- `Registry::updateCurrentNameMap` (registry.cc:62-78). -/
def updateCurrent (key : Char → Int) (R : Reg) : Reg :=
  let R0 : Reg := { R with current := R.global.foldl (fun c p => cinsert c p.1 p.2) (fun _ => none) }
  importTokens key (importNamespace key R0 ['/'] false) ['/'] (tokens R.ns)

/-- `Registry::setDefaultNamespace` (registry.cc:81-89). -/
def setDefaultNamespace (key : Char → Int) (R : Reg) (space : Str) : Reg × Bool :=
  if isValidNamespace space true then
    (updateCurrent key { R with ns := getNormalizedNamespace space }, true)
  else (R, false)

/-- The empty registry, before `registerPluginTypes` (registry.cc:52-58): plugins then call the public
`add` and `alias`. -/
def Reg.empty : Reg := ⟨[], fun _ => none, ['/']⟩

/-- body of the loop of `Registry::add` over the enclosing namespaces (registry.cc:355-362). The clash
test compares the *primary* name of the type found with the name being added. -/
def relUpdate (key : Char → Int) (H : Heap) (name : Str) (e : Entry) (c : Str → Option Entry) (rel : Str) :
    Str → Option Entry :=
  match c rel with
  | none => cinsert (cerase c rel) rel e
  | some f => if !nameSort key (H.name f.ty) name then cinsert (cerase c rel) rel e else c

/-- the loop of `Registry::add` over the enclosing namespaces (registry.cc:345-367). -/
def addRel (key : Char → Int) (H : Heap) (name : Str) (e : Entry) :
    Str → List Str → (Str → Option Entry) → (Str → Option Entry)
  | space, toks, c =>
    if name.length ≤ space.length ∨ name.take space.length ≠ space then c
    else
      let rel := name.drop space.length
      let c' := relUpdate key H name e c rel
      match toks with
      | [] => c'
      | t :: ts => addRel key H name e (space ++ t ++ ['/']) ts c'
  termination_by _ toks => toks.length

/-- the private `Registry::add(name, type, persistent, source_id)` (registry.cc:326-368). -/
def addName (key : Char → Int) (H : Heap) (R : Reg) (name : Str) (t : TId) (persistent : Bool)
    (source : Str) : Reg × Res Unit :=
  if !isValidTypename name true then (R, .exn .badName)
  else
    match R.get name with
    | some t' => if t' = t then (R, .ok ()) else (R, .exn .alreadyDefined)
    | none =>
      let e : Entry := ⟨t, persistent, source⟩
      ({ R with global := ginsert key name e R.global,
                current := addRel key H name e ['/'] (tokens R.ns) (cinsert R.current name e) }, .ok ())

/-- `RegistryIterator::isAlias` (registryiterator.hh:33). -/
def isAlias (H : Heap) (p : Str × Entry) : Bool := p.1 != H.name p.2.ty

/-- `std::less<std::string>`: lexicographic on the bytes. -/
def strLt : Str → Str → Bool
  | [], [] => false
  | [], _ :: _ => true
  | _ :: _, [] => false
  | a :: r, b :: s => if a = b then strLt r s else decide (a.toNat < b.toNat)

/-- `std::set<std::string>::insert`. -/
def sinsert (n : Str) : List Str → List Str
  | [] => [n]
  | m :: r => if n = m then m :: r else if strLt n m then n :: m :: r else m :: sinsert n r

/-- `Registry::getAliasesOf` (registry.cc:664-674); the result is a `std::set`, in its iteration
order. -/
def getAliasesOf (H : Heap) (R : Reg) (t : TId) : List Str :=
  R.global.foldl (fun s p => if isAlias H p && p.2.ty == t then sinsert p.1 s else s) []

/-- `for (it ...) f(*it)`, abandoned by the first exception. -/
def forEach {α : Type} (f : Reg → α → Reg × Res Unit) : Reg → List α → Reg × Res Unit
  | R, [] => (R, .ok ())
  | R, a :: l =>
    match f R a with
    | (R', .ok ()) => forEach f R' l
    | r => r

/-- `modifiedDependencyAliases` of each class (typemodel.cc:47, 276-288, containers.hh:92); `al` is
the call `registry.alias(full_name, alias_name, false)`. -/
def modDep (al : Reg → Str → Str → Reg × Res Unit) (H : Heap) (R : Reg) (u : TId) : Reg × Res Unit :=
  match (H.kind u).indirectName, (H.kind u).elem? with
  | some ind, some x =>
    forEach (fun R a => if R.has (ind a) then (R, .ok ()) else al R (H.name u) (ind a)) R
      (getAliasesOf H R x)
  | _, _ => (R, .ok ())

/-- the triggers of `alias` (registry.cc:418-426). -/
def triggers (H : Heap) (R : Reg) (t : TId) : List TId :=
  (R.global.filter (fun p => !isAlias H p && (H.deps p.2.ty).contains t)).map (·.2.ty)

/-- `Registry::alias(base, newname, persistent, source_id)` (registry.cc:402-433). `alias` and
`modifiedDependencyAliases` call each other: `fuel` bounds the depth (see `C25_alias_terminates`). -/
def aliasF (key : Char → Int) (H : Heap) : Nat → Reg → Str → Str → Bool → Str → Reg × Res Unit
  | 0, R, _, _, _, _ => (R, .fuel)
  | f + 1, R, base, newname, persistent, source =>
    if !isValidTypename newname true then (R, .exn .badName)
    else
      match R.get base with
      | none => (R, .exn .undefined)
      | some t =>
        match addName key H R newname t persistent source with
        | (R1, .ok ()) =>
          forEach (modDep (fun R b n => aliasF key H f R b n false []) H) R1 (triggers H R1 t)
        | r => r

/-- `alias` with enough fuel for every heap: an indirect type is always younger than its element. -/
def alias (key : Char → Int) (H : Heap) (R : Reg) (base newname : Str) (persistent : Bool)
    (source : Str) : Reg × Res Unit :=
  aliasF key H (H.next + 1) R base newname persistent source

/-- `Registry::isPersistent` (registry.cc:311-324). -/
def isPersistent (H : Heap) (name : Str) (t : TId) : Bool :=
  if name ≠ H.name t then true
  else match H.cat t with
    | .pointer => false
    | .array => false
    | _ => true

/-- `Registry::alias(base, newname, source_id)` (registry.cc:393-400). -/
def aliasAuto (key : Char → Int) (H : Heap) (R : Reg) (base newname source : Str) : Reg × Res Unit :=
  match R.get base with
  | none => (R, .exn .undefined)
  | some t => alias key H R base newname (isPersistent H newname t) source

/-- `Registry::add(Type*, bool, string)` (registry.cc:375-391). -/
def add (key : Char → Int) (H : Heap) (R : Reg) (t : TId) (persistent : Bool) (source : Str) :
    Reg × Res Unit :=
  match addName key H R (H.name t) t persistent source with
  | (R1, .ok ()) =>
    if (H.deps t).any (fun d => !(getAliasesOf H R1 d).isEmpty) then
      modDep (fun R b n => alias key H R b n false []) H R1 t
    else (R1, .ok ())
  | r => r

/-- `Registry::add(Type*, string)` (registry.cc:370-373). -/
def addAuto (key : Char → Int) (H : Heap) (R : Reg) (t : TId) (source : Str) : Reg × Res Unit :=
  add key H R t (isPersistent H (H.name t) t) source

/-- `Registry::removeAlias` (registry.cc:435-449). -/
def removeAlias (key : Char → Int) (H : Heap) (R : Reg) (name : Str) : Reg × Res Unit :=
  match glookup R.global name with
  | none => (R, .exn .runtime)
  | some e =>
    if H.name e.ty = name then (R, .exn .runtime)
    else (updateCurrent key { R with global := R.global.filter (fun p => p.1 != name) }, .ok ())

/-- `Registry::clearAliases` (registry.cc:451-464). -/
def clearAliases (key : Char → Int) (H : Heap) (R : Reg) : Reg :=
  updateCurrent key { R with global := R.global.filter (fun p => !isAlias H p) }

/-- one round of `reverseDepends` (registry.cc:604-621): the new queue. -/
def revRound (H : Heap) (R : Reg) (result queue : List TId) : List TId :=
  (R.global.filter (fun p => !isAlias H p && !(result.contains p.2.ty || queue.contains p.2.ty) &&
    queue.any (fun q => (H.deps p.2.ty).contains q))).map (·.2.ty)

/-- the `while (!queue.empty())` loop of `reverseDepends` (registry.cc:602-624). -/
def revLoop (H : Heap) (R : Reg) : Nat → List TId → List TId → Res (List TId)
  | 0, _, _ => .fuel
  | f + 1, result, queue =>
    if queue.isEmpty then .ok result
    else revLoop H R f (result ++ queue) (revRound H R result queue)

/-- `Registry::reverseDepends` (registry.cc:595-626). -/
def reverseDepends (H : Heap) (R : Reg) (t : TId) : Res (List TId) :=
  revLoop H R (R.global.length + 2) [] [t]

/-- `Registry::remove` (registry.cc:641-662). -/
def remove (H : Heap) (R : Reg) (t : TId) : Reg × Res (List TId) :=
  match reverseDepends H R t with
  | .ok types =>
    ({ R with global := R.global.filter (fun p => !types.contains p.2.ty),
              current := fun n => match R.current n with
                | some e => if types.contains e.ty then none else some e
                | none => none }, .ok types)
  | .exn e => (R, .exn e)
  | .ub => (R, .ub)
  | .fuel => (R, .fuel)

/-- the name-table part of `Registry::setSourceID` (registry.cc:676-684); the metadata is not part of
the tables. -/
def setSourceID (H : Heap) (R : Reg) (t : TId) (source : Str) : Reg :=
  { R with global := R.global.map (fun p => if p.1 = H.name t then (p.1, { p.2 with source := source }) else p) }

end Verif.Registry
