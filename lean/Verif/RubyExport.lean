import Verif.RegistryIter
import Verif.NameProps

/-!
C70: the types of a registry as Ruby constants and methods: `Registry#export_to_ruby` (bindings/ruby/lib/typelib/registry.rb:108-111)
and `RegistryExport` (bindings/ruby/lib/typelib/registry_export.rb).

Strings are lists of characters, and the registry is the one of C05 (`Reg`). What is not modelled: the `registry` of an object (there
is one registry, and the conversions and the filter blocks give types of this registry, so `reset_registry_export` and the
filter never raise because of it), the warnings of the relaxed lookups, methods and constants that objects already have (they
never reach `method_missing` or `const_missing`). `String#snakecase` and `String#camelcase` are parameters; an argument of a template is
anything that has a text; conversions and filter blocks are functions.
-/

namespace Verif.RubyExport
open Verif Verif.Names Verif.Graph Verif.Registry Verif.RegistryIter

/-! ### Model -/

/-- a class that can be exported: the class of a type, or another Ruby class -/
inductive Cls where
  | ty (t : TId)
  | rb (k : Nat)
deriving DecidableEq, Repr

/-- an object that types can be looked up from: a module given to `export_to_ruby`, a `Namespace`, the class of a type, a delegate for
another class -/
inductive Obj where
  | root (r : Nat)
  | ns (k : Nat)
  | type (t : TId)
  | deleg (k : Nat) (c : Nat)
deriving DecidableEq, Repr

/-- what does not change: `α` is what can be given as argument of a template -/
structure Env (α : Type) where
  /-- `v.name` or `v.to_s` (registry_export.rb:62-65) -/
  text : α → Str
  snake : Str → Str
  camel : Str → Str
  /-- `convertion_to_ruby`: none, or a pair whose first element may be `nil` -/
  conv : TId → Option (Option Cls)
  /-- filter blocks; `none` is the result `nil` -/
  filter : Nat → Option (TId → Cls → Option Cls)
  /-- `Module#name` of the root modules -/
  rootName : Nat → Option Str
  /-- `Module#name` of the other classes -/
  className : Nat → Option Str
  /-- order of characters, for the table of the registry -/
  key : Char → Int

variable {α : Type} [DecidableEq α]

/-- the variables that `RegistryExport` adds to an object -/
structure Node (α : Type) where
  /-- `@__typelib_registry_export_typename_prefix` -/
  pre : Str
  /-- `@__typelib_registry_export_filter_block` -/
  filt : Nat
  /-- `@__typelib_registry_export_cache` -/
  cache : List ((Str × List α) × Obj)

structure World (α : Type) where
  H : Heap
  R : Reg
  /-- the objects that have been set up -/
  node : Obj → Option (Node α)
  /-- objects created so far -/
  fresh : Nat
  /-- the regular expression of line 127 has the flag `o`: the prefix of the first evaluation -/
  once : Option Str

/-- `Hash#[]` -/
def find : List ((Str × List α) × Obj) → Str × List α → Option Obj
  | [], _ => none
  | (k, x) :: l, q => if k = q then some x else find l q

def World.set (w : World α) (o : Obj) (n : Node α) : World α :=
  { w with node := fun x => if x = o then some n else w.node x }

/-- `args.join(",")` -/
def joinComma : List Str → Str
  | [] => []
  | [a] => a
  | a :: r => a ++ ',' :: joinComma r

/-- `template_args_to_typelib` (registry_export.rb:59-69); `nil` is nothing in a string -/
def templateArgs (E : Env α) : List α → Str
  | [] => []
  | a :: as => '<' :: joinComma ((a :: as).map E.text) ++ ['>']

/-- `each_candidate_name` (71-81) -/
def candidates (E : Env α) (relaxed : Bool) (m : Str) (args : List α) : List Str :=
  (m ++ templateArgs E args) ::
    if relaxed then [E.snake m ++ templateArgs E args, E.camel m ++ templateArgs E args] else []

/-- `type.name =~ /^…[^\/]+$/` (127), for a name on a single line -/
def matchesOnce (p name : Str) : Bool :=
  p.isPrefixOf name && !(name.drop p.length).isEmpty && (name.drop p.length).all (· != '/')

/-- the loop of `find_type` over the candidates (114-118) -/
def typeNamed (R : Reg) (pre : Str) : List Str → Option TId
  | [] => none
  | c :: cs =>
    match R.get (pre ++ c) with
    | some t => some t
    | none => typeNamed R pre cs

/-- the test of `find_type` (127-128) -/
def harderType (E : Env α) (H : Heap) (once : Str) (m : Str) (args : List α) (t : TId) : Bool :=
  matchesOnce once (H.name t) && E.snake (getTypename (H.name t)) == E.snake m ++ templateArgs E args

/-- `find_type` (113-134): the type, and the regular expression after the call; `each` is `Registry#each` -/
def findType (E : Env α) (each : Str → Res (List TId)) (w : World α) (relaxed : Bool) (pre m : Str) (args : List α) : Res (Option TId × Option Str) :=
  match typeNamed w.R pre (candidates E relaxed m args) with
  | some t => .ok (some t, w.once)
  | none =>
    if relaxed then
      match each pre with
      | .ok [] => .ok (none, w.once)
      | .ok (t :: ts) => .ok ((t :: ts).find? (harderType E w.H (w.once.getD pre) m args), some (w.once.getD pre))
      | .exn e => .exn e
      | .ub => .ub
      | .fuel => .fuel
    else .ok (none, w.once)

/-- the loop of `find_namespace` over the candidates (85-89) -/
def nsNamed (each : Str → Res (List TId)) (pre : Str) : List Str → Res (Option Str)
  | [] => .ok none
  | c :: cs =>
    match each (pre ++ c ++ ['/']) with
    | .ok [] => nsNamed each pre cs
    | .ok (_ :: _) => .ok (some c)
    | .exn e => .exn e
    | .ub => .ub
    | .fuel => .fuel

/-- the second loop of `find_namespace` (97-105); `snakecase` of `nil` raises `NoMethodError` -/
def harderNs (E : Env α) (H : Heap) (pre : List Str) (base : Str) : List TId → Res (Option Str)
  | [] => .ok none
  | t :: ts =>
    if (splitTypename (H.name t)).take pre.length ≠ pre then harderNs E H pre base ts
    else
      match (splitTypename (H.name t))[pre.length]? with
      | none => .exn .exception
      | some x => if E.snake x = base then .ok (some x) else harderNs E H pre base ts

/-- `find_namespace` (84-108) -/
def findNs (E : Env α) (each : Str → Res (List TId)) (w : World α) (relaxed : Bool) (pre m : Str) (args : List α) : Res (Option Str) :=
  match nsNamed each pre (candidates E relaxed m args) with
  | .ok none =>
    if relaxed then
      match each pre with
      | .ok l => harderNs E w.H (splitTypename pre) (E.snake (m ++ templateArgs E args)) l
      | .exn e => .exn e
      | .ub => .ub
      | .fuel => .fuel
    else .ok none
  | r => r

/-- `type.convertion_to_ruby[0] || type` (168-172, 180-183); other classes have no conversion -/
def Env.toRuby (E : Env α) : Cls → Cls
  | .ty t =>
    match E.conv t with
    | some (some c) => c
    | _ => .ty t
  | .rb k => .rb k

/-- the class that is exported for a type (167-186); `none` is `nil` -/
def Env.exported (E : Env α) (f : Nat) (t : TId) : Option Cls :=
  match E.filter f with
  | none => some (E.toRuby (.ty t))
  | some b =>
    match b t (E.toRuby (.ty t)) with
    | none => none
    | some x => if x = E.toRuby (.ty t) then some x else some (E.toRuby x)

/-- `setup_export_type` and `initialize_registry_export` (48-52, 151-160): the object, set up -/
def setup (w : World α) (n : Node α) (c : Cls) (base : Str) : World α × Obj :=
  match c with
  | .ty t => (w.set (.type t) ⟨n.pre ++ base ++ ['/'], n.filt, []⟩, .type t)
  | .rb k =>
    ({ w with fresh := w.fresh + 1 }.set (.deleg w.fresh k) ⟨n.pre ++ base ++ ['/'], n.filt, []⟩, .deleg w.fresh k)

/-- `@cache[k] = x` of an object -/
def World.store (w : World α) (o : Obj) (k : Str × List α) (x : Obj) : World α :=
  match w.node o with
  | some n => w.set o { n with cache := (k, x) :: n.cache }
  | none => w

/-- `@cache[k] = setup_export_type(…)` (187): the hash is read before the right-hand side is evaluated, so that the entry is lost if this
resets the variables of the same object -/
def World.remember (w : World α) (o : Obj) (k : Str × List α) (x : Obj) : World α := if x = o then w else w.store o k x

/-- `Module#name`: `Namespace`s have none; the name of a type is its name in the registry -/
def nameOf (E : Env α) (H : Heap) : Obj → Option Str
  | .root r => E.rootName r
  | .ns _ => none
  | .type t => some (H.name t)
  | .deleg _ c => E.className c

/-- a key whose name is `nil` is never looked up -/
def World.storeNs (E : Env α) (w : World α) (o : Obj) (x : Obj) : World α :=
  match nameOf E w.H o with
  | some n => w.store o (n, []) x
  | none => w

/-- `resolve_call_from_exported_registry` (162-195). An object that has not been set up has no prefix: `NoMethodError`. -/
def resolveBy (E : Env α) (each : Str → Res (List TId)) (w : World α) (o : Obj) (relaxed : Bool) (m : Str) (args : List α) : World α × Res (Option Obj) :=
  match w.node o with
  | none => (w, .exn .exception)
  | some n =>
    match find n.cache (m, args) with
    | some x => (w, .ok (some x))
    | none =>
      match findType E each w relaxed n.pre m args with
      | .ok (some t, once) =>
        match E.exported n.filt t with
        | none => ({ w with once := once }, .exn .exception)
        | some c =>
          let r := setup { w with once := once } n c (getTypename (w.H.name t))
          (r.1.remember o (m, args) r.2, .ok (some r.2))
      | .ok (none, once) =>
        match findNs E each w relaxed n.pre m args with
        | .ok (some b) =>
          let x := Obj.ns w.fresh
          let w := { w with once := once, fresh := w.fresh + 1 }.set x ⟨n.pre ++ b ++ ['/'], n.filt, []⟩
          (w.storeNs E o x, .ok (some x))
        | .ok none => ({ w with once := once }, .ok none)
        | .exn e => ({ w with once := once }, .exn e)
        | .ub => (w, .ub)
        | .fuel => (w, .fuel)
      | .exn e => (w, .exn e)
      | .ub => (w, .ub)
      | .fuel => (w, .fuel)

/-- `Registry#each` is the one of C58 -/
def resolve (E : Env α) (w : World α) (o : Obj) (relaxed : Bool) (m : Str) (args : List α) : World α × Res (Option Obj) :=
  resolveBy E (eachType E.key w.H w.R) w o relaxed m args

/-- what a call gives: an object, an exception (`NotFound`, `NoMethodError`: which one depends on the receiver), or undefined behaviour -/
inductive Out where
  | obj (x : Obj)
  | notFound
  | undefined
deriving DecidableEq, Repr

def outOf : Res (Option Obj) → Out
  | .ok (some x) => .obj x
  | .ok none => .notFound
  | .exn _ => .notFound
  | .ub => .undefined
  | .fuel => .undefined

/-- `o.m(*args)` (registry_export.rb:23-31, 197-203) -/
def methodMissing (E : Env α) (w : World α) (o : Obj) (m : Str) (args : List α) : World α × Out :=
  let r := resolve E w o false m args
  (r.1, outOf r.2)

/-- `o::M` (205-211) -/
def constMissing (E : Env α) (w : World α) (o : Obj) (m : Str) : World α × Out :=
  let r := resolve E w o true m []
  (r.1, outOf r.2)

/-- `export_to_ruby` (registry.rb:108-111): resets the variables of the module -/
def exportTo (w : World α) (r : Nat) (f : Nat) : World α := w.set (.root r) ⟨['/'], f, []⟩

/-- `o.m1(…).m2(…)…` -/
def walk (E : Env α) (w : World α) (o : Obj) : List (Str × List α) → World α × Out
  | [] => (w, .obj o)
  | (m, args) :: l =>
    match methodMissing E w o m args with
    | (w', .obj x) => walk E w' x l
    | r => r

/-! ### Specification -/

/-- an element of a path, in the text of a type name: `m`, or `m<a1,…,an>` -/
def element (E : Env α) (p : Str × List α) : Str :=
  if p.2 = [] then p.1 else p.1 ++ "<".toList ++ List.intercalate ",".toList (p.2.map E.text) ++ ">".toList

/-- `/x1/…/xn` -/
def pathName (E : Env α) (l : List (Str × List α)) : Str := l.flatMap fun p => '/' :: element E p

/-- The names a program may use: elements of a name (`Comp`: no `/` outside of balanced brackets), different from the Ruby names of the
modules and classes that are involved. -/
def Usable (E : Env α) (p : Str × List α) : Prop :=
  Comp (element E p) ∧ p.1 ≠ [] ∧ (∀ c ∈ p.1, c ≠ '/') ∧ (∀ r, E.rootName r ≠ some p.1) ∧ (∀ k, E.className k ≠ some p.1)

/-- there are no aliases -/
def NoAlias (H : Heap) (R : Reg) : Prop := ∀ n t, isAbsoluteName n = true → R.get n = some t → H.name t = n

/-- every type is exported as itself or as a class that is not a type, or not at all, by all filter blocks in the same way -/
def Plain (E : Env α) : Prop :=
  (∀ f t, E.exported f t = E.exported 0 t) ∧ (∀ t u, E.exported 0 t = some (.ty u) → u = t)

/-- the types that are registered, keep their names -/
def Grows (H : Heap) (R : Reg) (H' : Heap) (R' : Reg) : Prop :=
  ∀ n t, isAbsoluteName n = true → R.get n = some t → R'.get n = some t ∧ H'.name t = H.name t

/-- One step of a program: `export_to_ruby`, a lookup by method on any object, or anything that adds types to the registry. -/
inductive Step (E : Env α) : World α → World α → Prop
  | export (w : World α) (r f : Nat) : Step E w (exportTo w r f)
  | call (w : World α) (o : Obj) (m : Str) (args : List α) : Usable E (m, args) → Step E w (methodMissing E w o m args).1
  | grow (w : World α) (H' : Heap) (R' : Reg) : Reachable E.key H' R' → NoAlias H' R' → Grows w.H w.R H' R' →
      Step E w { w with H := H', R := R' }

/-- nothing has been exported -/
def World.start (H : Heap) (R : Reg) : World α := ⟨H, R, fun _ => none, 0, none⟩

inductive Steps (E : Env α) : World α → World α → Prop
  | refl (w : World α) : Steps E w w
  | step {a b c : World α} : Steps E a b → Step E b c → Steps E a c

/-- a state of a program -/
def Hist (E : Env α) (w : World α) : Prop :=
  ∃ H R, Reachable E.key H R ∧ NoAlias H R ∧ Steps E (World.start H R) w

/-- the object stands for a class -/
def For (x : Obj) (c : Cls) : Prop :=
  match c with
  | .ty t => x = .type t
  | .rb k => ∃ i, x = .deleg i k

end Verif.RubyExport
