import Verif.Basic

/-!
Model of `typelib/utilmm/singleton`: the server of reference-counted singletons.

Every call of `attach`, `detach` and `instance` runs entirely under the process-wide recursive mutex
`server::sing_mtx` (dummy.cc:28, 33, 39), so an execution of any number of threads is a sequence of
complete calls. `size_t` reference counters are natural numbers (fewer than 2^64 clients).
-/

namespace Verif.Singleton
open Verif

/-- the key of a singleton: `typeid(Ty).name()` (wrapper.tcc:38-40) -/
abbrev Name := Str

/-- The server object (server.hh): `singletons` is the map from names to the wrapper's `ref_counter`;
`id` tells two successive server objects apart. -/
structure Server where
  id : Nat
  map : List (Name × Nat)

/-- `the_instance`, and ghost counters: server objects allocated so far, singletons constructed and
destroyed so far, by name. -/
structure St where
  server : Option Server
  servers : Nat
  created : Name → Nat
  destroyed : Name → Nat

/-- before any call -/
def St.init : St := ⟨none, 0, fun _ => 0, fun _ => 0⟩

/-- `server::instance()` (server.cc:57-61) -/
def instanceServer (s : St) : Server × St :=
  match s.server with
  | some v => (v, s)
  | none => let v : Server := ⟨s.servers, []⟩
            (v, { s with server := some v, servers := s.servers + 1 })

/-- one more event for `n` -/
def bump (c : Name → Nat) (n : Name) : Name → Nat := fun m => if m = n then c m + 1 else c m

/-- `singletons.find(name)` -/
def find (m : List (Name × Nat)) (n : Name) : Option Nat := (m.find? (fun p => p.1 == n)).map (·.2)

/-- writes the reference counter of `n` -/
def setRef (m : List (Name × Nat)) (n : Name) (k : Nat) : List (Name × Nat) :=
  m.map (fun p => if p.1 = n then (n, k) else p)

/-- `singletons.erase(i)` -/
def erase (m : List (Name × Nat)) (n : Name) : List (Name × Nat) := m.filter (fun p => p.1 != n)

/-- calls `f` for each name, in order -/
def each (f : St → Name → Res St) : St → List Name → Res St
  | s, [] => .ok s
  | s, n :: l => do let s' ← f s n; each f s' l

/-- `dummy::attach` and `server::attach` (dummy.cc:27-30, server.cc:28-34). `uses n` are the members of
type `use<U>` of the singleton class `n`, in declaration order: constructing `n` attaches to them
(use.tcc:17-19). Nothing else is said about constructors. `f` bounds the nesting. -/
def attach (uses : Name → List Name) : Nat → St → Name → Res St
  | 0, _, _ => .fuel
  | f + 1, s, n =>
    let (v, s) := instanceServer s
    match find v.map n with
    | some k => .ok { s with server := some { v with map := setRef v.map n (k + 1) } }
    | none => do
      -- factory.create()
      let s1 ← each (attach uses f) s (uses n)
      let s1 := { s1 with created := bump s1.created n }
      match s1.server with
      | none => .ub
      | some v1 =>
        if v1.id ≠ v.id then .ub
        else match find v1.map n with
          -- `insert` leaves the entry made by a nested attach: the new object is lost
          | some k => .ok { s1 with server := some { v1 with map := setRef v1.map n (k + 1) } }
          | none => .ok { s1 with server := some { v1 with map := v1.map ++ [(n, 1)] } }

/-- `dummy::detach`, `server::detach` and `dummy::decr_ref` (dummy.cc:32-36, server.cc:36-48,
dummy.cc:22-24). Destroying `n` detaches from the members, last one first; a nested call may delete the
server, whose map the outer call then reads (server.cc:45). -/
def detach (uses : Name → List Name) : Nat → St → Name → Res St
  | 0, _, _ => .fuel
  | f + 1, s, n =>
    let (v, s) := instanceServer s
    match find v.map n with
    | none => .ub                       -- dereferences end()
    | some k =>
      if k ≤ 1 then do
        let s1 ← each (detach uses f)
          { s with server := some { v with map := erase v.map n }, destroyed := bump s.destroyed n } (uses n).reverse
        match s1.server with
        | none => .ub
        | some v1 =>
          if v1.id ≠ v.id then .ub
          else if v1.map.isEmpty then .ok { s1 with server := none }
          else .ok s1
      else .ok { s with server := some { v with map := setRef v.map n (k - 1) } }

/-- `dummy::instance` (dummy.cc:38-41, server.cc:51-53): the object exists and is returned, or the end
iterator is dereferenced. -/
def access (s : St) (n : Name) : Res Unit :=
  match find (instanceServer s).1.map n with
  | some _ => .ok ()
  | none => .ub

/-- the life of the `use<T>` objects: construction (or copy) and destruction (use.tcc) -/
inductive Op where
  | attach (n : Name)
  | detach (n : Name)
  deriving DecidableEq

/-- one call, with nesting bound `f` -/
def step (uses : Name → List Name) (f : Nat) (s : St) : Op → Res St
  | .attach n => attach uses f s n
  | .detach n => detach uses f s n

/-- a sequence of calls -/
def run (uses : Name → List Name) (f : Nat) : St → List Op → Res St
  | s, [] => .ok s
  | s, o :: l => do let s' ← step uses f s o; run uses f s' l

end Verif.Singleton
