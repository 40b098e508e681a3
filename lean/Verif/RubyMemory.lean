import Verif.Basic
import Verif.Assoc

/-!
C44. Model of `bindings/ruby/ext/memory.cc`: the table of memory zones of the Ruby bindings.

`rb_raise` (a `longjmp`) is the outcome `.exn .runtime`: every operation returns the state it leaves and its
outcome. Freeing memory that is not allocated, destroying a value that is not initialised and dereferencing the
end of a map are undefined.
-/

namespace Verif.RubyMemory
open Verif Verif.Assoc

/-- an address -/
abbrev Ptr := Nat
/-- identity of a Ruby `MemoryZone` object (`VALUE`) -/
abbrev Zone := Nat
/-- identity of a type -/
abbrev Ty := Nat

/-- `MemoryTableEntry` (memory.cc:46-58); `born` numbers the entries in creation order (ghost) -/
structure Entry where
  refs : Int
  object : Zone
  owned : Bool
  root : Option Ptr
  born : Nat

/-- `MemoryTable`, the Ruby zone objects that have not been collected with their `ptr` field, `memory_types`,
`memory_layouts` (the counters), and the state of the memory: blocks of `ruby_xmalloc` not yet freed, and blocks
holding an initialised value. -/
structure St where
  table : List (Ptr × Entry)
  births : Nat
  zones : Zone → Option (Option Ptr)
  nextZone : Nat
  types : List (Ptr × Ty)
  layouts : List (Ty × Nat)
  live : Ptr → Bool
  inited : Ptr → Option Ty

def St.start : St := ⟨[], 0, fun _ => none, 0, [], [], fun _ => false, fun _ => none⟩

def setZone (s : St) (z : Zone) (v : Option (Option Ptr)) : St :=
  { s with zones := fun y => if y = z then v else s.zones y }

/-- `memory_ref` (memory.cc:98-115) -/
def memRef (s : St) (p : Ptr) : St × Bool :=
  match get s.table p with
  | some e => ({ s with table := put s.table p { e with refs := e.refs + 1 } }, true)
  | none => (s, false)

/-- `Typelib::destroy` on the block, when its type is known (memory.cc:165-176) -/
def destroyBlock (s : St) (p : Ptr) : Res St :=
  match get s.types p with
  | none => .ok s
  | some t =>
    match get s.layouts t with
    | none => .ok s
    | some _ =>
      if s.inited p = some t then .ok { s with inited := fun q => if q = p then none else s.inited q } else .ub

/-- `ruby_xfree` -/
def freeBlock (s : St) (p : Ptr) : Res St :=
  if s.live p then .ok { s with live := fun q => if q = p then false else s.live q } else .ub

/-- `memory_delete` (memory.cc:162-182) -/
def memDelete (s : St) (p : Ptr) : Res St := do
  let s ← destroyBlock s p
  freeBlock s p

/-- end of `memory_unref` (memory.cc:151-159) -/
def dropType (s : St) (p : Ptr) : Res St :=
  match get s.types p with
  | none => .ok s
  | some t =>
    match get s.layouts t with
    | none => .ub
    | some k =>
      .ok { s with
        layouts := if k - 1 = 0 then del s.layouts t else put s.layouts t (k - 1),
        types := del s.types p }

/-- `if (entry->root_ptr) memory_unref(entry->root_ptr)` (memory.cc:142-143) -/
def atRoot (g : St → Ptr → St × Res Unit) (s : St) : Option Ptr → St × Res Unit
  | some r => g s r
  | none => (s, .ok ())

/-- `memory_unref` (memory.cc:126-160); `f` bounds the length of the chain of roots. -/
def memUnref : Nat → St → Ptr → St × Res Unit
  | 0, s, _ => (s, .fuel)
  | f + 1, s, p =>
    match get s.table p with
    | none => (s, .exn .runtime)
    | some e =>
      let s1 := { s with table := put s.table p { e with refs := e.refs - 1 } }
      if e.refs - 1 ≠ 0 then (s1, .ok ())
      else
        match (if e.owned then memDelete s1 p else .ok s1) with
        | .ok s2 =>
          match atRoot (memUnref f) s2 e.root with
          | (s3, .ok ()) =>
            match dropType { s3 with table := del s3.table p } p with
            | .ok s4 => (s4, .ok ())
            | .exn x => (s3, .exn x)
            | .ub => (s3, .ub)
            | .fuel => (s3, .fuel)
          | r => r
        | .exn x => (s1, .exn x)
        | .ub => (s1, .ub)
        | .fuel => (s1, .fuel)

/-- every chain of roots is shorter than the number of entries ever created -/
def unref (s : St) (p : Ptr) : St × Res Unit := memUnref (s.births + 1) s p

/-- `memory_wrap` and `memory_aset` (memory.cc:184-219, 267-288). The zone object is created before the checks
of `memory_aset` and of the constructor of the entry; the entry is inserted before the root is looked up. -/
def wrap (s : St) (p : Ptr) (owned : Bool) (root : Option Ptr) : St × Res Zone :=
  match get s.table p with
  | some e => (s, .ok e.object)
  | none =>
    let z := s.nextZone
    let s1 := { setZone s z (some (some p)) with nextZone := z + 1 }
    if root = some p then (s1, .exn .runtime)
    else if root.isSome && owned then (s1, .exn .runtime)
    else
      let s2 := { s1 with table := s1.table ++ [(p, ⟨1, z, owned, root, s1.births⟩)], births := s1.births + 1 }
      match root with
      | none => (s2, .ok z)
      | some r =>
        match get s2.table r with
        | none => (s2, .exn .runtime)
        | some e => ({ s2 with table := put s2.table r { e with refs := e.refs + 1 } }, .ok z)

/-- `memory_allocate` (memory.cc:221-234); `p` is the result of `ruby_xmalloc` -/
def allocate (s : St) (p : Ptr) : St × Res Zone :=
  wrap { s with live := fun q => if q = p then true else s.live q } p true none

/-- `memory_layouts` with one more user of the layout of `t` (memory.cc:247-258) -/
def addLayout (l : List (Ty × Nat)) (t : Ty) : List (Ty × Nat) :=
  match get l t with
  | some k => put l t (k + 1)
  | none => l ++ [(t, 1)]

/-- `memory_init` (memory.cc:236-265). `Typelib::init` (C17) turns the block into a value. The layout of the type
is registered with counter 0 when it is not known. The lookup of the registry of the type is not modelled. -/
def init (s : St) (z : Zone) (t : Ty) : St × Res Unit :=
  match s.zones z with
  | none => (s, .ub)
  | some none => (s, .ub)           -- the zone has been invalidated: init of a null pointer
  | some (some p) =>
    match get s.types p with
    | some _ => (s, .exn .runtime)
    | none =>
      ({ s with layouts := addLayout s.layouts t, types := s.types ++ [(p, t)],
                inited := fun q => if q = p then some t else s.inited q }, .ok ())

/-- `MemoryZone#invalidate` (memory.cc:331-342) -/
def invalidate (s : St) (z : Zone) : St × Res Unit :=
  match s.zones z with
  | none => (s, .ub)
  | some none => (s, .ok ())
  | some (some p) =>
    match unref s p with
    | (s', .ok ()) => (setZone s' z (some none), .ok ())
    | r => r

/-- collection of a zone object: `memory_zone_unref` (memory.cc:117-124) -/
def collect (s : St) (z : Zone) : St × Res Unit :=
  match s.zones z with
  | none => (s, .ub)
  | some none => (setZone s z none, .ok ())
  | some (some p) =>
    match unref s p with
    | (s', .ok ()) => (setZone s' z none, .ok ())
    | r => r

end Verif.RubyMemory
