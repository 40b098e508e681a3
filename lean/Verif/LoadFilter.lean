import Verif.MergeConflict

/-!
Model of the end of `GCCXMLLoader#load` (bindings/ruby/lib/typelib/gccxml.rb:903-922): the registry in which the headers were
resolved is reduced to what these headers define, `Type.minimal_registry` (type.rb:641-643), `Registry#each` (registry.rb:83-96,
ext/registry.cc:371-430), `Registry#include?` (ext/registry.cc:69-74), `Registry#merge` (ext/registry.cc:297-309) and
`Registry#alias` (ext/registry.cc:185-197).

No plugin of the repository defines types (`PluginManager::registerPluginTypes`), hence `Registry.new` is empty. The C++ functions
are recursive; their fuel is a function of the number of types that exist, and is proved to suffice. Metadata are not part of this
model, and neither are the Ruby objects that wrap types.
-/

namespace Verif.LoadFilter
open Verif Verif.Names Verif.Graph Verif.Registry Verif.TypeBuilder Verif.Merge

/-- a depth of recursion that is sufficient for the copies of types in the heap `H` -/
def fuelFor (H : Heap) : Nat := (H.next + 1) * (H.next + 1)

/-- `base_registry.include?(name)` (ext/registry.cc:69-74): a plain `get` -/
def includes (R : Reg) (n : Str) : Bool := (R.get n).isSome

/-- The first loop (gccxml.rb:903-908) over the types of `src`: `filtered.merge(t.minimal_registry(with_aliases: false))` for the
types whose name is not in `base`. `w` holds the type objects and the result. -/
def filterTypes (key : Char → Int) (base src : Reg) : List (Str × Entry) → World → World × Res Unit
  | [], w => (w, .ok ())
  | p :: ps, w =>
    if isAlias w.1 p then filterTypes key base src ps w
    else if includes base (w.1.name p.2.ty) then filterTypes key base src ps w
    else
      match minimal key (fuelFor w.1) w.1 src Reg.empty (w.1.name p.2.ty) false with
      | (m, .ok ()) =>
        (match merge key (fuelFor m.1) (m.1, w.2) m.2 with
          | (w', .ok ()) => filterTypes key base src ps w'
          | r => r)
      | (m, r) => ((m.1, w.2), r)

/-- The second loop (gccxml.rb:909-916) over the types and aliases of `src`; `perm` are the `permanent_aliases`. -/
def filterAliases (key : Char → Int) (base : Reg) (perm : List Str) : List (Str × Entry) → World → World × Res Unit
  | [], w => (w, .ok ())
  | p :: ps, w =>
    if p.1 = w.1.name p.2.ty ∨ includes w.2 (w.1.name p.2.ty) = false then filterAliases key base perm ps w
    else if includes base p.1 then filterAliases key base perm ps w
    else if p.1 ∈ perm then
      match aliasAuto key w.1 w.2 (w.1.name p.2.ty) p.1 [] with
      | (R, .ok ()) => filterAliases key base perm ps (w.1, R)
      | (R, r) => ((w.1, R), r)
    else filterAliases key base perm ps w

/-- gccxml.rb:903-918: `src` is the registry of the loader, `base` its copy made before the headers were resolved -/
def filtered (key : Char → Int) (base src : Reg) (perm : List Str) (H : Heap) : World × Res Unit :=
  match filterTypes key base src src.global (H, Reg.empty) with
  | (w, .ok ()) => filterAliases key base perm src.global w
  | r => r

end Verif.LoadFilter
