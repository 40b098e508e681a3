import Verif.GccxmlExample

/-!
Property C71: programs that are not imported as they should be.
-/

namespace Verif.Gccxml.Cex
open Verif Verif.Names Verif.Graph Verif.Registry Verif.TypeBuilder Verif.Merge Verif.Gccxml Verif.RubyBuilder Verif.RubyNames
open Verif.Gccxml.Example (start)

/-- a program with these nodes -/
def progOf (nodes : List Node) : Prog where
  nodes := nodes
  find n := nodes.findIdx? (fun nd => nd.name == some n)
  findTypedef n := nodes.findIdx? (fun nd => nd.name == some n && nd.isTypedef)
  targs n := (parseTemplate n).2
  canon n := n

def int : Node := .fund "/int".toList 32 .sint

/-- a plain class -/
def cls (n : String) (bases : List GBase) (fields : List GField) (size : Nat) : Node :=
  .record ⟨some n.toList, true, false, false, bases, fields, size⟩

def fld (n : String) (ty off : Nat) : GField := ⟨n.toList, ty, true, off, none⟩

def out (nodes : List Node) (types typedefs : List Nat) : St × Res Unit := load ascii (progOf nodes) 20 start [] types typedefs

/-- the fields of a registered type, with the names of their types -/
def fieldsOf (s : St) (n : String) : Option (List (String × Nat × String)) :=
  match s.w.2.reg n.toList with
  | none => none
  | some t => match s.w.1.kind t with
    | .comp fs => some (fs.map fun f => (String.ofList f.name, f.offset, String.ofList (s.w.1.name f.ty)))
    | _ => none

def sizeOf (s : St) (n : String) : Option Nat := (s.w.2.reg n.toList).map s.w.1.size

/-- `struct Node { Node* next; int v; }; struct Other { int x; };`: the pointer is built while the structure is not defined yet: the
import is aborted, and `Other` is not imported either -/
theorem C71_list_counterexample :
    let o := out [int, .ptr 2, cls "/Node" [] [fld "next" 1 0, fld "v" 0 64] 128, cls "/Other" [] [fld "x" 0 0] 32] [2, 3] []
    o.2 = .exn .undefined ∧ sizeOf o.1 "/Other" = none := by decide +kernel

/-- `struct Tree { std::vector<Tree> children; };` -/
theorem C71_tree_counterexample :
    (out [cls "/std/vector</Tree>" [] [] 192, cls "/Tree" [] [fld "children" 0 0] 192] [1] []).2 = .exn .undefined := by
  decide +kernel

/-- `enum E : char { A };` is imported with a size of 4 bytes, that is not the one of the field that contains it -/
theorem C71_enum_size_counterexample :
    let o := out [.enum (some "/E".toList) true 8 [("A".toList, 0)], .fund "/char".toList 8 .sint,
      cls "/S" [] [fld "e" 0 0, fld "c" 1 8] 16] [0, 2] []
    o.2 = .ok () ∧ sizeOf o.1 "/E" = some 4 ∧ sizeOf o.1 "/S" = some 2 ∧
      fieldsOf o.1 "/S" = some [("e", 0, "/E"), ("c", 1, "/int8_t")] := by decide +kernel

/-- `enum E { };` aborts the import; so does an enumerator that does not fit in an `int` -/
theorem C71_enum_abort_counterexample :
    (out [.enum (some "/E".toList) true 32 []] [0] []).2 = .exn .rbArg ∧
    (out [.enum (some "/E".toList) true 64 [("A".toList, 4294967296)]] [0] []).2 = .exn .rbRange := by decide +kernel

/-- `struct S { int a : 4; int b : 4; };`: the bit-fields are imported as two whole `int`s at the same offset -/
theorem C71_bitfield_counterexample :
    let o := out [int, cls "/S" [] [⟨"a".toList, 0, true, 0, some 4⟩, ⟨"b".toList, 0, true, 4, some 4⟩] 32] [1] []
    o.2 = .ok () ∧ fieldsOf o.1 "/S" = some [("a", 0, "/int32_t"), ("b", 0, "/int32_t")] := by decide +kernel

/-- an array whose size is not written aborts the import -/
theorem C71_array_counterexample :
    (out [int, .arr 0 none, cls "/S" [] [fld "n" 0 0, fld "data" 1 32] 32] [2] []).2 = .exn .runtime := by decide +kernel

/-- `struct V : std::vector<int> { int x; };`: the base class is not a compound -/
theorem C71_base_counterexample :
    (out [int, cls "/std/vector</int>" [] [] 192, cls "/V" [⟨1, false, true, 0⟩] [fld "x" 0 192] 256] [2] []).2 = .exn .exception := by
  decide +kernel

/-- `struct A { int x; }; struct B : A { int x; }; struct C : B { int y; };`: in `C`, the member `B::x` is at the offset of `A::x` -/
theorem C71_hidden_member_counterexample :
    let o := out [int, cls "/A" [] [fld "x" 0 0] 32, cls "/B" [⟨1, false, true, 0⟩] [fld "x" 0 32] 64,
      cls "/C" [⟨2, false, true, 0⟩] [fld "y" 0 64] 96] [1, 2, 3] []
    o.2 = .ok () ∧ fieldsOf o.1 "/B" = some [("x", 0, "/int32_t"), ("x", 4, "/int32_t")] ∧
      fieldsOf o.1 "/C" = some [("x", 0, "/int32_t"), ("x", 0, "/int32_t"), ("y", 8, "/int32_t")] := by decide +kernel

/-- the nodes after a typedef: the same typedef gives the name of the alias the first time, the name of the type after; a refused node has
no name the first time, but has one after -/
theorem C71_history_counterexample :
    let P := progOf [int, .typedef (some "/Int".toList) true 0, .record ⟨some "/H".toList, false, false, false, [], [fld "x" 0 0], 32⟩]
    let a := resolveDef ascii P 5 (.start start) 1
    let b := resolveDef ascii P 5 (.start start) 2
    a.2 = .ok (some "/Int".toList) ∧ (resolveDef ascii P 5 a.1 1).2 = .ok (some "/int32_t".toList) ∧
    b.2 = .ok none ∧ (resolveDef ascii P 5 b.1 2).2 = .ok (some "/H".toList) := by decide +kernel

end Verif.Gccxml.Cex
