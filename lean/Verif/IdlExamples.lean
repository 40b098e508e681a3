import Verif.IdlNames

/-!
C40: a run that meets the hypotheses, and what is not guaranteed.
-/

namespace Verif.Idl
open Verif Verif.Names Verif.Graph Verif.StdMap

def idlHeap : Heap where
  next := 8
  get := fun t =>
    match t with
    | 0 => ⟨"/int".toList, 4, .num .sint⟩
    | 1 => ⟨"/A/B/S".toList, 4, .comp [⟨"x".toList, 0, 0⟩]⟩
    | 2 => ⟨"/A/E".toList, 4, .enum [("X".toList, 0), ("Y".toList, 1)]⟩
    | 3 => ⟨"/std/vector</A/B/S>".toList, 24, .vec 1⟩
    | 4 => ⟨"/std/string".toList, 8, .str 0⟩
    | 5 => ⟨"/A/T</int,3>".toList, 12, .comp [⟨"x".toList, 0, 1⟩]⟩
    | 6 => ⟨"/a/b_c".toList, 2, .num .sint⟩
    | 7 => ⟨"/a_b/c".toList, 4, .num .sint⟩
    | 8 => ⟨"/std/vector</a/b_c>".toList, 24, .vec 6⟩
    | 9 => ⟨"/std/vector</a_b/c>".toList, 24, .vec 7⟩
    | _ => ⟨"/z".toList, 0, .null⟩

def idlOpts : Opts := Opts.mk' [] [] 0 false []

def idlItems : List Item :=
  [⟨"/int".toList, 0, false⟩, ⟨"/A/B/S".toList, 1, false⟩, ⟨"/A/E".toList, 2, false⟩, ⟨"/C/Al".toList, 1, true⟩,
   ⟨"/std/vector</A/B/S>".toList, 3, false⟩, ⟨"/std/string".toList, 4, false⟩]

/-- an export that meets the hypothesis of `C40_balanced`, with its text -/
theorem C40_example : ∃ s, export_ idlHeap idlOpts 5 St.new idlItems = .ok s ∧
    render s.out = ("module A {\n    module B {\n        struct S {\n            long x;\n        };\n\n    };\n" ++
      "    enum E { X, Y };\n    module B {\n        typedef sequence<::A::B::S> vector__A_B_S_;\n\n    };\n\n};\n" ++
      "module C {\n    typedef ::A::B::S Al;\n\n};\n").toList ∧
    scan [] s.out = some ([
      (["A".toList, "B".toList], "        struct S {\n            long x;\n        };\n".toList),
      (["A".toList], "    enum E { X, Y };\n".toList),
      (["A".toList, "B".toList], "        typedef sequence<::A::B::S> vector__A_B_S_;\n".toList),
      (["C".toList], "::A::B::S Al;".toList)], []) := by
  refine ⟨_, rfl, ?_, ?_⟩ <;> decide +kernel

example : IsComp "std".toList ∧ Plain "std".toList ∧ nsOf ["A".toList, "B".toList] = "/A/B/".toList := by
  unfold IsComp Plain
  decide +kernel

/-- `end` resets neither the current namespace nor the typedefs: a second export with the same object, to another
stream, closes modules that it has not opened, and repeats the typedefs of the first. -/
theorem C40_reuse_counterexample : ∃ s s', export_ idlHeap idlOpts 5 St.new (idlItems.take 2) = .ok s ∧
    export_ idlHeap idlOpts 5 { s with out := [] } (idlItems.take 2) = .ok s' ∧
    scan [] s'.out = none ∧
    render s'.out = "        struct S {\n            long x;\n        };\n\n};\n\n};\n".toList := by
  refine ⟨_, _, rfl, rfl, ?_, ?_⟩ <;> decide +kernel

/-- A component with template arguments is not kept in one piece: its module is split at the slashes. -/
theorem C40_template_counterexample :
    getNamespace "/A</B/C>/D".toList = "/A</B/C>/".toList ∧
    getNamespace "/A</B/C>/".toList = "/".toList ∧
    path "/A</B/C>/".toList = ["A_".toList, "B".toList, "C_".toList] := by decide +kernel

/-- A template larger than the blob threshold is defined under a name that is not the one used to refer to it (and is
no IDL identifier). -/
theorem C40_blob_counterexample :
    act idlHeap { idlOpts with blob := 8 } 5 St.new ⟨"/A/T</int,3>".toList, 5, false⟩ =
      .ok (.def_ "/A/".toList "    typedef sequence<octet> T</int,3>;\n".toList none) ∧
    getIDLAbsolute idlHeap { idlOpts with blob := 8 } 5 5 [] = .ok "::A::T__int_3_".toList := by
  exact ⟨rfl, rfl⟩

/-- Two different containers are exported as different typedefs of one name in one module. -/
theorem C40_collision_counterexample :
    act idlHeap idlOpts 5 St.new ⟨"/std/vector</a/b_c>".toList, 8, false⟩ =
      .ok (.def_ "/".toList "typedef sequence<short> vector__a_b_c_;\n".toList (some ("/a/vector__a_b_c_".toList, 8))) ∧
    act idlHeap idlOpts 5 St.new ⟨"/std/vector</a_b/c>".toList, 9, false⟩ =
      .ok (.def_ "/".toList "typedef sequence<long> vector__a_b_c_;\n".toList (some ("/a_b/vector__a_b_c_".toList, 9))) := by
  exact ⟨rfl, rfl⟩

end Verif.Idl
