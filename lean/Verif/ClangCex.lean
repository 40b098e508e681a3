import Verif.ClangTheorems

/-!
Property C66: programs that are not described properly.
-/

namespace Verif.Clang.Cex
open Verif Verif.Names Verif.Graph Verif.Registry Verif.TypeBuilder Verif.Merge Verif.CompoundModel Verif.Clang

def s (x : String) : Str := x.toList
def fld (n tn : String) (ty : CT) (off : Nat) : CField := ⟨s n, s tn, ty, false, false, off, none⟩
def rcd (n : String) (size : Nat) (fs : List CField) (bs : List CBase) : CRecord :=
  ⟨s n, true, false, false, true, false, none, size, fs, bs⟩
def base (d : Nat) (n : String) (off : Nat) : CBase := ⟨some d, s n, .record (some d), false, off⟩
def i32 : CT := .builtin 32 .sint
def decl (n : String) (ty : CT) : Decl := .type (s n) (some ty) false false false false
def run1 (A : AST) (n : String) (ty : CT) : World × Res Unit := importDecls ascii A 20 emptyWorld [decl n ty]
/-- name, offset and size of the fields of the registered compound -/
def fieldsOf (w : World) (n : String) : Option (List (Str × Nat × Nat)) :=
  match w.2.reg (s n) with
  | none => none
  | some t => match w.1.kind t with
    | .comp fs => some (fs.map fun f => (f.name, f.offset, w.1.size f.ty))
    | _ => none

/-- `struct A { int x; }; struct B { int y; }; struct D : A, B { int z; };` -/
def multi : AST :=
  ⟨[rcd "/A" 4 [fld "x" "/int" i32 0] [], rcd "/B" 4 [fld "y" "/int" i32 0] [],
    rcd "/D" 12 [fld "z" "/int" i32 64] [base 0 "/A" 0, base 1 "/B" 4]], [], []⟩

/-- C66: the offsets of the members of a base class which is not at the beginning of the class are wrong: two members get the
same offset. -/
theorem C66_bases_counterexample :
    (run1 multi "/D" (.record (some 2))).2 = .ok () ∧
    fieldsOf (run1 multi "/D" (.record (some 2))).1 "/D" = some [(s "z", 8, 4), (s "x", 0, 4), (s "y", 0, 4)] ∧
    Members multi 2 0 [(0, fld "z" "/int" i32 64), (0, fld "x" "/int" i32 0), (4, fld "y" "/int" i32 0)] := by
  refine ⟨by decide +kernel, by decide +kernel, ?_⟩
  have h0 : Members multi 0 0 [(0, fld "x" "/int" i32 0)] := Members.mk (A := multi) (r := multi.records[0]) (l := []) rfl .nil
  have h1 : Members multi 1 4 [(4, fld "y" "/int" i32 0)] := Members.mk (A := multi) (r := multi.records[1]) (l := []) rfl .nil
  have h2 : BaseMembers multi 0 [base 1 "/B" 4] [(4, fld "y" "/int" i32 0)] :=
    BaseMembers.cons (A := multi) (s := 0) (d := 1) (b := base 1 "/B" 4) (bs := []) (l := [(4, fld "y" "/int" i32 0)]) (l' := []) rfl h1 .nil
  have h3 : BaseMembers multi 0 [base 0 "/A" 0, base 1 "/B" 4] [(0, fld "x" "/int" i32 0), (4, fld "y" "/int" i32 0)] :=
    BaseMembers.cons (A := multi) (s := 0) (d := 0) (b := base 0 "/A" 0) (bs := [base 1 "/B" 4]) (l := [(0, fld "x" "/int" i32 0)])
      (l' := [(4, fld "y" "/int" i32 0)]) rfl h0 h2
  exact Members.mk (A := multi) (r := multi.records[2]) rfl h3

/-- `struct B { int a : 3; int : 5; int b : 8; };` (the fields that clang gives offsets 0 and 8) -/
def bitf : AST :=
  ⟨[rcd "/B" 4 [⟨s "a", s "/int", i32, false, false, 0, some 3⟩, ⟨s "b", s "/int", i32, false, false, 8, some 8⟩] []], [], []⟩

/-- C66: bit-fields that start at a byte are described as plain fields of the size of their type: they overlap, and the size
of the compound is not that of the class. -/
theorem C66_bitfield_counterexample :
    (run1 bitf "/B" (.record (some 0))).2 = .ok () ∧
    fieldsOf (run1 bitf "/B" (.record (some 0))).1 "/B" = some [(s "a", 0, 4), (s "b", 1, 4)] ∧
    (run1 bitf "/B" (.record (some 0))).1.2.reg (s "/B") = some 1 ∧
    (run1 bitf "/B" (.record (some 0))).1.1.size 1 = 5 ∧ sizeof bitf (.record 0) = 4 := by
  decide +kernel

/-- `enum E : unsigned char { A = 200 };` -/
def small : AST := ⟨[], [⟨s "/E", true, false, 8, [(s "A", 200)]⟩], []⟩

/-- C66: an enum that is not an `int` gets the size of an `int`, and the values of its underlying type are taken as signed
ones. -/
theorem C66_enum_counterexample :
    (run1 small "/E" (.enum 0)).2 = .ok () ∧ (run1 small "/E" (.enum 0)).1.2.reg (s "/E") = some 0 ∧
    (run1 small "/E" (.enum 0)).1.1.kind 0 = .enum [(s "A", -56)] ∧ (run1 small "/E" (.enum 0)).1.1.size 0 = 4 ∧
    sizeof small (.enum 0) = 1 := by
  decide +kernel

/-- `struct S { bool flags[4]; unsigned char id[4]; };` -/
def flags : AST :=
  ⟨[rcd "/S" 8 [fld "flags" "/bool[4]" (.arr (s "/bool") (.builtin 8 .uint) 4) 0,
      fld "id" "/unsigned char[4]" (.arr (s "/unsigned char") (.builtin 8 .uint) 4) 32] []], [], []⟩

/-- C66: arrays of the same size of two types that are described by the same number end the program by an exception: the name
of the second array is registered when that of its element is. -/
theorem C66_array_counterexample :
    Importable flags (.record (some 0)) ∧ (run1 flags "/S" (.record (some 0))).2 = .exn .alreadyDefined ∧
    (run1 flags "/S" (.record (some 0))).1.2.reg (s "/S") = none := by
  refine ⟨?_, by decide +kernel, by decide +kernel⟩
  have hanc : ∀ d', Anc flags 0 d' → d' = 0 := by
    intro d' h
    cases h with
    | refl => rfl
    | step h1 h2 => injection h1 with h1; subst h1; cases h2
  refine .record (r := flags.records[0]) rfl ⟨rfl, rfl, rfl⟩ rfl rfl ⟨0, flags.records[0], .refl 0, rfl, fun h => by cases h⟩
    (fun b hb => by cases hb) ?_ ?_
  · intro d' r' ha hr f hf
    rw [hanc d' ha] at hr
    injection hr with hr
    subst hr
    have : ∀ f ∈ flags.records[0].fields, f.anonymous = false ∧ f.priv = false ∧ f.offset % 8 = 0 := by decide +kernel
    exact this f hf
  · intro d' r' ha hr f hf
    rw [hanc d' ha] at hr
    injection hr with hr
    subst hr
    rcases List.mem_cons.mp hf with rfl | hf
    · exact .arr rfl (.builtin rfl (by decide))
    rcases List.mem_cons.mp hf with rfl | hf
    · exact .arr rfl (.builtin rfl (by decide))
    · cases hf

/-- `struct A { std::vector<A> v; };` -/
def loop : AST :=
  ⟨[rcd "/A" 24 [fld "v" "/std/vector</A>" (.record (some 1)) 0] [],
    ⟨s "/std/vector</A>", true, false, false, true, false,
      some (s "/std/vector", [(s "/A", .record (some 0)), (s "/std/allocator</A>", .other 0 0)]), 24, [], []⟩], [], []⟩

theorem loop_step (f : Nat) (h : registerType ascii loop f emptyWorld (s "/A") (.record (some 0)) = (emptyWorld, .fuel)) :
    registerType ascii loop (f + 2) emptyWorld (s "/A") (.record (some 0)) = (emptyWorld, .fuel) := by
  have h1 : registerType ascii loop (f + 1) emptyWorld (s "/std/vector</A>") (.record (some 1)) = (emptyWorld, .fuel) := by
    rw [registerType.eq_def]
    show addRecord ascii loop (registerType ascii loop f) f emptyWorld (s "/std/vector</A>") (some 1) = _
    have e : checkRegisterContainer ascii (registerType ascii loop f) emptyWorld (s "/std/vector</A>") loop.records[1] =
        (emptyWorld, .fuel) := by
      have hf : findContainer (s "/std/vector") = some .vector := by decide +kernel
      have hi : detailArg (s "/A") = false := by decide +kernel
      have ht : loop.records[1].tmpl = some (s "/std/vector", [(s "/A", .record (some 0)), (s "/std/allocator</A>", .other 0 0)]) := rfl
      unfold checkRegisterContainer
      rw [ht]
      simp only [hf, addArgs, argIgnored_eq, hi, Bool.false_eq_true, if_false, reduceCtorEq, false_and, h, thenW]
    show thenW (checkRegisterContainer ascii (registerType ascii loop f) emptyWorld (s "/std/vector</A>") loop.records[1]) _ = _
    rw [e]; rfl
  rw [registerType.eq_def]
  show addRecord ascii loop (registerType ascii loop (f + 1)) (f + 1) emptyWorld (s "/A") (some 0) = _
  have e : addMembers loop (registerType ascii loop (f + 1)) (f + 1) emptyWorld (Comp.new.setSize 24) 0 = (emptyWorld, .fuel) := by
    show thenW (thenW (registerType ascii loop (f + 1) emptyWorld (s "/std/vector</A>") (.record (some 1))) _) _ = _
    rw [h1]; rfl
  show thenW (addMembers loop (registerType ascii loop (f + 1)) (f + 1) emptyWorld (Comp.new.setSize 24) 0) _ = _
  rw [e]; rfl

/-- C66: the importer does not end on a class with a vector of objects of this class. -/
theorem C66_recursion_counterexample (f : Nat) : (importDecls ascii loop f emptyWorld [decl "/A" (.record (some 0))]).2 = .fuel := by
  have main : ∀ f, registerType ascii loop f emptyWorld (s "/A") (.record (some 0)) = (emptyWorld, .fuel) ∧
      registerType ascii loop (f + 1) emptyWorld (s "/A") (.record (some 0)) = (emptyWorld, .fuel) := by
    intro f
    induction f with
    | zero => exact ⟨rfl, rfl⟩
    | succ f ih => exact ⟨ih.2, loop_step f ih.1⟩
  show (thenW (registerType ascii loop f emptyWorld (s "/A") (.record (some 0))) _).2 = _
  rw [(main f).1]; rfl

/-- `struct A { int x; }; struct D : A { int x; };` -/
def shadow : AST :=
  ⟨[rcd "/A" 4 [fld "x" "/int" i32 0] [], rcd "/D" 8 [fld "x" "/int" i32 32] [base 0 "/A" 0]], [], []⟩

/-- C66: a member with the name of a member of a base class makes a compound with two fields of the same name. -/
theorem C66_shadow_counterexample :
    (run1 shadow "/D" (.record (some 1))).2 = .ok () ∧
    fieldsOf (run1 shadow "/D" (.record (some 1))).1 "/D" = some [(s "x", 4, 4), (s "x", 0, 4)] := by
  decide +kernel

/-- `struct P { int secret; }; struct B : private P { int y; }; struct D : B { int z; };` -/
def priv : AST :=
  ⟨[rcd "/P" 4 [fld "secret" "/int" i32 0] [],
    rcd "/B" 8 [fld "y" "/int" i32 32] [⟨some 0, s "/P", .record (some 0), true, 0⟩],
    rcd "/D" 12 [fld "z" "/int" i32 64] [base 1 "/B" 0]], [], []⟩

/-- C66: a class with a private base is refused, a class derived from it is not: it has the members of the private base. -/
theorem C66_private_counterexample :
    (run1 priv "/B" (.record (some 1))).1.2.reg (s "/B") = none ∧
    fieldsOf (run1 priv "/D" (.record (some 2))).1 "/D" = some [(s "z", 8, 4), (s "y", 4, 4), (s "secret", 0, 4)] := by
  decide +kernel

/-- `struct Al { int x; }; std::vector<int, Al>` -/
def alloc : AST :=
  ⟨[⟨s "/std/vector</int,/Al>", true, false, false, true, false,
      some (s "/std/vector", [(s "/int", i32), (s "/Al", .record (some 1))]), 24, [], []⟩,
    rcd "/Al" 4 [fld "x" "/int" i32 0] []], [], []⟩

/-- C66: a vector with an allocator that can be described ends the program by an exception. -/
theorem C66_allocator_counterexample :
    (run1 alloc "/std/vector</int,/Al>" (.record (some 0))).2 = .exn .runtime := by
  decide +kernel

/-- `union U { int i; float f; };`, for which clang gives both members the offset 0 -/
def uni : AST := ⟨[rcd "/U" 4 [fld "i" "/int" i32 0, fld "f" "/float" (.builtin 32 .float) 0] []], [], []⟩

/-- C66: unions are taken for classes: the fields of the compound overlap. -/
theorem C66_union_counterexample :
    (run1 uni "/U" (.record (some 0))).2 = .ok () ∧
    fieldsOf (run1 uni "/U" (.record (some 0))).1 "/U" = some [(s "i", 0, 4), (s "f", 0, 4)] := by
  decide +kernel

end Verif.Clang.Cex
