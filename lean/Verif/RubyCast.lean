import Verif.CastOps
import Verif.LayoutGraph
import Verif.TypeCompareExamples

/-!
C72: copying, comparing and casting values between types that can be cast into each other
(bindings/ruby/lib/typelib.rb:239-271, bindings/ruby/lib/typelib/type.rb:231-254, 272-279, 738-752,
bindings/ruby/ext/value.cc:253-263, 543-560, 651-690, typelib/value_ops.cc:253-289).
-/

namespace Verif.Cast
open Verif Verif.Graph Verif.Layout Verif.LayoutGraph Verif.Value

/-! ### Model -/

/-- A Ruby value: its type, the address of its memory zone (none after `invalidate`, value.cc:562-574). Zones are separate: a value
and its field, or two elements of an array, cannot be cast into each other as one of them is larger. -/
structure RVal where
  ty : TId
  data : Option Nat
  deriving DecidableEq

/-- the memory zones -/
abbrev Store := Nat → Mem

def Store.at (st : Store) : Option Nat → Mem
  | some p => st p
  | none => []

def Store.set (st : Store) (p : Nat) (m : Mem) : Store := fun q => if q = p then m else st q

/-- `Typelib::copy(void*, void*, Type const&)` (value_ops.cc:253-268): the layout first, then nothing if both are the same object.
`tree` gives the definition of a type (`LayoutGraph.C57_layout`); the layout of a type that contains itself is never computed. A C++
exception is not caught by `typelib_do_copy`: it ends the process. -/
def copyZone (tree : TId → Option Ty) (env : Env) (st : Store) (t : TId) (p q : Nat) : Out Store Unit :=
  match tree t with
  | none => .ub
  | some ty =>
    match layoutOf false false true true ty with
    | .ok _ =>
      if p = q then .ok () st
      else
        match copy env ty (st q) (st p) with
        | .ok _ m => .ok () (st.set p m)
        | .exn _ _ => .ub
        | .ub => .ub
        | .fuel => .fuel
    | _ => .ub

/-- `Typelib.copy` (typelib.rb:244-260) and `typelib_do_copy` (value.cc:651-664), without the cached conversions of the values
(C67) -/
def rbCopy (H : Heap) (tree : TId → Option Ty) (env : Env) (st : Store) (to from_ : RVal) : Out Store Unit :=
  match to.data with
  | none => .exn .rbType st
  | some p =>
    match from_.data with
    | none => .exn .rbType st
    | some q =>
      if from_.ty ≠ to.ty then
        match canCastTo H from_.ty to.ty with
        | .ok true => copyZone tree env st from_.ty p q
        | .ok false => .exn .rbArg st
        | .exn _ => .ub
        | .ub => .ub
        | .fuel => .fuel
      else copyZone tree env st from_.ty p q

/-- `Typelib::compare(void*, void*, Type const&)` (value_ops.cc:276-289) and the `catch` of `typelib_compare` (value.cc:684-689) -/
def compareZone (tree : TId → Option Ty) (st : Store) (t : TId) (p q : Option Nat) : Out Store Bool :=
  match tree t with
  | none => .ub
  | some ty =>
    match compare ty (st.at p) (st.at q) with
    | .ok r _ => .ok r st
    | .exn _ _ => .exn .rbArg st
    | .ub => .ub
    | .fuel => .fuel

/-- `Typelib.compare` (typelib.rb:262-270) and `typelib_compare` (value.cc:672-690); also `Type#==` between values (type.rb:738-743).
Nobody checks for invalidated values. -/
def rbCompare (H : Heap) (tree : TId → Option Ty) (st : Store) (to from_ : RVal) : Out Store Bool :=
  if from_.ty ≠ to.ty then
    match canCastTo H from_.ty to.ty with
    | .ok true => compareZone tree st from_.ty to.data from_.data
    | .ok false => .exn .rbArg st
    | .exn _ => .ub
    | .ub => .ub
    | .fuel => .fuel
  else compareZone tree st from_.ty to.data from_.data

/-- `Type#cast` (type.rb:248-253), `type_can_cast_to` (value.cc:258-263), `value_do_cast` (value.cc:543-560) -/
def rbCast (H : Heap) (v : RVal) (target : TId) : Res RVal :=
  match canCastTo H v.ty target with
  | .ok true => if v.ty = target then .ok v else .ok ⟨target, v.data⟩
  | .ok false => .exn .rbArg
  | .exn e => .exn e
  | .ub => .ub
  | .fuel => .fuel

/-- `Type#dup` (type.rb:272-275): a new value at `p`, which `new` has initialised, filled with `copy` -/
def rbDup (H : Heap) (tree : TId → Option Ty) (env : Env) (st : Store) (v : RVal) (p : Nat) (fresh : Mem) : Out Store RVal :=
  (rbCopy H tree env (st.set p fresh) ⟨v.ty, some p⟩ v).bind fun _ st => .ok ⟨v.ty, some p⟩ st

/-! ### Specification -/

/-- `tree` gives the definitions of the types that have one -/
def Trees (H : Heap) (tree : TId → Option Ty) : Prop := ∀ t ty, tree t = some ty ↔ IsTree H t ty

/-- the value holds `c` -/
def Holds (H : Heap) (env : Env) (st : Store) (v : RVal) (ty : Ty) (c : List AV) : Prop :=
  IsTree H v.ty ty ∧ ∃ p, v.data = some p ∧ Valid env ty (st p) c

/-- the elements of the containers of `a` have the sizes of the elements of the containers of `b` at the same places -/
def SameElements (H : Heap) (a b : TId) : Prop :=
  ∀ p x y ex ey, follow H a p = some x → follow H b p = some y → H.kind x = .vec ex → H.kind y = .vec ey → H.size ex = H.size ey

/-! ### From the comparison of the types to their definitions -/

mutual
theorem TCast.refl : ∀ t : Ty, TCast t t
  | .num _ => rfl
  | .enum _ _ => rfl
  | .arr _ e => ⟨rfl, rfl, TCast.refl e⟩
  | .vec _ e => ⟨rfl, rfl, TCast.refl e⟩
  | .str _ => rfl
  | .comp _ fs => TCastF.refl fs
  | .ptr _ => rfl
  | .opaq _ => rfl
theorem TCastF.refl : ∀ fs : Fields, TCastF fs fs
  | .nil => trivial
  | .cons _ t r => ⟨rfl, TCast.refl t, TCastF.refl r⟩
end

/-- what `C28_canCast_layout_partial` says -/
def Alike (H : Heap) (a b : TId) : Prop :=
  ∀ p : List Sel, (follow H a p = none ∧ follow H b p = none) ∨
    ∃ x y, follow H a p = some x ∧ follow H b p = some y ∧ (x = y ∨ CastShape H x y)

theorem Alike.part {H : Heap} {a b x y : TId} {s : Sel} (h : Alike H a b) (hx : part H a s = some x) (hy : part H b s = some y) :
    Alike H x y := by
  intro p
  have := h (s :: p)
  simp only [follow, hx, hy, Option.bind_some] at this
  exact this

theorem SameElements.part {H : Heap} {a b x y : TId} {s : Sel} (h : SameElements H a b) (hx : part H a s = some x)
    (hy : part H b s = some y) : SameElements H x y := by
  intro p u v eu ev h1 h2 h3 h4
  exact h (s :: p) u v eu ev (by simp only [follow, hx, Option.bind_some]; exact h1) (by simp only [follow, hy, Option.bind_some]; exact h2) h3 h4

theorem tcastF_of {H : Heap} {f g : Nat} : ∀ {fs fs' : List FieldD} {x x' : Fields} {cur n cur' n' : Nat},
    x.WF cur n → x'.WF cur' n' → unfoldFields (unfold H f) fs = some x → unfoldFields (unfold H g) fs' = some x' →
    fs.map (fun f => (f.name, f.offset)) = fs'.map (fun f => (f.name, f.offset)) →
    (∀ (i : Nat) (a b : FieldD) (ta tb : Ty), fs[i]? = some a → fs'[i]? = some b → unfold H f a.ty = some ta → unfold H g b.ty = some tb →
      ta.WF → tb.WF → TCast ta tb) → TCastF x x' := by
  intro fs
  induction fs with
  | nil =>
    intro fs' x x' cur n cur' n' _ _ h1 h2 h3 _
    cases fs' with
    | nil => cases h1; cases h2; trivial
    | cons => simp at h3
  | cons a fs ih =>
    intro fs' x x' cur n cur' n' w w' h1 h2 h3 h4
    cases fs' with
    | nil => simp at h3
    | cons b fs' =>
      simp only [List.map_cons, List.cons.injEq, Prod.mk.injEq] at h3
      simp only [unfoldFields] at h1 h2
      cases ea : unfold H f a.ty with
      | none => rw [ea] at h1; cases h1
      | some ta =>
        cases eb : unfold H g b.ty with
        | none => rw [eb] at h2; cases h2
        | some tb =>
          cases er : unfoldFields (unfold H f) fs with
          | none => rw [ea, er] at h1; cases h1
          | some r =>
            cases er' : unfoldFields (unfold H g) fs' with
            | none => rw [eb, er'] at h2; cases h2
            | some r' =>
              rw [ea, er] at h1; cases h1
              rw [eb, er'] at h2; cases h2
              refine ⟨h3.1.2, h4 0 a b ta tb rfl rfl ea eb w.2.1 w'.2.1, ih w.2.2 w'.2.2 er er' h3.2 ?_⟩
              intro i a' b' ta' tb' q1 q2
              exact h4 (i + 1) a' b' ta' tb' (by simpa using q1) (by simpa using q2)

theorem tcast_of {H : Heap} (hs : Sane H) : ∀ (f g : Nat) (a b : TId) (ta tb : Ty), unfold H f a = some ta → unfold H g b = some tb →
    ta.WF → tb.WF → Alike H a b → SameElements H a b → TCast ta tb := by
  intro f
  induction f with
  | zero => intro g a b ta tb h; cases h
  | succ f ih =>
    intro g a b ta tb h1 h2 wa wb hal hel
    cases g with
    | zero => cases h2
    | succ g =>
      by_cases hab : a = b
      · subst hab
        rw [tree_unique ⟨_, h1⟩ ⟨_, h2⟩]
        exact TCast.refl _
      · have hsh : CastShape H a b := by
          rcases hal [] with ⟨h, _⟩ | ⟨x, y, h, h', e⟩
          · cases h
          · cases h; cases h'
            rcases e with e | e
            · exact absurd e hab
            · exact e
        have sa := tree_size hs h1
        have sb := tree_size hs h2
        simp only [unfold] at h1 h2
        unfold CastShape at hsh
        cases ka : H.kind a <;> cases kb : H.kind b <;> rw [ka, kb] at hsh <;> simp only at hsh <;>
          first | exact absurd hsh id | skip
        all_goals rw [ka] at h1; rw [kb] at h2; simp only [Option.map_eq_some_iff, Option.some.injEq] at h1 h2
        · subst h1; subst h2; exact hsh.1
        · subst h1; subst h2; exact hsh.1
        · subst h1; subst h2; exact hsh.1
        · rename_i d e d' e'
          obtain ⟨te, h1, rfl⟩ := h1
          obtain ⟨te', h2, rfl⟩ := h2
          obtain ⟨q1, q2⟩ := hsh
          subst q2
          have pa : part H a .elem = some e := by simp [Graph.part, ka, Kind.elem?]
          have pb : part H b .elem = some e' := by simp [Graph.part, kb, Kind.elem?]
          refine ⟨rfl, ?_, ih g e e' te te' h1 h2 wa.2.2.2 wb.2.2.2 (hal.part pa pb) (hel.part pa pb)⟩
          obtain ⟨wd, _, w3, _⟩ := wa
          obtain ⟨_, _, w3', _⟩ := wb
          rw [← sa, ← sb] at q1
          simp only [Ty.size] at q1
          rw [wmul_eq w3, wmul_eq w3'] at q1
          exact Nat.eq_of_mul_eq_mul_left wd q1
        · subst h1; subst h2; exact hsh
        · rename_i e e'
          obtain ⟨te, h1, rfl⟩ := h1
          obtain ⟨te', h2, rfl⟩ := h2
          have pa : part H a .elem = some e := by simp [Graph.part, ka, Kind.elem?]
          have pb : part H b .elem = some e' := by simp [Graph.part, kb, Kind.elem?]
          refine ⟨hsh, ?_, ih g e e' te te' h1 h2 wa.2.2.2 wb.2.2.2 (hal.part pa pb) (hel.part pa pb)⟩
          rw [tree_size hs h1, tree_size hs h2]
          exact hel [] a b e e' rfl rfl ka kb
        · obtain ⟨te, h1, rfl⟩ := h1
          obtain ⟨te', h2, rfl⟩ := h2
          exact hsh
        · rename_i fs fs'
          obtain ⟨x, h1, rfl⟩ := h1
          obtain ⟨x', h2, rfl⟩ := h2
          refine tcastF_of wa.2 wb.2 h1 h2 hsh ?_
          intro i u v tu tv q1 q2 q3 q4 wu wv
          have pa : part H a (.field i) = some u.ty := by simp [Graph.part, ka, q1]
          have pb : part H b (.field i) = some v.ty := by simp [Graph.part, kb, q2]
          exact ih g u.ty v.ty tu tv q3 q4 wu wv (hal.part pa pb) (hel.part pa pb)

/-- types that can be cast into each other have the same layout, but for the padding at the end -/
theorem tcast_of_canCast {H : Heap} (wf : WF H) (hs : Sane H) {a b : TId} (ha : a < H.next) (hb : b < H.next) {ta tb : Ty}
    (ia : IsTree H a ta) (ib : IsTree H b tb) (wa : ta.WF) (wb : tb.WF) (hn : NoNull H a) (hel : SameElements H a b)
    (h : canCastTo H a b = .ok true) : TCast ta tb := by
  obtain ⟨f, hf⟩ := ia
  obtain ⟨g, hg⟩ := ib
  exact tcast_of hs f g a b ta tb hf hg wa wb (fun p => C28_canCast_layout_partial H wf a b ha hb hn h p) hel

end Verif.Cast
