import Verif.TypeCompareExamples

/-! Property C89: comparing types from Ruby, `type == object` and `type.casts_to?(other)`
(bindings/ruby/ext/value.cc:211-224, 258-263). Types are Ruby classes there, one for every type of a registry, derived
from ten root classes, and both operations accept any Ruby object. -/

namespace Verif.RubyTypeEq
open Verif Verif.Graph

/-- the root classes, `Typelib::Type` and the classes of value.cc:92-106 and typelib.rb:376-404 -/
inductive Root where
  | type | numeric | enum | compound | container | array | indirect | opaque | pointer | null
  deriving DecidableEq, Repr

/-- The objects `==` and `casts_to?` may meet. -/
inductive Obj where
  /-- the class that stands for the type `t` of a registry (`type_wrap`, value.cc:109-131: one class for one type, found
  again in the wrappers of the registry) -/
  | typ (t : TId)
  | root (r : Root)
  /-- a class derived, in Ruby, from one of the classes above (`class Mine < some_type`): instance variables of classes are
  not inherited, so it has no `@type` -/
  | sub (i : Nat)
  /-- a class that does not derive from `Typelib::Type` -/
  | cls (i : Nat)
  /-- an object that is no class -/
  | other (i : Nat)
  deriving DecidableEq, Repr

/-- The types that exist, and the type in the `@type` of every root class that has one. -/
structure Env where
  heap : Heap
  guard : Root → Option TId

/-- `Type.initialize_base_class` (type.rb:650-654) is called on nine root classes (typelib.rb:376-404), `NullType` is not one
of them. Each call creates a null type `/Typelib/Type` in a new registry. -/
structure Env.Loaded (E : Env) : Prop where
  wf : WF E.heap
  null : E.guard .null = none
  has : ∀ r, r ≠ .null → ∃ t, E.guard r = some t
  fresh : ∀ r t, E.guard r = some t → t < E.heap.next ∧ E.heap.kind t = .null ∧ E.heap.name t = "/Typelib/Type".toList
  inj : ∀ r r' t, E.guard r = some t → E.guard r' = some t → r = r'

/-- the `Class` objects, `check_is_kind_of(self, rb_cClass)` -/
def Obj.isClass : Obj → Bool
  | .other _ => false
  | _ => true

/-- `rb2cxx::object<Type>` (bindings/ruby/ext/typelib.hh:117-123): a class is required, and `Data_Get_Struct` on its `@type`
raises TypeError if that is nil. -/
def typeOf (E : Env) (o : Obj) : Res TId :=
  if o.isClass then
    match o with
    | .typ t => .ok t
    | .root r =>
      match E.guard r with
      | some t => .ok t
      | none => .exn .rbType
    | _ => .exn .rbType
  else .exn .rbType

/-- derived from `Typelib::Type` and not `Typelib::Type` itself -/
def derived : Obj → Bool
  | .typ _ => true
  | .root r => r != .type
  | .sub _ => true
  | _ => false

/-- `object < Type` (value.cc:217). An object that is no class has no such method or cannot be compared with a class: an
exception (simplified to one). -/
def below : Obj → Res Bool
  | .other _ => .exn .rbArg
  | o => .ok (derived o)

/-- `type == object`, `type_equal_operator` (value.cc:211-224). -/
def equal (E : Env) (self with_ : Obj) : Res Bool :=
  if self = with_ then .ok true
  else if !with_.isClass then .ok false
  else if with_ = .root .type then .ok false
  else
    below with_ >>= fun d =>
    if !d then .ok false
    else
      typeOf E self >>= fun a =>
      typeOf E with_ >>= fun b =>
      if a = b then .ok true else isSame E.heap a b

/-- `type.casts_to?(other)`, `type_can_cast_to` (value.cc:258-263). -/
def castsTo (E : Env) (self to : Obj) : Res Bool :=
  typeOf E self >>= fun a =>
  typeOf E to >>= fun b =>
  canCastTo E.heap a b

/-- the test of `equal` in one condition -/
theorem equal_unfold (E : Env) (self with_ : Obj) : equal E self with_ =
    if self = with_ then .ok true
    else if !with_.isClass then .ok false
    else if with_ = .root .type || !derived with_ then .ok false
    else
      typeOf E self >>= fun a =>
      typeOf E with_ >>= fun b =>
      if a = b then .ok true else isSame E.heap a b := by
  unfold equal
  cases with_ with
  | other i => rfl
  | root r => cases r <;> simp [below, derived, Obj.isClass]
  | _ => simp [below, derived, Obj.isClass]

/-! ### Types of registries -/

/-- on types of registries, `==` is `Type::isSame` -/
theorem equal_typ (E : Env) (a b : TId) : equal E (.typ a) (.typ b) = isSame E.heap a b := by
  rw [equal_unfold]
  by_cases h : a = b
  · subst h
    rw [if_pos rfl, C26_reflexive]
  · rw [if_neg (fun e => h (Obj.typ.inj e))]
    have e1 : ((!Obj.isClass (.typ b)) = true) = False := by simp [Obj.isClass]
    have e2 : ((decide (Obj.typ b = .root .type) || !derived (.typ b)) = true) = False := by
      simp [derived]
    rw [if_neg (by rw [e1]; exact id), if_neg (by rw [e2]; exact id)]
    show (if a = b then Res.ok true else _) = _
    rw [if_neg h]

theorem castsTo_typ (E : Env) (a b : TId) : castsTo E (.typ a) (.typ b) = canCastTo E.heap a b := rfl

/-- **C89.** Comparing two types of registries with `==` ends without exception, and the answer is true exactly if the types are
identical or the types that make up the first can be matched, by a function, with those of the second so that matching types
agree. In particular a type equals itself. -/
theorem C89_equal (E : Env) (wf : WF E.heap) (a b : TId) (ha : a < E.heap.next) (hb : b < E.heap.next) :
    (∃ v, equal E (.typ a) (.typ b) = .ok v ∧ (v = true ↔ a = b ∨ ∃ R, Matching E.heap R ∧ R a b)) ∧
    equal E (.typ a) (.typ a) = .ok true := by
  refine ⟨?_, by rw [equal_typ, C26_reflexive]⟩
  obtain ⟨v, hv⟩ := (C26_compare_terminates E.heap wf a b ha hb).1
  refine ⟨v, by rw [equal_typ, hv], ?_⟩
  rw [← C26_isSame_iff E.heap wf a b ha hb, hv]
  constructor
  · rintro rfl; rfl
  · intro h; exact Res.ok.inj h

/-- **C89 (partial).** If two types of registries, without null types in the first, are equal in Ruby, they have the same
definition: the same paths lead into both, and to parts of the same size, class, symbols, dimension, fields and offsets.
Missing: types with a null part (`C89_root_counterexample`, `C26_null_counterexample`). -/
theorem C89_same_definition_partial (E : Env) (wf : WF E.heap) (a b : TId) (ha : a < E.heap.next) (hb : b < E.heap.next)
    (hn : NoNull E.heap a) (h : equal E (.typ a) (.typ b) = .ok true) : SameDefinition E.heap a b :=
  C26_isSame_structural_partial E.heap wf a b ha hb hn (by rw [← equal_typ]; exact h)

/-- **C89 (partial).** `==` is symmetric where no two parts of the first type have the same definition.
Missing: types with such parts, for which it is false (`C89_symmetry_counterexample`). -/
theorem C89_symmetric_partial (E : Env) (wf : WF E.heap) (a b : TId) (ha : a < E.heap.next) (hb : b < E.heap.next)
    (hn : NoNull E.heap a) (hd : NoDuplicates E.heap a) (h : equal E (.typ a) (.typ b) = .ok true) :
    equal E (.typ b) (.typ a) = .ok true := by
  rw [equal_typ] at h ⊢
  exact C27_symmetric_partial E.heap wf a b ha hb hn hd h

/-- **C89.** `casts_to?` on types of registries ends without exception, and equal types cast to each other. -/
theorem C89_casts (E : Env) (wf : WF E.heap) (a b : TId) (ha : a < E.heap.next) (hb : b < E.heap.next) :
    (∃ v, castsTo E (.typ a) (.typ b) = .ok v) ∧
    (equal E (.typ a) (.typ b) = .ok true → castsTo E (.typ a) (.typ b) = .ok true) := by
  refine ⟨(C26_compare_terminates E.heap wf a b ha hb).2, fun h => ?_⟩
  rw [equal_typ] at h
  exact C28_isSame_canCast E.heap wf a b ha hb h

/-- **C89 (partial).** If a type without null parts casts to another one, every path into the first exists in the second and
conversely, and leads to parts of the same class, size unless they are compounds, field names, offsets and dimensions; the
symbols of enums are kept. Missing: null types. -/
theorem C89_casts_layout_partial (E : Env) (wf : WF E.heap) (a b : TId) (ha : a < E.heap.next) (hb : b < E.heap.next)
    (hn : NoNull E.heap a) (h : castsTo E (.typ a) (.typ b) = .ok true) (p : List Sel) :
    (follow E.heap a p = none ∧ follow E.heap b p = none) ∨
    ∃ x y, follow E.heap a p = some x ∧ follow E.heap b p = some y ∧ (x = y ∨ CastShape E.heap x y) :=
  C28_canCast_layout_partial E.heap wf a b ha hb hn h p

theorem fields_same (doC : DoC) (eq : Bool) (fs : List FieldD) (st : Stack) :
    fieldsCompare doC eq fs fs st = .ok (true, st) := by
  induction fs with
  | nil => rfl
  | cons f fs ih =>
    unfold fieldsCompare recCompare
    simp [ih]

theorem mem_of_lookup {s : List (Str × Int)} {p : Str × Int} (h : s.lookup p.1 = some p.2) : p ∈ s := by
  induction s with
  | nil => cases h
  | cons q s ih =>
    obtain ⟨a, b⟩ := q
    rw [List.lookup_cons] at h
    cases e : p.1 == a with
    | true =>
      rw [e] at h
      have e1 : p.1 = a := by simpa using e
      have e2 : b = p.2 := Option.some.inj h
      exact List.mem_cons.mpr (.inl (Prod.ext e1 e2.symm))
    | false =>
      rw [e] at h
      exact List.mem_cons_of_mem _ (ih h)

theorem length_le_of_subset : ∀ (s s' : List (Str × Int)), (s.map (·.1)).Nodup → (∀ p ∈ s, p ∈ s') → s.length ≤ s'.length
  | [], _, _, _ => Nat.zero_le _
  | p :: s, s', nd, h => by
    rw [List.map_cons, List.nodup_cons] at nd
    have hp := h p (List.mem_cons_self ..)
    have := length_le_of_subset s (s'.erase p) nd.2 (fun q hq => by
      rw [List.mem_erase_of_ne]
      · exact h q (List.mem_cons_of_mem _ hq)
      · rintro rfl
        exact nd.1 (List.mem_map.mpr ⟨q, hq, rfl⟩))
    rw [List.length_erase_of_mem hp] at this
    have : 0 < s'.length := List.length_pos_of_mem hp
    rw [List.length_cons]
    omega

/-- **C89.** `casts_to?` is weaker than `==`: compounds with the same fields cast to each other whatever their sizes, and are
equal only if these agree; an enum casts to an enum of its size exactly if that one has all its symbols, and is equal to it only
if the symbols are the same. -/
theorem C89_casts_weaker (E : Env) (wf : WF E.heap) (a b : TId) (ha : a < E.heap.next) (hb : b < E.heap.next) :
    (∀ fs, E.heap.kind a = .comp fs → E.heap.kind b = .comp fs →
      castsTo E (.typ a) (.typ b) = .ok true ∧ (equal E (.typ a) (.typ b) = .ok true ↔ E.heap.size a = E.heap.size b)) ∧
    (∀ s s', E.heap.kind a = .enum s → E.heap.kind b = .enum s' → E.heap.size a = E.heap.size b →
      (castsTo E (.typ a) (.typ b) = .ok true ↔ ∀ p ∈ s, p ∈ s') ∧ (equal E (.typ a) (.typ b) = .ok true ↔ s = s')) := by
  constructor
  · intro fs h1 h2
    rw [castsTo_typ, equal_typ]
    unfold canCastTo isSame
    by_cases hab : a = b
    · subst hab
      rw [if_pos rfl, if_pos rfl]
      exact ⟨rfl, ⟨fun _ => rfl, fun _ => rfl⟩⟩
    · rw [if_neg hab, if_neg hab]
      unfold doCompare
      have c1 : E.heap.cat b = .compound := by unfold Heap.cat; rw [h2]; rfl
      have c2 : E.heap.cat a = .compound := by unfold Heap.cat; rw [h1]; rfl
      by_cases hs : E.heap.size a = E.heap.size b
      · simp [h1, h2, c1, c2, fields_same, baseCompare, hs]
      · simp [h1, h2, c1, c2, fields_same, baseCompare, hs]
  · intro s s' h1 h2 hs
    rw [castsTo_typ, equal_typ]
    by_cases hab : a = b
    · subst hab
      have : s = s' := by rw [h1] at h2; injection h2
      subst this
      unfold canCastTo isSame
      rw [if_pos rfl, if_pos rfl]
      exact ⟨⟨fun _ p h => h, fun _ => rfl⟩, ⟨fun _ => rfl, fun _ => rfl⟩⟩
    · have c1 : E.heap.cat b = .enum := by unfold Heap.cat; rw [h2]; rfl
      have c2 : E.heap.cat a = .enum := by unfold Heap.cat; rw [h1]; rfl
      have nd := wf.syms a s h1
      have nd' := wf.syms b s' h2
      constructor
      · unfold canCastTo
        rw [if_neg hab]
        unfold doCompare
        simp only [h1, h2, baseCompare, hs, c1, c2, decide_true, Bool.and_self, if_true, Bool.false_eq_true, if_false,
          Res.bind_ok, Res.ok.injEq]
        unfold enumSubset
        rw [Bool.and_eq_true, decide_eq_true_eq, List.all_eq_true]
        constructor
        · rintro ⟨_, h⟩ p hp
          exact mem_of_lookup (by simpa using h p hp)
        · intro h
          refine ⟨?_, fun p hp => by simp [lookup_nodup nd' (h p hp)]⟩
          exact length_le_of_subset s s' nd h
      · unfold isSame
        rw [if_neg hab]
        unfold doCompare
        simp [h1, h2, baseCompare, hs, c1, c2]

/-! ### Other objects -/

/-- the objects that have the method `==` of types -/
def IsType : Obj → Prop
  | .typ _ => True
  | .root _ => True
  | .sub _ => True
  | _ => False

/-- the classes with a type: those of the registries, and the root classes but `NullType` -/
def HasType (E : Env) : Obj → Prop
  | .typ t => t < E.heap.next
  | .root r => r ≠ .null
  | _ => False

theorem typeOf_root (E : Env) (r : Root) : typeOf E (.root r) = match E.guard r with
    | some t => Res.ok t
    | none => .exn .rbType := rfl

theorem typeOf_has {E : Env} (hl : E.Loaded) {o : Obj} (h : HasType E o) :
    ∃ t, typeOf E o = .ok t ∧ t < E.heap.next := by
  match o, h with
  | .typ t, h => exact ⟨t, rfl, h⟩
  | .root r, h =>
    obtain ⟨t, ht⟩ := hl.has r h
    refine ⟨t, ?_, (hl.fresh r t ht).1⟩
    rw [typeOf_root, ht]

theorem typeOf_not {E : Env} (hl : E.Loaded) {o : Obj} (h : ¬ HasType E o) (hv : ∀ t, o = .typ t → t < E.heap.next) :
    typeOf E o = .exn .rbType := by
  match o, h, hv with
  | .typ t, h, hv => exact absurd (hv t rfl) h
  | .root r, h, _ =>
    have : r = .null := Classical.byContradiction h
    subst this
    rw [typeOf_root, hl.null]
  | .sub _, _, _ => rfl
  | .cls _, _, _ => rfl
  | .other _, _, _ => rfl

/-- **C89.** A type is not equal to an object that is no type: another Ruby object, a class that does not derive from
`Typelib::Type`, or `Typelib::Type` itself, and asking raises no exception, whatever the type. -/
theorem C89_not_types (E : Env) (o : Obj) (ht : IsType o) :
    (∀ i, equal E o (.other i) = .ok false) ∧ (∀ i, equal E o (.cls i) = .ok false) ∧
    (o ≠ .root .type → equal E o (.root .type) = .ok false) ∧ equal E o o = .ok true := by
  refine ⟨fun i => ?_, fun i => ?_, fun h => ?_, ?_⟩
  · rw [equal_unfold]
    rw [if_neg (by rintro rfl; exact ht)]
    rfl
  · rw [equal_unfold]
    rw [if_neg (by rintro rfl; exact ht)]
    rfl
  · rw [equal_unfold]
    rw [if_neg h]
    rfl
  · rw [equal_unfold]
    rw [if_pos rfl]

/-- **C89.** `==` between different types raises TypeError exactly if the second object derives from `Typelib::Type` and one of
the two is `NullType` or a class derived in Ruby from a type; it raises nothing else. -/
theorem C89_raises (E : Env) (hl : E.Loaded) (o w : Obj)
    (ho : ∀ t, o = .typ t → t < E.heap.next) (hw : ∀ t, w = .typ t → t < E.heap.next) :
    (∃ v, equal E o w = .ok v) ∨
    (equal E o w = .exn .rbType ∧ o ≠ w ∧ derived w = true ∧ (¬ HasType E o ∨ ¬ HasType E w)) := by
  by_cases e : o = w
  · subst e
    exact .inl ⟨true, by rw [equal_unfold]; rw [if_pos rfl]⟩
  by_cases hc : w.isClass = true
  · by_cases hd : derived w = true
    · have hroot : w ≠ .root .type := by rintro rfl; cases hd
      have expand : equal E o w = (typeOf E o >>= fun a => typeOf E w >>= fun b =>
          if a = b then .ok true else isSame E.heap a b) := by
        rw [equal_unfold]
        rw [if_neg e, if_neg (by rw [hc]; decide), if_neg (by rw [hd]; simp [hroot])]
      by_cases h1 : HasType E o
      · obtain ⟨a, ea, la⟩ := typeOf_has hl h1
        by_cases h2 : HasType E w
        · obtain ⟨b, eb, lb⟩ := typeOf_has hl h2
          refine .inl ?_
          rw [expand, ea, Res.bind_ok, eb, Res.bind_ok]
          by_cases hab : a = b
          · rw [if_pos hab]; exact ⟨_, rfl⟩
          · rw [if_neg hab]; exact (C26_compare_terminates E.heap hl.wf a b la lb).1
        · refine .inr ⟨?_, e, hd, .inr h2⟩
          rw [expand, ea, Res.bind_ok, typeOf_not hl h2 hw]
          rfl
      · refine .inr ⟨?_, e, hd, .inl h1⟩
        rw [expand, typeOf_not hl h1 ho]
        rfl
    · refine .inl ⟨false, ?_⟩
      rw [equal_unfold]
      rw [if_neg e, if_neg (by rw [hc]; decide), if_pos (by simp at hd; simp [hd])]
  · refine .inl ⟨false, ?_⟩
    rw [equal_unfold]
    rw [if_neg e, if_pos (by simp at hc; simp [hc])]

/-- **C89.** The converse of `C89_raises`. -/
theorem C89_raises_iff (E : Env) (hl : E.Loaded) (o w : Obj)
    (ho : ∀ t, o = .typ t → t < E.heap.next) (hw : ∀ t, w = .typ t → t < E.heap.next)
    (e : o ≠ w) (hd : derived w = true) (h : ¬ HasType E o ∨ ¬ HasType E w) : equal E o w = .exn .rbType := by
  have hroot : w ≠ .root .type := by rintro rfl; cases hd
  have hc : w.isClass = true := by cases w <;> first | rfl | cases hd
  rw [equal_unfold]
  rw [if_neg e, if_neg (by rw [hc]; decide), if_neg (by rw [hd]; simp [hroot])]
  by_cases h1 : HasType E o
  · obtain ⟨a, ea, _⟩ := typeOf_has hl h1
    rw [ea, Res.bind_ok, typeOf_not hl (h.resolve_left (fun n => n h1)) hw]
    rfl
  · rw [typeOf_not hl h1 ho]
    rfl

/-- **C89.** `casts_to?` raises TypeError exactly if one of the two has no type; in particular for objects that are no types. -/
theorem C89_casts_raises (E : Env) (hl : E.Loaded) (o w : Obj)
    (ho : ∀ t, o = .typ t → t < E.heap.next) (hw : ∀ t, w = .typ t → t < E.heap.next) :
    ((∃ v, castsTo E o w = .ok v) ↔ HasType E o ∧ HasType E w) ∧
    (castsTo E o w = .exn .rbType ↔ ¬ (HasType E o ∧ HasType E w)) := by
  unfold castsTo
  by_cases h1 : HasType E o
  · obtain ⟨a, ea, la⟩ := typeOf_has hl h1
    rw [ea, Res.bind_ok]
    by_cases h2 : HasType E w
    · obtain ⟨b, eb, lb⟩ := typeOf_has hl h2
      rw [eb, Res.bind_ok]
      obtain ⟨v, hv⟩ := (C26_compare_terminates E.heap hl.wf a b la lb).2
      rw [hv]
      exact ⟨⟨fun _ => ⟨h1, h2⟩, fun _ => ⟨v, rfl⟩⟩, ⟨nofun, fun n => absurd ⟨h1, h2⟩ n⟩⟩
    · rw [typeOf_not hl h2 hw]
      exact ⟨⟨nofun, fun n => absurd n.2 h2⟩, ⟨fun _ n => h2 n.2, fun _ => rfl⟩⟩
  · rw [typeOf_not hl h1 ho]
    exact ⟨⟨nofun, fun n => absurd n.1 h1⟩, ⟨fun _ n => h1 n.1, fun _ => rfl⟩⟩

/-! ### The root classes are all equal to each other -/

theorem null_same {H : Heap} (wf : WF H) {a b : TId} (ha : a < H.next) (hb : b < H.next) (hk : H.kind a = .null) :
    isSame H a b = .ok true ↔ a = b ∨ H.name a = H.name b := by
  rw [C26_isSame_iff H wf a b ha hb]
  constructor
  · rintro (h | ⟨R, hm, hR⟩)
    · exact .inl h
    · have := hm.step a b hR
      unfold Step at this
      rw [hk] at this
      exact .inr this
  · rintro (h | h)
    · exact .inl h
    · by_cases hab : a = b
      · exact .inl hab
      · refine .inr ⟨fun x y => x = a ∧ y = b, ⟨?_, ?_, ?_⟩, rfl, rfl⟩
        · rintro x y ⟨rfl, rfl⟩; exact hab
        · rintro x y y' ⟨rfl, rfl⟩ ⟨_, rfl⟩; rfl
        · rintro x y ⟨rfl, rfl⟩
          unfold Step
          rw [hk]
          exact h

/-- **C89 is false of the root classes**: in every session, each two different root classes with a guard type are equal, except
that nothing equals `Typelib::Type`. So `NumericType == CompoundType` is true, and `Type == NumericType` is true where
`NumericType == Type` is false. Nor does `NullType` compare with any of them: that raises TypeError. -/
theorem C89_root_counterexample (E : Env) (hl : E.Loaded) :
    (∀ r r', r ≠ r' → r ≠ .null → r' ≠ .null → equal E (.root r) (.root r') = .ok (r' != .type)) ∧
    equal E (.root .numeric) (.root .compound) = .ok true ∧
    equal E (.root .type) (.root .numeric) = .ok true ∧ equal E (.root .numeric) (.root .type) = .ok false ∧
    equal E (.root .numeric) (.root .null) = .exn .rbType := by
  have main : ∀ r r', r ≠ r' → r ≠ .null → r' ≠ .null → equal E (.root r) (.root r') = .ok (r' != .type) := by
    intro r r' h hn hn'
    by_cases ht : r' = .type
    · subst ht
      rw [(C89_not_types E (.root r) trivial).2.2.1 (fun e => h (Obj.root.inj e))]
      rfl
    · obtain ⟨t, et⟩ := hl.has r hn
      obtain ⟨t', et'⟩ := hl.has r' hn'
      obtain ⟨l1, k1, n1⟩ := hl.fresh r t et
      obtain ⟨l2, k2, n2⟩ := hl.fresh r' t' et'
      have hne : t ≠ t' := by rintro rfl; exact h (hl.inj r r' t et et')
      have hty : ∀ r t, E.guard r = some t → typeOf E (.root r) = .ok t := by
        intro r t e
        rw [typeOf_root, e]
      rw [equal_unfold]
      rw [if_neg (fun e => h (Obj.root.inj e)), if_neg (by simp [Obj.isClass]),
        if_neg (by simp [derived, ht]), hty r t et, Res.bind_ok, hty r' t' et', Res.bind_ok, if_neg hne,
        (null_same hl.wf l1 l2 k1).mpr (.inr (n1.trans n2.symm))]
      have : (r' != Root.type) = true := by simp [ht]
      rw [this]
  refine ⟨main, main _ _ (by decide) (by decide) (by decide), main _ _ (by decide) (by decide) (by decide),
    main _ _ (by decide) (by decide) (by decide), ?_⟩
  exact C89_raises_iff E hl _ _ nofun nofun (by decide) rfl (.inr (fun n => n rfl))

/-! ### A session -/

/-- the types of `cmpHeap`, and the nine guard types -/
def sessGet (t : TId) : TypeDef :=
  if (t : Nat) < 19 then cmpGet t else if (t : Nat) < 28 then ⟨"/Typelib/Type".toList, 0, .null⟩ else ⟨[], 0, .opaque⟩

def sess : Env where
  heap := ⟨28, sessGet⟩
  guard
    | .type => some 19
    | .numeric => some 20
    | .enum => some 21
    | .compound => some 22
    | .container => some 23
    | .array => some 24
    | .indirect => some 25
    | .opaque => some 26
    | .pointer => some 27
    | .null => none

theorem sess_wf : WF sess.heap := by
  constructor
  · intro t d ht hd
    match t with
    | 0 | 1 | 2 | 5 | 6 | 3 | 4 | 7 | 8 | 9 | 10 | 11 | 12 | 13 | 14 | 15 | 16 | 17 | 18 | 19 | 20 | 21 | 22 | 23 | 24 |
      25 | 26 | 27 =>
      revert d
      decide
    | n + 28 => exact absurd ht (by show ¬ n + 28 < 28; omega)
  · intro t s h
    match t with
    | 0 | 1 | 2 | 5 | 6 | 3 | 4 | 7 | 8 | 9 | 10 | 11 | 12 | 13 | 14 | 15 | 16 | 17 | 18 | 19 | 20 | 21 | 22 | 23 | 24 |
      25 | 26 | 27 => cases h
    | n + 28 =>
      have : sess.heap.kind (n + 28) = .opaque := by
        show (sessGet (n + 28)).kind = _
        unfold sessGet
        rw [if_neg (fun h => absurd (Nat.le_trans (by decide) (Nat.le_add_left 28 n)) (Nat.not_le.mpr h)), if_neg (fun h => absurd (Nat.le_add_left 28 n) (Nat.not_le.mpr h))]
      rw [this] at h
      cases h

/-- `Env.Loaded` is met by a session with 19 types -/
theorem sess_loaded : sess.Loaded where
  wf := sess_wf
  null := rfl
  has r h := by cases r <;> first | exact ⟨_, rfl⟩ | exact absurd rfl h
  fresh r t h := by
    cases r <;> first | (cases h; decide) | cases h
  inj r r' t h h' := by
    cases r <;> cases r' <;> first | rfl | (cases h <;> cases h')

/-- **C89 is false of the symmetry**: `struct S { X a; Y b; }` equals `struct T { Z a; Z b; }`, where `X`, `Y` and `Z` are
32-bit integers, but the second does not equal the first. -/
theorem C89_symmetry_counterexample :
    ∃ (E : Env) (a b : TId), E.Loaded ∧ HasType E (.typ a) ∧ HasType E (.typ b) ∧
      equal E (.typ a) (.typ b) = .ok true ∧ equal E (.typ b) (.typ a) = .ok false :=
  ⟨sess, 3, 4, sess_loaded, (by decide : 3 < 28), (by decide : 4 < 28), by decide +kernel, by decide +kernel⟩

/-- **C89.** A class derived in Ruby from a type equals only itself, and cannot be compared: `==` raises TypeError in both
directions, although `object < Type` holds. -/
theorem C89_derived_counterexample (E : Env) (hl : E.Loaded) (t : TId) (i : Nat) (h : t < E.heap.next) :
    equal E (.typ t) (.sub i) = .exn .rbType ∧ equal E (.sub i) (.typ t) = .exn .rbType ∧
    equal E (.sub i) (.sub i) = .ok true := by
  have ht : ∀ u, Obj.typ t = .typ u → u < E.heap.next := by intro u e; cases e; exact h
  refine ⟨C89_raises_iff E hl _ _ ht nofun nofun rfl (.inr id), C89_raises_iff E hl _ _ nofun ht nofun rfl (.inl id), ?_⟩
  exact (C89_not_types E (.sub i) trivial).2.2.2

/-- the recursive type and its copy are equal in Ruby in both directions, and differ from a string and from other types -/
example : equal sess (.typ 15) (.typ 17) = .ok true ∧ equal sess (.typ 17) (.typ 15) = .ok true ∧
    equal sess (.typ 15) (.typ 3) = .ok false ∧ equal sess (.typ 15) (.other 0) = .ok false ∧
    equal sess (.typ 15) (.root .compound) = .ok false ∧ equal sess (.root .compound) (.typ 15) = .ok false ∧
    castsTo sess (.typ 8) (.typ 7) = .ok true ∧ equal sess (.typ 8) (.typ 7) = .ok false := by
  decide +kernel

/-- two enums, the second with one more symbol -/
def enumHeap : Heap := ⟨2, fun
  | 0 => ⟨"/E".toList, 4, .enum [(['A'], 0)]⟩
  | 1 => ⟨"/F".toList, 4, .enum [(['A'], 0), (['B'], 1)]⟩
  | _ => ⟨[], 0, .opaque⟩⟩

/-- `C89_casts_weaker` applies to compounds of different sizes (above) and to enums -/
example : WF enumHeap ∧ castsTo ⟨enumHeap, fun _ => none⟩ (.typ 0) (.typ 1) = .ok true ∧
    castsTo ⟨enumHeap, fun _ => none⟩ (.typ 1) (.typ 0) = .ok false ∧
    equal ⟨enumHeap, fun _ => none⟩ (.typ 0) (.typ 1) = .ok false := by
  refine ⟨⟨?_, ?_⟩, by decide +kernel⟩
  · intro t d ht hd
    match t with
    | 0 | 1 => cases hd
    | n + 2 => cases hd
  · intro t s h
    match t with
    | 0 | 1 => cases h; decide
    | n + 2 => cases h

/-- `C89_same_definition_partial` and `C89_symmetric_partial` apply: see `cmp_noNull`, and the integer `/X` -/
example : NoNull sess.heap 0 ∧ NoDuplicates sess.heap 0 ∧ equal sess (.typ 0) (.typ 1) = .ok true := by
  have hf : ∀ p u, follow sess.heap 0 p = some u → u = 0 := by
    intro p u h
    match p with
    | [] => cases h; rfl
    | .elem :: p => cases h
    | .field i :: p => cases h
  refine ⟨fun p t h => ?_, fun p q x y h h' _ => by rw [hf p x h, hf q y h'], by decide +kernel⟩
  rw [hf p t h]
  decide

/-- `C89_not_types`, `C89_raises`, `C89_casts_raises` apply to all objects of the session -/
example : IsType (.typ 15) ∧ IsType (.root .enum) ∧ IsType (.sub 0) ∧ HasType sess (.typ 15) ∧ HasType sess (.root .enum) ∧
    ¬ HasType sess (.root .null) ∧ ¬ HasType sess (.sub 0) := by
  refine ⟨trivial, trivial, trivial, (by decide : 15 < 28), nofun, fun h => h rfl, id⟩

end Verif.RubyTypeEq
