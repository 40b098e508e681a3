import Verif.TypeCompare

/-! Properties C26, C27 and C28: what the comparison of types decides. -/

namespace Verif.Graph
open Verif

set_option linter.unusedSimpArgs false

/-! ### Completeness -/

/-- A way to match the types of one graph with the types of another: a function (each type has one
counterpart), relating types that agree up to matching. -/
structure Matching (H : Heap) (R : TId → TId → Prop) : Prop where
  ne : ∀ x y, R x y → x ≠ y
  fn : ∀ x y z, R x y → R x z → y = z
  step : ∀ x y, R x y → Step H true (fun a b => a = b ∨ R a b) x y

theorem lookup_nodup {s : List (Str × Int)} (h : (s.map (·.1)).Nodup) {p : Str × Int} (hp : p ∈ s) :
    s.lookup p.1 = some p.2 := by
  induction s with
  | nil => cases hp
  | cons q s ih =>
    rw [List.map_cons, List.nodup_cons] at h
    obtain ⟨a, b⟩ := q
    rw [List.lookup_cons]
    rcases List.mem_cons.mp hp with rfl | hp'
    · simp
    · have : (p.1 == a) = false := by
        rw [beq_eq_false_iff_ne]
        rintro rfl
        exact h.1 (List.mem_map.mpr ⟨p, hp', rfl⟩)
      rw [this]
      exact ih h.2 hp'

theorem enumSubset_refl {s : List (Str × Int)} (h : (s.map (·.1)).Nodup) : enumSubset s s = true := by
  unfold enumSubset
  simp only [Nat.le_refl, decide_true, Bool.true_and, List.all_eq_true, beq_iff_eq]
  exact fun p hp => lookup_nodup h hp

/-- on matching types the recursive call says yes, from a stack that does not contradict the matching -/
def DoComplete (H : Heap) (R Q : TId → TId → Prop) (doC : DoC) : Prop :=
  ∀ eq l r st x, doC eq l r st = .ok x → Step H true (fun a b => a = b ∨ R a b) l r →
    (∀ a b, st.lookup a = some b → Q a b) → x.1 = true ∧ ∀ a b, x.2.lookup a = some b → Q a b

theorem recCompare_complete {H : Heap} {R Q : TId → TId → Prop} (hm : Matching H R)
    (hQ : ∀ a b, R a b → Q a b) (hfn : ∀ a b c, Q a b → R a c → b = c) {doC : DoC}
    (hd : DoComplete H R Q doC) (eq : Bool) (l r : TId) (st : Stack) (x : Bool × Stack)
    (h : recCompare doC eq l r st = .ok x) (hlr : l = r ∨ R l r)
    (hst : ∀ a b, st.lookup a = some b → Q a b) : x.1 = true ∧ ∀ a b, x.2.lookup a = some b → Q a b := by
  unfold recCompare at h
  by_cases he : l = r
  · rw [if_pos he] at h
    cases h
    exact ⟨rfl, hst⟩
  · rw [if_neg he] at h
    have hR : R l r := by
      rcases hlr with e | e
      · exact absurd e he
      · exact e
    cases hs : st.lookup l with
    | some r' =>
      rw [hs] at h
      cases h
      exact ⟨by simpa using (hfn _ _ _ (hst _ _ hs) hR).symm, hst⟩
    | none =>
      rw [hs] at h
      refine hd eq l r _ x h (hm.step _ _ hR) ?_
      intro a b hab
      by_cases hal : a = l
      · subst hal
        rw [lookup_cons_self] at hab
        cases hab
        exact hQ _ _ hR
      · rw [lookup_cons_ne r st hal] at hab
        exact hst a b hab

theorem fieldsCompare_complete {H : Heap} {R Q : TId → TId → Prop} (hm : Matching H R)
    (hQ : ∀ a b, R a b → Q a b) (hfn : ∀ a b c, Q a b → R a c → b = c) {doC : DoC}
    (hd : DoComplete H R Q doC) (eq : Bool) : ∀ (fs fs' : List FieldD) (st : Stack) (x : Bool × Stack),
    fieldsCompare doC eq fs fs' st = .ok x →
    (∀ (i : Nat) (a b : FieldD), fs[i]? = some a → fs'[i]? = some b →
      a.name = b.name ∧ a.offset = b.offset ∧ (a.ty = b.ty ∨ R a.ty b.ty)) →
    (∀ a b, st.lookup a = some b → Q a b) → x.1 = true ∧ ∀ a b, x.2.lookup a = some b → Q a b := by
  intro fs
  induction fs with
  | nil => intro fs' st x h _ hst; cases h; exact ⟨rfl, hst⟩
  | cons a as ih =>
    intro fs' st x h hf hst
    cases fs' with
    | nil => cases h
    | cons b bs =>
      unfold fieldsCompare at h
      obtain ⟨h1, h2, h3⟩ := hf 0 a b rfl rfl
      rw [if_neg (by rintro (e | e); exact e h1; exact e h2)] at h
      obtain ⟨y, e1, e2⟩ := Res.bind_eq_ok.mp h
      obtain ⟨g1, g2⟩ := recCompare_complete hm hQ hfn hd eq a.ty b.ty st y e1 h3 hst
      rw [g1] at e2
      simp only [if_true] at e2
      exact ih bs y.2 x e2 (fun i c d hc hd => hf (i + 1) c d hc hd) g2

theorem doCompare_complete (H : Heap) (wf : WF H) {R Q : TId → TId → Prop} (hm : Matching H R)
    (hQ : ∀ a b, R a b → Q a b) (hfn : ∀ a b c, Q a b → R a c → b = c) :
    ∀ f, DoComplete H R Q (doCompare H f) := by
  intro f
  induction f with
  | zero => intro eq l r st x h; cases h
  | succ f ih =>
    intro eq l r st x h hs hst
    unfold doCompare at h
    simp only at h
    unfold Step at hs
    have hbase : H.size l = H.size r → (H.kind l).cat = (H.kind r).cat → baseCompare H l r = true := by
      intro h1 h2
      rw [base_iff]
      exact ⟨h1, h2⟩
    cases hkl : H.kind l with
    | null =>
      rw [hkl] at h hs
      cases h
      exact ⟨by simpa using hs.symm, hst⟩
    | «opaque» =>
      rw [hkl] at h hs
      cases hkr : H.kind r <;> rw [hkr] at hs <;> simp only at hs <;> try exact absurd hs id
      have hb := hbase hs.1 (by simp [hkl, hkr, Kind.cat])
      cases h
      exact ⟨by simp [hb, hs.2], hst⟩
    | num c =>
      rw [hkl] at h hs
      cases hkr : H.kind r <;> rw [hkr] at h hs <;> simp only at hs <;> try exact absurd hs id
      have hb := hbase hs.1 (by simp [hkl, hkr, Kind.cat])
      simp only [hb, if_true] at h
      cases h
      exact ⟨by simpa using hs.2, hst⟩
    | enum s =>
      rw [hkl] at h hs
      cases hkr : H.kind r <;> rw [hkr] at h hs <;> simp only at hs <;> try exact absurd hs id
      have hb := hbase hs.1 (by simp [hkl, hkr, Kind.cat])
      simp only [hb, if_true] at h hs
      cases h
      refine ⟨?_, hst⟩
      obtain ⟨_, rfl⟩ := hs
      cases eq with
      | true => simp
      | false => simpa using enumSubset_refl (wf.syms l s hkl)
    | arr d e =>
      rw [hkl] at h hs
      cases hkr : H.kind r <;> rw [hkr] at h hs <;> simp only at hs <;> try exact absurd hs id
      have hb := hbase hs.1 (by simp [hkl, hkr, Kind.cat])
      obtain ⟨_, rfl, hee⟩ := hs
      simp only [hb, if_true] at h
      exact recCompare_complete hm hQ hfn ih true _ _ st x h hee hst
    | ptr e =>
      rw [hkl] at h hs
      cases hkr : H.kind r <;> rw [hkr] at h hs <;> simp only at hs <;> try exact absurd hs id
      have hb := hbase hs.1 (by simp [hkl, hkr, Kind.cat])
      simp only [hb, if_true, Kind.elem?] at h
      exact recCompare_complete hm hQ hfn ih eq _ _ st x h hs.2 hst
    | vec e =>
      rw [hkl] at h hs
      cases hkr : H.kind r <;> rw [hkr] at h hs <;> simp only at hs <;> try exact absurd hs id
      have hb := hbase hs.1 (by simp [hkl, hkr, Kind.cat])
      simp only [hb, if_true] at h
      exact recCompare_complete hm hQ hfn ih true _ _ st x h hs.2 hst
    | str e =>
      rw [hkl] at h hs
      cases hkr : H.kind r <;> rw [hkr] at h hs <;> simp only at hs <;> try exact absurd hs id
      have hb := hbase hs.1 (by simp [hkl, hkr, Kind.cat])
      simp only [hb, if_true] at h
      exact recCompare_complete hm hQ hfn ih true _ _ st x h hs.2 hst
    | comp fs =>
      rw [hkl] at h hs
      cases hkr : H.kind r <;> rw [hkr] at h hs <;> simp only at hs <;> try exact absurd hs id
      have hb := hbase (hs.1 trivial) (by simp [hkl, hkr, Kind.cat])
      have hcat : H.cat r = .compound := by unfold Heap.cat; rw [hkr]; rfl
      simp only [hb, hcat, hs.2.1, ne_eq, not_true_eq_false, if_false, Bool.not_true, Bool.and_false,
        Bool.false_eq_true] at h
      exact fieldsCompare_complete hm hQ hfn ih eq _ _ st x h hs.2.2 hst

/-! ### C26 -/

/-- the stack at the end of a successful comparison -/
theorem compare_matching (H : Heap) (wf : WF H) (eq : Bool) {a b : TId} (ha : a < H.next) (hb : b < H.next)
    (hab : a ≠ b) : ∃ x, doCompare H (H.next + 1) eq a b [(a, b)] = .ok x ∧
      (x.1 = true → x.2.lookup a = some b ∧
        ∀ l r, x.2.lookup l = some r → l ≠ r ∧ Step H eq (Rel x.2) l r) := by
  obtain ⟨x, h1, h2, h3⟩ := doCompare_spec H wf (H.next + 1) eq a b [(a, b)] ha hb (by
    have := freeKeys_le H [(a, b)]; omega)
  refine ⟨x, h1, fun hx => ⟨h2.ext a b (lookup_cons_self a b []), fun l r hlr => ?_⟩⟩
  rcases h2.new hx l r hlr with h | h
  · by_cases hl : l = a
    · subst hl
      rw [lookup_cons_self] at h
      cases h
      exact ⟨hab, h3 hx⟩
    · rw [lookup_cons_ne b [] hl] at h
      simp at h
  · exact h

/-- **C26.** `isSame` and `canCastTo` always terminate, recursive types included, without undefined
behaviour or exception. -/
theorem C26_compare_terminates (H : Heap) (wf : WF H) (a b : TId) (ha : a < H.next) (hb : b < H.next) :
    (∃ v, isSame H a b = .ok v) ∧ (∃ v, canCastTo H a b = .ok v) := by
  unfold isSame canCastTo
  by_cases hab : a = b
  · rw [if_pos hab, if_pos hab]; exact ⟨⟨_, rfl⟩, ⟨_, rfl⟩⟩
  · rw [if_neg hab, if_neg hab]
    obtain ⟨x, h1, _⟩ := compare_matching H wf true ha hb hab
    obtain ⟨y, h2, _⟩ := compare_matching H wf false ha hb hab
    rw [h1, h2]
    exact ⟨⟨_, rfl⟩, ⟨_, rfl⟩⟩

/-- **C26.** `isSame` is reflexive. -/
theorem C26_reflexive (H : Heap) (a : TId) : isSame H a a = .ok true := by
  unfold isSame; rw [if_pos rfl]

/-- **C26.** `isSame(a, b)` holds exactly when the types `a` is made of can be matched, by a function,
with the types `b` is made of, so that matching types agree. -/
theorem C26_isSame_iff (H : Heap) (wf : WF H) (a b : TId) (ha : a < H.next) (hb : b < H.next) :
    isSame H a b = .ok true ↔ a = b ∨ ∃ R, Matching H R ∧ R a b := by
  unfold isSame
  by_cases hab : a = b
  · rw [if_pos hab]; exact ⟨fun _ => Or.inl hab, fun _ => rfl⟩
  · rw [if_neg hab]
    obtain ⟨x, h1, h2⟩ := compare_matching H wf true ha hb hab
    rw [h1, Res.bind_ok]
    constructor
    · intro h
      have hx : x.1 = true := by cases h' : x.1 <;> rw [h'] at h <;> first | rfl | cases h
      obtain ⟨g1, g2⟩ := h2 hx
      refine Or.inr ⟨fun l r => x.2.lookup l = some r, ⟨fun l r h => (g2 l r h).1, ?_, fun l r h => (g2 l r h).2⟩, g1⟩
      intro l r r' e1 e2
      rw [e1] at e2; cases e2; rfl
    · rintro (h | ⟨R, hm, hR⟩)
      · exact absurd h hab
      · rw [(doCompare_complete H wf hm (fun _ _ h => h) (fun _ _ _ h1 h2 => hm.fn _ _ _ h1 h2) _ true a b _ x h1 (hm.step _ _ hR) (by
          intro l r hlr
          by_cases hl : l = a
          · subst hl; rw [lookup_cons_self] at hlr; cases hlr; exact hR
          · rw [lookup_cons_ne b [] hl] at hlr; simp at hlr)).1]

/-- A step from a type into one of its parts: the element, or the `i`-th field. -/
inductive Sel where
  | elem
  | field (i : Nat)
  deriving DecidableEq

/-- the part of a type -/
def part (H : Heap) (t : TId) : Sel → Option TId
  | .elem => (H.kind t).elem?
  | .field i => match H.kind t with
    | .comp fs => fs[i]?.map (·.ty)
    | _ => none

/-- the part of a type at the end of a path -/
def follow (H : Heap) : TId → List Sel → Option TId
  | t, [] => some t
  | t, s :: p => (part H t s).bind (fun u => follow H u p)

/-- a type without the identities of its parts: size, class, symbols, dimension, names and offsets of
the fields -/
def shape (H : Heap) (t : TId) : Nat × Kind :=
  (H.size t, match H.kind t with
    | .arr d _ => .arr d 0
    | .ptr _ => .ptr 0
    | .vec _ => .vec 0
    | .str _ => .str 0
    | .comp fs => .comp (fs.map (fun f => { f with ty := 0 }))
    | k => k)

/-- `a` and `b` have the same definition, to any depth: following the same path into both leads to
types of the same shape (or to nothing in both). Recursive types have infinitely many paths. -/
def SameDefinition (H : Heap) (a b : TId) : Prop :=
  ∀ p : List Sel, (follow H a p).map (shape H) = (follow H b p).map (shape H)

theorem step_shape {H : Heap} {R : TId → TId → Prop} {x y : TId} (h : Step H true R x y)
    (hn : H.kind x ≠ .null) : shape H x = shape H y := by
  unfold Step at h
  unfold shape
  cases hx : H.kind x <;> cases hy : H.kind y <;> rw [hx, hy] at h <;> simp only at h <;>
    first | exact absurd h id | (exact absurd hx hn) | skip
  · exact Prod.ext h.1 rfl
  · rw [h.1, h.2]
  · rw [h.1]; have := h.2; simp only [if_true] at this; rw [this]
  · rw [h.1, h.2.1]
  · rw [h.1]
  · rw [h.1]
  · rw [h.1]
  · rename_i fs fs'
    obtain ⟨h1, h2, h3⟩ := h
    rw [h1 trivial]
    simp only
    congr 2
    apply List.ext_getElem?
    intro i
    rw [List.getElem?_map, List.getElem?_map]
    cases ha : fs[i]? with
    | none =>
      rw [List.getElem?_eq_none_iff] at ha
      rw [List.getElem?_eq_none (by omega)]
    | some f =>
      cases hb : fs'[i]? with
      | none =>
        rw [List.getElem?_eq_none_iff] at hb
        rw [List.getElem?_eq_none (by omega)] at ha
        cases ha
      | some g =>
        obtain ⟨e1, e2, _⟩ := h3 i f g ha hb
        simp [e1, e2]

theorem step_part {H : Heap} {R : TId → TId → Prop} {eq : Bool} {x y : TId} (h : Step H eq R x y)
    (hn : H.kind x ≠ .null) (s : Sel) :
    (part H x s = none ∧ part H y s = none) ∨ ∃ u v, part H x s = some u ∧ part H y s = some v ∧ R u v := by
  unfold Step at h
  unfold part
  cases hx : H.kind x <;> cases hy : H.kind y <;> rw [hx, hy] at h <;> simp only at h <;>
    first | exact absurd h id | (exact absurd hx hn) | skip
  all_goals cases s
  all_goals first | exact Or.inl ⟨rfl, rfl⟩ | skip
  · exact Or.inr ⟨_, _, rfl, rfl, h.2.2⟩
  · exact Or.inr ⟨_, _, rfl, rfl, h.2⟩
  · exact Or.inr ⟨_, _, rfl, rfl, h.2⟩
  · exact Or.inr ⟨_, _, rfl, rfl, h.2⟩
  · rename_i fs fs' i
    obtain ⟨h1, h2, h3⟩ := h
    simp only
    cases ha : fs[i]? with
    | none =>
      rw [List.getElem?_eq_none_iff] at ha
      rw [List.getElem?_eq_none (l := fs') (by omega)]
      exact Or.inl ⟨rfl, rfl⟩
    | some f =>
      cases hb : fs'[i]? with
      | none =>
        rw [List.getElem?_eq_none_iff] at hb
        rw [List.getElem?_eq_none (by omega)] at ha
        cases ha
      | some g => exact Or.inr ⟨_, _, rfl, rfl, (h3 i f g ha hb).2.2⟩

/-- no null type among the parts of `a` -/
def NoNull (H : Heap) (a : TId) : Prop := ∀ p t, follow H a p = some t → H.kind t ≠ .null

theorem noNull_part {H : Heap} {a u : TId} (h : NoNull H a) {s : Sel} (hp : part H a s = some u) : NoNull H u := by
  intro p t ht
  exact h (s :: p) t (by unfold follow; rw [hp]; exact ht)

theorem noNull_self {H : Heap} {a : TId} (h : NoNull H a) : H.kind a ≠ .null := h [] a rfl

theorem matching_follow {H : Heap} {R : TId → TId → Prop} (hm : ∀ x y, R x y → Step H true (fun a b => a = b ∨ R a b) x y)
    (p : List Sel) : ∀ x y, (x = y ∨ R x y) → NoNull H x →
    (follow H x p = none ∧ follow H y p = none) ∨
    ∃ u v, follow H x p = some u ∧ follow H y p = some v ∧ (u = v ∨ R u v) := by
  induction p with
  | nil => intro x y hxy _; exact Or.inr ⟨x, y, rfl, rfl, hxy⟩
  | cons s p ih =>
    intro x y hxy hn
    rcases hxy with rfl | hxy
    · cases follow H x (s :: p) with
      | none => exact Or.inl ⟨rfl, rfl⟩
      | some u => exact Or.inr ⟨u, u, rfl, rfl, Or.inl rfl⟩
    · unfold follow
      rcases step_part (hm _ _ hxy) (noNull_self hn) s with ⟨e1, e2⟩ | ⟨u, v, e1, e2, e3⟩
      · rw [e1, e2]; exact Or.inl ⟨rfl, rfl⟩
      · rw [e1, e2]
        exact ih u v e3 (noNull_part hn e1)

/-- **C26.** If `isSame(a, b)` then `a` and `b` have the same definition: same size, class, symbols,
dimensions, field names and offsets, recursively, for recursive types as well. Null types, which are
compared by name only, are excluded (`C26_null_counterexample`). -/
theorem C26_isSame_structural_partial (H : Heap) (wf : WF H) (a b : TId) (ha : a < H.next) (hb : b < H.next)
    (hn : NoNull H a) (h : isSame H a b = .ok true) : SameDefinition H a b := by
  intro p
  rcases (C26_isSame_iff H wf a b ha hb).mp h with rfl | ⟨R, hm, hR⟩
  · rfl
  · rcases matching_follow hm.step p a b (Or.inr hR) hn with ⟨e1, e2⟩ | ⟨u, v, e1, e2, e3⟩
    · rw [e1, e2]
    · rw [e1, e2]
      simp only [Option.map_some, Option.some.injEq]
      rcases e3 with rfl | e3
      · rfl
      · exact step_shape (hm.step _ _ e3) (hn p u e1)

/-! ### C27 -/

/-- no two different types among the parts of `a` have the same definition -/
def NoDuplicates (H : Heap) (a : TId) : Prop :=
  ∀ p q x y, follow H a p = some x → follow H a q = some y → SameDefinition H x y → x = y

theorem step_symm {H : Heap} {R : TId → TId → Prop} {x y : TId} (h : Step H true R x y)
    (hn : H.kind x ≠ .null) : Step H true (fun a b => R b a) y x := by
  unfold Step at h ⊢
  cases hx : H.kind x <;> cases hy : H.kind y <;> rw [hx, hy] at h <;> simp only at h <;>
    first | exact absurd h id | (exact absurd hx hn) | skip
  all_goals simp only
  · exact ⟨h.1.symm, h.2.symm⟩
  · exact ⟨h.1.symm, h.2.symm⟩
  · simp only [if_true] at h ⊢; exact ⟨h.1.symm, h.2.symm⟩
  · exact ⟨h.1.symm, h.2.1.symm, h.2.2⟩
  · exact ⟨h.1.symm, h.2⟩
  · exact ⟨h.1.symm, h.2⟩
  · exact ⟨h.1.symm, h.2⟩
  · refine ⟨fun _ => (h.1 trivial).symm, h.2.1.symm, ?_⟩
    intro i a b e1 e2
    obtain ⟨g1, g2, g3⟩ := h.2.2 i b a e2 e1
    exact ⟨g1.symm, g2.symm, g3⟩

theorem sameDefinition_of_rel {H : Heap} {R : TId → TId → Prop}
    (hm : ∀ x y, R x y → Step H true (fun a b => a = b ∨ R a b) x y) {x y : TId} (hxy : x = y ∨ R x y)
    (hn : NoNull H x) : SameDefinition H x y := by
  intro p
  rcases matching_follow hm p x y hxy hn with ⟨e1, e2⟩ | ⟨u, v, e1, e2, e3⟩
  · rw [e1, e2]
  · rw [e1, e2]
    simp only [Option.map_some, Option.some.injEq]
    rcases e3 with rfl | e3
    · rfl
    · exact step_shape (hm _ _ e3) (hn p u e1)

theorem follow_append (H : Heap) (a : TId) (p q : List Sel) :
    follow H a (p ++ q) = (follow H a p).bind (fun u => follow H u q) := by
  induction p generalizing a with
  | nil => rfl
  | cons s p ih =>
    simp only [List.cons_append, follow]
    cases part H a s with
    | none => rfl
    | some u => exact ih u

/-- **C27**, for types without duplicates. If `isSame(a, b)` and no two different types among the parts
of `a` have the same definition (and none is a null type), then `isSame(b, a)`. Without this,
`isSame` is not symmetric: `C27_counterexample`. -/
theorem C27_symmetric_partial (H : Heap) (wf : WF H) (a b : TId) (ha : a < H.next) (hb : b < H.next)
    (hn : NoNull H a) (hd : NoDuplicates H a) (h : isSame H a b = .ok true) : isSame H b a = .ok true := by
  rw [C26_isSame_iff H wf b a hb ha]
  rcases (C26_isSame_iff H wf a b ha hb).mp h with rfl | ⟨R, hm, hR⟩
  · exact Or.inl rfl
  · -- keep the pairs met while following the same path in both
    refine Or.inr ⟨fun y x => R x y ∧ ∃ p, follow H a p = some x ∧ follow H b p = some y, ⟨?_, ?_, ?_⟩,
      hR, [], rfl, rfl⟩
    · rintro y x ⟨h1, _⟩ rfl
      exact hm.ne _ _ h1 rfl
    · rintro y x x' ⟨h1, p, h2, h3⟩ ⟨h1', p', h2', h3'⟩
      refine hd p p' x x' h2 h2' ?_
      intro q
      have n1 : NoNull H x := fun q t hq => hn (p ++ q) t (by rw [follow_append, h2]; exact hq)
      have n2 : NoNull H x' := fun q t hq => hn (p' ++ q) t (by rw [follow_append, h2']; exact hq)
      rw [sameDefinition_of_rel hm.step (Or.inr h1) n1 q, sameDefinition_of_rel hm.step (Or.inr h1') n2 q]
    · rintro y x ⟨h1, p, h2, h3⟩
      have hs := hm.step _ _ h1
      have hnx : H.kind x ≠ .null := hn p x h2
      have hsy := step_symm hs hnx
      -- refine the relation with the path
      have hpart : ∀ (s : Sel) u v, part H x s = some u → part H y s = some v → (u = v ∨ R u v) →
          v = u ∨ (R u v ∧ ∃ p, follow H a p = some u ∧ follow H b p = some v) := by
        intro s u v e1 e2 e3
        rcases e3 with e3 | e3
        · exact Or.inl e3.symm
        · refine Or.inr ⟨e3, p ++ [s], ?_, ?_⟩
          · rw [follow_append, h2]; simp [follow, e1]
          · rw [follow_append, h3]; simp [follow, e2]
      unfold Step at hs hsy ⊢
      cases hkx : H.kind x <;> cases hky : H.kind y <;> rw [hkx, hky] at hs hsy <;> simp only at hs hsy <;>
        first | exact absurd hs id | (exact absurd hkx hnx) | skip
      all_goals simp only
      · exact hsy
      · exact hsy
      · exact hsy
      · exact ⟨hsy.1, hsy.2.1, hpart .elem _ _ (by unfold part; rw [hkx]; rfl) (by unfold part; rw [hky]; rfl) hsy.2.2⟩
      · exact ⟨hsy.1, hpart .elem _ _ (by unfold part; rw [hkx]; rfl) (by unfold part; rw [hky]; rfl) hsy.2⟩
      · exact ⟨hsy.1, hpart .elem _ _ (by unfold part; rw [hkx]; rfl) (by unfold part; rw [hky]; rfl) hsy.2⟩
      · exact ⟨hsy.1, hpart .elem _ _ (by unfold part; rw [hkx]; rfl) (by unfold part; rw [hky]; rfl) hsy.2⟩
      · refine ⟨hsy.1, hsy.2.1, ?_⟩
        intro i f g e1 e2
        obtain ⟨g1, g2, g3⟩ := hsy.2.2 i f g e1 e2
        exact ⟨g1, g2, hpart (.field i) _ _ (by unfold part; rw [hkx]; simp [e2])
          (by unfold part; rw [hky]; simp [e1]) g3⟩

/-! ### C28 -/

/-- **C28.** `isSame(a, b)` implies `canCastTo(a, b)`. -/
theorem C28_isSame_canCast (H : Heap) (wf : WF H) (a b : TId) (ha : a < H.next) (hb : b < H.next)
    (h : isSame H a b = .ok true) : canCastTo H a b = .ok true := by
  unfold canCastTo
  rcases (C26_isSame_iff H wf a b ha hb).mp h with rfl | ⟨R, hm, hR⟩
  · rw [if_pos rfl]
  · have hab := hm.ne _ _ hR
    rw [if_neg hab]
    obtain ⟨x, h1, _⟩ := compare_matching H wf false ha hb hab
    rw [h1, Res.bind_ok]
    rw [(doCompare_complete H wf hm (fun _ _ h => h) (fun _ _ _ h1 h2 => hm.fn _ _ _ h1 h2) _ false a b _ x h1 (hm.step _ _ hR) (by
          intro l r hlr
          by_cases hl : l = a
          · subst hl; rw [lookup_cons_self] at hlr; cases hlr; exact hR
          · rw [lookup_cons_ne b [] hl] at hlr; simp at hlr)).1]

/-- what a cast needs of the parts reached by the same path: same class; same size except for
compounds; the symbols of an enum are kept; same dimension; same field names and offsets -/
def CastShape (H : Heap) (x y : TId) : Prop :=
  match H.kind x, H.kind y with
  | .opaque, .opaque => H.size x = H.size y ∧ H.name x = H.name y
  | .num c, .num c' => H.size x = H.size y ∧ c = c'
  | .enum s, .enum s' => H.size x = H.size y ∧ ∀ p ∈ s, p ∈ s'
  | .arr d _, .arr d' _ => H.size x = H.size y ∧ d = d'
  | .ptr _, .ptr _ => H.size x = H.size y
  | .vec _, .vec _ => H.size x = H.size y
  | .str _, .str _ => H.size x = H.size y
  | .comp fs, .comp fs' => fs.map (fun f => (f.name, f.offset)) = fs'.map (fun f => (f.name, f.offset))
  | _, _ => False

theorem step_castShape {H : Heap} {R : TId → TId → Prop} {x y : TId} (h : Step H false R x y)
    (hn : H.kind x ≠ .null) : CastShape H x y := by
  unfold Step at h
  unfold CastShape
  cases hx : H.kind x <;> cases hy : H.kind y <;> rw [hx, hy] at h <;> simp only at h <;>
    first | exact absurd h id | (exact absurd hx hn) | skip
  all_goals simp only
  · exact h
  · exact h
  · simpa using h
  · exact ⟨h.1, h.2.1⟩
  · exact h.1
  · exact h.1
  · exact h.1
  · rename_i fs fs'
    obtain ⟨h1, h2, h3⟩ := h
    apply List.ext_getElem?
    intro i
    rw [List.getElem?_map, List.getElem?_map]
    cases ha : fs[i]? with
    | none =>
      rw [List.getElem?_eq_none_iff] at ha
      rw [List.getElem?_eq_none (by omega)]
    | some f =>
      cases hb : fs'[i]? with
      | none =>
        rw [List.getElem?_eq_none_iff] at hb
        rw [List.getElem?_eq_none (by omega)] at ha
        cases ha
      | some g =>
        obtain ⟨e1, e2, _⟩ := h3 i f g ha hb
        simp [e1, e2]

/-- **C28.** If `canCastTo(a, b)`, every path into `a` exists in `b` (and conversely) and leads to
types of the same class, with the same size unless they are compounds, the same numeric class, the same
field names and offsets, the same dimensions, and in `b` all the enum symbols of `a` with their values.
(Null types excluded, as for `isSame`.) -/
theorem C28_canCast_layout_partial (H : Heap) (wf : WF H) (a b : TId) (ha : a < H.next) (hb : b < H.next)
    (hn : NoNull H a) (h : canCastTo H a b = .ok true) (p : List Sel) :
    (follow H a p = none ∧ follow H b p = none) ∨
    ∃ x y, follow H a p = some x ∧ follow H b p = some y ∧ (x = y ∨ CastShape H x y) := by
  unfold canCastTo at h
  by_cases hab : a = b
  · subst hab
    cases follow H a p with
    | none => exact Or.inl ⟨rfl, rfl⟩
    | some u => exact Or.inr ⟨u, u, rfl, rfl, Or.inl rfl⟩
  · rw [if_neg hab] at h
    obtain ⟨x, h1, h2⟩ := compare_matching H wf false ha hb hab
    rw [h1, Res.bind_ok] at h
    have hx : x.1 = true := by cases h' : x.1 <;> rw [h'] at h <;> first | rfl | cases h
    obtain ⟨g1, g2⟩ := h2 hx
    have main : ∀ (p : List Sel) u v, (u = v ∨ x.2.lookup u = some v) → NoNull H u →
        (follow H u p = none ∧ follow H v p = none) ∨
        ∃ u' v', follow H u p = some u' ∧ follow H v p = some v' ∧ (u' = v' ∨ x.2.lookup u' = some v') := by
      intro p
      induction p with
      | nil => intro u v huv _; exact Or.inr ⟨u, v, rfl, rfl, huv⟩
      | cons s p ih =>
        intro u v huv hn
        rcases huv with rfl | huv
        · cases follow H u (s :: p) with
          | none => exact Or.inl ⟨rfl, rfl⟩
          | some u => exact Or.inr ⟨u, u, rfl, rfl, Or.inl rfl⟩
        · unfold follow
          rcases step_part (g2 _ _ huv).2 (noNull_self hn) s with ⟨e1, e2⟩ | ⟨u', v', e1, e2, e3⟩
          · rw [e1, e2]; exact Or.inl ⟨rfl, rfl⟩
          · rw [e1, e2]
            exact ih u' v' e3 (noNull_part hn e1)
    rcases main p a b (Or.inr g1) hn with h | ⟨u, v, e1, e2, e3⟩
    · exact Or.inl h
    · refine Or.inr ⟨u, v, e1, e2, ?_⟩
      rcases e3 with e3 | e3
      · exact Or.inl e3
      · exact Or.inr (step_castShape (g2 _ _ e3).2 (hn p u e1))

end Verif.Graph
