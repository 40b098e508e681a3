import Verif.MergeProps
import Verif.RegistryEntry

/-!
Merges without any agreement between the registries (property C29): whatever the outcome, the existing types are left as they are
(but for the size of containers), and a merge only succeeds if the types that both registries know by the same name have the same
definition.
-/

namespace Verif.Merge
open Verif Verif.Names Verif.Graph Verif.Registry Verif.TypeBuilder

set_option linter.unusedSimpArgs false
set_option linter.unusedVariables false

/-! ### Specification -/

/-- The types without the sizes of containers: these are given by the library, not by the definition. -/
def ignoreContainerSizes (H : Heap) : Heap :=
  ⟨H.next, fun t => match (H.get t).kind with
    | .vec _ => { H.get t with size := 0 }
    | .str _ => { H.get t with size := 0 }
    | _ => H.get t⟩

/-- the registries are made of different type objects -/
def NoShare (H : Heap) (R src : Reg) : Prop := ∀ u t, Regd H src u → Regd H R t → ¬ DepStar H t u

/-! ### Which types a comparison puts on the stack -/

/-- pairs of `A` and `B` are added only -/
def Keys (A B : TId → Prop) (st : Stack) (x : Bool × Stack) : Prop :=
  ∀ a b, x.2.lookup a = some b → st.lookup a = some b ∨ (A a ∧ B b)

theorem Keys.refl {A B : TId → Prop} (st : Stack) (b : Bool) : Keys A B st (b, st) := fun _ _ h => .inl h

def DoKeys (A B : TId → Prop) (doC : DoC) : Prop :=
  ∀ eq l r st x, A l → B r → doC eq l r st = .ok x → Keys A B st x

theorem recCompare_keys {A B : TId → Prop} {doC : DoC} (hd : DoKeys A B doC) {eq : Bool} {l r : TId} {st : Stack}
    {x : Bool × Stack} (hl : A l) (hr : B r) (h : recCompare doC eq l r st = .ok x) : Keys A B st x := by
  unfold recCompare at h
  split at h
  · cases h; exact .refl _ _
  · split at h
    · cases h; exact .refl _ _
    · intro a b hab
      rcases hd _ _ _ _ _ hl hr h a b hab with e | e
      · by_cases ha : a = l
        · subst ha
          rw [lookup_cons_self] at e
          cases e
          exact .inr ⟨hl, hr⟩
        · rw [lookup_cons_ne r st ha] at e; exact .inl e
      · exact .inr e

theorem fieldsCompare_keys {A B : TId → Prop} {doC : DoC} (hd : DoKeys A B doC) {eq : Bool} : ∀ {fs fs' : List FieldD} {st : Stack}
    {x : Bool × Stack}, (∀ f ∈ fs, A f.ty) → (∀ f ∈ fs', B f.ty) → fieldsCompare doC eq fs fs' st = .ok x → Keys A B st x := by
  intro fs
  induction fs with
  | nil => intro fs' st x _ _ h; unfold fieldsCompare at h; cases h; exact .refl _ _
  | cons f fs ih =>
    intro fs' st x h1 h2 h
    cases fs' with
    | nil => unfold fieldsCompare at h; cases h
    | cons g gs =>
      unfold fieldsCompare at h
      split at h
      · cases h; exact .refl _ _
      · obtain ⟨y, hy, hx⟩ := Res.bind_eq_ok.mp h
        have k1 := recCompare_keys hd (h1 f (by simp)) (h2 g (by simp)) hy
        split at hx
        · have k2 := ih (fun a ha => h1 a (by simp [ha])) (fun a ha => h2 a (by simp [ha])) hx
          intro a b hab
          rcases k2 a b hab with e | e
          · exact k1 a b e
          · exact .inr e
        · cases hx
          exact k1

theorem doCompare_keys {H : Heap} {A B : TId → Prop} (hA : ∀ t d, A t → d ∈ H.deps t → A d)
    (hB : ∀ t d, B t → d ∈ H.deps t → B d) : ∀ f, DoKeys A B (doCompare H f) := by
  intro f
  induction f with
  | zero => intro eq l r st x _ _ h; cases h
  | succ f ih =>
    intro eq l r st x hl hr h
    have eA : ∀ e, (H.kind l).elem? = some e → A e := fun e he => hA l e hl (kind_deps_elem he)
    have eB : ∀ e, (H.kind r).elem? = some e → B e := fun e he => hB r e hr (kind_deps_elem he)
    unfold doCompare at h
    simp only at h
    cases hkl : H.kind l with
    | null => rw [hkl] at h; cases h; exact .refl _ _
    | «opaque» => rw [hkl] at h; cases h; exact .refl _ _
    | num c =>
      rw [hkl] at h
      simp only at h
      split at h
      · split at h
        · cases h; exact .refl _ _
        · cases h
      · cases h; exact .refl _ _
    | enum c =>
      rw [hkl] at h
      simp only at h
      split at h
      · split at h
        · cases h; exact .refl _ _
        · cases h
      · cases h; exact .refl _ _
    | arr d e =>
      rw [hkl] at h
      simp only at h
      split at h
      · split at h
        · rename_i d' e' hkr
          split at h
          · exact recCompare_keys ih (eA e (by rw [hkl]; rfl)) (eB e' (by rw [hkr]; rfl)) h
          · cases h; exact .refl _ _
        · cases h
      · cases h; exact .refl _ _
    | ptr e =>
      rw [hkl] at h
      simp only at h
      split at h
      · split at h
        · rename_i e' hkr
          exact recCompare_keys ih (eA e (by rw [hkl]; rfl)) (eB e' hkr) h
        · cases h
      · cases h; exact .refl _ _
    | vec e =>
      rw [hkl] at h
      simp only at h
      split at h
      · split at h
        · rename_i e' hkr
          exact recCompare_keys ih (eA e (by rw [hkl]; rfl)) (eB e' (by rw [hkr]; rfl)) h
        · cases h; exact .refl _ _
        · cases h
      · cases h; exact .refl _ _
    | str e =>
      rw [hkl] at h
      simp only at h
      split at h
      · split at h
        · rename_i e' hkr
          exact recCompare_keys ih (eA e (by rw [hkl]; rfl)) (eB e' (by rw [hkr]; rfl)) h
        · cases h; exact .refl _ _
        · cases h
      · cases h; exact .refl _ _
    | comp fs =>
      rw [hkl] at h
      simp only at h
      split at h
      · cases h; exact .refl _ _
      · split at h
        · cases h; exact .refl _ _
        · split at h
          · rename_i fs' hkr
            split at h
            · cases h; exact .refl _ _
            · refine fieldsCompare_keys ih ?_ ?_ h
              · intro g hg
                exact hA l g.ty hl (by unfold Heap.deps; rw [hkl]; exact kind_deps_field hg)
              · intro g hg
                exact hB r g.ty hr (by unfold Heap.deps; rw [hkr]; exact kind_deps_field hg)
          · cases h

/-! ### The invariant -/

/-- what a merge starts from -/
structure Start (key : Char → Int) (H0 : Heap) (R0 : Reg) (S : TId → Prop) : Prop where
  keys : ∀ a b, key a = key b → a = b
  inv : Inv key H0 R0
  ac : Acyclic H0
  wf : WF H0
  alloc : ∀ u, S u → u < H0.next
  deps : ∀ u d, S u → d ∈ H0.deps u → S d
  abs : ∀ u, S u → isAbsoluteName (H0.name u) = true
  share : ∀ u t, S u → R0.regd H0 t → ¬ DepStar H0 t u

/-- the parts of the types of the destination -/
def Parts (H0 : Heap) (R0 : Reg) (t : TId) : Prop := ∃ r, R0.regd H0 r ∧ DepStar H0 r t

/-- parts of the types of the destination, and new types -/
def DstPart (H0 : Heap) (R0 : Reg) (t : TId) : Prop := H0.next ≤ t ∨ Parts H0 R0 t

def isCont : Kind → Bool
  | .vec _ => true
  | .str _ => true
  | _ => false

/-- the state of the types and of the tables -/
structure Base (key : Char → Int) (H0 : Heap) (R0 : Reg) (s : MSt) : Prop where
  inv : Inv key s.H s.R
  ac : Acyclic s.H
  wf : WF s.H
  next : H0.next ≤ s.H.next
  name : ∀ t, t < H0.next → s.H.name t = H0.name t
  kind : ∀ t, t < H0.next → s.H.kind t = H0.kind t
  size : ∀ t, t < H0.next → isCont (H0.kind t) = false → s.H.size t = H0.size t
  ext : ∀ n t, R0.reg n = some t → s.R.reg n = some t
  closed : ∀ t d, t < s.H.next → DstPart H0 R0 t → d ∈ s.H.deps t → DstPart H0 R0 d
  tab : ∀ n t, s.R.reg n = some t → DstPart H0 R0 t

/-- what is known of a type that was copied, or found in the destination -/
def Fine (H0 : Heap) (R0 : Reg) (u v : TId) : Prop :=
  ∀ old, R0.reg (H0.name u) = some old →
    v = old ∧ (NoNull (ignoreContainerSizes H0) old → SameDefinition (ignoreContainerSizes H0) old u)

structure Good (H0 : Heap) (R0 : Reg) (H : Heap) (u v : TId) : Prop where
  own : DstPart H0 R0 v
  lt : v < H.next
  abs : isAbsoluteName (H.name v) = true
  fine : Fine H0 R0 u v

/-- the stack -/
structure Stk (H0 : Heap) (R0 : Reg) (S : TId → Prop) (s : MSt) : Prop where
  src : ∀ k v, S k → s.st.lookup k = some v → Good H0 R0 s.H k v
  dst : ∀ k r, Parts H0 R0 k → s.st.lookup k = some r → S r ∧ Step (ignoreContainerSizes H0) true (Rel s.st) k r

variable {key : Char → Int} {H0 : Heap} {R0 : Reg} {S : TId → Prop}

theorem depStar_lt {H : Heap} (hwf : WF H) {t u : TId} (ht : t < H.next) (h : DepStar H t u) : u < H.next := by
  induction h with
  | refl => exact ht
  | step _ hd ih => exact hwf.deps _ _ ih hd

theorem Start.parts_lt (h : Start key H0 R0 S) {t : TId} (ht : Parts H0 R0 t) : t < H0.next := by
  obtain ⟨r, h1, h2⟩ := ht
  exact depStar_lt h.wf (h.inv.reg_name h1).2.2.2 h2

theorem Start.not_own (h : Start key H0 R0 S) {u : TId} (hu : S u) : ¬ DstPart H0 R0 u := by
  rintro (e | ⟨r, h1, h2⟩)
  · exact absurd (h.alloc u hu) (Nat.not_lt.mpr e)
  · exact h.share u r hu h1 h2

theorem ics_kind (H : Heap) (t : TId) : (ignoreContainerSizes H).kind t = H.kind t := by
  show (match (H.get t).kind with
    | .vec _ => { H.get t with size := 0 } | .str _ => { H.get t with size := 0 } | _ => H.get t : TypeDef).kind = (H.get t).kind
  split <;> rfl

theorem ics_name (H : Heap) (t : TId) : (ignoreContainerSizes H).name t = H.name t := by
  show (match (H.get t).kind with
    | .vec _ => { H.get t with size := 0 } | .str _ => { H.get t with size := 0 } | _ => H.get t : TypeDef).name = (H.get t).name
  split <;> rfl

theorem ics_size (H : Heap) (t : TId) : (ignoreContainerSizes H).size t = if isCont (H.kind t) then 0 else H.size t := by
  show (match (H.get t).kind with
    | .vec _ => { H.get t with size := 0 } | .str _ => { H.get t with size := 0 } | _ => H.get t : TypeDef).size = _
  have hk : H.kind t = (H.get t).kind := rfl
  rw [hk]
  cases (H.get t).kind <;> rfl

/-- agreement in the current heap is agreement in the first one, up to the sizes of containers -/
theorem Base.step {s : MSt} (hb : Base key H0 R0 s) {R : TId → TId → Prop} {l r : TId} (hl : l < H0.next) (hr : r < H0.next)
    (h : Step s.H true R l r) : Step (ignoreContainerSizes H0) true R l r := by
  have kl := hb.kind l hl
  have kr := hb.kind r hr
  have nl := hb.name l hl
  have nr := hb.name r hr
  have sl := hb.size l hl
  have sr := hb.size r hr
  unfold Step at h ⊢
  rw [kl, kr, nl, nr] at h
  rw [ics_kind, ics_kind, ics_name, ics_name, ics_size, ics_size]
  cases hk : H0.kind l <;> cases hk' : H0.kind r <;> rw [hk, hk'] at h <;> rw [hk] at sl <;> rw [hk'] at sr <;>
    simp only [isCont, if_true, Bool.false_eq_true, if_false, forall_const] at h sl sr ⊢ <;> try exact h
  all_goals first
    | (rw [sl, sr] at h; exact h)
    | exact ⟨trivial, h.2⟩

theorem _root_.Verif.Graph.Step.mono_deps {H : Heap} {eq : Bool} {R R' : TId → TId → Prop} {l r : TId}
    (h : ∀ x y, x ∈ H.deps l → R x y → R' x y) (hs : Step H eq R l r) : Step H eq R' l r := by
  unfold Heap.deps at h
  unfold Step at hs ⊢
  cases hl : H.kind l <;> cases hr : H.kind r <;> rw [hl, hr] at hs <;> rw [hl] at h <;> simp only at hs ⊢ <;> try exact hs
  · exact ⟨hs.1, hs.2.1, h _ _ (by simp [Kind.deps, Kind.elem?]) hs.2.2⟩
  · exact ⟨hs.1, h _ _ (by simp [Kind.deps, Kind.elem?]) hs.2⟩
  · exact ⟨hs.1, h _ _ (by simp [Kind.deps, Kind.elem?]) hs.2⟩
  · exact ⟨hs.1, h _ _ (by simp [Kind.deps, Kind.elem?]) hs.2⟩
  · refine ⟨hs.1, hs.2.1, fun i a b ha hb => ?_⟩
    obtain ⟨h1, h2, h3⟩ := hs.2.2 i a b ha hb
    exact ⟨h1, h2, h _ _ (kind_deps_field (List.mem_of_getElem? ha)) h3⟩

theorem ics_deps (H : Heap) (t : TId) : (ignoreContainerSizes H).deps t = H.deps t := by
  unfold Heap.deps
  rw [ics_kind]

theorem parts_deps {t d : TId} (h : Parts H0 R0 t) (hd : d ∈ H0.deps t) : Parts H0 R0 d := by
  obtain ⟨r, h1, h2⟩ := h
  exact ⟨r, h1, .step h2 hd⟩

theorem parts_regd {t : TId} (h : R0.regd H0 t) : Parts H0 R0 t := ⟨t, h, .refl⟩

/-- a comparison that succeeds -/
theorem compare_same {M : Stack} {old u : TId} (ho : Parts H0 R0 old)
    (hd : ∀ k r, Parts H0 R0 k → M.lookup k = some r → Step (ignoreContainerSizes H0) true (Rel M) k r)
    (hs : Step (ignoreContainerSizes H0) true (Rel M) old u) (hn : NoNull (ignoreContainerSizes H0) old) :
    SameDefinition (ignoreContainerSizes H0) old u := by
  let Q : TId → TId → Prop := fun a b => (Parts H0 R0 a ∧ M.lookup a = some b) ∨ (a = old ∧ b = u)
  have hstep : ∀ a b, Parts H0 R0 a → Step (ignoreContainerSizes H0) true (Rel M) a b →
      Step (ignoreContainerSizes H0) true (fun x y => x = y ∨ Q x y) a b := by
    intro a b ha h
    refine h.mono_deps ?_
    intro x y hx hxy
    rw [ics_deps] at hx
    rcases hxy with e | e
    · exact .inl e
    · exact .inr (.inl ⟨parts_deps ha hx, e⟩)
  have hm : ∀ a b, Q a b → Step (ignoreContainerSizes H0) true (fun x y => x = y ∨ Q x y) a b := by
    rintro a b (⟨h1, h2⟩ | ⟨rfl, rfl⟩)
    · exact hstep a b h1 (hd a b h1 h2)
    · exact hstep _ _ ho hs
  intro p
  rcases matching_follow hm p old u (.inr (.inr ⟨rfl, rfl⟩)) hn with ⟨e1, e2⟩ | ⟨x, y, e1, e2, e3⟩
  · rw [e1, e2]
  · rw [e1, e2]
    simp only [Option.map_some, Option.some.injEq]
    rcases e3 with rfl | e3
    · rfl
    · exact step_shape (hm _ _ e3) (hn p x e1)

theorem Base.deps {s : MSt} (hb : Base key H0 R0 s) {t : TId} (ht : t < H0.next) : s.H.deps t = H0.deps t := by
  unfold Heap.deps
  rw [hb.kind t ht]

theorem tryMerge_fine (h0 : Start key H0 R0 S) {s : MSt} (hb : Base key H0 R0 s) (hs : Stk H0 R0 S s) {u : TId} (hu : S u) :
    (tryMerge s u).1.H = s.H ∧ (tryMerge s u).1.R = s.R ∧
    (∀ v, (tryMerge s u).2 = .ok (some v) → Stk H0 R0 S (tryMerge s u).1 ∧ Good H0 R0 s.H u v) ∧
    ((tryMerge s u).2 = .ok none → (tryMerge s u).1 = s ∧ R0.reg (H0.name u) = none) := by
  have hu0 := h0.alloc u hu
  have hul : u < s.H.next := Nat.lt_of_lt_of_le hu0 hb.next
  unfold tryMerge
  cases hl : s.st.lookup u with
  | some v =>
    refine ⟨rfl, rfl, fun w hw => ?_, fun h => (by cases h)⟩
    cases hw
    exact ⟨hs, hs.src u v hu hl⟩
  | none =>
    dsimp only
    have hget : s.R.get (s.H.name u) = s.R.reg (H0.name u) := by
      rw [hb.name u hu0, hb.inv.abs _ (h0.abs u hu)]
    rw [hget]
    cases hr : s.R.reg (H0.name u) with
    | none =>
      refine ⟨rfl, rfl, fun w hw => (by cases hw), fun _ => ⟨rfl, ?_⟩⟩
      cases he : R0.reg (H0.name u) with
      | none => rfl
      | some t => rw [hb.ext _ t he] at hr; cases hr
    | some old =>
      dsimp only
      obtain ⟨hv, ha, hreg, holt⟩ := hb.inv.reg_name hr
      have hown := hb.tab _ _ hr
      obtain ⟨x, h1, h2, h3⟩ := doCompare_spec s.H hb.wf (s.H.next + 1) true old u s.st holt hul
        (Nat.lt_succ_of_le (freeKeys_le _ _))
      have hk : Keys (fun t => t < s.H.next ∧ DstPart H0 R0 t) S s.st x :=
        doCompare_keys (H := s.H) (fun t d ht hd => ⟨hb.wf.deps t d ht.1 hd, hb.closed t d ht.1 ht.2 hd⟩)
          (fun t d ht hd => h0.deps t d ht (by rw [← hb.deps (h0.alloc t ht)]; exact hd))
          _ _ _ _ _ _ ⟨holt, hown⟩ hu h1
      rw [h1]
      obtain ⟨b, st'⟩ := x
      cases b with
      | false => exact ⟨rfl, rfl, fun w hw => (by cases hw), fun h => (by cases h)⟩
      | true =>
        dsimp only
        refine ⟨rfl, rfl, fun w hw => ?_, fun h => (by cases h)⟩
        cases hw
        have hext := h2.ext
        have hnew := h2.new rfl
        have hstep := h3 rfl
        simp only at hext hnew hstep
        have hul' : st'.lookup u = none := by
          cases he : st'.lookup u with
          | none => rfl
          | some w =>
            rcases hk u w he with e | ⟨⟨_, e⟩, _⟩
            · rw [hl] at e; cases e
            · exact absurd e (h0.not_own hu)
        have hrel : ∀ a b, Rel st' a b → Rel (sins st' u old) a b := by
          refine rel_mono ?_
          intro a b hab
          rw [lookup_sins, if_neg (by rintro rfl; rw [hul'] at hab; cases hab)]
          exact hab
        have hdst : ∀ k r, Parts H0 R0 k → st'.lookup k = some r → S r ∧ Step (ignoreContainerSizes H0) true (Rel st') k r := by
          intro k r hk' hkr
          rcases hnew k r hkr with e | ⟨_, e⟩
          · obtain ⟨e1, e2⟩ := hs.dst k r hk' e
            exact ⟨e1, e2.mono (rel_mono hext)⟩
          · have hSr : S r := by
              rcases hk k r hkr with e' | ⟨_, e'⟩
              · exact (hs.dst k r hk' e').1
              · exact e'
            exact ⟨hSr, hb.step (h0.parts_lt hk') (h0.alloc r hSr) e⟩
        have hgood : Good H0 R0 s.H u old := by
          refine ⟨hown, holt, (hb.inv.reg_name hreg).2.1, ?_⟩
          intro old' ho'
          have := hb.ext _ _ ho'
          rw [hr] at this
          cases this
          have hp : Parts H0 R0 old := parts_regd (h0.inv.reg_name ho').2.2.1
          exact ⟨rfl, compare_same hp (fun k r h1 h2 => (hdst k r h1 h2).2) (hb.step (h0.parts_lt hp) hu0 hstep)⟩
        refine ⟨⟨?_, ?_⟩, hgood⟩
        · intro k v hk' hkv
          dsimp only at hkv
          rw [lookup_sins, hul'] at hkv
          split at hkv
          · rename_i e
            subst e
            cases hkv
            exact hgood
          · rcases hk k v hkv with e | ⟨⟨_, e⟩, _⟩
            · exact hs.src k v hk' e
            · exact absurd e (h0.not_own hk')
        · intro k r hk' hkr
          dsimp only at hkr ⊢
          rw [lookup_sins] at hkr
          split at hkr
          · rename_i e
            subst e
            exact absurd (.inr hk') (h0.not_own hu)
          · obtain ⟨e1, e2⟩ := hdst k r hk' hkr
            exact ⟨e1, e2.mono hrel⟩

/-! ### Changes of the types -/

/-- types are only added and keep their names -/
structure Ext (s s' : MSt) : Prop where
  next : s.H.next ≤ s'.H.next
  name : ∀ t, t < s.H.next → s'.H.name t = s.H.name t

theorem Ext.refl (s : MSt) : Ext s s := ⟨Nat.le_refl _, fun _ _ => rfl⟩

theorem Ext.trans {a b c : MSt} (h : Ext a b) (h' : Ext b c) : Ext a c :=
  ⟨Nat.le_trans h.next h'.next, fun t ht => (h'.name t (Nat.lt_of_lt_of_le ht h.next)).trans (h.name t ht)⟩

theorem Ext.of_eq {a b : MSt} (h : b.H = a.H) : Ext a b := ⟨by rw [h]; exact Nat.le_refl _, fun t _ => by rw [h]⟩

theorem Good.ext {s s' : MSt} (h : Ext s s') {u v : TId} (g : Good H0 R0 s.H u v) : Good H0 R0 s'.H u v :=
  ⟨g.own, Nat.lt_of_lt_of_le g.lt h.next, by rw [h.name v g.lt]; exact g.abs, g.fine⟩

theorem Stk.ext {s s' : MSt} (h : Ext s s') (hst : s'.st = s.st) (g : Stk H0 R0 S s) : Stk H0 R0 S s' := by
  refine ⟨fun k v hk hv => ?_, fun k r hk hr => ?_⟩
  · rw [hst] at hv; exact (g.src k v hk hv).ext h
  · rw [hst] at hr ⊢; exact g.dst k r hk hr

theorem Base.heap {s : MSt} (hb : Base key H0 R0 s) {H' : Heap} (he : Ext s { s with H := H' })
    (hkind : ∀ t, t < H0.next → H'.kind t = s.H.kind t)
    (hsize : ∀ t, t < H0.next → isCont (s.H.kind t) = false → H'.size t = s.H.size t) (hac : Acyclic H') (hwf : WF H')
    (hcl : ∀ t d, t < H'.next → DstPart H0 R0 t → d ∈ H'.deps t → DstPart H0 R0 d) : Base key H0 R0 { s with H := H' } := by
  refine ⟨hb.inv.heap he.next (fun t ht _ => he.name t ht), hac, hwf, Nat.le_trans hb.next he.next, ?_, ?_, ?_, hb.ext, hcl, hb.tab⟩
  · intro t ht
    rw [he.name t (Nat.lt_of_lt_of_le ht hb.next)]
    exact hb.name t ht
  · intro t ht
    exact (hkind t ht).trans (hb.kind t ht)
  · intro t ht hc
    exact (hsize t ht (by rw [hb.kind t ht]; exact hc)).trans (hb.size t ht hc)

theorem ext_new (s : MSt) (d : TypeDef) : Ext s (s.new d) :=
  ⟨Nat.le_succ _, fun t ht => by show ((s.H.alloc d).get t).name = _; rw [alloc_get_old _ _ ht]; rfl⟩

theorem Base.new {s : MSt} (hb : Base key H0 R0 s) {d : TypeDef} (hd : ∀ x ∈ d.kind.deps, x < s.H.next ∧ DstPart H0 R0 x)
    (hsy : ∀ l, d.kind = .enum l → (l.map (·.1)).Nodup) : Base key H0 R0 (s.new d) := by
  have hg : ∀ t, t < H0.next → (s.H.alloc d).get t = s.H.get t := fun t ht =>
    alloc_get_old _ _ (Nat.lt_of_lt_of_le ht hb.next)
  refine hb.heap (ext_new s d) ?_ ?_ (acyclic_alloc hb.ac fun x hx => (hd x (elem_mem_deps hx)).1)
    (wf_alloc hb.wf (fun x hx => (hd x hx).1) hsy) ?_
  · intro t ht
    unfold Heap.kind
    rw [hg t ht]
  · intro t ht _
    unfold Heap.size
    rw [hg t ht]
  · intro t x ht ho hx
    by_cases e : t = s.H.next
    · subst e
      unfold Heap.deps Heap.kind at hx
      rw [alloc_get_new] at hx
      exact (hd x hx).2
    · have ht' : t < s.H.next := Nat.lt_of_le_of_ne (Nat.le_of_lt_succ ht) e
      unfold Heap.deps Heap.kind at hx
      rw [alloc_get_old _ _ ht'] at hx
      exact hb.closed t x ht' ho hx

theorem ext_set (s : MSt) (t : TId) (d : TypeDef) (hn : d.name = s.H.name t) : Ext s (s.set t d) := by
  refine ⟨Nat.le_refl _, fun u _ => ?_⟩
  show (if u = t then d else s.H.get u).name = (s.H.get u).name
  split
  · rename_i e; rw [hn, e]; rfl
  · rfl

theorem Base.set {s : MSt} (hb : Base key H0 R0 s) {p : TId} {d : TypeDef} (hp : H0.next ≤ p ∨ isCont (s.H.kind p) = true)
    (hn : d.name = s.H.name p)
    (hkind : d.kind = s.H.kind p ∨ (H0.next ≤ p ∧ ∃ gs, d.kind = .comp gs ∧ ∀ g ∈ gs, g.ty < s.H.next ∧ DstPart H0 R0 g.ty)) :
    Base key H0 R0 (s.set p d) := by
  have hg : ∀ t, (s.set p d).H.get t = if t = p then d else s.H.get t := fun _ => rfl
  have hk : ∀ t, (s.set p d).H.kind t = if t = p then d.kind else s.H.kind t := by
    intro t
    show ((s.set p d).H.get t).kind = _
    rw [hg]
    split <;> rfl
  refine Base.heap (H' := (s.set p d).H) hb (ext_set s p d hn) ?_ ?_ ?_ ⟨?_, ?_⟩ ?_
  · intro t ht
    rw [hk]
    split
    · rename_i e
      subst e
      rcases hkind with e | ⟨e, _⟩
      · exact e
      · exact absurd ht (Nat.not_lt.mpr e)
    · rfl
  · intro t ht hc
    show ((s.set p d).H.get t).size = _
    rw [hg]
    split
    · rename_i e
      subst e
      rcases hp with e | e
      · exact absurd ht (Nat.not_lt.mpr e)
      · rw [e] at hc; cases hc
    · rfl
  · intro t x hx
    rw [hk] at hx
    split at hx
    · rename_i e
      subst e
      rcases hkind with e | ⟨_, gs, e, _⟩
      · rw [e] at hx; exact hb.ac _ _ hx
      · rw [e] at hx; cases hx
    · exact hb.ac t x hx
  · intro t x ht hx
    unfold Heap.deps at hx
    rw [hk] at hx
    split at hx
    · rename_i e
      subst e
      rcases hkind with e | ⟨_, gs, e, h⟩
      · rw [e] at hx; exact hb.wf.deps _ _ ht hx
      · rw [e] at hx
        obtain ⟨g, hg, rfl⟩ := List.mem_map.mp hx
        exact (h g hg).1
    · exact hb.wf.deps t x ht hx
  · intro t l hl
    rw [hk] at hl
    split at hl
    · rename_i e
      subst e
      rcases hkind with e | ⟨_, gs, e, h⟩
      · rw [e] at hl; exact hb.wf.syms _ _ hl
      · rw [e] at hl; cases hl
    · exact hb.wf.syms t l hl
  · intro t x ht ho hx
    unfold Heap.deps at hx
    rw [hk] at hx
    split at hx
    · rename_i e
      subst e
      rcases hkind with e | ⟨_, gs, e, h⟩
      · rw [e] at hx; exact hb.closed _ _ ht ho hx
      · rw [e] at hx
        obtain ⟨g, hg, rfl⟩ := List.mem_map.mp hx
        exact (h g hg).2
    · exact hb.closed t x ht ho hx

theorem Base.st {s : MSt} (hb : Base key H0 R0 s) (st : Stack) : Base key H0 R0 { s with st := st } :=
  ⟨hb.inv, hb.ac, hb.wf, hb.next, hb.name, hb.kind, hb.size, hb.ext, hb.closed, hb.tab⟩

theorem Base.setSize {s : MSt} (hb : Base key H0 R0 s) {p : TId} (hp : H0.next ≤ p ∨ isCont (s.H.kind p) = true) (n : Nat) :
    Base key H0 R0 (s.setSize p n) := hb.set hp rfl (.inl rfl)

theorem Base.addField {s : MSt} (hb : Base key H0 R0 s) {p t : TId} (hp : H0.next ≤ p) (hpl : p < s.H.next) (ht : t < s.H.next)
    (ho : DstPart H0 R0 t) (n : Str) (o : Nat) : Base key H0 R0 (s.addField p n t o) ∧ Ext s (s.addField p n t o) ∧
      (s.addField p n t o).st = s.st := by
  unfold MSt.addField
  cases hk : s.H.kind p with
  | comp gs =>
    dsimp only
    refine ⟨hb.set (.inl hp) rfl (.inr ⟨hp, _, rfl, ?_⟩), ext_set _ _ _ rfl, rfl⟩
    intro g hg
    rcases List.mem_append.mp hg with e | e
    · have hm : g.ty ∈ s.H.deps p := by unfold Heap.deps; rw [hk]; exact kind_deps_field e
      exact ⟨hb.wf.deps p g.ty hpl hm, hb.closed p g.ty hpl (.inl hp) hm⟩
    · rw [List.mem_singleton] at e
      rw [e]
      exact ⟨ht, ho⟩
  | _ => exact ⟨hb, .refl s, rfl⟩

theorem Base.addAuto {s : MSt} (h0 : Start key H0 R0 S) (hb : Base key H0 R0 s) {t : TId} (ht : t < s.H.next) (ho : DstPart H0 R0 t)
    (ha : isAbsoluteName (s.H.name t) = true) (src : Str) :
    Base key H0 R0 { s with R := (Registry.addAuto key s.H s.R t src).1 } := by
  obtain ⟨⟨h1, h2, h3, h4, h5⟩, _⟩ := add_spec h0.keys hb.ac hb.inv t ht ha (isPersistent s.H (s.H.name t) t) src
  refine ⟨h1, hb.ac, hb.wf, hb.next, hb.name, hb.kind, hb.size, fun n u h => h3 n u (hb.ext n u h), hb.closed, ?_⟩
  intro n u hu
  cases hr : s.R.reg n with
  | some w =>
    have := h3 n w hr
    rw [show (Registry.addAuto key s.H s.R t src).1.reg n = some w from this] at hu
    cases hu
    exact hb.tab n _ hr
  | none =>
    rcases h5 n u ⟨hr, hu⟩ with e | e
    · rw [e]; exact ho
    · exact hb.tab _ _ e

theorem Stk.sins {s : MSt} (h0 : Start key H0 R0 S) (h : Stk H0 R0 S s) {u v : TId} (hu : S u) (g : Good H0 R0 s.H u v) :
    Stk H0 R0 S { s with st := Merge.sins s.st u v } := by
  refine ⟨?_, ?_⟩
  · intro k w hk hw
    dsimp only at hw
    rw [lookup_sins] at hw
    split at hw
    · rename_i e
      subst e
      cases hl : s.st.lookup k with
      | none => rw [hl] at hw; cases hw; exact g
      | some x => rw [hl] at hw; cases hw; exact h.src k _ hk hl
    · exact h.src k w hk hw
  · intro k r hk hr
    have hne : k ≠ u := by rintro rfl; exact h0.not_own hu (.inr hk)
    dsimp only at hr ⊢
    rw [lookup_sins, if_neg hne] at hr
    obtain ⟨e1, e2⟩ := h.dst k r hk hr
    refine ⟨e1, e2.mono (rel_mono fun a b hab => ?_)⟩
    rw [lookup_sins]
    split
    · rename_i e; rw [← e, hab]; rfl
    · exact hab

/-! ### The functions -/

/-- what each function guarantees -/
def Out (key : Char → Int) (H0 : Heap) (R0 : Reg) (S : TId → Prop) (s : MSt) (u : TId) (x : MSt × Res TId) : Prop :=
  Ext s x.1 ∧ Base key H0 R0 x.1 ∧ ∀ v, x.2 = .ok v → Stk H0 R0 S x.1 ∧ Good H0 R0 x.1.H u v

/-- the same for a type that is looked up or created under a name of its own -/
def Found (key : Char → Int) (H0 : Heap) (R0 : Reg) (S : TId → Prop) (s : MSt) (x : MSt × Res TId) : Prop :=
  Ext s x.1 ∧ Base key H0 R0 x.1 ∧ x.1.st = s.st ∧ ∀ v, x.2 = .ok v → DstPart H0 R0 v ∧ v < x.1.H.next ∧
    isAbsoluteName (x.1.H.name v) = true

theorem abs_vecName (n : Str) : isAbsoluteName (vecName n) = true := rfl

theorem cat_container {k : Kind} (h : k.cat = .container) : isCont k = true := by
  cases k <;> first | rfl | (simp [Kind.cat] at h)

theorem hasM_state (s : MSt) (n : Str) : (hasM s n).1 = s := rfl

/-- a new type, registered at once -/
theorem made_found (h0 : Start key H0 R0 S) {s : MSt} (hb : Base key H0 R0 s) {d : TypeDef}
    (hd : ∀ x ∈ d.kind.deps, x < s.H.next ∧ DstPart H0 R0 x) (hsy : ∀ l, d.kind = .enum l → (l.map (·.1)).Nodup)
    (ha : isAbsoluteName d.name = true) :
    Found key H0 R0 S s (andThen (onReg (s.new d) (addAuto key (s.new d).H (s.new d).R s.H.next [])) fun s2 _ => (s2, .ok s.H.next)) ∧
    ∀ v, (andThen (onReg (s.new d) (addAuto key (s.new d).H (s.new d).R s.H.next [])) fun s2 _ => (s2, .ok s.H.next)).2 = .ok v →
      H0.next ≤ v := by
  have hlt : s.H.next < (s.new d).H.next := Nat.lt_succ_self _
  have hnm : (s.new d).H.name s.H.next = d.name := by
    show ((s.H.alloc d).get s.H.next).name = _
    rw [alloc_get_new]
  have hb2 := Base.addAuto h0 (hb.new hd hsy) hlt (.inl hb.next) (by rw [hnm]; exact ha) []
  generalize addAuto key (s.new d).H (s.new d).R s.H.next [] = x at hb2
  obtain ⟨R', r⟩ := x
  have he : Ext s { s.new d with R := R' } := (ext_new s d).trans (.of_eq rfl)
  cases r with
  | ok v =>
    refine ⟨⟨he, hb2, rfl, fun w hw => ?_⟩, fun w hw => ?_⟩
    · cases hw
      exact ⟨.inl hb.next, hlt, by show isAbsoluteName ((s.new d).H.name s.H.next) = true; rw [hnm]; exact ha⟩
    · cases hw; exact hb.next
  | exn e => exact ⟨⟨he, hb2, rfl, fun w hw => (by cases hw)⟩, fun w hw => (by cases hw)⟩
  | ub => exact ⟨⟨he, hb2, rfl, fun w hw => (by cases hw)⟩, fun w hw => (by cases hw)⟩
  | fuel => exact ⟨⟨he, hb2, rfl, fun w hw => (by cases hw)⟩, fun w hw => (by cases hw)⟩

theorem found_fail {s : MSt} (hb : Base key H0 R0 s) {r : Res TId} (h : ∀ v, r ≠ .ok v) : Found key H0 R0 S s (s, r) :=
  ⟨.refl s, hb, rfl, fun v hv => absurd hv (h v)⟩

theorem found_get {s : MSt} (hb : Base key H0 R0 s) {n : Str} {t : TId} (h : s.R.get n = some t) :
    Found key H0 R0 S s (s, .ok t) := by
  have hr := hb.inv.get_regd h
  refine ⟨.refl s, hb, rfl, fun v hv => ?_⟩
  cases hv
  exact ⟨hb.tab _ _ hr, (hb.inv.reg_name hr).2.2.2, (hb.inv.reg_name hr).2.1⟩

theorem vectorFactory_found (h0 : Start key H0 R0 S) {s : MSt} (hb : Base key H0 R0 s) {e : TId} (he : e < s.H.next)
    (ho : DstPart H0 R0 e) : Found key H0 R0 S s (vectorFactory key s e) ∧
      ∀ v, (vectorFactory key s e).2 = .ok v → H0.next ≤ v ∨ isCont ((vectorFactory key s e).1.H.kind v) = true := by
  have hno : ∀ r : Res TId, (∀ v, r ≠ .ok v) → Found key H0 R0 S s (s, r) ∧
      ∀ v, ((s, r) : MSt × Res TId).2 = .ok v → H0.next ≤ v ∨ isCont (((s, r) : MSt × Res TId).1.H.kind v) = true :=
    fun r h => ⟨found_fail hb h, fun v hv => absurd hv (h v)⟩
  unfold vectorFactory hasM
  simp only
  cases has s.R (vecName (s.H.name e)) true with
  | ok b =>
    rw [andThen_ok]
    cases b with
    | false =>
      simp only [Bool.not_false, if_true]
      have := made_found (S := S) h0 hb (d := vecDef s.H e) (by
        intro x hx
        simp only [vecDef, Kind.deps, Kind.elem?, Option.toList, List.mem_singleton] at hx
        rw [hx]; exact ⟨he, ho⟩) (by intro l hl; cases hl) rfl
      exact ⟨this.1, fun v hv => .inl (this.2 v hv)⟩
    | true =>
      simp only [Bool.not_true, Bool.false_eq_true, if_false]
      cases hg : s.R.get (vecName (s.H.name e)) with
      | none => exact hno _ (fun v hv => by cases hv)
      | some t =>
        dsimp only
        split
        · rename_i hc
          refine ⟨found_get hb hg, fun v hv => .inr ?_⟩
          cases hv
          exact cat_container hc
        · exact hno _ (fun v hv => by cases hv)
  | exn x => exact hno _ (fun v hv => by cases hv)
  | ub => exact hno _ (fun v hv => by cases hv)
  | fuel => exact hno _ (fun v hv => by cases hv)

theorem stringElement_found (h0 : Start key H0 R0 S) {s : MSt} (hb : Base key H0 R0 s) :
    Found key H0 R0 S s (stringElement key s) := by
  unfold stringElement hasM
  simp only
  cases has s.R int8Name true with
  | ok b =>
    rw [andThen_ok]
    cases b with
    | false =>
      simp only [Bool.not_false, if_true]
      exact (made_found h0 hb (d := ⟨int8Name, 1, .num .sint⟩) (by intro x hx; cases hx) (by intro l hl; cases hl) rfl).1
    | true =>
      simp only [Bool.not_true, Bool.false_eq_true, if_false]
      cases hg : s.R.get int8Name with
      | none => exact found_fail hb (fun v hv => by cases hv)
      | some t => exact found_get hb hg
  | exn x => exact found_fail hb (fun v hv => by cases hv)
  | ub => exact found_fail hb (fun v hv => by cases hv)
  | fuel => exact found_fail hb (fun v hv => by cases hv)

theorem stringFactory_found (h0 : Start key H0 R0 S) {s : MSt} (hb : Base key H0 R0 s) :
    Found key H0 R0 S s (stringFactory key s) ∧
      ∀ v, (stringFactory key s).2 = .ok v → H0.next ≤ v ∨ isCont ((stringFactory key s).1.H.kind v) = true := by
  have hno : ∀ r : Res TId, (∀ v, r ≠ .ok v) → Found key H0 R0 S s (s, r) ∧
      ∀ v, ((s, r) : MSt × Res TId).2 = .ok v → H0.next ≤ v ∨ isCont (((s, r) : MSt × Res TId).1.H.kind v) = true :=
    fun r h => ⟨found_fail hb h, fun v hv => absurd hv (h v)⟩
  unfold stringFactory hasM
  simp only
  cases has s.R stringName true with
  | ok b =>
    rw [andThen_ok]
    cases b with
    | true =>
      simp only [if_true]
      cases hg : s.R.get stringName with
      | none => exact hno _ (fun v hv => by cases hv)
      | some t =>
        dsimp only
        split
        · rename_i hc
          refine ⟨found_get hb hg, fun v hv => .inr ?_⟩
          cases hv
          exact cat_container hc
        · exact hno _ (fun v hv => by cases hv)
    | false =>
      simp only [Bool.false_eq_true, if_false]
      obtain ⟨g1, g2, g3, g4⟩ := stringElement_found (S := S) h0 hb
      generalize stringElement key s = x at g1 g2 g3 g4
      obtain ⟨s1, r⟩ := x
      simp only at g1 g2 g3 g4
      have hno1 : ∀ r : Res TId, (∀ v, r ≠ .ok v) → Found key H0 R0 S s (s1, r) ∧
          ∀ v, ((s1, r) : MSt × Res TId).2 = .ok v → H0.next ≤ v ∨ isCont (((s1, r) : MSt × Res TId).1.H.kind v) = true :=
        fun r h => ⟨⟨g1, g2, g3, fun v hv => absurd hv (h v)⟩, fun v hv => absurd hv (h v)⟩
      cases r with
      | ok e =>
        rw [andThen_ok]
        obtain ⟨e1, e2, _⟩ := g4 e rfl
        have := made_found (S := S) h0 g2 (d := ⟨stringName, 32, .str e⟩) (by
          intro x hx
          simp only [Kind.deps, Kind.elem?, Option.toList, List.mem_singleton] at hx
          rw [hx]; exact ⟨e2, e1⟩) (by intro l hl; cases hl) rfl
        obtain ⟨⟨f1, f2, f3, f4⟩, f5⟩ := this
        exact ⟨⟨g1.trans f1, f2, f3.trans g3, f4⟩, fun v hv => .inl (f5 v hv)⟩
      | exn x => exact hno1 _ (fun v hv => by cases hv)
      | ub => exact hno1 _ (fun v hv => by cases hv)
      | fuel => exact hno1 _ (fun v hv => by cases hv)
  | exn x => exact hno _ (fun v hv => by cases hv)
  | ub => exact hno _ (fun v hv => by cases hv)
  | fuel => exact hno _ (fun v hv => by cases hv)

theorem abs_append {a b : Str} (h : isAbsoluteName a = true) : isAbsoluteName (a ++ b) = true := by
  cases a with
  | nil => cases h
  | cons c a => exact h

/-- the specification of the recursive call -/
def RecOut (key : Char → Int) (H0 : Heap) (R0 : Reg) (S : TId → Prop) (rec : MSt → TId → MSt × Res TId) : Prop :=
  ∀ s u, Base key H0 R0 s → Stk H0 R0 S s → S u → Out key H0 R0 S s u (rec s u)

theorem mergeFields_out {rec : MSt → TId → MSt × Res TId} (hrec : RecOut key H0 R0 S rec) {p : TId} (hp : H0.next ≤ p) :
    ∀ (fs : List FieldD) (s : MSt), (∀ f ∈ fs, S f.ty) → p < s.H.next → Base key H0 R0 s → Stk H0 R0 S s →
      Ext s (mergeFields rec p fs s).1 ∧ Base key H0 R0 (mergeFields rec p fs s).1 ∧
      ((mergeFields rec p fs s).2 = .ok () → Stk H0 R0 S (mergeFields rec p fs s).1) := by
  intro fs
  induction fs with
  | nil => intro s _ _ hb hs; exact ⟨.refl s, hb, fun _ => hs⟩
  | cons f fs ih =>
    intro s hS hpl hb hs
    rw [mergeFields]
    obtain ⟨g1, g2, g3⟩ := hrec s f.ty hb hs (hS f (by simp))
    generalize rec s f.ty = x at g1 g2 g3
    obtain ⟨s1, r⟩ := x
    simp only at g1 g2 g3
    cases r with
    | ok t =>
      rw [andThen_ok]
      obtain ⟨g4, g5⟩ := g3 t rfl
      obtain ⟨a1, a2, a3⟩ := g2.addField hp (Nat.lt_of_lt_of_le hpl g1.next) g5.lt g5.own f.name f.offset
      obtain ⟨i1, i2, i3⟩ := ih (s1.addField p f.name t f.offset) (fun g hg => hS g (by simp [hg]))
        (Nat.lt_of_lt_of_le hpl (g1.trans a2).next) a1 (g4.ext a2 a3)
      exact ⟨(g1.trans a2).trans i1, i2, i3⟩
    | exn e => exact ⟨g1, g2, fun h => (by cases h)⟩
    | ub => exact ⟨g1, g2, fun h => (by cases h)⟩
    | fuel => exact ⟨g1, g2, fun h => (by cases h)⟩

theorem fine_none {u v : TId} (h : R0.reg (H0.name u) = none) : Fine H0 R0 u v := by
  intro old ho
  rw [h] at ho
  cases ho

/-- the new object `d` for the type `u` -/
theorem out_new {s0 s : MSt} {u : TId} {d : TypeDef} (he : Ext s0 s) (hb : Base key H0 R0 s) (hs : Stk H0 R0 S s)
    (hnone : R0.reg (H0.name u) = none) (hd : ∀ x ∈ d.kind.deps, x < s.H.next ∧ DstPart H0 R0 x)
    (hsy : ∀ l, d.kind = .enum l → (l.map (·.1)).Nodup) (ha : isAbsoluteName d.name = true) :
    Out key H0 R0 S s0 u (s.new d, .ok s.H.next) := by
  refine ⟨he.trans (ext_new s d), hb.new hd hsy, fun v hv => ?_⟩
  cases hv
  refine ⟨hs.ext (ext_new s d) rfl, ⟨.inl hb.next, Nat.lt_succ_self _, ?_, fine_none hnone⟩⟩
  show isAbsoluteName ((s.H.alloc d).get s.H.next).name = true
  rw [alloc_get_new]
  exact ha

theorem out_fail {s0 s : MSt} {u : TId} {r : Res TId} (he : Ext s0 s) (hb : Base key H0 R0 s) (h : ∀ v, r ≠ .ok v) :
    Out key H0 R0 S s0 u (s, r) := ⟨he, hb, fun v hv => absurd hv (h v)⟩

theorem out_setSize {s0 s1 : MSt} {u : TId} {x : MSt × Res TId} (n : MSt → Nat) (hnone : R0.reg (H0.name u) = none) (he : Ext s0 s1)
    (hs : Stk H0 R0 S s1) (hf : Found key H0 R0 S s1 x)
    (hc : ∀ v, x.2 = .ok v → H0.next ≤ v ∨ isCont (x.1.H.kind v) = true) :
    Out key H0 R0 S s0 u (andThen x fun s r => (s.setSize r (n s), .ok r)) := by
  obtain ⟨g1, g2, g3, g4⟩ := hf
  obtain ⟨s2, r⟩ := x
  simp only at g1 g2 g3 g4 hc
  cases r with
  | ok v =>
    rw [andThen_ok]
    obtain ⟨e1, e2, e3⟩ := g4 v rfl
    have hx : Ext s2 (s2.setSize v (n s2)) := ext_set _ _ _ rfl
    refine ⟨(he.trans g1).trans hx, g2.setSize (hc v rfl) _, fun w hw => ?_⟩
    cases hw
    have hst : Stk H0 R0 S s2 := hs.ext g1 g3
    refine ⟨hst.ext hx rfl, ⟨e1, e2, ?_, fine_none hnone⟩⟩
    rw [hx.name v e2]
    exact e3
  | exn e => exact out_fail (he.trans g1) g2 (fun v hv => by cases hv)
  | ub => exact out_fail (he.trans g1) g2 (fun v hv => by cases hv)
  | fuel => exact out_fail (he.trans g1) g2 (fun v hv => by cases hv)

theorem eraseOnExn_heap {α : Type} (u : TId) (x : MSt × Res α) : (eraseOnExn u x).1.H = x.1.H ∧ (eraseOnExn u x).1.R = x.1.R ∧
    (eraseOnExn u x).2 = x.2 ∧ (∀ a, x.2 = .ok a → (eraseOnExn u x).1 = x.1) := by
  obtain ⟨s, r⟩ := x
  cases r <;> exact ⟨rfl, rfl, rfl, fun a h => (by first | rfl | cases h)⟩

theorem Base.congr {s s' : MSt} (h : Base key H0 R0 s) (hH : s'.H = s.H) (hR : s'.R = s.R) : Base key H0 R0 s' := by
  obtain ⟨H, R, st⟩ := s
  obtain ⟨H', R', st'⟩ := s'
  simp only at hH hR
  subst hH hR
  exact h.st st'

theorem doMerge_out (h0 : Start key H0 R0 S) {rec : MSt → TId → MSt × Res TId} (hrec : RecOut key H0 R0 S rec) {s : MSt} {u : TId}
    (hb : Base key H0 R0 s) (hs : Stk H0 R0 S s) (hu : S u) (hnone : R0.reg (H0.name u) = none) :
    Out key H0 R0 S s u (doMerge key rec s u) := by
  have hu0 := h0.alloc u hu
  have hkd := hb.kind u hu0
  have habs : isAbsoluteName (s.H.name u) = true := by rw [hb.name u hu0]; exact h0.abs u hu
  have hel : ∀ e, (s.H.kind u).elem? = some e → S e := by
    intro e he
    refine h0.deps u e hu ?_
    unfold Heap.deps
    rw [← hkd]
    exact elem_mem_deps he
  have hcopy : (∀ x, x ∉ (s.H.kind u).deps) → Out key H0 R0 S s u (s.new (s.H.get u), .ok s.H.next) := by
    intro hx
    refine out_new (.refl s) hb hs hnone (fun x h => absurd h (hx x)) ?_ habs
    intro l hl
    exact hb.wf.syms u l hl
  unfold doMerge
  cases hk : s.H.kind u with
  | null => exact hcopy (by rw [hk]; simp [Kind.deps, Kind.elem?])
  | «opaque» => exact hcopy (by rw [hk]; simp [Kind.deps, Kind.elem?])
  | num c => exact hcopy (by rw [hk]; simp [Kind.deps, Kind.elem?])
  | enum l => exact hcopy (by rw [hk]; simp [Kind.deps, Kind.elem?])
  | arr d e =>
    dsimp only
    obtain ⟨g1, g2, g3⟩ := hrec s e hb hs (hel e (by rw [hk]; rfl))
    generalize rec s e = x at g1 g2 g3
    obtain ⟨s1, r⟩ := x
    simp only at g1 g2 g3
    cases r with
    | ok t =>
      rw [andThen_ok]
      obtain ⟨g4, g5⟩ := g3 t rfl
      refine out_new g1 g2 g4 hnone ?_ (by intro l hl; cases hl) (abs_append g5.abs)
      intro x hx
      simp only [arrDef, Kind.deps, Kind.elem?, Option.toList, List.mem_singleton] at hx
      rw [hx]
      exact ⟨g5.lt, g5.own⟩
    | exn e => exact out_fail g1 g2 (fun v hv => by cases hv)
    | ub => exact out_fail g1 g2 (fun v hv => by cases hv)
    | fuel => exact out_fail g1 g2 (fun v hv => by cases hv)
  | ptr e =>
    dsimp only
    obtain ⟨g1, g2, g3⟩ := hrec s e hb hs (hel e (by rw [hk]; rfl))
    generalize rec s e = x at g1 g2 g3
    obtain ⟨s1, r⟩ := x
    simp only at g1 g2 g3
    cases r with
    | ok t =>
      rw [andThen_ok]
      obtain ⟨g4, g5⟩ := g3 t rfl
      refine out_new g1 g2 g4 hnone ?_ (by intro l hl; cases hl) (abs_append g5.abs)
      intro x hx
      simp only [ptrDef, Kind.deps, Kind.elem?, Option.toList, List.mem_singleton] at hx
      rw [hx]
      exact ⟨g5.lt, g5.own⟩
    | exn e => exact out_fail g1 g2 (fun v hv => by cases hv)
    | ub => exact out_fail g1 g2 (fun v hv => by cases hv)
    | fuel => exact out_fail g1 g2 (fun v hv => by cases hv)
  | vec e =>
    dsimp only
    obtain ⟨g1, g2, g3⟩ := hrec s e hb hs (hel e (by rw [hk]; rfl))
    generalize rec s e = x at g1 g2 g3
    obtain ⟨s1, r⟩ := x
    simp only at g1 g2 g3
    cases r with
    | ok t =>
      rw [andThen_ok]
      obtain ⟨g4, g5⟩ := g3 t rfl
      obtain ⟨f1, f2⟩ := vectorFactory_found (S := S) h0 g2 g5.lt g5.own
      exact out_setSize (fun s => s.H.size u) hnone g1 g4 f1 f2
    | exn e => exact out_fail g1 g2 (fun v hv => by cases hv)
    | ub => exact out_fail g1 g2 (fun v hv => by cases hv)
    | fuel => exact out_fail g1 g2 (fun v hv => by cases hv)
  | str e =>
    dsimp only
    obtain ⟨g1, g2, g3⟩ := hrec s e hb hs (hel e (by rw [hk]; rfl))
    generalize rec s e = x at g1 g2 g3
    obtain ⟨s1, r⟩ := x
    simp only at g1 g2 g3
    cases r with
    | ok t =>
      rw [andThen_ok]
      obtain ⟨g4, g5⟩ := g3 t rfl
      obtain ⟨f1, f2⟩ := stringFactory_found (S := S) h0 g2
      exact out_setSize (fun s => s.H.size u) hnone g1 g4 f1 f2
    | exn e => exact out_fail g1 g2 (fun v hv => by cases hv)
    | ub => exact out_fail g1 g2 (fun v hv => by cases hv)
    | fuel => exact out_fail g1 g2 (fun v hv => by cases hv)
  | comp fs =>
    dsimp only
    obtain ⟨s1, hs1⟩ : ∃ s1, s1 = ({ s.new ⟨s.H.name u, 0, .comp []⟩ with
      st := sins (s.new ⟨s.H.name u, 0, .comp []⟩).st u s.H.next } : MSt) := ⟨_, rfl⟩
    rw [← hs1]
    have hb1 : Base key H0 R0 s1 := by
      rw [hs1]
      exact (hb.new (d := ⟨s.H.name u, 0, .comp []⟩) (by intro x hx; cases hx) (by intro l hl; cases hl)).st _
    have he1 : Ext s s1 := by
      rw [hs1]
      exact (ext_new s ⟨s.H.name u, 0, .comp []⟩).trans (.of_eq rfl)
    have hpl : s.H.next < s1.H.next := by rw [hs1]; exact Nat.lt_succ_self _
    have hpn : s1.H.name s.H.next = s.H.name u := by
      rw [hs1]
      show ((s.H.alloc ⟨s.H.name u, 0, .comp []⟩).get s.H.next).name = _
      rw [alloc_get_new]
    have hst1 : Stk H0 R0 S s1 := by
      have hx : Stk H0 R0 S (s.new ⟨s.H.name u, 0, .comp []⟩) := hs.ext (ext_new s _) rfl
      have := hx.sins h0 hu (v := s.H.next) ⟨.inl hb.next, Nat.lt_succ_self _, by
        show isAbsoluteName ((s.H.alloc ⟨s.H.name u, 0, .comp []⟩).get s.H.next).name = true
        rw [alloc_get_new]; exact habs, fine_none hnone⟩
      rw [hs1]
      exact this
    have hfs : ∀ f ∈ fs, S f.ty := by
      intro f hf
      refine h0.deps u f.ty hu ?_
      unfold Heap.deps
      rw [← hkd, hk]
      exact kind_deps_field hf
    obtain ⟨i1, i2, i3⟩ := mergeFields_out hrec hb.next fs s1 hfs hpl hb1 hst1
    obtain ⟨j1, j2, j3, j4⟩ := eraseOnExn_heap u (mergeFields rec s.H.next fs s1)
    have i2' := i2.congr j1 j2
    have i1' : Ext s1 (eraseOnExn u (mergeFields rec s.H.next fs s1)).1 := i1.trans (.of_eq j1)
    generalize eraseOnExn u (mergeFields rec s.H.next fs s1) = y at j1 j2 j3 j4 i1' i2'
    obtain ⟨s2, r⟩ := y
    simp only at j1 j2 j3 j4 i1' i2'
    have he2 : Ext s s2 := he1.trans i1'
    cases r with
    | ok v =>
      rw [andThen_ok]
      have hx : Ext s2 (s2.setSize s.H.next (s2.H.size u)) := ext_set _ _ _ rfl
      have hst2 : Stk H0 R0 S s2 := by
        rw [j4 v j3.symm]
        exact i3 j3.symm
      have hpl2 : s.H.next < s2.H.next := Nat.lt_of_lt_of_le hpl i1'.next
      refine ⟨he2.trans hx, i2'.setSize (.inl hb.next) _, fun w hw => ?_⟩
      cases hw
      refine ⟨hst2.ext hx rfl, ⟨.inl hb.next, hpl2, ?_, fine_none hnone⟩⟩
      rw [hx.name _ hpl2, i1'.name _ hpl, hpn]
      exact habs
    | exn e => exact out_fail he2 i2' (fun v hv => by cases hv)
    | ub => exact out_fail he2 i2' (fun v hv => by cases hv)
    | fuel => exact out_fail he2 i2' (fun v hv => by cases hv)

theorem typeMerge_out (h0 : Start key H0 R0 S) {rec : MSt → TId → MSt × Res TId} (hrec : RecOut key H0 R0 S rec) :
    RecOut key H0 R0 S (typeMerge key rec) := by
  intro s u hb hs hu
  unfold typeMerge
  obtain ⟨t1, t2, t3, t4⟩ := tryMerge_fine h0 hb hs hu
  generalize tryMerge s u = x at t1 t2 t3 t4
  obtain ⟨s1, r⟩ := x
  simp only at t1 t2 t3 t4
  have he : Ext s s1 := .of_eq t1
  have hb1 : Base key H0 R0 s1 := hb.congr t1 t2
  cases r with
  | ok old =>
    rw [andThen_ok]
    cases old with
    | some v =>
      dsimp only
      refine ⟨he, hb1, fun w hw => ?_⟩
      cases hw
      obtain ⟨e1, e2⟩ := t3 v rfl
      exact ⟨e1, by rw [t1]; exact e2⟩
    | none =>
      dsimp only
      obtain ⟨rfl, hnone⟩ := t4 rfl
      obtain ⟨g1, g2, g3⟩ := doMerge_out h0 hrec hb hs hu hnone
      generalize doMerge key rec s1 u = y at g1 g2 g3
      obtain ⟨s2, r⟩ := y
      simp only at g1 g2 g3
      cases r with
      | ok n =>
        rw [andThen_ok]
        obtain ⟨g4, g5⟩ := g3 n rfl
        have hst := g4.sins h0 hu g5
        have hb3 := Base.addAuto h0 (g2.st (sins s2.st u n)) g5.lt g5.own g5.abs []
        simp only at hb3
        generalize addAuto key s2.H s2.R n [] = z at hb3
        obtain ⟨R', r⟩ := z
        simp only at hb3
        have he3 : Ext s1 ({ s2 with st := sins s2.st u n, R := R' } : MSt) := g1.trans (.of_eq rfl)
        cases r with
        | ok v =>
          refine ⟨he3, hb3, fun w hw => ?_⟩
          cases hw
          show Stk H0 R0 S ({ s2 with st := sins s2.st u n, R := R' } : MSt) ∧ _
          exact ⟨Stk.ext (s := ({ s2 with st := sins s2.st u n } : MSt)) (.of_eq rfl) rfl hst, g5⟩
        | exn e => exact out_fail he3 hb3 (fun v hv => by cases hv)
        | ub => exact out_fail he3 hb3 (fun v hv => by cases hv)
        | fuel => exact out_fail he3 hb3 (fun v hv => by cases hv)
      | exn e => exact out_fail g1 g2 (fun v hv => by cases hv)
      | ub => exact out_fail g1 g2 (fun v hv => by cases hv)
      | fuel => exact out_fail g1 g2 (fun v hv => by cases hv)
  | exn e => exact out_fail he hb1 (fun v hv => by cases hv)
  | ub => exact out_fail he hb1 (fun v hv => by cases hv)
  | fuel => exact out_fail he hb1 (fun v hv => by cases hv)

theorem mergeF_out (h0 : Start key H0 R0 S) : ∀ f, RecOut key H0 R0 S (mergeF key f) := by
  intro f
  induction f with
  | zero => intro s u hb hs hu; exact out_fail (.refl s) hb (fun v hv => by cases hv)
  | succ f ih =>
    intro s u hb hs hu
    unfold mergeF
    cases hel : (s.H.kind u).elem? with
    | none => exact typeMerge_out h0 ih s u hb hs hu
    | some e =>
      dsimp only
      have hSe : S e := by
        refine h0.deps u e hu ?_
        unfold Heap.deps
        rw [← hb.kind u (h0.alloc u hu)]
        exact elem_mem_deps hel
      obtain ⟨t1, t2, t3, t4⟩ := tryMerge_fine h0 hb hs hu
      generalize tryMerge s u = x at t1 t2 t3 t4
      obtain ⟨s1, r⟩ := x
      simp only at t1 t2 t3 t4
      have he : Ext s s1 := .of_eq t1
      have hb1 : Base key H0 R0 s1 := hb.congr t1 t2
      cases r with
      | ok old =>
        rw [andThen_ok]
        cases old with
        | some v =>
          dsimp only
          refine ⟨he, hb1, fun w hw => ?_⟩
          cases hw
          obtain ⟨e1, e2⟩ := t3 v rfl
          exact ⟨e1, by rw [t1]; exact e2⟩
        | none =>
          dsimp only
          obtain ⟨rfl, hnone⟩ := t4 rfl
          obtain ⟨g1, g2, g3⟩ := ih s1 e hb hs hSe
          generalize mergeF key f s1 e = y at g1 g2 g3
          obtain ⟨s2, r⟩ := y
          simp only at g1 g2 g3
          cases r with
          | ok n =>
            rw [andThen_ok]
            obtain ⟨k1, k2, k3⟩ := typeMerge_out h0 ih s2 u g2 (g3 n rfl).1 hu
            exact ⟨g1.trans k1, k2, k3⟩
          | exn e => exact out_fail g1 g2 (fun v hv => by cases hv)
          | ub => exact out_fail g1 g2 (fun v hv => by cases hv)
          | fuel => exact out_fail g1 g2 (fun v hv => by cases hv)
      | exn e => exact out_fail he hb1 (fun v hv => by cases hv)
      | ub => exact out_fail he hb1 (fun v hv => by cases hv)
      | fuel => exact out_fail he hb1 (fun v hv => by cases hv)

theorem mergeTypes_out (h0 : Start key H0 R0 S) (fuel : Nat) : ∀ (l : List (Str × Entry)) (s : MSt), (∀ p ∈ l, S p.2.ty) →
    Base key H0 R0 s → Stk H0 R0 S s →
    Base key H0 R0 (mergeTypes key fuel l s).1 ∧ ((mergeTypes key fuel l s).2 = .ok () → Stk H0 R0 S (mergeTypes key fuel l s).1 ∧
      ∀ p ∈ l, p.1 = H0.name p.2.ty → ∃ v, Fine H0 R0 p.2.ty v) := by
  intro l
  induction l with
  | nil => intro s _ hb hs; exact ⟨hb, fun _ => ⟨hs, fun p hp => (by cases hp)⟩⟩
  | cons p l ih =>
    intro s hS hb hs
    have hSp := hS p (by simp)
    rw [mergeTypes]
    split
    · rename_i hal
      obtain ⟨i1, i2⟩ := ih s (fun q hq => hS q (by simp [hq])) hb hs
      refine ⟨i1, fun h => ⟨(i2 h).1, fun q hq hn => ?_⟩⟩
      rcases List.mem_cons.mp hq with rfl | hq
      · exfalso
        unfold isAlias at hal
        rw [hb.name _ (h0.alloc _ hSp)] at hal
        simp [hn] at hal
      · exact (i2 h).2 q hq hn
    · obtain ⟨g1, g2, g3⟩ := mergeF_out h0 fuel s p.2.ty hb hs hSp
      generalize mergeF key fuel s p.2.ty = y at g1 g2 g3
      obtain ⟨s2, r⟩ := y
      simp only at g1 g2 g3
      cases r with
      | ok n =>
        rw [andThen_ok]
        obtain ⟨g4, g5⟩ := g3 n rfl
        obtain ⟨i1, i2⟩ := ih s2 (fun q hq => hS q (by simp [hq])) g2 g4
        refine ⟨i1, fun h => ⟨(i2 h).1, fun q hq hn => ?_⟩⟩
        rcases List.mem_cons.mp hq with rfl | hq
        · exact ⟨n, g5.fine⟩
        · exact (i2 h).2 q hq hn
      | exn e => exact ⟨g2, fun h => (by cases h)⟩
      | ub => exact ⟨g2, fun h => (by cases h)⟩
      | fuel => exact ⟨g2, fun h => (by cases h)⟩

theorem mergeAliases_keeps (key : Char → Int) : ∀ (l : List (Str × Entry)) (s : MSt), Cov s.R →
    (mergeAliases key l s).1.H = s.H ∧ ∀ n t, s.R.reg n = some t → (mergeAliases key l s).1.R.reg n = some t := by
  intro l
  induction l with
  | nil => intro s _; exact ⟨rfl, fun _ _ h => h⟩
  | cons p l ih =>
    intro s hc
    rw [mergeAliases]
    split
    · exact ih s hc
    · cases hg : s.R.get p.1 with
      | some old =>
        dsimp only
        cases hi : isSame s.H old p.2.ty with
        | ok b =>
          cases b with
          | true => exact ih s hc
          | false => exact ⟨rfl, fun _ _ h => h⟩
        | exn e => exact ⟨rfl, fun _ _ h => h⟩
        | ub => exact ⟨rfl, fun _ _ h => h⟩
        | fuel => exact ⟨rfl, fun _ _ h => h⟩
      | none =>
        dsimp only
        have he := aliasF_ents (key := key) (H := s.H) (s.H.next + 1) s.R (s.H.name p.2.ty) p.1 p.2.persistent p.2.source hc
        have hkeep : ∀ n t, s.R.reg n = some t →
            (alias key s.H s.R (s.H.name p.2.ty) p.1 p.2.persistent p.2.source).1.reg n = some t := by
          intro n t hn
          unfold Reg.reg at hn ⊢
          cases hx : glookup s.R.global n with
          | none => rw [hx] at hn; cases hn
          | some e =>
            rw [hx] at hn
            rw [show glookup (alias key s.H s.R (s.H.name p.2.ty) p.1 p.2.persistent p.2.source).1.global n = some e from he.keep n e hx]
            exact hn
        have hcov : Cov (alias key s.H s.R (s.H.name p.2.ty) p.1 p.2.persistent p.2.source).1 := he.cov
        generalize alias key s.H s.R (s.H.name p.2.ty) p.1 p.2.persistent p.2.source = x at hkeep hcov
        obtain ⟨R', r⟩ := x
        simp only at hkeep hcov
        cases r with
        | ok v =>
          show (mergeAliases key l { s with R := R' }).1.H = _ ∧ _
          obtain ⟨i1, i2⟩ := ih { s with R := R' } hcov
          exact ⟨i1, fun n t h => i2 n t (hkeep n t h)⟩
        | exn e => exact ⟨rfl, hkeep⟩
        | ub => exact ⟨rfl, hkeep⟩
        | fuel => exact ⟨rfl, hkeep⟩

/-! ### C29 -/

theorem start_of (hk : ∀ a b, key a = key b → a = b) {H : Heap} {R src : Reg} (hR : Reachable key H R)
    (hsrc : Reachable key H src) (hwf : WF H) (hc : ∀ u d, Regd H src u → d ∈ H.deps u → Regd H src d) (hn : NoShare H R src) :
    Start key H R (Regd H src) := by
  obtain ⟨hac, hi⟩ := reachable_inv hk hR
  obtain ⟨_, hs⟩ := reachable_inv hk hsrc
  have hr : ∀ u, Regd H src u → src.reg (H.name u) = some u := fun u hu => (hs.regd_iff u).mp hu
  exact ⟨hk, hi, hac, hwf, fun u hu => (hs.reg_name (hr u hu)).2.2.2, hc, fun u hu => (hs.reg_name (hr u hu)).2.1,
    fun u t hu ht => hn u t hu ((hi.regd_iff t).mpr ht)⟩

theorem Start.base (h : Start key H0 R0 S) : Base key H0 R0 ⟨H0, R0, []⟩ := by
  refine ⟨h.inv, h.ac, h.wf, Nat.le_refl _, fun _ _ => rfl, fun _ _ => rfl, fun _ _ _ => rfl, fun _ _ h => h, ?_, ?_⟩
  · rintro t d ht (e | e) hd
    · exact absurd ht (Nat.not_lt.mpr e)
    · exact .inr (parts_deps e hd)
  · intro n t hr
    exact .inr (parts_regd (h.inv.reg_name hr).2.2.1)

theorem Start.stk (h : Start key H0 R0 S) : Stk H0 R0 S ⟨H0, R0, []⟩ :=
  ⟨fun k v _ hv => (by cases hv), fun k r _ hr => (by cases hr)⟩

/-- **C29, conflicts**: if a merge of `src` into a registry succeeds, every type of `src` that was already known by its name has
the same definition there, to any depth. No agreement is assumed; the registries only must not share type objects. Null types are
compared by name only, and the sizes of containers can change (`C29_modified_counterexample`). -/
theorem C29_conflict (hk : ∀ a b, key a = key b → a = b) {H : Heap} {R src : Reg} (hR : Reachable key H R)
    (hsrc : Reachable key H src) (hwf : WF H) (hc : ∀ u d, Regd H src u → d ∈ H.deps u → Regd H src d) (hn : NoShare H R src)
    (fuel : Nat) (hok : (merge key fuel (H, R) src).2 = .ok ()) (u old : TId) (hu : Regd H src u)
    (ho : R.get (H.name u) = some old) (hnull : NoNull (ignoreContainerSizes H) old) :
    SameDefinition (ignoreContainerSizes H) old u := by
  have h0 := start_of hk hR hsrc hwf hc hn
  have hs := (reachable_inv hk hsrc).2
  have hreg := (hs.regd_iff u).mp hu
  have hmem : ∀ p ∈ src.global, Regd H src p.2.ty := fun p hp => (hs.regd_iff _).mpr (hs.prim p hp)
  obtain ⟨_, h2⟩ := mergeTypes_out h0 fuel src.global ⟨H, R, []⟩ hmem h0.base h0.stk
  unfold merge at hok
  simp only at hok
  generalize mergeTypes key fuel src.global ⟨H, R, []⟩ = x at h2 hok
  obtain ⟨s, r⟩ := x
  simp only at h2
  cases r with
  | ok v =>
    obtain ⟨e, hm, he⟩ := reg_mem hreg
    obtain ⟨v, hv⟩ := (h2 rfl).2 (H.name u, e) hm (by simp only; rw [he])
    simp only at hv
    rw [he] at hv
    rw [h0.inv.abs _ (h0.abs u hu)] at ho
    exact (hv old ho).2 hnull
  | exn e => cases hok
  | ub => cases hok
  | fuel => cases hok

theorem copySourceIDs_reg (H : Heap) : ∀ (l : List (Str × Entry)) (R : Reg) (n : Str), (copySourceIDs H R l).reg n = R.reg n := by
  intro l
  induction l with
  | nil => intro R n; rfl
  | cons p l ih =>
    intro R n
    show (copySourceIDs H (copySource H R p) l).reg n = _
    rw [ih]
    unfold copySource
    split
    · rfl
    · split
      · exact setSourceID_reg R _ _ n
      · rfl

/-- **C29, no damage**: whatever the outcome of a merge, an exception in the middle of it included, no type that existed before is
modified (but for the size of containers), and every name of the destination keeps its type. -/
theorem C29_no_damage (hk : ∀ a b, key a = key b → a = b) {H : Heap} {R src : Reg} (hR : Reachable key H R)
    (hsrc : Reachable key H src) (hwf : WF H) (hc : ∀ u d, Regd H src u → d ∈ H.deps u → Regd H src d) (hn : NoShare H R src)
    (fuel : Nat) :
    let o := merge key fuel (H, R) src
    (∀ t, t < H.next → o.1.1.name t = H.name t ∧ o.1.1.kind t = H.kind t ∧
      ((∀ e, H.kind t ≠ .vec e) → (∀ e, H.kind t ≠ .str e) → o.1.1.size t = H.size t)) ∧
    (∀ n t, isAbsoluteName n = true → R.get n = some t → o.1.2.reg n = some t) := by
  intro o
  have h0 := start_of hk hR hsrc hwf hc hn
  have hs := (reachable_inv hk hsrc).2
  have hmem : ∀ p ∈ src.global, Regd H src p.2.ty := fun p hp => (hs.regd_iff _).mpr (hs.prim p hp)
  obtain ⟨hb, _⟩ := mergeTypes_out h0 fuel src.global ⟨H, R, []⟩ hmem h0.base h0.stk
  have hkeep := mergeAliases_keeps key src.global (mergeTypes key fuel src.global ⟨H, R, []⟩).1 hb.inv.cov
  have key1 : ∃ s : MSt, Base key H R s ∧ o.1.1 = s.H ∧ ∀ n t, s.R.reg n = some t → o.1.2.reg n = some t := by
    have ho : o = merge key fuel (H, R) src := rfl
    clear_value o
    unfold merge at ho
    simp only at ho
    generalize mergeTypes key fuel src.global ⟨H, R, []⟩ = x at hb hkeep ho
    obtain ⟨s, r⟩ := x
    simp only at hb hkeep
    refine ⟨s, hb, ?_⟩
    cases r with
    | ok v =>
      rw [andThen_ok] at ho
      generalize mergeAliases key src.global s = y at hkeep ho
      obtain ⟨s2, r⟩ := y
      simp only at hkeep
      obtain ⟨e1, e2⟩ := hkeep
      cases r with
      | ok v => subst ho; exact ⟨e1, fun n t h => (by rw [copySourceIDs_reg]; exact e2 n t h)⟩
      | exn e => subst ho; exact ⟨e1, e2⟩
      | ub => subst ho; exact ⟨e1, e2⟩
      | fuel => subst ho; exact ⟨e1, e2⟩
    | exn e => subst ho; exact ⟨rfl, fun _ _ h => h⟩
    | ub => subst ho; exact ⟨rfl, fun _ _ h => h⟩
    | fuel => subst ho; exact ⟨rfl, fun _ _ h => h⟩
  obtain ⟨s, hb, e1, e2⟩ := key1
  refine ⟨fun t ht => ?_, fun n t ha hg => ?_⟩
  · rw [e1]
    refine ⟨hb.name t ht, hb.kind t ht, fun hv hst => hb.size t ht ?_⟩
    cases hkd : H.kind t with
    | vec e => exact absurd hkd (hv e)
    | str e => exact absurd hkd (hst e)
    | _ => rfl
  · rw [h0.inv.abs n ha] at hg
    exact e2 n t (hb.ext n t hg)

end Verif.Merge
