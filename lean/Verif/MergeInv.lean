import Verif.Merge
import Verif.TypeCompareProps
import Verif.RegistryMore
import Verif.TypeBuilderProps

/-! The invariant of a merge (properties C29 and C30). -/

namespace Verif.Merge
open Verif Verif.Names Verif.Graph Verif.Registry Verif.TypeBuilder

set_option linter.unusedSimpArgs false
set_option linter.unusedVariables false

variable {key : Char → Int} {H0 : Heap} {R0 : Reg} {S base : TId → Prop} {pend : List (TId × TId)}

theorem desc_congr {nm nm' : TId → Str} (k : Kind) (h : ∀ d ∈ k.deps, nm' d = nm d) : Kind.desc nm' k = Kind.desc nm k := by
  cases k <;> simp only [Kind.desc, Kind.deps, Kind.elem?, Option.toList, List.mem_singleton, forall_eq, List.not_mem_nil] at h ⊢ <;>
    try rw [h]
  congr 1
  apply List.map_congr_left
  intro f hf
  rw [h f.ty (List.mem_map.mpr ⟨f, hf, rfl⟩)]

theorem definition_congr {H H' : Heap} {t : TId} (hg : H'.get t = H.get t) (hd : ∀ d ∈ H.deps t, H'.name d = H.name d) :
    definition H' t = definition H t := by
  unfold definition
  have h1 : H'.name t = H.name t := by unfold Heap.name; rw [hg]
  have h2 : H'.size t = H.size t := by unfold Heap.size; rw [hg]
  have h3 : H'.kind t = H.kind t := by unfold Heap.kind; rw [hg]
  rw [h1, h2, h3, desc_congr (H.kind t) hd]

/-- The invariant: `pend` are the compounds being copied, each with its copy, which is not registered yet; `base` are the
types that were registered when the stack was empty. -/
structure J (key : Char → Int) (H0 : Heap) (R0 : Reg) (S base : TId → Prop) (pend : List (TId × TId)) (s : MSt) : Prop where
  inv : Inv key s.H s.R
  ac : Acyclic s.H
  wf : WF s.H
  next : H0.next ≤ s.H.next
  old : ∀ t, t < H0.next → s.H.get t = H0.get t
  ext : ∀ n t, R0.reg n = some t → s.R.reg n = some t
  closed : ∀ t d, s.R.regd s.H t → d ∈ s.H.deps t → s.R.regd s.H d ∨ ∃ k, (k, d) ∈ pend
  compat : ∀ u t, S u → s.R.reg (H0.name u) = some t → definition s.H t = definition s.H u
  alia : ∀ n t, s.R.reg n = some t → n ≠ s.H.name t → FromAlias H0 R0 n
  disj : ∀ u, S u → ¬ s.R.regd s.H u
  stk : ∀ k v, s.st.lookup k = some v → (S k ∧ ((k, v) ∈ pend ∨ s.R.reg (H0.name k) = some v)) ∨
    (base k ∧ S v ∧ s.H.name k = H0.name v)
  new : ∀ t, s.R.regd s.H t → R0.regd H0 t ∨ ∃ u, S u ∧ H0.name u = s.H.name t
  pnd : ∀ k p, (k, p) ∈ pend → S k ∧ s.st.lookup k = some p ∧ s.R.reg (H0.name k) = none ∧ H0.next ≤ p ∧ p < s.H.next ∧
    s.H.name p = H0.name k
  pnodup : (pend.map (·.1)).Nodup
  baseR : ∀ t, base t → s.R.regd s.H t
  baseC : ∀ t d, base t → d ∈ s.H.deps t → base d
  all : ∀ u t, S u → s.R.reg (H0.name u) = some t → base t ∨ s.st.lookup u = some t

/-- nothing that existed changes -/
structure Kept (s s' : MSt) : Prop where
  next : s.H.next ≤ s'.H.next
  get : ∀ t, t < s.H.next → s'.H.get t = s.H.get t
  ext : ∀ n t, s.R.reg n = some t → s'.R.reg n = some t

theorem Kept.refl (s : MSt) : Kept s s := ⟨Nat.le_refl _, fun _ _ => rfl, fun _ _ h => h⟩

theorem Kept.trans {a b c : MSt} (h : Kept a b) (h' : Kept b c) : Kept a c :=
  ⟨Nat.le_trans h.next h'.next, fun t ht => (h'.get t (Nat.lt_of_lt_of_le ht h.next)).trans (h.get t ht),
    fun n t e => h'.ext n t (h.ext n t e)⟩

theorem J.name {s : MSt} (h : J key H0 R0 S base pend s) (hs : Source H0 S) {u : TId} (hu : S u) :
    s.H.name u = H0.name u := by
  unfold Heap.name
  rw [h.old u (hs.alloc u hu)]

theorem J.kind {s : MSt} (h : J key H0 R0 S base pend s) (hs : Source H0 S) {u : TId} (hu : S u) :
    s.H.kind u = H0.kind u := by
  unfold Heap.kind
  rw [h.old u (hs.alloc u hu)]

theorem J.lt {s : MSt} (h : J key H0 R0 S base pend s) (hs : Source H0 S) {u : TId} (hu : S u) :
    u < s.H.next := Nat.lt_of_lt_of_le (hs.alloc u hu) h.next

theorem J.get {s : MSt} (h : J key H0 R0 S base pend s) (hs : Source H0 S) {u : TId} (hu : S u) :
    s.R.get (s.H.name u) = s.R.reg (H0.name u) := by
  rw [h.name hs hu]
  exact h.inv.abs _ (hs.abs u hu)

/-- a change of the heap that does not touch registered objects or objects of `S` -/
theorem J.heap {s : MSt} (h : J key H0 R0 S base pend s) (hs : Source H0 S) (H' : Heap) (p : TId)
    (hp : H0.next ≤ p) (hpr : ∀ n, s.R.reg n ≠ some p) (hn : s.H.next ≤ H'.next)
    (hname : ∀ t, t < s.H.next → H'.name t = s.H.name t) (hget : ∀ t, t < s.H.next → t ≠ p → H'.get t = s.H.get t)
    (hac : Acyclic H') (hwf : WF H') : J key H0 R0 S base pend { s with H := H' } := by
  have hlt : ∀ n t, s.R.reg n = some t → t < s.H.next ∧ t ≠ p := by
    intro n t ht
    refine ⟨(h.inv.reg_name ht).2.2.2, ?_⟩
    rintro rfl
    exact hpr n ht
  have hregd : ∀ t, s.R.regd H' t ↔ s.R.regd s.H t := by
    intro t
    unfold Reg.regd
    constructor
    · intro e; rw [← hname t (hlt _ _ e).1]; exact e
    · intro e; rw [hname t (hlt _ _ e).1]; exact e
  have hdeps : ∀ n t, s.R.reg n = some t → H'.deps t = s.H.deps t := by
    intro n t ht
    unfold Heap.deps Heap.kind
    rw [hget t (hlt n t ht).1 (hlt n t ht).2]
  have hdefn : ∀ t, t < s.H.next → t ≠ p → definition H' t = definition s.H t := by
    intro t h1 h2
    exact definition_congr (hget t h1 h2) (fun d hd => hname d (h.wf.deps t d h1 hd))
  have hSne : ∀ u, S u → u ≠ p := by
    rintro u hu rfl
    exact absurd (hs.alloc u hu) (Nat.not_lt.mpr hp)
  refine ⟨h.inv.heap hn (fun t ht _ => hname t ht), hac, hwf, Nat.le_trans h.next hn, ?_, h.ext, ?_, ?_, ?_, ?_, ?_, ?_, ?_,
    h.pnodup, fun t ht => (hregd t).mpr (h.baseR t ht), ?_, h.all⟩
  · intro t ht
    simp only
    rw [hget t (Nat.lt_of_lt_of_le ht h.next) (by rintro rfl; exact absurd ht (Nat.not_lt.mpr hp))]
    exact h.old t ht
  · intro t d ht hd
    simp only at ht hd ⊢
    rw [hregd] at ht
    rw [hdeps _ _ ht] at hd
    exact (h.closed t d ht hd).imp (hregd d).mpr id
  · intro u t hu ht
    simp only at ht ⊢
    rw [hdefn t (hlt _ _ ht).1 (hlt _ _ ht).2, hdefn u (h.lt hs hu) (hSne u hu)]
    exact h.compat u t hu ht
  · intro n t ht hne
    simp only at ht hne
    rw [hname t (hlt _ _ ht).1] at hne
    exact h.alia n t ht hne
  · intro u hu ht
    exact h.disj u hu ((hregd u).mp ht)
  · intro k v hk
    simp only at hk ⊢
    rcases h.stk k v hk with h1 | ⟨h1, h2, h3⟩
    · exact Or.inl h1
    · refine Or.inr ⟨h1, h2, ?_⟩
      rw [hname k (hlt _ _ (h.baseR k h1)).1]
      exact h3
  · intro t ht
    simp only at ht ⊢
    rw [hregd] at ht
    rw [hname t (hlt _ _ ht).1]
    exact h.new t ht
  · intro k q hkq
    obtain ⟨g1, g2, g3, g4, g5, g6⟩ := h.pnd k q hkq
    exact ⟨g1, g2, g3, g4, Nat.lt_of_lt_of_le g5 hn, by simp only; rw [hname q g5]; exact g6⟩
  · intro t d ht hd
    simp only at hd
    rw [hdeps _ _ (h.baseR t ht)] at hd
    exact h.baseC t d ht hd

theorem wf_alloc {H : Heap} (h : WF H) {d : TypeDef} (hd : ∀ x ∈ d.kind.deps, x < H.next)
    (hsy : ∀ s, d.kind = .enum s → (s.map (·.1)).Nodup) : WF (H.alloc d) := by
  have hk : ∀ t, (H.alloc d).kind t = if t = H.next then d.kind else H.kind t := by
    intro t
    unfold Heap.kind Heap.alloc
    simp only
    split <;> rfl
  refine ⟨?_, ?_⟩
  · intro t x ht hx
    have ht' : t < H.next + 1 := ht
    show x < H.next + 1
    unfold Heap.deps at hx
    rw [hk] at hx
    split at hx
    · exact Nat.lt_succ_of_lt (hd x hx)
    · rename_i hne
      exact Nat.lt_succ_of_lt (h.deps t x (Nat.lt_of_le_of_ne (Nat.le_of_lt_succ ht') hne) hx)
  · intro t s hs
    rw [hk] at hs
    split at hs
    · exact hsy s hs
    · exact h.syms t s hs

theorem elem_mem_deps {k : Kind} {x : TId} (h : k.elem? = some x) : x ∈ k.deps := by
  cases k <;> simp_all [Kind.elem?, Kind.deps]

theorem J.new_obj {s : MSt} (h : J key H0 R0 S base pend s) (hs : Source H0 S) {d : TypeDef}
    (hd : ∀ x ∈ d.kind.deps, x < s.H.next) (hsy : ∀ l, d.kind = .enum l → (l.map (·.1)).Nodup) :
    J key H0 R0 S base pend (s.new d) := by
  refine h.heap hs (s.H.alloc d) s.H.next h.next ?_ (Nat.le_succ _) ?_ ?_ (acyclic_alloc h.ac ?_) (wf_alloc h.wf hd hsy)
  · intro n hn
    exact Nat.lt_irrefl _ (h.inv.reg_name hn).2.2.2
  · intro t ht
    unfold Heap.name
    rw [alloc_get_old _ _ ht]
  · intro t ht _
    exact alloc_get_old _ _ ht
  · intro x hx
    exact hd x (elem_mem_deps hx)

theorem kept_new (s : MSt) (d : TypeDef) : Kept s (s.new d) :=
  ⟨Nat.le_succ _, fun _ ht => alloc_get_old _ _ ht, fun _ _ h => h⟩

/-- a change of an object that is not registered -/
theorem J.set_obj {s : MSt} (h : J key H0 R0 S base pend s) (hs : Source H0 S) {p : TId} {d : TypeDef}
    (hp : H0.next ≤ p) (hpr : ∀ n, s.R.reg n ≠ some p) (hname : d.name = s.H.name p)
    {gs : List FieldD} (hkind : d.kind = .comp gs) (hd : ∀ g ∈ gs, g.ty < s.H.next) : J key H0 R0 S base pend (s.set p d) := by
  have hget : ∀ t, (s.set p d).H.get t = if t = p then d else s.H.get t := fun _ => rfl
  refine h.heap hs (s.set p d).H p hp hpr (Nat.le_refl _) ?_ ?_ ?_ ⟨?_, ?_⟩
  · intro t _
    unfold Heap.name
    rw [hget]
    split
    · rename_i e; rw [e]; exact hname
    · rfl
  · intro t _ hne
    rw [hget, if_neg hne]
  · intro u x hx
    unfold Heap.kind at hx
    rw [hget] at hx
    split at hx
    · rw [hkind] at hx; cases hx
    · exact h.ac u x hx
  · intro t x ht hx
    unfold Heap.deps Heap.kind at hx
    rw [hget] at hx
    split at hx
    · rw [hkind] at hx
      obtain ⟨g, hg, rfl⟩ := List.mem_map.mp hx
      exact hd g hg
    · exact h.wf.deps t x ht hx
  · intro t l hl
    unfold Heap.kind at hl
    rw [hget] at hl
    split at hl
    · rw [hkind] at hl; cases hl
    · exact h.wf.syms t l hl

theorem lookup_sins (st : Stack) (k v x : TId) :
    (sins st k v).lookup x = if x = k then some ((st.lookup k).getD v) else st.lookup x := by
  unfold sins
  cases h : st.lookup k with
  | some w =>
    simp only [Option.getD_some]
    split
    · rename_i e; rw [e]; exact h
    · rfl
  | none =>
    simp only [Option.getD_none]
    split
    · rename_i e; rw [e]; exact lookup_cons_self k v st
    · rename_i e; exact lookup_cons_ne v st e

theorem sins_sins (st : Stack) (k v w : TId) : sins (sins st k v) k w = sins st k v := by
  have : ∃ y, (sins st k v).lookup k = some y := ⟨_, by rw [lookup_sins, if_pos rfl]⟩
  obtain ⟨y, hy⟩ := this
  generalize sins st k v = st' at hy
  unfold sins
  rw [hy]

/-! ### Comparing with what is already there -/

/-- a type of `base` and the type of `S` with the same name -/
def Match (S base : TId → Prop) (s : MSt) (x y : TId) : Prop := base x ∧ S y ∧ s.H.name x = s.H.name y

theorem step_of_definition {H : Heap} {l r : TId} {M : TId → TId → Prop} (h : definition H l = definition H r)
    (hd : ∀ x ∈ H.deps l, ∀ y ∈ H.deps r, H.name x = H.name y → M x y) : Step H true M l r := by
  unfold definition at h
  injection h with h1 h2
  injection h2 with h2 h3
  unfold Heap.deps at hd
  unfold Step
  cases hl : H.kind l <;> cases hr : H.kind r <;> rw [hl, hr] at h3 hd <;> simp only [Kind.desc] at h3 <;> try cases h3
  · exact h1
  · exact ⟨h2, h1⟩
  · exact ⟨h2, rfl⟩
  · exact ⟨h2, by simp⟩
  · simp only [Desc.arr.injEq] at h3
    exact ⟨h2, h3.1, hd _ (by simp [Kind.deps, Kind.elem?]) _ (by simp [Kind.deps, Kind.elem?]) h3.2⟩
  · simp only [Desc.ptr.injEq] at h3
    exact ⟨h2, hd _ (by simp [Kind.deps, Kind.elem?]) _ (by simp [Kind.deps, Kind.elem?]) h3⟩
  · simp only [Desc.vec.injEq] at h3
    exact ⟨h2, hd _ (by simp [Kind.deps, Kind.elem?]) _ (by simp [Kind.deps, Kind.elem?]) h3⟩
  · simp only [Desc.str.injEq] at h3
    exact ⟨h2, hd _ (by simp [Kind.deps, Kind.elem?]) _ (by simp [Kind.deps, Kind.elem?]) h3⟩
  · rename_i fs gs
    simp only [Desc.comp.injEq] at h3
    refine ⟨fun _ => h2, by simpa using congrArg List.length h3, ?_⟩
    intro i a b ha hb
    have := congrArg (fun l => l[i]?) h3
    simp only [List.getElem?_map, ha, hb, Option.map_some, Option.some.injEq, Prod.mk.injEq] at this
    refine ⟨this.1, this.2.1, hd _ ?_ _ ?_ this.2.2⟩
    · exact List.mem_map.mpr ⟨a, List.mem_of_getElem? ha, rfl⟩
    · exact List.mem_map.mpr ⟨b, List.mem_of_getElem? hb, rfl⟩

theorem J.matching {s : MSt} (h : J key H0 R0 S base pend s) (hs : Source H0 S) :
    Matching s.H (Match S base s) := by
  refine ⟨?_, ?_, ?_⟩
  · rintro x y ⟨h1, h2, _⟩ rfl
    exact h.disj x h2 (h.baseR x h1)
  · rintro x y z ⟨_, h1, h2⟩ ⟨_, h3, h4⟩
    rw [h2, h.name hs h1, h.name hs h3] at h4
    exact hs.inj y z h1 h3 h4
  · rintro x y ⟨h1, h2, h3⟩
    have hreg : s.R.reg (H0.name y) = some x := by
      rw [← h.name hs h2, ← h3]; exact h.baseR x h1
    refine (step_of_definition (h.compat y x h2 hreg) ?_ : Step s.H true (Match S base s) x y).mono (fun _ _ h => Or.inr h)
    intro a ha b hb hab
    have hb' : b ∈ H0.deps y := by
      unfold Heap.deps at hb ⊢
      rw [← h.kind hs h2]; exact hb
    exact ⟨h.baseC x a h1 ha, hs.deps y b h2 hb', hab⟩

theorem tryMerge_spec {s : MSt} (h : J key H0 R0 S base pend s) (hs : Source H0 S) {u : TId} (hu : S u) :
    (∃ v st', tryMerge s u = ({ s with st := st' }, .ok (some v)) ∧ J key H0 R0 S base pend { s with st := st' } ∧
      (s.R.reg (H0.name u) = some v ∨ (u, v) ∈ pend) ∧ ∀ k w, s.st.lookup k = some w → st'.lookup k = some w) ∨
    (tryMerge s u = (s, .ok none) ∧ s.R.reg (H0.name u) = none ∧ s.st.lookup u = none) := by
  unfold tryMerge
  rw [h.get hs hu]
  cases hl : s.st.lookup u with
  | some v =>
    left
    refine ⟨v, s.st, rfl, h, ?_, fun _ _ h => h⟩
    rcases h.stk u v hl with ⟨_, h1 | h1⟩ | ⟨h1, _⟩
    · exact Or.inr h1
    · exact Or.inl h1
    · exact absurd (h.baseR u h1) (h.disj u hu)
  | none =>
    cases hr : s.R.reg (H0.name u) with
    | none => exact Or.inr ⟨rfl, rfl, rfl⟩
    | some old =>
      left
      simp only
      have hreg := h.inv.reg_name hr
      have hbase : base old := by
        rcases h.all u old hu hr with e | e
        · exact e
        · rw [hl] at e; cases e
      have hname : s.H.name old = s.H.name u := by
        have := h.compat u old hu hr
        unfold definition at this
        injection this
      have hM : Match S base s old u := ⟨hbase, hu, hname⟩
      have hm := h.matching hs
      obtain ⟨x, h1, h2, h3⟩ := doCompare_spec s.H h.wf (s.H.next + 1) true old u s.st hreg.2.2.2 (h.lt hs hu) (by
        have := freeKeys_le s.H s.st; omega)
      obtain ⟨g1, g2⟩ := doCompare_complete s.H h.wf hm (Q := fun a b => s.st.lookup a = some b ∨ Match S base s a b)
        (fun _ _ h => Or.inr h) (by
          intro a b c hab hac
          rcases hab with hab | hab
          · rcases h.stk a b hab with ⟨e1, _⟩ | ⟨e1, e2, e3⟩
            · exact absurd (h.baseR a hac.1) (h.disj a e1)
            · refine hs.inj b c e2 hac.2.1 ?_
              rw [← e3, hac.2.2, h.name hs hac.2.1]
          · exact hm.fn a b c hab hac) _ true old u s.st x h1 (hm.step _ _ hM) (fun a b h => Or.inl h)
      obtain ⟨b, st'⟩ := x
      simp only at g1 g2
      subst g1
      rw [h1]
      simp only
      have hmono : ∀ k w, s.st.lookup k = some w → (sins st' u old).lookup k = some w := by
        intro k w hk
        rw [lookup_sins]
        have := h2.ext k w hk
        simp only at this
        split
        · rename_i e; rw [← e, this]; rfl
        · exact this
      refine ⟨old, sins st' u old, rfl, ?_, Or.inl rfl, hmono⟩
      refine ⟨h.inv, h.ac, h.wf, h.next, h.old, h.ext, h.closed, h.compat, h.alia, h.disj, ?_, h.new, ?_, h.pnodup, h.baseR,
        h.baseC, ?_⟩
      · intro k v hk
        simp only [lookup_sins] at hk
        split at hk
        · rename_i e
          subst e
          refine Or.inl ⟨hu, Or.inr ?_⟩
          cases hk' : st'.lookup k with
          | none => rw [hk'] at hk; cases hk; exact hr
          | some w =>
            exfalso
            rcases g2 k w hk' with e | e
            · rw [hl] at e; cases e
            · exact h.disj k hu (h.baseR k e.1)
        · rcases g2 k v hk with e | ⟨e1, e2, e3⟩
          · exact h.stk k v e
          · exact Or.inr ⟨e1, e2, by rw [e3, h.name hs e2]⟩
      · intro k p hkp
        obtain ⟨g1, g2, g3⟩ := h.pnd k p hkp
        exact ⟨g1, hmono k p g2, g3⟩
      · intro v t hv ht
        exact (h.all v t hv ht).imp id (hmono v t)

/-! ### Starting a copy -/

theorem J.pend_lookup {s : MSt} (h : J key H0 R0 S base pend s) {u : TId} (hl : s.st.lookup u = none) (p : TId) : (u, p) ∉ pend := by
  intro hp
  have := (h.pnd u p hp).2.1
  rw [hl] at this
  cases this

/-- the copy `n` of `u` exists -/
theorem J.start {s : MSt} (h : J key H0 R0 S base pend s) {u n : TId} (hu : S u) (hr : s.R.reg (H0.name u) = none)
    (hl : s.st.lookup u = none) (hn0 : H0.next ≤ n) (hn : n < s.H.next) (hname : s.H.name n = H0.name u) :
    J key H0 R0 S base ((u, n) :: pend) { s with st := sins s.st u n } := by
  have hmono : ∀ k w, s.st.lookup k = some w → (sins s.st u n).lookup k = some w := by
    intro k w hk
    rw [lookup_sins]
    split
    · rename_i e; rw [← e, hk]; rfl
    · exact hk
  refine ⟨h.inv, h.ac, h.wf, h.next, h.old, h.ext, ?_, h.compat, h.alia, h.disj, ?_, h.new, ?_, ?_, h.baseR, h.baseC, ?_⟩
  · intro t d ht hd
    rcases h.closed t d ht hd with e | ⟨k, e⟩
    · exact Or.inl e
    · exact Or.inr ⟨k, List.mem_cons_of_mem _ e⟩
  · intro k v hkv
    simp only [lookup_sins] at hkv
    split at hkv
    · rename_i e
      subst e
      rw [hl] at hkv
      cases hkv
      exact Or.inl ⟨hu, Or.inl (by simp)⟩
    · rcases h.stk k v hkv with ⟨g1, g2 | g2⟩ | g1
      · exact Or.inl ⟨g1, Or.inl (List.mem_cons_of_mem _ g2)⟩
      · exact Or.inl ⟨g1, Or.inr g2⟩
      · exact Or.inr g1
  · intro k p hkp
    rcases List.mem_cons.mp hkp with e | e
    · cases e
      refine ⟨hu, ?_, hr, hn0, hn, hname⟩
      simp only [lookup_sins, if_pos, hl, Option.getD_none]
    · obtain ⟨g1, g2, g3⟩ := h.pnd k p e
      exact ⟨g1, hmono k p g2, g3⟩
  · rw [List.map_cons, List.nodup_cons]
    refine ⟨?_, h.pnodup⟩
    intro hm
    obtain ⟨⟨k, p⟩, hkp, rfl⟩ := List.mem_map.mp hm
    exact h.pend_lookup hl p hkp
  · intro v t hv ht
    exact (h.all v t hv ht).imp id (hmono v t)

/-! ### Registering a copy -/

theorem fromAlias_reg {H : Heap} {R R' : Reg} (hac : Acyclic H) (hinv' : Inv key H R') (n0 : TId)
    (hold : ∀ n t, R.reg n = some t → n ≠ H.name t → FromAlias H0 R0 n)
    (hext : ∀ n t, R.reg n = some t → R'.reg n = some t)
    (hnew : ∀ n t, New R R' n t → (n = H.name n0 ∧ t = n0) ∨ Derived H R' n t) :
    ∀ t n, R'.reg n = some t → n ≠ H.name t → FromAlias H0 R0 n := by
  intro t
  induction t using Nat.strongRecOn with
  | ind t ih =>
    intro n hn hne
    cases hr : R.reg n with
    | some v =>
      have := hext n v hr
      rw [hn] at this
      cases this
      exact hold n t hr hne
    | none =>
      rcases hnew n t ⟨hr, hn⟩ with ⟨e1, e2⟩ | ⟨ind, x, a, e1, e2, e3, e4, e5, e6⟩
      · rw [e2] at hne; exact absurd e1 hne
      · rw [e3]
        exact .step (ih x (hac t x e2) a e4 e5) e1

/-- what adding the copy `n` of `u` does; `H'` is the heap once the size of `n` is set -/
theorem addAuto_J (hk : ∀ a b, key a = key b → a = b) (hs : Source H0 S) (hna : ∀ u, S u → ¬ FromAlias H0 R0 (H0.name u))
    {pend' : List (TId × TId)} {s : MSt} {u n : TId} {H' : Heap} (src : Str)
    (h : J key H0 R0 S base pend' s) (hu : S u) (hn : n < s.H.next) (hn0 : H0.next ≤ n)
    (hnm : s.H.name n = H0.name u) (hdeps : ∀ d ∈ s.H.deps n, s.R.regd s.H d ∨ ∃ k, (k, d) ∈ pend')
    (hpend : pend' = (u, n) :: pend ∨ (pend' = pend ∧ s.R.reg (H0.name u) = some n))
    (hnext : H'.next = s.H.next) (hget : ∀ t, t ≠ n → H'.get t = s.H.get t) (hname' : H'.name n = s.H.name n)
    (hkind' : H'.kind n = s.H.kind n) (hdef : definition H' n = definition H' u) (hlook : s.st.lookup u = some n) :
    let o := addAuto key s.H s.R n src
    (∀ m t, s.R.reg m = some t → o.1.reg m = some t) ∧
    ((o.2 = .ok () ∧ J key H0 R0 S base pend ⟨H', o.1, s.st⟩ ∧ o.1.reg (H0.name u) = some n) ∨
     (o.2 = .exn .badName ∧ ∃ m, FromAlias H0 R0 m)) := by
  intro o
  have hreg : s.R.reg (H0.name u) = none ∨ s.R.reg (H0.name u) = some n := by
    rcases hpend with rfl | ⟨_, e⟩
    · exact Or.inl (h.pnd u n (by simp)).2.2.1
    · exact Or.inr e
  have hsub : ∀ k p, (k, p) ∈ pend → (k, p) ∈ pend' ∧ k ≠ u := by
    intro k p hkp
    rcases hpend with rfl | ⟨rfl, e⟩
    · refine ⟨List.mem_cons_of_mem _ hkp, ?_⟩
      rintro rfl
      have := h.pnodup
      rw [List.map_cons, List.nodup_cons] at this
      exact this.1 (List.mem_map.mpr ⟨_, hkp, rfl⟩)
    · refine ⟨hkp, ?_⟩
      rintro rfl
      rw [(h.pnd k p hkp).2.2.1] at e
      cases e
  have hpend' : ∀ k p, (k, p) ∈ pend' → (k, p) ∈ pend ∨ (k = u ∧ p = n) := by
    intro k p hkp
    rcases hpend with rfl | ⟨rfl, _⟩
    · rcases List.mem_cons.mp hkp with e | e
      · cases e; exact Or.inr ⟨rfl, rfl⟩
      · exact Or.inl e
    · exact Or.inl hkp
  have hnd : (pend.map (·.1)).Nodup := by
    rcases hpend with rfl | ⟨rfl, _⟩
    · have := h.pnodup
      rw [List.map_cons, List.nodup_cons] at this
      exact this.2
    · exact h.pnodup
  obtain ⟨⟨a1, a2, a3, a4, a5⟩, b, c⟩ := add_spec hk h.ac h.inv n hn (by rw [hnm]; exact hs.abs u hu)
    (isPersistent s.H (s.H.name n) n) src
  have ho : o = add key s.H s.R n (isPersistent s.H (s.H.name n) n) src := rfl
  rw [← ho] at a1 a2 a3 a4 a5 b c
  have hal := fromAlias_reg (H0 := H0) (R0 := R0) h.ac a1 n h.alia a3 a4
  have hnewS : ∀ v, S v → v ≠ u → s.R.reg (H0.name v) = none → o.1.reg (H0.name v) = none := by
    intro v hv hne hr
    cases hr' : o.1.reg (H0.name v) with
    | none => rfl
    | some t =>
      exfalso
      rcases a4 _ t ⟨hr, hr'⟩ with ⟨e1, _⟩ | ⟨ind, x, a, e1, e2, e3, e4, e5, e6⟩
      · rw [hnm] at e1
        exact hne (hs.inj v u hv hu e1)
      · refine hna v hv ?_
        rw [e3]
        exact .step (hal x a e4 e5) e1
  have hnames : ∀ t, H'.name t = s.H.name t := by
    intro t
    by_cases e : t = n
    · rw [e]; exact hname'
    · unfold Heap.name; rw [hget t e]
  have hkinds : ∀ t, H'.kind t = s.H.kind t := by
    intro t
    by_cases e : t = n
    · rw [e]; exact hkind'
    · unfold Heap.kind; rw [hget t e]
  have hdepsE : ∀ t, H'.deps t = s.H.deps t := by
    intro t; unfold Heap.deps; rw [hkinds]
  have hregdH : ∀ (R : Reg) t, R.regd H' t ↔ R.regd s.H t := by
    intro R t; unfold Reg.regd; rw [hnames]
  refine ⟨a3, ?_⟩
  rcases c with c | c | c | c
  · left
    obtain ⟨b1, b2, b3⟩ := b c
    rw [hnm] at b1
    have hold : ∀ t, o.1.regd s.H t → t = n ∨ s.R.regd s.H t := by
      intro t ht
      cases hr : s.R.reg (s.H.name t) with
      | none => exact a5 _ t ⟨hr, ht⟩
      | some v =>
        have := a3 _ _ hr
        unfold Reg.regd at ht
        rw [ht] at this
        cases this
        exact Or.inr hr
    have hun : u ≠ n := by
      rintro rfl
      exact absurd (hs.alloc u hu) (Nat.not_lt.mpr hn0)
    have hregn : o.1.regd s.H n := by
      unfold Reg.regd
      rw [hnm]; exact b1
    refine ⟨c, ⟨?_, ?_, ?_, ?_, ?_, ?_, ?_, ?_, ?_, ?_, ?_, ?_, ?_, hnd, ?_, ?_, ?_⟩, b1⟩
    · exact a1.heap (Nat.le_of_eq hnext.symm) (fun t _ _ => hnames t)
    · intro v x hx
      simp only at hx
      rw [hkinds] at hx
      exact h.ac v x hx
    · refine ⟨?_, ?_⟩
      · intro t d ht hd
        simp only at ht hd ⊢
        rw [hnext] at ht ⊢
        rw [hdepsE] at hd
        exact h.wf.deps t d ht hd
      · intro t l hl
        simp only at hl
        rw [hkinds] at hl
        exact h.wf.syms t l hl
    · show H0.next ≤ H'.next
      rw [hnext]; exact h.next
    · intro t ht
      simp only
      rw [hget t (by rintro rfl; exact absurd ht (Nat.not_lt.mpr hn0))]
      exact h.old t ht
    · intro m t hm
      exact a3 m t (h.ext m t hm)
    · intro t d ht hd
      simp only at ht hd ⊢
      rw [hregdH] at ht ⊢
      rw [hdepsE] at hd
      have hd' : s.R.regd s.H d ∨ ∃ k, (k, d) ∈ pend' := by
        rcases hold t ht with rfl | ht'
        · exact hdeps d hd
        · exact h.closed t d ht' hd
      rcases hd' with hd' | ⟨k, hd'⟩
      · exact Or.inl (a3 _ _ hd')
      · rcases hpend' k d hd' with e | ⟨_, rfl⟩
        · exact Or.inr ⟨k, e⟩
        · exact Or.inl hregn
    · intro v t hv ht
      simp only at ht ⊢
      by_cases hvu : v = u
      · subst hvu
        rw [b1] at ht
        cases ht
        exact hdef
      · cases hr : s.R.reg (H0.name v) with
        | none =>
          rw [hnewS v hv hvu hr] at ht
          cases ht
        | some w =>
          have := a3 _ _ hr
          rw [ht] at this
          cases this
          have htn : t ≠ n := by
            rintro rfl
            have h1 := h.compat v t hv hr
            unfold definition at h1
            injection h1 with h1
            rw [hnm, h.name hs hv] at h1
            exact hvu (hs.inj v u hv hu h1.symm)
          have hvn : v ≠ n := by
            rintro rfl
            exact absurd (hs.alloc v hv) (Nat.not_lt.mpr hn0)
          rw [definition_congr (hget t htn) (fun d _ => hnames d), definition_congr (hget v hvn) (fun d _ => hnames d)]
          exact h.compat v t hv hr
    · intro m t hm hne
      simp only at hm hne
      rw [hnames] at hne
      exact hal t m hm hne
    · intro v hv hr
      simp only at hr
      rw [hregdH] at hr
      rcases hold v hr with rfl | hr'
      · exact absurd (hs.alloc v hv) (Nat.not_lt.mpr hn0)
      · exact h.disj v hv hr'
    · intro k v hkv
      simp only at hkv ⊢
      rcases h.stk k v hkv with ⟨h1, h2 | h2⟩ | ⟨h1, h2, h3⟩
      · rcases hpend' k v h2 with e | ⟨rfl, rfl⟩
        · exact Or.inl ⟨h1, Or.inl e⟩
        · exact Or.inl ⟨h1, Or.inr b1⟩
      · exact Or.inl ⟨h1, Or.inr (a3 _ _ h2)⟩
      · exact Or.inr ⟨h1, h2, by rw [hnames]; exact h3⟩
    · intro t ht
      simp only at ht ⊢
      rw [hregdH] at ht
      rw [hnames]
      rcases hold t ht with rfl | ht'
      · exact Or.inr ⟨u, hu, hnm.symm⟩
      · exact h.new t ht'
    · intro k p hkp
      obtain ⟨hkp', hku⟩ := hsub k p hkp
      obtain ⟨g1, g2, g3, g4, g5, g6⟩ := h.pnd k p hkp'
      refine ⟨g1, g2, hnewS k g1 hku g3, g4, ?_, ?_⟩
      · show p < H'.next
        rw [hnext]; exact g5
      · show H'.name p = _
        rw [hnames]; exact g6
    · intro t ht
      exact (hregdH _ t).mpr (a3 _ _ (h.baseR t ht))
    · intro t d ht hd
      simp only at hd
      rw [hdepsE] at hd
      exact h.baseC t d ht hd
    · intro v t hv ht
      simp only at ht ⊢
      by_cases hvu : v = u
      · subst hvu
        rw [b1] at ht
        cases ht
        exact Or.inr hlook
      · cases hr : s.R.reg (H0.name v) with
        | none =>
          rw [hnewS v hv hvu hr] at ht
          cases ht
        | some w =>
          have := a3 _ _ hr
          rw [ht] at this
          cases this
          exact h.all v t hv hr
  · exfalso
    have := c.2.2
    rw [hnm, hs.valid u hu] at this
    cases this
  · exfalso
    obtain ⟨_, _, v, hv, hne⟩ := c
    rw [hnm] at hv
    rcases hreg with e | e <;> rw [e] at hv <;> cases hv
    exact hne rfl
  · right
    refine ⟨c.1, ?_⟩
    obtain ⟨m, v, ⟨ind, x, a, e1, e2, e3, e4, e5, e6⟩, _⟩ := c.2.2
    exact ⟨a, hal x a e4 e5⟩

end Verif.Merge
