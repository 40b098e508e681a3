import Verif.MergeMeta
import Verif.MergeSources

/-! C78: metadata follow the types when registries are merged. -/

namespace Verif.MergeMeta
open Verif Verif.Names Verif.Graph Verif.Registry Verif.TypeBuilder Verif.Merge

variable {key : Char → Int}

theorem holds_merge {m m' : Meta.MetaData} (h : Built m) (h' : Built m') (k : Str) (v : Option Str) :
    Holds (Meta.merge m m') k v ↔ Holds m k v ∨ Holds m' k v := by
  obtain ⟨s, h⟩ := h
  obtain ⟨s', h'⟩ := h'
  cases v with
  | none => exact (Meta.C34_merge_union h h' k).1
  | some v => exact (Meta.C34_merge_union h h' k).2 v

theorem built_merge {m m' : Meta.MetaData} (h : Built m) (h' : Built m') : Built (Meta.merge m m') := by
  obtain ⟨s, h⟩ := h
  obtain ⟨s', h'⟩ := h'
  exact ⟨_, .merge h h'⟩

theorem holds_nil (k : Str) (v : Option Str) : ¬ Holds [] k v := by
  cases v with
  | none => intro h; cases h
  | some v => intro h; cases h

theorem counterpart_iff (H : Heap) (t u : TId) (i j : Nat) :
    counterpart H t u i = some j ↔ Corresponds H t u (some i) (some j) := by
  constructor
  · intro h
    unfold counterpart at h
    split at h
    · rename_i fs gs h1 h2
      cases hf : fs[i]? with
      | none => rw [hf] at h; cases h
      | some f =>
        rw [hf] at h
        simp only [Option.bind_some] at h
        rw [List.findIdx?_eq_some_iff_getElem] at h
        obtain ⟨hlt, h3, h4⟩ := h
        refine .field h1 h2 hf (List.getElem?_eq_getElem hlt) (by simpa using h3) ?_
        intro j' g' hj hg
        have := h4 j' hj
        obtain ⟨hl, rfl⟩ := List.getElem?_eq_some_iff.mp hg
        simpa using this
    · cases h
  · intro h
    cases h with
    | field h1 h2 h3 h4 h5 h6 =>
      unfold counterpart
      rw [h1, h2]
      simp only [h3, Option.bind_some]
      rw [List.findIdx?_eq_some_iff_getElem]
      obtain ⟨hl, hg⟩ := List.getElem?_eq_some_iff.mp h4
      refine ⟨hl, by simp [hg, h5], ?_⟩
      intro j' hj
      have := h6 j' _ hj (List.getElem?_eq_getElem (Nat.lt_trans hj hl))
      simpa using this

theorem corresponds_none {H : Heap} {t u : TId} {s' : Spot} : Corresponds H t u none s' ↔ s' = none := by
  constructor
  · intro h; cases h; rfl
  · rintro rfl; exact .own

theorem corresponds_some {H : Heap} {t u : TId} {i : Nat} {s' : Spot} :
    Corresponds H t u (some i) s' ↔ ∃ j, s' = some j ∧ counterpart H t u i = some j := by
  constructor
  · intro h
    cases h with
    | field h1 h2 h3 h4 h5 h6 => exact ⟨_, rfl, (counterpart_iff H t u i _).mpr (.field h1 h2 h3 h4 h5 h6)⟩
  · rintro ⟨j, rfl, h⟩
    exact (counterpart_iff H t u i j).mp h

theorem typeMergeMeta_holds {H : Heap} {M : Store} (hM : ∀ t s, Built (M t s)) (t u x : TId) (s : Spot) (k : Str)
    (v : Option Str) :
    Holds (typeMergeMeta H M t u x s) k v ↔
      Holds (M x s) k v ∨ (x = t ∧ ∃ s', Corresponds H t u s s' ∧ Holds (M u s') k v) := by
  unfold typeMergeMeta
  by_cases hx : x = t
  · rw [if_pos hx, hx]
    cases s with
    | none =>
      simp only [holds_merge (hM t none) (hM u none), true_and]
      constructor
      · rintro (h | h)
        · exact Or.inl h
        · exact Or.inr ⟨none, .own, h⟩
      · rintro (h | ⟨s', h1, h2⟩)
        · exact Or.inl h
        · rw [corresponds_none.mp h1] at h2; exact Or.inr h2
    | some i =>
      simp only [true_and]
      cases hc : counterpart H t u i with
      | none =>
        simp only
        constructor
        · exact Or.inl
        · rintro (h | ⟨s', h1, _⟩)
          · exact h
          · obtain ⟨j, _, h⟩ := corresponds_some.mp h1
            rw [hc] at h; cases h
      | some j =>
        simp only [holds_merge (hM t (some i)) (hM u (some j))]
        constructor
        · rintro (h | h)
          · exact Or.inl h
          · exact Or.inr ⟨some j, corresponds_some.mpr ⟨j, rfl, hc⟩, h⟩
        · rintro (h | ⟨s', h1, h2⟩)
          · exact Or.inl h
          · obtain ⟨j', rfl, h⟩ := corresponds_some.mp h1
            rw [hc] at h; cases h
            exact Or.inr h2
  · rw [if_neg hx]
    simp [hx]

theorem typeMergeMeta_built {H : Heap} {M : Store} (hM : ∀ t s, Built (M t s)) (t u x : TId) (s : Spot) :
    Built (typeMergeMeta H M t u x s) := by
  unfold typeMergeMeta
  by_cases hx : x = t
  · rw [if_pos hx]
    cases s with
    | none => exact built_merge (hM _ _) (hM _ _)
    | some i =>
      simp only
      cases counterpart H t u i with
      | none => exact hM _ _
      | some j => exact built_merge (hM _ _) (hM _ _)
  · rw [if_neg hx]; exact hM _ _

theorem typeMergeMeta_other {H : Heap} {M : Store} {t u x : TId} (hx : x ≠ t) (s : Spot) :
    typeMergeMeta H M t u x s = M x s := by
  unfold typeMergeMeta
  rw [if_neg hx]

/-- The objects designated by the tables `R`. -/
def Target (R : Reg) (t : TId) : Prop := ∃ n e, glookup R.global n = some e ∧ e.ty = t

theorem mergeMetaStep_spec {H : Heap} {R : Reg} {M : Store} (hM : ∀ t s, Built (M t s)) (p : Str × Entry) :
    (∀ t s, Built (mergeMetaStep H R M p t s)) ∧
    (∀ t s, ¬ Target R t → mergeMetaStep H R M p t s = M t s) ∧
    (∀ t s k v, Holds (mergeMetaStep H R M p t s) k v ↔ Holds (M t s) k v ∨
      ∃ e, glookup R.global p.1 = some e ∧ e.ty = t ∧ ∃ s', Corresponds H t p.2.ty s s' ∧ Holds (M p.2.ty s') k v) := by
  unfold mergeMetaStep
  cases hl : glookup R.global p.1 with
  | none => exact ⟨hM, fun _ _ _ => rfl, fun t s k v => by simp⟩
  | some e =>
    refine ⟨fun t s => typeMergeMeta_built hM _ _ _ _, fun t s ht => typeMergeMeta_other ?_ s, ?_⟩
    · rintro rfl; exact ht ⟨_, e, hl, rfl⟩
    · intro t s k v
      simp only
      rw [typeMergeMeta_holds hM]
      constructor
      · rintro (h | ⟨rfl, s', h1, h2⟩)
        · exact Or.inl h
        · exact Or.inr ⟨e, rfl, rfl, s', h1, h2⟩
      · rintro (h | ⟨e', h0, h1, s', h2, h3⟩)
        · exact Or.inl h
        · cases h0
          refine Or.inr ⟨h1.symm, s', ?_, h3⟩
          rw [h1]; exact h2

theorem mergeMetaData_spec {H : Heap} {R : Reg} (l : List (Str × Entry)) (hd : ∀ p ∈ l, ¬ Target R p.2.ty) :
    ∀ M : Store, (∀ t s, Built (M t s)) →
    (∀ t s, Built (mergeMetaData H R M l t s)) ∧
    (∀ t s, ¬ Target R t → mergeMetaData H R M l t s = M t s) ∧
    (∀ t s k v, Holds (mergeMetaData H R M l t s) k v ↔ Holds (M t s) k v ∨
      ∃ p ∈ l, ∃ e, glookup R.global p.1 = some e ∧ e.ty = t ∧
        ∃ s', Corresponds H t p.2.ty s s' ∧ Holds (M p.2.ty s') k v) := by
  induction l with
  | nil => intro M hM; exact ⟨hM, fun _ _ _ => rfl, fun t s k v => by simp [mergeMetaData]⟩
  | cons p l ih =>
    intro M hM
    obtain ⟨a1, a2, a3⟩ := mergeMetaStep_spec (H := H) (R := R) hM p
    obtain ⟨b1, b2, b3⟩ := ih (fun q hq => hd q (List.mem_cons_of_mem _ hq)) (mergeMetaStep H R M p) a1
    have he0 : mergeMetaData H R M (p :: l) = mergeMetaData H R (mergeMetaStep H R M p) l := rfl
    rw [he0]
    refine ⟨b1, fun t s ht => (b2 t s ht).trans (a2 t s ht), ?_⟩
    intro t s k v
    rw [b3, a3]
    constructor
    · rintro ((h | ⟨e, h1, h2, s', h3, h4⟩) | ⟨q, hq, e, h1, h2, s', h3, h4⟩)
      · exact Or.inl h
      · exact Or.inr ⟨p, List.mem_cons_self, e, h1, h2, s', h3, h4⟩
      · rw [a2 _ _ (hd q (List.mem_cons_of_mem _ hq))] at h4
        exact Or.inr ⟨q, List.mem_cons_of_mem _ hq, e, h1, h2, s', h3, h4⟩
    · rintro (h | ⟨q, hq, e, h1, h2, s', h3, h4⟩)
      · exact Or.inl (Or.inl h)
      · rcases List.mem_cons.mp hq with rfl | hq
        · exact Or.inl (Or.inr ⟨e, h1, h2, s', h3, h4⟩)
        · refine Or.inr ⟨q, hq, e, h1, h2, s', h3, ?_⟩
          rw [a2 _ _ (hd q (List.mem_cons_of_mem _ hq))]
          exact h4

/-! ### `source_id` -/

theorem holds_set {m : Meta.MetaData} (h : Built m) {k j : Str} (hj : j ≠ k) (x : Str) (v : Option Str) :
    Holds (Meta.set m k x) j v ↔ Holds m j v := by
  obtain ⟨s, h⟩ := h
  have a := Meta.C34_refines_map (Meta.Hist.set k x h) j
  have b := Meta.C34_refines_map h j
  simp only [if_neg hj] at a
  cases v with
  | none => exact a.1.trans b.1.symm
  | some v => exact (a.2 v).trans (b.2 v).symm

theorem copySourceM_spec {H : Heap} {R : Reg} {M : Store} (hM : ∀ t s, Built (M t s)) (p : Str × Entry) :
    (copySourceM H (R, M) p).1 = copySource H R p ∧
    (∀ t s, Built ((copySourceM H (R, M) p).2 t s)) ∧
    (∀ t s, ¬ Target R t → (copySourceM H (R, M) p).2 t s = M t s) ∧
    (∀ t s k v, s ≠ none ∨ k ≠ sourceKey → (Holds ((copySourceM H (R, M) p).2 t s) k v ↔ Holds (M t s) k v)) := by
  unfold copySourceM copySource
  simp only
  cases hl : glookup R.global p.1 with
  | none => exact ⟨rfl, hM, fun _ _ _ => rfl, fun _ _ _ _ _ => Iff.rfl⟩
  | some e =>
    simp only
    by_cases hc : p.2.source ≠ [] ∧ e.source = []
    · rw [if_pos hc, if_pos hc]
      refine ⟨rfl, ?_⟩
      simp only
      unfold setSourceMeta
      cases glookup R.global (H.name e.ty) with
      | none => exact ⟨hM, fun _ _ _ => rfl, fun _ _ _ _ _ => Iff.rfl⟩
      | some f =>
        simp only
        unfold Store.put
        refine ⟨?_, ?_, ?_⟩
        · intro t s
          by_cases h : t = e.ty ∧ s = none
          · rw [if_pos h]
            obtain ⟨x, hx⟩ := hM e.ty none
            exact ⟨_, .set _ _ hx⟩
          · rw [if_neg h]; exact hM _ _
        · intro t s ht
          rw [if_neg]
          rintro ⟨rfl, _⟩
          exact ht ⟨_, e, hl, rfl⟩
        · intro t s k v hk
          by_cases h : t = e.ty ∧ s = none
          · rw [if_pos h, h.1, h.2]
            exact holds_set (hM _ _) (hk.resolve_left (fun h' => h' h.2)) _ _
          · rw [if_neg h]
    · rw [if_neg hc, if_neg hc]
      exact ⟨rfl, hM, fun _ _ _ => rfl, fun _ _ _ _ _ => Iff.rfl⟩

theorem target_copy {H : Heap} {R : Reg} {p : Str × Entry} {t : TId} (h : Target (copySource H R p) t) : Target R t := by
  obtain ⟨n, e, h1, h2⟩ := h
  rw [copySource_lookup] at h1
  cases hx : glookup R.global n with
  | none => rw [hx] at h1; cases h1
  | some f => rw [hx] at h1; cases h1; exact ⟨n, f, hx, h2⟩

theorem copySourceIDsM_spec {H : Heap} (l : List (Str × Entry)) : ∀ (R : Reg) (M : Store), (∀ t s, Built (M t s)) →
    (copySourceIDsM H (R, M) l).1 = copySourceIDs H R l ∧
    (∀ t s, Built ((copySourceIDsM H (R, M) l).2 t s)) ∧
    (∀ t s, ¬ Target R t → (copySourceIDsM H (R, M) l).2 t s = M t s) ∧
    (∀ t s k v, s ≠ none ∨ k ≠ sourceKey → (Holds ((copySourceIDsM H (R, M) l).2 t s) k v ↔ Holds (M t s) k v)) := by
  induction l with
  | nil => intro R M hM; exact ⟨rfl, hM, fun _ _ _ => rfl, fun _ _ _ _ _ => Iff.rfl⟩
  | cons p l ih =>
    intro R M hM
    obtain ⟨a1, a2, a3, a4⟩ := copySourceM_spec (H := H) (R := R) hM p
    have e : copySourceIDsM H (R, M) (p :: l) = copySourceIDsM H (copySourceM H (R, M) p) l := rfl
    have e' : copySourceIDs H R (p :: l) = copySourceIDs H (copySource H R p) l := rfl
    rw [e, e']
    generalize copySourceM H (R, M) p = w at a1 a2 a3 a4
    obtain ⟨R1, M1⟩ := w
    simp only at a1 a2 a3 a4
    obtain ⟨b1, b2, b3, b4⟩ := ih R1 M1 a2
    rw [← a1]
    refine ⟨b1, b2, fun t s ht => (b3 t s ?_).trans (a3 t s ht), fun t s k v hk => (b4 t s k v hk).trans (a4 t s k v hk)⟩
    rw [a1]
    exact fun h => ht (target_copy h)

/-! ### the end of `merge` and `minimal` -/

theorem target_reg {R : Reg} {t : TId} : Target R t ↔ ∃ n, R.reg n = some t := by
  unfold Target Reg.reg
  constructor
  · rintro ⟨n, e, h1, h2⟩
    exact ⟨n, by rw [h1, ← h2]; rfl⟩
  · rintro ⟨n, h⟩
    cases hl : glookup R.global n with
    | none => rw [hl] at h; cases h
    | some e => rw [hl] at h; cases h; exact ⟨n, e, hl, rfl⟩

/-- What `finish` does, given that the types of the source are not those of the tables. -/
theorem finish_spec {src : Reg} {s : MSt} {M : Store} (hi : Sorted key src.global)
    (hM : ∀ t s, Built (M t s)) (hd : ∀ n u, src.reg n = some u → ∀ m, s.R.reg m ≠ some u) :
    let o := finish (s, .ok ()) M src
    o.1.1 = (s.H, copySourceIDs s.H s.R src.global) ∧ o.2 = .ok () ∧
    (∀ n u sp, src.reg n = some u → o.1.2 u sp = M u sp) ∧
    (∀ t sp, (∀ n, s.R.reg n ≠ some t) → o.1.2 t sp = M t sp) ∧
    (∀ t sp k v, sp ≠ none ∨ k ≠ sourceKey → (Holds (o.1.2 t sp) k v ↔ Holds (M t sp) k v ∨
      ∃ n u sp', src.reg n = some u ∧ s.R.reg n = some t ∧ Corresponds s.H t u sp sp' ∧ Holds (M u sp') k v)) := by
  intro o
  obtain ⟨a1, a2, a3, a4⟩ := copySourceIDsM_spec (H := s.H) src.global s.R M hM
  have hreg : ∀ n, (copySourceIDs s.H s.R src.global).reg n = s.R.reg n := copySourceIDs_ty src.global s.R
  have hT : ∀ t, Target (copySourceIDs s.H s.R src.global) t ↔ Target s.R t := by
    intro t
    rw [target_reg, target_reg]
    simp only [hreg]
  have hsrcT : ∀ n u, src.reg n = some u → ¬ Target s.R u := by
    intro n u hu ht
    obtain ⟨m, hm⟩ := target_reg.mp ht
    exact hd n u hu m hm
  have hdl : ∀ p ∈ src.global, ¬ Target (copySourceIDs s.H s.R src.global) p.2.ty := by
    intro p hp
    rw [hT]
    exact hsrcT _ _ (mem_reg hi hp)
  have ho : o = (((s.H, (copySourceIDsM s.H (s.R, M) src.global).1),
      mergeMetaData s.H (copySourceIDsM s.H (s.R, M) src.global).1 (copySourceIDsM s.H (s.R, M) src.global).2 src.global),
      .ok ()) := rfl
  rw [ho, a1]
  generalize (copySourceIDsM s.H (s.R, M) src.global).2 = M1 at a2 a3 a4
  obtain ⟨b1, b2, b3⟩ := mergeMetaData_spec (H := s.H) src.global hdl M1 a2
  refine ⟨rfl, rfl, ?_, ?_, ?_⟩
  · intro n u sp hu
    have h := hsrcT n u hu
    exact (b2 u sp (by rw [hT]; exact h)).trans (a3 u sp h)
  · intro t sp ht
    have h : ¬ Target s.R t := by
      rw [target_reg]
      rintro ⟨n, h⟩
      exact ht n h
    exact (b2 t sp (by rw [hT]; exact h)).trans (a3 t sp h)
  · intro t sp k v hk
    simp only
    rw [b3, a4 t sp k v hk]
    constructor
    · rintro (h | ⟨p, hp, e, h1, h2, s', h3, h4⟩)
      · exact Or.inl h
      · have hr := mem_reg hi hp
        rw [a3 _ _ (hsrcT _ _ hr)] at h4
        refine Or.inr ⟨p.1, p.2.ty, s', hr, ?_, h3, h4⟩
        rw [← hreg]
        unfold Reg.reg
        rw [h1, ← h2]; rfl
    · rintro (h | ⟨n, u, s', h1, h2, h3, h4⟩)
      · exact Or.inl h
      · obtain ⟨e, he, rfl⟩ := reg_mem h1
        rw [← hreg] at h2
        unfold Reg.reg at h2
        cases hl : glookup (copySourceIDs s.H s.R src.global).global n with
        | none => rw [hl] at h2; cases h2
        | some e' =>
          rw [hl] at h2
          cases h2
          refine Or.inr ⟨(n, e), he, e', hl, rfl, s', h3, ?_⟩
          rw [a3 _ _ (hsrcT _ _ h1)]
          exact h4

theorem mergeM_world (fuel : Nat) (w : World) (src : Reg) (M : Store) (hM : ∀ t s, Built (M t s)) :
    (mergeM key fuel w src M).1.1 = (merge key fuel w src).1 ∧ (mergeM key fuel w src M).2 = (merge key fuel w src).2 := by
  unfold mergeM merge mergeLoops
  generalize (andThen (mergeTypes key fuel src.global ⟨w.1, w.2, []⟩) fun s _ => mergeAliases key src.global s) = o
  obtain ⟨s, r⟩ := o
  cases r with
  | ok a =>
    cases a
    unfold finish
    simp only
    exact ⟨by rw [(copySourceIDsM_spec (H := s.H) src.global s.R M hM).1], trivial⟩
  | exn e => exact ⟨rfl, rfl⟩
  | ub => exact ⟨rfl, rfl⟩
  | fuel => exact ⟨rfl, rfl⟩

theorem minimalM_world (fuel : Nat) (H : Heap) (src fresh : Reg) (name : Str) (al : Bool) (M : Store)
    (hM : ∀ t s, Built (M t s)) :
    (minimalM key fuel H src fresh name al M).1.1 = (minimal key fuel H src fresh name al).1 ∧
    (minimalM key fuel H src fresh name al M).2 = (minimal key fuel H src fresh name al).2 := by
  unfold minimalM minimal minimalLoops
  cases src.get name with
  | none => exact ⟨rfl, rfl⟩
  | some t =>
    simp only
    generalize (andThen (mergeF key fuel ⟨H, fresh, []⟩ t) fun s _ =>
      if al then minimalAliases key src.global s else (s, .ok ())) = o
    obtain ⟨s, r⟩ := o
    cases r with
    | ok a =>
      cases a
      unfold finish
      simp only
      exact ⟨by rw [(copySourceIDsM_spec (H := s.H) src.global s.R M hM).1], trivial⟩
    | exn e => exact ⟨rfl, rfl⟩
    | ub => exact ⟨rfl, rfl⟩
    | fuel => exact ⟨rfl, rfl⟩

theorem created_built {H H' : Heap} {src : Reg} {M M1 : Store} (hM : ∀ t s, Built (M t s)) (hc : Created H H' src M M1) :
    ∀ t s, Built (M1 t s) := by
  intro t s
  by_cases ht : t < H.next
  · rw [hc.old t s ht]; exact hM _ _
  · have ht' : H.next ≤ t := Nat.le_of_not_lt ht
    cases s with
    | some i => rw [hc.field t i ht']; exact ⟨_, .init⟩
    | none =>
      rcases hc.own t ht' with h | ⟨u, _, _, h⟩
      · rw [h]; exact ⟨_, .init⟩
      · rw [h]; exact hM _ _

theorem tail {H : Heap} {src : Reg} {o : MSt × Res Unit} {M M1 : Store} (hi : Inv key H src) (hM : ∀ t s, Built (M t s))
    (hok : (finish o M1 src).2 = .ok ()) (hw : Inv key (finish o M1 src).1.1.1 (finish o M1 src).1.1.2)
    (hobj : ∀ t, t < H.next → (finish o M1 src).1.1.1.get t = H.get t)
    (hdis : ∀ u, Regd H src u → ¬ (finish o M1 src).1.1.2.regd (finish o M1 src).1.1.1 u)
    (hcr : Created H (finish o M1 src).1.1.1 src M M1) :
    let w := (finish o M1 src).1.1
    let M' := (finish o M1 src).1.2
    (∀ u sp, Regd H src u → M' u sp = M u sp) ∧
    (∀ t sp, t < H.next → ¬ Regd w.1 w.2 t → M' t sp = M t sp) ∧
    (∀ t sp k v, Regd w.1 w.2 t → sp ≠ none ∨ k ≠ sourceKey →
      (Holds (M' t sp) k v ↔ (t < H.next ∧ Holds (M t sp) k v) ∨
        ∃ n u sp', isAbsoluteName n = true ∧ src.get n = some u ∧ w.2.get n = some t ∧ Corresponds w.1 t u sp sp' ∧
          Holds (M u sp') k v)) := by
  obtain ⟨s, r⟩ := o
  have hr : r = .ok () := by
    cases r with
    | ok a => cases a; rfl
    | exn e => cases hok
    | ub => cases hok
    | fuel => cases hok
  subst hr
  have hM1 := created_built hM hcr
  have hw1 : (finish (s, .ok ()) M1 src).1.1 = (s.H, copySourceIDs s.H s.R src.global) := by
    show (s.H, (copySourceIDsM s.H (s.R, M1) src.global).1) = _
    rw [(copySourceIDsM_spec (H := s.H) src.global s.R M1 hM1).1]
  rw [hw1] at hw hobj hdis hcr
  simp only at hw hobj hdis hcr
  have hreg : ∀ n, (copySourceIDs s.H s.R src.global).reg n = s.R.reg n := copySourceIDs_ty src.global s.R
  have hregd : ∀ n t, s.R.reg n = some t → Regd s.H (copySourceIDs s.H s.R src.global) t := by
    intro n t hn
    rw [← hreg] at hn
    exact (hw.regd_iff t).mpr (hw.reg_name hn).2.2.1
  have hsr : ∀ n u, src.reg n = some u → Regd H src u := fun n u hu => (hi.regd_iff u).mpr (hi.reg_name hu).2.2.1
  obtain ⟨_, _, f3, f4, f5⟩ := finish_spec (s := s) hi.sorted hM1 (by
    intro n u hu m hm
    exact hdis u (hsr n u hu) ((hw.regd_iff u).mp (hregd m u hm)))
  intro w M'
  have hww : w = (s.H, copySourceIDs s.H s.R src.global) := hw1
  rw [hww]
  simp only
  have hlt : ∀ u, Regd H src u → u < H.next := fun u hu => (hi.reg_name ((hi.regd_iff u).mp hu)).2.2.2
  refine ⟨?_, ?_, ?_⟩
  · intro u sp hu
    exact (f3 _ u sp ((hi.regd_iff u).mp hu)).trans (hcr.old u sp (hlt u hu))
  · intro t sp ht hn
    exact (f4 t sp (fun n h => hn (hregd n t h))).trans (hcr.old t sp ht)
  · intro t sp k v ht hk
    refine (f5 t sp k v hk).trans ?_
    constructor
    · rintro (h | ⟨n, u, sp', h1, h2, h3, h4⟩)
      · by_cases hn : t < H.next
        · rw [hcr.old t sp hn] at h
          exact Or.inl ⟨hn, h⟩
        · have hn' : H.next ≤ t := Nat.le_of_not_lt hn
          cases sp with
          | some i => rw [hcr.field t i hn'] at h; exact absurd h (holds_nil _ _)
          | none =>
            rcases hcr.own t hn' with e | ⟨u, e1, e2, e3⟩
            · rw [e] at h; exact absurd h (holds_nil _ _)
            · rw [e3] at h
              refine Or.inr ⟨H.name u, u, none, (hi.reg_name ((hi.regd_iff u).mp e1)).2.1, e1, ?_, .own, h⟩
              rw [e2]; exact ht
      · rw [hcr.old u sp' (hlt u (hsr n u h1))] at h4
        have ha := (hi.reg_name h1).2.1
        refine Or.inr ⟨n, u, sp', ha, by rw [hi.abs n ha]; exact h1, ?_, h3, h4⟩
        rw [hw.abs n ha, hreg]; exact h2
    · rintro (⟨hn, h⟩ | ⟨n, u, sp', ha, h1, h2, h3, h4⟩)
      · rw [← hcr.old t sp hn] at h
        exact Or.inl h
      · rw [hi.abs n ha] at h1
        rw [hw.abs n ha, hreg] at h2
        rw [← hcr.old u sp' (hlt u (hsr n u h1))] at h4
        exact Or.inr ⟨n, u, sp', h1, h2, h3, h4⟩

/-- the fields of types with the same definition correspond to each other, in the same order -/
theorem corresponds_definition {H H' : Heap} {t u : TId} (hu : H'.kind u = H.kind u)
    (hd : definition H' t = definition H u) {gs : List FieldD} (hk : H.kind u = .comp gs) {i : Nat} {g : FieldD}
    (hg : gs[i]? = some g) (hfirst : ∀ (j : Nat) (g' : FieldD), j < i → gs[j]? = some g' → g'.name ≠ g.name) :
    Corresponds H' t u (some i) (some i) := by
  have h : Kind.desc H'.name (H'.kind t) = Kind.desc H.name (H.kind u) := (Prod.mk.inj (Prod.mk.inj hd).2).2
  rw [hk] at h
  cases hkt : H'.kind t with
  | comp fs =>
    rw [hkt] at h
    have h' : fs.map (fun f => (f.name, f.offset, H'.name f.ty)) = gs.map (fun f => (f.name, f.offset, H.name f.ty)) := by
      injection h
    have hi := congrArg (fun l => l[i]?) h'
    simp only [List.getElem?_map, hg, Option.map_some] at hi
    cases hf : fs[i]? with
    | none => rw [hf] at hi; cases hi
    | some f =>
      rw [hf] at hi
      have hn : f.name = g.name := (Prod.mk.inj (Option.some.inj hi)).1
      refine .field hkt (hu.trans hk) hf hg hn.symm ?_
      intro j g' hj hg'
      rw [hn]; exact hfirst j g' hj hg'
  | _ => rw [hkt] at h; cases h

/-! ### C78 -/

/-- **C78**, `a.merge(b)`. `M` is the metadata of the types and fields before the call, `M1` what it is once the types are
created. When the call succeeds: the metadata of `b` are left as they were, as are those of types that are not in `a`; each
type of `a` and each of its fields have what they had, plus the metadata of the types of `b` registered under one of its names,
for the fields those of the field of the same name, and nothing else - except for the key `source_id` of types, that has its
own rule. -/
theorem C78_merge_partial (hk : ∀ a b, key a = key b → a = b) {H : Heap} {R src : Reg}
    (hsrc : Reachable key H src) (hc : Copyable H src) (hd : Dest key H R (Regd H src)) (fuel : Nat)
    (hf : (H.next + 1) * (H.next + 1) ≤ fuel) (M M1 : Store) (hM : ∀ t s, Built (M t s)) :
    let o := mergeM key fuel (H, R) src M1
    o.2 = .ok () → Created H o.1.1.1 src M M1 →
    (∀ u s, Regd H src u → o.1.2 u s = M u s) ∧
    (∀ t s, t < H.next → ¬ Regd o.1.1.1 o.1.1.2 t → o.1.2 t s = M t s) ∧
    (∀ t s k v, Regd o.1.1.1 o.1.1.2 t → s ≠ none ∨ k ≠ "source_id".toList →
      (Holds (o.1.2 t s) k v ↔ (t < H.next ∧ Holds (M t s) k v) ∨
        ∃ n u s', isAbsoluteName n = true ∧ src.get n = some u ∧ o.1.1.2.get n = some t ∧ Corresponds o.1.1.1 t u s s' ∧
          Holds (M u s') k v)) := by
  intro o hok hcr
  have hi := (reachable_inv hk hsrc).2
  have hM1 := created_built hM hcr
  obtain ⟨e1, e2⟩ := mergeM_world (key := key) fuel (H, R) src M1 hM1
  obtain ⟨_, _, h3⟩ := merge_spec hk hi hc hd hf
  have hok' : (merge key fuel (H, R) src).2 = .ok () := by rw [← e2]; exact hok
  rcases h3 with ⟨_, hm⟩ | ⟨h3, _⟩
  · rw [← e1] at hm
    exact tail hi hM hok hm.inv hm.objects hm.disjoint hcr
  · rcases h3 with h3 | h3 <;> rw [hok'] at h3 <;> cases h3

/-- **C78**, nothing is lost by `a.merge(b)`: the type of `a` that stands for a type of `b` has all of its metadata, and so have
its fields. -/
theorem C78_kept_partial (hk : ∀ a b, key a = key b → a = b) {H : Heap} {R src : Reg}
    (hsrc : Reachable key H src) (hc : Copyable H src) (hd : Dest key H R (Regd H src)) (fuel : Nat)
    (hf : (H.next + 1) * (H.next + 1) ≤ fuel) (M M1 : Store) (hM : ∀ t s, Built (M t s)) (u : TId) (hu : Regd H src u) :
    let o := mergeM key fuel (H, R) src M1
    o.2 = .ok () → Created H o.1.1.1 src M M1 →
    ∃ t, o.1.1.2.get (H.name u) = some t ∧ definition o.1.1.1 t = definition H u ∧
      (∀ k v, k ≠ "source_id".toList → Holds (M u none) k v → Holds (o.1.2 t none) k v) ∧
      (∀ (gs : List FieldD) (i : Nat) (g : FieldD), H.kind u = .comp gs → gs[i]? = some g →
        (∀ (j : Nat) (g' : FieldD), j < i → gs[j]? = some g' → g'.name ≠ g.name) →
        ∀ k v, Holds (M u (some i)) k v → Holds (o.1.2 t (some i)) k v) := by
  intro o hok hcr
  have hi := (reachable_inv hk hsrc).2
  have hM1 := created_built hM hcr
  obtain ⟨e1, e2⟩ := mergeM_world (key := key) fuel (H, R) src M1 hM1
  have hok' : (merge key fuel (H, R) src).2 = .ok () := by rw [← e2]; exact hok
  obtain ⟨hobj, _, h3⟩ := C29_merge_partial hk hsrc hc hd fuel hf
  obtain ⟨t, ht, hdef⟩ := (h3 hok').1 u hu
  rw [← e1] at ht hdef hobj
  have hlt : u < H.next := (hi.reg_name ((hi.regd_iff u).mp hu)).2.2.2
  have hku : o.1.1.1.kind u = H.kind u := by
    show (o.1.1.1.get u).kind = _
    rw [hobj u hlt]; rfl
  obtain ⟨_, _, a3⟩ := C78_merge_partial hk hsrc hc hd fuel hf M M1 hM hok hcr
  have hname : o.1.1.1.name t = H.name u := (Prod.mk.inj hdef).1
  have hrt : Regd o.1.1.1 o.1.1.2 t := by
    unfold Regd; rw [hname]; exact ht
  have habs := (hi.reg_name ((hi.regd_iff u).mp hu)).2.1
  refine ⟨t, ht, hdef, ?_, ?_⟩
  · intro k v hkk hh
    exact (a3 t none k v hrt (Or.inr hkk)).mpr (Or.inr ⟨_, u, none, habs, hu, ht, .own, hh⟩)
  · intro gs i g hg1 hg2 hg3 k v hh
    exact (a3 t (some i) k v hrt (Or.inl (fun h => by cases h))).mpr
      (Or.inr ⟨_, u, some i, habs, hu, ht, corresponds_definition hku hdef hg1 hg2 hg3, hh⟩)

theorem minimal_disjoint (hk : ∀ a b, key a = key b → a = b) {H : Heap} {fresh src : Reg} (hi : Inv key H src)
    {t : TId} {w : World} (hcp : Copied key H fresh src (DepStar H t) w)
    (hdt : ∀ u, DepStar H t u → Regd H src u) (hfr : Inv key H fresh)
    (hn : ∀ u, Regd H src u → ¬ Regd H fresh u) : ∀ u, Regd H src u → ¬ w.2.regd w.1 u := by
  intro u hu hr
  have hlt : u < H.next := (hi.reg_name ((hi.regd_iff u).mp hu)).2.2.2
  rcases hcp.only u hr with h | ⟨u', h1, h2⟩
  · exact hn u hu ((hfr.regd_iff u).mpr h)
  · have hnm : w.1.name u = H.name u := by
      show (w.1.get u).name = _
      rw [hcp.objects u hlt]; rfl
    have hu' := hdt u' h1
    have e : u = u' := by
      unfold Regd at hu hu'
      rw [← hnm, h2, hu'] at hu
      exact (Option.some.inj hu).symm
    exact hcp.disjoint u (e ▸ h1) hr

/-- **C78**, `minimal(name)`: the same, the types of the result getting the metadata of the types of the registry. `fresh` is
what `new Registry` contains. -/
theorem C78_minimal_partial (hk : ∀ a b, key a = key b → a = b) {H : Heap} {fresh src : Reg}
    (hsrc : Reachable key H src) (hc : Copyable H src) (name : Str) (t : TId) (ht : src.get name = some t)
    (hd : Dest key H fresh (DepStar H t)) (hn : ∀ u, Regd H src u → ¬ Regd H fresh u) (fuel : Nat)
    (hf : (H.next + 1) * (H.next + 1) ≤ fuel) (aliases : Bool) (M M1 : Store) (hM : ∀ t s, Built (M t s)) :
    let o := minimalM key fuel H src fresh name aliases M1
    o.2 = .ok () → Created H o.1.1.1 src M M1 →
    (∀ u s, Regd H src u → o.1.2 u s = M u s) ∧
    (∀ t s k v, Regd o.1.1.1 o.1.1.2 t → s ≠ none ∨ k ≠ "source_id".toList →
      (Holds (o.1.2 t s) k v ↔ (t < H.next ∧ Holds (M t s) k v) ∨
        ∃ n u s', isAbsoluteName n = true ∧ src.get n = some u ∧ o.1.1.2.get n = some t ∧ Corresponds o.1.1.1 t u s s' ∧
          Holds (M u s') k v)) ∧
    (∀ u, DepStar H t u → ∃ t', o.1.1.2.get (H.name u) = some t' ∧ definition o.1.1.1 t' = definition H u ∧
      (∀ k v, k ≠ "source_id".toList → Holds (M u none) k v → Holds (o.1.2 t' none) k v) ∧
      (∀ (gs : List FieldD) (i : Nat) (g : FieldD), H.kind u = .comp gs → gs[i]? = some g →
        (∀ (j : Nat) (g' : FieldD), j < i → gs[j]? = some g' → g'.name ≠ g.name) →
        ∀ k v, Holds (M u (some i)) k v → Holds (o.1.2 t' (some i)) k v)) := by
  intro o hok hcr
  have hi := (reachable_inv hk hsrc).2
  have hM1 := created_built hM hcr
  obtain ⟨e1, e2⟩ := minimalM_world (key := key) fuel H src fresh name aliases M1 hM1
  have hok' : (minimal key fuel H src fresh name aliases).2 = .ok () := by rw [← e2]; exact hok
  have hrt : Regd H src t := (hi.regd_iff t).mpr (hi.get_regd ht)
  have hdt : ∀ u, DepStar H t u → Regd H src u := fun u hu => hu.regd hc hrt
  obtain ⟨_, h3⟩ := minimal_spec hk hi hc ht hd hf aliases
  rcases h3 with ⟨_, hm, _⟩ | ⟨h3, _⟩
  · rw [← e1] at hm
    obtain ⟨a1, _, a3⟩ := tail hi hM hok hm.inv hm.objects (minimal_disjoint hk hi hm hdt hd.inv hn) hcr
    refine ⟨a1, a3, ?_⟩
    intro u hu
    have hus := hdt u hu
    obtain ⟨t', ht', hdef⟩ := hm.types u hu
    have habs := (hi.reg_name ((hi.regd_iff u).mp hus)).2.1
    have hlt : u < H.next := (hi.reg_name ((hi.regd_iff u).mp hus)).2.2.2
    have hget : o.1.1.2.get (H.name u) = some t' := (hm.inv.abs _ habs).trans ht'
    have hku : o.1.1.1.kind u = H.kind u := by
      show (o.1.1.1.get u).kind = _
      exact congrArg TypeDef.kind (hm.objects u hlt)
    have hname : o.1.1.1.name t' = H.name u := (Prod.mk.inj hdef).1
    have hrt' : Regd o.1.1.1 o.1.1.2 t' := by
      unfold Regd; rw [hname]; exact hget
    refine ⟨t', hget, hdef, ?_, ?_⟩
    · intro k v hkk hh
      exact (a3 t' none k v hrt' (Or.inr hkk)).mpr (Or.inr ⟨_, u, none, habs, hus, hget, .own, hh⟩)
    · intro gs i g hg1 hg2 hg3 k v hh
      exact (a3 t' (some i) k v hrt' (Or.inl (fun h => by cases h))).mpr
        (Or.inr ⟨_, u, some i, habs, hus, hget, corresponds_definition hku hdef hg1 hg2 hg3, hh⟩)
  · rcases h3 with h3 | h3 <;> rw [hok'] at h3 <;> cases h3

end Verif.MergeMeta
