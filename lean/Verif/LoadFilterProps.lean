import Verif.LoadFilter
import Verif.MergeMinimal
import Verif.TlbWorld

/-! C77: what loading C++ headers returns. -/

namespace Verif.LoadFilter
open Verif Verif.Names Verif.Graph Verif.Registry Verif.TypeBuilder Verif.Merge
open Verif.Tlb (definition_parts desc_same)

set_option linter.unusedSimpArgs false
set_option linter.unusedVariables false

variable {key : Char → Int}

/-! ### Specification -/

/-- A type that must be returned: the registry has a type `u` whose name was not known at the start, and `v` is `u` or one of the types
it is made of, directly or not. -/
def Wanted (H : Heap) (base src : Reg) (v : TId) : Prop :=
  ∃ u, Regd H src u ∧ base.get (H.name u) = none ∧ DepStar H u v

/-- The names of the registry are complete: an array, pointer or vector type whose element has another name is known under the name
derived from it (which is what `Registry::alias` and `Registry::add` see to). -/
def Propagates (H : Heap) (R : Reg) : Prop :=
  ∀ n x u ind, isAbsoluteName n = true → R.get n = some x → n ≠ H.name x → Regd H R u →
    (H.kind u).indirectName = some ind → (H.kind u).elem? = some x → R.get (ind n) = some u

/-- A permanent alias whose name was not known at the start, or a name derived from one for an array, pointer or vector type. -/
inductive PermName (base : Reg) (perm : List Str) : Str → Prop
  | alias {n : Str} : n ∈ perm → base.get n = none → PermName base perm n
  | step {n : Str} {k : Kind} {ind : Str → Str} : PermName base perm n → k.indirectName = some ind → PermName base perm (ind n)

/-! ### Growing heaps -/

/-- `H'` has all the objects of `H` -/
structure Over (H H' : Heap) : Prop where
  next : H.next ≤ H'.next
  get : ∀ t, t < H.next → H'.get t = H.get t

theorem Over.refl (H : Heap) : Over H H := ⟨Nat.le_refl _, fun _ _ => rfl⟩
theorem Over.trans {A B C : Heap} (h : Over A B) (h' : Over B C) : Over A C :=
  ⟨Nat.le_trans h.next h'.next, fun t ht => (h'.get t (Nat.lt_of_lt_of_le ht h.next)).trans (h.get t ht)⟩
theorem Over.name {A B : Heap} (h : Over A B) {t : TId} (ht : t < A.next) : B.name t = A.name t := by
  unfold Heap.name; rw [h.get t ht]
theorem Over.kind {A B : Heap} (h : Over A B) {t : TId} (ht : t < A.next) : B.kind t = A.kind t := by
  unfold Heap.kind; rw [h.get t ht]
theorem Over.deps {A B : Heap} (h : Over A B) {t : TId} (ht : t < A.next) : B.deps t = A.deps t := by
  unfold Heap.deps; rw [h.kind ht]
theorem Over.definition {A B : Heap} (h : Over A B) (hwf : WF A) {t : TId} (ht : t < A.next) :
    definition B t = definition A t :=
  definition_congr (h.get t ht) (fun d hd => h.name (hwf.deps t d ht hd))
theorem Over.inv {A B : Heap} (h : Over A B) {R : Reg} (hi : Inv key A R) : Inv key B R :=
  hi.heap h.next (fun _ ht _ => h.name ht)
theorem Over.depStar {A B : Heap} (h : Over A B) (hwf : WF A) {t u : TId} (ht : t < A.next) :
    DepStar B t u ↔ DepStar A t u := by
  constructor
  · intro hd
    have : u < A.next ∧ DepStar A t u := by
      induction hd with
      | refl => exact ⟨ht, .refl⟩
      | step _ e ih => rw [h.deps ih.1] at e; exact ⟨hwf.deps _ _ ih.1 e, .step ih.2 e⟩
    exact this.2
  · intro hd
    induction hd with
    | refl => exact .refl
    | step e1 e ih => exact .step ih (by rw [h.deps (depStar_lt hwf ht e1)]; exact e)
theorem Over.regd {A B : Heap} (h : Over A B) {R : Reg} (hi : Inv key A R) (t : TId) : R.regd B t ↔ R.regd A t := by
  constructor
  · intro e
    have := (hi.reg_name e).2.2.2
    unfold Reg.regd at e ⊢
    rw [h.name this] at e; exact e
  · intro e
    have := (hi.reg_name e).2.2.2
    unfold Reg.regd at e ⊢
    rw [h.name this]; exact e
theorem Over.source {A B : Heap} (h : Over A B) {R : Reg} (hwf : WF A) (hi : Inv key A R) (hc : Copyable A R) : Copyable B R := by
  have hs := (hc.source hi).heap hwf h.next h.get
  have hiff : ∀ u, Regd B R u → Regd A R u := fun u hu =>
    (hi.regd_iff u).mpr ((h.regd hi u).mp (((h.inv hi).regd_iff u).mp hu))
  have hiff' : ∀ u, Regd A R u → Regd B R u := fun u hu =>
    ((h.inv hi).regd_iff u).mpr ((h.regd hi u).mpr ((hi.regd_iff u).mp hu))
  exact ⟨fun u d hu hd => hiff' d (hs.deps u d (hiff u hu) hd), fun u e hu => hs.noloop u e (hiff u hu),
    fun u d e hu => hs.arr u d e (hiff u hu), fun u e hu => hs.ptr u e (hiff u hu), fun u e hu => hs.vec u e (hiff u hu),
    fun u e hu => hs.str u e (hiff u hu)⟩

/-! ### A minimal registry -/

/-- the result of `t.minimal_registry(with_aliases: false)` -/
structure Mini (key : Char → Int) (H : Heap) (u : TId) (w : World) : Prop where
  inv : Inv key w.1 w.2
  ac : Acyclic w.1
  wf : WF w.1
  over : Over H w.1
  types : ∀ v, DepStar H u v → ∃ t, w.2.reg (H.name v) = some t ∧ definition w.1 t = definition H v
  only : ∀ n t, w.2.reg n = some t → n = w.1.name t ∧ H.next ≤ t ∧ ∃ v, DepStar H u v ∧ definition w.1 t = definition H v
  closed : ∀ t d, w.2.regd w.1 t → d ∈ w.1.deps t → w.2.regd w.1 d

theorem empty_noalias {H : Heap} {m : Str} : ¬ FromAlias H Reg.empty m := by
  intro h
  induction h with
  | alias h1 _ => cases h1
  | step _ _ ih => exact ih

theorem minimal_plain (hk : ∀ a b, key a = key b → a = b) {H : Heap} {src : Reg} (hac : Acyclic H) (hwf : WF H)
    (hi : Inv key H src) (hc : Copyable H src) {u : TId} (hu : src.regd H u) :
    (minimal key (fuelFor H) H src Reg.empty (H.name u) false).2 = .ok () ∧
    Mini key H u (minimal key (fuelFor H) H src Reg.empty (H.name u) false).1 := by
  have hru : Regd H src u := (hi.regd_iff u).mpr hu
  have hs : Source H (DepStar H u) := (hc.source hi).sub (fun v hv => hv.regd hc hru) (fun v d hv hd => .step hv hd)
  have hie : Inv key H Reg.empty := (reachable_inv hk (.start hac)).2
  have hd : Dest key H Reg.empty (DepStar H u) :=
    ⟨hie, hac, hwf, (fun t d ht => by cases ht), (fun v _ ht => by cases ht), (fun v t _ ht => by cases ht),
      fun v _ => empty_noalias⟩
  have h0 : Start key H Reg.empty (DepStar H u) :=
    ⟨hk, hie, hac, hwf, hs.alloc, hs.deps, hs.abs, fun v t _ ht => by cases ht⟩
  have hJ := hd.start hs
  obtain ⟨hkept, hpost⟩ := mergeF_spec hk hs hd.aliases (fuelFor H) [] ⟨H, Reg.empty, []⟩ u hJ .refl
    (weight_start (hs.alloc _ .refl) (Nat.le_refl _)) (fun _ _ h => by cases h)
  obtain ⟨_, hb, _⟩ := mergeF_out h0 (fuelFor H) ⟨H, Reg.empty, []⟩ u h0.base h0.stk .refl
  unfold minimal
  have hget : src.get (H.name u) = some u := hru
  rw [hget]
  simp only
  generalize mergeF key (fuelFor H) ⟨H, Reg.empty, []⟩ u = x at hkept hpost hb
  obtain ⟨s1, r1⟩ := x
  simp only at hkept hpost hb
  rcases hpost with ⟨t', rfl, hJ1, ht' | ht', _⟩ | ⟨rfl, n, hn⟩
  · simp only [andThen_ok, Bool.false_eq_true, if_false]
    obtain ⟨c1, c2, _⟩ := copySourceIDs_spec src.global s1.R hJ1.inv
    refine ⟨trivial, c1, hJ1.ac, hJ1.wf, ⟨hJ1.next, hJ1.old⟩, ?_, ?_, ?_⟩
    · intro v hv
      obtain ⟨_, t, ht⟩ := hJ1.closure hs .refl ⟨t', ht'⟩ hv
      refine ⟨t, by simp only [c2]; exact ht, ?_⟩
      simp only
      rw [hJ1.compat v t hv ht]
      exact (Over.mk hJ1.next hJ1.old).definition hwf (hs.alloc v hv)
    · intro n t hn
      simp only [c2] at hn ⊢
      have hname : n = s1.H.name t := by
        refine Classical.byContradiction fun hne => ?_
        exact empty_noalias (hJ1.alia n t hn hne)
      refine ⟨hname, ?_, ?_⟩
      · rcases hb.tab n t hn with h | ⟨r, h, _⟩
        · exact h
        · cases h
      · have hreg : s1.R.regd s1.H t := by unfold Reg.regd; rw [← hname]; exact hn
        rcases hJ1.new t hreg with h | ⟨v, h1, h2⟩
        · cases h
        · refine ⟨v, h1, ?_⟩
          rw [hJ1.compat v t h1 (by rw [h2]; exact hreg)]
          exact (Over.mk hJ1.next hJ1.old).definition hwf (hs.alloc v h1)
    · intro t d ht hdd
      unfold Reg.regd at ht ⊢
      simp only [c2] at ht hdd ⊢
      exact hJ1.restart.baseC t d ht hdd
  · cases ht'
  · exact absurd hn empty_noalias

/-- the attributes of a copy -/
theorem desc_inv {H H' : Heap} {t v : TId} (h : definition H' t = definition H v) :
    (∀ d e, H'.kind t = .arr d e → ∃ e', H.kind v = .arr d e' ∧ H'.name e = H.name e') ∧
    (∀ e, H'.kind t = .ptr e → ∃ e', H.kind v = .ptr e' ∧ H'.name e = H.name e') ∧
    (∀ e, H'.kind t = .vec e → ∃ e', H.kind v = .vec e' ∧ H'.name e = H.name e') ∧
    (∀ e, H'.kind t = .str e → ∃ e', H.kind v = .str e' ∧ H'.name e = H.name e') := by
  have hd := (definition_parts h).2.2
  refine ⟨?_, ?_, ?_, ?_⟩
  rotate_left
  all_goals
    intro x
    try intro y
    try intro hk
    first | rw [hk] at hd | rw [y] at hd
    cases hv : H.kind v <;> rw [hv] at hd <;> simp only [Kind.desc] at hd <;> first
      | (cases hd; done)
      | (simp only [Desc.arr.injEq, Desc.ptr.injEq, Desc.vec.injEq, Desc.str.injEq] at hd; simp_all)

theorem Mini.copyable {H : Heap} {src : Reg} {u : TId} {w : World} (h : Mini key H u w) (hwf : WF H) (hi : Inv key H src)
    (hc : Copyable H src) (hu : src.regd H u) : Copyable w.1 w.2 := by
  have hru : Regd H src u := (hi.regd_iff u).mpr hu
  have hs : Source H (DepStar H u) := (hc.source hi).sub (fun v hv => hv.regd hc hru) (fun v d hv hd => .step hv hd)
  have hreg : ∀ t, Regd w.1 w.2 t → w.2.regd w.1 t := fun t ht => (h.inv.regd_iff t).mp ht
  -- the original of a registered copy
  have horig : ∀ t, Regd w.1 w.2 t → ∃ v, DepStar H u v ∧ definition w.1 t = definition H v := fun t ht =>
    (h.only _ t (hreg t ht)).2.2
  have helem : ∀ {t e : TId}, Regd w.1 w.2 t → e ∈ w.1.deps t → Regd w.1 w.2 e := fun ht hd =>
    (h.inv.regd_iff _).mpr (h.closed _ _ (hreg _ ht) hd)
  -- the components
  have hcomp : ∀ {t d v : TId}, Regd w.1 w.2 t → d ∈ w.1.deps t → DepStar H u v → definition w.1 t = definition H v →
      ∃ d', d' ∈ H.deps v ∧ DepStar H u d' ∧ definition w.1 d = definition H d' := by
    intro t d v ht hd hv hdef
    have hn : (w.1.deps t).map w.1.name = (H.deps v).map H.name := desc_names (definition_parts hdef).2.2
    have : w.1.name d ∈ (H.deps v).map H.name := by rw [← hn]; exact List.mem_map.mpr ⟨d, hd, rfl⟩
    obtain ⟨d', hd', he⟩ := List.mem_map.mp this
    have hd2 : DepStar H u d' := .step hv hd'
    obtain ⟨x, hx, hdx⟩ := horig d (helem ht hd)
    have : x = d' := hs.inj x d' hx hd2 ((definition_parts hdx).1.symm.trans he.symm)
    subst this
    exact ⟨x, hd', hd2, hdx⟩
  have hst : ∀ {t e x : TId}, Regd w.1 w.2 t → DepStar w.1 t x → ∀ {v}, DepStar H u v → definition w.1 t = definition H v →
      Regd w.1 w.2 x ∧ ∃ y, DepStar H v y ∧ DepStar H u y ∧ definition w.1 x = definition H y := by
    intro t e x ht hx v hv hdef
    induction hx with
    | refl => exact ⟨ht, v, .refl, hv, hdef⟩
    | step _ hd ih =>
      obtain ⟨h1, y, h2, h3, h4⟩ := ih
      obtain ⟨z, h5, h6, h7⟩ := hcomp h1 hd h3 h4
      exact ⟨helem h1 hd, z, .step h2 h5, h6, h7⟩
  refine ⟨fun t d ht hd => helem ht hd, ?_, ?_, ?_, ?_, ?_⟩
  · intro t e ht hk hds
    obtain ⟨v, hv, hdef⟩ := horig t ht
    have hmem : e ∈ w.1.deps t := by
      unfold Heap.deps
      refine elem_mem_deps ?_
      rcases hk with ⟨d, hk⟩ | hk <;> rw [hk] <;> rfl
    obtain ⟨e', h1, h2, h3⟩ := hcomp ht hmem hv hdef
    have hke : (∃ d, H.kind v = .arr d e') ∨ H.kind v = .str e' := by
      rcases hk with ⟨d, hk⟩ | hk
      · obtain ⟨e2, h4, _⟩ := (desc_inv hdef).1 d e hk
        unfold Heap.deps at h1
        rw [h4] at h1
        rw [List.mem_singleton.mp h1]
        exact Or.inl ⟨d, h4⟩
      · obtain ⟨e2, h4, _⟩ := (desc_inv hdef).2.2.2 e hk
        unfold Heap.deps at h1
        rw [h4] at h1
        rw [List.mem_singleton.mp h1]
        exact Or.inr h4
    obtain ⟨_, y, h4, h5, h6⟩ := hst (e := e) (helem ht hmem) hds h2 h3
    have : y = v := hs.inj y v h5 hv ((definition_parts h6).1.symm.trans (definition_parts hdef).1)
    subst this
    exact hs.noloop y e' hv hke h4
  · intro t d e ht hk
    obtain ⟨v, hv, hdef⟩ := horig t ht
    obtain ⟨e', h1, h2⟩ := (desc_inv hdef).1 d e hk
    obtain ⟨e2, h3, h4, h5⟩ := hcomp ht (by unfold Heap.deps; rw [hk]; exact List.mem_singleton.mpr rfl) hv hdef
    unfold Heap.deps at h3; rw [h1] at h3
    have : e2 = e' := List.mem_singleton.mp h3
    subst this
    have h6 := hs.arr v d e2 hv h1
    obtain ⟨n1, n2, _⟩ := definition_parts hdef
    obtain ⟨m1, m2, _⟩ := definition_parts h5
    have hg : w.1.get t = ⟨w.1.name t, w.1.size t, w.1.kind t⟩ := rfl
    rw [hg, hk, n1, n2]
    show _ = (⟨w.1.name e ++ _, d * w.1.size e % _, _⟩ : TypeDef)
    rw [m1, m2]
    have e1 : H.name v = H.name e2 ++ arrSuffix d := congrArg TypeDef.name h6
    have e3 : H.size v = d * H.size e2 % TypeBuilder.W := congrArg TypeDef.size h6
    rw [e1, e3]
  · intro t e ht hk
    obtain ⟨v, hv, hdef⟩ := horig t ht
    obtain ⟨e', h1, h2⟩ := (desc_inv hdef).2.1 e hk
    have h6 := hs.ptr v e' hv h1
    obtain ⟨n1, n2, _⟩ := definition_parts hdef
    have hg : w.1.get t = ⟨w.1.name t, w.1.size t, w.1.kind t⟩ := rfl
    rw [hg, hk, n1, n2]
    show _ = (⟨w.1.name e ++ _, _, _⟩ : TypeDef)
    rw [h2]
    have e1 : H.name v = H.name e' ++ ['*'] := congrArg TypeDef.name h6
    have e3 : H.size v = 8 := congrArg TypeDef.size h6
    rw [e1, e3]
  · intro t e ht hk
    obtain ⟨v, hv, hdef⟩ := horig t ht
    obtain ⟨e', h1, h2⟩ := (desc_inv hdef).2.2.1 e hk
    rw [(definition_parts hdef).1, h2]
    exact hs.vec v e' hv h1
  · intro t e ht hk
    obtain ⟨v, hv, hdef⟩ := horig t ht
    obtain ⟨e', h1, h2⟩ := (desc_inv hdef).2.2.2 e hk
    rw [(definition_parts hdef).1, h2]
    exact hs.str v e' hv h1

/-! ### The first loop -/

structure FInv (key : Char → Int) (H0 : Heap) (base src : Reg) (w : World) : Prop where
  over : Over H0 w.1
  inv : Inv key w.1 w.2
  ac : Acyclic w.1
  wf : WF w.1
  noal : ∀ n t, w.2.reg n = some t → n = w.1.name t
  closed : ∀ t d, w.2.regd w.1 t → d ∈ w.1.deps t → w.2.regd w.1 d
  copies : ∀ n t, w.2.reg n = some t → ∃ v, Wanted H0 base src v ∧ definition w.1 t = definition H0 v

theorem noalias_none {H : Heap} {R : Reg} (h : ∀ n t, R.reg n = some t → n = H.name t) {m : Str} : ¬ FromAlias H R m := by
  intro hf
  induction hf with
  | alias h1 h2 => exact h2 (h _ _ h1)
  | step _ _ ih => exact ih

theorem filter_step (hk : ∀ a b, key a = key b → a = b) {H0 : Heap} {base src : Reg} (hwf0 : WF H0) (hi0 : Inv key H0 src)
    (hc0 : Copyable H0 src) {w : World} (h : FInv key H0 base src w) {u : TId} (hu : src.regd H0 u)
    (hb : base.get (H0.name u) = none) :
    let m := minimal key (fuelFor w.1) w.1 src Reg.empty (w.1.name u) false
    let o := merge key (fuelFor m.1.1) (m.1.1, w.2) m.1.2
    m.2 = .ok () ∧ o.2 = .ok () ∧ FInv key H0 base src o.1 ∧ Over w.1 o.1.1 ∧
    (∀ n t, w.2.reg n = some t → o.1.2.reg n = some t) ∧
    ∀ v, DepStar H0 u v → ∃ t, o.1.2.reg (H0.name v) = some t := by
  intro m o
  have hi := h.over.inv hi0
  have hc := h.over.source hwf0 hi0 hc0
  have hul : u < H0.next := (hi0.reg_name hu).2.2.2
  have hu1 : src.regd w.1 u := (h.over.regd hi0 u).mpr hu
  obtain ⟨m1, m2⟩ := minimal_plain hk h.ac h.wf hi hc hu1
  have hm : m = minimal key (fuelFor w.1) w.1 src Reg.empty (w.1.name u) false := rfl
  rw [← hm] at m1 m2
  have hcm := m2.copyable h.wf hi hc hu1
  have hiF := m2.over.inv h.inv
  -- originals in `src`
  have horig : ∀ v, DepStar w.1 u v → DepStar H0 u v ∧ v < H0.next ∧ src.regd H0 v ∧ definition w.1 v = definition H0 v := by
    intro v hv
    have h1 := (h.over.depStar hwf0 hul).mp hv
    have h2 := depStar_lt hwf0 hul h1
    exact ⟨h1, h2, (hi0.regd_iff v).mp (h1.regd hc0 ((hi0.regd_iff u).mpr hu)), h.over.definition hwf0 h2⟩
  have hwant : ∀ v, Wanted H0 base src v → src.regd H0 v := by
    rintro v ⟨x, h1, _, h2⟩
    exact (hi0.regd_iff v).mp (h2.regd hc0 h1)
  have hnoF : ∀ n t, w.2.reg n = some t → n = m.1.1.name t := by
    intro n t hn
    rw [m2.over.name (h.inv.reg_name hn).2.2.2]
    exact h.noal n t hn
  have hnoM : ∀ n t, m.1.2.reg n = some t → n = m.1.1.name t := fun n t hn => (m2.only n t hn).1
  have hdest : Dest key m.1.1 w.2 (Regd m.1.1 m.1.2) := by
    refine ⟨hiF, m2.ac, m2.wf, ?_, ?_, ?_, fun _ _ => noalias_none hnoF⟩
    · intro t d ht hd
      have h1 := (m2.over.regd h.inv t).mp ((hiF.regd_iff t).mp ht)
      rw [m2.over.deps (h.inv.reg_name h1).2.2.2] at hd
      exact (hiF.regd_iff d).mpr ((m2.over.regd h.inv d).mpr (h.closed t d h1 hd))
    · intro t ht hf
      have h1 := (m2.only _ t ((m2.inv.regd_iff t).mp ht)).2.1
      have h2 := (h.inv.reg_name ((m2.over.regd h.inv t).mp ((hiF.regd_iff t).mp hf))).2.2.2
      exact absurd h2 (Nat.not_lt.mpr h1)
    · intro t s ht hs
      have ht' := (m2.inv.regd_iff t).mp ht
      have hs' : w.2.reg (m.1.1.name t) = some s := by
        rw [← hiF.abs _ (m2.inv.reg_name ht').2.1]; exact hs
      obtain ⟨_, _, v, h1, h2⟩ := m2.only _ t ht'
      obtain ⟨_, _, h5, h6⟩ := horig v h1
      obtain ⟨x, h3, h4⟩ := h.copies _ s hs'
      have hsl := (h.inv.reg_name hs').2.2.2
      rw [m2.over.definition h.wf hsl, h4, h2, h6]
      have hx := hwant x h3
      have e1 : H0.name x = m.1.1.name t := by
        rw [← (definition_parts h4).1, ← m2.over.name hsl]; exact (hnoF _ s hs').symm
      have e2 : H0.name v = m.1.1.name t := by rw [(definition_parts h2).1, (definition_parts h6).1]
      rw [Verif.Tlb.regd_inj hx h5 (e1.trans e2.symm)]
  obtain ⟨_, hkeep, hres⟩ := merge_spec hk m2.inv hcm hdest (fuel := fuelFor m.1.1) (Nat.le_refl _)
  have hres' : o.2 = .ok () ∧ Merged key m.1.1 w.2 m.1.2 o.1 := by
    rcases hres with hres | ⟨_, n, hn | hn⟩
    · exact hres
    · exact absurd hn (noalias_none hnoF)
    · exact absurd hn (noalias_none hnoM)
  obtain ⟨ho, hM⟩ := hres'
  have hov2 : Over m.1.1 o.1.1 := ⟨hM.next, hM.objects⟩
  have hov := m2.over.trans hov2
  refine ⟨m1, ho, ⟨h.over.trans hov, hM.inv, hM.acyclic, hM.wf, ?_, hM.closed, ?_⟩, hov, hkeep, ?_⟩
  · intro n t hn
    rcases hM.only n t hn with h1 | ⟨h1, _⟩ | ⟨_, h1 | h1⟩
    · rw [hov.name (h.inv.reg_name h1).2.2.2]; exact h.noal n t h1
    · exact h1
    · exact absurd h1 (noalias_none hnoF)
    · exact absurd h1 (noalias_none hnoM)
  · intro n t hn
    rcases hM.only n t hn with h1 | ⟨h1, x, hx, hx'⟩ | ⟨_, h1 | h1⟩
    · obtain ⟨v, h2, h3⟩ := h.copies n t h1
      exact ⟨v, h2, by rw [hov.definition h.wf (h.inv.reg_name h1).2.2.2]; exact h3⟩
    · obtain ⟨t', h2, h3⟩ := hM.types x hx
      have hn' := hn
      rw [hx', h2] at hn'
      cases hn'
      obtain ⟨_, _, v, h4, h5⟩ := m2.only _ x ((m2.inv.regd_iff x).mp hx)
      obtain ⟨h6, _, _, h7⟩ := horig v h4
      refine ⟨v, ⟨u, (hi0.regd_iff u).mpr hu, hb, h6⟩, ?_⟩
      rw [h3, hov2.definition m2.wf (m2.inv.reg_name ((m2.inv.regd_iff x).mp hx)).2.2.2, h5, h7]
    · exact absurd h1 (noalias_none hnoF)
    · exact absurd h1 (noalias_none hnoM)
  · intro v hv
    have hv1 := (h.over.depStar hwf0 hul).mpr hv
    obtain ⟨_, _, _, h7⟩ := horig v hv1
    obtain ⟨t, h1, h2⟩ := m2.types v hv1
    have hname : m.1.1.name t = H0.name v := by rw [(definition_parts h2).1, (definition_parts h7).1]
    have h3 := (m2.only _ t h1).1
    have hr : m.1.2.regd m.1.1 t := by unfold Reg.regd; rw [← h3]; exact h1
    obtain ⟨t', h4, _⟩ := hM.types t ((m2.inv.regd_iff t).mpr hr)
    rw [hname] at h4
    exact ⟨t', h4⟩

theorem filterTypes_spec (hk : ∀ a b, key a = key b → a = b) {H0 : Heap} {base src : Reg} (hwf0 : WF H0) (hi0 : Inv key H0 src)
    (hc0 : Copyable H0 src) : ∀ (l : List (Str × Entry)) (w : World), (∀ p ∈ l, p ∈ src.global) → FInv key H0 base src w →
    let o := filterTypes key base src l w
    o.2 = .ok () ∧ FInv key H0 base src o.1 ∧ (∀ n t, w.2.reg n = some t → o.1.2.reg n = some t) ∧
    ∀ p ∈ l, p.1 = H0.name p.2.ty → base.get p.1 = none → ∀ v, DepStar H0 p.2.ty v → ∃ t, o.1.2.reg (H0.name v) = some t := by
  intro l
  induction l with
  | nil => intro w _ h; exact ⟨rfl, h, fun _ _ h => h, fun p hp => by cases hp⟩
  | cons p ps ih =>
    intro w hm h
    have hp := hm p (by simp)
    have hpr := mem_reg hi0.sorted hp
    have hlt := (hi0.reg_name hpr).2.2.2
    have hu : src.regd H0 p.2.ty := (hi0.reg_name hpr).2.2.1
    have hn := h.over.name hlt
    have hskip : (p.1 = H0.name p.2.ty → base.get p.1 = none → False) →
        let o := filterTypes key base src ps w
        o.2 = .ok () ∧ FInv key H0 base src o.1 ∧ (∀ n t, w.2.reg n = some t → o.1.2.reg n = some t) ∧
        ∀ q ∈ p :: ps, q.1 = H0.name q.2.ty → base.get q.1 = none → ∀ v, DepStar H0 q.2.ty v →
          ∃ t, o.1.2.reg (H0.name v) = some t := by
      intro hno o
      obtain ⟨h1, h2, h3, h4⟩ := ih w (fun q hq => hm q (by simp [hq])) h
      refine ⟨h1, h2, h3, ?_⟩
      intro q hq e1 e2
      rcases List.mem_cons.mp hq with rfl | hq
      · exact absurd (hno e1 e2) id
      · exact h4 q hq e1 e2
    unfold filterTypes
    by_cases ha : isAlias w.1 p = true
    · rw [if_pos ha]
      refine hskip (fun e _ => ?_)
      rw [isAlias_iff, hn] at ha
      exact ha e
    · rw [if_neg ha]
      have he : p.1 = H0.name p.2.ty := by
        rw [isAlias_iff, hn] at ha
        exact Classical.byContradiction ha
      rw [hn]
      by_cases hb : includes base (H0.name p.2.ty) = true
      · rw [if_pos hb]
        refine hskip (fun _ e2 => ?_)
        unfold includes at hb
        rw [← he, e2] at hb
        cases hb
      · rw [if_neg hb]
        have hb' : base.get (H0.name p.2.ty) = none := by
          unfold includes at hb
          cases hbb : base.get (H0.name p.2.ty) with
          | none => rfl
          | some x => rw [hbb] at hb; exact absurd rfl hb
        obtain ⟨s1, s2, s3, s4, s5, s6⟩ := filter_step hk hwf0 hi0 hc0 h hu hb'
        rw [hn] at s1 s2 s3 s4 s5 s6
        generalize minimal key (fuelFor w.1) w.1 src Reg.empty (H0.name p.2.ty) false = m at s1 s2 s3 s4 s5 s6
        obtain ⟨m, r⟩ := m
        simp only at s1 s2 s3 s4 s5 s6
        subst s1
        simp only
        generalize merge key (fuelFor m.1) (m.1, w.2) m.2 = o at s2 s3 s4 s5 s6
        obtain ⟨o, r⟩ := o
        simp only at s2 s3 s4 s5 s6
        subst s2
        simp only
        obtain ⟨h1, h2, h3, h4⟩ := ih o (fun q hq => hm q (by simp [hq])) s3
        refine ⟨h1, h2, fun n t e => h3 n t (s5 n t e), ?_⟩
        intro q hq e1 e2 v hv
        rcases List.mem_cons.mp hq with rfl | hq
        · obtain ⟨t, ht⟩ := s6 v hv
          exact ⟨t, h3 _ t ht⟩
        · exact h4 q hq e1 e2 v hv

/-! ### The second loop -/

/-- everything `(H, R)` knows is known by `(Hs, Rs)`, with the same definition -/
def Sim (Hs : Heap) (Rs : Reg) (H : Heap) (R : Reg) : Prop :=
  ∀ n t, R.reg n = some t → ∃ u, Rs.reg n = some u ∧ definition H t = definition Hs u

theorem alias_sim (hk : ∀ a b, key a = key b → a = b) {Hs : Heap} {Rs : Reg} (his : Inv key Hs Rs) (hp : Propagates Hs Rs)
    (hdeps : ∀ t d, Rs.regd Hs t → d ∈ Hs.deps t → Rs.regd Hs d)
    {H : Heap} {R : Reg} (hi : Inv key H R) (hac : Acyclic H) (hsim : Sim Hs Rs H R) {base new : Str} {t u : TId}
    (hb : R.get base = some t) (hu : Rs.reg new = some u) (hdef : definition H t = definition Hs u) :
    let o := aliasAuto key H R base new []
    o.2 = .ok () ∧ Sim Hs Rs H o.1 ∧ o.1.reg new = some t := by
  intro o
  have ht : R.regd H t := hi.get_regd hb
  have ho : o = aliasF key H (H.next + 1) R base new (isPersistent H new t) [] := by
    show aliasAuto key H R base new [] = _
    unfold aliasAuto alias
    rw [hb]
  obtain ⟨⟨a1, a2, a3, a4, a5⟩, b, c⟩ := aliasF_spec hk hac (H.next + 1) R base new (isPersistent H new t) [] t hi
    (his.reg_name hu).2.1 hb ht
  rw [← ho] at a1 a2 a3 a4 a5 b c
  have hold' : ∀ v, o.1.reg (H.name v) = some v → R.regd H v := by
    intro v hv
    cases hr : R.reg (H.name v) with
    | none => have := a5 _ v ⟨hr, hv⟩; rw [hr] at this; cases this
    | some w =>
      have := a3 _ _ hr
      rw [hv] at this
      cases this
      exact hr
  have main : ∀ v n, (o.1.reg n = some v ∨ Derived H o.1 n v) → ∃ w, Rs.reg n = some w ∧ definition H v = definition Hs w := by
    intro v
    induction v using Nat.strongRecOn with
    | ind v ih =>
      intro n hn
      have hd : (∃ w, Rs.reg n = some w ∧ definition H v = definition Hs w) ∨ Derived H o.1 n v := by
        rcases hn with hn | hn
        · cases hr : R.reg n with
          | some w =>
            have := a3 _ _ hr
            rw [hn] at this
            cases this
            exact Or.inl (hsim _ v hr)
          | none =>
            rcases a4 n v ⟨hr, hn⟩ with ⟨e1, e2⟩ | e
            · subst e1 e2
              exact Or.inl ⟨u, hu, hdef⟩
            · exact Or.inr e
        · exact Or.inr hn
      rcases hd with h | ⟨ind, x, a, e1, e2, e3, e4, e5, e6⟩
      · exact h
      · obtain ⟨us, h1', h2⟩ := hsim _ v (hold' v e6)
        have h1 : Rs.regd Hs us := (his.reg_name h1').2.2.1
        obtain ⟨xs, h3, h4⟩ := ih x (hac v x e2) a (Or.inl e4)
        obtain ⟨_, _, hdesc⟩ := definition_parts h2
        obtain ⟨hname, _, _⟩ := definition_parts h4
        obtain ⟨hi1, he⟩ := desc_same hdesc
        rw [e1] at hi1
        rw [e2] at he
        obtain ⟨es, h5, h6⟩ : ∃ es, (Hs.kind us).elem? = some es ∧ Hs.name es = H.name x := by
          cases h : (Hs.kind us).elem? with
          | none => rw [h] at he; cases he
          | some es => rw [h] at he; exact ⟨es, rfl, (Option.some.inj he).symm⟩
        have hes : Rs.regd Hs es := hdeps us es h1 (elem_mem_deps h5)
        have hxs : Rs.regd Hs xs := (his.reg_name h3).2.2.1
        have : es = xs := Verif.Tlb.regd_inj hes hxs (by rw [h6, hname])
        subst this
        rw [hname] at e5
        rw [e3]
        have habs := (his.reg_name h3).2.1
        have hg := hp a es us ind habs (by rw [his.abs a habs]; exact h3) e5 ((his.regd_iff us).mpr h1) hi1.symm h5
        refine ⟨us, ?_, h2⟩
        cases hab : isAbsoluteName (ind a) with
        | true => rw [← his.abs _ hab]; exact hg
        | false =>
          exfalso
          have : isAbsoluteName (ind a) = true := by
            generalize hkk : H.kind v = kk at e1
            cases kk <;> simp only [Kind.indirectName, Option.some.injEq, reduceCtorEq] at e1
            all_goals
              subst e1
              first
                | rfl
                | exact Verif.Merge.abs_append habs
                | exact Verif.Merge.abs_append (Verif.Merge.abs_append habs)
          rw [this] at hab
          cases hab
  have hok : o.2 = .ok () := by
    cases e : o.2 with
    | ok x => rfl
    | exn x =>
      exfalso
      rw [e] at c
      rcases c with ⟨_, ⟨c1, _⟩ | ⟨n, v, h1, h2⟩⟩ | ⟨_, _, v, h1, h2⟩
      · rw [(his.reg_name hu).1] at c1; cases c1
      · obtain ⟨w, h3, _⟩ := main v n (Or.inr h1)
        rw [(his.reg_name h3).1] at h2; cases h2
      · obtain ⟨w, h3, h4⟩ := hsim _ v h1
        rw [hu] at h3
        cases h3
        exact h2 (Verif.Tlb.regd_inj (hi.reg_name h1).2.2.1 ht (by rw [(definition_parts h4).1, (definition_parts hdef).1]))
    | ub => rw [e] at c; exact absurd c id
    | fuel =>
      rw [e] at c
      exact absurd (c (by have := (hi.reg_name ht).2.2.2; show @LT.lt Nat _ _ _; omega)) id
  exact ⟨hok, fun n v h => main v n (Or.inl h), (b hok).1⟩

theorem filterAliases_spec (hk : ∀ a b, key a = key b → a = b) {H0 H : Heap} {base src : Reg} {perm : List Str} (hi0 : Inv key H0 src)
    (hc0 : Copyable H0 src) (hp : Propagates H0 src) (hov : Over H0 H) (hac : Acyclic H) {R1 : Reg} :
    ∀ (l : List (Str × Entry)) (R : Reg), (∀ p ∈ l, p ∈ src.global) → Aliased key H R1 (PermName base perm) R → Sim H0 src H R →
    let o := filterAliases key base perm l (H, R)
    o.2 = .ok () ∧ o.1.1 = H ∧ Aliased key H R1 (PermName base perm) o.1.2 ∧ Sim H0 src H o.1.2 ∧
    (∀ n t, R.reg n = some t → o.1.2.reg n = some t) ∧
    ∀ p ∈ l, p.1 ≠ H0.name p.2.ty → base.get p.1 = none → p.1 ∈ perm → ∀ t, R1.reg (H0.name p.2.ty) = some t →
      o.1.2.reg p.1 = some t := by
  intro l
  induction l with
  | nil => intro R _ h hs; exact ⟨rfl, rfl, h, hs, fun _ _ h => h, fun p hp => by cases hp⟩
  | cons p ps ih =>
    intro R hm h hs
    have hpm := hm p (by simp)
    have hpr := mem_reg hi0.sorted hpm
    have hlt := (hi0.reg_name hpr).2.2.2
    have hpreg := (hi0.reg_name hpr).2.2.1
    have hn := hov.name hlt
    have hskip : (p.1 ≠ H0.name p.2.ty → base.get p.1 = none → p.1 ∈ perm → ∀ t, R1.reg (H0.name p.2.ty) = some t → False) →
        let o := filterAliases key base perm ps (H, R)
        o.2 = .ok () ∧ o.1.1 = H ∧ Aliased key H R1 (PermName base perm) o.1.2 ∧ Sim H0 src H o.1.2 ∧
        (∀ n t, R.reg n = some t → o.1.2.reg n = some t) ∧
        ∀ q ∈ p :: ps, q.1 ≠ H0.name q.2.ty → base.get q.1 = none → q.1 ∈ perm → ∀ t, R1.reg (H0.name q.2.ty) = some t →
          o.1.2.reg q.1 = some t := by
      intro hno o
      obtain ⟨h1, h2, h3, h4, h5, h6⟩ := ih R (fun q hq => hm q (by simp [hq])) h hs
      refine ⟨h1, h2, h3, h4, h5, ?_⟩
      intro q hq e1 e2 e3 t e4
      rcases List.mem_cons.mp hq with rfl | hq
      · exact absurd (hno e1 e2 e3 t e4) id
      · exact h6 q hq e1 e2 e3 t e4
    unfold filterAliases
    simp only
    rw [hn]
    have habs : isAbsoluteName (H0.name p.2.ty) = true := (hi0.reg_name hpreg).2.1
    have hg : R.get (H0.name p.2.ty) = R.reg (H0.name p.2.ty) := h.inv.abs _ habs
    by_cases hc1 : p.1 = H0.name p.2.ty ∨ includes R (H0.name p.2.ty) = false
    · rw [if_pos hc1]
      refine hskip (fun e1 _ _ t e4 => ?_)
      rcases hc1 with hc1 | hc1
      · exact e1 hc1
      · unfold includes at hc1
        rw [hg, h.ext _ _ e4] at hc1
        cases hc1
    · rw [if_neg hc1]
      by_cases hc2 : includes base p.1 = true
      · rw [if_pos hc2]
        refine hskip (fun _ e2 _ _ _ => ?_)
        unfold includes at hc2
        rw [e2] at hc2
        cases hc2
      · rw [if_neg hc2]
        by_cases hc3 : p.1 ∈ perm
        · rw [if_pos hc3]
          have hbn : base.get p.1 = none := by
            unfold includes at hc2
            cases hb : base.get p.1 with
            | none => rfl
            | some x => rw [hb] at hc2; exact absurd rfl hc2
          have hne : p.1 ≠ H0.name p.2.ty := fun e => hc1 (Or.inl e)
          obtain ⟨t, ht⟩ : ∃ t, R.get (H0.name p.2.ty) = some t := by
            cases hb : R.get (H0.name p.2.ty) with
            | some t => exact ⟨t, rfl⟩
            | none => exact absurd (Or.inr (by unfold includes; rw [hb]; rfl)) hc1
          have htr : R.reg (H0.name p.2.ty) = some t := by rw [← hg]; exact ht
          obtain ⟨v, hv1, hv2⟩ := hs _ t htr
          have hvp : v = p.2.ty := by
            have e : src.reg (H0.name p.2.ty) = some p.2.ty := hpreg
            rw [e] at hv1
            exact (Option.some.inj hv1).symm
          subst hvp
          obtain ⟨s1, s2, s3⟩ := alias_sim hk hi0 hp
            (fun t d ht hd => (hi0.regd_iff d).mp (hc0.deps t d ((hi0.regd_iff t).mpr ht) hd)) h.inv hac hs ht hpr hv2
          have hal : aliasAuto key H R (H0.name p.2.ty) p.1 [] = alias key H R (H0.name p.2.ty) p.1 (isPersistent H p.1 t) [] := by
            unfold aliasAuto; rw [ht]
          obtain ⟨q1, q2, _⟩ := alias_step hk hac (fun n k ind h1 h2 => .step h1 h2) h ht (hi0.names p hpm).2 (hi0.names p hpm).1
            (.alias hc3 hbn) (isPersistent H p.1 t) []
          rw [← hal] at q1 q2
          generalize aliasAuto key H R (H0.name p.2.ty) p.1 [] = y at s1 s2 s3 q1 q2
          obtain ⟨R2, r⟩ := y
          simp only at s1 s2 s3 q1 q2
          subst s1
          simp only
          obtain ⟨h1, h2, h3, h4, h5, h6⟩ := ih R2 (fun q hq => hm q (by simp [hq])) q2 s2
          refine ⟨h1, h2, h3, h4, fun n t e => h5 n t (q1 n t e), ?_⟩
          intro q hq e1 e2 e3 t' e4
          rcases List.mem_cons.mp hq with rfl | hq
          · have := h.ext _ _ e4
            rw [htr] at this
            cases this
            exact h5 _ _ s3
          · exact h6 q hq e1 e2 e3 t' e4
        · rw [if_neg hc3]
          exact hskip (fun _ _ e3 _ _ => hc3 e3)

/-! ### C77 -/

/-- **C77**: what `load` returns, out of the registry `src` in which the headers were resolved, the registry `base` of the start and
the names `perm` of the typedefs that were met. It never fails. Nothing existing is changed. Each type whose name was not known at
the start, and each type it is made of, is returned with its name and definition; nothing else is, and the result is closed. The
typedefs of these types are returned, unless their name was known at the start, and every other name is a name of the type in `src`
that is such a typedef or is derived from one. Typedefs of types that are not returned are lost (`C77_cex_basic`). -/
theorem C77_filtered_partial (hk : ∀ a b, key a = key b → a = b) {H : Heap} {src : Reg} (hsrc : Reachable key H src) (hwf : WF H)
    (hc : Copyable H src) (hp : Propagates H src) (base : Reg) (perm : List Str) :
    let o := filtered key base src perm H
    o.2 = .ok () ∧
    (∀ t, t < H.next → o.1.1.get t = H.get t) ∧
    (∀ v, Wanted H base src v → ∃ t, o.1.2.get (H.name v) = some t ∧ definition o.1.1 t = definition H v) ∧
    (∀ t, Regd o.1.1 o.1.2 t →
      (∃ v, Wanted H base src v ∧ definition o.1.1 t = definition H v) ∧ ∀ d ∈ o.1.1.deps t, Regd o.1.1 o.1.2 d) ∧
    (∀ n v, n ∈ perm → isAbsoluteName n = true → src.get n = some v → base.get n = none → Wanted H base src v →
      ∃ t, o.1.2.get n = some t ∧ definition o.1.1 t = definition H v) ∧
    (∀ n t, isAbsoluteName n = true → o.1.2.get n = some t →
      (∃ v, src.get n = some v ∧ Wanted H base src v ∧ definition o.1.1 t = definition H v) ∧
      (n = o.1.1.name t ∨ PermName base perm n)) := by
  intro o
  obtain ⟨hac, hi⟩ := reachable_inv hk hsrc
  have hF0 : FInv key H base src (H, Reg.empty) :=
    ⟨Over.refl H, (reachable_inv hk (.start hac)).2, hac, hwf, (fun n t h => by cases h), (fun t d h => by cases h),
      fun n t h => by cases h⟩
  obtain ⟨f1, f2, _, f4⟩ := filterTypes_spec hk hwf hi hc src.global (H, Reg.empty) (fun _ h => h) hF0
  have ho : o = filtered key base src perm H := rfl
  unfold filtered at ho
  generalize filterTypes key base src src.global (H, Reg.empty) = x at ho f1 f2 f4
  obtain ⟨⟨H1, R1⟩, r⟩ := x
  simp only at f1 f2 f4 ho
  subst f1
  simp only at ho
  have hwreg : ∀ v, Wanted H base src v → src.regd H v := by
    rintro v ⟨x, h1, _, h2⟩
    exact (hi.regd_iff v).mp (h2.regd hc h1)
  have hal0 : Aliased key H1 R1 (PermName base perm) R1 :=
    ⟨f2.inv, fun _ _ h => h, fun _ h => h, fun n t h1 h2 => absurd (f2.noal n t h1) h2⟩
  have hsim0 : Sim H src H1 R1 := by
    intro n t hn
    obtain ⟨v, h1, h2⟩ := f2.copies n t hn
    refine ⟨v, ?_, h2⟩
    have hno : n = H1.name t := f2.noal n t hn
    rw [hno, (definition_parts h2).1]
    exact hwreg v h1
  obtain ⟨g1, g2, g3, g4, g5, g6⟩ := filterAliases_spec hk hi hc hp f2.over f2.ac src.global R1 (fun _ h => h) hal0 hsim0
  rw [← ho] at g1 g2 g3 g4 g5 g6
  have hget : ∀ n, isAbsoluteName n = true → o.1.2.get n = o.1.2.reg n := g3.inv.abs
  -- the types
  have hall : ∀ v, Wanted H base src v → ∃ t, R1.reg (H.name v) = some t ∧ definition H1 t = definition H v := by
    rintro v ⟨u, h1, h2, h3⟩
    obtain ⟨e, he, hte⟩ := reg_mem ((hi.regd_iff u).mp h1)
    obtain ⟨t, ht⟩ := f4 (H.name u, e) he (by simp only; rw [hte]) h2 v (by rw [hte]; exact h3)
    obtain ⟨w, h4, h5⟩ := f2.copies _ t ht
    refine ⟨t, ht, ?_⟩
    have hno : H.name v = H1.name t := f2.noal _ t ht
    have : w = v := Verif.Tlb.regd_inj (hwreg w h4) (hwreg v ⟨u, h1, h2, h3⟩) (by rw [← (definition_parts h5).1, ← hno])
    subst this
    exact h5
  have hregd : ∀ t, Regd o.1.1 o.1.2 t → R1.regd H1 t := by
    intro t ht
    rw [g2] at ht
    exact g3.regd t ((g3.inv.regd_iff t).mp ht)
  refine ⟨g1, ?_, ?_, ?_, ?_, ?_⟩
  · intro t ht
    rw [g2]; exact f2.over.get t ht
  · intro v hv
    obtain ⟨t, h1, h2⟩ := hall v hv
    refine ⟨t, ?_, by rw [g2]; exact h2⟩
    rw [hget _ (hi.reg_name (hwreg v hv)).2.1]
    exact g5 _ t h1
  · intro t ht
    have h1 := hregd t ht
    obtain ⟨v, h2, h3⟩ := f2.copies _ t h1
    refine ⟨⟨v, h2, by rw [g2]; exact h3⟩, ?_⟩
    intro d hd
    rw [g2] at hd ⊢
    exact (g3.inv.regd_iff d).mpr (g5 _ d (f2.closed t d h1 hd))
  · intro n v hn habs hv hb hw
    have hvr : src.reg n = some v := by rw [← hi.abs n habs]; exact hv
    obtain ⟨t, h1, h2⟩ := hall v hw
    refine ⟨t, ?_, by rw [g2]; exact h2⟩
    rw [hget n habs]
    by_cases hne : n = H.name v
    · rw [hne]; exact g5 _ t h1
    · obtain ⟨e, he, hte⟩ := reg_mem hvr
      exact g6 (n, e) he (by simp only; rw [hte]; exact hne) hb hn t (by simp only; rw [hte]; exact h1)
  · intro n t habs hn
    rw [hget n habs] at hn
    refine ⟨?_, ?_⟩
    · obtain ⟨v, h1, h2⟩ := g4 n t hn
      have htr : R1.regd H1 t := g3.regd t (g3.inv.reg_name hn).2.2.1
      obtain ⟨w, h3, h4⟩ := f2.copies _ t htr
      have : w = v := Verif.Tlb.regd_inj (hwreg w h3) (hi.reg_name h1).2.2.1
        (by rw [← (definition_parts h4).1, (definition_parts h2).1])
      subst this
      exact ⟨w, by rw [hi.abs n habs]; exact h1, h3, by rw [g2]; exact h2⟩
    · rw [g2]
      by_cases hne : n = H1.name t
      · exact Or.inl hne
      · exact Or.inr (g3.alia n t hn hne)

end Verif.LoadFilter
