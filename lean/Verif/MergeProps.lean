import Verif.MergeSpec

/-! Property C29: what `Registry::merge` does. -/

namespace Verif.Merge
open Verif Verif.Names Verif.Graph Verif.Registry Verif.TypeBuilder

set_option linter.unusedSimpArgs false
set_option linter.unusedVariables false

variable {key : Char → Int}

/-! ### The loop over the aliases -/

/-- the tables once some aliases have been added to those of `s1`; `P` are the names aliases may have -/
structure Aliased (key : Char → Int) (H : Heap) (R1 : Reg) (P : Str → Prop) (R : Reg) : Prop where
  inv : Inv key H R
  ext : ∀ n t, R1.reg n = some t → R.reg n = some t
  regd : ∀ t, R.regd H t → R1.regd H t
  alia : ∀ n t, R.reg n = some t → n ≠ H.name t → P n

theorem alias_step (hk : ∀ a b, key a = key b → a = b) {H : Heap} (hac : Acyclic H) {R1 R : Reg} {P : Str → Prop}
    (hP : ∀ n k ind, P n → Kind.indirectName k = some ind → P (ind n)) (h : Aliased key H R1 P R) {base n : Str} {t : TId}
    (hb : R.get base = some t) (hn : isAbsoluteName n = true) (hv : isValidTypename n true = true) (hPn : P n) (p : Bool) (src : Str) :
    let o := alias key H R base n p src
    (∀ m v, R.reg m = some v → o.1.reg m = some v) ∧ Aliased key H R1 P o.1 ∧
    ((o.2 = .ok () ∧ o.1.reg n = some t) ∨ o.2 = .exn .badName ∨
      (o.2 = .exn .alreadyDefined ∧ ∃ v, R.reg n = some v ∧ v ≠ t)) := by
  intro o
  obtain ⟨⟨a1, a2, a3, a4, a5⟩, b, c⟩ :=
    aliasF_spec hk hac (H.next + 1) R base n p src t h.inv hn hb (h.inv.get_regd hb)
  have ho : o = aliasF key H (H.next + 1) R base n p src := rfl
  rw [← ho] at a1 a2 a3 a4 a5 b c
  refine ⟨a3, ⟨a1, fun m v hm => a3 m v (h.ext m v hm), ?_, ?_⟩, ?_⟩
  · intro v hv'
    refine h.regd v ?_
    cases hr : R.reg (H.name v) with
    | none =>
      have := a5 _ v ⟨hr, hv'⟩
      rw [hr] at this
      cases this
    | some w =>
      have := a3 _ _ hr
      unfold Reg.regd at hv' ⊢
      rw [hv'] at this
      cases this
      exact hr
  · intro m v
    induction v using Nat.strongRecOn generalizing m with
    | ind v ih =>
      intro hm hne
      cases hr : R.reg m with
      | some w =>
        have := a3 m w hr
        rw [hm] at this
        cases this
        exact h.alia m v hr hne
      | none =>
        rcases a4 m v ⟨hr, hm⟩ with ⟨e1, _⟩ | ⟨ind, x, a, e1, e2, e3, e4, e5, e6⟩
        · rw [e1]; exact hPn
        · rw [e3]
          exact hP a _ ind (ih x (hac v x e2) a e4 e5) e1
  · cases hr : o.2 with
    | ok x => exact Or.inl ⟨rfl, (b (by rw [hr])).1⟩
    | exn e =>
      rw [hr] at c
      simp only at c
      rcases c with ⟨rfl, _⟩ | ⟨rfl, _, v, hv1, hv2⟩
      · exact Or.inr (Or.inl rfl)
      · exact Or.inr (Or.inr ⟨rfl, v, hv1, hv2⟩)
    | ub => rw [hr] at c; exact c.elim
    | fuel =>
      rw [hr] at c
      exact (c (Nat.lt_of_le_of_lt (Nat.sub_le _ _) (Nat.lt_succ_self _))).elim

/-! ### The registries -/

/-- The registry to be copied, when its types are made of its own types, possibly recursive except that no array or string is
part of its own elements, with the names and sizes the constructors of arrays, pointers, vectors and strings give. -/
structure Copyable (H : Heap) (src : Reg) : Prop where
  deps : ∀ u d, Regd H src u → d ∈ H.deps u → Regd H src d
  noloop : ∀ u e, Regd H src u → (∃ d, H.kind u = .arr d e) ∨ H.kind u = .str e → ¬ DepStar H e u
  arr : ∀ u d e, Regd H src u → H.kind u = .arr d e → H.get u = arrDef H e d
  ptr : ∀ u e, Regd H src u → H.kind u = .ptr e → H.get u = ptrDef H e
  vec : ∀ u e, Regd H src u → H.kind u = .vec e → H.name u = vecName (H.name e)
  str : ∀ u e, Regd H src u → H.kind u = .str e → H.name u = stringName ∧ H.name e = int8Name

theorem Copyable.source {H : Heap} {src : Reg} (h : Copyable H src) (hi : Inv key H src) :
    Source H (Regd H src) := by
  have hr : ∀ u, Regd H src u → src.reg (H.name u) = some u := fun u hu => (hi.regd_iff u).mp hu
  refine ⟨fun u hu => (hi.reg_name (hr u hu)).2.2.2, fun u hu => (hi.reg_name (hr u hu)).1,
    fun u hu => (hi.reg_name (hr u hu)).2.1, ?_, h.deps, h.noloop, h.arr, h.ptr, h.vec, h.str⟩
  intro u v hu hv e
  have := hr u hu
  rw [e, hr v hv] at this
  cases this
  rfl

theorem isAlias_iff (H : Heap) (p : Str × Entry) : isAlias H p = true ↔ p.1 ≠ H.name p.2.ty := by
  unfold isAlias
  simp

theorem weight_start {H0 : Heap} {u : TId} (hu : u < H0.next) {fuel : Nat} (hf : (H0.next + 1) * (H0.next + 1) ≤ fuel) :
    weight H0 [] u < fuel := by
  refine Nat.lt_of_lt_of_le ?_ hf
  show (H0.next - 0) * (H0.next + 1) + u < _
  rw [Nat.sub_zero, Nat.succ_mul]
  exact Nat.add_lt_add_left (Nat.lt_succ_of_lt hu) _

theorem mergeTypes_spec (hk : ∀ a b, key a = key b → a = b) {H0 : Heap} {R0 : Reg} {S base : TId → Prop}
    (hs : Source H0 S) (hna : ∀ u, S u → ¬ FromAlias H0 R0 (H0.name u)) {fuel : Nat} (hf : (H0.next + 1) * (H0.next + 1) ≤ fuel) :
    ∀ (l : List (Str × Entry)) (s : MSt), (∀ p ∈ l, S p.2.ty) → J key H0 R0 S base [] s →
    let o := mergeTypes key fuel l s
    Kept s o.1 ∧ ((o.2 = .ok () ∧ J key H0 R0 S base [] o.1 ∧
        ∀ p ∈ l, p.1 = H0.name p.2.ty → ∃ t, o.1.R.reg p.1 = some t) ∨
      (o.2 = .exn .badName ∧ ∃ n, FromAlias H0 R0 n)) := by
  intro l
  induction l with
  | nil => intro s _ h; exact ⟨Kept.refl s, Or.inl ⟨rfl, h, by simp⟩⟩
  | cons p l ih =>
    intro s hl h
    have hp : S p.2.ty := hl p (by simp)
    have hnm := h.name hs hp
    unfold mergeTypes
    by_cases ha : isAlias s.H p = true
    · rw [if_pos ha]
      obtain ⟨i1, i2⟩ := ih s (fun q hq => hl q (by simp [hq])) h
      refine ⟨i1, ?_⟩
      rcases i2 with ⟨j1, j2, j3⟩ | j
      · refine Or.inl ⟨j1, j2, ?_⟩
        intro q hq he
        rcases List.mem_cons.mp hq with rfl | hq
        · rw [isAlias_iff, hnm] at ha
          exact absurd he ha
        · exact j3 q hq he
      · exact Or.inr j
    · rw [if_neg ha]
      obtain ⟨hkept, hpost⟩ := mergeF_spec hk hs hna fuel [] s p.2.ty h hp (weight_start (hs.alloc _ hp) hf) (fun _ _ hf => by cases hf)
      generalize mergeF key fuel s p.2.ty = x at hkept hpost
      obtain ⟨s1, r1⟩ := x
      simp only at hkept hpost
      rcases hpost with ⟨t, rfl, hJ1, ht | ht, _⟩ | ⟨rfl, hex⟩
      · simp only [andThen_ok]
        obtain ⟨i1, i2⟩ := ih s1 (fun q hq => hl q (by simp [hq])) hJ1
        refine ⟨hkept.trans i1, ?_⟩
        rcases i2 with ⟨j1, j2, j3⟩ | j
        · refine Or.inl ⟨j1, j2, ?_⟩
          intro q hq he
          rcases List.mem_cons.mp hq with rfl | hq
          · exact ⟨t, i1.ext _ _ (by rw [he]; exact ht)⟩
          · exact j3 q hq he
        · exact Or.inr j
      · cases ht
      · simp only [andThen_exn]
        exact ⟨hkept, Or.inr ⟨trivial, hex⟩⟩

/-- what the loop over the aliases has done -/
def AliasDone (H : Heap) (R : Reg) (p : Str × Entry) : Prop := ∃ t, R.reg p.1 = some t ∧ isSame H t p.2.ty = .ok true

theorem AliasDone.mono {H : Heap} {R R' : Reg} (h : ∀ n t, R.reg n = some t → R'.reg n = some t) {p : Str × Entry}
    (hp : AliasDone H R p) : AliasDone H R' p := by
  obtain ⟨t, h1, h2⟩ := hp
  exact ⟨t, h _ _ h1, h2⟩

theorem mergeAliases_spec (hk : ∀ a b, key a = key b → a = b) {H : Heap} (hac : Acyclic H) (hwf : WF H) {R1 : Reg} {P : Str → Prop}
    (hP : ∀ n k ind, P n → Kind.indirectName k = some ind → P (ind n)) :
    ∀ (l : List (Str × Entry)) (s : MSt), s.H = H → Aliased key H R1 P s.R →
      (∀ p ∈ l, isAbsoluteName p.1 = true ∧ isValidTypename p.1 true = true ∧ p.2.ty < H.next ∧
        (p.1 ≠ H.name p.2.ty → P p.1) ∧ isAbsoluteName (H.name p.2.ty) = true ∧
        ∃ t, R1.reg (H.name p.2.ty) = some t ∧ isSame H t p.2.ty = .ok true) →
    let o := mergeAliases key l s
    o.1.H = H ∧ (∀ n t, s.R.reg n = some t → o.1.R.reg n = some t) ∧ Aliased key H R1 P o.1.R ∧
    ((o.2 = .ok () ∧ ∀ p ∈ l, p.1 ≠ H.name p.2.ty → AliasDone H o.1.R p) ∨
      ((o.2 = .exn .badName ∨ o.2 = .exn .mismatch) ∧ ∃ p ∈ l, p.1 ≠ H.name p.2.ty)) := by
  intro l
  induction l with
  | nil => intro s hH h _; exact ⟨hH, fun _ _ h => h, h, Or.inl ⟨rfl, by simp⟩⟩
  | cons p l ih =>
    intro s hH h hl
    obtain ⟨p1, p2, p3, p4, p5, t0, p6, p7⟩ := hl p (by simp)
    have hl' : ∀ q ∈ l, _ := fun q hq => hl q (by simp [hq])
    unfold mergeAliases
    by_cases ha : isAlias s.H p = true
    · have hne : p.1 ≠ H.name p.2.ty := by rw [isAlias_iff, hH] at ha; exact ha
      rw [ha]
      simp only [Bool.not_true, Bool.false_eq_true, if_false]
      have hgo : ∀ s' : MSt, s'.H = H → Aliased key H R1 P s'.R → (∀ n t, s.R.reg n = some t → s'.R.reg n = some t) →
          AliasDone H s'.R p →
          (mergeAliases key l s').1.H = H ∧ (∀ n t, s.R.reg n = some t → (mergeAliases key l s').1.R.reg n = some t) ∧
          Aliased key H R1 P (mergeAliases key l s').1.R ∧
          (((mergeAliases key l s').2 = .ok () ∧ ∀ q ∈ p :: l, q.1 ≠ H.name q.2.ty → AliasDone H (mergeAliases key l s').1.R q) ∨
            (((mergeAliases key l s').2 = .exn .badName ∨ (mergeAliases key l s').2 = .exn .mismatch) ∧
              ∃ q ∈ p :: l, q.1 ≠ H.name q.2.ty)) := by
        intro s' h1 h2 h3 h4
        obtain ⟨i1, i2, i3, i4⟩ := ih s' h1 h2 hl'
        refine ⟨i1, fun n t hn => i2 n t (h3 n t hn), i3, ?_⟩
        rcases i4 with ⟨j1, j2⟩ | ⟨j1, q, j2, j3⟩
        · refine Or.inl ⟨j1, ?_⟩
          intro q hq hqn
          rcases List.mem_cons.mp hq with rfl | hq
          · exact h4.mono i2
          · exact j2 q hq hqn
        · exact Or.inr ⟨j1, q, by simp [j2], j3⟩
      cases hg : s.R.get p.1 with
      | some old =>
        simp only
        have hr : s.R.reg p.1 = some old := by rw [← h.inv.abs _ p1]; exact hg
        rw [hH]
        obtain ⟨⟨v, hv⟩, _⟩ := C26_compare_terminates H hwf old p.2.ty (h.inv.reg_name hr).2.2.2 p3
        rw [hv]
        cases v with
        | true => exact hgo s hH h (fun _ _ h => h) ⟨old, hr, hv⟩
        | false => exact ⟨hH, fun _ _ h => h, h, Or.inr ⟨Or.inr rfl, p, by simp, hne⟩⟩
      | none =>
        simp only
        rw [hH]
        have hb : s.R.get (H.name p.2.ty) = some t0 := by
          rw [h.inv.abs _ p5]; exact h.ext _ _ p6
        obtain ⟨c1, c2, c3⟩ := alias_step hk hac hP h hb p1 p2 (p4 hne) p.2.persistent p.2.source
        generalize alias key H s.R (H.name p.2.ty) p.1 p.2.persistent p.2.source = x at c1 c2 c3
        obtain ⟨R2, r2⟩ := x
        simp only at c1 c2 c3
        have hrn : s.R.reg p.1 = none := by rw [← h.inv.abs _ p1]; exact hg
        rcases c3 with ⟨rfl, e2⟩ | rfl | ⟨_, v, e2, _⟩
        · simp only [onReg, andThen_ok]
          exact hgo { s with R := R2 } hH c2 c1 ⟨t0, e2, p7⟩
        · simp only [onReg, andThen_exn]
          exact ⟨hH, c1, c2, Or.inr ⟨Or.inl trivial, p, by simp, hne⟩⟩
        · rw [hrn] at e2; cases e2
    · have ha' : isAlias s.H p = false := by simpa using ha
      rw [ha']
      simp only [Bool.not_false, if_true]
      obtain ⟨i1, i2, i3, i4⟩ := ih s hH h hl'
      refine ⟨i1, i2, i3, ?_⟩
      rcases i4 with ⟨j1, j2⟩ | ⟨j1, q, j2, j3⟩
      · refine Or.inl ⟨j1, ?_⟩
        intro q hq hqn
        rcases List.mem_cons.mp hq with rfl | hq
        · rw [isAlias_iff, hH] at ha
          exact absurd hqn ha
        · exact j2 q hq hqn
      · exact Or.inr ⟨j1, q, by simp [j2], j3⟩

theorem copySourceIDs_spec {H : Heap} (l : List (Str × Entry)) : ∀ R : Reg, Inv key H R →
    Inv key H (copySourceIDs H R l) ∧ (∀ n, (copySourceIDs H R l).reg n = R.reg n) ∧
    (∀ n, (copySourceIDs H R l).get n = R.get n) := by
  induction l with
  | nil => intro R h; exact ⟨h, fun _ => rfl, fun _ => rfl⟩
  | cons p l ih =>
    intro R h
    have h1 : Inv key H (copySource H R p) ∧ (∀ n, (copySource H R p).reg n = R.reg n) ∧
        (∀ n, (copySource H R p).get n = R.get n) := by
      unfold copySource
      split
      · exact ⟨h, fun _ => rfl, fun _ => rfl⟩
      · split
        · exact ⟨inv_setSourceID h _ _, fun n => setSourceID_reg R _ _ n, fun _ => rfl⟩
        · exact ⟨h, fun _ => rfl, fun _ => rfl⟩
    obtain ⟨i1, i2, i3⟩ := ih (copySource H R p) h1.1
    exact ⟨i1, fun n => (i2 n).trans (h1.2.1 n), fun n => (i3 n).trans (h1.2.2 n)⟩

theorem J.same {key : Char → Int} {H0 : Heap} {R0 : Reg} {S base : TId → Prop} {s : MSt}
    (h : J key H0 R0 S base [] s) (hs : Source H0 S) {u t : TId} (hu : S u) (ht : s.R.reg (H0.name u) = some t) :
    isSame s.H t u = .ok true := by
  have hr := h.inv.reg_name ht
  rw [C26_isSame_iff s.H h.wf t u hr.2.2.2 (h.lt hs hu)]
  exact Or.inr ⟨_, h.restart.matching hs, hr.2.2.1, hu, definition_name (h.compat u t hu ht)⟩

/-- `n` is the name of an alias, or is obtained from one by array, pointer or vector decorations, in one of the two
registries -/
def AliasName (H : Heap) (R src : Reg) (n : Str) : Prop := FromAlias H R n ∨ FromAlias H src n

theorem AliasName.step {H : Heap} {R src : Reg} (n : Str) (k : Kind) (ind : Str → Str) (h : AliasName H R src n)
    (hi : k.indirectName = some ind) : AliasName H R src (ind n) := by
  rcases h with h | h
  · exact Or.inl (.step h hi)
  · exact Or.inr (.step h hi)

/-- everything the merge of two registries establishes -/
structure Merged (key : Char → Int) (H : Heap) (R src : Reg) (w : World) : Prop where
  inv : Inv key w.1 w.2
  acyclic : Acyclic w.1
  wf : WF w.1
  next : H.next ≤ w.1.next
  objects : ∀ t, t < H.next → w.1.get t = H.get t
  kept : ∀ n t, R.reg n = some t → w.2.reg n = some t
  types : ∀ u, Regd H src u → ∃ t, w.2.reg (H.name u) = some t ∧ definition w.1 t = definition w.1 u
  aliases : ∀ n u, src.reg n = some u → ∃ t, w.2.reg n = some t ∧ isSame w.1 t u = .ok true
  closed : ∀ t d, w.2.regd w.1 t → d ∈ w.1.deps t → w.2.regd w.1 d
  disjoint : ∀ u, Regd H src u → ¬ w.2.regd w.1 u
  only : ∀ n t, w.2.reg n = some t → R.reg n = some t ∨ (n = w.1.name t ∧ ∃ u, Regd H src u ∧ n = H.name u) ∨
    (n ≠ w.1.name t ∧ AliasName H R src n)

theorem merge_spec (hk : ∀ a b, key a = key b → a = b) {H : Heap} {R src : Reg}
    (hi : Inv key H src) (hc : Copyable H src) (hd : Dest key H R (Regd H src)) {fuel : Nat}
    (hf : (H.next + 1) * (H.next + 1) ≤ fuel) :
    let o := merge key fuel (H, R) src
    (∀ t, t < H.next → o.1.1.get t = H.get t) ∧ (∀ n t, R.reg n = some t → o.1.2.reg n = some t) ∧
    ((o.2 = .ok () ∧ Merged key H R src o.1) ∨
     ((o.2 = .exn .badName ∨ o.2 = .exn .mismatch) ∧ ∃ n, AliasName H R src n)) := by
  intro o
  have ho : o = merge key fuel (H, R) src := rfl
  unfold merge at ho
  simp only at ho
  have hs := hc.source hi
  have hJ := hd.start hs
  have hmem : ∀ p ∈ src.global, Regd H src p.2.ty := fun p hp => (hi.regd_iff _).mpr (hi.prim p hp)
  obtain ⟨hkept, hres⟩ := mergeTypes_spec hk hs hd.aliases hf src.global ⟨H, R, []⟩ hmem hJ
  generalize mergeTypes key fuel src.global ⟨H, R, []⟩ = x at ho hkept hres
  obtain ⟨s1, r1⟩ := x
  simp only at hkept hres
  rcases hres with ⟨rfl, hJ1, hall⟩ | ⟨rfl, n, hn⟩
  · simp only [andThen_ok] at ho
    have hallS : ∀ u, Regd H src u → ∃ t, s1.R.reg (H.name u) = some t := by
      intro u hu
      obtain ⟨e, he, hte⟩ := reg_mem ((hi.regd_iff u).mp hu)
      exact hall (H.name u, e) he (by simp only [hte])
    have hA : Aliased key s1.H s1.R (AliasName H R src) s1.R :=
      ⟨hJ1.inv, fun _ _ h => h, fun _ h => h, fun n t h1 h2 => Or.inl (hJ1.alia n t h1 h2)⟩
    obtain ⟨a1, a2, a3, a4⟩ := mergeAliases_spec hk hJ1.ac hJ1.wf AliasName.step src.global s1 rfl hA (by
      intro p hp
      have hS := hmem p hp
      have hr := mem_reg hi.sorted hp
      have hnm := hJ1.name hs hS
      refine ⟨(hi.names p hp).2, (hi.names p hp).1, hJ1.lt hs hS, ?_, ?_, ?_⟩
      · intro hne
        rw [hnm] at hne
        exact Or.inr (.alias hr hne)
      · rw [hnm]; exact hs.abs _ hS
      · obtain ⟨t, ht⟩ := hallS _ hS
        rw [hnm]
        exact ⟨t, ht, hJ1.same hs hS ht⟩)
    generalize mergeAliases key src.global s1 = y at ho a1 a2 a3 a4
    obtain ⟨s2, r2⟩ := y
    simp only at a1 a2 a3 a4 ho
    rcases a4 with ⟨rfl, a5⟩ | ⟨a5, p, hp, hne⟩
    · simp only at ho
      have a3' : Inv key s2.H s2.R := by rw [a1]; exact a3.inv
      obtain ⟨c1, c2, c3⟩ := copySourceIDs_spec src.global s2.R a3'
      rw [ho]
      simp only
      refine ⟨fun t ht => by rw [a1]; exact hkept.get t ht, fun n t hn => by
        rw [c2]; exact a2 n t (hkept.ext n t hn), Or.inl ⟨trivial, ?_⟩⟩
      have hregd : ∀ t, (copySourceIDs s2.H s2.R src.global).regd s2.H t ↔ s1.R.regd s1.H t := by
        intro t
        unfold Reg.regd
        rw [c2, a1]
        exact ⟨fun h => a3.regd t h, fun h => a3.ext _ _ h⟩
      refine ⟨c1, by rw [a1]; exact hJ1.ac, by rw [a1]; exact hJ1.wf, by rw [a1]; exact hkept.next,
        fun t ht => by rw [a1]; exact hkept.get t ht, fun n t hn => by rw [c2]; exact a2 n t (hkept.ext n t hn), ?_, ?_, ?_, ?_, ?_⟩
      · intro u hu
        obtain ⟨t, ht⟩ := hallS u hu
        refine ⟨t, ?_, ?_⟩
        · simp only; rw [c2]; exact a2 _ _ ht
        · simp only; rw [a1]; exact hJ1.compat u t hu ht
      · intro n u hu
        obtain ⟨e, he, rfl⟩ := reg_mem hu
        have hS := hmem _ he
        simp only [c2]
        by_cases hne : n = s1.H.name e.ty
        · rw [hJ1.name hs hS] at hne
          obtain ⟨t, ht⟩ := hallS _ hS
          refine ⟨t, ?_, ?_⟩
          · rw [hne]; exact a2 _ _ ht
          · rw [a1]; exact hJ1.same hs hS ht
        · obtain ⟨t, h1, h2⟩ := a5 _ he hne
          exact ⟨t, h1, by rw [a1]; exact h2⟩
      · intro t d ht hdd
        simp only at ht hdd ⊢
        rw [hregd] at ht ⊢
        rw [a1] at hdd
        exact hJ1.restart.baseC t d ht hdd
      · intro u hu ht
        simp only at ht
        rw [hregd] at ht
        exact hJ1.disj u hu ht
      · intro n t hn
        simp only [c2] at hn
        by_cases hne : n = s1.H.name t
        · have hrt : s1.R.regd s1.H t := by
            refine a3.regd t ?_
            unfold Reg.regd
            rw [← hne]; exact hn
          rcases hJ1.new t hrt with h1 | ⟨u, h1, h2⟩
          · left
            have hlt : t < H.next := (hd.inv.reg_name h1).2.2.2
            rw [hne]
            unfold Heap.name
            rw [hJ1.old t hlt]
            exact h1
          · simp only [a1]
            exact Or.inr (Or.inl ⟨hne, u, h1, hne.trans h2.symm⟩)
        · simp only [a1]
          exact Or.inr (Or.inr ⟨hne, a3.alia n t hn hne⟩)
    · have hS := hmem p hp
      have hfin : o.1 = (s2.H, s2.R) ∧ o.2 = r2 := by
        rcases a5 with rfl | rfl <;> rw [ho] <;> exact ⟨rfl, rfl⟩
      rw [hfin.1, hfin.2]
      refine ⟨fun t ht => by rw [a1]; exact hkept.get t ht, fun n t hn => a2 n t (hkept.ext n t hn), Or.inr ⟨a5, p.1, Or.inr ?_⟩⟩
      rw [hJ1.name hs hS] at hne
      exact .alias (mem_reg hi.sorted hp) hne
  · simp only [andThen_exn] at ho
    rw [ho]
    exact ⟨hkept.get, hkept.ext, Or.inr ⟨Or.inl rfl, n, Or.inl hn⟩⟩

/-! ### C29 -/

/-- **C29**, `a.merge(b)`: on success every type of `b` is registered in `a` under its name with the same definition and
every alias of `b` names a type that is the same; what was registered is still there, the same objects with the same
attributes; what registered types depend on is registered; and nothing was added besides the types of `b`, their aliases,
and the names derived from aliases. Whatever happens, existing objects and registrations are kept. -/
theorem C29_merge_partial (hk : ∀ a b, key a = key b → a = b) {H : Heap} {R src : Reg}
    (hsrc : Reachable key H src) (hc : Copyable H src) (hd : Dest key H R (Regd H src)) (fuel : Nat)
    (hf : (H.next + 1) * (H.next + 1) ≤ fuel) :
    let o := merge key fuel (H, R) src
    (∀ t, t < H.next → o.1.1.get t = H.get t) ∧
    (∀ n t, isAbsoluteName n = true → R.get n = some t → o.2 = .ok () → o.1.2.get n = some t) ∧
    (o.2 = .ok () →
      (∀ u, Regd H src u → ∃ t, o.1.2.get (H.name u) = some t ∧ definition o.1.1 t = definition H u) ∧
      (∀ n u, isAbsoluteName n = true → src.get n = some u → ∃ t, o.1.2.get n = some t ∧ isSame o.1.1 t u = .ok true) ∧
      (∀ t d, Regd o.1.1 o.1.2 t → d ∈ o.1.1.deps t → Regd o.1.1 o.1.2 d) ∧
      (∀ t, Regd o.1.1 o.1.2 t → Regd H R t ∨ ∃ u, Regd H src u ∧ o.1.1.name t = H.name u) ∧
      (∀ n t, isAbsoluteName n = true → o.1.2.get n = some t → R.get n = none → n = o.1.1.name t ∨ AliasName H R src n)) := by
  intro o
  have hi := (reachable_inv hk hsrc).2
  obtain ⟨h1, h2, h3⟩ := merge_spec hk hi hc hd hf
  refine ⟨h1, ?_, ?_⟩
  · intro n t hn hg hok
    rcases h3 with ⟨_, h3⟩ | ⟨h3 | h3, _⟩
    · rw [hd.inv.abs n hn] at hg
      rw [show o.1.2.get n = o.1.2.reg n from h3.inv.abs n hn]
      exact h2 n t hg
    · rw [show o.2 = _ from h3] at hok; cases hok
    · rw [show o.2 = _ from h3] at hok; cases hok
  · intro hok
    rcases h3 with ⟨_, h3⟩ | ⟨h3 | h3, _⟩
    · have hM : Merged key H R src o.1 := h3
      refine ⟨?_, ?_, ?_, ?_, ?_⟩
      · intro u hu
        obtain ⟨t, ht, hdef⟩ := hM.types u hu
        refine ⟨t, ?_, ?_⟩
        · rw [hM.inv.abs _ ((hc.source hi).abs u hu)]; exact ht
        · rw [hdef]
          have hlt := (hc.source hi).alloc u hu
          exact definition_congr (hM.objects u hlt) (fun d hdd => by
            unfold Heap.name
            rw [hM.objects d (hd.wf.deps u d hlt hdd)])
      · intro n u hn hu
        rw [hi.abs n hn] at hu
        obtain ⟨t, ht, hsame⟩ := hM.aliases n u hu
        exact ⟨t, by rw [hM.inv.abs n hn]; exact ht, hsame⟩
      · intro t d ht hdd
        exact (hM.inv.regd_iff d).mpr (hM.closed t d ((hM.inv.regd_iff t).mp ht) hdd)
      · intro t ht
        have ht' : o.1.2.reg (o.1.1.name t) = some t := (hM.inv.regd_iff t).mp ht
        rcases hM.only _ t ht' with e | ⟨_, u, e1, e2⟩ | ⟨e, _⟩
        · left
          have hlt := (hd.inv.reg_name e).2.2.2
          rw [hd.inv.regd_iff]
          have := (hd.inv.reg_name e).2.2.1
          exact this
        · exact Or.inr ⟨u, e1, e2⟩
        · exact absurd rfl e
      · intro n t hn hg hnone
        rw [hM.inv.abs n hn] at hg
        rw [hd.inv.abs n hn] at hnone
        rcases hM.only n t hg with e | ⟨e, _⟩ | ⟨_, e⟩
        · rw [e] at hnone; cases hnone
        · exact Or.inl e
        · exact Or.inr e
    · rw [show o.2 = _ from h3] at hok; cases hok
    · rw [show o.2 = _ from h3] at hok; cases hok

/-- **C29**: the merge ends, and it succeeds when no aliases are involved. -/
theorem C29_merge_succeeds_partial (hk : ∀ a b, key a = key b → a = b) {H : Heap} {R src : Reg}
    (hsrc : Reachable key H src) (hc : Copyable H src) (hd : Dest key H R (Regd H src)) (fuel : Nat)
    (hf : (H.next + 1) * (H.next + 1) ≤ fuel) :
    let o := merge key fuel (H, R) src
    (o.2 = .ok () ∨ o.2 = .exn .badName ∨ o.2 = .exn .mismatch) ∧
    ((∀ n t, R.get n = some t → isAbsoluteName n = true → n = H.name t) →
     (∀ n t, src.get n = some t → isAbsoluteName n = true → n = H.name t) → o.2 = .ok ()) := by
  intro o
  have hi := (reachable_inv hk hsrc).2
  obtain ⟨_, _, h3⟩ := merge_spec hk hi hc hd hf
  refine ⟨?_, ?_⟩
  · rcases h3 with ⟨h3, _⟩ | ⟨h3, _⟩
    · exact Or.inl h3
    · exact Or.inr h3
  · intro hR hS
    rcases h3 with ⟨h3, _⟩ | ⟨_, n, hn⟩
    · exact h3
    · exfalso
      have hno : ∀ (Q : Reg) (m : Str), Inv key H Q → (∀ n t, Q.get n = some t → isAbsoluteName n = true → n = H.name t) →
          ¬ FromAlias H Q m := by
        intro Q m hQ hnone hfa
        induction hfa with
        | alias h1 h2 =>
          have := hQ.reg_name h1
          exact h2 (hnone _ _ (by rw [hQ.abs _ this.2.1]; exact h1) this.2.1)
        | step _ _ ih => exact ih
      rcases hn with hn | hn
      · exact hno R n hd.inv hR hn
      · exact hno src n hi hS hn

/-! ### Merging again -/

theorem Source.heap {H H' : Heap} {S : TId → Prop} (hs : Source H S) (hwf : WF H)
    (hn : H.next ≤ H'.next) (hget : ∀ t, t < H.next → H'.get t = H.get t) : Source H' S := by
  have hnm : ∀ t, t < H.next → H'.name t = H.name t := fun t ht => by unfold Heap.name; rw [hget t ht]
  have hsz : ∀ t, t < H.next → H'.size t = H.size t := fun t ht => by unfold Heap.size; rw [hget t ht]
  have hkd : ∀ t, t < H.next → H'.kind t = H.kind t := fun t ht => by unfold Heap.kind; rw [hget t ht]
  have helt : ∀ u e, S u → (H.kind u).elem? = some e → e < H.next := fun u e hu he =>
    hwf.deps u e (hs.alloc u hu) (elem_mem_deps he)
  refine ⟨fun u hu => Nat.lt_of_lt_of_le (hs.alloc u hu) hn, ?_, ?_, ?_, ?_, ?_, ?_, ?_, ?_, ?_⟩
  · intro u hu; rw [hnm u (hs.alloc u hu)]; exact hs.valid u hu
  · intro u hu; rw [hnm u (hs.alloc u hu)]; exact hs.abs u hu
  · intro u v hu hv e
    rw [hnm u (hs.alloc u hu), hnm v (hs.alloc v hv)] at e
    exact hs.inj u v hu hv e
  · intro u d hu hd
    unfold Heap.deps at hd
    rw [hkd u (hs.alloc u hu)] at hd
    exact hs.deps u d hu hd
  · intro u e hu hk hds
    rw [hkd u (hs.alloc u hu)] at hk
    refine hs.noloop u e hu hk ?_
    have hSe : S e := by
      refine hs.deps u e hu (elem_mem_deps (k := H.kind u) ?_)
      rcases hk with ⟨d, hk⟩ | hk <;> rw [hk] <;> rfl
    have : ∀ x, DepStar H' e x → S x ∧ DepStar H e x := by
      intro x hx
      induction hx with
      | refl => exact ⟨hSe, .refl⟩
      | step _ hd ih =>
        unfold Heap.deps at hd
        rw [hkd _ (hs.alloc _ ih.1)] at hd
        exact ⟨hs.deps _ _ ih.1 hd, .step ih.2 hd⟩
    exact (this u hds).2
  · intro u d e hu hk
    rw [hkd u (hs.alloc u hu)] at hk
    have := helt u e hu (by rw [hk]; rfl)
    rw [hget u (hs.alloc u hu), hs.arr u d e hu hk]
    unfold arrDef
    rw [hnm e this, hsz e this]
  · intro u e hu hk
    rw [hkd u (hs.alloc u hu)] at hk
    have := helt u e hu (by rw [hk]; rfl)
    rw [hget u (hs.alloc u hu), hs.ptr u e hu hk]
    unfold ptrDef
    rw [hnm e this]
  · intro u e hu hk
    rw [hkd u (hs.alloc u hu)] at hk
    have := helt u e hu (by rw [hk]; rfl)
    rw [hnm u (hs.alloc u hu), hnm e this]
    exact hs.vec u e hu hk
  · intro u e hu hk
    rw [hkd u (hs.alloc u hu)] at hk
    have := helt u e hu (by rw [hk]; rfl)
    rw [hnm u (hs.alloc u hu), hnm e this]
    exact hs.str u e hu hk

theorem mergeTypes_present {H0 : Heap} {R0 : Reg} {S base : TId → Prop} (hs : Source H0 S) {fuel : Nat}
    (hf : 0 < fuel) : ∀ (l : List (Str × Entry)) (s : MSt), (∀ p ∈ l, S p.2.ty) →
      (∀ p ∈ l, ∃ t, s.R.reg (H0.name p.2.ty) = some t) → J key H0 R0 S base [] s →
    ∃ st', mergeTypes key fuel l s = ({ s with st := st' }, .ok ()) := by
  intro l
  induction l with
  | nil => intro s _ _ _; exact ⟨s.st, rfl⟩
  | cons p l ih =>
    intro s h1 h2 h
    unfold mergeTypes
    by_cases ha : isAlias s.H p = true
    · rw [if_pos ha]
      exact ih s (fun q hq => h1 q (by simp [hq])) (fun q hq => h2 q (by simp [hq])) h
    · rw [if_neg ha]
      obtain ⟨t, ht⟩ := h2 p (by simp)
      obtain ⟨f, rfl⟩ : ∃ f, fuel = f + 1 := ⟨fuel - 1, by omega⟩
      obtain ⟨st', e, hJ, _⟩ := mergeF_again hs f [] s _ t h (h1 p (by simp)) (Or.inl ht)
      rw [e]
      simp only [andThen_ok]
      exact ih { s with st := st' } (fun q hq => h1 q (by simp [hq])) (fun q hq => h2 q (by simp [hq])) hJ

theorem mergeAliases_present : ∀ (l : List (Str × Entry)) (s : MSt),
    (∀ p ∈ l, p.1 ≠ s.H.name p.2.ty → ∃ t, s.R.get p.1 = some t ∧ isSame s.H t p.2.ty = .ok true) →
    mergeAliases key l s = (s, .ok ()) := by
  intro l
  induction l with
  | nil => intro s _; rfl
  | cons p l ih =>
    intro s h
    unfold mergeAliases
    by_cases ha : isAlias s.H p = true
    · obtain ⟨t, h1, h2⟩ := h p (by simp) ((isAlias_iff _ _).mp ha)
      rw [ha]
      simp only [Bool.not_true, Bool.false_eq_true, if_false]
      rw [h1]
      simp only
      rw [h2]
      exact ih s (fun q hq => h q (by simp [hq]))
    · rw [show isAlias s.H p = false by simpa using ha]
      simp only [Bool.not_false, if_true]
      exact ih s (fun q hq => h q (by simp [hq]))

/-- **C29**, idempotence: after a successful merge, merging the same registry again succeeds, creates no object, and changes
no name. -/
theorem C29_merge_again_partial (hk : ∀ a b, key a = key b → a = b) {H : Heap} {R src : Reg}
    (hsrc : Reachable key H src) (hc : Copyable H src) (hd : Dest key H R (Regd H src)) (fuel : Nat)
    (hf : (H.next + 1) * (H.next + 1) ≤ fuel) (hok : (merge key fuel (H, R) src).2 = .ok ()) :
    let w := (merge key fuel (H, R) src).1
    let o := merge key fuel w src
    o.2 = .ok () ∧ o.1.1 = w.1 ∧ ∀ n, o.1.2.get n = w.2.get n := by
  intro w o
  have hi := (reachable_inv hk hsrc).2
  obtain ⟨_, _, h3⟩ := merge_spec hk hi hc hd hf
  have hM : Merged key H R src w := by
    rcases h3 with ⟨_, h3⟩ | ⟨h3 | h3, _⟩
    · exact h3
    · rw [h3] at hok; cases hok
    · rw [h3] at hok; cases hok
  have hs := hc.source hi
  have hs' : Source w.1 (Regd H src) := hs.heap hd.wf hM.next hM.objects
  have hnm : ∀ u, Regd H src u → w.1.name u = H.name u := fun u hu => by
    unfold Heap.name; rw [hM.objects u (hs.alloc u hu)]
  have hJ : J key w.1 w.2 (Regd H src) (w.2.regd w.1) [] ⟨w.1, w.2, []⟩ := by
    refine ⟨hM.inv, hM.acyclic, hM.wf, Nat.le_refl _, fun _ _ => rfl, fun _ _ h => h, fun t d ht hd => Or.inl (hM.closed t d ht hd), ?_,
      fun n t h1 h2 => .alias h1 h2, hM.disjoint, (fun k v h => by cases h), fun t ht => Or.inl ht, (fun k p h => by cases h),
      List.nodup_nil, fun _ h => h, hM.closed, fun u t _ ht => Or.inl (hM.inv.reg_name ht).2.2.1⟩
    intro u t hu ht
    simp only at ht ⊢
    obtain ⟨t', ht', hdef⟩ := hM.types u hu
    rw [hnm u hu, ht'] at ht
    cases ht
    exact hdef
  have hmem : ∀ p ∈ src.global, Regd H src p.2.ty := fun p hp => (hi.regd_iff _).mpr (hi.prim p hp)
  obtain ⟨st', e1⟩ := mergeTypes_present hs' (fuel := fuel) (Nat.lt_of_lt_of_le (Nat.mul_pos (Nat.succ_pos _) (Nat.succ_pos _)) hf) src.global
    ⟨w.1, w.2, []⟩ hmem (fun p hp => by
      obtain ⟨t, ht, _⟩ := hM.types _ (hmem p hp)
      exact ⟨t, by rw [hnm _ (hmem p hp)]; exact ht⟩) hJ
  have e2 : mergeAliases key src.global ⟨w.1, w.2, st'⟩ = (⟨w.1, w.2, st'⟩, .ok ()) := by
    refine mergeAliases_present src.global _ ?_
    intro p hp _
    obtain ⟨t, h1, h2⟩ := hM.aliases p.1 p.2.ty (mem_reg hi.sorted hp)
    exact ⟨t, by rw [hM.inv.abs _ (hi.names p hp).2]; exact h1, h2⟩
  have ho : o = ((w.1, copySourceIDs w.1 w.2 src.global), .ok ()) := by
    show merge key fuel w src = _
    unfold merge
    simp only [show (⟨w.1, w.2, []⟩ : MSt) = ⟨w.1, w.2, []⟩ from rfl]
    rw [e1]
    simp only [andThen_ok]
    rw [e2]
  rw [ho]
  exact ⟨rfl, rfl, (copySourceIDs_spec src.global w.2 hM.inv).2.2⟩

end Verif.Merge
