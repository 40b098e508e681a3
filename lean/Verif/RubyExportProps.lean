import Verif.RubyExport

/-! C70: proofs. -/

namespace Verif.RubyExport
open Verif Verif.Names Verif.Graph Verif.Registry Verif.RegistryIter

variable {α : Type} [DecidableEq α]

/-- what a lookup of a name must give -/
def Gives (E : Env α) (H : Heap) (R : Reg) (name : Str) (out : Out) : Prop :=
  (∀ t c, R.get name = some t → E.exported 0 t = some c → ∃ x, out = .obj x ∧ For x c) ∧
  (∀ t, R.get name = some t → E.exported 0 t = none → out = .notFound) ∧
  (R.get name = none → (∃ t, Regd H R t ∧ name ++ ['/'] <+: H.name t) → ∃ k, out = .obj (.ns k)) ∧
  (R.get name = none → (¬ ∃ t, Regd H R t ∧ name ++ ['/'] <+: H.name t) → out = .notFound)

def PreOk (p : Str) : Prop := ∃ l : List Str, (∀ x ∈ l, Comp x ∧ x ≠ []) ∧ p = joinAbs l ++ ['/']

theorem preOk_abs {p : Str} (h : PreOk p) (c : Str) : isAbsoluteName (p ++ c) = true := by
  obtain ⟨l, _, rfl⟩ := h
  cases l <;> rfl

theorem joinComma_eq (l : List Str) : joinComma l = List.intercalate ",".toList l := by
  induction l with
  | nil => rfl
  | cons a l ih =>
    cases l with
    | nil => simp [joinComma, List.intercalate]
    | cons b l =>
      have e : joinComma (a :: b :: l) = a ++ ',' :: joinComma (b :: l) := rfl
      rw [e, ih]
      simp [List.intercalate]

/-- the text of a path is the one that the code builds -/
theorem element_eq (E : Env α) (p : Str × List α) : element E p = p.1 ++ templateArgs E p.2 := by
  obtain ⟨m, args⟩ := p
  cases args with
  | nil => simp [element, templateArgs]
  | cons a as =>
    simp only [element, templateArgs, joinComma_eq, reduceCtorEq, if_false]
    simp

theorem element_ne {E : Env α} {p : Str × List α} (h : Usable E p) : element E p ≠ [] := by
  intro e
  exact h.2.1 (List.append_eq_nil_iff.mp ((element_eq E p).symm.trans e)).1

theorem preOk_snoc {E : Env α} {p : Str} (h : PreOk p) {q : Str × List α} (hq : Usable E q) : PreOk (p ++ element E q ++ ['/']) := by
  obtain ⟨l, hl, rfl⟩ := h
  refine ⟨l ++ [element E q], ?_, ?_⟩
  · intro x hx
    rcases List.mem_append.mp hx with h | h
    · exact hl x h
    · rw [List.mem_singleton.mp h]
      exact ⟨hq.1, element_ne hq⟩
  · simp [joinAbs]

theorem preOk_base {E : Env α} {p : Str} (h : PreOk p) {q : Str × List α} (hq : Usable E q) :
    getTypename (p ++ element E q) = element E q := by
  obtain ⟨l, hl, rfl⟩ := h
  have hne : l ++ [element E q] ≠ [] := by simp
  have h2 : ∀ x ∈ l ++ [element E q], Comp x ∧ x ≠ [] := by
    intro x hx
    rcases List.mem_append.mp hx with h | h
    · exact hl x h
    · rw [List.mem_singleton.mp h]
      exact ⟨hq.1, element_ne hq⟩
  have h3 := (C03_split_join _ hne h2).2.1
  have e : joinAbs (l ++ [element E q]) = joinAbs l ++ ['/'] ++ element E q := by simp [joinAbs]
  rw [e] at h3
  rw [h3]
  simp

theorem typeNamed_one (R : Reg) (pre c : Str) : typeNamed R pre [c] = R.get (pre ++ c) := by
  simp only [typeNamed]
  cases R.get (pre ++ c) <;> rfl

theorem findType_strict (E : Env α) (each : Str → Res (List TId)) (w : World α) (pre m : Str) (args : List α) :
    findType E each w false pre m args = .ok (w.R.get (pre ++ element E (m, args)), w.once) := by
  have e : candidates E false m args = [element E (m, args)] := by rw [element_eq]; rfl
  unfold findType
  rw [e, typeNamed_one]
  cases w.R.get (pre ++ element E (m, args)) <;> rfl

theorem findNs_strict (E : Env α) (hk : ∀ a b, E.key a = E.key b → a = b) {w : World α} (hr : Reachable E.key w.H w.R)
    (pre m : Str) (args : List α) :
    ((∃ t, Regd w.H w.R t ∧ pre ++ element E (m, args) ++ ['/'] <+: w.H.name t) →
      findNs E (eachType E.key w.H w.R) w false pre m args = .ok (some (element E (m, args)))) ∧
    ((¬ ∃ t, Regd w.H w.R t ∧ pre ++ element E (m, args) ++ ['/'] <+: w.H.name t) → findNs E (eachType E.key w.H w.R) w false pre m args = .ok none) := by
  have e : candidates E false m args = [element E (m, args)] := by rw [element_eq]; rfl
  obtain ⟨l, h1, h2, _⟩ := C58_types hk hr (pre ++ element E (m, args) ++ ['/'])
  unfold findNs
  rw [e]
  simp only [nsNamed, h1]
  cases l with
  | nil =>
    refine ⟨fun ⟨t, ht⟩ => ?_, fun _ => rfl⟩
    exact absurd ((h2 t).mpr ht) (by simp)
  | cons t l =>
    refine ⟨fun _ => rfl, fun hn => ?_⟩
    exact absurd ⟨t, (h2 t).mp (by simp)⟩ hn

/-- what holds in every state of a program -/
structure Good (E : Env α) (w : World α) : Prop where
  reach : Reachable E.key w.H w.R
  noAlias : NoAlias w.H w.R
  roots : ∀ r n, w.node (.root r) = some n → n.pre = ['/']
  pres : ∀ o n, w.node o = some n → PreOk n.pre
  types : ∀ t n, w.node (.type t) = some n → isAbsoluteName (w.H.name t) = true ∧ w.R.get (w.H.name t) = some t ∧
    n.pre = w.H.name t ++ ['/']
  freshNs : ∀ k, w.fresh ≤ k → w.node (.ns k) = none
  freshDeleg : ∀ k c, w.fresh ≤ k → w.node (.deleg k c) = none
  cached : ∀ o n m args x, w.node o = some n → Usable E (m, args) → find n.cache (m, args) = some x →
    ∃ t c, w.R.get (n.pre ++ element E (m, args)) = some t ∧ E.exported 0 t = some c ∧ For x c ∧
      ∃ n', w.node x = some n' ∧ n'.pre = n.pre ++ element E (m, args) ++ ['/']

/-- the objects that were set up keep their prefix -/
def Keeps (w w' : World α) : Prop := ∀ o n, w.node o = some n → ∃ n', w'.node o = some n' ∧ n'.pre = n.pre

theorem set_same (w : World α) (o : Obj) (n : Node α) : (w.set o n).node o = some n := by simp [World.set]

theorem set_other (w : World α) {o x : Obj} (n : Node α) (h : x ≠ o) : (w.set o n).node x = w.node x := by simp [World.set, h]

/-- nodes are set up with an empty cache or the entry that was just found -/
theorem Good.setNode {E : Env α} {w : World α} (h : Good E w) (x : Obj) (n : Node α) (f : Nat)
    (hf : w.fresh ≤ f)
    (hfx : (∀ k, x = .ns k → k < f) ∧ (∀ k c, x = .deleg k c → k < f))
    (hroot : ∀ r, x = .root r → n.pre = ['/'])
    (hpre : PreOk n.pre)
    (htype : ∀ t, x = .type t → isAbsoluteName (w.H.name t) = true ∧ w.R.get (w.H.name t) = some t ∧ n.pre = w.H.name t ++ ['/'])
    (hold : ∀ n0, w.node x = some n0 → n.pre = n0.pre)
    (hc : ∀ m args y, Usable E (m, args) → find n.cache (m, args) = some y →
      ∃ t c, w.R.get (n.pre ++ element E (m, args)) = some t ∧ E.exported 0 t = some c ∧ For y c ∧
        ∃ n', (w.set x n).node y = some n' ∧ n'.pre = n.pre ++ element E (m, args) ++ ['/']) :
    Good E { w.set x n with fresh := f } := by
  refine ⟨h.reach, h.noAlias, ?_, ?_, ?_, ?_, ?_, ?_⟩
  · intro r n1 h1
    by_cases hx : x = .root r
    · subst hx
      have e : n = n1 := by have := h1; rw [set_same] at this; exact Option.some.inj this
      rw [← e]; exact hroot r rfl
    · have := h1; rw [set_other w n (fun e => hx e.symm)] at this
      exact h.roots r n1 this
  · intro o n1 h1
    by_cases hx : o = x
    · subst hx
      have e : n = n1 := by have := h1; rw [set_same] at this; exact Option.some.inj this
      rw [← e]; exact hpre
    · have := h1; rw [set_other w n hx] at this
      exact h.pres o n1 this
  · intro t n1 h1
    by_cases hx : x = .type t
    · subst hx
      have e : n = n1 := by have := h1; rw [set_same] at this; exact Option.some.inj this
      rw [← e]; exact htype t rfl
    · have := h1; rw [set_other w n (fun e => hx e.symm)] at this
      exact h.types t n1 this
  · intro k hk
    have hk' : f ≤ k := hk
    have hne : Obj.ns k ≠ x := fun e => absurd (hfx.1 k e.symm) (by omega)
    show (w.set x n).node (.ns k) = none
    rw [set_other w n hne]
    exact h.freshNs k (by omega)
  · intro k c hk
    have hk' : f ≤ k := hk
    have hne : Obj.deleg k c ≠ x := fun e => absurd (hfx.2 k c e.symm) (by omega)
    show (w.set x n).node (.deleg k c) = none
    rw [set_other w n hne]
    exact h.freshDeleg k c (by omega)
  · intro o n1 m args y h1 hu hfi
    by_cases hx : o = x
    · subst hx
      have e : n = n1 := by have := h1; rw [set_same] at this; exact Option.some.inj this
      rw [← e] at hfi ⊢
      exact hc m args y hu hfi
    · have h1' := h1; rw [set_other w n hx] at h1'
      obtain ⟨t, c, g1, g2, g3, n', g4, g5⟩ := h.cached o n1 m args y h1' hu hfi
      refine ⟨t, c, g1, g2, g3, ?_⟩
      by_cases hy : y = x
      · subst hy
        exact ⟨n, set_same w y n, by rw [hold n' g4]; exact g5⟩
      · exact ⟨n', by show (w.set x n).node y = _; rw [set_other w n hy]; exact g4, g5⟩

theorem Good.once {E : Env α} {w : World α} (h : Good E w) (p : Option Str) : Good E { w with once := p } :=
  ⟨h.reach, h.noAlias, h.roots, h.pres, h.types, h.freshNs, h.freshDeleg, h.cached⟩

theorem keeps_refl (w : World α) : Keeps w w := fun _ n h => ⟨n, h, rfl⟩

theorem keeps_trans {a b c : World α} (h1 : Keeps a b) (h2 : Keeps b c) : Keeps a c := by
  intro o n h
  obtain ⟨n1, g1, e1⟩ := h1 o n h
  obtain ⟨n2, g2, e2⟩ := h2 o n1 g1
  exact ⟨n2, g2, e2.trans e1⟩

theorem keeps_set (w : World α) (x : Obj) (n : Node α) (h : ∀ n0, w.node x = some n0 → n.pre = n0.pre) : Keeps w (w.set x n) := by
  intro o n1 h1
  by_cases hx : o = x
  · subst hx
    exact ⟨n, set_same w o n, h n1 h1⟩
  · exact ⟨n1, by rw [set_other w n hx]; exact h1, rfl⟩

/-- the result of storing an entry in the cache of an object, in any case -/
theorem Good.store {E : Env α} {w : World α} (h : Good E w) {o : Obj} {n : Node α} (ho : w.node o = some n)
    {k : Str × List α} {x : Obj}
    (hc : Usable E k → ∃ t c, w.R.get (n.pre ++ element E k) = some t ∧ E.exported 0 t = some c ∧ For x c ∧
      ∃ n', w.node x = some n' ∧ n'.pre = n.pre ++ element E k ++ ['/']) :
    Good E (w.store o k x) ∧ Keeps w (w.store o k x) ∧ (w.store o k x).H = w.H ∧ (w.store o k x).R = w.R := by
  have e : w.store o k x = w.set o { n with cache := (k, x) :: n.cache } := by
    unfold World.store
    rw [ho]
  rw [e]
  refine ⟨?_, keeps_set _ _ _ (fun n0 h0 => ?_), rfl, rfl⟩
  · refine h.setNode o _ w.fresh (Nat.le_refl _) ⟨fun k e => ?_, fun k c e => ?_⟩ (fun r e => ?_) (h.pres o n ho) (fun t e => ?_)
      (fun n0 h0 => ?_) ?_
    · subst e
      rcases Nat.lt_or_ge k w.fresh with h1 | h1
      · exact h1
      · rw [h.freshNs k h1] at ho; cases ho
    · subst e
      rcases Nat.lt_or_ge k w.fresh with h1 | h1
      · exact h1
      · rw [h.freshDeleg k c h1] at ho; cases ho
    · subst e; exact h.roots r n ho
    · subst e; exact h.types t n ho
    · rw [ho] at h0; cases h0; rfl
    · intro m args y hu hfi
      simp only [find] at hfi
      have key : ∃ t c, w.R.get (n.pre ++ element E (m, args)) = some t ∧ E.exported 0 t = some c ∧ For y c ∧
          ∃ n', w.node y = some n' ∧ n'.pre = n.pre ++ element E (m, args) ++ ['/'] := by
        by_cases hk : k = (m, args)
        · rw [if_pos hk] at hfi
          cases hfi
          rw [← hk] at hu ⊢
          exact hc hu
        · rw [if_neg hk] at hfi
          exact h.cached o n m args y ho hu hfi
      obtain ⟨t, c, g1, g2, g3, n', g4, g5⟩ := key
      refine ⟨t, c, g1, g2, g3, ?_⟩
      obtain ⟨n2, g6, g7⟩ := keeps_set w o { n with cache := (k, x) :: n.cache }
        (fun n0 h0 => by rw [ho] at h0; cases h0; rfl) y n' g4
      exact ⟨n2, g6, g7.trans g5⟩
  · rw [ho] at h0; cases h0; rfl

/-- what one call does -/
structure CallOk (E : Env α) (w : World α) (name : Str) (r : World α × Out) : Prop where
  good : Good E r.1
  keeps : Keeps w r.1
  hH : r.1.H = w.H
  hR : r.1.R = w.R
  gives : Gives E w.H w.R name r.2
  pre : ∀ x, r.2 = .obj x → ∃ n, r.1.node x = some n ∧ n.pre = name ++ ['/']

theorem gives_type {E : Env α} {H : Heap} {R : Reg} {name : Str} {t : TId} {c : Cls} {x : Obj} (h1 : R.get name = some t)
    (h2 : E.exported 0 t = some c) (h3 : For x c) : Gives E H R name (.obj x) := by
  refine ⟨fun t' c' e1 e2 => ?_, fun t' e1 e2 => ?_, fun e => ?_, fun e => ?_⟩
  · rw [h1] at e1; cases e1
    rw [h2] at e2; cases e2
    exact ⟨x, rfl, h3⟩
  · rw [h1] at e1; cases e1
    rw [h2] at e2; cases e2
  · rw [h1] at e; cases e
  · rw [h1] at e; cases e

theorem storeNs_ok {E : Env α} {w : World α} (h : Good E w) {o : Obj} {n : Node α} (ho : w.node o = some n) (x : Obj) :
    Good E (w.storeNs E o x) ∧ Keeps w (w.storeNs E o x) ∧ (w.storeNs E o x).H = w.H ∧ (w.storeNs E o x).R = w.R := by
  unfold World.storeNs
  cases hn : nameOf E w.H o with
  | none => exact ⟨h, keeps_refl w, rfl, rfl⟩
  | some nm =>
    refine h.store ho (fun hu => ?_)
    exfalso
    cases o with
    | root r => exact hu.2.2.2.1 r hn
    | ns k => cases hn
    | type t =>
      have e : w.H.name t = nm := Option.some.inj hn
      have ha := (h.types t n ho).1
      rw [e] at ha
      cases nm with
      | nil => cases ha
      | cons c l =>
        have hc : c = '/' := by
          unfold isAbsoluteName at ha
          simpa using ha
        exact hu.2.2.1 c (by simp) hc
    | deleg k c => exact hu.2.2.2.2 c hn

theorem remember_ne (w : World α) {o x : Obj} (k : Str × List α) (h : x ≠ o) : w.remember o k x = w.store o k x := by
  unfold World.remember
  rw [if_neg h]

theorem call_ok {E : Env α} (hk : ∀ a b, E.key a = E.key b → a = b) (hp : Plain E) {w : World α} (h : Good E w) {o : Obj}
    {n : Node α} (ho : w.node o = some n) {m : Str} {args : List α} (hu : Usable E (m, args)) :
    CallOk E w (n.pre ++ element E (m, args)) (methodMissing E w o m args) := by
  have hpre := h.pres o n ho
  unfold methodMissing resolve resolveBy
  rw [ho]
  simp only
  cases hfi : find n.cache (m, args) with
  | some x =>
    obtain ⟨t, c, g1, g2, g3, g4⟩ := h.cached o n m args x ho hu hfi
    refine ⟨h, keeps_refl w, rfl, rfl, gives_type g1 g2 g3, fun y e => ?_⟩
    injection e with e
    rw [← e]; exact g4
  | none =>
    simp only [findType_strict]
    cases hg : w.R.get (n.pre ++ element E (m, args)) with
    | some t =>
      have hname := h.noAlias _ t (preOk_abs hpre _) hg
      have hbase : getTypename (w.H.name t) = element E (m, args) := by rw [hname, preOk_base hpre hu]
      simp only [hp.1 n.filt t]
      cases hx : E.exported 0 t with
      | none =>
        refine ⟨h.once _, keeps_refl w, rfl, rfl, ?_, fun x e => by cases e⟩
        refine ⟨fun t' c' e1 e2 => ?_, fun _ _ _ => rfl, fun e => ?_, fun e => ?_⟩
        · rw [hg] at e1; cases e1
          rw [hx] at e2; cases e2
        · rw [hg] at e; cases e
        · rw [hg] at e; cases e
      | some c =>
        simp only [hbase]
        cases c with
        | ty u =>
          have hut := hp.2 t u hx
          subst hut
          have hne : Obj.type u ≠ o := by
            intro e
            subst e
            have := (h.types u n ho).2.2
            rw [hname] at this
            have := congrArg List.length this
            simp at this
          have habs : isAbsoluteName (w.H.name u) = true := by rw [hname]; exact preOk_abs hpre _
          have hgu : w.R.get (w.H.name u) = some u := by rw [hname]; exact hg
          have hold : ∀ n0, w.node (.type u) = some n0 → n.pre ++ element E (m, args) ++ ['/'] = n0.pre := by
            intro n0 h0
            rw [(h.types u n0 h0).2.2, hname]
          have hgood := h.setNode (.type u) ⟨n.pre ++ element E (m, args) ++ ['/'], n.filt, []⟩ w.fresh (Nat.le_refl _)
            ⟨(fun _ e => by cases e), (fun _ _ e => by cases e)⟩ (fun _ e => by cases e) (preOk_snoc hpre hu)
            (fun t' e => by injection e with e; subst e; exact ⟨habs, hgu, by rw [hname]⟩) hold
            (fun _ _ _ _ e => by cases e)
          have hke := keeps_set w (.type u) ⟨n.pre ++ element E (m, args) ++ ['/'], n.filt, []⟩ hold
          have ho' : (w.set (.type u) ⟨n.pre ++ element E (m, args) ++ ['/'], n.filt, []⟩).node o = some n := by
            rw [set_other _ _ (fun e => hne e.symm)]; exact ho
          have hst := Good.store (x := .type u) hgood (o := o) (n := n) ho' (k := (m, args)) (fun _ => ⟨u, .ty u, hg, hx, rfl, ⟨n.pre ++ element E (m, args) ++ ['/'], n.filt, []⟩,
            set_same _ _ _, rfl⟩)
          simp only [setup]
          rw [remember_ne _ _ hne]
          refine ⟨hst.1, keeps_trans hke hst.2.1, hst.2.2.1, hst.2.2.2, gives_type hg hx rfl, fun y e => ?_⟩
          injection e with e
          rw [← e]
          exact hst.2.1 _ _ (set_same _ _ _)
        | rb k =>
          have hnone := h.freshDeleg w.fresh k (Nat.le_refl _)
          have hne : Obj.deleg w.fresh k ≠ o := by
            intro e
            rw [← e, hnone] at ho
            cases ho
          have hold : ∀ n0, w.node (.deleg w.fresh k) = some n0 → n.pre ++ element E (m, args) ++ ['/'] = n0.pre := by
            intro n0 h0
            rw [hnone] at h0; cases h0
          have hgood := h.setNode (.deleg w.fresh k) ⟨n.pre ++ element E (m, args) ++ ['/'], n.filt, []⟩ (w.fresh + 1) (Nat.le_succ _)
            ⟨(fun _ e => by cases e), (fun k' c e => by injection e with e; omega)⟩ (fun _ e => by cases e) (preOk_snoc hpre hu)
            (fun t' e => by cases e) hold (fun _ _ _ _ e => by cases e)
          have hke := keeps_set w (.deleg w.fresh k) ⟨n.pre ++ element E (m, args) ++ ['/'], n.filt, []⟩ hold
          have ho' : (w.set (.deleg w.fresh k) ⟨n.pre ++ element E (m, args) ++ ['/'], n.filt, []⟩).node o = some n := by
            rw [set_other _ _ (fun e => hne e.symm)]; exact ho
          have hst := Good.store (x := .deleg w.fresh k) hgood (o := o) (n := n) ho' (k := (m, args)) (fun _ => ⟨t, .rb k, hg, hx, ⟨_, rfl⟩,
            ⟨n.pre ++ element E (m, args) ++ ['/'], n.filt, []⟩, set_same _ _ _, rfl⟩)
          simp only [setup]
          rw [remember_ne _ _ hne]
          refine ⟨hst.1, keeps_trans hke hst.2.1, hst.2.2.1, hst.2.2.2, gives_type hg hx ⟨_, rfl⟩, fun y e => ?_⟩
          injection e with e
          rw [← e]
          exact hst.2.1 _ _ (set_same _ _ _)
    | none =>
      have hns := findNs_strict E hk h.reach n.pre m args
      by_cases hex : ∃ t, Regd w.H w.R t ∧ n.pre ++ element E (m, args) ++ ['/'] <+: w.H.name t
      · simp only [hns.1 hex]
        have hnone := h.freshNs w.fresh (Nat.le_refl _)
        have hne : Obj.ns w.fresh ≠ o := by
          intro e
          rw [← e, hnone] at ho
          cases ho
        have hold : ∀ n0, w.node (.ns w.fresh) = some n0 → n.pre ++ element E (m, args) ++ ['/'] = n0.pre := by
          intro n0 h0
          rw [hnone] at h0; cases h0
        have hgood := h.setNode (.ns w.fresh) ⟨n.pre ++ element E (m, args) ++ ['/'], n.filt, []⟩ (w.fresh + 1) (Nat.le_succ _)
          ⟨(fun k' e => by injection e with e; omega), (fun _ _ e => by cases e)⟩ (fun _ e => by cases e) (preOk_snoc hpre hu)
          (fun t' e => by cases e) hold (fun _ _ _ _ e => by cases e)
        have hke := keeps_set w (.ns w.fresh) ⟨n.pre ++ element E (m, args) ++ ['/'], n.filt, []⟩ hold
        have ho' : (w.set (.ns w.fresh) ⟨n.pre ++ element E (m, args) ++ ['/'], n.filt, []⟩).node o = some n := by
          rw [set_other _ _ (fun e => hne e.symm)]; exact ho
        have hst := storeNs_ok hgood (o := o) (n := n) ho' (.ns w.fresh)
        refine ⟨hst.1, keeps_trans hke hst.2.1, hst.2.2.1, hst.2.2.2, ?_, fun y e => ?_⟩
        · refine ⟨fun t c e => ?_, fun t e => ?_, fun _ _ => ⟨_, rfl⟩, fun _ e => absurd hex e⟩
          · rw [hg] at e; cases e
          · rw [hg] at e; cases e
        · injection e with e
          rw [← e]
          exact hst.2.1 _ _ (set_same _ _ _)
      · simp only [hns.2 hex]
        refine ⟨h.once _, keeps_refl w, rfl, rfl, ?_, fun x e => by cases e⟩
        refine ⟨fun t c e => ?_, fun t e => ?_, fun _ e => absurd e hex, fun _ _ => rfl⟩
        · rw [hg] at e; cases e
        · rw [hg] at e; cases e

theorem Good.start {E : Env α} {H : Heap} {R : Reg} (h1 : Reachable E.key H R) (h2 : NoAlias H R) :
    Good E (World.start H R : World α) :=
  ⟨h1, h2, (fun _ _ e => by cases e), (fun _ _ e => by cases e), (fun _ _ e => by cases e), fun _ _ => rfl, fun _ _ _ => rfl,
    (fun _ _ _ _ _ e => by cases e)⟩

theorem Good.step {E : Env α} (hk : ∀ a b, E.key a = E.key b → a = b) (hp : Plain E) {w w' : World α} (h : Good E w)
    (hs : Step E w w') : Good E w' := by
  cases hs with
  | «export» r f =>
    exact h.setNode (.root r) ⟨['/'], f, []⟩ w.fresh (Nat.le_refl _) ⟨(fun _ e => by cases e), (fun _ _ e => by cases e)⟩
      (fun _ _ => rfl) ⟨[], by simp, rfl⟩ (fun _ e => by cases e) (fun n0 h0 => (h.roots r n0 h0).symm) (fun _ _ _ _ e => by cases e)
  | call o m args hu =>
    cases ho : w.node o with
    | none =>
      have e : (methodMissing E w o m args).1 = w := by
        unfold methodMissing resolve resolveBy
        rw [ho]
      rw [e]; exact h
    | some n => exact (call_ok hk hp h ho hu).good
  | grow H' R' h1 h2 h3 =>
    refine ⟨h1, h2, h.roots, h.pres, fun t n ht => ?_, h.freshNs, h.freshDeleg, fun o n m args x ho hu hf => ?_⟩
    · obtain ⟨a, b, c⟩ := h.types t n ht
      obtain ⟨d, e⟩ := h3 _ _ a b
      show isAbsoluteName (H'.name t) = true ∧ R'.get (H'.name t) = some t ∧ n.pre = H'.name t ++ ['/']
      rw [e]
      exact ⟨a, d, c⟩
    · obtain ⟨t, c, g1, g2⟩ := h.cached o n m args x ho hu hf
      exact ⟨t, c, (h3 _ _ (preOk_abs (h.pres o n ho) _) g1).1, g2⟩

theorem Good.hist {E : Env α} (hk : ∀ a b, E.key a = E.key b → a = b) (hp : Plain E) {w : World α} (h : Hist E w) : Good E w := by
  obtain ⟨H, R, h1, h2, hs⟩ := h
  induction hs with
  | refl => exact Good.start h1 h2
  | step _ hs ih => exact ih.step hk hp hs

/-- from an object with a given prefix -/
theorem walk_ok {E : Env α} (hk : ∀ a b, E.key a = E.key b → a = b) (hp : Plain E) : ∀ (l : List (Str × List α)) {w : World α}
    (_ : Good E w) {o : Obj} {n : Node α} (_ : w.node o = some n) (p : Str) (_ : n.pre = p ++ ['/']) (_ : l ≠ [])
    (_ : ∀ q ∈ l, Usable E q)
    (_ : ∀ q r, l = q ++ r → r ≠ [] → ∀ t, w.R.get (p ++ pathName E q) = some t → q ≠ [] → E.exported 0 t ≠ none),
    Gives E w.H w.R (p ++ pathName E l) (walk E w o l).2 := by
  intro l
  induction l with
  | nil => intro w _ o n _ p _ hne; exact absurd rfl hne
  | cons a l ih =>
    intro w h o n ho p hpp _ hu hfil
    obtain ⟨m, args⟩ := a
    have hc := call_ok hk hp h ho (hu (m, args) (by simp))
    have en : n.pre ++ element E (m, args) = p ++ pathName E [(m, args)] := by rw [hpp]; simp [pathName]
    rw [en] at hc
    unfold walk
    generalize methodMissing E w o m args = r at hc
    obtain ⟨w', out⟩ := r
    cases l with
    | nil =>
      cases out with
      | obj x => exact hc.gives
      | notFound => exact hc.gives
      | undefined => exact hc.gives
    | cons b l =>
      -- if something has the name, the namespace of the first element exists
      have hsub : (∃ t, w.R.get (p ++ pathName E ((m, args) :: b :: l)) = some t) ∨
          (∃ t, Regd w.H w.R t ∧ p ++ pathName E ((m, args) :: b :: l) ++ ['/'] <+: w.H.name t) →
          (∃ t, Regd w.H w.R t ∧ p ++ pathName E [(m, args)] ++ ['/'] <+: w.H.name t) := by
        have epx : p ++ pathName E [(m, args)] ++ ['/'] <+: p ++ pathName E ((m, args) :: b :: l) := by
          refine ⟨element E b ++ pathName E l, ?_⟩
          simp [pathName]
        rintro (⟨t, ht⟩ | ⟨t, ht, hpx⟩)
        · have habs : isAbsoluteName (p ++ pathName E ((m, args) :: b :: l)) = true := by
            obtain ⟨l0, _, e0⟩ := h.pres o n ho
            have e1 : p = joinAbs l0 := List.append_cancel_right (hpp.symm.trans e0)
            rw [e1]
            cases l0 <;> rfl
          have hnm := h.noAlias _ t habs ht
          refine ⟨t, ?_, by rw [hnm]; exact epx⟩
          have hi := (reachable_inv hk h.reach).2
          refine (hi.regd_iff t).mpr (show w.R.reg (w.H.name t) = some t from ?_)
          rw [hnm, ← hi.abs _ habs]
          exact ht
        · exact ⟨t, ht, epx.trans ((List.prefix_append _ _).trans hpx)⟩
      cases out with
      | obj x =>
        obtain ⟨n', hx, hpx⟩ := hc.pre x rfl
        have := ih hc.good hx (p ++ pathName E [(m, args)]) hpx (by simp) (fun q hq => hu q (by simp [hq])) ?_
        · have e : p ++ pathName E [(m, args)] ++ pathName E (b :: l) = p ++ pathName E ((m, args) :: b :: l) := by
            simp [pathName]
          rw [e, hc.hH, hc.hR] at this
          exact this
        · intro q r e hr t ht _
          have hR : w'.R = w.R := hc.hR
          rw [hR] at ht
          refine hfil ((m, args) :: q) r (by rw [e]; rfl) hr t ?_ (by simp)
          have e2 : p ++ pathName E ((m, args) :: q) = p ++ pathName E [(m, args)] ++ pathName E q := by simp [pathName]
          rw [e2]; exact ht
      | notFound =>
        have hg := hc.gives
        have hno : w.R.get (p ++ pathName E [(m, args)]) = none := by
          cases hg1 : w.R.get (p ++ pathName E [(m, args)]) with
          | none => rfl
          | some t =>
            have := hfil [(m, args)] (b :: l) rfl (by simp) t hg1 (by simp)
            cases hx : E.exported 0 t with
            | none => exact absurd hx this
            | some c =>
              obtain ⟨x, e, _⟩ := hg.1 t c hg1 hx
              cases e
        have hno2 : ¬ ∃ t, Regd w.H w.R t ∧ p ++ pathName E [(m, args)] ++ ['/'] <+: w.H.name t := by
          intro hex
          obtain ⟨k, e⟩ := hg.2.2.1 hno hex
          cases e
        refine ⟨fun t c ht => absurd (hsub (.inl ⟨t, ht⟩)) hno2, fun t ht => absurd (hsub (.inl ⟨t, ht⟩)) hno2,
          fun _ ht => absurd (hsub (.inr ht)) hno2, fun _ _ => rfl⟩
      | undefined =>
        exfalso
        have hg := hc.gives
        cases hg1 : w.R.get (p ++ pathName E [(m, args)]) with
        | some t =>
          cases hx : E.exported 0 t with
          | none => exact absurd (hg.2.1 t hg1 hx) (by simp)
          | some c =>
            obtain ⟨x, e, _⟩ := hg.1 t c hg1 hx
            cases e
        | none =>
          by_cases hex : ∃ t, Regd w.H w.R t ∧ p ++ pathName E [(m, args)] ++ ['/'] <+: w.H.name t
          · obtain ⟨k, e⟩ := hg.2.2.1 hg1 hex
            cases e
          · exact absurd (hg.2.2.2 hg1 hex) (by simp)

theorem walk_node {E : Env α} (hk : ∀ a b, E.key a = E.key b → a = b) (hp : Plain E) : ∀ (l : List (Str × List α)) {w w' : World α}
    (_ : Good E w) {o x : Obj} {n : Node α} (_ : w.node o = some n) (p : Str) (_ : n.pre = p ++ ['/']) (_ : ∀ q ∈ l, Usable E q)
    (_ : walk E w o l = (w', .obj x)),
    Good E w' ∧ w'.H = w.H ∧ w'.R = w.R ∧ ∃ n', w'.node x = some n' ∧ n'.pre = p ++ pathName E l ++ ['/'] := by
  intro l
  induction l with
  | nil =>
    intro w w' h o x n ho p hpp _ he
    simp only [walk, Prod.mk.injEq, Out.obj.injEq] at he
    obtain ⟨e1, e2⟩ := he
    subst e1; subst e2
    exact ⟨h, rfl, rfl, n, ho, by simpa [pathName] using hpp⟩
  | cons a l ih =>
    intro w w' h o x n ho p hpp hu he
    obtain ⟨m, args⟩ := a
    have hc := call_ok hk hp h ho (hu (m, args) (by simp))
    have en : n.pre ++ element E (m, args) = p ++ pathName E [(m, args)] := by rw [hpp]; simp [pathName]
    rw [en] at hc
    unfold walk at he
    generalize methodMissing E w o m args = r at hc he
    obtain ⟨w1, out⟩ := r
    cases out with
    | obj y =>
      obtain ⟨n', hx, hpx⟩ := hc.pre y rfl
      obtain ⟨g1, g2, g3, n2, g4, g5⟩ := ih hc.good hx (p ++ pathName E [(m, args)]) hpx (fun q hq => hu q (by simp [hq])) he
      refine ⟨g1, g2.trans hc.hH, g3.trans hc.hR, n2, g4, ?_⟩
      rw [g5]
      simp [pathName]
    | notFound => cases he
    | undefined => cases he

/-- **C70, relaxed names**: `Types.x1.….xn::M` is the type named `/x1/…/xn/M`, or else the one whose last element is `M` in
snake case, or else in camel case, if the registry has one of them. -/
theorem C70_relaxed_partial {E : Env α} (hk : ∀ a b, E.key a = E.key b → a = b) (hp : Plain E) {w w' : World α} (h : Hist E w)
    {r : Nat} (hr : w.node (.root r) ≠ none) {l : List (Str × List α)} (hl : ∀ q ∈ l, Usable E q) {x : Obj}
    (hx : walk E w (.root r) l = (w', .obj x)) {m : Str} (hm : Usable E (m, [])) {t : TId} {c : Cls}
    (ht : w.R.get (pathName E l ++ '/' :: m) = some t ∨
      w.R.get (pathName E l ++ '/' :: m) = none ∧ w.R.get (pathName E l ++ '/' :: E.snake m) = some t ∨
      w.R.get (pathName E l ++ '/' :: m) = none ∧ w.R.get (pathName E l ++ '/' :: E.snake m) = none ∧
        w.R.get (pathName E l ++ '/' :: E.camel m) = some t)
    (hc : E.exported 0 t = some c) : ∃ y, (constMissing E w' x m).2 = .obj y ∧ For y c := by
  have hg := Good.hist hk hp h
  cases hn : w.node (.root r) with
  | none => exact absurd hn hr
  | some n =>
    obtain ⟨g1, _, g3, n', g4, g5⟩ := walk_node hk hp l hg hn [] (hg.roots r n hn) hl hx
    rw [← g3] at ht
    have e1 : ∀ s, n'.pre ++ s = pathName E l ++ '/' :: s := fun s => by rw [g5]; simp
    have em : element E (m, []) = m := by simp [element, templateArgs]
    have htn : typeNamed w'.R n'.pre (candidates E true m []) = some t := by
      have e2 : candidates E true m [] = [m, E.snake m, E.camel m] := by simp [candidates, templateArgs]
      rw [e2]
      simp only [typeNamed, e1]
      rcases ht with h1 | ⟨h1, h2⟩ | ⟨h1, h2, h3⟩
      · rw [h1]
      · rw [h1, h2]
      · rw [h1, h2, h3]
    unfold constMissing resolve resolveBy
    rw [g4]
    simp only
    cases hfi : find n'.cache (m, []) with
    | some y =>
      obtain ⟨t', c', f1, f2, f3, _⟩ := g1.cached x n' m [] y g4 hm hfi
      rw [em, e1] at f1
      rcases ht with h1 | ⟨h1, _⟩ | ⟨h1, _⟩
      · rw [h1] at f1; cases f1
        rw [hc] at f2; cases f2
        exact ⟨y, rfl, f3⟩
      · rw [h1] at f1; cases f1
      · rw [h1] at f1; cases f1
    | none =>
      unfold findType
      simp only [htn, hp.1 n'.filt t, hc]
      cases c with
      | ty u => exact ⟨_, rfl, rfl⟩
      | rb k => exact ⟨_, rfl, _, rfl⟩

/-- **C70, paths**: whatever was looked up before by methods, through any of the objects, and however the registry has grown meanwhile,
`Types.x1.….xn` is the type named `/x1/…/xn` if the registry has one (as the class it is exported as); otherwise a namespace if
there are types under this name; otherwise an exception. Template arguments are part of the name. (No aliases, no type that is exported
as another type, no name that is also the Ruby name of the module; the types on the way are not filtered out.) -/
theorem C70_path_partial {E : Env α} (hk : ∀ a b, E.key a = E.key b → a = b) (hp : Plain E) {w : World α} (h : Hist E w)
    {r : Nat} (hr : w.node (.root r) ≠ none) {l : List (Str × List α)} (hne : l ≠ []) (hl : ∀ q ∈ l, Usable E q)
    (hfil : ∀ q s, l = q ++ s → q ≠ [] → s ≠ [] → ∀ t, w.R.get (pathName E q) = some t → E.exported 0 t ≠ none) :
    Gives E w.H w.R (pathName E l) (walk E w (.root r) l).2 := by
  have hg := Good.hist hk hp h
  cases hn : w.node (.root r) with
  | none => exact absurd hn hr
  | some n =>
    exact walk_ok hk hp l hg hn [] (hg.roots r n hn) hne hl (fun q s e hs t ht hq => hfil q s e hq hs t ht)

end Verif.RubyExport
