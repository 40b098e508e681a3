import Verif.ClangSpec
import Verif.MergeInv

/-!
Property C66: proofs.
-/

namespace Verif.Clang
open Verif Verif.Names Verif.Graph Verif.Registry Verif.TypeBuilder Verif.Merge Verif.CompoundModel

variable {key : Char → Int} {A : AST} {den : Str → Option CCT}

/-- arrays, pointers and vectors are named after their elements and have their size -/
def Built (H : Heap) (t : TId) : Prop :=
  (∀ n x, H.kind t = .arr n x → H.name t = H.name x ++ '[' :: natStr n ++ [']'] ∧ H.size t = wmul n (H.size x)) ∧
  (∀ x, H.kind t = .ptr x → H.name t = H.name x ++ ['*'] ∧ H.size t = 8) ∧
  (∀ x, H.kind t = .vec x → H.name t = vecName (H.name x) ∧ H.size t = 24)

/-- The invariant of an import. -/
structure Good (key : Char → Int) (A : AST) (den : Str → Option CCT) (w : World) : Prop where
  inv : Inv key w.1 w.2
  ac : Acyclic w.1
  clo : ∀ u, u < w.1.next → ∀ x ∈ w.1.deps u, x < w.1.next
  honest : ∀ n t c, w.2.reg n = some t → den n = some c → Faithful A w.1 c t
  same : ∀ n t c, w.2.reg n = some t → den n = some c → den (w.1.name t) = some c
  built : ∀ t, w.2.reg (w.1.name t) = some t → Built w.1 t

/-- nothing that existed is changed: the objects are the same, the names still designate the same objects -/
structure Ext (w w' : World) : Prop where
  next : w.1.next ≤ w'.1.next
  objects : ∀ t, t < w.1.next → w'.1.get t = w.1.get t
  names : ∀ n u, w.2.reg n = some u → w'.2.reg n = some u
  fresh : ∀ t, w.1.next ≤ t → t < w'.1.next → w'.1.kind t ≠ .opaque

theorem Ext.refl (w : World) : Ext w w :=
  ⟨Nat.le_refl _, fun _ _ => rfl, fun _ _ h => h, fun _ h h' => absurd h' (Nat.not_lt.mpr h)⟩

theorem Ext.trans {a b c : World} (h : Ext a b) (h' : Ext b c) : Ext a c :=
  ⟨Nat.le_trans h.next h'.next, fun t ht => (h'.objects t (Nat.lt_of_lt_of_le ht h.next)).trans (h.objects t ht),
    fun n u hu => h'.names n u (h.names n u hu), fun t h1 h2 => (by
      by_cases hb : t < b.1.next
      · rw [Heap.kind, h'.objects t hb]; exact h.fresh t h1 hb
      · exact h'.fresh t (Nat.le_of_not_lt hb) h2)⟩

theorem Faithful.mono {H H' : Heap} (clo : ∀ u, u < H.next → ∀ x ∈ H.deps u, x < H.next)
    (h : ∀ t, t < H.next → H'.get t = H.get t) {c : CCT} {t : TId} (hf : Faithful A H c t) :
    t < H.next → Faithful A H' c t := by
  have hd : ∀ t x, t < H.next → (H.kind t).elem? = some x → x < H.next := by
    intro t x ht hx
    refine clo t ht x ?_
    unfold Heap.deps
    cases hk : H.kind t <;> rw [hk] at hx <;> simp [Kind.elem?, Kind.deps] at hx ⊢ <;> exact hx.symm
  induction hf with
  | @«opaque» c t h1 h2 => intro ht; exact .opaque (by unfold Heap.kind at *; rw [h t ht]; exact h1) (by unfold Heap.size at *; rw [h t ht]; exact h2)
  | @num bits k cat t h1 h2 h3 =>
    intro ht; exact .num h1 (by unfold Heap.kind at *; rw [h t ht]; exact h2) (by unfold Heap.size at *; rw [h t ht]; exact h3)
  | @enum d r syms t h1 h0 h2 h3 h4 =>
    intro ht
    exact .enum h1 h0 (by unfold Heap.kind at *; rw [h t ht]; exact h2) h3 (by unfold Heap.size at *; rw [h t ht]; exact h4)
  | @arr n c x t h1 h2 h3 ih =>
    intro ht
    have hx := hd t x ht (by rw [h1]; rfl)
    exact .arr (by unfold Heap.kind at *; rw [h t ht]; exact h1) (by unfold Heap.size at *; rw [h t ht, h x hx]; exact h2) (ih hx)
  | @ptr c x t h1 h2 h3 ih =>
    intro ht
    have hx := hd t x ht (by rw [h1]; rfl)
    exact .ptr (by unfold Heap.kind at *; rw [h t ht]; exact h1) (by unfold Heap.size at *; rw [h t ht]; exact h2) (ih hx)
  | @vec c x t h1 h2 h3 ih =>
    intro ht
    have hx := hd t x ht (by rw [h1]; rfl)
    exact .vec (by unfold Heap.kind at *; rw [h t ht]; exact h1) (by unfold Heap.size at *; rw [h t ht]; exact h2) (ih hx)
  | @str x t h1 h2 h3 ih =>
    intro ht
    have hx := hd t x ht (by rw [h1]; rfl)
    exact .str (by unfold Heap.kind at *; rw [h t ht]; exact h1) (by unfold Heap.size at *; rw [h t ht]; exact h2) (ih hx)
  | @plain d r c ms cs fs t h1 hq hq' h2 h3 h4 h5 h6 h7 h8 h9 ih =>
    intro ht
    refine .plain h1 hq hq' h2 h3 (by unfold Heap.kind at *; rw [h t ht]; exact h4) (by unfold Heap.size at *; rw [h t ht]; exact h5) h6 h7 h8 ?_
    intro i fd c e1 e2
    refine ih i fd c e1 e2 (clo t ht _ ?_)
    unfold Heap.deps
    rw [h4]
    exact List.mem_map.mpr ⟨fd, List.mem_of_getElem? e1, rfl⟩

theorem Ext.faithful {w w' : World} (h : Ext w w') (clo : ∀ u, u < w.1.next → ∀ x ∈ w.1.deps u, x < w.1.next) {c : CCT}
    {t : TId} (ht : t < w.1.next) (hf : Faithful A w.1 c t) : Faithful A w'.1 c t := hf.mono clo h.objects ht

/-- the operation on C++ types that goes with the decoration of a name -/
theorem derive (hN : Names A den) {H : Heap} {u x : TId} {ind : Str → Str} (h1 : (H.kind u).indirectName = some ind)
    (h2 : (H.kind u).elem? = some x) (hb : Built H u) :
    H.name u = ind (H.name x) ∧ (∀ a : Str, a.length < (ind a).length) ∧
    ∃ op : CCT → CCT, (∀ n, OkName n → den (ind n) = (den n).map op) ∧
      ∀ c, Faithful A H c x → Faithful A H (op c) u := by
  obtain ⟨b1, b2, b3⟩ := hb
  cases hk : H.kind u with
  | arr n e =>
    rw [hk] at h1 h2
    simp only [Kind.indirectName, Option.some.injEq, Kind.elem?] at h1 h2
    subst h1; subst h2
    obtain ⟨c1, c2⟩ := b1 n e hk
    exact ⟨c1, fun a => by simp, .arr n, fun m hm => hN.arr m hm n, fun c hc => .arr hk c2 hc⟩
  | ptr e =>
    rw [hk] at h1 h2
    simp only [Kind.indirectName, Option.some.injEq, Kind.elem?] at h1 h2
    subst h1; subst h2
    obtain ⟨c1, c2⟩ := b2 e hk
    exact ⟨c1, fun a => by simp, .ptr, fun m hm => hN.ptr m hm, fun c hc => .ptr hk c2 hc⟩
  | vec e =>
    rw [hk] at h1 h2
    simp only [Kind.indirectName, Option.some.injEq, Kind.elem?] at h1 h2
    subst h1; subst h2
    obtain ⟨c1, c2⟩ := b3 e hk
    exact ⟨c1, fun a => by simp only [List.length_append, List.length_singleton]; omega, .vec, fun m hm => hN.vec m hm, fun c hc => .vec hk c2 hc⟩
  | null => rw [hk] at h1; cases h1
  | «opaque» => rw [hk] at h1; cases h1
  | num _ => rw [hk] at h1; cases h1
  | enum _ => rw [hk] at h1; cases h1
  | str _ => rw [hk] at h1; cases h1
  | comp _ => rw [hk] at h1; cases h1

/-- the registration of a name, with the derived names that follow -/
theorem good_grow (hN : Names A den) {H : Heap} {R R' : Reg} (hg : Good key A den (H, R)) {n0 : Str} {u0 : TId}
    (hi : Inv key H R') (hx : ∀ n u, R.reg n = some u → R'.reg n = some u)
    (hn : ∀ n u, New R R' n u → (n = n0 ∧ u = u0) ∨ Derived H R' n u)
    (hp : ∀ n u, New R R' n u → u = u0 ∨ R.reg (H.name u) = some u)
    (h0 : ∀ c, den n0 = some c → Faithful A H c u0 ∧ den (H.name u0) = some c) (hb : Built H u0) :
    Good key A den (H, R') ∧ Ext (H, R) (H, R') := by
  have hbuilt : ∀ t, R'.reg (H.name t) = some t → Built H t := by
    intro t ht
    cases hr : R.reg (H.name t) with
    | none =>
      rcases hp _ t ⟨hr, ht⟩ with h | h
      · rw [h]; exact hb
      · exact hg.built t h
    | some v =>
      have hv := hx _ _ hr
      rw [ht] at hv
      injection hv with hv
      rw [← hv] at hr
      exact hg.built t hr
  have main : ∀ k n t c, n.length ≤ k → R'.reg n = some t → den n = some c → Faithful A H c t ∧ den (H.name t) = some c := by
    intro k
    induction k with
    | zero =>
      intro n t c hk hr hd
      have hl : n = [] := List.length_eq_zero_iff.mp (by omega)
      have := (hi.reg_name hr).2.1
      rw [hl] at this
      simp [isAbsoluteName] at this
    | succ k ih =>
      intro n t c hk hr hd
      cases ho : R.reg n with
      | some v =>
        have hv := hx _ _ ho
        rw [hr] at hv
        injection hv with hv
        rw [← hv] at ho
        exact ⟨hg.honest n t c ho hd, hg.same n t c ho hd⟩
      | none =>
        rcases hn n t ⟨ho, hr⟩ with ⟨rfl, rfl⟩ | ⟨ind, x, a, e1, e2, e3, e4, e5, e6⟩
        · exact h0 c hd
        · obtain ⟨d1, d2, op, d3, d4⟩ := derive hN e1 e2 (hbuilt t e6)
          obtain ⟨a1, a2, a3, a4⟩ := hi.reg_name e4
          rw [e3, d3 a ⟨a1, a2⟩] at hd
          cases hda : den a with
          | none => rw [hda] at hd; cases hd
          | some c' =>
            rw [hda] at hd
            injection hd with hd
            have hla := d2 a
            rw [← e3] at hla
            obtain ⟨i1, i2⟩ := ih a x c' (by omega) e4 hda
            obtain ⟨b1, b2, _, _⟩ := hi.reg_name a3
            refine ⟨hd ▸ d4 c' i1, ?_⟩
            rw [d1, d3 _ ⟨b1, b2⟩, i2, ← hd]
            rfl
  exact ⟨⟨hi, hg.ac, hg.clo, fun n t c h h' => (main _ n t c (Nat.le_refl _) h h').1,
    fun n t c h h' => (main _ n t c (Nat.le_refl _) h h').2, hbuilt⟩, ⟨Nat.le_refl _, fun _ _ => rfl, hx, fun _ h h' => absurd h' (Nat.not_lt.mpr h)⟩⟩

theorem good_alloc {w : World} (hg : Good key A den w) {d : TypeDef} (hd : ∀ x ∈ d.kind.deps, x < w.1.next)
    (hop : d.kind ≠ .opaque) :
    Good key A den (w.1.alloc d, w.2) ∧ Ext w (w.1.alloc d, w.2) := by
  have hob : ∀ t, t < w.1.next → (w.1.alloc d).get t = w.1.get t := fun t ht => alloc_get_old _ _ ht
  have hel : ∀ (k : Kind) x, k.elem? = some x → x ∈ k.deps := by
    intro k x hx
    cases k <;> simp [Kind.elem?, Kind.deps] at hx ⊢ <;> exact hx.symm
  refine ⟨⟨hg.inv.heap (Nat.le_succ _) (fun t ht _ => by unfold Heap.name; rw [hob t ht]),
    acyclic_alloc hg.ac (fun x hx => hd x (hel _ x hx)), ?_, ?_, ?_, ?_⟩, ⟨Nat.le_succ _, hob, fun _ _ h => h, fun t h h' => (by
      have h'' : t < w.1.next + 1 := h'
      have ht : t = w.1.next := Nat.le_antisymm (Nat.le_of_lt_succ h'') h
      rw [ht, Heap.kind, alloc_get_new]; exact hop)⟩⟩
  · intro u hu x hx
    show x < w.1.next + 1
    by_cases h : u = w.1.next
    · subst h
      rw [Heap.deps, Heap.kind, alloc_get_new] at hx
      exact Nat.lt_succ_of_lt (hd x hx)
    · have hu' : u < w.1.next := by
        have : u < w.1.next + 1 := hu
        exact Nat.lt_of_le_of_ne (Nat.le_of_lt_succ this) h
      rw [Heap.deps, Heap.kind, hob u hu'] at hx
      exact Nat.lt_succ_of_lt (hg.clo u hu' x hx)
  · intro n t c hr hdn
    have ht := (hg.inv.reg_name hr).2.2.2
    exact (hg.honest n t c hr hdn).mono hg.clo hob ht
  · intro n t c hr hdn
    have ht := (hg.inv.reg_name hr).2.2.2
    show den ((w.1.alloc d).name t) = _
    rw [Heap.name, hob t ht]
    exact hg.same n t c hr hdn
  · intro t hr
    have ht : t < w.1.next := (hg.inv.reg_name hr).2.2.2
    rw [Heap.name, hob t ht] at hr
    obtain ⟨b1, b2, b3⟩ := hg.built t hr
    have hx : ∀ x, (w.1.kind t).elem? = some x → x < w.1.next := fun x hx => hg.clo t ht x (hel _ x hx)
    refine ⟨?_, ?_, ?_⟩
    · intro n x hk
      rw [Heap.kind, hob t ht] at hk
      have := hx x (by rw [Heap.kind, hk]; rfl)
      show ((w.1.alloc d).get t).name = ((w.1.alloc d).get x).name ++ _ ++ _ ∧ ((w.1.alloc d).get t).size = wmul n ((w.1.alloc d).get x).size
      rw [hob t ht, hob x this]
      exact b1 n x hk
    · intro x hk
      rw [Heap.kind, hob t ht] at hk
      have := hx x (by rw [Heap.kind, hk]; rfl)
      show ((w.1.alloc d).get t).name = ((w.1.alloc d).get x).name ++ _ ∧ ((w.1.alloc d).get t).size = _
      rw [hob t ht, hob x this]
      exact b2 x hk
    · intro x hk
      rw [Heap.kind, hob t ht] at hk
      have := hx x (by rw [Heap.kind, hk]; rfl)
      show ((w.1.alloc d).get t).name = vecName ((w.1.alloc d).get x).name ∧ ((w.1.alloc d).get t).size = _
      rw [hob t ht, hob x this]
      exact b3 x hk

/-- what a part of the importer does, started in `w`: the invariant is kept, nothing that existed is changed, and `P` holds of
the result -/
def Post {α : Type} (key : Char → Int) (A : AST) (den : Str → Option CCT) (w : World) (o : World × Res α)
    (P : World → α → Prop) : Prop :=
  Good key A den o.1 ∧ Ext w o.1 ∧ ∀ a, o.2 = .ok a → P o.1 a

theorem Post.ret {α : Type} {w : World} (hg : Good key A den w) {r : Res α} {P : World → α → Prop}
    (h : ∀ a, r = .ok a → P w a) : Post key A den w (w, r) P := ⟨hg, Ext.refl w, h⟩

theorem Post.then {α β : Type} {w : World} {x : World × Res α} {P : World → α → Prop} {f : World → α → World × Res β}
    {Q : World → β → Prop} (h : Post key A den w x P)
    (hf : ∀ w' a, Good key A den w' → Ext w w' → P w' a → Post key A den w' (f w' a) Q) : Post key A den w (thenW x f) Q := by
  obtain ⟨w', r⟩ := x
  obtain ⟨h1, h2, h3⟩ := h
  cases r with
  | ok a =>
    obtain ⟨k1, k2, k3⟩ := hf w' a h1 h2 (h3 a rfl)
    exact ⟨k1, h2.trans k2, k3⟩
  | exn e => exact ⟨h1, h2, fun b hb => by cases hb⟩
  | ub => exact ⟨h1, h2, fun b hb => by cases hb⟩
  | fuel => exact ⟨h1, h2, fun b hb => by cases hb⟩

theorem Post.ext {α : Type} {w w' : World} {o : World × Res α} {P : World → α → Prop} (he : Ext w w')
    (h : Post key A den w' o P) : Post key A den w o P := ⟨h.1, he.trans h.2.1, h.2.2⟩

theorem Post.mono {α : Type} {w : World} {o : World × Res α} {P Q : World → α → Prop} (h : Post key A den w o P)
    (hpq : ∀ w' a, Good key A den w' → Ext w w' → P w' a → Q w' a) : Post key A den w o Q :=
  ⟨h.1, h.2.1, fun a ha => hpq _ a h.1 h.2.1 (h.2.2 a ha)⟩

/-- `registry.add(new T)` -/
theorem addNew_post (hk : ∀ a b, key a = key b → a = b) (hN : Names A den) {w : World} (hg : Good key A den w) {d : TypeDef}
    (hd : ∀ x ∈ d.kind.deps, x < w.1.next) (habs : isAbsoluteName d.name = true)
    (hf : ∀ c, den d.name = some c → Faithful A (w.1.alloc d) c w.1.next) (hb : Built (w.1.alloc d) w.1.next)
    (hop : d.kind ≠ .opaque := by exact fun h => nomatch h) :
    Post key A den w (addNew key w d) (fun w' t => t = w.1.next ∧ w'.1 = w.1.alloc d ∧ w'.2.reg d.name = some t ∧
      ∀ ind x a, d.kind.indirectName = some ind → d.kind.elem? = some x → w.2.reg a = some x → a ≠ w.1.name x →
        w'.2.reg (ind a) ≠ none) := by
  obtain ⟨g1, e1⟩ := good_alloc hg hd hop
  have hnm : (w.1.alloc d).name w.1.next = d.name := by rw [Heap.name, alloc_get_new]
  have hkd : (w.1.alloc d).kind w.1.next = d.kind := by rw [Heap.kind, alloc_get_new]
  obtain ⟨⟨i1, i2, i3, i4, i5⟩, i6, i7⟩ := add_spec hk g1.ac g1.inv w.1.next (Nat.lt_succ_self _) (by rw [hnm]; exact habs)
    (isPersistent (w.1.alloc d) ((w.1.alloc d).name w.1.next) w.1.next) []
  obtain ⟨g2, e2⟩ := good_grow hN g1 i1 i3 i4 i5 (by rw [hnm]; exact fun c hc => ⟨hf c hc, hc⟩) hb
  refine Post.then (P := fun w' _ => w'.1 = w.1.alloc d ∧ w'.2.reg d.name = some w.1.next ∧
      ∀ ind x a, d.kind.indirectName = some ind → d.kind.elem? = some x → w.2.reg a = some x → a ≠ w.1.name x →
        w'.2.reg (ind a) ≠ none) ⟨g2, e1.trans e2, ?_⟩ ?_
  · intro a ha
    obtain ⟨j1, j2, j3⟩ := i6 ha
    refine ⟨rfl, hnm ▸ j1, ?_⟩
    intro ind x a q1 q2 q3 q4
    have hx : x < w.1.next := (hg.inv.reg_name q3).2.2.2
    obtain ⟨v, hv⟩ := j3 ind x a (by rw [hkd]; exact q1) (by rw [hkd]; exact q2) q3 (by rw [Heap.name, alloc_get_old _ _ hx]; exact q4)
    exact fun h => by cases hv.symm.trans h
  · rintro w' _ g' _ ⟨h1, h2, h3⟩
    refine Post.ret g' ?_
    rintro a ha
    injection ha with ha
    subst ha
    exact ⟨rfl, h1, h2, h3⟩

/-- `registry.alias(base, new)` -/
theorem aliasW_post (hk : ∀ a b, key a = key b → a = b) (hN : Names A den) {w : World} (hg : Good key A den w) {base new : Str}
    (hb : isAbsoluteName base = true) (habs : isAbsoluteName new = true)
    (hden : ∀ c, den new = some c → den base = some c ∨ ∃ t, w.2.reg base = some t ∧ Faithful A w.1 c t ∧ den (w.1.name t) = some c) :
    Post key A den w (aliasW key w base new) (fun w' _ => w'.1 = w.1 ∧ ∃ t, w.2.reg base = some t ∧ w'.2.reg new = some t) := by
  unfold aliasW aliasAuto
  rw [hg.inv.abs base hb]
  cases hr : w.2.reg base with
  | none => exact ⟨hg, Ext.refl w, fun a h => by cases h⟩
  | some t =>
    obtain ⟨_, _, n3, n4⟩ := hg.inv.reg_name hr
    obtain ⟨⟨i1, i2, i3, i4, i5⟩, i6, i7⟩ := aliasF_spec hk hg.ac (w.1.next + 1) w.2 base new (isPersistent w.1 new t) [] t
      hg.inv habs (by rw [hg.inv.abs base hb]; exact hr) n3
    have h0 : ∀ c, den new = some c → Faithful A w.1 c t ∧ den (w.1.name t) = some c := by
      intro c hc
      rcases hden c hc with hc' | ⟨t', h1, h2, h3⟩
      · exact ⟨hg.honest base t c hr hc', hg.same base t c hr hc'⟩
      · rw [hr] at h1
        injection h1 with h1
        rw [h1]; exact ⟨h2, h3⟩
    obtain ⟨g2, e2⟩ := good_grow hN (H := w.1) (R := w.2) hg i1 i3 i4 (fun n u h => Or.inr (i5 n u h)) h0 (hg.built t n3)
    exact ⟨g2, e2, fun a ha => ⟨rfl, t, rfl, (i6 ha).1⟩⟩

/-! ### Canonical types -/

theorem VecOf.inj {r : CRecord} {a b : CT} (h : VecOf r a) (h' : VecOf r b) : a = b := by
  obtain ⟨n, args, an, h1, _, h3⟩ := h
  obtain ⟨n', args', an', h1', _, h3'⟩ := h'
  rw [h1] at h1'
  injection h1' with h1'
  injection h1' with _ e
  rw [← e, h3] at h3'
  injection h3' with h3' _
  injection h3' with _ h3'

theorem vec_not_string {r : CRecord} {a : CT} (h : VecOf r a) (h' : IsString r) : False := by
  obtain ⟨n, args, an, h1, h2, _⟩ := h
  obtain ⟨n', args', h1', h2', _⟩ := h'
  rw [h1] at h1'
  injection h1' with h1'
  injection h1' with e _
  rw [← e, h2] at h2'
  cases h2'

theorem Canon.det {t : CT} {c : CCT} (h : Canon A t c) : ∀ c', Canon A t c' → c = c' := by
  induction h with
  | builtin bits k => intro c' h'; cases h'; rfl
  | ref _ ih => intro c' h'; cases h' with | ref h' => rw [ih _ h']
  | ptr _ ih => intro c' h'; cases h' with | ptr h' => rw [ih _ h']
  | arr _ ih => intro c' h'; cases h' with | arr h' => rw [ih _ h']
  | enum _ => intro c' h'; cases h'; rfl
  | typedef h1 _ ih =>
    intro c' h'
    cases h' with
    | typedef h1' h2' =>
      rw [h1] at h1'
      injection h1' with h1'
      subst h1'
      exact ih _ h2'
  | elaborated _ ih => intro c' h'; cases h' with | elaborated h' => exact ih _ h'
  | vec h1 h2 _ ih =>
    intro c' h'
    cases h' with
    | vec h1' h2' h3' =>
      rw [h1] at h1'
      injection h1' with h1'
      subst h1'
      have e := h2.inj h2'
      subst e
      rw [ih _ h3']
    | str h1' h2' =>
      rw [h1] at h1'
      injection h1' with h1'
      subst h1'
      exact (vec_not_string h2 h2').elim
    | record h1' h2' h3' =>
      rw [h1] at h1'
      injection h1' with h1'
      subst h1'
      exact (h2' _ h2).elim
  | str h1 h2 =>
    intro c' h'
    cases h' with
    | vec h1' h2' h3' =>
      rw [h1] at h1'
      injection h1' with h1'
      subst h1'
      exact (vec_not_string h2' h2).elim
    | str h1' h2' => rfl
    | record h1' h2' h3' =>
      rw [h1] at h1'
      injection h1' with h1'
      subst h1'
      exact (h3' h2).elim
  | record h1 h2 h3 =>
    intro c' h'
    cases h' with
    | vec h1' h2' h3' =>
      rw [h1] at h1'
      injection h1' with h1'
      subst h1'
      exact (h2 _ h2').elim
    | str h1' h2' =>
      rw [h1] at h1'
      injection h1' with h1'
      subst h1'
      exact (h3 h2').elim
    | record _ _ _ => rfl
  | other id size => intro c' h'; cases h'; rfl

/-- a name denotes the type it occurs with -/
theorem Names.canon (hN : Names A den) {n : Str} {ty : CT} (h : Occurs A n ty) {c : CCT} (hc : den n = some c) : Canon A ty c := by
  obtain ⟨_, c', h1, h2⟩ := hN.occ n ty h
  rw [hc] at h2
  injection h2 with h2
  rw [h2]; exact h1

/-- what is asked from a registered type: it is in the registry, it describes the C++ type called `n`, and `n` is known -/
def Got (A : AST) (den : Str → Option CCT) (n : Str) (ty : CT) (w : World) (o : Option TId) : Prop :=
  ∀ t, o = some t → w.2.reg (w.1.name t) = some t ∧
    ((Spelled A → w.2.reg n ≠ none) ∧ (ty.direct = true → w.2.reg n = some t)) ∧
    ∀ c, den n = some c → Faithful A w.1 c t ∧ den (w.1.name t) = some c

theorem got_reg {w : World} (hg : Good key A den w) {n : Str} {ty : CT} {t : TId} (h : w.2.reg n = some t) : Got A den n ty w (some t) := by
  intro t' ht'
  injection ht' with ht'
  subst ht'
  exact ⟨(hg.inv.reg_name h).2.2.1, ⟨fun _ => by rw [h]; exact fun h => (by cases h), fun _ => h⟩,
    fun c hc => ⟨hg.honest n t c h hc, hg.same n t c h hc⟩⟩

theorem got_none {w : World} {n : Str} {ty : CT} : Got A den n ty w none := fun _ h => by cases h

/-- the lookup that starts most of the functions -/
theorem lookup_post {w : World} (hg : Good key A den w) {n : Str} (hn : isAbsoluteName n = true) {ty : CT} {t : TId}
    (h : w.2.get n = some t) : Post key A den w (w, .ok (some t)) (Got A den n ty) := by
  refine Post.ret hg ?_
  intro a ha
  injection ha with ha
  rw [← ha]
  rw [hg.inv.abs n hn] at h
  exact got_reg hg h

theorem none_post {w : World} (hg : Good key A den w) {n : Str} {ty : CT} : Post key A den w (w, .ok none) (Got A den n ty) := by
  refine Post.ret hg ?_
  intro a ha
  injection ha with ha
  rw [← ha]; exact got_none

theorem intName_abs (k : BKind) (b : Nat) : isAbsoluteName (intName k b) = true := by
  unfold intName
  split <;> rfl

theorem kind_new (H : Heap) (d : TypeDef) : (H.alloc d).kind H.next = d.kind := by rw [Heap.kind, alloc_get_new]
theorem size_new (H : Heap) (d : TypeDef) : (H.alloc d).size H.next = d.size := by rw [Heap.size, alloc_get_new]
theorem name_new (H : Heap) (d : TypeDef) : (H.alloc d).name H.next = d.name := by rw [Heap.name, alloc_get_new]

theorem built_leaf {H : Heap} {t : TId} (h : (H.kind t).indirectName = none) : Built H t := by
  refine ⟨fun n x hk => ?_, fun x hk => ?_, fun x hk => ?_⟩ <;> rw [hk] at h <;> cases h

theorem registerBuiltIn_post (hk : ∀ a b, key a = key b → a = b) (hN : Names A den) {w : World} (hg : Good key A den w)
    {n : Str} {bits : Nat} {k : BKind} (ho : Occurs A n (.builtin bits k)) :
    Post key A den w (registerBuiltIn key w n bits k) (Got A den n (.builtin bits k)) := by
  obtain ⟨hab, c0, hc0, hd0⟩ := hN.occ _ _ ho
  have ec : c0 = .builtin bits k := by cases hc0; rfl
  subst ec
  unfold registerBuiltIn
  cases hget : w.2.get n with
  | some t => exact lookup_post hg hab hget
  | none =>
    simp only
    split
    · exact none_post hg
    · rename_i hb
      have hb8 : 8 * (bits / 8) = bits := by omega
      cases hd : numDef n bits k with
      | none => exact none_post hg
      | some d =>
        simp only
        obtain ⟨cat, hcat, hkind, hsize, hname, hden⟩ : ∃ cat, k.cat = some cat ∧ d.kind = .num cat ∧ d.size = bits / 8 ∧
            isAbsoluteName d.name = true ∧ den d.name = some (.builtin bits k) := by
          cases k with
          | float => simp only [numDef, Option.some.injEq] at hd; subst hd; exact ⟨.float, rfl, rfl, rfl, hab, hd0⟩
          | sint =>
            simp only [numDef, Option.some.injEq] at hd; subst hd
            refine ⟨.sint, rfl, rfl, rfl, intName_abs _ _, ?_⟩
            have := hN.sint (bits / 8)
            rw [hb8] at this
            rw [Nat.mul_comm, hb8]; exact this
          | uint =>
            simp only [numDef, Option.some.injEq] at hd; subst hd
            refine ⟨.uint, rfl, rfl, rfl, intName_abs _ _, ?_⟩
            have := hN.uint (bits / 8)
            rw [hb8] at this
            rw [Nat.mul_comm, hb8]; exact this
          | other => cases hd
        cases hg2 : w.2.get d.name with
        | none =>
          simp only
          refine Post.then (addNew_post hk hN hg (by rw [hkind]; intro x hx; cases hx) hname ?_ ?_ (by rw [hkind]; exact fun h => nomatch h)) ?_
          · intro c hc
            rw [hden] at hc
            injection hc with hc
            subst hc
            exact .num hcat (by rw [kind_new, hkind]) (by rw [size_new, hsize]; omega)
          · exact built_leaf (by rw [kind_new, hkind]; rfl)
          · rintro w1 t g1 x1 ⟨e1, e2, e3, _⟩
            refine Post.then (aliasW_post hk hN g1 hname hab (fun c hc => Or.inl (by rw [hden, ← hc, hd0]))) ?_
            rintro w2 _ g2 x2 ⟨e4, t', e5, e6⟩
            rw [e3] at e5
            injection e5 with e5
            subst e5
            refine Post.ret g2 ?_
            intro a ha
            injection ha with ha
            rw [← ha]
            exact got_reg g2 e6
        | some t =>
          simp only
          rw [hg.inv.abs _ hname] at hg2
          obtain ⟨_, _, r3, _⟩ := hg.inv.reg_name hg2
          obtain ⟨_, r2, _, _⟩ := hg.inv.reg_name r3
          refine Post.then (aliasW_post hk hN hg r2 hab (fun c hc => Or.inl ?_)) ?_
          · rw [hd0] at hc
            rw [← hc]
            exact hg.same d.name t _ hg2 hden
          · rintro w2 _ g2 x2 ⟨e4, t', e5, e6⟩
            rw [r3] at e5
            injection e5 with e5
            subst e5
            refine Post.ret g2 ?_
            intro a ha
            injection ha with ha
            rw [← ha]
            exact got_reg g2 e6

/-! ### Enums -/

theorem conv_id {v : Int} (h1 : -(2 ^ 31 : Int) ≤ v) (h2 : v < 2 ^ 31) : toI32 (sext 32 v) = v := by
  unfold toI32 sext
  simp only [show (2 : Int) ^ 32 = 4294967296 from rfl, show (2 : Int) ^ 31 = 2147483648 from rfl] at *
  split <;> split <;> omega

theorem addSyms_spec (width : Nat) : ∀ (l : List (Str × Int)) (e e' : EnumModel.Enum), StdMap.MSorted e.values →
    addSyms width e l = .ok e' → StdMap.MSorted e'.values ∧ ∀ n v, StdMap.find e'.values n = some v ↔
      StdMap.find e.values n = some v ∨ ∃ v0, (n, v0) ∈ l ∧ toI32 (sext width v0) = v := by
  intro l
  induction l with
  | nil =>
    intro e e' hs h
    simp only [addSyms, Res.ok.injEq] at h
    subst h
    exact ⟨hs, fun n v => by simp⟩
  | cons p l ih =>
    obtain ⟨m, x⟩ := p
    intro e e' hs h
    simp only [addSyms, EnumModel.Enum.add] at h
    cases hf : StdMap.find e.values m with
    | none =>
      simp only [hf] at h
      obtain ⟨i1, i2⟩ := ih _ _ (StdMap.sorted_upsert _ _ hs) h
      refine ⟨i1, fun n v => ?_⟩
      rw [i2]
      simp only [StdMap.find_upsert m _ hs, hf, List.mem_cons, Prod.mk.injEq]
      by_cases hm : m = n
      · subst hm
        rw [if_pos rfl, hf]
        constructor
        · rintro (h | ⟨v0, h, h'⟩)
          · injection h with h; exact Or.inr ⟨x, Or.inl ⟨rfl, rfl⟩, h⟩
          · exact Or.inr ⟨v0, Or.inr h, h'⟩
        · rintro (h | ⟨v0, ⟨_, rfl⟩ | h, h'⟩)
          · cases h
          · exact Or.inl (by rw [← h']; rfl)
          · exact Or.inr ⟨v0, h, h'⟩
      · rw [if_neg hm]
        constructor
        · rintro (h | ⟨v0, h, h'⟩)
          · exact Or.inl h
          · exact Or.inr ⟨v0, Or.inr h, h'⟩
        · rintro (h | ⟨v0, ⟨h, _⟩ | h, h'⟩)
          · exact Or.inl h
          · exact absurd h.symm hm
          · exact Or.inr ⟨v0, h, h'⟩
    | some y =>
      simp only [hf] at h
      by_cases hy : y ≠ toI32 (sext width x)
      · rw [if_pos hy] at h; cases h
      · rw [if_neg hy] at h
        simp only [ne_eq, Classical.not_not] at hy
        obtain ⟨i1, i2⟩ := ih ⟨toI32 (sext width x), e.values⟩ _ hs h
        refine ⟨i1, fun n v => ?_⟩
        rw [i2]
        simp only [List.mem_cons, Prod.mk.injEq]
        constructor
        · rintro (h | ⟨v0, h, h'⟩)
          · exact Or.inl h
          · exact Or.inr ⟨v0, Or.inr h, h'⟩
        · rintro (h | ⟨v0, ⟨h, e0⟩ | h, h'⟩)
          · exact Or.inl h
          · subst h; subst e0; exact Or.inl (by rw [hf, hy, h'])
          · exact Or.inr ⟨v0, h, h'⟩

theorem addEnum_post (hk : ∀ a b, key a = key b → a = b) (hN : Names A den) (hS : Supported A) {w : World}
    (hg : Good key A den w) {n : Str} {d : Nat} (ho : Occurs A n (.enum d)) :
    Post key A den w (addEnum key A w n d) (Got A den n (.enum d)) := by
  obtain ⟨hab, c0, hc0, hd0⟩ := hN.occ _ _ ho
  have ec : c0 = .enum d := by cases hc0; rfl
  subst ec
  unfold addEnum
  cases hr : A.enums[d]? with
  | none => exact ⟨hg, Ext.refl w, fun a h => by cases h⟩
  | some r =>
    simp only
    split
    · exact none_post hg
    next hcond =>
      have hacc : r.ident = true ∧ r.priv = false := by
        cases h1 : r.ident <;> cases h2 : r.priv <;> simp [h1, h2] at hcond ⊢
      cases hs : addSyms r.width ⟨-1, []⟩ r.syms with
      | ok e =>
        simp only
        obtain ⟨hw, hv⟩ := hS.enums r (List.mem_of_getElem? hr)
        obtain ⟨i1, i2⟩ := addSyms_spec r.width r.syms ⟨-1, []⟩ e (show List.Pairwise _ [] from List.Pairwise.nil) hs
        refine Post.then (addNew_post hk hN hg (by intro x hx; cases hx) hab ?_ ?_) ?_
        · intro c hc
          rw [show (TypeDef.mk n 4 (.enum e.values)).name = n from rfl, hd0] at hc
          injection hc with hc
          subst hc
          refine .enum hr hacc (kind_new _ _) ?_ (by rw [size_new, hw]; rfl)
          intro m v
          rw [StdMap.mem_iff_find i1, i2, hw]
          constructor
          · rintro (h | ⟨v0, h, h'⟩)
            · cases h
            · obtain ⟨b1, b2⟩ := hv _ h
              rw [conv_id b1 b2] at h'
              rw [← h']; exact h
          · intro h
            obtain ⟨b1, b2⟩ := hv _ h
            exact Or.inr ⟨v, h, conv_id b1 b2⟩
        · exact built_leaf (by rw [kind_new]; rfl)
        · rintro w1 t g1 x1 ⟨e1, e2, e3, _⟩
          refine Post.ret g1 ?_
          intro a ha
          injection ha with ha
          rw [← ha]
          exact got_reg g1 e3
      | exn x => exact ⟨hg, Ext.refl w, fun a h => by cases h⟩
      | ub => exact ⟨hg, Ext.refl w, fun a h => by cases h⟩
      | fuel => exact ⟨hg, Ext.refl w, fun a h => by cases h⟩

/-! ### Arrays -/

/-- what is asked from a recursive call -/
def RecOk (key : Char → Int) (A : AST) (den : Str → Option CCT) (rec : World → Str → CT → World × Res (Option TId)) : Prop :=
  ∀ w n ty, Good key A den w → Occurs A n ty → Post key A den w (rec w n ty) (Got A den n ty)

theorem abs_app {a b : Str} (h : isAbsoluteName a = true) : isAbsoluteName (a ++ b) = true := by
  cases a with
  | nil => cases h
  | cons c a => exact h

theorem addArray_post (hk : ∀ a b, key a = key b → a = b) (hN : Names A den)
    {rec : World → Str → CT → World × Res (Option TId)} (hrec : RecOk key A den rec) {w : World} (hg : Good key A den w)
    {n en : Str} {e : CT} {k : Nat} (ho : Occurs A n (.arr en e k)) :
    Post key A den w (addArray key rec w en e k) (Got A den n (.arr en e k)) := by
  obtain ⟨hab, c0, hc0, hd0⟩ := hN.occ _ _ ho
  obtain ⟨c, hc, hcc⟩ : ∃ c, c0 = .arr k c ∧ Canon A e c := by
    cases hc0 with
    | arr h => exact ⟨_, rfl, h⟩
  subst hc
  obtain ⟨_, c', hc', hd'⟩ := hN.occ _ _ (.elem ho)
  have ec := hcc.det _ hc'
  subst ec
  unfold addArray
  split
  · exact none_post hg
  · refine Post.then (hrec w en e hg (.elem ho)) ?_
    intro w1 o g1 x1 hgot
    cases o with
    | none => exact none_post g1
    | some x =>
      simp only
      obtain ⟨r1, r2, r3⟩ := hgot x rfl
      obtain ⟨f1, f2⟩ := r3 _ hd'
      obtain ⟨n1, n2, _, n4⟩ := g1.inv.reg_name r1
      have hda := hN.arr _ ⟨n1, n2⟩ k
      rw [f2] at hda
      have hname : ∀ (H : Heap), (arrDef H x k).name = H.name x ++ '[' :: natStr k ++ [']'] := by
        intro H; simp [arrDef, arrSuffix]
      have hxn : (w1.1.alloc (arrDef w1.1 x k)).get x = w1.1.get x := alloc_get_old _ _ n4
      have hsz : (w1.1.alloc (arrDef w1.1 x k)).size w1.1.next =
          wmul k ((w1.1.alloc (arrDef w1.1 x k)).size x) := by
        rw [size_new, Heap.size, hxn]; rfl
      have hfx : Faithful A (w1.1.alloc (arrDef w1.1 x k)) c x :=
        f1.mono g1.clo (fun t ht => alloc_get_old _ _ ht) n4
      have hfa : Faithful A (w1.1.alloc (arrDef w1.1 x k)) (.arr k c) w1.1.next := .arr (kind_new _ _) hsz hfx
      refine Post.then (addNew_post hk hN g1 ?_ ?_ ?_ ?_) ?_
      · intro y hy
        simp only [arrDef, Kind.deps, Kind.elem?, Option.toList, List.mem_singleton] at hy
        rw [hy]; exact n4
      · rw [hname, List.append_assoc]; exact abs_app n2
      · intro c1 hc1
        rw [hname, hda] at hc1
        injection hc1 with hc1
        rw [← hc1]
        exact hfa
      · refine ⟨?_, fun y hy => ?_, fun y hy => ?_⟩
        · intro m y hy
          rw [kind_new] at hy
          injection hy with hy1 hy2
          subst hy1; subst hy2
          refine ⟨?_, hsz⟩
          rw [name_new, hname, Heap.name, Heap.name, hxn]
        · rw [kind_new] at hy; cases hy
        · rw [kind_new] at hy; cases hy
      · rintro w2 t g2 x2 ⟨e1, e2, e3, e4⟩
        refine Post.ret g2 ?_
        intro a ha
        injection ha with ha
        rw [← ha]
        intro t' ht'
        injection ht' with ht'
        subst ht'
        have hn2 : w2.1.name t = (arrDef w1.1 x k).name := by rw [e1, e2, name_new]
        refine ⟨by rw [hn2]; exact e3, ?_, ?_⟩
        · refine ⟨fun hsp => ?_, fun h => by cases h⟩
          obtain ⟨hdir, hn⟩ := hsp.arr _ _ _ _ ho
          rw [hn]
          by_cases hen : en = w1.1.name x
          · rw [hname, ← hen] at e3
            rw [e3]; exact fun h => by cases h
          · exact e4 _ x en rfl rfl (r2.2 hdir) hen
        · intro c1 hc1
          rw [hd0] at hc1
          injection hc1 with hc1
          subst hc1
          refine ⟨by rw [e1, e2]; exact hfa, ?_⟩
          rw [hn2, hname, hda]; rfl

theorem Good.lt {w : World} (hg : Good key A den w) {t : TId} (h : w.2.reg (w.1.name t) = some t) : t < w.1.next :=
  (hg.inv.reg_name h).2.2.2

theorem Ext.name {w w' : World} (h : Ext w w') {t : TId} (ht : t < w.1.next) : w'.1.name t = w.1.name t := by
  rw [Heap.name, h.objects t ht]; rfl

theorem Got.ext {w w' : World} (hg : Good key A den w) (h : Ext w w') {n : Str} {ty : CT} {o : Option TId}
    (hgot : Got A den n ty w o) : Got A den n ty w' o := by
  intro t ht
  obtain ⟨h1, ⟨h2, h2'⟩, h3⟩ := hgot t ht
  have hlt := hg.lt h1
  rw [h.name hlt]
  refine ⟨h.names _ _ h1, ⟨?_, fun hd => h.names _ _ (h2' hd)⟩, fun c hc => ⟨h.faithful hg.clo hlt (h3 c hc).1, (h3 c hc).2⟩⟩
  intro hs hn
  have := h2 hs
  cases hr : w.2.reg n with
  | none => exact this hr
  | some v => rw [h.names _ _ hr] at hn; cases hn

/-! ### Containers -/

theorem onM_vector (w : World) (e : TId) : onM (vectorFactory key ⟨w.1, w.2, []⟩ e) =
    thenW (w, TypeBuilder.has w.2 (vecName (w.1.name e)) true) fun w b =>
      if !b then addNew key w (vecDef w.1 e)
      else match w.2.get (vecName (w.1.name e)) with
        | none => (w, .ub)
        | some t => if w.1.cat t = .container then (w, .ok t) else (w, .exn .exception) := by
  unfold vectorFactory hasM
  simp only
  cases TypeBuilder.has w.2 (vecName (w.1.name e)) true with
  | ok b =>
    simp only [andThen, thenW]
    cases b with
    | false =>
      simp only [Bool.not_false, if_true, onReg, addNew, MSt.new]
      cases (addAuto key (w.1.alloc (vecDef w.1 e)) w.2 w.1.next []).2 <;> rfl
    | true =>
      simp only [Bool.not_true, Bool.false_eq_true, if_false]
      cases w.2.get (vecName (w.1.name e)) with
      | none => rfl
      | some t => simp only; split <;> rfl
  | exn e => rfl
  | ub => rfl
  | fuel => rfl

/-- what is asked from a container -/
def IsCont (A : AST) (den : Str → Option CCT) (c : CCT) (w : World) (t : TId) : Prop :=
  w.2.reg (w.1.name t) = some t ∧ Faithful A w.1 c t ∧ den (w.1.name t) = some c

theorem vector_post (hk : ∀ a b, key a = key b → a = b) (hN : Names A den) {w : World} (hg : Good key A den w) {e : TId}
    {c : CCT} (hreg : w.2.reg (w.1.name e) = some e) (hf : Faithful A w.1 c e) (hd : den (w.1.name e) = some c) :
    Post key A den w (onM (vectorFactory key ⟨w.1, w.2, []⟩ e)) (IsCont A den (.vec c)) := by
  obtain ⟨n1, n2, _, n4⟩ := hg.inv.reg_name hreg
  have hdv := hN.vec _ ⟨n1, n2⟩
  rw [hd] at hdv
  have habs : isAbsoluteName (vecName (w.1.name e)) = true := by unfold vecName; rw [List.append_assoc]; exact abs_app rfl
  rw [onM_vector]
  refine Post.then (P := fun w' _ => w' = w) (Post.ret hg fun _ _ => rfl) ?_
  rintro w' b _ _ rfl
  split
  · have hen : (w'.1.alloc (vecDef w'.1 e)).get e = w'.1.get e := alloc_get_old _ _ n4
    have hfv : Faithful A (w'.1.alloc (vecDef w'.1 e)) (.vec c) w'.1.next :=
      .vec (kind_new _ _) (size_new _ _) (hf.mono hg.clo (fun t ht => alloc_get_old _ _ ht) n4)
    refine Post.mono (addNew_post hk hN hg ?_ habs ?_ ?_) ?_
    · intro y hy
      simp only [vecDef, Kind.deps, Kind.elem?, Option.toList, List.mem_singleton] at hy
      rw [hy]; exact n4
    · intro c1 hc1
      rw [show (vecDef w'.1 e).name = vecName (w'.1.name e) from rfl, hdv] at hc1
      injection hc1 with hc1
      rw [← hc1]; exact hfv
    · refine ⟨fun m y hy => ?_, fun y hy => ?_, fun y hy => ?_⟩
      · rw [kind_new] at hy; cases hy
      · rw [kind_new] at hy; cases hy
      · rw [kind_new] at hy
        injection hy with hy
        subst hy
        refine ⟨?_, size_new _ _⟩
        rw [name_new, Heap.name, hen]; rfl
    · rintro w2 t g2 x2 ⟨e1, e2, e3, _⟩
      have hn2 : w2.1.name t = vecName (w'.1.name e) := by rw [e1, e2, name_new]; rfl
      exact ⟨by rw [hn2]; exact e3, by rw [e1, e2]; exact hfv, by rw [hn2]; exact hdv⟩
  · cases hget : w'.2.get (vecName (w'.1.name e)) with
    | none => exact ⟨hg, Ext.refl w', fun a h => by cases h⟩
    | some t =>
      simp only
      rw [hg.inv.abs _ habs] at hget
      split
      · refine Post.ret hg ?_
        intro a ha
        injection ha with ha
        rw [← ha]
        exact ⟨(hg.inv.reg_name hget).2.2.1, hg.honest _ _ _ hget hdv, hg.same _ _ _ hget hdv⟩
      · exact ⟨hg, Ext.refl w', fun a h => by cases h⟩

/-- `String::factory` in terms of `registry.add` -/
theorem onM_string (w : World) : onM (stringFactory key ⟨w.1, w.2, []⟩) =
    thenW (w, TypeBuilder.has w.2 stringName true) fun w b =>
      if b then
        match w.2.get stringName with
        | none => (w, .ub)
        | some t => if w.1.cat t = .container then (w, .ok t) else (w, .exn .exception)
      else
        thenW (thenW (w, TypeBuilder.has w.2 int8Name true) fun w b =>
          if !b then addNew key w ⟨int8Name, 1, .num .sint⟩
          else match w.2.get int8Name with
            | none => (w, .ub)
            | some t => (w, .ok t)) fun w e => addNew key w ⟨stringName, 32, .str e⟩ := by
  unfold stringFactory hasM
  simp only
  cases TypeBuilder.has w.2 stringName true with
  | ok b =>
    simp only [andThen, thenW]
    cases b with
    | true =>
      simp only [if_true]
      cases w.2.get stringName with
      | none => rfl
      | some t => simp only; split <;> rfl
    | false =>
      simp only [Bool.false_eq_true, if_false, stringElement, hasM]
      cases TypeBuilder.has w.2 int8Name true with
      | ok b =>
        simp only [andThen]
        cases b with
        | false =>
          simp only [Bool.not_false, if_true, onReg, addNew, MSt.new, thenW]
          cases h1 : (addAuto key (w.1.alloc ⟨int8Name, 1, .num .sint⟩) w.2 w.1.next []).2 with
          | ok _ =>
            simp only
            cases (addAuto key ((w.1.alloc ⟨int8Name, 1, .num .sint⟩).alloc ⟨stringName, 32, .str w.1.next⟩)
              (addAuto key (w.1.alloc ⟨int8Name, 1, .num .sint⟩) w.2 w.1.next []).1 (w.1.alloc ⟨int8Name, 1, .num .sint⟩).next []).2 <;> rfl
          | exn _ => rfl
          | ub => rfl
          | fuel => rfl
        | true =>
          simp only [Bool.not_true, Bool.false_eq_true, if_false]
          cases w.2.get int8Name with
          | none => rfl
          | some t =>
            simp only [onReg, addNew, MSt.new, thenW]
            cases (addAuto key (w.1.alloc ⟨stringName, 32, .str t⟩) w.2 w.1.next []).2 <;> rfl
      | exn e => rfl
      | ub => rfl
      | fuel => rfl
  | exn e => rfl
  | ub => rfl
  | fuel => rfl

theorem int8_den (hN : Names A den) : den int8Name = some (.builtin 8 .sint) := by
  have h := hN.sint 1
  rw [show intName .sint (8 * 1) = int8Name by decide +kernel] at h
  exact h

theorem string_post (hk : ∀ a b, key a = key b → a = b) (hN : Names A den) {w : World} (hg : Good key A den w) :
    Post key A den w (onM (stringFactory key ⟨w.1, w.2, []⟩)) (IsCont A den .str) := by
  rw [onM_string]
  refine Post.then (P := fun w' _ => w' = w) (Post.ret hg fun _ _ => rfl) ?_
  rintro w' b _ _ rfl
  split
  · cases hget : w'.2.get stringName with
    | none => exact ⟨hg, Ext.refl w', fun a h => by cases h⟩
    | some t =>
      simp only
      rw [hg.inv.abs _ rfl] at hget
      split
      · refine Post.ret hg ?_
        intro a ha
        injection ha with ha
        rw [← ha]
        exact ⟨(hg.inv.reg_name hget).2.2.1, hg.honest _ _ _ hget hN.str, hg.same _ _ _ hget hN.str⟩
      · exact ⟨hg, Ext.refl w', fun a h => by cases h⟩
  · refine Post.then (P := fun w e => e < w.1.next ∧ Faithful A w.1 (.builtin 8 .sint) e) ?_ ?_
    · refine Post.then (P := fun w2 _ => w2 = w') (Post.ret hg fun _ _ => rfl) ?_
      rintro w2 b _ _ rfl
      split
      · refine Post.mono (addNew_post hk hN hg (by intro x hx; cases hx) rfl ?_ (built_leaf (by rw [kind_new]; rfl))) ?_
        · intro c hc
          rw [show (TypeDef.mk int8Name 1 (.num .sint)).name = int8Name from rfl, int8_den hN] at hc
          injection hc with hc
          rw [← hc]
          exact .num rfl (kind_new _ _) (by rw [size_new]; rfl)
        · rintro w3 t g3 x3 ⟨e1, e2, e3, _⟩
          have hn : w3.1.name t = int8Name := by rw [e1, e2, name_new]
          exact ⟨(g3.inv.reg_name e3).2.2.2, g3.honest _ _ _ e3 (int8_den hN)⟩
      · cases hget : w2.2.get int8Name with
        | none => exact ⟨hg, Ext.refl w2, fun a h => by cases h⟩
        | some t =>
          simp only
          rw [hg.inv.abs _ rfl] at hget
          refine Post.ret hg ?_
          intro a ha
          injection ha with ha
          rw [← ha]
          exact ⟨(hg.inv.reg_name hget).2.2.2, hg.honest _ _ _ hget (int8_den hN)⟩
    · rintro w2 e g2 x2 ⟨q1, q2⟩
      have hfs : Faithful A (w2.1.alloc ⟨stringName, 32, .str e⟩) .str w2.1.next :=
        .str (kind_new _ _) (size_new _ _) (q2.mono g2.clo (fun t ht => alloc_get_old _ _ ht) q1)
      refine Post.mono (addNew_post hk hN g2 ?_ rfl ?_ (built_leaf (by rw [kind_new]; rfl))) ?_
      · intro y hy
        simp only [Kind.deps, Kind.elem?, Option.toList, List.mem_singleton] at hy
        rw [hy]; exact q1
      · intro c1 hc1
        rw [show (TypeDef.mk stringName 32 (.str e)).name = stringName from rfl, hN.str] at hc1
        injection hc1 with hc1
        rw [← hc1]; exact hfs
      · rintro w3 t g3 x3 ⟨e1, e2, e3, _⟩
        have hn2 : w3.1.name t = stringName := by rw [e1, e2, name_new]
        exact ⟨by rw [hn2]; exact e3, by rw [e1, e2]; exact hfs, by rw [hn2]; exact hN.str⟩

/-- the arguments registered so far -/
def ArgsOk (A : AST) (den : Str → Option CCT) (w : World) (as : List (Str × CT)) (l : List TId) : Prop :=
  l.length = as.length ∧ ∀ (i : Nat) (a : Str × CT) (t : TId), as[i]? = some a → l[i]? = some t → Got A den a.1 a.2 w (some t)

theorem snoc_get {α : Type} {l : List α} {a b : α} {i : Nat} (h : (l ++ [a])[i]? = some b) :
    l[i]? = some b ∨ (i = l.length ∧ b = a) := by
  by_cases hi : i < l.length
  · rw [List.getElem?_append_left hi] at h; exact Or.inl h
  · rw [List.getElem?_append_right (by omega)] at h
    have : i - l.length = 0 := by
      cases hd : i - l.length with
      | zero => rfl
      | succ k => rw [hd] at h; cases h
    rw [this] at h
    injection h with h
    exact Or.inr ⟨by omega, h.symm⟩

theorem lt_of_get {α : Type} {l : List α} {b : α} {i : Nat} (h : l[i]? = some b) : i < l.length := by
  rcases Nat.lt_or_ge i l.length with h' | h'
  · exact h'
  · rw [List.getElem?_eq_none h'] at h; cases h

theorem addArgs_post {rec : World → Str → CT → World × Res (Option TId)} (hrec : RecOk key A den rec) (c : Cont) :
    ∀ (args : List (Str × CT)) (w : World) (pre : List (Str × CT)) (acc : List TId), Good key A den w →
    (∀ a ∈ args, detailArg a.1 = false → Occurs A a.1 a.2) → ArgsOk A den w pre acc →
    Post key A den w (addArgs rec c w args acc) (fun w' o => ∀ l, o = some l →
      ArgsOk A den w' (pre ++ args.filter (fun a => !detailArg a.1)) l ∧
      (c = .string → ∀ a ∈ args, detailArg a.1 = false → a.1 = "/char".toList)) := by
  intro args
  induction args with
  | nil =>
    intro w pre acc hg _ hacc
    refine Post.ret hg ?_
    intro a ha l hl
    injection ha with ha
    rw [← ha] at hl
    injection hl with hl
    rw [← hl, List.filter_nil, List.append_nil]
    exact ⟨hacc, fun _ a h => by cases h⟩
  | cons x args ih =>
    obtain ⟨n, ty⟩ := x
    intro w pre acc hg hocc hacc
    have hocc' : ∀ a ∈ args, detailArg a.1 = false → Occurs A a.1 a.2 := fun a ha => hocc a (List.mem_cons_of_mem _ ha)
    rw [addArgs, argIgnored_eq]
    by_cases hi : detailArg n = true
    · rw [if_pos hi]
      refine Post.mono (ih w pre acc hg hocc' hacc) ?_
      intro w' o _ _ h l hl
      obtain ⟨h1, h2⟩ := h l hl
      refine ⟨?_, ?_⟩
      · rw [List.filter_cons_of_neg (by simp [hi])]; exact h1
      · intro hc a ha hna
        rcases List.mem_cons.mp ha with rfl | ha
        · rw [hi] at hna; cases hna
        · exact h2 hc a ha hna
    · rw [if_neg hi]
      have hi' : detailArg n = false := by simpa using hi
      by_cases hs : c = .string ∧ n ≠ "/char".toList
      · rw [if_pos hs]
        refine Post.ret hg ?_
        intro a ha l hl
        injection ha with ha
        rw [← ha] at hl; cases hl
      · rw [if_neg hs]
        refine Post.then (hrec w n ty hg (hocc (n, ty) (List.mem_cons_self ..) hi')) ?_
        intro w1 o g1 x1 hgot
        cases o with
        | none =>
          refine Post.ret g1 ?_
          intro a ha l hl
          injection ha with ha
          rw [← ha] at hl; cases hl
        | some t =>
          simp only
          have hacc1 : ArgsOk A den w1 (pre ++ [(n, ty)]) (acc ++ [t]) := by
            refine ⟨by simp [hacc.1], ?_⟩
            intro i a t' ha ht'
            rcases snoc_get ha with ha | ⟨hi1, ha⟩ <;> rcases snoc_get ht' with ht' | ⟨hi2, ht'⟩
            · exact (hacc.2 i a t' ha ht').ext hg x1
            · have := lt_of_get ha; rw [hi2, hacc.1] at this; exact absurd this (Nat.lt_irrefl _)
            · have := lt_of_get ht'; rw [hi1, hacc.1] at this; exact absurd this (Nat.lt_irrefl _)
            · rw [ha, ht']; exact hgot
          refine Post.mono (ih w1 _ _ g1 hocc' hacc1) ?_
          intro w' o _ _ h l hl
          obtain ⟨h1, h2⟩ := h l hl
          refine ⟨?_, ?_⟩
          · rw [List.filter_cons_of_pos (by simp [hi'])]
            rw [List.append_assoc, List.singleton_append] at h1
            exact h1
          · intro hc a ha hna
            rcases List.mem_cons.mp ha with rfl | ha
            · by_cases hn : n = "/char".toList
              · exact hn
              · exact absurd ⟨hc, hn⟩ hs
            · exact h2 hc a ha hna

theorem checkRegisterContainer_post (hk : ∀ a b, key a = key b → a = b) (hN : Names A den)
    {rec : World → Str → CT → World × Res (Option TId)} (hrec : RecOk key A den rec) {w : World} (hg : Good key A den w)
    {n : Str} {d : Nat} {r : CRecord} (hr : A.records[d]? = some r) (ho : Occurs A n (.record (some d))) :
    Post key A den w (checkRegisterContainer key rec w n r) (Got A den n (.record (some d))) := by
  obtain ⟨hab, c0, hc0, hd0⟩ := hN.occ _ _ ho
  have hmem := List.mem_of_getElem? hr
  unfold checkRegisterContainer
  cases ht : r.tmpl with
  | none => exact none_post hg
  | some p =>
    obtain ⟨tn, args⟩ := p
    simp only
    cases hf : findContainer tn with
    | none => exact none_post hg
    | some c =>
      simp only
      refine Post.then (addArgs_post hrec c args w [] [] hg (fun a ha hna => .arg hmem ht ha hna) ⟨rfl, fun i a t h => by cases h⟩) ?_
      intro w1 o g1 x1 hargs
      cases o with
      | none => exact none_post g1
      | some l =>
        simp only
        obtain ⟨⟨a1, a2⟩, a3⟩ := hargs l rfl
        rw [List.nil_append] at a1 a2
        refine Post.then (P := IsCont A den c0) ?_ ?_
        · cases c with
          | vector =>
            match l, a1, a2 with
            | [], _, _ => exact ⟨g1, Ext.refl w1, fun a h => by cases h⟩
            | [e], a1, a2 =>
              cases hfl : args.filter (fun a => !detailArg a.1) with
              | nil => rw [hfl] at a1; cases a1
              | cons x xs =>
                rw [hfl] at a1 a2
                have hxs : xs = [] := List.length_eq_zero_iff.mp (Nat.succ.inj a1.symm)
                subst hxs
                obtain ⟨an, at'⟩ := x
                have hv : VecOf r at' := ⟨tn, args, an, ht, hf, hfl⟩
                have hxin : (an, at') ∈ args.filter (fun a => !detailArg a.1) := by rw [hfl]; exact List.mem_cons_self ..
                obtain ⟨hx1, hx2⟩ := List.mem_filter.mp hxin
                have hocc : Occurs A an at' := .arg hmem ht hx1 (by simpa using hx2)
                obtain ⟨_, ca, hca, hda⟩ := hN.occ _ _ hocc
                have ec := hc0.det _ (.vec hr hv hca)
                subst ec
                obtain ⟨g2, _, g3⟩ := a2 0 _ e rfl rfl e rfl
                obtain ⟨g4, g5⟩ := g3 ca hda
                exact vector_post hk hN g1 g2 g4 g5
            | _ :: _ :: _, _, _ => exact ⟨g1, Ext.refl w1, fun a h => by cases h⟩
          | string =>
            have hst : IsString r := ⟨tn, args, ht, hf, a3 rfl⟩
            have ec := hc0.det _ (.str hr hst)
            subst ec
            match l with
            | [_] => exact string_post hk hN g1
            | [] =>
              refine Post.then (P := fun w' _ => w' = w1) (Post.ret (w := w1) g1 fun _ _ => rfl) ?_
              rintro w2 b g2 x2 rfl
              split
              · exact string_post hk hN g1
              · exact ⟨g1, Ext.refl _, fun a h => by cases h⟩
            | _ :: _ :: _ =>
              refine Post.then (P := fun w' _ => w' = w1) (Post.ret (w := w1) g1 fun _ _ => rfl) ?_
              rintro w2 b g2 x2 rfl
              split
              · exact string_post hk hN g1
              · exact ⟨g1, Ext.refl _, fun a h => by cases h⟩
        · rintro w2 t g2 x2 ⟨q1, q2, q3⟩
          obtain ⟨_, n2, _, _⟩ := g2.inv.reg_name q1
          split
          · refine Post.then (aliasW_post hk hN g2 n2 hab (fun c hc => Or.inl ?_)) ?_
            · rw [hd0] at hc; rw [← hc]; exact q3
            · rintro w3 _ g3 x3 ⟨_, t', e5, e6⟩
              rw [q1] at e5
              injection e5 with e5
              subst e5
              refine Post.ret g3 ?_
              intro a ha
              injection ha with ha
              rw [← ha]
              exact got_reg g3 e6
          · rename_i hne
            simp only [ne_eq, Classical.not_not] at hne
            refine Post.ret g2 ?_
            intro a ha
            injection ha with ha
            rw [← ha]
            exact got_reg g2 (hne ▸ q1)

end Verif.Clang
