import Verif.GccxmlSpec
import Verif.ClangProps

/-!
Property C71: what the operations on the registry keep true.
-/

namespace Verif.Gccxml
open Verif Verif.Names Verif.Graph Verif.Registry Verif.TypeBuilder Verif.Merge Verif.RubyBuilder Verif.CompoundModel
open Verif.Clang (kind_new size_new name_new abs_app)

variable {key : Char → Int} {P : Prog} {S : Sem}

/-- arrays, pointers and vectors are named after their elements and have their size -/
def Built (H : Heap) (t : TId) : Prop :=
  (∀ n x, H.kind t = .arr n x → H.name t = H.name x ++ '[' :: natStr n ++ [']'] ∧ H.size t = wmul n (H.size x)) ∧
  (∀ x, H.kind t = .ptr x → H.name t = H.name x ++ ['*'] ∧ H.size t = 8) ∧
  (∀ x, H.kind t = .vec x → H.name t = Merge.vecName (H.name x) ∧ H.size t = 24)

/-- The invariant of an import. -/
structure Good (key : Char → Int) (P : Prog) (S : Sem) (w : World) : Prop where
  inv : Inv key w.1 w.2
  ac : Acyclic w.1
  clo : ∀ u, u < w.1.next → ∀ x ∈ w.1.deps u, x < w.1.next
  honest : ∀ n t, w.2.reg n = some t → ∃ c, S.den n = some c ∧ Faithful P S w.1 c t ∧ S.den (w.1.name t) = some c
  built : ∀ t, w.2.reg (w.1.name t) = some t → Built w.1 t

/-- nothing that existed is changed: the objects are the same, the names still designate the same objects -/
structure Ext (w w' : World) : Prop where
  next : w.1.next ≤ w'.1.next
  objects : ∀ t, t < w.1.next → w'.1.get t = w.1.get t
  names : ∀ n u, w.2.reg n = some u → w'.2.reg n = some u

theorem Ext.refl (w : World) : Ext w w := ⟨Nat.le_refl _, fun _ _ => rfl, fun _ _ h => h⟩

theorem Ext.trans {a b c : World} (h : Ext a b) (h' : Ext b c) : Ext a c :=
  ⟨Nat.le_trans h.next h'.next, fun t ht => (h'.objects t (Nat.lt_of_lt_of_le ht h.next)).trans (h.objects t ht),
    fun n u hu => h'.names n u (h.names n u hu)⟩

theorem Faithful.mono {H H' : Heap} (clo : ∀ u, u < H.next → ∀ x ∈ H.deps u, x < H.next)
    (h : ∀ t, t < H.next → H'.get t = H.get t) {c : CCT} {t : TId} (hf : Faithful P S H c t) :
    t < H.next → Faithful P S H' c t := by
  have hd : ∀ t x, t < H.next → (H.kind t).elem? = some x → x < H.next := by
    intro t x ht hx
    refine clo t ht x ?_
    unfold Heap.deps
    cases hk : H.kind t <;> rw [hk] at hx <;> simp [Kind.elem?, Kind.deps] at hx ⊢ <;> exact hx.symm
  have hK : ∀ t, t < H.next → H'.kind t = H.kind t := fun t ht => by unfold Heap.kind; rw [h t ht]
  have hZ : ∀ t, t < H.next → H'.size t = H.size t := fun t ht => by unfold Heap.size; rw [h t ht]
  induction hf with
  | @null t h1 => intro ht; exact .null (by rw [hK t ht]; exact h1)
  | @«opaque» c t h1 h2 => intro ht; exact .opaque h1 (by rw [hK t ht]; exact h2)
  | @num bits k cat t h1 h2 h3 => intro ht; exact .num h1 (by rw [hK t ht]; exact h2) (by rw [hZ t ht]; exact h3)
  | @enum i bits name syms0 syms t h1 h2 h3 h4 =>
    intro ht; exact .enum h1 (by rw [hK t ht]; exact h2) h3 (by rw [hZ t ht]; exact h4)
  | @arr n c x t h1 h2 h3 ih =>
    intro ht
    have hx := hd t x ht (by rw [h1]; rfl)
    exact .arr (by rw [hK t ht]; exact h1) (by rw [hZ t ht, hZ x hx]; exact h2) (ih hx)
  | @ptr c x t h1 h2 h3 ih =>
    intro ht
    have hx := hd t x ht (by rw [h1]; rfl)
    exact .ptr (by rw [hK t ht]; exact h1) (by rw [hZ t ht]; exact h2) (ih hx)
  | @vec c x t h1 h2 h3 ih =>
    intro ht
    have hx := hd t x ht (by rw [h1]; rfl)
    exact .vec (by rw [hK t ht]; exact h1) (by rw [hZ t ht]; exact h2) (ih hx)
  | @str x t h1 h3 ih =>
    intro ht
    have hx := hd t x ht (by rw [h1]; rfl)
    exact .str (by rw [hK t ht]; exact h1) (ih hx)
  | @record i r ms fs t h1 h2 h3 h4 h5 h6 h7 h8 ih =>
    intro ht
    refine .record h1 h2 h3 (by rw [hK t ht]; exact h4) h5 (by rw [hZ t ht]; exact h6) h7 ?_
    intro k m fd e1 e2
    refine ih k m fd e1 e2 (clo t ht _ ?_)
    unfold Heap.deps
    rw [h4]
    exact List.mem_map.mpr ⟨fd, List.mem_of_getElem? e2, rfl⟩

theorem Ext.faithful {w w' : World} (h : Ext w w') (clo : ∀ u, u < w.1.next → ∀ x ∈ w.1.deps u, x < w.1.next) {c : CCT}
    {t : TId} (ht : t < w.1.next) (hf : Faithful P S w.1 c t) : Faithful P S w'.1 c t := hf.mono clo h.objects ht

theorem Ext.name {w w' : World} (h : Ext w w') {t : TId} (ht : t < w.1.next) : w'.1.name t = w.1.name t := by
  rw [Heap.name, h.objects t ht]; rfl

theorem Good.lt {w : World} (hg : Good key P S w) {t : TId} (h : w.2.reg (w.1.name t) = some t) : t < w.1.next :=
  (hg.inv.reg_name h).2.2.2

/-- the operation on C++ types that goes with the decoration of a name -/
theorem derive (hM : Meaning P S) {H : Heap} {u x : TId} {ind : Str → Str} (h1 : (H.kind u).indirectName = some ind)
    (h2 : (H.kind u).elem? = some x) (hb : Built H u) :
    H.name u = ind (H.name x) ∧ (∀ a : Str, a.length < (ind a).length) ∧
    ∃ op : CCT → CCT, (∀ n, OkName n → S.den (ind n) = (S.den n).map op) ∧
      ∀ c, Faithful P S H c x → Faithful P S H (op c) u := by
  obtain ⟨b1, b2, b3⟩ := hb
  cases hk : H.kind u with
  | arr n e =>
    rw [hk] at h1 h2
    simp only [Kind.indirectName, Option.some.injEq, Kind.elem?] at h1 h2
    subst h1; subst h2
    obtain ⟨c1, c2⟩ := b1 n e hk
    refine ⟨c1, fun a => by simp, .arr n, fun m hm => ?_, fun c hc => .arr hk c2 hc⟩
    have := hM.arrName m hm.2 n
    simp only [arrSuffix] at this
    rw [← this]
    simp
  | ptr e =>
    rw [hk] at h1 h2
    simp only [Kind.indirectName, Option.some.injEq, Kind.elem?] at h1 h2
    subst h1; subst h2
    obtain ⟨c1, c2⟩ := b2 e hk
    exact ⟨c1, fun a => by simp, .ptr, fun m hm => hM.ptrName m hm.2, fun c hc => .ptr hk c2 hc⟩
  | vec e =>
    rw [hk] at h1 h2
    simp only [Kind.indirectName, Option.some.injEq, Kind.elem?] at h1 h2
    subst h1; subst h2
    obtain ⟨c1, c2⟩ := b3 e hk
    exact ⟨c1, fun a => by simp only [List.length_append, List.length_singleton]; omega, .vec, fun m hm => hM.vecName m hm, fun c hc => .vec hk c2 hc⟩
  | null => rw [hk] at h1; cases h1
  | «opaque» => rw [hk] at h1; cases h1
  | num _ => rw [hk] at h1; cases h1
  | enum _ => rw [hk] at h1; cases h1
  | str _ => rw [hk] at h1; cases h1
  | comp _ => rw [hk] at h1; cases h1

/-- the registration of a name, with the derived names that follow -/
theorem good_grow (hM : Meaning P S) {H : Heap} {R R' : Reg} (hg : Good key P S (H, R)) {n0 : Str} {u0 : TId}
    (hi : Inv key H R') (hx : ∀ n u, R.reg n = some u → R'.reg n = some u)
    (hn : ∀ n u, New R R' n u → (n = n0 ∧ u = u0) ∨ Derived H R' n u)
    (hp : ∀ n u, New R R' n u → u = u0 ∨ R.reg (H.name u) = some u)
    (h0 : ∃ c, S.den n0 = some c ∧ Faithful P S H c u0 ∧ S.den (H.name u0) = some c) (hb : Built H u0) :
    Good key P S (H, R') ∧ Ext (H, R) (H, R') := by
  have hbuilt : ∀ t, R'.reg (H.name t) = some t → Built H t := by
    intro t ht
    cases hr : R.reg (H.name t) with
    | none =>
      rcases hp _ t ⟨hr, ht⟩ with h | h
      · rw [h]; exact hb
      · exact hg.built t h
    | some v =>
      have hv := hx _ _ hr
      rw [ht] at hv
      injection hv with hv
      rw [← hv] at hr
      exact hg.built t hr
  have main : ∀ k n t, n.length ≤ k → R'.reg n = some t → ∃ c, S.den n = some c ∧ Faithful P S H c t ∧ S.den (H.name t) = some c := by
    intro k
    induction k with
    | zero =>
      intro n t hk hr
      have hl : n = [] := List.length_eq_zero_iff.mp (by omega)
      have := (hi.reg_name hr).2.1
      rw [hl] at this
      simp [isAbsoluteName] at this
    | succ k ih =>
      intro n t hk hr
      cases ho : R.reg n with
      | some v =>
        have hv := hx _ _ ho
        rw [hr] at hv
        injection hv with hv
        rw [← hv] at ho
        exact hg.honest n t ho
      | none =>
        rcases hn n t ⟨ho, hr⟩ with ⟨rfl, rfl⟩ | ⟨ind, x, a, e1, e2, e3, e4, e5, e6⟩
        · exact h0
        · obtain ⟨d1, d2, op, d3, d4⟩ := derive hM e1 e2 (hbuilt t e6)
          obtain ⟨a1, a2, a3, a4⟩ := hi.reg_name e4
          have hla := d2 a
          rw [← e3] at hla
          obtain ⟨c', i0, i1, i2⟩ := ih a x (by omega) e4
          obtain ⟨b1, b2, _, _⟩ := hi.reg_name a3
          refine ⟨op c', by rw [e3, d3 a ⟨a1, a2⟩, i0]; rfl, d4 c' i1, ?_⟩
          rw [d1, d3 _ ⟨b1, b2⟩, i2]
          rfl
  exact ⟨⟨hi, hg.ac, hg.clo, fun n t h => main _ n t (Nat.le_refl _) h, hbuilt⟩, ⟨Nat.le_refl _, fun _ _ => rfl, hx⟩⟩

theorem good_alloc {w : World} (hg : Good key P S w) {d : TypeDef} (hd : ∀ x ∈ d.kind.deps, x < w.1.next) :
    Good key P S (w.1.alloc d, w.2) ∧ Ext w (w.1.alloc d, w.2) := by
  have hob : ∀ t, t < w.1.next → (w.1.alloc d).get t = w.1.get t := fun t ht => alloc_get_old _ _ ht
  have hel : ∀ (k : Kind) x, k.elem? = some x → x ∈ k.deps := by
    intro k x hx
    cases k <;> simp [Kind.elem?, Kind.deps] at hx ⊢ <;> exact hx.symm
  refine ⟨⟨hg.inv.heap (Nat.le_succ _) (fun t ht _ => by unfold Heap.name; rw [hob t ht]),
    acyclic_alloc hg.ac (fun x hx => hd x (hel _ x hx)), ?_, ?_, ?_⟩, ⟨Nat.le_succ _, hob, fun _ _ h => h⟩⟩
  · intro u hu x hx
    show x < w.1.next + 1
    by_cases h : u = w.1.next
    · subst h
      rw [Heap.deps, Heap.kind, alloc_get_new] at hx
      exact Nat.lt_succ_of_lt (hd x hx)
    · have hu' : u < w.1.next := by
        have : u < w.1.next + 1 := hu
        exact Nat.lt_of_le_of_ne (Nat.le_of_lt_succ this) h
      rw [Heap.deps, Heap.kind, hob u hu'] at hx
      exact Nat.lt_succ_of_lt (hg.clo u hu' x hx)
  · intro n t hr
    have ht := (hg.inv.reg_name hr).2.2.2
    obtain ⟨c, h1, h2, h3⟩ := hg.honest n t hr
    refine ⟨c, h1, h2.mono hg.clo hob ht, ?_⟩
    show S.den ((w.1.alloc d).name t) = _
    rw [Heap.name, hob t ht]
    exact h3
  · intro t hr
    have ht : t < w.1.next := (hg.inv.reg_name hr).2.2.2
    rw [Heap.name, hob t ht] at hr
    obtain ⟨b1, b2, b3⟩ := hg.built t hr
    have hx : ∀ x, (w.1.kind t).elem? = some x → x < w.1.next := fun x hx => hg.clo t ht x (hel _ x hx)
    refine ⟨?_, ?_, ?_⟩
    · intro n x hk
      rw [Heap.kind, hob t ht] at hk
      have := hx x (by rw [Heap.kind, hk]; rfl)
      show ((w.1.alloc d).get t).name = ((w.1.alloc d).get x).name ++ _ ++ _ ∧ ((w.1.alloc d).get t).size = wmul n ((w.1.alloc d).get x).size
      rw [hob t ht, hob x this]
      exact b1 n x hk
    · intro x hk
      rw [Heap.kind, hob t ht] at hk
      have := hx x (by rw [Heap.kind, hk]; rfl)
      show ((w.1.alloc d).get t).name = ((w.1.alloc d).get x).name ++ _ ∧ ((w.1.alloc d).get t).size = _
      rw [hob t ht, hob x this]
      exact b2 x hk
    · intro x hk
      rw [Heap.kind, hob t ht] at hk
      have := hx x (by rw [Heap.kind, hk]; rfl)
      show ((w.1.alloc d).get t).name = Merge.vecName ((w.1.alloc d).get x).name ∧ ((w.1.alloc d).get t).size = _
      rw [hob t ht, hob x this]
      exact b3 x hk

/-- what a part of the importer does, started in `w`: the invariant is kept, nothing that existed is changed, and `Q` holds of
the result -/
def Post {α : Type} (key : Char → Int) (P : Prog) (S : Sem) (w : World) (o : World × Res α) (Q : World → α → Prop) : Prop :=
  Good key P S o.1 ∧ Ext w o.1 ∧ ∀ a, o.2 = .ok a → Q o.1 a

theorem Post.ret {α : Type} {w : World} (hg : Good key P S w) {r : Res α} {Q : World → α → Prop}
    (h : ∀ a, r = .ok a → Q w a) : Post key P S w (w, r) Q := ⟨hg, Ext.refl w, h⟩

theorem Post.mono {α : Type} {w : World} {o : World × Res α} {Q Q' : World → α → Prop} (h : Post key P S w o Q)
    (hpq : ∀ w' a, Good key P S w' → Ext w w' → Q w' a → Q' w' a) : Post key P S w o Q' :=
  ⟨h.1, h.2.1, fun a ha => hpq _ a h.1 h.2.1 (h.2.2 a ha)⟩

/-- `registry.add(new T, persistent)` -/
theorem add_post (hk : ∀ a b, key a = key b → a = b) (hM : Meaning P S) {w : World} (hg : Good key P S w) {d : TypeDef}
    (hd : ∀ x ∈ d.kind.deps, x < w.1.next) (habs : isAbsoluteName d.name = true)
    (hf : ∃ c, S.den d.name = some c ∧ Faithful P S (w.1.alloc d) c w.1.next) (hb : Built (w.1.alloc d) w.1.next) (p : Bool) :
    Post key P S w ((w.1.alloc d, (add key (w.1.alloc d) w.2 w.1.next p []).1), (add key (w.1.alloc d) w.2 w.1.next p []).2)
      (fun w' _ => w'.1 = w.1.alloc d ∧ w'.2.reg d.name = some w.1.next) := by
  obtain ⟨g1, e1⟩ := good_alloc hg hd
  have hnm : (w.1.alloc d).name w.1.next = d.name := by rw [Heap.name, alloc_get_new]
  obtain ⟨⟨i1, i2, i3, i4, i5⟩, i6, i7⟩ := add_spec hk g1.ac g1.inv w.1.next (Nat.lt_succ_self _) (by rw [hnm]; exact habs) p []
  obtain ⟨c, hc, hfc⟩ := hf
  obtain ⟨g2, e2⟩ := good_grow hM g1 i1 i3 i4 i5 (by rw [hnm]; exact ⟨c, hc, hfc, hc⟩) hb
  exact ⟨g2, e1.trans e2, fun a ha => ⟨rfl, hnm ▸ (i6 ha).1⟩⟩

/-- what is known of the result of a lookup or of a build: it is registered and describes `c` -/
def Is (P : Prog) (S : Sem) (c : CCT) (w : World) (t : TId) : Prop :=
  w.2.reg (w.1.name t) = some t ∧ Faithful P S w.1 c t ∧ S.den (w.1.name t) = some c

theorem Is.ext {w w' : World} (hg : Good key P S w) (h : Ext w w') {c : CCT} {t : TId} (hi : Is P S c w t) : Is P S c w' t := by
  obtain ⟨h1, h2, h3⟩ := hi
  have hlt := hg.lt h1
  exact ⟨by rw [h.name hlt]; exact h.names _ _ h1, h.faithful hg.clo hlt h2, by rw [h.name hlt]; exact h3⟩

theorem is_reg {w : World} (hg : Good key P S w) {n : Str} {t : TId} (h : w.2.reg n = some t) {c : CCT} (hd : S.den n = some c) :
    Is P S c w t := by
  obtain ⟨c', h1, h2, h3⟩ := hg.honest n t h
  rw [hd] at h1
  injection h1 with h1
  subst h1
  exact ⟨(hg.inv.reg_name h).2.2.1, h2, h3⟩

theorem built_leaf {H : Heap} {t : TId} (h : (H.kind t).indirectName = none) : Built H t := by
  refine ⟨fun n x hk => ?_, fun x hk => ?_, fun x hk => ?_⟩ <;> rw [hk] at h <;> cases h

/-- a step of `TypeBuilder::build` -/
theorem getOrAdd_post (hk : ∀ a b, key a = key b → a = b) (hM : Meaning P S) {w : World} (hg : Good key P S w) {d : TypeDef}
    (hd : ∀ x ∈ d.kind.deps, x < w.1.next) (habs : isAbsoluteName d.name = true) {c : CCT} (hc : S.den d.name = some c)
    (hf : Faithful P S (w.1.alloc d) c w.1.next) (hb : Built (w.1.alloc d) w.1.next) :
    Post key P S w (getOrAdd key w d) (Is P S c) := by
  unfold getOrAdd
  cases hget : w.2.get d.name with
  | some u =>
    refine Post.ret hg ?_
    intro a ha
    injection ha with ha
    rw [← ha]
    rw [hg.inv.abs _ habs] at hget
    exact is_reg hg hget hc
  | none =>
    simp only [addAuto]
    have h := add_post hk hM hg hd habs ⟨c, hc, hf⟩ hb (isPersistent (w.1.alloc d) ((w.1.alloc d).name w.1.next) w.1.next)
    generalize hA : add key (w.1.alloc d) w.2 w.1.next (isPersistent (w.1.alloc d) ((w.1.alloc d).name w.1.next) w.1.next) [] = A at h
    obtain ⟨R, r⟩ := A
    obtain ⟨h1, h2, h3⟩ := h
    cases r with
    | ok u =>
      refine ⟨h1, h2, ?_⟩
      intro a ha
      injection ha with ha
      rw [← ha]
      have := (h3 u rfl).2
      refine ⟨?_, ?_, ?_⟩
      · show R.reg ((w.1.alloc d).name w.1.next) = _
        rw [name_new]; exact this
      · exact hf
      · show S.den ((w.1.alloc d).name w.1.next) = _
        rw [name_new]; exact hc
    | exn e => exact ⟨h1, h2, fun a ha => by cases ha⟩
    | ub => exact ⟨h1, h2, fun a ha => by cases ha⟩
    | fuel => exact ⟨h1, h2, fun a ha => by cases ha⟩

theorem arr_post (hk : ∀ a b, key a = key b → a = b) (hM : Meaning P S) {w : World} (hg : Good key P S w) {x : TId} {c : CCT}
    (hx : Is P S c w x) (d : Int) : Post key P S w (addArrayMajor key w x d) (Is P S (.arr (toSizeT d) c)) := by
  obtain ⟨r1, f1, f2⟩ := hx
  obtain ⟨n1, n2, _, n4⟩ := hg.inv.reg_name r1
  unfold addArrayMajor
  generalize toSizeT d = k
  have hda := hM.arrName _ n2 k
  rw [f2] at hda
  have hxn : (w.1.alloc (arrDef w.1 x k)).get x = w.1.get x := alloc_get_old _ _ n4
  have hsz : (w.1.alloc (arrDef w.1 x k)).size w.1.next = wmul k ((w.1.alloc (arrDef w.1 x k)).size x) := by
    rw [size_new, Heap.size, hxn]; rfl
  have hfx : Faithful P S (w.1.alloc (arrDef w.1 x k)) c x := f1.mono hg.clo (fun t ht => alloc_get_old _ _ ht) n4
  refine getOrAdd_post hk hM hg ?_ ?_ hda (.arr (kind_new _ _) hsz hfx) ?_
  · intro y hy
    simp only [arrDef, Kind.deps, Kind.elem?, Option.toList, List.mem_singleton] at hy
    rw [hy]; exact n4
  · exact abs_app n2
  · refine ⟨?_, fun y hy => ?_, fun y hy => ?_⟩
    · intro m y hy
      rw [kind_new] at hy
      injection hy with hy1 hy2
      subst hy1; subst hy2
      refine ⟨?_, hsz⟩
      rw [name_new, Heap.name, hxn]
      simp [arrDef, arrSuffix, Heap.name]
    · rw [kind_new] at hy; cases hy
    · rw [kind_new] at hy; cases hy

theorem ptr_post (hk : ∀ a b, key a = key b → a = b) (hM : Meaning P S) {w : World} (hg : Good key P S w) {x : TId} {c : CCT}
    (hx : Is P S c w x) : Post key P S w (getOrAdd key w (ptrDef w.1 x)) (Is P S (.ptr c)) := by
  obtain ⟨r1, f1, f2⟩ := hx
  obtain ⟨n1, n2, _, n4⟩ := hg.inv.reg_name r1
  have hda := hM.ptrName _ n2
  rw [f2] at hda
  have hxn : (w.1.alloc (ptrDef w.1 x)).get x = w.1.get x := alloc_get_old _ _ n4
  have hfx : Faithful P S (w.1.alloc (ptrDef w.1 x)) c x := f1.mono hg.clo (fun t ht => alloc_get_old _ _ ht) n4
  refine getOrAdd_post hk hM hg ?_ ?_ hda (.ptr (kind_new _ _) (by rw [size_new]; rfl) hfx) ?_
  · intro y hy
    simp only [ptrDef, Kind.deps, Kind.elem?, Option.toList, List.mem_singleton] at hy
    rw [hy]; exact n4
  · exact abs_app n2
  · refine ⟨fun m y hy => ?_, fun y hy => ?_, fun y hy => ?_⟩
    · rw [kind_new] at hy; cases hy
    · rw [kind_new] at hy
      injection hy with hy
      subst hy
      refine ⟨?_, by rw [size_new]; rfl⟩
      rw [name_new, Heap.name, hxn]
      rfl
    · rw [kind_new] at hy; cases hy

theorem addPointer_post (hk : ∀ a b, key a = key b → a = b) (hM : Meaning P S) : ∀ (l : Nat) {w : World} (_ : Good key P S w)
    {x : TId} {c : CCT}, Is P S c w x → Post key P S w (addPointer key l w x) (Is P S (ptrs l c)) := by
  intro l
  induction l with
  | zero =>
    intro w hg x c hx
    refine Post.ret hg ?_
    intro a ha
    injection ha with ha
    rw [← ha]; exact hx
  | succ l ih =>
    intro w hg x c hx
    rw [addPointer]
    have h := ptr_post hk hM hg hx
    generalize getOrAdd key w (ptrDef w.1 x) = o at h
    obtain ⟨w', r⟩ := o
    obtain ⟨h1, h2, h3⟩ := h
    cases r with
    | ok u =>
      obtain ⟨k1, k2, k3⟩ := ih h1 (h3 u rfl)
      exact ⟨k1, h2.trans k2, k3⟩
    | exn e => exact ⟨h1, h2, fun a ha => by cases ha⟩
    | ub => exact ⟨h1, h2, fun a ha => by cases ha⟩
    | fuel => exact ⟨h1, h2, fun a ha => by cases ha⟩

theorem applyMods_post (hk : ∀ a b, key a = key b → a = b) (hM : Meaning P S) : ∀ (ms : List Modifier) {w : World}
    (_ : Good key P S w) {x : TId} {c : CCT}, Is P S c w x → Post key P S w (applyMods key w x ms) (Is P S (applied ms c)) := by
  intro ms
  induction ms with
  | nil =>
    intro w hg x c hx
    refine Post.ret hg ?_
    intro a ha
    injection ha with ha
    rw [← ha]; exact hx
  | cons m ms ih =>
    intro w hg x c hx
    obtain ⟨c', hc', h⟩ : ∃ c', applied (m :: ms) c = applied ms c' ∧ Post key P S w (applyMod key w x m) (Is P S c') := by
      cases m with
      | ptr l => exact ⟨ptrs l c, rfl, addPointer_post hk hM l hg hx⟩
      | arr d => exact ⟨.arr (toSizeT d) c, rfl, arr_post hk hM hg hx d⟩
    rw [applyMods, hc']
    generalize applyMod key w x m = o at h
    obtain ⟨w', r⟩ := o
    obtain ⟨h1, h2, h3⟩ := h
    cases r with
    | ok u =>
      obtain ⟨k1, k2, k3⟩ := ih h1 (h3 u rfl)
      exact ⟨k1, h2.trans k2, k3⟩
    | exn e => exact ⟨h1, h2, fun a ha => by cases ha⟩
    | ub => exact ⟨h1, h2, fun a ha => by cases ha⟩
    | fuel => exact ⟨h1, h2, fun a ha => by cases ha⟩

/-- the base of a name is a part of it -/
theorem parseLoop_prefix : ∀ (f : Nat) (s : Str) (m : List Modifier) (b : Str) (ms : List Modifier),
    parseLoop f s m = .ok (b, ms) → b.length ≥ 2 ∧ b.reverse <:+ s := by
  intro f
  induction f with
  | zero => intro s m b ms h; cases h
  | succ f ih =>
    intro s m b ms h
    match s with
    | [] => cases h
    | [_] => cases h
    | c :: c2 :: r =>
      rw [parseLoop.eq_def] at h
      simp only at h
      split at h
      · split at h
        · cases h
        next x rest hd =>
          have hsuf : rest <:+ c :: c2 :: r := by
            have : x :: rest <:+ c2 :: r := by rw [← hd]; exact List.dropWhile_suffix _
            exact ((List.suffix_cons x rest).trans this).trans (List.suffix_cons c _)
          split at h
          next d _ =>
            obtain ⟨h1, h2⟩ := ih _ _ _ _ h
            exact ⟨h1, h2.trans hsuf⟩
          all_goals cases h
      · split at h
        · obtain ⟨h1, h2⟩ := ih _ _ _ _ h
          exact ⟨h1, h2.trans (List.suffix_cons _ _)⟩
        · split at h
          · obtain ⟨h1, h2⟩ := ih _ _ _ _ h
            exact ⟨h1, h2.trans (List.suffix_cons _ _)⟩
          · injection h with h
            injection h with h1 h2
            subst h1
            rw [List.reverse_reverse]
            exact ⟨by simp, List.suffix_refl _⟩

theorem parse_abs {n b : Str} {ms : List Modifier} (h : parseTypename n = .ok (b, ms)) (hn : isAbsoluteName n = true) :
    isAbsoluteName b = true := by
  obtain ⟨h1, h2⟩ := parseLoop_prefix _ _ _ _ _ h
  have h3 : b <+: n := by
    obtain ⟨t, ht⟩ := h2
    refine ⟨t.reverse, ?_⟩
    have := congrArg List.reverse ht
    simpa using this
  obtain ⟨t, rfl⟩ := h3
  cases b with
  | nil => simp at h1
  | cons c b => exact hn

/-- `Registry#build` -/
theorem rbBuild_post (hk : ∀ a b, key a = key b → a = b) (hM : Meaning P S) {w : World} (hg : Good key P S w) {n : Str}
    (hn : isAbsoluteName n = true) : Post key P S w (rbBuild key w n) (fun w' t => ∃ c, S.den n = some c ∧ Is P S c w' t) := by
  unfold rbBuild build
  cases hget : w.2.get n with
  | some t =>
    refine Post.ret hg ?_
    intro a ha
    injection ha with ha
    rw [← ha]
    rw [hg.inv.abs _ hn] at hget
    obtain ⟨c, hc, _⟩ := hg.honest _ _ hget
    exact ⟨c, hc, is_reg hg hget hc⟩
  | none =>
    have hfull : getFullName w.2 n = n := by unfold getFullName; rw [if_pos hn]
    simp only [hfull, buildName]
    cases hp : parseTypename n with
    | ok bm =>
      obtain ⟨b, ms⟩ := bm
      simp only
      cases hgb : w.2.get b with
      | none => exact Post.ret hg (fun a ha => by cases ha)
      | some t =>
        rw [hg.inv.abs _ (parse_abs hp hn)] at hgb
        obtain ⟨c, hc, _⟩ := hg.honest _ _ hgb
        have hread := hM.read _ _ _ hp
        rw [hc] at hread
        have h := applyMods_post hk hM ms hg (is_reg hg hgb hc)
        simp only [buildSpec]
        generalize applyMods key w t ms = o at h
        obtain ⟨w', r⟩ := o
        obtain ⟨h1, h2, h3⟩ := h
        cases r with
        | ok u =>
          refine ⟨h1, h2, ?_⟩
          intro a ha
          injection ha with ha
          rw [← ha]
          exact ⟨_, hread, h3 u rfl⟩
        | exn e => exact ⟨h1, h2, fun a ha => by cases ha⟩
        | ub => exact ⟨h1, h2, fun a ha => by cases ha⟩
        | fuel => exact ⟨h1, h2, fun a ha => by cases ha⟩
    | exn e => exact Post.ret hg (fun a ha => by cases ha)
    | ub => exact Post.ret hg (fun a ha => by cases ha)
    | fuel => exact Post.ret hg (fun a ha => by cases ha)

/-- `registry.alias(new, old)` -/
theorem rbAlias_post (hk : ∀ a b, key a = key b → a = b) (hM : Meaning P S) {w : World} (hg : Good key P S w) {new old : Str}
    (ho : isAbsoluteName old = true) (habs : isAbsoluteName new = true) {c : CCT} (hn : S.den new = some c)
    (hc : ∀ t, w.2.reg old = some t → S.den (w.1.name t) = some c) :
    Post key P S w ((w.1, (rbAlias key w.1 w.2 new old).1), (rbAlias key w.1 w.2 new old).2)
      (fun w' _ => w'.1 = w.1 ∧ ∃ t, w.2.reg old = some t ∧ w'.2.reg new = some t) := by
  have hA : Post key P S w ((w.1, (aliasAuto key w.1 w.2 old new []).1), (aliasAuto key w.1 w.2 old new []).2)
      (fun w' _ => w'.1 = w.1 ∧ ∃ t, w.2.reg old = some t ∧ w'.2.reg new = some t) := by
    unfold aliasAuto
    rw [hg.inv.abs old ho]
    cases hr : w.2.reg old with
    | none => exact ⟨hg, Ext.refl w, fun a h => by cases h⟩
    | some t =>
      obtain ⟨_, _, n3, n4⟩ := hg.inv.reg_name hr
      obtain ⟨⟨i1, i2, i3, i4, i5⟩, i6, i7⟩ := aliasF_spec hk hg.ac (w.1.next + 1) w.2 old new (isPersistent w.1 new t) [] t
        hg.inv habs (by rw [hg.inv.abs old ho]; exact hr) n3
      obtain ⟨_, f1, f2⟩ := is_reg hg n3 (hc t hr)
      obtain ⟨g2, e2⟩ := good_grow hM (H := w.1) (R := w.2) hg i1 i3 i4 (fun n u h => Or.inr (i5 n u h)) ⟨c, hn, f1, f2⟩ (hg.built t n3)
      exact ⟨g2, e2, fun a ha => ⟨rfl, t, rfl, (i6 ha).1⟩⟩
  unfold rbAlias
  generalize aliasAuto key w.1 w.2 old new [] = o at hA
  obtain ⟨R, r⟩ := o
  obtain ⟨h1, h2, h3⟩ := hA
  cases r with
  | ok u => exact ⟨h1, h2, h3⟩
  | exn e => cases e <;> exact ⟨h1, h2, fun a ha => by cases ha⟩
  | ub => exact ⟨h1, h2, fun a ha => by cases ha⟩
  | fuel => exact ⟨h1, h2, fun a ha => by cases ha⟩

/-- the `create` functions -/
theorem define_post (hk : ∀ a b, key a = key b → a = b) (hM : Meaning P S) {w : World} (hg : Good key P S w) {d : TypeDef}
    (hd : ∀ x ∈ d.kind.deps, x < w.1.next) (habs : isAbsoluteName d.name = true) {c : CCT} (hc : S.den d.name = some c)
    (hf : Faithful P S (w.1.alloc d) c w.1.next) (hb : Built (w.1.alloc d) w.1.next) :
    Post key P S w (define key w d) (fun w' t => w'.2.reg d.name = some t ∧ Is P S c w' t) := by
  unfold define
  have h := add_post hk hM hg hd habs ⟨c, hc, hf⟩ hb true
  generalize add key (w.1.alloc d) w.2 w.1.next true [] = A at h
  obtain ⟨R, r⟩ := A
  obtain ⟨h1, h2, h3⟩ := h
  cases r with
  | ok u =>
    refine ⟨h1, h2, ?_⟩
    intro a ha
    injection ha with ha
    rw [← ha]
    have := (h3 u rfl).2
    refine ⟨this, is_reg h1 this hc⟩
  | exn e => exact ⟨h1, h2, fun a ha => by cases ha⟩
  | ub => exact ⟨h1, h2, fun a ha => by cases ha⟩
  | fuel => exact ⟨h1, h2, fun a ha => by cases ha⟩

theorem vector_post (hk : ∀ a b, key a = key b → a = b) (hM : Meaning P S) {w : World} (hg : Good key P S w) {e : TId}
    {c : CCT} (he : Is P S c w e) :
    Post key P S w (Clang.onM (vectorFactory key ⟨w.1, w.2, []⟩ e)) (Is P S (.vec c)) := by
  obtain ⟨hreg, hf, hd⟩ := he
  obtain ⟨n1, n2, _, n4⟩ := hg.inv.reg_name hreg
  have hdv := hM.vecName _ ⟨n1, n2⟩
  rw [hd] at hdv
  have habs : isAbsoluteName (Merge.vecName (w.1.name e)) = true := by unfold Merge.vecName; rw [List.append_assoc]; exact abs_app rfl
  rw [Clang.onM_vector]
  cases TypeBuilder.has w.2 (Merge.vecName (w.1.name e)) true with
  | ok b =>
    simp only [Clang.thenW]
    cases b with
    | false =>
      simp only [Bool.not_false, if_true, Clang.addNew, addAuto]
      have hen : (w.1.alloc (vecDef w.1 e)).get e = w.1.get e := alloc_get_old _ _ n4
      have hfv : Faithful P S (w.1.alloc (vecDef w.1 e)) (.vec c) w.1.next :=
        .vec (kind_new _ _) (size_new _ _) (hf.mono hg.clo (fun t ht => alloc_get_old _ _ ht) n4)
      have h := add_post hk hM hg (d := vecDef w.1 e) ?_ habs ⟨_, hdv, hfv⟩ ?_
        (isPersistent (w.1.alloc (vecDef w.1 e)) ((w.1.alloc (vecDef w.1 e)).name w.1.next) w.1.next)
      · generalize add key (w.1.alloc (vecDef w.1 e)) w.2 w.1.next
          (isPersistent (w.1.alloc (vecDef w.1 e)) ((w.1.alloc (vecDef w.1 e)).name w.1.next) w.1.next) [] = A at h
        obtain ⟨R, r⟩ := A
        obtain ⟨h1, h2, h3⟩ := h
        cases r with
        | ok u =>
          refine ⟨h1, h2, ?_⟩
          intro a ha
          injection ha with ha
          rw [← ha]
          exact is_reg h1 (h3 u rfl).2 hdv
        | exn e => exact ⟨h1, h2, fun a ha => by cases ha⟩
        | ub => exact ⟨h1, h2, fun a ha => by cases ha⟩
        | fuel => exact ⟨h1, h2, fun a ha => by cases ha⟩
      · intro y hy
        simp only [vecDef, Kind.deps, Kind.elem?, Option.toList, List.mem_singleton] at hy
        rw [hy]; exact n4
      · refine ⟨fun m y hy => ?_, fun y hy => ?_, fun y hy => ?_⟩
        · rw [kind_new] at hy; cases hy
        · rw [kind_new] at hy; cases hy
        · rw [kind_new] at hy
          injection hy with hy
          subst hy
          refine ⟨?_, size_new _ _⟩
          rw [name_new, Heap.name, hen]; rfl
    | true =>
      simp only [Bool.not_true, Bool.false_eq_true, if_false]
      cases hget : w.2.get (Merge.vecName (w.1.name e)) with
      | none => exact ⟨hg, Ext.refl w, fun a h => by cases h⟩
      | some t =>
        simp only
        rw [hg.inv.abs _ habs] at hget
        split
        · refine Post.ret hg ?_
          intro a ha
          injection ha with ha
          rw [← ha]
          exact is_reg hg hget hdv
        · exact ⟨hg, Ext.refl w, fun a h => by cases h⟩
  | exn e => exact ⟨hg, Ext.refl w, fun a h => by cases h⟩
  | ub => exact ⟨hg, Ext.refl w, fun a h => by cases h⟩
  | fuel => exact ⟨hg, Ext.refl w, fun a h => by cases h⟩

end Verif.Gccxml
