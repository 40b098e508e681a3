import Verif.TlbParts
import Verif.MergeSpec

/-! Property C38, fourth part: the registry that is exported, and registries that agree with it. -/

namespace Verif.Tlb
open Verif Verif.Names Verif.Graph Verif.Registry Verif.TypeBuilder Verif.StdMap Verif.Merge Verif.Xml

/-! ### Specification -/

/-- What the file format can hold: arrays, pointers, vectors and strings have the name and size their constructors
give them (containers may have another size), enums are as large as a C++ `enum`, fields are sorted by offset, then by
name, numbers fit their C++ type. -/
def Storable (H : Heap) (u : TId) : Prop :=
  H.size u < TypeBuilder.W ∧
  match H.kind u with
  | .null => H.size u = 0
  | .opaque => True
  | .num _ => True
  | .enum s => H.size u = 4 ∧ MSorted s ∧ ∀ p ∈ s, -(2 ^ 31 : Int) ≤ p.2 ∧ p.2 < 2 ^ 31
  | .arr d e => H.get u = arrDef H e d ∧ d < 2 ^ 31
  | .ptr e => H.get u = ptrDef H e
  | .vec e => H.name u = vecName (H.name e) ∧ 0 < H.size u ∧ H.size u < 2 ^ 31
  | .str e => H.name u = stringName ∧ H.name e = int8Name ∧ 0 < H.size u ∧ H.size u < 2 ^ 31
  | .comp fs => (∀ f ∈ fs, f.offset < TypeBuilder.W) ∧ fs.Pairwise CompoundModel.fieldLe

/-- The registry that is exported: types are made of registered types, without cycles; a name that ends like an array
or a pointer is the name of an array or pointer of what the rest designates; aliases are propagated (C25). -/
structure Src (key : Char → Int) (H : Heap) (R : Reg) (rank : TId → Nat) : Prop where
  inv : Inv key H R
  deps : ∀ t d, R.regd H t → d ∈ H.deps t → R.regd H d ∧ rank d < rank t
  stor : ∀ u, R.regd H u → Storable H u
  names : ∀ n t, R.reg n = some t → BaseName n ∨ ∃ b m x, n = b ++ Decl.text m ∧ R.reg b = some x ∧ H.kind t = m.kind x
  prop : ∀ n x u ind, R.reg n = some x → n ≠ H.name x → R.regd H u → (H.kind u).indirectName = some ind →
    (H.kind u).elem? = some x → R.reg (ind n) = some u

/-- The registry `(H, R)` is consistent, and all it knows is known by `(Hs, Rs)`, with the same definition. -/
structure Within (key : Char → Int) (Hs : Heap) (Rs : Reg) (H : Heap) (R : Reg) : Prop where
  inv : Inv key H R
  ac : Acyclic H
  wf : WF H
  sim : ∀ n t, R.reg n = some t → ∃ u, Rs.reg n = some u ∧ definition H t = definition Hs u
  closed : ∀ t d, R.regd H t → d ∈ H.deps t → R.regd H d

/-! ### Proof -/

variable {key : Char → Int} {Hs : Heap} {Rs : Reg} {rank : TId → Nat}

theorem Src.decl (hs : Src key Hs Rs rank) {u x : TId} {m : Decl} (hu : Rs.regd Hs u) (hk : Hs.kind u = m.kind x) :
    Hs.get u = m.defOf Hs x ∧ m.Fits := by
  have := (hs.stor u hu).2
  cases m with
  | ptr =>
    rw [show Hs.kind u = .ptr x from hk] at this
    exact ⟨this, trivial⟩
  | arr d =>
    rw [show Hs.kind u = .arr d x from hk] at this
    exact ⟨this.1, this.2⟩

theorem Decl.deps (m : Decl) (x : TId) : (m.kind x).deps = [x] := by cases m <;> rfl

theorem Src.decl_elem (hs : Src key Hs Rs rank) {u x : TId} {m : Decl} (hu : Rs.regd Hs u) (hk : Hs.kind u = m.kind x) :
    Rs.regd Hs x ∧ rank x < rank u :=
  hs.deps u x hu (by unfold Heap.deps; rw [hk, Decl.deps]; simp)

theorem desc_same {nm nm' : TId → Str} {k k' : Kind} (h : Kind.desc nm k = Kind.desc nm' k') :
    k.indirectName = k'.indirectName ∧ k.elem?.map nm = k'.elem?.map nm' := by
  cases k <;> cases k' <;> simp_all [Kind.desc, Kind.indirectName, Kind.elem?]

theorem definition_parts {H : Heap} {t u : TId} (h : definition H t = definition Hs u) :
    H.name t = Hs.name u ∧ H.size t = Hs.size u ∧ Kind.desc H.name (H.kind t) = Kind.desc Hs.name (Hs.kind u) := by
  unfold definition at h
  exact ⟨congrArg Prod.fst h, congrArg (fun p => p.2.1) h, congrArg (fun p => p.2.2) h⟩

/-- registered objects with the same name are the same -/
theorem regd_inj {H : Heap} {R : Reg} {t u : TId} (ht : R.regd H t) (hu : R.regd H u) (h : H.name t = H.name u) : t = u := by
  unfold Reg.regd at ht hu
  rw [h, hu] at ht
  cases ht
  rfl

/-- names derived from aliases are names of the source -/
theorem grow_sim (hs : Src key Hs Rs rank) {H : Heap} {R' : Reg} (hac : Acyclic H)
    (hprim : ∀ t, R'.reg (H.name t) = some t → ∃ u, Rs.regd Hs u ∧ definition H t = definition Hs u)
    (hcases : ∀ n t, R'.reg n = some t → (∃ u, Rs.reg n = some u ∧ definition H t = definition Hs u) ∨ Derived H R' n t) :
    (∀ n t, R'.reg n = some t → ∃ u, Rs.reg n = some u ∧ definition H t = definition Hs u) ∧
    (∀ n t, Derived H R' n t → ∃ u, Rs.reg n = some u ∧ definition H t = definition Hs u) := by
  have main : ∀ t n, (R'.reg n = some t ∨ Derived H R' n t) → ∃ u, Rs.reg n = some u ∧ definition H t = definition Hs u := by
    intro t
    induction t using Nat.strongRecOn with
    | ind t ih =>
      intro n hn
      have hd : (∃ u, Rs.reg n = some u ∧ definition H t = definition Hs u) ∨ Derived H R' n t := by
        rcases hn with hn | hn
        · exact hcases n t hn
        · exact Or.inr hn
      rcases hd with h | ⟨ind, x, a, e1, e2, e3, e4, e5, e6⟩
      · exact h
      · obtain ⟨us, h1, h2⟩ := hprim t e6
        obtain ⟨xs, h3, h4⟩ := ih x (hac t x e2) a (Or.inl e4)
        obtain ⟨_, _, hdesc⟩ := definition_parts h2
        obtain ⟨hname, _, _⟩ := definition_parts h4
        obtain ⟨hi, he⟩ := desc_same hdesc
        rw [e1] at hi
        rw [e2] at he
        obtain ⟨es, h5, h6⟩ : ∃ es, (Hs.kind us).elem? = some es ∧ Hs.name es = H.name x := by
          cases h : (Hs.kind us).elem? with
          | none => rw [h] at he; cases he
          | some es => rw [h] at he; exact ⟨es, rfl, (Option.some.inj he).symm⟩
        have hes : Rs.regd Hs es := (hs.deps us es h1 (elem_mem_deps h5)).1
        have hxs : Rs.regd Hs xs := (hs.inv.reg_name h3).2.2.1
        have : es = xs := regd_inj hes hxs (by rw [h6, hname])
        subst this
        rw [hname] at e5
        rw [e3]
        exact ⟨us, hs.prop a es us ind h3 e5 h1 hi.symm h5, h2⟩
  exact ⟨fun n t h => main t n (Or.inl h), fun n t h => main t n (Or.inr h)⟩

/-- the rest of a registry after an operation -/
structure Ext (Hs : Heap) (Rs : Reg) (rank : TId → Nat) (r : Nat) (H : Heap) (R : Reg) (H' : Heap) (R' : Reg) : Prop where
  next : H.next ≤ H'.next
  get : ∀ t, t < H.next → H'.get t = H.get t
  ext : ∀ n t, R.reg n = some t → R'.reg n = some t
  fresh : ∀ v, Rs.regd Hs v → R.reg (Hs.name v) = none → R'.reg (Hs.name v) = none ∨ rank v < r
  back : ∀ t, t < H.next → R'.regd H' t → R.regd H t

theorem Ext.refl {r : Nat} (H : Heap) (R : Reg) : Ext Hs Rs rank r H R H R :=
  ⟨Nat.le_refl _, fun _ _ => rfl, fun _ _ h => h, fun _ _ h => Or.inl h, fun _ _ h => h⟩

theorem Ext.trans {r r' r'' : Nat} {H H' H'' : Heap} {R R' R'' : Reg} (h : Ext Hs Rs rank r H R H' R')
    (h' : Ext Hs Rs rank r' H' R' H'' R'') (h1 : r ≤ r'') (h2 : r' ≤ r'') : Ext Hs Rs rank r'' H R H'' R'' := by
  refine ⟨Nat.le_trans h.next h'.next, ?_, fun n t x => h'.ext n t (h.ext n t x), ?_,
    fun t ht x => h.back t ht (h'.back t (Nat.lt_of_lt_of_le ht h.next) x)⟩
  · intro t ht
    rw [h'.get t (Nat.lt_of_lt_of_le ht h.next), h.get t ht]
  · intro v hv hn
    rcases h.fresh v hv hn with e | e
    · rcases h'.fresh v hv e with e' | e'
      · exact Or.inl e'
      · exact Or.inr (Nat.lt_of_lt_of_le e' h2)
    · exact Or.inr (Nat.lt_of_lt_of_le e h1)

theorem Ext.mono {r r' : Nat} {H H' : Heap} {R R' : Reg} (h : Ext Hs Rs rank r H R H' R') (hr : r ≤ r') :
    Ext Hs Rs rank r' H R H' R' := h.trans (Ext.refl (r := r') H' R') hr (Nat.le_refl _)

theorem Within.abs {H : Heap} {R : Reg} (h : Within key Hs Rs H R) {n : Str} (hn : isAbsoluteName n = true) :
    R.get n = R.reg n := h.inv.abs n hn

theorem Src.abs (hs : Src key Hs Rs rank) {n : Str} {u : TId} (h : Rs.reg n = some u) : isAbsoluteName n = true :=
  (hs.inv.reg_name h).2.1

/-- a type of the source that is registered has the same definition -/
theorem Within.def_eq {H : Heap} {R : Reg} (h : Within key Hs Rs H R) {n : Str} {t u : TId} (ht : R.reg n = some t)
    (hu : Rs.reg n = some u) : definition H t = definition Hs u := by
  obtain ⟨v, h1, h2⟩ := h.sim n t ht
  rw [hu] at h1
  cases h1
  exact h2

/-- Adding a fresh object. `d0` is the object when it is added, `d` what it is in the end: only the size may differ. -/
theorem within_add (hk : ∀ a b, key a = key b → a = b) (hs : Src key Hs Rs rank) {H : Heap} {R : Reg}
    (h : Within key Hs Rs H R) {d0 d : TypeDef} (hnm : d0.name = d.name) (hkd : d0.kind = d.kind) {u : TId}
    (hu : Rs.regd Hs u) (hdeps : ∀ x ∈ d.kind.deps, R.regd H x)
    (hsy : ∀ s, d.kind = .enum s → (s.map (·.1)).Nodup)
    (hdef : (d.name, d.size, Kind.desc H.name d.kind) = definition Hs u) (hnone : R.reg (Hs.name u) = none) (src : Str) :
    let o := addAuto key (H.alloc d0) R H.next src
    o.2 = .ok () ∧ Within key Hs Rs (H.alloc d) o.1 ∧ o.1.reg (Hs.name u) = some H.next ∧
    Ext Hs Rs rank (rank u + 1) H R (H.alloc d) o.1 := by
  intro o
  have hlt : ∀ x ∈ d.kind.deps, x < H.next := fun x hx => (h.inv.reg_name (hdeps x hx)).2.2.2
  have hdn : d.name = Hs.name u := congrArg Prod.fst hdef
  have hname0 : ∀ t, (H.alloc d0).name t = (H.alloc d).name t := by
    intro t
    unfold Heap.name Heap.alloc
    simp only
    split
    · exact hnm
    · rfl
  have hkind0 : ∀ t, (H.alloc d0).kind t = (H.alloc d).kind t := by
    intro t
    unfold Heap.kind Heap.alloc
    simp only
    split
    · exact hkd
    · rfl
  have hold : ∀ t, t < H.next → (H.alloc d).name t = H.name t := by
    intro t ht
    unfold Heap.name
    rw [alloc_get_old _ _ ht]
  have hnew : (H.alloc d).name H.next = Hs.name u := by
    unfold Heap.name
    rw [alloc_get_new]; exact hdn
  have hinv0 : Inv key (H.alloc d0) R := h.inv.heap (Nat.le_succ _) (fun t ht _ => by rw [hname0, hold t ht])
  have hac0 : Acyclic (H.alloc d0) := acyclic_alloc h.ac (fun x hx => hlt x (by rw [← hkd]; exact elem_mem_deps hx))
  have hac1 : Acyclic (H.alloc d) := acyclic_alloc h.ac (fun x hx => hlt x (elem_mem_deps hx))
  have hwf1 := wf_alloc h.wf hlt hsy
  obtain ⟨⟨a1, a2, a3, a4, a5⟩, b, c⟩ := add_spec hk hac0 hinv0 H.next (Nat.lt_succ_self _)
    (by rw [hname0, hnew]; exact hs.abs hu) (isPersistent (H.alloc d0) ((H.alloc d0).name H.next) H.next) src
  have ho : o = add key (H.alloc d0) R H.next (isPersistent (H.alloc d0) ((H.alloc d0).name H.next) H.next) src := rfl
  rw [← ho] at a1 a2 a3 a4 a5 b c
  simp only [hname0, hnew] at a4 a5 b c
  have hregd : ∀ (R : Reg) (t : TId), t < H.next → (R.reg ((H.alloc d).name t) = some t ↔ R.regd H t) := by
    intro R t ht
    rw [hold t ht]; rfl
  have hnr : ∀ t, R.reg ((H.alloc d).name t) = some t → R.regd H t := by
    intro t ht
    have : t < H.next := by
      obtain ⟨e, hm, rfl⟩ := reg_mem ht
      exact h.inv.alloc _ hm
    exact (hregd R t this).mp ht
  have hold' : ∀ t, o.1.reg ((H.alloc d).name t) = some t → t = H.next ∨ R.regd H t := by
    intro t ht
    cases hr : R.reg ((H.alloc d).name t) with
    | none =>
      rcases a5 _ t ⟨hr, ht⟩ with e | e
      · exact Or.inl e
      · exact Or.inr (hnr t e)
    | some v =>
      have := a3 _ _ hr
      rw [ht] at this
      cases this
      exact Or.inr (hnr t hr)
  have hdef1 : definition (H.alloc d) H.next = definition Hs u := by rw [definition_alloc_new hlt, hdef]
  have hprim : ∀ t, o.1.reg ((H.alloc d).name t) = some t → ∃ v, Rs.regd Hs v ∧ definition (H.alloc d) t = definition Hs v := by
    intro t ht
    rcases hold' t ht with e | e
    · subst e; exact ⟨u, hu, hdef1⟩
    · obtain ⟨v, h1, h2⟩ := h.sim _ t e
      refine ⟨v, ?_, ?_⟩
      · exact (hs.inv.reg_name h1).2.2.1
      · rw [definition_alloc_old h.wf (h.inv.reg_name e).2.2.2]; exact h2
  have hder : ∀ n t, Derived (H.alloc d0) o.1 n t → Derived (H.alloc d) o.1 n t := by
    rintro n t ⟨ind, x, a, e1, e2, e3, e4, e5, e6⟩
    rw [hkind0] at e1 e2
    rw [hname0] at e5 e6
    exact ⟨ind, x, a, e1, e2, e3, e4, e5, e6⟩
  have hcases : ∀ n t, o.1.reg n = some t →
      (∃ v, Rs.reg n = some v ∧ definition (H.alloc d) t = definition Hs v) ∨ Derived (H.alloc d) o.1 n t := by
    intro n t hn
    cases hr : R.reg n with
    | some v =>
      have := a3 _ _ hr
      rw [hn] at this
      cases this
      obtain ⟨v, h1, h2⟩ := h.sim _ t hr
      exact Or.inl ⟨v, h1, by rw [definition_alloc_old h.wf (h.inv.reg_name hr).2.2.2]; exact h2⟩
    | none =>
      rcases a4 n t ⟨hr, hn⟩ with ⟨e1, e2⟩ | e
      · subst e1 e2
        exact Or.inl ⟨u, hu, hdef1⟩
      · exact Or.inr (hder n t e)
  obtain ⟨g1, g2⟩ := grow_sim hs hac1 hprim hcases
  have hok : o.2 = .ok () := by
    rcases c with c | c | c | c
    · exact c
    · exfalso
      have := (hs.inv.reg_name hu).1
      rw [c.2.2] at this; cases this
    · exfalso
      obtain ⟨v, hv, _⟩ := c.2.2
      rw [hnone] at hv; cases hv
    · exfalso
      obtain ⟨n, v, h1, h2⟩ := c.2.2
      obtain ⟨w, h3, _⟩ := g2 n v (hder n v h1)
      rw [(hs.inv.reg_name h3).1] at h2; cases h2
  obtain ⟨b1, _, _⟩ := b hok
  refine ⟨hok, ⟨?_, hac1, hwf1, g1, ?_⟩, b1, ⟨Nat.le_succ _, fun t ht => alloc_get_old _ _ ht, a3, ?_, ?_⟩⟩
  · exact a1.heap (Nat.le_refl _) (fun t _ _ => (hname0 t).symm)
  · intro t x ht hx
    have hd' : R.regd H x := by
      rcases hold' t ht with e | e
      · subst e
        unfold Heap.deps Heap.kind at hx
        rw [alloc_get_new] at hx
        exact hdeps x hx
      · refine h.closed t x e ?_
        unfold Heap.deps Heap.kind at hx ⊢
        rw [alloc_get_old _ _ (h.inv.reg_name e).2.2.2] at hx
        exact hx
    unfold Reg.regd
    rw [hold x (h.inv.reg_name hd').2.2.2]
    exact a3 _ _ hd'
  · intro v hv hn
    cases hr : o.1.reg (Hs.name v) with
    | none => exact Or.inl rfl
    | some t =>
      right
      have hdt := g1 _ _ hr
      obtain ⟨v', h1, h2⟩ := hdt
      have : v' = v := by
        have h3 : Rs.reg (Hs.name v) = some v := hv
        rw [h3] at h1; cases h1; rfl
      subst this
      have hnt := (definition_parts h2).1
      rcases hold' t (by rw [hnt]; exact hr) with e | e
      · subst e
        have : v' = u := regd_inj hv hu (by rw [← hnt, hnew])
        rw [this]
        exact Nat.lt_succ_self _
      · exfalso
        unfold Reg.regd at e
        rw [← hold t (h.inv.reg_name e).2.2.2, hnt, hn] at e
        cases e
  · intro t ht hr
    rcases hold' t hr with e | e
    · rw [e] at ht; exact absurd ht (Nat.lt_irrefl _)
    · exact e

/-- Aliasing a name of the source to the type it designates there. -/
theorem within_alias (hk : ∀ a b, key a = key b → a = b) (hs : Src key Hs Rs rank) {H : Heap} {R : Reg}
    (h : Within key Hs Rs H R) {base new : Str} {t u : TId} (hb : R.get base = some t) (hu : Rs.reg new = some u)
    (hdef : definition H t = definition Hs u) (r : Nat) :
    let o := aliasAuto key H R base new []
    o.2 = .ok () ∧ Within key Hs Rs H o.1 ∧ o.1.reg new = some t ∧ Ext Hs Rs rank r H R H o.1 := by
  intro o
  have ht : R.regd H t := h.inv.get_regd hb
  have ho : o = aliasF key H (H.next + 1) R base new (isPersistent H new t) [] := by
    show aliasAuto key H R base new [] = _
    unfold aliasAuto alias
    rw [hb]
  obtain ⟨⟨a1, a2, a3, a4, a5⟩, b, c⟩ := aliasF_spec hk h.ac (H.next + 1) R base new (isPersistent H new t) [] t h.inv
    (hs.abs hu) hb ht
  rw [← ho] at a1 a2 a3 a4 a5 b c
  have hold' : ∀ v, o.1.reg (H.name v) = some v → R.regd H v := by
    intro v hv
    cases hr : R.reg (H.name v) with
    | none => have := a5 _ v ⟨hr, hv⟩; rw [hr] at this; cases this
    | some w =>
      have := a3 _ _ hr
      rw [hv] at this
      cases this
      exact hr
  have hprim : ∀ v, o.1.reg (H.name v) = some v → ∃ w, Rs.regd Hs w ∧ definition H v = definition Hs w := by
    intro v hv
    obtain ⟨w, h1, h2⟩ := h.sim _ v (hold' v hv)
    exact ⟨w, (hs.inv.reg_name h1).2.2.1, h2⟩
  have hcases : ∀ n v, o.1.reg n = some v →
      (∃ w, Rs.reg n = some w ∧ definition H v = definition Hs w) ∨ Derived H o.1 n v := by
    intro n v hn
    cases hr : R.reg n with
    | some w =>
      have := a3 _ _ hr
      rw [hn] at this
      cases this
      exact Or.inl (h.sim _ v hr)
    | none =>
      rcases a4 n v ⟨hr, hn⟩ with ⟨e1, e2⟩ | e
      · subst e1 e2
        exact Or.inl ⟨u, hu, hdef⟩
      · exact Or.inr e
  obtain ⟨g1, g2⟩ := grow_sim hs h.ac hprim hcases
  have hok : o.2 = .ok () := by
    cases e : o.2 with
    | ok x => rfl
    | exn x =>
      exfalso
      rw [e] at c
      rcases c with ⟨_, ⟨c1, _⟩ | ⟨n, v, h1, h2⟩⟩ | ⟨_, _, v, h1, h2⟩
      · rw [(hs.inv.reg_name hu).1] at c1; cases c1
      · obtain ⟨w, h3, _⟩ := g2 n v h1
        rw [(hs.inv.reg_name h3).1] at h2; cases h2
      · have h3 := h.def_eq h1 hu
        have h4 := (h.inv.reg_name h1).2.2.1
        exact h2 (regd_inj h4 ht (by rw [(definition_parts h3).1, (definition_parts hdef).1]))
    | ub => rw [e] at c; exact absurd c id
    | fuel =>
      rw [e] at c
      exact absurd (c (by have := (h.inv.reg_name ht).2.2.2; show @LT.lt Nat _ _ _; omega)) id
  obtain ⟨b1, _⟩ := b hok
  refine ⟨hok, ⟨a1, h.ac, h.wf, g1, ?_⟩, b1, ⟨Nat.le_refl _, fun _ _ => rfl, a3, ?_, fun v _ hv => hold' v hv⟩⟩
  · intro v x hv hx
    exact a3 _ _ (h.closed v x (hold' v hv) hx)
  · intro v hv hn
    left
    cases hr : o.1.reg (Hs.name v) with
    | none => rfl
    | some w =>
      exfalso
      obtain ⟨v', h1, h2⟩ := g1 _ _ hr
      have : v' = v := by
        have h3 : Rs.reg (Hs.name v) = some v := hv
        rw [h3] at h1; cases h1; rfl
      subst this
      have hnt := (definition_parts h2).1
      have := hold' w (by rw [hnt]; exact hr)
      unfold Reg.regd at this
      rw [hnt, hn] at this
      cases this

end Verif.Tlb
