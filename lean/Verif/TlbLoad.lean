import Verif.TlbImport

/-! Property C38, seventh part: the loaders, `build`, and the whole import. -/

namespace Verif.Tlb
open Verif Verif.Names Verif.Graph Verif.Registry Verif.TypeBuilder Verif.StdMap Verif.Merge Verif.Xml

variable {key : Char → Int} {Hs : Heap} {Rs : Reg} {rank : TId → Nat} {Ms : Metas} {L : List (Str × Entry)} {N0 : Nat}
  {M0 : Metas}

theorem setSize_alloc (H : Heap) (n : Str) (a b : Nat) (k : Kind) :
    setSize (H.alloc ⟨n, a, k⟩) H.next b = H.alloc ⟨n, b, k⟩ := by
  unfold setSize Heap.alloc
  simp only [if_true]
  congr 1
  funext t
  split <;> rfl

/-- types made of nothing else -/
theorem leaf_spec (hk : ∀ a b, key a = key b → a = b) (hs : Src key Hs Rs rank) (hw : Wanted Hs Rs Ms L)
    {rec : ISt → Str → ISt × Res TId} {pend : Str → Prop} {s : ISt} (h : St key Hs Rs Ms L N0 M0 pend s) {u : TId}
    (hu : Rs.regd Hs u) (hleaf : (Hs.kind u).deps = [])
    (hnone : s.R.reg (Hs.name u) = none) {n : TNode}
    (hn : n.xml = typeNode (definition Hs u) (Ms.own u) (Ms.fields u) n.file)
    (hl : n.loader = descLoader (definition Hs u).2.2) (hcomp : ∀ fs, Hs.kind u ≠ .comp fs) :
    Made key Hs Rs rank Ms L N0 M0 pend s u (load key rec s (Hs.name u) n) := by
  have hst := hs.stor u hu
  unfold Storable at hst
  unfold definition at hn hl
  have hc : ∀ fs, Hs.kind u = .comp fs → s.md.fields s.H.next = Ms.fields u := fun fs e => absurd e (hcomp fs)
  cases hkd : Hs.kind u with
  | null =>
    rw [hkd] at hst hn hl
    have e : load key rec s (Hs.name u) n = loadNull key s (Hs.name u) n := by unfold load; rw [hl]; rfl
    rw [e]
    refine insert_spec hk hs hw h hu (n := n) (pre := []) (by simp) (by rw [hn]; rfl) (d := ⟨Hs.name u, 0, .null⟩) (by intro x hx; cases hx) (by simp) ?_ hnone hc
    unfold definition
    rw [hkd, hst.2]
    rfl
  | «opaque» =>
    rw [hkd] at hst hn hl
    have e : load key rec s (Hs.name u) n = loadOpaque key s (Hs.name u) n := by unfold load; rw [hl]; rfl
    rw [e]
    unfold loadOpaque
    have hsz : getSizeAttr n.xml "size" = .ok (Hs.size u) := by rw [hn]; exact castSize_natStr hst.1
    rw [hsz]
    simp only [pureRes, bind'_ok]
    refine insert_spec hk hs hw h hu (n := n) (pre := []) (by simp) (by rw [hn]; rfl) (d := ⟨Hs.name u, Hs.size u, .opaque⟩) (by intro x hx; cases hx) (by simp) ?_ hnone hc
    unfold definition
    rw [hkd]
    rfl
  | num c =>
    rw [hkd] at hst hn hl
    have e : load key rec s (Hs.name u) n = loadNumeric key s (Hs.name u) n := by unfold load; rw [hl]; rfl
    rw [e]
    unfold loadNumeric
    have hsz : getSizeAttr n.xml "size" = .ok (Hs.size u) := by rw [hn]; exact castSize_natStr hst.1
    have hcat : (getAttr n.xml "category" >>= catOf) = .ok c := by
      rw [hn]
      cases c <;> rfl
    rw [hsz, hcat]
    simp only [pureRes, bind'_ok]
    refine insert_spec hk hs hw h hu (n := n) (pre := []) (by simp) (by rw [hn]; rfl) (d := ⟨Hs.name u, Hs.size u, .num c⟩) (by intro x hx; cases hx) (by simp) ?_ hnone hc
    unfold definition
    rw [hkd]
    rfl
  | enum syms =>
    rw [hkd] at hst hn hl
    have e : load key rec s (Hs.name u) n = loadEnum key s (Hs.name u) n := by unfold load; rw [hl]; rfl
    rw [e]
    unfold loadEnum
    have hch : Node.children n.xml = syms.map symbolNode ++ metaNodes (Ms.own u) := by rw [hn]; rfl
    obtain ⟨last, hl'⟩ := loadSymbols_nodes (metaNodes (Ms.own u)) (fun x hx => by rw [metaNodes_name _ x hx]; decide) syms (-1) []
      (by rw [List.nil_append]; exact hst.2.2.1) hst.2.2.2
    rw [hch, hl']
    simp only [pureRes, bind'_ok, List.nil_append]
    refine insert_spec hk hs hw h hu (n := n) (pre := syms.map symbolNode) ?_ hch (d := ⟨Hs.name u, 4, .enum syms⟩) (by intro x hx; cases hx) ?_ ?_ hnone hc
    · intro x hx
      obtain ⟨p, _, rfl⟩ := List.mem_map.mp hx
      show "value".toList ≠ "metadata".toList
      decide
    · intro l hl
      cases hl
      unfold List.Nodup
      rw [List.pairwise_map]
      refine hst.2.2.1.imp ?_
      intro a b hab e
      rw [e, strLt_irrefl] at hab
      cases hab
    · unfold definition
      rw [hkd, hst.2.1]
      rfl
  | arr d e => rw [hkd] at hleaf; cases hleaf
  | ptr e => rw [hkd] at hleaf; cases hleaf
  | vec e => rw [hkd] at hleaf; cases hleaf
  | str e => rw [hkd] at hleaf; cases hleaf
  | comp fs => exact absurd hkd (hcomp fs)

/-- what the two factories do when the container is not known -/
theorem create_spec (hs : Src key Hs Rs rank) {H : Heap} {R : Reg} (h : Within key Hs Rs H R) {u x e : TId}
    (hu : Rs.regd Hs u) (hx : (Hs.kind u).elem? = some x) (hv : Hs.kind u = .vec x ∨ Hs.kind u = .str x)
    (he : R.regd H e) (hd : definition H e = definition Hs x) (hnone : R.reg (Hs.name u) = none) :
    ∃ kind d0 k, (definition Hs u).2.2 = Kind.desc H.name k ∧ d0 = ⟨Hs.name u, d0.size, k⟩ ∧ k.deps = [e] ∧ (∀ l, k ≠ .enum l) ∧
      (∀ own fms src, Node.attr (typeNode (definition Hs u) own fms src) "kind" = some kind) ∧
      ((addAuto key (H.alloc d0) R H.next []).2 = .ok () →
        createContainer key ⟨H, R, []⟩ kind e = (⟨H.alloc d0, (addAuto key (H.alloc d0) R H.next []).1, []⟩, .ok H.next)) := by
  have hst := hs.stor u hu
  unfold Storable at hst
  have hg : R.get (Hs.name u) = none := by rw [h.abs (hs.abs hu)]; exact hnone
  have hn := (definition_parts hd).1
  rcases hv with hv | hv
  · rw [hv] at hst
    have hname : vecName (H.name e) = Hs.name u := by rw [hn, hst.2.1]
    refine ⟨vectorKind, vecDef H e, .vec e, ?_, ?_, rfl, by simp, ?_, ?_⟩
    · unfold definition; rw [hv]; show Desc.vec _ = Desc.vec _; rw [hn]
    · unfold vecDef; rw [hname]
    · intro own fms src
      unfold definition; rw [hv]; rfl
    · intro ha
      have hh : TypeBuilder.has R (vecName (H.name e)) true = .ok false := by
        rw [has_base (baseName_vec _) (by rw [hname]; exact hs.abs hu), hname, hg]
        rfl
      unfold createContainer
      rw [if_pos rfl]
      unfold vectorFactory
      simp only [hasM, hh, andThen_ok, Bool.not_false, if_true, onReg, MSt.new]
      rw [ha]
      rfl
  · rw [hv] at hst
    have hne : H.name e = int8Name := by rw [hn, hst.2.2.1]
    have hint : R.get int8Name = some e := by
      rw [h.abs (by decide), ← hne]; exact he
    refine ⟨stringKind, ⟨stringName, 32, .str e⟩, .str e, ?_, ?_, rfl, by simp, ?_, ?_⟩
    · unfold definition; rw [hv]; show Desc.str _ = Desc.str _; rw [hn]
    · rw [hst.2.1]
    · intro own fms src
      unfold definition; rw [hv]; rfl
    · intro ha
      have hh : TypeBuilder.has R stringName true = .ok false := by
        rw [has_base baseName_string (by decide), ← hst.2.1, hg]
        rfl
      have hi : TypeBuilder.has R int8Name true = .ok true := by
        rw [has_base baseName_int8 (by decide), hint]
        rfl
      unfold createContainer
      rw [if_neg (by decide), if_pos rfl]
      unfold stringFactory stringElement
      simp only [hasM, hh, andThen_ok, Bool.false_eq_true, if_false, hi, Bool.not_true, hint, onReg, MSt.new]
      rw [ha]
      rfl

theorem container_spec (hk : ∀ a b, key a = key b → a = b) (hs : Src key Hs Rs rank) (hw : Wanted Hs Rs Ms L)
    {rec : ISt → Str → ISt × Res TId} {f : Nat} (hrec : RecSpec key Hs Rs rank Ms L N0 M0 rec f) {pend : Str → Prop} {s : ISt}
    (h : St key Hs Rs Ms L N0 M0 pend s) {u x : TId} (hu : Rs.regd Hs u) (hv : Hs.kind u = .vec x ∨ Hs.kind u = .str x)
    (hpend : ∀ x, x ∈ Hs.deps u → PendOk Hs Rs rank pend x) (hlen : s.map.length < f) (hnone : s.R.reg (Hs.name u) = none)
    {n : TNode} (hn : n.xml = typeNode (definition Hs u) (Ms.own u) (Ms.fields u) n.file) :
    Made key Hs Rs rank Ms L N0 M0 pend s u (loadContainer key rec s n) := by
  have hx : (Hs.kind u).elem? = some x := by rcases hv with e | e <;> rw [e] <;> rfl
  have hxd : x ∈ Hs.deps u := elem_mem_deps hx
  have hncomp : ∀ fs, Hs.kind u ≠ .comp fs := by intro fs e; rcases hv with h | h <;> rw [e] at h <;> cases h
  obtain ⟨hxr, hxk⟩ := hs.deps u x hu hxd
  obtain ⟨s1, e, e1, h1, x1, r1, d1, m1⟩ := hrec pend s x h hxr (hpend x hxd) hlen
  have hnone1 : s1.R.reg (Hs.name u) = none := by
    rcases x1.fresh u hu hnone with e | e
    · exact e
    · omega
  obtain ⟨kind, d0, k, c1, c2, c3, c4, c5, c6⟩ := create_spec hs h1.w hu hx hv r1 d1 hnone1
  have hst := hs.stor u hu
  have hsz : 0 < Hs.size u ∧ Hs.size u < 2 ^ 31 := by
    unfold Storable at hst
    rcases hv with e | e
    · rw [e] at hst; exact hst.2.2
    · rw [e] at hst; exact hst.2.2.2
  have hof : getAttr n.xml "of" = .ok (Hs.name x) := by
    rw [hn]; unfold definition
    rcases hv with e | e <;> rw [e] <;> rfl
  have hkind : getAttr n.xml "kind" = .ok kind := by
    unfold getAttr
    rw [hn, c5]
  have hsize : Node.attr n.xml "size" = some (natStr (Hs.size u)) := by
    rw [hn]; unfold definition
    rcases hv with e | e <;> rw [e] <;> rfl
  have hch : Node.children n.xml = metaNodes (Ms.own u) := by
    rw [hn]; unfold definition
    rcases hv with e | e <;> rw [e] <;> rfl
  obtain ⟨a1, a2, a3, a4⟩ := within_add hk hs h1.w (d0 := d0) (d := ⟨Hs.name u, Hs.size u, k⟩) (by rw [c2]) (by rw [c2]) hu
    (by intro y hy; simp only [c3, List.mem_singleton] at hy; rw [hy]; exact r1) (fun l hl => absurd hl (c4 l))
    (by rw [show definition Hs u = (Hs.name u, Hs.size u, (definition Hs u).2.2) from rfl, c1]) hnone1 []
  have hcr := c6 a1
  have hset : setSize (s1.H.alloc d0) s1.H.next (Hs.size u) = s1.H.alloc ⟨Hs.name u, Hs.size u, k⟩ := by
    rw [c2]; exact setSize_alloc _ _ _ _ _
  have hm : loadMeta (Node.children n.xml) (s1.md.own s1.H.next) = .ok (Ms.own u) := by
    rw [h1.clear _ (Nat.le_refl _), hch]
    exact loadMeta_body [] (by simp) (hw.own u hu)
  refine ⟨⟨s1.H.alloc ⟨Hs.name u, Hs.size u, k⟩, (addAuto key (s1.H.alloc d0) s1.R s1.H.next []).1,
    s1.md.setOwn s1.H.next (Ms.own u), s1.map⟩, s1.H.next, ?_, ?_, x1.trans a4 (Nat.succ_le_succ (Nat.le_of_lt hxk)) (Nat.le_refl _), (a2.inv.reg_name a3).2.2.1, a2.def_eq a3 hu, m1⟩
  · unfold loadContainer
    rw [hof]
    simp only [pureRes, bind'_ok, e1, hkind, hsize, castInt_natStr hsz.2]
    rw [hcr]
    simp only [onMerge, bind'_ok, ISt.world]
    rw [if_pos (by omega : ((Hs.size u : Nat) : Int) ≠ 0), toSizeT_nat hsz.2, hset]
    unfold loadTypeMeta
    simp only [hm, bind'_ok]
  · refine h1.grow (s' := ⟨_, _, _, _⟩) a2 a4 rfl ?_ ?_ ?_
    · intro t ht
      show (if t = s1.H.next then _ else _) = _
      rw [if_neg (by
        intro e; rw [e] at ht
        exact absurd ht (Nat.not_succ_le_self _))]
      exact h1.clear t (Nat.le_of_succ_le ht)
    · intro t ht
      refine ⟨?_, rfl⟩
      show (if t = s1.H.next then _ else _) = _
      rw [if_neg (Nat.ne_of_lt ht)]
    · intro t v q1 q2 q3 q4 q5 q6
      have ht : t = s1.H.next := Nat.le_antisymm (Nat.lt_succ_iff.mp q2) q1
      subst ht
      have hd1 := (definition_parts (a2.def_eq a3 hu)).1
      have : v = u := regd_inj q4 hu (by rw [← hd1]; exact q5.symm)
      subst this
      refine ⟨?_, fun fs hfs => absurd hfs (hncomp fs)⟩
      show (if s1.H.next = s1.H.next then _ else _) = _
      rw [if_pos rfl]

theorem alias_spec (hk : ∀ a b, key a = key b → a = b) (hs : Src key Hs Rs rank)
    {rec : ISt → Str → ISt × Res TId} {f : Nat} (hrec : RecSpec key Hs Rs rank Ms L N0 M0 rec f) {pend : Str → Prop} {s : ISt}
    (h : St key Hs Rs Ms L N0 M0 pend s) {b : Str} {u : TId} (hb : Rs.reg b = some u)
    (hpend : PendOk Hs Rs rank pend u) (hlen : s.map.length < f) {n : TNode} (hn : n.xml = aliasNode b (Hs.name u)) :
    Made key Hs Rs rank Ms L N0 M0 pend s u (loadAlias key rec s b n) := by
  have hu : Rs.regd Hs u := (hs.inv.reg_name hb).2.2.1
  obtain ⟨s1, t, e1, h1, x1, r1, d1, m1⟩ := hrec pend s u h hu hpend hlen
  have hsrc : getAttr n.xml "source" = .ok (Hs.name u) := by rw [hn]; rfl
  have hg : s1.R.get (Hs.name u) = some t := by
    rw [h1.w.abs (hs.abs hu), ← (definition_parts d1).1]; exact r1
  obtain ⟨a1, a2, a3, a4⟩ := within_alias hk hs h1.w hg hb d1 0
  refine ⟨s1.world s1.H (aliasAuto key s1.H s1.R (Hs.name u) b []).1, t, ?_, ?_, x1.trans a4 (Nat.le_refl _) (Nat.zero_le _),
    ?_, d1, m1⟩
  · unfold loadAlias
    rw [hsrc]
    simp only [pureRes, bind'_ok, e1]
    rw [a1]
    rfl
  · exact h1.grow (s' := s1.world s1.H _) a2 a4 rfl (fun t ht => h1.clear t ht) (fun t _ => ⟨rfl, rfl⟩)
      (fun t u h1 h2 => absurd h1 (Nat.not_le.mpr h2))
  · exact a4.regd h1.w.inv r1

/-- the loader of an entry -/
theorem load_spec (hk : ∀ a b, key a = key b → a = b) (hs : Src key Hs Rs rank) (hw : Wanted Hs Rs Ms L)
    {rec : ISt → Str → ISt × Res TId} {f : Nat} (hrec : RecSpec key Hs Rs rank Ms L N0 M0 rec f) {pend : Str → Prop} {s : ISt}
    {p : Str × Entry} (h : St key Hs Rs Ms L N0 M0 (fun x => x = p.1 ∨ pend x) s) (hp : p ∈ L)
    (hpend : PendOk Hs Rs rank pend p.2.ty) (hlen : s.map.length < f) (hnone : s.R.reg p.1 = none) :
    Made key Hs Rs rank Ms L N0 M0 (fun x => x = p.1 ∨ pend x) s p.2.ty (load key rec s p.1 (tnode Hs Ms p)) := by
  have hb := hw.reg p hp
  have hu : Rs.regd Hs p.2.ty := (hs.inv.reg_name hb).2.2.1
  cases ha : isAlias Hs p with
  | true =>
    have hne : p.1 ≠ Hs.name p.2.ty := by simpa [isAlias] using ha
    have hl : tnode Hs Ms p = ⟨aliasNode p.1 (Hs.name p.2.ty), [], .alias⟩ := by
      unfold tnode entryNode; rw [ha]; rfl
    rw [hl]
    refine alias_spec hk hs hrec h hb ?_ hlen rfl
    intro v hv e
    rcases e with e | e
    · exfalso
      have : Rs.reg (Hs.name v) = some v := hv
      rw [e, hb] at this
      cases this
      exact hne e.symm
    · exact hpend v hv e
  | false =>
    have hpe : p.1 = Hs.name p.2.ty := by simpa [isAlias] using ha
    have hl : tnode Hs Ms p = ⟨typeNode (definition Hs p.2.ty) (Ms.own p.2.ty) (Ms.fields p.2.ty) p.2.source, p.2.source,
        descLoader (definition Hs p.2.ty).2.2⟩ := by
      unfold tnode entryNode; rw [ha]; rfl
    have hpd : ∀ x, x ∈ Hs.deps p.2.ty → PendOk Hs Rs rank (fun x => x = p.1 ∨ pend x) x := by
      intro x hx v hv e
      have hr := (hs.deps _ x hu hx).2
      rcases e with e | e
      · rw [hpe] at e
        rw [regd_inj hv hu e]
        exact hr
      · exact Nat.lt_trans hr (hpend v hv e)
    rw [hpe] at hnone
    have hnd := hw.only p hp hpe
    rw [hl, hpe]
    rw [hpe] at h hpd
    cases hkd : Hs.kind p.2.ty with
    | null => exact leaf_spec hk hs hw h hu (by rw [hkd]; rfl) hnone rfl rfl (by rw [hkd]; simp)
    | «opaque» => exact leaf_spec hk hs hw h hu (by rw [hkd]; rfl) hnone rfl rfl (by rw [hkd]; simp)
    | num c => exact leaf_spec hk hs hw h hu (by rw [hkd]; rfl) hnone rfl rfl (by rw [hkd]; simp)
    | enum l => exact leaf_spec hk hs hw h hu (by rw [hkd]; rfl) hnone rfl rfl (by rw [hkd]; simp)
    | arr d e => exact absurd ⟨.arr d, e, hkd⟩ hnd
    | ptr e => exact absurd ⟨.ptr, e, hkd⟩ hnd
    | vec e =>
      have := container_spec hk hs hw hrec h hu (Or.inl hkd) hpd hlen hnone (n := ⟨typeNode (definition Hs p.2.ty) (Ms.own p.2.ty)
        (Ms.fields p.2.ty) p.2.source, p.2.source, descLoader (definition Hs p.2.ty).2.2⟩) rfl
      have hd : descLoader (definition Hs p.2.ty).2.2 = .container := by unfold definition; rw [hkd]; rfl
      unfold load
      rw [hd] at this ⊢
      exact this
    | str e =>
      have := container_spec hk hs hw hrec h hu (Or.inr hkd) hpd hlen hnone (n := ⟨typeNode (definition Hs p.2.ty) (Ms.own p.2.ty)
        (Ms.fields p.2.ty) p.2.source, p.2.source, descLoader (definition Hs p.2.ty).2.2⟩) rfl
      have hd : descLoader (definition Hs p.2.ty).2.2 = .container := by unfold definition; rw [hkd]; rfl
      unfold load
      rw [hd] at this ⊢
      exact this
    | comp fs =>
      have := compound_spec hk hs hw hrec h hu hkd hpd hlen hnone (n := ⟨typeNode (definition Hs p.2.ty) (Ms.own p.2.ty)
        (Ms.fields p.2.ty) p.2.source, p.2.source, descLoader (definition Hs p.2.ty).2.2⟩) rfl
      have hd : descLoader (definition Hs p.2.ty).2.2 = .compound := by unfold definition; rw [hkd]; rfl
      unfold load
      rw [hd] at this ⊢
      exact this

/-! ### `build` -/

/-- what `build` does for a name -/
def Built (key : Char → Int) (Hs : Heap) (Rs : Reg) (rank : TId → Nat) (Ms : Metas) (L : List (Str × Entry)) (N0 : Nat)
    (M0 : Metas) (pend : Str → Prop) (s : ISt) (n : Str) (u : TId) (o : ISt × Res TId) : Prop :=
  ∃ s' t, o = (s', .ok t) ∧ St key Hs Rs Ms L N0 M0 pend s' ∧ Ext Hs Rs rank (rank u + 1) s.H s.R s'.H s'.R ∧
    s'.R.reg n = some t ∧ s'.map.Sublist s.map ∧ find s'.map n = none

theorem baseName_no_text {a : Str} {m : Decl} (h : BaseName (a ++ m.text)) : False := by
  obtain ⟨pre, c, h1, _, h2, h3, _⟩ := h
  cases m with
  | ptr =>
    have : ['*'] = [c] := List.append_inj_right' h1 rfl
    simp only [List.cons.injEq, and_true] at this
    exact h3 this.symm
  | arr d =>
    rw [show Decl.text (.arr d) = ('[' :: natStr d) ++ [']'] from rfl, ← List.append_assoc] at h1
    have := List.append_inj_right' h1 rfl
    simp only [List.cons.injEq, and_true] at this
    exact h2 this.symm

theorem base_not_decl (hs : Src key Hs Rs rank) {u : TId} (hu : Rs.regd Hs u) (hb : BaseName (Hs.name u)) :
    ¬ IsDecl (Hs.kind u) := by
  rintro ⟨m, x, hk⟩
  have hd := (hs.decl hu hk).1
  have : Hs.name u = Hs.name x ++ m.text := by
    show (Hs.get u).name = _
    rw [hd]
    cases m <;> rfl
  rw [this] at hb
  exact baseName_no_text hb

theorem buildBase_spec (hk : ∀ a b, key a = key b → a = b) (hs : Src key Hs Rs rank) (hw : Wanted Hs Rs Ms L)
    {rec : ISt → Str → ISt × Res TId} {f : Nat} (hrec : RecSpec key Hs Rs rank Ms L N0 M0 rec f) {pend : Str → Prop} {s : ISt}
    (h : St key Hs Rs Ms L N0 M0 pend s) {b : Str} {e : Entry} (hb : (b, e) ∈ L) (hnp : ¬ pend b)
    (hpend : PendOk Hs Rs rank pend e.ty) (hlen : s.map.length < f + 1) :
    Built key Hs Rs rank Ms L N0 M0 pend s b e.ty (buildBase key rec s b) := by
  have hr : Rs.reg b = some e.ty := hw.reg _ hb
  unfold buildBase
  rw [h.w.abs (hs.abs hr)]
  cases hc : s.R.reg b with
  | some t =>
    refine ⟨{ s with map := erase b s.map }, t, rfl, ?_, Ext.refl _ _, hc, erase_sublist _ _, find_erase_self _ _⟩
    refine (h.take b).pend ?_
    rintro n (e | e)
    · rw [e]; exact Or.inl ⟨t, hc⟩
    · exact Or.inr e
  | none =>
    cases hm : find s.map b with
    | none =>
      exfalso
      rcases h.cover _ hb hm with ⟨t, ht⟩ | e
      · rw [hc] at ht; cases ht
      · exact hnp e
    | some tn =>
      obtain ⟨e', he', htn⟩ := h.map _ ((mem_iff_find h.sorted).mpr hm)
      have hty : e'.ty = e.ty := by
        have h1 : Rs.reg b = some e'.ty := hw.reg _ he'
        rw [hr] at h1
        exact (Option.some.inj h1).symm
      have hl := load_spec hk hs hw hrec (pend := pend) (p := (b, e')) (h.take b) he'
        (by show PendOk _ _ _ _ e'.ty; rw [hty]; exact hpend)
        (by have := erase_length hm; show (erase b s.map).length < f; omega) hc
      obtain ⟨s1, t, e1, h1, x1, r1, d1, m1⟩ := hl
      have d1' : definition s1.H t = definition Hs e.ty := by rw [d1]; show definition Hs e'.ty = _; rw [hty]
      obtain ⟨s2, e2, h2, x2, r2, m2, _⟩ := aliasTo_spec hk hs h1 r1 d1' hr 0
      have hlt : find s2.map b = none := by
        rw [m2]
        exact find_sublist m1 (find_erase_self _ _)
      refine ⟨s2, t, ?_, ?_, ?_, r2, ?_, hlt⟩
      · have e1' : load key rec { s with map := erase b s.map } b tn = (s1, .ok t) := by
          have htn' : tn = tnode Hs Ms (b, e') := htn
          rw [htn']; exact e1
        simp only [e1', bind'_ok, e2]
      · refine h2.pend ?_
        rintro n (e | e)
        · rw [e]; exact Or.inl ⟨t, r2⟩
        · exact Or.inr e
      · have x1' : Ext Hs Rs rank (rank e.ty + 1) s.H s.R s1.H s1.R := by rw [← hty]; exact x1
        exact x1'.trans x2 (Nat.le_refl _) (Nat.zero_le _)
      · rw [m2]
        exact m1.trans (erase_sublist _ _)

theorem declText_pos {l : List Decl} (h : l ≠ []) : declText l ≠ [] := by
  cases l with
  | nil => exact absurd rfl h
  | cons m l =>
    rw [show declText (m :: l) = m.text ++ declText l from List.flatMap_cons]
    cases m <;> simp [Decl.text]

theorem build_spec (hk : ∀ a b, key a = key b → a = b) (hs : Src key Hs Rs rank) (hw : Wanted Hs Rs Ms L) {f : Nat}
    (hrec : RecSpec key Hs Rs rank Ms L N0 M0 (build key f) f) {pend : Str → Prop} {s : ISt}
    (h : St key Hs Rs Ms L N0 M0 pend s) {b : Str} {l : List Decl} {e : Entry} {u : TId} (hbn : BaseName b) (hb : (b, e) ∈ L)
    (ha : Applied Hs e.ty l u) (hu : Rs.reg (b ++ declText l) = some u) (hnp : ¬ pend b)
    (hpend : PendOk Hs Rs rank pend e.ty) (hlen : s.map.length < f + 1) :
    Built key Hs Rs rank Ms L N0 M0 pend s (b ++ declText l) u (build key (f + 1) s (b ++ declText l)) := by
  have huu : Rs.regd Hs u := (hs.inv.reg_name hu).2.2.1
  obtain ⟨_, hrk, _, hf⟩ := applied_down hs ha huu
  obtain ⟨s1, t, e1, h1, x1, r1, m1, f1⟩ := buildBase_spec hk hs hw hrec h hb hnp hpend hlen
  unfold build
  rw [parse_decl hbn hf]
  simp only [e1, bind'_ok]
  by_cases hl : l = []
  · subst hl
    have hn : b ++ declText [] = b := by simp [declText]
    have hue : u = e.ty := ha.of_nil
    rw [hn, if_pos rfl]
    rw [hue]
    exact ⟨s1, t, rfl, h1, x1, r1, m1, f1⟩
  · rw [if_neg (by
      intro e
      have := congrArg List.length e
      rw [List.length_append] at this
      have := List.length_pos_iff.mpr (declText_pos hl)
      omega)]
    obtain ⟨t2, H2, R2, e2, w2, r2, d2, x2, k2⟩ := build_within hk hs h1.w hbn (hw.reg _ hb) ha hu r1
    simp only [e2, bind'_ok]
    have h2 := h1.decls w2 x2 k2
    obtain ⟨s3, e3, h3, x3, r3, m3, _⟩ := aliasTo_spec hk hs h2 r2 d2 hu 0
    simp only [e3, bind'_ok]
    refine ⟨{ s3 with map := erase (b ++ declText l) s3.map }, t2, rfl, ?_, ?_, r3, ?_, find_erase_self _ _⟩
    · refine (h3.take _).pend ?_
      rintro n (e | e)
      · rw [e]; exact Or.inl ⟨t2, r3⟩
      · exact Or.inr e
    · exact (x1.trans x2 (Nat.succ_le_succ hrk) (Nat.le_refl _)).trans x3 (Nat.le_refl _) (Nat.zero_le _)
    · refine (erase_sublist _ _).trans ?_
      rw [m3]
      exact m1

/-- the recursive calls -/
theorem rec_spec (hk : ∀ a b, key a = key b → a = b) (hs : Src key Hs Rs rank) (hw : Wanted Hs Rs Ms L) (f : Nat) :
    RecSpec key Hs Rs rank Ms L N0 M0 (build key f) f := by
  induction f with
  | zero => intro pend s u _ _ _ hlen; exact absurd hlen (Nat.not_lt_zero _)
  | succ f ih =>
    intro pend s u h hu hpend hlen
    have hu' : Rs.reg (Hs.name u) = some u := hu
    obtain ⟨b, l, ub, e1, hbn, hub, ha⟩ := hs.split _ _ hu'
    obtain ⟨hubr, hrk, hname, _⟩ := applied_down hs ha hu
    have hbe : b = Hs.name ub := by
      rw [hname] at e1
      exact (List.append_cancel_right e1).symm
    obtain ⟨e, he⟩ := hw.types ub hubr (base_not_decl hs hubr (hbe ▸ hbn))
    rw [← hbe] at he
    have hty : e.ty = ub := by
      have h1 : Rs.reg b = some e.ty := hw.reg _ he
      rw [hub] at h1
      exact (Option.some.inj h1).symm
    rw [← hty] at ha hrk
    have hp : PendOk Hs Rs rank pend e.ty := fun v hv hpv => Nat.lt_of_le_of_lt hrk (hpend v hv hpv)
    have hnp : ¬ pend b := by
      intro hpb
      rw [hbe] at hpb
      have := hpend ub hubr hpb
      rw [hty] at hrk
      omega
    obtain ⟨s', t, o1, o2, o3, o4, o5, _⟩ := build_spec hk hs hw ih h hbn he ha (by rw [← e1]; exact hu') hnp hp hlen
    rw [← e1] at o1 o4
    exact ⟨s', t, o1, o2, o3, (o2.w.inv.reg_name o4).2.2.1, o2.w.def_eq o4 hu', o5⟩

theorem buildAll_spec (hk : ∀ a b, key a = key b → a = b) (hs : Src key Hs Rs rank) (hw : Wanted Hs Rs Ms L) :
    ∀ (f : Nat) (s : ISt), St key Hs Rs Ms L N0 M0 (fun _ => False) s → s.map.length < f →
      ∃ s', buildAll key f s = (s', .ok ()) ∧ St key Hs Rs Ms L N0 M0 (fun _ => False) s' ∧ s'.map = [] ∧
        s.H.next ≤ s'.H.next ∧ (∀ t, t < s.H.next → s'.H.get t = s.H.get t) ∧ (∀ n t, s.R.reg n = some t → s'.R.reg n = some t) := by
  intro f
  induction f with
  | zero => intro s _ h; exact absurd h (Nat.not_lt_zero _)
  | succ f ih =>
    intro s h hlen
    unfold buildAll
    cases hm : s.map with
    | nil => exact ⟨s, rfl, h, hm, Nat.le_refl _, fun _ _ => rfl, fun _ _ x => x⟩
    | cons p r =>
      obtain ⟨e, he, _⟩ := h.map p (by rw [hm]; simp)
      have hr : Rs.reg p.1 = some e.ty := hw.reg _ he
      obtain ⟨b, l, ub, e1, hbn, hub, ha⟩ := hs.split _ _ hr
      obtain ⟨eb, heb⟩ := hw.base _ he b l e1 hbn
      have hty : eb.ty = ub := by
        have h1 : Rs.reg b = some eb.ty := hw.reg _ heb
        rw [hub] at h1
        exact (Option.some.inj h1).symm
      rw [← hty] at ha
      obtain ⟨s1, t, o1, o2, o3, o4, o5, o6⟩ := build_spec hk hs hw (rec_spec hk hs hw s.map.length) h hbn heb ha
        (by rw [← e1]; exact hr) (fun x => x) (fun _ _ x => absurd x id) (Nat.lt_succ_self _)
      rw [← e1] at o1 o4 o6
      rw [hm] at o1
      simp only [o1, bind'_ok]
      have hlt : s1.map.length < s.map.length := by
        rcases Nat.lt_or_ge s1.map.length s.map.length with x | x
        · exact x
        · exfalso
          have := o5.eq_of_length_le x
          rw [this, hm] at o6
          have := find_isSome_of_mem (m := p :: r) (p := p) (by simp)
          rw [o6] at this
          cases this
      obtain ⟨s2, q1, q2, q3, q4, q5, q6⟩ := ih s1 o2 (by omega)
      refine ⟨s2, q1, q2, q3, Nat.le_trans o3.next q4, ?_, fun n t x => q6 n t (o3.ext n t x)⟩
      intro t ht
      rw [q5 t (Nat.lt_of_lt_of_le ht o3.next), o3.get t ht]

/-! ### The table of elements -/

theorem typeNode_src (d : Str × Nat × Desc) (own : Meta.MetaData) (fms : List Meta.MetaData) (src : Str) :
    (Node.attr (typeNode d own fms src) "source_id").getD [] = src := by
  obtain ⟨n, sz, d⟩ := d
  by_cases h : src = []
  · subst h
    cases d <;> rfl
  · have hs : srcNode src = [("source_id".toList, src)] := by unfold srcNode; rw [if_neg h]
    cases d <;> simp only [typeNode, hs] <;> rfl

theorem register_entry (hw : Wanted Hs Rs Ms L) {p : Str × Entry} (hp : p ∈ L) (m : SMap TNode) :
    register m (entryNode Hs Ms p) =
      (match find m p.1 with
      | some _ => .ok m
      | none => .ok (upsert p.1 (fun _ => tnode Hs Ms p) m)) := by
  cases ha : isAlias Hs p with
  | true =>
    have h1 : entryNode Hs Ms p = aliasNode p.1 (Hs.name p.2.ty) := by unfold entryNode; rw [ha]; rfl
    have h2 : tnode Hs Ms p = ⟨aliasNode p.1 (Hs.name p.2.ty), [], .alias⟩ := by unfold tnode; rw [ha, h1]; rfl
    rw [h1, h2]
    rfl
  | false =>
    have hpe : p.1 = Hs.name p.2.ty := by simpa [isAlias] using ha
    have hnd := hw.only p hp hpe
    have h1 : entryNode Hs Ms p = typeNode (definition Hs p.2.ty) (Ms.own p.2.ty) (Ms.fields p.2.ty) p.2.source := by
      unfold entryNode; rw [ha]; rfl
    have h2 : tnode Hs Ms p = ⟨typeNode (definition Hs p.2.ty) (Ms.own p.2.ty) (Ms.fields p.2.ty) p.2.source, p.2.source,
        descLoader (definition Hs p.2.ty).2.2⟩ := by unfold tnode; rw [ha, h1]; rfl
    rw [h1, h2]
    have g1 : getAttr (typeNode (definition Hs p.2.ty) (Ms.own p.2.ty) (Ms.fields p.2.ty) p.2.source) "name" = .ok p.1 := by
      rw [hpe]; unfold definition
      cases Hs.kind p.2.ty <;> rfl
    have g2 : loaderOf (Node.name (typeNode (definition Hs p.2.ty) (Ms.own p.2.ty) (Ms.fields p.2.ty) p.2.source)) =
        .ok (descLoader (definition Hs p.2.ty).2.2) := by
      unfold definition
      cases hkd : Hs.kind p.2.ty with
      | arr d e => exact absurd ⟨.arr d, e, hkd⟩ hnd
      | ptr e => exact absurd ⟨.ptr, e, hkd⟩ hnd
      | null => rfl
      | «opaque» => rfl
      | num c => rfl
      | enum l => rfl
      | vec e => rfl
      | str e => rfl
      | comp fs => rfl
    have g3 := typeNode_src (definition Hs p.2.ty) (Ms.own p.2.ty) (Ms.fields p.2.ty) p.2.source
    unfold register
    rw [g1]
    show (loaderOf _ >>= _) = _
    rw [g2]
    show (match find m p.1 with
      | some _ => _
      | none => _) = _
    rw [g3]

theorem registerAll_spec (hw : Wanted Hs Rs Ms L) (L' : List (Str × Entry)) : ∀ m : SMap TNode, (∀ p ∈ L', p ∈ L) → MSorted m →
    (∀ q ∈ m, ∃ e, (q.1, e) ∈ L ∧ q.2 = tnode Hs Ms (q.1, e)) →
    ∃ m', registerAll (L'.map (entryNode Hs Ms)) m = .ok m' ∧ MSorted m' ∧
      (∀ q ∈ m', ∃ e, (q.1, e) ∈ L ∧ q.2 = tnode Hs Ms (q.1, e)) ∧ (∀ k, find m k ≠ none → find m' k ≠ none) ∧
      ∀ p ∈ L', find m' p.1 ≠ none := by
  induction L' with
  | nil => intro m _ h1 h2; exact ⟨m, rfl, h1, h2, fun _ x => x, by simp⟩
  | cons p r ih =>
    intro m hL h1 h2
    have hp := hL p (by simp)
    have hreg := register_entry hw hp m
    rw [List.map_cons]
    have hstep : ∃ m1, register m (entryNode Hs Ms p) = .ok m1 ∧ MSorted m1 ∧
        (∀ q ∈ m1, ∃ e, (q.1, e) ∈ L ∧ q.2 = tnode Hs Ms (q.1, e)) ∧ (∀ k, find m k ≠ none → find m1 k ≠ none) ∧ find m1 p.1 ≠ none := by
      rw [hreg]
      cases hf : find m p.1 with
      | some v => exact ⟨m, rfl, h1, h2, fun _ x => x, by rw [hf]; simp⟩
      | none =>
        refine ⟨_, rfl, sorted_upsert _ _ h1, ?_, ?_, ?_⟩
        · intro q hq
          have hq' := (mem_iff_find (sorted_upsert _ _ h1)).mp (show (q.1, q.2) ∈ _ from hq)
          rw [find_upsert _ _ h1] at hq'
          split at hq'
          · rename_i e
            have hv : tnode Hs Ms p = q.2 := Option.some.inj hq'
            refine ⟨p.2, ?_, ?_⟩
            · rw [← e]; exact hp
            · rw [← hv, ← e]
          · exact h2 q ((mem_iff_find h1).mpr hq')
        · intro k hk
          rw [find_upsert _ _ h1]
          split
          · simp
          · exact hk
        · rw [find_upsert _ _ h1, if_pos rfl]; simp
    obtain ⟨m1, a1, a2, a3, a4, a5⟩ := hstep
    obtain ⟨m2, b1, b2, b3, b4, b5⟩ := ih m1 (fun q hq => hL q (by simp [hq])) a2 a3
    refine ⟨m2, ?_, b2, b3, fun k hk => b4 k (a4 k hk), ?_⟩
    · show (register m (entryNode Hs Ms p) >>= registerAll (r.map (entryNode Hs Ms))) = _
      rw [a1]
      exact b1
    · intro q hq
      rcases List.mem_cons.mp hq with rfl | hq
      · exact b4 _ a5
      · exact b5 q hq

end Verif.Tlb
