import Verif.TlbBuild

/-! Property C38, sixth part: the importer on the elements of an exported document. -/

namespace Verif.Tlb
open Verif Verif.Names Verif.Graph Verif.Registry Verif.TypeBuilder Verif.StdMap Verif.Merge Verif.Xml

/-! ### What is imported -/

/-- the loader of a type -/
def descLoader : Desc → Loader
  | .null => .null
  | .opaque => .opaque
  | .num _ => .numeric
  | .enum _ => .enum
  | .vec _ => .container
  | .str _ => .container
  | _ => .compound

/-- what the importer remembers of an element -/
def tnode (H : Heap) (M : Metas) (p : Str × Entry) : TNode :=
  if isAlias H p then ⟨entryNode H M p, [], .alias⟩
  else ⟨entryNode H M p, p.2.source, descLoader (definition H p.2.ty).2.2⟩

/-- the exported entries: all types but arrays and pointers, and aliases -/
structure Wanted (Hs : Heap) (Rs : Reg) (Ms : Metas) (L : List (Str × Entry)) : Prop where
  reg : ∀ p ∈ L, Rs.reg p.1 = some p.2.ty
  nodup : (L.map (·.1)).Nodup
  types : ∀ u, Rs.regd Hs u → ¬ IsDecl (Hs.kind u) → ∃ e, (Hs.name u, e) ∈ L
  only : ∀ p ∈ L, p.1 = Hs.name p.2.ty → ¬ IsDecl (Hs.kind p.2.ty)
  base : ∀ p ∈ L, ∀ b l, p.1 = b ++ declText l → BaseName b → ∃ e, (b, e) ∈ L
  own : ∀ u, Rs.regd Hs u → Meta.Ok (Ms.own u)
  fields : ∀ u, Rs.regd Hs u → ∀ m ∈ Ms.fields u, Meta.Ok m
  count : ∀ u fs, Rs.regd Hs u → Hs.kind u = .comp fs → (Ms.fields u).length = fs.length

/-- the state of an import: `pend` holds the names being loaded -/
structure St (key : Char → Int) (Hs : Heap) (Rs : Reg) (Ms : Metas) (L : List (Str × Entry)) (N0 : Nat) (M0 : Metas)
    (pend : Str → Prop) (s : ISt) : Prop where
  w : Within key Hs Rs s.H s.R
  lo : N0 ≤ s.H.next
  clear : ∀ t, s.H.next ≤ t → s.md.own t = []
  old : ∀ t, t < N0 → s.md.own t = M0.own t ∧ s.md.fields t = M0.fields t
  new : ∀ t u, N0 ≤ t → s.R.regd s.H t → Rs.regd Hs u → s.H.name t = Hs.name u → ¬ IsDecl (Hs.kind u) →
    s.md.own t = Ms.own u ∧ ∀ fs, Hs.kind u = .comp fs → s.md.fields t = Ms.fields u
  sorted : MSorted s.map
  map : ∀ q ∈ s.map, ∃ e, (q.1, e) ∈ L ∧ q.2 = tnode Hs Ms (q.1, e)
  cover : ∀ p ∈ L, find s.map p.1 = none → (∃ t, s.R.reg p.1 = some t) ∨ pend p.1

variable {key : Char → Int} {Hs : Heap} {Rs : Reg} {rank : TId → Nat} {Ms : Metas} {L : List (Str × Entry)} {N0 : Nat}
  {M0 : Metas}

/-- what a loader does for the type `u` -/
def Made (key : Char → Int) (Hs : Heap) (Rs : Reg) (rank : TId → Nat) (Ms : Metas) (L : List (Str × Entry)) (N0 : Nat)
    (M0 : Metas) (pend : Str → Prop) (s : ISt) (u : TId) (o : ISt × Res TId) : Prop :=
  ∃ s' t, o = (s', .ok t) ∧ St key Hs Rs Ms L N0 M0 pend s' ∧ Ext Hs Rs rank (rank u + 1) s.H s.R s'.H s'.R ∧
    s'.R.regd s'.H t ∧ definition s'.H t = definition Hs u ∧ s'.map.Sublist s.map

theorem IsDecl.desc {nm nm' : TId → Str} {k k' : Kind} (h : IsDecl k) (hd : Kind.desc nm k = Kind.desc nm' k') : IsDecl k' := by
  obtain ⟨m, x, rfl⟩ := h
  cases m with
  | ptr => cases k' <;> simp [Decl.kind, Kind.desc] at hd; exact ⟨.ptr, _, rfl⟩
  | arr d => cases k' <;> simp [Decl.kind, Kind.desc] at hd; exact ⟨.arr _, _, rfl⟩

theorem find_sublist {α : Type} {m m' : SMap α} (h : m'.Sublist m) {n : Str} (hn : find m n = none) : find m' n = none := by
  cases e : find m' n with
  | none => rfl
  | some v =>
    have : ∀ (m : SMap α), find m n = some v → (n, v) ∈ m := by
      intro m
      induction m with
      | nil => intro h; cases h
      | cons p r ih =>
        obtain ⟨k, b⟩ := p
        intro h
        unfold find at h
        split at h
        · rename_i e
          cases h; subst e
          simp
        · exact List.mem_cons_of_mem _ (ih h)
    have hm := find_isSome_of_mem (h.subset (this m' e))
    rw [hn] at hm
    cases hm

/-- objects and metadata change, the table of elements does not -/
theorem St.grow {pend : Str → Prop} {s s' : ISt} (h : St key Hs Rs Ms L N0 M0 pend s) {r : Nat}
    (hw : Within key Hs Rs s'.H s'.R) (he : Ext Hs Rs rank r s.H s.R s'.H s'.R) (hmap : s'.map = s.map)
    (hclear : ∀ t, s'.H.next ≤ t → s'.md.own t = [])
    (hsame : ∀ t, t < s.H.next → s'.md.own t = s.md.own t ∧ s'.md.fields t = s.md.fields t)
    (hnew : ∀ t u, s.H.next ≤ t → t < s'.H.next → s'.R.regd s'.H t → Rs.regd Hs u → s'.H.name t = Hs.name u →
      ¬ IsDecl (Hs.kind u) → s'.md.own t = Ms.own u ∧ ∀ fs, Hs.kind u = .comp fs → s'.md.fields t = Ms.fields u) :
    St key Hs Rs Ms L N0 M0 pend s' := by
  refine ⟨hw, Nat.le_trans h.lo he.next, hclear, ?_, ?_, hmap ▸ h.sorted, ?_, ?_⟩
  · intro t ht
    obtain ⟨a, b⟩ := hsame t (Nat.lt_of_lt_of_le ht h.lo)
    rw [a, b]
    exact h.old t ht
  · intro t u ht hr hu hn hd
    by_cases hlt : t < s.H.next
    · obtain ⟨a, b⟩ := hsame t hlt
      rw [a, b]
      refine h.new t u ht (he.back t hlt hr) hu ?_ hd
      rw [← hn]
      unfold Heap.name
      rw [he.get t hlt]
    · exact hnew t u (Nat.le_of_not_lt hlt) ((hw.inv.reg_name hr).2.2.2) hr hu hn hd
  · rw [hmap]; exact h.map
  · intro p hp hf
    rw [hmap] at hf
    rcases h.cover p hp hf with ⟨t, ht⟩ | e
    · exact Or.inl ⟨t, he.ext _ _ ht⟩
    · exact Or.inr e

/-- only arrays and pointers are made -/
theorem St.decls {pend : Str → Prop} {s : ISt} (h : St key Hs Rs Ms L N0 M0 pend s) {r : Nat} {H' : Heap} {R' : Reg}
    (hw : Within key Hs Rs H' R') (he : Ext Hs Rs rank r s.H s.R H' R')
    (hd : ∀ y, s.H.next ≤ y → y < H'.next → IsDecl (H'.kind y)) : St key Hs Rs Ms L N0 M0 pend (s.world H' R') := by
  refine h.grow (s' := s.world H' R') hw he rfl ?_ (fun t _ => ⟨rfl, rfl⟩) ?_
  · intro t ht
    exact h.clear t (Nat.le_trans he.next ht)
  · intro t u h1 h2 h3 h4 h5 h6
    exfalso
    have h3' : R'.reg (H'.name t) = some t := h3
    have h5' : H'.name t = Hs.name u := h5
    rw [h5'] at h3'
    exact h6 ((hd t h1 h2).desc (definition_parts (hw.def_eq h3' h4)).2.2)

theorem St.pend {pend pend' : Str → Prop} {s : ISt} (h : St key Hs Rs Ms L N0 M0 pend s)
    (hp : ∀ n, pend n → (∃ t, s.R.reg n = some t) ∨ pend' n) : St key Hs Rs Ms L N0 M0 pend' s :=
  ⟨h.w, h.lo, h.clear, h.old, h.new, h.sorted, h.map, fun p hm hf => by
    rcases h.cover p hm hf with e | e
    · exact Or.inl e
    · exact hp _ e⟩

theorem erase_length {α : Type} {m : SMap α} {n : Str} {v : α} (h : find m n = some v) : (erase n m).length < m.length := by
  induction m with
  | nil => cases h
  | cons p r ih =>
    obtain ⟨k, b⟩ := p
    unfold erase
    unfold find at h
    rw [List.filter_cons]
    split
    · rename_i e
      rw [if_neg (by simpa using fun x => (by simpa using e : k ≠ n) x)] at h
      exact Nat.succ_lt_succ (ih h)
    · exact Nat.lt_succ_of_le (List.length_filter_le _ _)

/-- an element is taken -/
theorem St.take {pend : Str → Prop} {s : ISt} (h : St key Hs Rs Ms L N0 M0 pend s) (n : Str) :
    St key Hs Rs Ms L N0 M0 (fun x => x = n ∨ pend x) { s with map := erase n s.map } := by
  refine ⟨h.w, h.lo, h.clear, h.old, h.new, sorted_erase _ h.sorted, ?_, ?_⟩
  · intro q hq
    exact h.map q (List.mem_filter.mp hq).1
  · intro p hp hf
    simp only [find_erase] at hf
    split at hf
    · rename_i e
      exact Or.inr (Or.inl e.symm)
    · rcases h.cover p hp hf with e | e
      · exact Or.inl e
      · exact Or.inr (Or.inr e)

theorem erase_sublist {α : Type} (m : SMap α) (n : Str) : (erase n m).Sublist m := List.filter_sublist

theorem find_erase_self {α : Type} (m : SMap α) (n : Str) : find (erase n m) n = none := by
  rw [find_erase]; simp

/-- an object that is added with its metadata -/
theorem insert_spec (hk : ∀ a b, key a = key b → a = b) (hs : Src key Hs Rs rank) (hw : Wanted Hs Rs Ms L)
    {pend : Str → Prop} {s : ISt} (h : St key Hs Rs Ms L N0 M0 pend s) {u : TId} (hu : Rs.regd Hs u) {n : TNode} {pre : List Node}
    (hpre : ∀ x ∈ pre, Node.name x ≠ "metadata".toList) (hch : Node.children n.xml = pre ++ metaNodes (Ms.own u))
    {d : TypeDef} (hdeps : ∀ x ∈ d.kind.deps, s.R.regd s.H x) (hsy : ∀ l, d.kind = .enum l → (l.map (·.1)).Nodup)
    (hdef : (d.name, d.size, Kind.desc s.H.name d.kind) = definition Hs u) (hnone : s.R.reg (Hs.name u) = none)
    (hf : ∀ fs, Hs.kind u = .comp fs → s.md.fields s.H.next = Ms.fields u) :
    Made key Hs Rs rank Ms L N0 M0 pend s u (insert key s n d) := by
  obtain ⟨a1, a2, a3, a4⟩ := within_add hk hs h.w (d0 := d) (d := d) rfl rfl hu hdeps hsy hdef hnone n.file
  have hm : loadMeta (Node.children n.xml) (s.md.own s.H.next) = .ok (Ms.own u) := by
    rw [h.clear _ (Nat.le_refl _), hch]
    exact loadMeta_body pre hpre (hw.own u hu)
  have hp : addAuto key (s.H.alloc d) s.R s.H.next n.file = ((addAuto key (s.H.alloc d) s.R s.H.next n.file).1, .ok ()) :=
    Prod.ext rfl a1
  refine ⟨⟨s.H.alloc d, (addAuto key (s.H.alloc d) s.R s.H.next n.file).1, s.md.setOwn s.H.next (Ms.own u), s.map⟩,
    s.H.next, ?_, ?_, a4, (a2.inv.reg_name a3).2.2.1, a2.def_eq a3 hu, List.Sublist.refl _⟩
  · unfold insert loadTypeMeta
    simp only [hm, bind'_ok]
    rw [a1]
    rfl
  · refine h.grow (s' := ⟨_, _, _, _⟩) a2 a4 rfl ?_ ?_ ?_
    · intro t ht
      show (if t = s.H.next then _ else _) = _
      rw [if_neg (by
        intro e; rw [e] at ht
        exact absurd ht (Nat.not_succ_le_self _))]
      exact h.clear t (Nat.le_of_succ_le ht)
    · intro t ht
      refine ⟨?_, rfl⟩
      show (if t = s.H.next then _ else _) = _
      rw [if_neg (Nat.ne_of_lt ht)]
    · intro t v h1 h2 h3 h4 h5 h6
      have ht : t = s.H.next := Nat.le_antisymm (Nat.lt_succ_iff.mp h2) h1
      subst ht
      have : v = u := by
        have h3' : (addAuto key (s.H.alloc d) s.R s.H.next n.file).1.reg ((s.H.alloc d).name s.H.next) = some s.H.next := h3
        have hd1 := (definition_parts (a2.def_eq a3 hu)).1
        exact regd_inj h4 hu (by rw [← hd1]; exact h5.symm)
      subst this
      refine ⟨?_, fun fs hfs => hf fs hfs⟩
      show (if s.H.next = s.H.next then _ else _) = _
      rw [if_pos rfl]

theorem has_get (R : Reg) (n : Str) : R.has n = (R.get n).isSome := by
  unfold Reg.has Reg.get
  rw [Option.isSome_map]

/-- `aliasTo` -/
theorem aliasTo_spec (hk : ∀ a b, key a = key b → a = b) (hs : Src key Hs Rs rank) {pend : Str → Prop} {s : ISt}
    (h : St key Hs Rs Ms L N0 M0 pend s) {t u : TId} {n : Str} (ht : s.R.regd s.H t)
    (hd : definition s.H t = definition Hs u) (hu : Rs.reg n = some u) (r : Nat) :
    ∃ s', aliasTo key s t n = (s', .ok ()) ∧ St key Hs Rs Ms L N0 M0 pend s' ∧ Ext Hs Rs rank r s.H s.R s'.H s'.R ∧
      s'.R.reg n = some t ∧ s'.map = s.map ∧ s'.H = s.H := by
  unfold aliasTo
  have hg : s.R.get n = s.R.reg n := h.w.abs (hs.abs hu)
  rw [has_get, hg]
  split
  · rename_i hc
    have hb : s.R.get (s.H.name t) = some t := by
      rw [h.w.abs (h.w.inv.reg_name ht).2.1]; exact ht
    obtain ⟨a1, a2, a3, a4⟩ := within_alias hk hs h.w hb hu hd r
    refine ⟨s.world s.H (aliasAuto key s.H s.R (s.H.name t) n []).1, ?_, ?_, a4, a3, rfl, rfl⟩
    · rw [a1]
    · exact h.grow (s' := s.world s.H _) a2 a4 rfl (fun t ht => h.clear t ht) (fun t _ => ⟨rfl, rfl⟩)
        (fun t u h1 h2 => absurd h1 (Nat.not_le.mpr h2))
  · rename_i hc
    refine ⟨s, rfl, h, Ext.refl _ _, ?_, rfl, rfl⟩
    cases hr : s.R.reg n with
    | none =>
      rw [hr] at hc
      have : s.H.name t = n := by
        by_cases e : s.H.name t = n
        · exact e
        · exact absurd ⟨e, rfl⟩ hc
      rw [← this, ht] at hr
      cases hr
    | some t2 =>
      have h1 := h.w.def_eq hr hu
      have h2 := (h.w.inv.reg_name hr).2.2.1
      rw [regd_inj h2 ht (by rw [(definition_parts h1).1, (definition_parts hd).1])]

/-! ### The loaders -/

/-- the names being loaded are those of larger types -/
def PendOk (Hs : Heap) (Rs : Reg) (rank : TId → Nat) (pend : Str → Prop) (u : TId) : Prop :=
  ∀ v, Rs.regd Hs v → pend (Hs.name v) → rank u < rank v

/-- what the recursive calls do, on the names of types -/
def RecSpec (key : Char → Int) (Hs : Heap) (Rs : Reg) (rank : TId → Nat) (Ms : Metas) (L : List (Str × Entry)) (N0 : Nat)
    (M0 : Metas) (rec : ISt → Str → ISt × Res TId) (f : Nat) : Prop :=
  ∀ pend s u, St key Hs Rs Ms L N0 M0 pend s → Rs.regd Hs u → PendOk Hs Rs rank pend u → s.map.length < f →
    Made key Hs Rs rank Ms L N0 M0 pend s u (rec s (Hs.name u))

/-- fields that stand for others -/
def SameFields (Hs : Heap) (s : ISt) (gs ps : List (FieldD × Meta.MetaData)) : Prop :=
  gs.map (fun g => ((g.1.name, g.1.offset, s.H.name g.1.ty), g.2)) = ps.map (fun p => ((p.1.name, p.1.offset, Hs.name p.1.ty), p.2))

theorem fieldNode_name (p : (Str × Nat × Str) × Meta.MetaData) : Node.name (fieldNode p) = "field".toList := rfl

theorem loadFields_spec (hs : Src key Hs Rs rank) {rec : ISt → Str → ISt × Res TId} {f : Nat}
    (hrec : RecSpec key Hs Rs rank Ms L N0 M0 rec f) {pend : Str → Prop} (r : Nat) (post : List Node)
    (hpost : ∀ x ∈ post, Node.name x ≠ "field".toList) (ps : List (FieldD × Meta.MetaData)) :
    ∀ (s : ISt) (acc : List (FieldD × Meta.MetaData)), St key Hs Rs Ms L N0 M0 pend s →
      (∀ p ∈ ps, Rs.regd Hs p.1.ty ∧ rank p.1.ty < r ∧ PendOk Hs Rs rank pend p.1.ty ∧ p.1.offset < TypeBuilder.W ∧ Meta.Ok p.2) →
      s.map.length < f →
      ∃ s' gs, loadFields rec (ps.map (fun p => fieldNode ((p.1.name, p.1.offset, Hs.name p.1.ty), p.2)) ++ post) acc s =
          (s', .ok (acc ++ gs)) ∧ St key Hs Rs Ms L N0 M0 pend s' ∧ Ext Hs Rs rank r s.H s.R s'.H s'.R ∧
        SameFields Hs s' gs ps ∧ (∀ g ∈ gs, s'.R.regd s'.H g.1.ty) ∧ s'.map.Sublist s.map := by
  induction ps with
  | nil =>
    intro s acc h _ _
    refine ⟨s, [], ?_, h, Ext.refl _ _, rfl, by simp, List.Sublist.refl _⟩
    rw [List.map_nil, List.nil_append, List.append_nil]
    clear h hrec
    induction post with
    | nil => rfl
    | cons x post ih =>
      unfold loadFields
      rw [if_pos (hpost x (by simp))]
      exact ih (fun y hy => hpost y (by simp [hy]))
  | cons p ps ih =>
    intro s acc h hp hlen
    obtain ⟨p1, p2, p3, p4, p5⟩ := hp p (by simp)
    obtain ⟨s1, t, e1, h1, x1, r1, d1, m1⟩ := hrec pend s p.1.ty h p1 p3 hlen
    obtain ⟨s2, gs, e2, h2, x2, f2, r2, m2⟩ := ih s1 (acc ++ [(⟨p.1.name, p.1.offset, t⟩, p.2)]) h1
      (fun q hq => hp q (by simp [hq])) (Nat.lt_of_le_of_lt m1.length_le hlen)
    refine ⟨s2, (⟨p.1.name, p.1.offset, t⟩, p.2) :: gs, ?_, h2, x1.trans x2 p2 (Nat.le_refl _), ?_, ?_, m2.trans m1⟩
    · rw [List.map_cons, List.cons_append]
      unfold loadFields
      rw [if_neg (fun h => h (fieldNode_name _))]
      have g1 : getAttr (fieldNode ((p.1.name, p.1.offset, Hs.name p.1.ty), p.2)) "name" = .ok p.1.name := rfl
      have g2 : getAttr (fieldNode ((p.1.name, p.1.offset, Hs.name p.1.ty), p.2)) "type" = .ok (Hs.name p.1.ty) := rfl
      have g3 : getSizeAttr (fieldNode ((p.1.name, p.1.offset, Hs.name p.1.ty), p.2)) "offset" = .ok p.1.offset :=
        castSize_natStr p4
      have g4 : loadMeta (Node.children (fieldNode ((p.1.name, p.1.offset, Hs.name p.1.ty), p.2))) [] = .ok p.2 :=
        loadMeta_body [] (by simp) p5
      rw [g1, g2, g3, g4]
      simp only [pureRes, bind'_ok, e1]
      rw [e2, List.append_assoc]
      rfl
    · unfold SameFields at f2 ⊢
      rw [List.map_cons, List.map_cons, f2]
      congr 1
      have : s2.H.name t = Hs.name p.1.ty := by
        unfold Heap.name
        rw [x2.get t (h1.w.inv.reg_name r1).2.2.2]
        exact (definition_parts d1).1
      rw [this]
    · intro g hg
      rcases List.mem_cons.mp hg with rfl | hg
      · exact x2.regd h1.w.inv r1
      · exact r2 g hg

theorem St.setFields {pend : Str → Prop} {s : ISt} (h : St key Hs Rs Ms L N0 M0 pend s) (ms : List Meta.MetaData) :
    St key Hs Rs Ms L N0 M0 pend { s with md := s.md.setFields s.H.next ms } := by
  refine h.grow (s' := { s with md := s.md.setFields s.H.next ms }) (rank := fun _ => 0) (r := 0) h.w (Ext.refl _ _) rfl h.clear ?_
    (fun t u h1 h2 => absurd h1 (Nat.not_le.mpr h2))
  intro t ht
  refine ⟨rfl, ?_⟩
  show (if t = s.H.next then _ else _) = _
  rw [if_neg (Nat.ne_of_lt ht)]

theorem compound_spec (hk : ∀ a b, key a = key b → a = b) (hs : Src key Hs Rs rank) (hw : Wanted Hs Rs Ms L)
    {rec : ISt → Str → ISt × Res TId} {f : Nat} (hrec : RecSpec key Hs Rs rank Ms L N0 M0 rec f) {pend : Str → Prop} {s : ISt}
    (h : St key Hs Rs Ms L N0 M0 pend s) {u : TId} (hu : Rs.regd Hs u) {fs : List FieldD} (hkd : Hs.kind u = .comp fs)
    (hpend : ∀ x, x ∈ Hs.deps u → PendOk Hs Rs rank pend x) (hlen : s.map.length < f) (hnone : s.R.reg (Hs.name u) = none)
    {n : TNode} (hn : n.xml = typeNode (definition Hs u) (Ms.own u) (Ms.fields u) n.file) :
    Made key Hs Rs rank Ms L N0 M0 pend s u (loadCompound key rec s (Hs.name u) n) := by
  have hst := hs.stor u hu
  unfold Storable at hst
  rw [hkd] at hst
  obtain ⟨hsz, hoff, hord⟩ := hst
  have hdef : definition Hs u = (Hs.name u, Hs.size u, .comp (fs.map (fun f => (f.name, f.offset, Hs.name f.ty)))) := by
    unfold definition; rw [hkd]; rfl
  have hcount := hw.count u fs hu hkd
  rw [hdef] at hn
  have hch : Node.children n.xml = (fs.zip (Ms.fields u)).map
      (fun p => fieldNode ((p.1.name, p.1.offset, Hs.name p.1.ty), p.2)) ++ metaNodes (Ms.own u) := by
    rw [hn]
    show ((fs.map (fun f => (f.name, f.offset, Hs.name f.ty))).zip (Ms.fields u)).map fieldNode ++ metaNodes (Ms.own u) = _
    rw [List.zip_map_left, List.map_map]
    rfl
  have hsize : getSizeAttr n.xml "size" = .ok (Hs.size u) := by
    rw [hn]
    exact castSize_natStr hsz
  have hmem : ∀ p ∈ fs.zip (Ms.fields u), p.1 ∈ fs ∧ p.2 ∈ Ms.fields u := by
    rintro ⟨a, b⟩ hp
    exact List.of_mem_zip hp
  obtain ⟨s1, gs, e1, h1, x1, f1, r1, m1⟩ := loadFields_spec hs hrec (rank u) (metaNodes (Ms.own u))
    (fun x hx => by rw [metaNodes_name _ x hx]; decide) (fs.zip (Ms.fields u)) s [] h (by
      intro p hp
      obtain ⟨q1, q2⟩ := hmem p hp
      have hd : p.1.ty ∈ Hs.deps u := by
        unfold Heap.deps; rw [hkd]; exact List.mem_map.mpr ⟨p.1, q1, rfl⟩
      obtain ⟨a, b⟩ := hs.deps u _ hu hd
      exact ⟨a, b, hpend _ hd, hoff _ q1, hw.fields u hu _ q2⟩) hlen
  unfold SameFields at f1
  have fa : gs.map (fun g => (g.1.name, g.1.offset, s1.H.name g.1.ty)) = fs.map (fun f => (f.name, f.offset, Hs.name f.ty)) := by
    have := congrArg (List.map Prod.fst) f1
    rw [List.map_map, List.map_map] at this
    have h2 : (fs.zip (Ms.fields u)).map (fun p => (p.1.name, p.1.offset, Hs.name p.1.ty)) =
        ((fs.zip (Ms.fields u)).map Prod.fst).map (fun f => (f.name, f.offset, Hs.name f.ty)) := by rw [List.map_map]; rfl
    rw [List.map_fst_zip (by omega)] at h2
    exact this.trans h2
  have fb : gs.map (·.2) = Ms.fields u := by
    have := congrArg (List.map Prod.snd) f1
    rw [List.map_map, List.map_map] at this
    have h2 : (fs.zip (Ms.fields u)).map Prod.snd = Ms.fields u := List.map_snd_zip (by omega)
    exact this.trans h2
  have hsorted : sortFields gs = gs := by
    refine sortFields_sorted gs ?_
    have h2 : (gs.map (fun g => (g.1.name, g.1.offset))) = fs.map (fun f => (f.name, f.offset)) := by
      have := congrArg (List.map (fun x : Str × Nat × Str => (x.1, x.2.1))) fa
      rw [List.map_map, List.map_map] at this
      exact this
    have h3 : (fs.map (fun f => (f.name, f.offset))).Pairwise (fun a b => CompoundModel.fieldLe ⟨a.1, a.2, 0⟩ ⟨b.1, b.2, 0⟩) :=
      List.pairwise_map.mpr (hord.imp (fun {a b} h => h))
    rw [← h2] at h3
    rw [List.pairwise_map] at h3 ⊢
    exact h3.imp (fun {a b} h => h)
  have hnone1 : s1.R.reg (Hs.name u) = none := by
    rcases x1.fresh u hu hnone with e | e
    · exact e
    · exact absurd e (Nat.lt_irrefl _)
  have hdesc : Kind.desc s1.H.name (.comp (gs.map (·.1))) = (definition Hs u).2.2 := by
    rw [hdef]
    show Desc.comp ((gs.map (·.1)).map _) = _
    rw [List.map_map]
    exact congrArg Desc.comp fa
  obtain ⟨s2, t, e2, h2, x2, r2, d2, m2⟩ := insert_spec hk hs hw (h1.setFields (gs.map (·.2))) hu (n := n)
    (pre := (fs.zip (Ms.fields u)).map (fun p => fieldNode ((p.1.name, p.1.offset, Hs.name p.1.ty), p.2)))
    (by
      intro x hx
      obtain ⟨p, _, rfl⟩ := List.mem_map.mp hx
      rw [fieldNode_name]; decide) hch (d := ⟨Hs.name u, Hs.size u, .comp (gs.map (·.1))⟩)
    (by
      intro x hx
      obtain ⟨g, hg, rfl⟩ := List.mem_map.mp hx
      obtain ⟨g', hg', rfl⟩ := List.mem_map.mp hg
      exact r1 g' hg') (by intro l hl; cases hl) (by
      show (Hs.name u, Hs.size u, Kind.desc s1.H.name (.comp (gs.map (·.1)))) = _
      rw [hdesc]
      rfl) hnone1
    (by
      intro _ _
      show (if s1.H.next = s1.H.next then _ else _) = _
      rw [if_pos rfl, fb])
  refine ⟨s2, t, ?_, h2, ?_, r2, d2, ?_⟩
  · unfold loadCompound
    rw [hsize, hch]
    simp only [pureRes, bind'_ok]
    rw [e1]
    simp only [bind'_ok, List.nil_append, hsorted]
    exact e2
  · exact x1.trans x2 (Nat.le_succ _) (Nat.le_refl _)
  · exact List.Sublist.trans m2 m1

end Verif.Tlb
