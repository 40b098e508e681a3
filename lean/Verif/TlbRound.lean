import Verif.TlbLoad


/-! Property C38: a registry that is exported and read back. -/

namespace Verif.Tlb
open Verif Verif.Names Verif.Graph Verif.Registry Verif.TypeBuilder Verif.StdMap Verif.Merge Verif.Xml

/-- What is asked of a registry and its metadata so that the TLB format can hold it, besides `Src`: all types but arrays
and pointers are persistent (which is what `Registry::add` decides), the base of a persistent name is persistent, the
metadata is as `MetaData` keeps it, and the strings can be written in XML without more escaping than the exporter does. -/
structure Exportable (H : Heap) (R : Reg) (M : Metas) : Prop where
  persistent : ∀ u e, R.regd H u → (H.name u, e) ∈ R.global → (e.persistent = true ↔ ¬ IsDecl (H.kind u))
  base : ∀ n e, (n, e) ∈ R.global → e.persistent = true → ∀ b l, n = b ++ declText l → BaseName b →
    ∃ e', (b, e') ∈ R.global ∧ e'.persistent = true
  own : ∀ u, R.regd H u → Meta.Ok (M.own u)
  fields : ∀ u, R.regd H u → ∀ m ∈ M.fields u, Meta.Ok m
  count : ∀ u fs, R.regd H u → H.kind u = .comp fs → (M.fields u).length = fs.length
  clean : ∀ p ∈ R.global, p.2.persistent = true → Clean H M p

variable {key : Char → Int} {Hs : Heap} {Rs : Reg} {rank : TId → Nat} {Ms : Metas}

theorem wanted (hk : ∀ a b, key a = key b → a = b) (hac : Acyclic Hs) (hr : Reachable key Hs Rs) (hs : Src key Hs Rs rank)
    (he : Exportable Hs Rs Ms) : ∃ l, Exporter.save key Hs (fun _ => true) Rs = (l, .ok ()) ∧ Wanted Hs Rs Ms l ∧
      ∀ p, p ∈ l ↔ p ∈ Rs.global ∧ p.2.persistent = true := by
  have hok : (Exporter.save key Hs (fun _ => true) Rs).2 = .ok () :=
    (Exporter.C33_outcome hk hac hr (fun _ => true)).2.mpr
      ⟨fun t d ht hd => (hs.deps t d ht hd).1, rank, fun t d ht hd => (hs.deps t d ht hd).2⟩
  obtain ⟨hperm, _⟩ := (Exporter.C33_order hk hac hr (fun _ => true)).2 hok
  have hmem : ∀ p, p ∈ (Exporter.save key Hs (fun _ => true) Rs).1 ↔ p ∈ Rs.global ∧ p.2.persistent = true := by
    intro p
    rw [hperm.mem_iff, List.mem_filter]
  refine ⟨(Exporter.save key Hs (fun _ => true) Rs).1, Prod.ext rfl hok, ⟨?_, ?_, ?_, ?_, ?_, he.own, he.fields, he.count⟩, hmem⟩
  · intro p hp
    exact mem_reg hs.inv.sorted ((hmem p).mp hp).1
  · refine (hperm.map _).nodup_iff.mpr ?_
    exact (Exporter.sorted_nodup hs.inv.sorted).sublist (List.filter_sublist.map _)
  · intro u hu hd
    obtain ⟨e, hm, ht⟩ := reg_mem hu
    exact ⟨e, (hmem _).mpr ⟨hm, (he.persistent u e hu hm).mpr hd⟩⟩
  · intro p hp hn
    obtain ⟨h1, h2⟩ := (hmem p).mp hp
    have hu : Rs.regd Hs p.2.ty := (hs.inv.reg_name (mem_reg hs.inv.sorted h1)).2.2.1
    refine (he.persistent p.2.ty p.2 hu ?_).mp h2
    rw [← hn]; exact h1
  · intro p hp b l hn hb
    obtain ⟨h1, h2⟩ := (hmem p).mp hp
    obtain ⟨e, h3, h4⟩ := he.base p.1 p.2 h1 h2 b l hn hb
    exact ⟨e, (hmem _).mpr ⟨h3, h4⟩⟩

/-- **C38.** Export then import. The exported registry is any reachable one that the format can hold (`Src`,
`Exportable`); the registry that reads it is any one whose types are among the exported ones (the empty one, for
instance, see below), and whose future objects have no metadata. The export succeeds, the import of its text succeeds,
and then every persistent name of the exported registry designates a type of the same definition: same name, size,
class, category, symbols and values, fields with their offsets and types, dimension, element. Nothing is known that the
exported registry does not know. Types made by the import have the metadata that was exported, also that of their
fields. All that existed before is unchanged.

Partial: the hypotheses exclude what the format loses or cannot write; see the counterexamples below. -/
theorem C38_roundtrip_partial (hk : ∀ a b, key a = key b → a = b) (hac : Acyclic Hs) (hr : Reachable key Hs Rs)
    (hs : Src key Hs Rs rank) (he : Exportable Hs Rs Ms) {H : Heap} {R : Reg} {M : Metas} (hd : Within key Hs Rs H R)
    (hm : ∀ t, H.next ≤ t → M.own t = []) :
    ∃ text s', exportTlb key Hs Ms Rs = .ok text ∧ importTlb key H R M text = (s', .ok ()) ∧
      (∀ n e, (n, e) ∈ Rs.global → e.persistent = true → ∃ t, s'.R.reg n = some t ∧ definition s'.H t = definition Hs e.ty) ∧
      (∀ n t, s'.R.reg n = some t → ∃ u, Rs.reg n = some u ∧ definition s'.H t = definition Hs u) ∧
      (∀ n t u, s'.R.reg n = some t → Rs.reg n = some u → H.next ≤ t → ¬ IsDecl (Hs.kind u) →
        s'.md.own t = Ms.own u ∧ ∀ fs, Hs.kind u = .comp fs → s'.md.fields t = Ms.fields u) ∧
      (∀ t, t < H.next → s'.H.get t = H.get t ∧ s'.md.own t = M.own t ∧ s'.md.fields t = M.fields t) ∧
      (∀ n t, R.reg n = some t → s'.R.reg n = some t) ∧
      (∀ t x, s'.R.regd s'.H t → x ∈ s'.H.deps t → s'.R.regd s'.H x) := by
  obtain ⟨l, hsave, hw, hmem⟩ := wanted hk hac hr hs he
  have htext : exportTlb key Hs Ms Rs = .ok (emitDoc Hs Ms l) := by unfold exportTlb; rw [hsave]
  have hdoc := C38_document (H := Hs) (M := Ms) (l := l)
    (fun p hp => he.clean p ((hmem p).mp hp).1 ((hmem p).mp hp).2)
  obtain ⟨m, a1, a2, a3, _, a5⟩ := registerAll_spec hw l [] (fun _ x => x) List.Pairwise.nil (by simp)
  have hst : St key Hs Rs Ms l H.next M (fun _ => False) ⟨H, R, M, m⟩ := by
    refine ⟨hd, Nat.le_refl _, hm, fun _ _ => ⟨rfl, rfl⟩, ?_, a2, a3, fun p hp hf => absurd hf (a5 p hp)⟩
    intro t u h1 h2
    exact absurd h1 (Nat.not_le.mpr (hd.inv.reg_name h2).2.2.2)
  obtain ⟨s', b1, b2, b3, b4, b5, b6⟩ := buildAll_spec hk hs hw (m.length + 1) _ hst (Nat.lt_succ_self _)
  refine ⟨_, s', htext, ?_, ?_, b2.w.sim, ?_, ?_, b6, b2.w.closed⟩
  · unfold importTlb
    rw [hdoc]
    unfold importTree
    simp only
    rw [if_neg (fun h => h rfl)]
    show bind' (pureRes _ (registerAll (l.map (entryNode Hs Ms)) [])) _ = _
    rw [a1]
    exact b1
  · intro n e hn hp
    have hin : (n, e) ∈ l := (hmem _).mpr ⟨hn, hp⟩
    rcases b2.cover (n, e) hin (by rw [b3]; rfl) with ⟨t, ht⟩ | x
    · exact ⟨t, ht, b2.w.def_eq ht (hw.reg _ hin)⟩
    · exact absurd x id
  · intro n t u hn hu h1 h2
    have hdef := b2.w.def_eq hn hu
    exact b2.new t u h1 (b2.w.inv.reg_name hn).2.2.1 (hs.inv.reg_name hu).2.2.1 (definition_parts hdef).1 h2
  · intro t ht
    exact ⟨b5 t ht, b2.old t ht⟩

end Verif.Tlb
