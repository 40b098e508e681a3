import Verif.TlbWorld

/-! Property C38, fifth part: arrays and pointers built on the way. -/

namespace Verif.Tlb
open Verif Verif.Names Verif.Graph Verif.Registry Verif.TypeBuilder Verif.StdMap Verif.Merge Verif.Xml

variable {key : Char → Int} {Hs : Heap} {Rs : Reg} {rank : TId → Nat}

theorem Ext.regd {r : Nat} {H H' : Heap} {R R' : Reg} (h : Ext Hs Rs rank r H R H' R') (hw : Inv key H R) {t : TId}
    (ht : R.regd H t) : R'.regd H' t := by
  have : t < H.next := (hw.reg_name ht).2.2.2
  unfold Reg.regd
  unfold Heap.name
  rw [h.get t this]
  exact h.ext _ _ ht

/-- objects made by `TypeBuilder` -/
def IsDecl (k : Kind) : Prop := ∃ m x, k = Decl.kind m x

theorem applied_down (hs : Src key Hs Rs rank) {v u : TId} {l : List Decl} (h : Applied Hs v l u) (hu : Rs.regd Hs u) :
    Rs.regd Hs v ∧ rank v ≤ rank u ∧ Hs.name u = Hs.name v ++ declText l ∧ ∀ m ∈ l, Decl.Fits m := by
  induction h with
  | nil => exact ⟨hu, Nat.le_refl _, by simp [declText], by simp⟩
  | @snoc l x w m _ hk ih =>
    obtain ⟨h1, h2⟩ := hs.decl_elem hu hk
    obtain ⟨i1, i2, i3, i4⟩ := ih h1
    obtain ⟨d1, d2⟩ := hs.decl hu hk
    refine ⟨i1, by omega, ?_, ?_⟩
    · have : Hs.name w = Hs.name x ++ m.text := by
        unfold Heap.name
        rw [d1]
        cases m <;> rfl
      rw [this, i3, declText_append, List.append_assoc]
      simp [declText]
    · intro m' hm
      rw [List.mem_append, List.mem_singleton] at hm
      rcases hm with hm | rfl
      · exact i4 m' hm
      · exact d2

/-- every name of the source is a base name of the source with modifiers -/
theorem Src.split (hs : Src key Hs Rs rank) : ∀ (n : Str) (u : TId), Rs.reg n = some u →
    ∃ b l ub, n = b ++ declText l ∧ BaseName b ∧ Rs.reg b = some ub ∧ Applied Hs ub l u := by
  intro n
  induction hn : n.length using Nat.strongRecOn generalizing n with
  | ind k ih =>
    intro u hu
    rcases hs.names n u hu with h | ⟨b, m, x, e1, e2, e3⟩
    · exact ⟨n, [], u, by simp [declText], h, hu, .nil⟩
    · have hlen : b.length < k := by
        rw [← hn, e1, List.length_append]
        have : 0 < m.text.length := by cases m <;> simp [Decl.text]
        omega
      obtain ⟨b', l, ub, f1, f2, f3, f4⟩ := ih b.length hlen b rfl x e2
      refine ⟨b', l ++ [m], ub, ?_, f2, f3, .snoc m f4 e3⟩
      rw [e1, f1, declText_append, List.append_assoc]
      simp [declText]

/-- one step -/
theorem step_within (hk : ∀ a b, key a = key b → a = b) (hs : Src key Hs Rs rank) {H : Heap} {R : Reg}
    (h : Within key Hs Rs H R) {t x v : TId} {m : Decl} (ht : R.regd H t) (hd : definition H t = definition Hs x)
    (hv : Rs.regd Hs v) (hkv : Hs.kind v = m.kind x) :
    let o := getOrAdd key (H, R) (m.defOf H t)
    ∃ t', o.2 = .ok t' ∧ Within key Hs Rs o.1.1 o.1.2 ∧ o.1.2.regd o.1.1 t' ∧ definition o.1.1 t' = definition Hs v ∧
      Ext Hs Rs rank (rank v + 1) H R o.1.1 o.1.2 ∧ ∀ y, H.next ≤ y → y < o.1.1.next → IsDecl (o.1.1.kind y) := by
  intro o
  obtain ⟨hdef, hfit⟩ := hs.decl hv hkv
  obtain ⟨hn, hsz, _⟩ := definition_parts hd
  have hname : (m.defOf H t).name = Hs.name v := by
    unfold Heap.name
    rw [hdef]
    cases m with
    | ptr => show H.name t ++ _ = Hs.name x ++ _; rw [hn]
    | arr d => show H.name t ++ _ = Hs.name x ++ _; rw [hn]
  have hkd : (m.defOf H t).kind = m.kind t := by cases m <;> rfl
  have hget : R.get (m.defOf H t).name = R.reg (Hs.name v) := by rw [hname, h.abs (hs.abs hv)]
  have ho : o = getOrAdd key (H, R) (m.defOf H t) := rfl
  unfold getOrAdd at ho
  simp only [hget] at ho
  cases hr : R.reg (Hs.name v) with
  | some t' =>
    rw [hr] at ho
    rw [ho]
    exact ⟨t', rfl, h, (h.inv.reg_name hr).2.2.1, h.def_eq hr hv, Ext.refl _ _, fun y h1 h2 => absurd h1 (Nat.not_le.mpr h2)⟩
  | none =>
    rw [hr] at ho
    have hdesc : ((m.defOf H t).name, (m.defOf H t).size, Kind.desc H.name (m.defOf H t).kind) = definition Hs v := by
      unfold definition
      rw [hname, hkd, hkv]
      congr 2
      · unfold Heap.size
        rw [hdef]
        cases m with
        | ptr => rfl
        | arr d => show d * H.size t % _ = d * Hs.size x % _; rw [hsz]
      · cases m <;> simp [Decl.kind, Kind.desc, hn]
    obtain ⟨a1, a2, a3, a4⟩ := within_add hk hs h (d0 := m.defOf H t) (d := m.defOf H t) rfl rfl hv
      (by intro y hy; rw [hkd, Decl.deps, List.mem_singleton] at hy; rw [hy]; exact ht)
      (by intro s hs'; rw [hkd] at hs'; cases m <;> cases hs') hdesc hr []
    have hpair : addAuto key (H.alloc (m.defOf H t)) R H.next [] =
        ((addAuto key (H.alloc (m.defOf H t)) R H.next []).1, .ok ()) := Prod.ext rfl a1
    simp only at ho
    rw [hpair] at ho
    rw [ho]
    refine ⟨H.next, rfl, a2, (a2.inv.reg_name a3).2.2.1, a2.def_eq a3 hv, a4, ?_⟩
    intro y h1 h2
    have : y = H.next := Nat.le_antisymm (Nat.lt_succ_iff.mp h2) h1
    subst this
    refine ⟨m, t, ?_⟩
    show ((H.alloc _).get H.next).kind = _
    rw [alloc_get_new, hkd]

theorem applyMod_decl (m : Decl) (hf : m.Fits) (w : World) (t : TId) :
    applyMod key w t m.modifier = getOrAdd key w (m.defOf w.1 t) := by
  cases m with
  | ptr =>
    show addPointer key 1 w t = _
    unfold addPointer
    show _ = getOrAdd key w (ptrDef w.1 t)
    cases getOrAdd key w (ptrDef w.1 t) with
    | mk w' r => cases r <;> rfl
  | arr d =>
    show getOrAdd key w (arrDef w.1 t (toSizeT d)) = getOrAdd key w (arrDef w.1 t d)
    rw [toSizeT_nat hf]

theorem mods_within (hk : ∀ a b, key a = key b → a = b) (hs : Src key Hs Rs rank) (l : List Decl) :
    ∀ {H : Heap} {R : Reg} {t x u : TId}, Within key Hs Rs H R → R.regd H t → definition H t = definition Hs x →
      Rs.regd Hs u → Applied Hs x l u →
      ∃ t', (applyMods key (H, R) t (l.map Decl.modifier)).2 = .ok t' ∧
        Within key Hs Rs (applyMods key (H, R) t (l.map Decl.modifier)).1.1 (applyMods key (H, R) t (l.map Decl.modifier)).1.2 ∧
        (applyMods key (H, R) t (l.map Decl.modifier)).1.2.regd (applyMods key (H, R) t (l.map Decl.modifier)).1.1 t' ∧
        definition (applyMods key (H, R) t (l.map Decl.modifier)).1.1 t' = definition Hs u ∧
        Ext Hs Rs rank (rank u + 1) H R (applyMods key (H, R) t (l.map Decl.modifier)).1.1
          (applyMods key (H, R) t (l.map Decl.modifier)).1.2 ∧
        ∀ y, H.next ≤ y → y < (applyMods key (H, R) t (l.map Decl.modifier)).1.1.next →
          IsDecl ((applyMods key (H, R) t (l.map Decl.modifier)).1.1.kind y) := by
  induction l with
  | nil =>
    intro H R t x u h ht hd hu ha
    rw [ha.of_nil]
    exact ⟨t, rfl, h, ht, hd, Ext.refl _ _, fun y h1 h2 => absurd h1 (Nat.not_le.mpr h2)⟩
  | cons m l ih =>
    intro H R t x u h ht hd hu ha
    obtain ⟨v, hkv, ha'⟩ := ha.cons_iff
    obtain ⟨hv, hr, _, _⟩ := applied_down hs ha' hu
    obtain ⟨_, hfit⟩ := hs.decl hv hkv
    obtain ⟨t', b1, b2, b3, b4, b5, b6⟩ := step_within hk hs h ht hd hv hkv
    have hp : applyMod key (H, R) t m.modifier = ((getOrAdd key (H, R) (m.defOf H t)).1, .ok t') := by
      rw [applyMod_decl m hfit]
      exact Prod.ext rfl b1
    have hw : applyMods key (H, R) t ((m :: l).map Decl.modifier) =
        applyMods key ((getOrAdd key (H, R) (m.defOf H t)).1.1, (getOrAdd key (H, R) (m.defOf H t)).1.2) t' (l.map Decl.modifier) := by
      rw [List.map_cons]
      show (match applyMod key (H, R) t m.modifier with
        | (w', .ok u) => applyMods key w' u (l.map Decl.modifier)
        | r => r) = _
      rw [hp]
    rw [hw]
    obtain ⟨t2, c1, c2, c3, c4, c5, c6⟩ := ih b2 b3 b4 hu ha'
    refine ⟨t2, c1, c2, c3, c4, b5.trans c5 (Nat.succ_le_succ hr) (Nat.le_refl _), ?_⟩
    intro y h1 h2
    by_cases hy : (getOrAdd key (H, R) (m.defOf H t)).1.1.next ≤ y
    · exact c6 y hy h2
    · have hy' : y < (getOrAdd key (H, R) (m.defOf H t)).1.1.next := Nat.lt_of_not_le hy
      unfold Heap.kind
      rw [c5.get y hy']
      exact b6 y h1 hy'

theorem parse_decl {b : Str} (hb : BaseName b) {l : List Decl} (hf : ∀ m ∈ l, Decl.Fits m) :
    parseTypename (b ++ declText l) = .ok (b, l.map Decl.modifier) := by
  have := C37_parse b hb (l.map (fun m => (0, m))) 0 (by
    intro p hp
    obtain ⟨m, hm, rfl⟩ := List.mem_map.mp hp
    exact hf m hm)
  rw [List.map_map] at this
  rw [show spacedText (l.map (fun m => (0, m))) 0 = declText l from by
    simp [spacedText, declText, List.flatMap_map]] at this
  exact this

/-- `Registry::build` of a name of the source whose base is registered -/
theorem build_within (hk : ∀ a b, key a = key b → a = b) (hs : Src key Hs Rs rank) {H : Heap} {R : Reg}
    (h : Within key Hs Rs H R) {b : Str} {l : List Decl} {ub u t : TId} (hb : BaseName b) (hub : Rs.reg b = some ub)
    (ha : Applied Hs ub l u) (hu : Rs.reg (b ++ declText l) = some u) (ht : R.reg b = some t) :
    ∃ t' H' R', TypeBuilder.build key (H, R) (b ++ declText l) 0 = ((H', R'), .ok (some t')) ∧
      Within key Hs Rs H' R' ∧ R'.regd H' t' ∧ definition H' t' = definition Hs u ∧ Ext Hs Rs rank (rank u + 1) H R H' R' ∧
      ∀ y, H.next ≤ y → y < H'.next → IsDecl (H'.kind y) := by
  have huu : Rs.regd Hs u := (hs.inv.reg_name hu).2.2.1
  obtain ⟨_, _, _, hf⟩ := applied_down hs ha huu
  unfold TypeBuilder.build
  simp only [h.abs (hs.abs hu)]
  cases hr : R.reg (b ++ declText l) with
  | some t' =>
    exact ⟨t', H, R, rfl, h, (h.inv.reg_name hr).2.2.1, h.def_eq hr hu, Ext.refl _ _,
      fun y h1 h2 => absurd h1 (Nat.not_le.mpr h2)⟩
  | none =>
    obtain ⟨t', c1, c2, c3, c4, c5, c6⟩ := mods_within hk hs l h (h.inv.reg_name ht).2.2.1 (h.def_eq ht hub) huu ha
    have e : applyMods key (H, R) t (l.map Decl.modifier) = ((applyMods key (H, R) t (l.map Decl.modifier)).1, .ok t') :=
      Prod.ext rfl c1
    refine ⟨t', _, _, ?_, c2, c3, c4, c5, c6⟩
    unfold getFullName
    rw [hs.abs hu]
    simp only [if_true]
    unfold buildName
    rw [parse_decl hb hf]
    simp only [h.abs (hs.abs hub), ht]
    unfold buildSpec
    rw [e]
    rfl

end Verif.Tlb
