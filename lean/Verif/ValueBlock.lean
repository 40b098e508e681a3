import Verif.ValueWalk

/-! The element blocks of a layout. -/

namespace Verif.Value
open Verif Verif.Layout

/-- element types that a container may have -/
def ElemOk (e : Ty) : Prop := 0 < e.size ∧ e.WF ∧ e.HasLayout false false

/-- a container of a raw layout: its block is the raw layout of the element; `D` bounds the nesting of containers
inside elements -/
def RawBlk (D : Nat) (c : Ty) (b : L) : Prop :=
  match c with
  | .vec cs e => 0 < cs ∧ cs < W ∧ ElemOk e ∧ cdepth e < D ∧ b = rawL e
  | .str cs => 0 < cs ∧ cs < W ∧ 0 < D ∧ b = .mc 1 .nil
  | _ => False

/-- a container of a simplified layout -/
def Blk (merge : Bool) (D : Nat) (c : Ty) (b : L) : Prop :=
  match c with
  | .vec cs e => 0 < cs ∧ cs < W ∧ ElemOk e ∧ cdepth e < D ∧ b = sT merge (rawL e) none 0 0 0
  | .str cs => 0 < cs ∧ cs < W ∧ 0 < D ∧ b = .mc 1 .nil
  | _ => False

theorem all_app (P : Ty → L → Prop) (a b : L) : (a.app b).All P ↔ a.All P ∧ b.All P := by
  induction a <;> simp [L.app, L.All, *] <;> grind

theorem all_flush (P : Ty → L → Prop) (op c : Nat) (k : L) : (flush op c k).All P ↔ k.All P := by
  unfold flush one; split
  · split <;> simp [L.All]
  · rfl

mutual
theorem raw_all : ∀ (t : Ty) (ap ao : Bool) (D : Nat), t.WF → t.HasLayout ap ao → cdepth t ≤ D →
    (rawL t).All (RawBlk D)
  | .num _, _, _, _, _, _, _ => trivial
  | .enum _ _, _, _, _, _, _, _ => trivial
  | .arr d e, ap, ao, D, hw, hl, hd => ⟨raw_all e false false D hw.2.2.2 hl hd, trivial⟩
  | .vec c e, ap, ao, D, hw, hl, hd => by
    have hd : cdepth e + 1 ≤ D := hd
    refine ⟨⟨hw.1, hw.2.1, ⟨hw.2.2.1, hw.2.2.2, hl⟩, by omega, rfl⟩, ?_, trivial⟩
    exact raw_all e false false D hw.2.2.2 hl (by omega)
  | .str c, ap, ao, D, hw, hl, hd => by
    have hd : 1 ≤ D := hd
    exact ⟨⟨hw.1, hw.2, by omega, rfl⟩, trivial, trivial⟩
  | .comp n fs, ap, ao, D, hw, hl, hd => raw_allF fs ap ao D 0 n hw.2 hl hd
  | .ptr _, _, _, _, _, _, _ => trivial
  | .opaq _, _, _, _, _, _, _ => trivial
theorem raw_allF : ∀ (fs : Fields) (ap ao : Bool) (D cur n : Nat), fs.WF cur n → fs.HasLayout ap ao → cdepthF fs ≤ D →
    ∀ {cur' : Nat}, (rawLF cur' n fs).All (RawBlk D)
  | .nil, _, _, _, _, _, _, _, _, _ => trivial
  | .cons off t r, ap, ao, D, cur, n, hw, hl, hd, cur' => by
    have hd : max (cdepth t) (cdepthF r) ≤ D := hd
    show ((rawL t).app _).All _
    rw [all_app]
    exact ⟨raw_all t ap ao D hw.2.1 hl.1 (by omega), raw_allF r ap ao D _ n hw.2.2 hl.2 (by omega)⟩
end

theorem sT_all (merge : Bool) (D : Nat) (l : L) : l.All (RawBlk D) → ∀ mode op c skc,
    (sT merge l mode op c skc).All (Blk merge D) := by
  induction l with
  | nil =>
    intro _ mode op c skc
    cases mode with
    | none => simp only [sT, fin, all_flush, L.All]
    | some r =>
      simp only [sT, fin]
      split
      · split
        · unfold one; split <;> simp [L.All]
        · simp [L.All]
      · simp [L.All]
  | mc n k ih =>
    intro hl mode op c skc
    have ih := ih hl
    simp only [sT]
    split
    · exact ih ..
    · split
      · exact ih ..
      · rw [all_flush]; exact ih ..
  | sk n k ih =>
    intro hl mode op c skc
    have ih := ih hl
    simp only [sT]
    split
    · exact ih ..
    · split
      · exact ih ..
      · rw [all_flush]; exact ih ..
  | ar n b k ihb ihk =>
    intro hl mode op c skc
    have ihk := ihk hl.2
    have ihb := ihb hl.1
    simp only [sT]
    split
    · split
      · exact ihk ..
      · rw [all_flush]; exact ihk ..
    · rw [all_flush]; exact ⟨ihb .., ihk ..⟩
  | co ct b k ihb ihk =>
    intro hl mode op c skc
    have ihk := ihk hl.2.2
    have ihb := ihb hl.2.1
    simp only [sT]
    rw [all_flush]
    refine ⟨?_, ihb .., ihk ..⟩
    have := hl.1
    unfold RawBlk at this
    unfold Blk
    split at this
    · obtain ⟨h1, h2, h3, h4, rfl⟩ := this; exact ⟨h1, h2, h3, h4, rfl⟩
    · obtain ⟨h1, h2, h3, rfl⟩ := this; exact ⟨h1, h2, h3, by simp [sT, fin, flush, one]⟩
    · exact this

theorem layL_all (ap ao merge rem : Bool) (t : Ty) (hw : t.WF) (hl : t.HasLayout ap ao) :
    (layL merge rem t).All (Blk merge (cdepth t)) :=
  sT_all _ _ _ (raw_all t ap ao _ hw hl (Nat.le_refl _)) _ _ _ _

/-- the element block describes the whole element -/
theorem blk_expand {merge : Bool} {e : Ty} (h : ElemOk e) :
    (sT merge (rawL e) none 0 0 0).expand = (kinds e).map (mp merge) := by
  have := expand_sT_block merge (rawL e) 0 0 0 (Or.inl rfl) (by simp)
  simpa [expand_raw e h.2.1] using this

theorem elemLayout_eq {e : Ty} (h : ElemOk e) : elemLayout e = ⟨(layL true true e).enc, (layI e).enc⟩ := by
  unfold elemLayout
  rw [layoutOf_eq false false true true e h.2.1 h.2.2]

theorem elem_block_ne {e : Ty} (h : ElemOk e) : sT true (rawL e) none 0 0 0 ≠ .nil := by
  intro hn
  have h1 := blk_expand (merge := true) h
  rw [hn] at h1
  have := kinds_ne_nil e h.2.1 h.1
  simp only [L.expand] at h1
  exact this (List.map_eq_nil_iff.mp h1.symm)

/-- the layout of an element is never empty -/
theorem elemLayout_nonempty {e : Ty} (h : ElemOk e) : (elemLayout e).ops.isEmpty = false := by
  rw [elemLayout_eq h]
  have h1 : layL true true e ≠ .nil := fun hn => elem_block_ne h (((single_top_block (rawL e) 0 0).1).mpr hn)
  cases hl : layL true true e with
  | nil => exact (h1 hl).elim
  | _ => simp [L.enc]

/-- elements are copied with memcpy exactly when the element block is one memcpy, and then it covers the element -/
theorem elem_memcpy {e : Ty} (h : ElemOk e) :
    (isElementMemcpy e = true → sT true (rawL e) none 0 0 0 = .mc e.size .nil ∧
      (kinds e).map (mp true) = List.replicate e.size .data) ∧
    (isElementMemcpy e = false → ∀ n, sT true (rawL e) none 0 0 0 ≠ .mc n .nil) := by
  have hb := (single_top_block (rawL e) 0 0).2
  have key : isElementMemcpy e = true ↔ ∃ n, layL true true e = .mc n .nil := by
    unfold isElementMemcpy ML.isMemcpy
    rw [elemLayout_eq h]
    cases layL true true e with
    | nil => simp [L.enc]
    | mc n k =>
      cases k <;> simp [L.enc]
    | sk n k => simp [L.enc]
    | ar n b k => simp [L.enc]
    | co c b k => simp [L.enc]
  constructor
  · intro hm
    obtain ⟨n, hn⟩ := hb.mpr (key.mp hm)
    have h1 := blk_expand (merge := true) h
    rw [hn] at h1
    simp only [L.expand, List.append_nil] at h1
    have h2 : itemsSize ((kinds e).map (mp true)) = e.size := by rw [itemsSize_map_mp, kinds_size e h.2.1]
    rw [← h1, itemsSize_replicate _ _ rfl] at h2
    subst h2
    exact ⟨hn, h1.symm⟩
  · intro hm n hn
    rw [Bool.eq_false_iff] at hm
    exact hm (key.mpr (hb.mp ⟨n, hn⟩))

/-- a valid element handled with memcpy is plain bytes -/
theorem Abs.memcpy_bytes {env : Env} {e : Ty} (he : ElemOk e) (hm : isElementMemcpy e = true) {n : Nat} {m : Mem} {v : List AV}
    (h : Abs env (rep n (kinds e)) m v) : ∃ bs : List UInt8, bs.length = n * e.size ∧ m = bs.map .byte ∧ v = bs.map .b := by
  have h1 : Abs env ((rep n (kinds e)).map (mp true)) m v := Abs.map_mp.mpr h
  rw [rep_map, ((elem_memcpy he).1 hm).2, rep_replicate] at h1
  exact Abs.bytes (Or.inl rfl) h1

theorem Abs.of_memcpy_bytes (env : Env) {e : Ty} (he : ElemOk e) (hm : isElementMemcpy e = true) {n : Nat} {bs : List UInt8}
    (h : bs.length = n * e.size) : Abs env (rep n (kinds e)) (bs.map .byte) (bs.map .b) := by
  refine (Abs.map_mp (m := true)).mp ?_
  rw [rep_map, ((elem_memcpy he).1 hm).2, rep_replicate, ← h]
  exact Abs.ofBytes env (Or.inl rfl) bs

/-- the items visited by the layout of a type, and what remains: padding -/
theorem lay_items (merge rem : Bool) (t : Ty) (h : t.WF) : ∃ k, ∀ env m v,
    (Abs env ((layL merge rem t).expand ++ List.replicate k .pad) m v ↔ Abs env (kinds t) m v) := by
  obtain ⟨k, X, h1, h2⟩ := layL_expand merge rem t h
  refine ⟨k, ?_⟩
  intro env m v
  rw [h1, h2]
  constructor
  · intro h
    obtain ⟨m1, m2, v1, v2, rfl, rfl, ha, hb⟩ := h.split
    exact (Abs.map_mp.mp ha).append hb
  · intro h
    obtain ⟨m1, m2, v1, v2, rfl, rfl, ha, hb⟩ := h.split
    exact (Abs.map_mp.mpr ha).append hb

end Verif.Value
