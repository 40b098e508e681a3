import Verif.RubyHash
import Verif.Merge

/-!
C83: theorems on the description of types as Ruby hashes.
-/

namespace Verif.RubyHash
open Verif Verif.Graph Verif.LayoutGraph

/-- **C83, contents**: what `to_h` returns tells name and class of the type, its size (always for numbers, else with `layout_info`), and
what its class documents: symbols with values, length and element, the fields in order with types and (with `layout_info`) offsets; with
`recursive` the same for all parts. -/
theorem C83_contents_partial {H : Heap} (hu : Usual H) {recursive layout : Bool} {f : Nat} {t : TId} {v : RV}
    (h : toH H recursive layout f t = .ok v) : Tells H recursive layout t v := toH_tells hu f t v h

/-! ### termination -/

theorem toH_step {H : Heap} (hu : Usual H) {layout : Bool} {f : Nat} {t : TId} (h : ∀ u, Contains H t u → ∃ v, toH H true layout f u = .ok v) :
    ∃ v, toH H true layout (f + 1) t = .ok v := by
  unfold toH
  cases hk : H.kind t with
  | comp fs =>
    simp only [if_true]
    obtain ⟨l, hl⟩ := fieldHashes_ok (rec := fun u => toH H true layout f u) (fs := fs) (fun g hg => h _ (.field hk hg))
    have hm := fieldHashes_made hl
    have : ∃ l', withOffsets layout fs l = .ok l' := by
      cases layout
      · exact ⟨l, by simp [withOffsets]⟩
      · obtain ⟨l', hl'⟩ := addOffsets_made (hu.ascii t fs hk) (hu.names t fs hk) hm (fun _ h => h)
        exact ⟨l', by simp [withOffsets, hl']⟩
    obtain ⟨l', hl'⟩ := this
    exact ⟨_, Res.bind_eq_ok.mpr ⟨l, hl, Res.bind_eq_ok.mpr ⟨l', hl', rfl⟩⟩⟩
  | arr d e => obtain ⟨v, hv⟩ := h e (.arr hk); exact ⟨_, Res.bind_eq_ok.mpr ⟨v, by simpa using hv, rfl⟩⟩
  | vec e => obtain ⟨v, hv⟩ := h e (.vec hk); exact ⟨_, Res.bind_eq_ok.mpr ⟨v, by simpa using hv, rfl⟩⟩
  | str e => obtain ⟨v, hv⟩ := h e (.str hk); exact ⟨_, Res.bind_eq_ok.mpr ⟨v, by simpa using hv, rfl⟩⟩
  | _ => exact ⟨_, rfl⟩

theorem toH_ends {H : Heap} (hu : Usual H) {layout : Bool} (hd : ∀ t, t < H.next → ∀ u, Contains H t u → u < H.next) :
    ∀ (f : Nat) (t : TId) (seen : List TId), seen.Nodup → (∀ s ∈ seen, s < H.next) → t < H.next →
      (∀ s ∈ seen, ∃ v, Contains H s v ∧ Part H v t) → ¬ Recursive H t →
      H.next < seen.length + f → ∃ v, toH H true layout f t = .ok v := by
  intro f
  induction f with
  | zero =>
    intro t seen hn hlt _ _ _ hlen
    have := Merge.length_le_of_nodup H.next seen hn hlt
    omega
  | succ f ih =>
    intro t seen hn hlt ht hs hr hlen
    have hts : t ∉ seen := by
      intro hm
      obtain ⟨v, h1, h2⟩ := hs t hm
      exact hr ⟨t, v, .refl t, h1, h2⟩
    refine toH_step hu (fun u hc => ih u (t :: seen) (List.nodup_cons.mpr ⟨hts, hn⟩) ?_ (hd t ht u hc) ?_ ?_ ?_)
    · intro s hs'
      rcases List.mem_cons.mp hs' with rfl | hs'
      · exact ht
      · exact hlt s hs'
    · intro s hs'
      rcases List.mem_cons.mp hs' with rfl | hs'
      · exact ⟨u, hc, .refl u⟩
      · obtain ⟨v, h1, h2⟩ := hs s hs'
        exact ⟨v, h1, h2.trans (.step hc (.refl u))⟩
    · rintro ⟨x, y, h1, h2, h3⟩
      exact hr ⟨x, y, .step hc h1, h2, h3⟩
    · simp only [List.length_cons]; omega

theorem toH_flat {H : Heap} (hu : Usual H) (layout : Bool) (f : Nat) (t : TId) : ∃ v, toH H false layout (f + 1) t = .ok v := by
  unfold toH
  simp only [Bool.false_eq_true, if_false]
  cases hk : H.kind t with
  | comp fs =>
    simp only
    obtain ⟨l, hl⟩ := fieldHashes_ok (rec := fun u => .ok (.hash (minimal H layout u))) (fs := fs) (fun g hg => ⟨_, rfl⟩)
    have hm := fieldHashes_made hl
    have : ∃ l', withOffsets layout fs l = .ok l' := by
      cases layout
      · exact ⟨l, by simp [withOffsets]⟩
      · obtain ⟨l', hl'⟩ := addOffsets_made (hu.ascii t fs hk) (hu.names t fs hk) hm (fun _ h => h)
        exact ⟨l', by simp [withOffsets, hl']⟩
    obtain ⟨l', hl'⟩ := this
    exact ⟨_, Res.bind_eq_ok.mpr ⟨l, hl, Res.bind_eq_ok.mpr ⟨l', hl', rfl⟩⟩⟩
  | _ => exact ⟨_, rfl⟩

/-- **C83, ends**: `to_h` gives a hash for every type; with `recursive` for every type that does not contain itself (pointers are not
followed). It raises nothing. -/
theorem C83_ends_partial {H : Heap} (hu : Usual H) (hd : ∀ t, t < H.next → ∀ u, Contains H t u → u < H.next) (layout : Bool) (t : TId)
    (ht : t < H.next) :
    (∃ f v, toH H false layout f t = .ok v) ∧ (¬ Recursive H t → ∃ f v, toH H true layout f t = .ok v) := by
  refine ⟨⟨1, toH_flat hu layout 0 t⟩, fun hr => ⟨H.next + 1, ?_⟩⟩
  exact toH_ends hu hd (H.next + 1) t [] List.nodup_nil (by simp) ht (by simp) hr (by simp)

/-! ### completeness -/

theorem catClass_inj : ∀ a b : Cat, catClass a = catClass b → a = b := by
  intro a b
  cases a <;> cases b <;> decide

theorem className_tag {H H' : Heap} {t t' : TId} (h : className (H.kind t) = className (H'.kind t')) :
    (H.kind t).cat = (H'.kind t').cat := catClass_inj _ _ h

theorem Basic.same {H H' : Heap} {t t' : TId} {h : RHash} (b : Basic H true t h) (b' : Basic H' true t' h) :
    H.name t = H'.name t' ∧ H.size t = H'.size t' ∧ (H.kind t).cat = (H'.kind t').cat := by
  refine ⟨?_, ?_, ?_⟩
  · have := b.name.symm.trans b'.name
    simpa using this
  · have := (b.size rfl).symm.trans (b'.size rfl)
    simp only [Option.some.injEq, RV.int.injEq] at this
    omega
  · have := b.cls'.symm.trans b'.cls'
    have : className (H.kind t) = className (H'.kind t') := by simpa using this
    exact className_tag this

theorem syms_unique : ∀ {s s' : List (Str × Int)} {l : List RV}, TellsSyms s l → TellsSyms s' l → s = s'
  | _, _, _, .nil, .nil => rfl
  | _, _, _, .cons h1 h2 h3, .cons h1' h2' h3' => by
    have e1 := h1.symm.trans h1'
    have e2 := h2.symm.trans h2'
    simp only [Option.some.injEq, RV.str.injEq, RV.int.injEq] at e1 e2
    rw [e1, e2, syms_unique h3 h3']

theorem tells_basic {H : Heap} {recursive layout : Bool} {t : TId} {h : RHash} : Tells H recursive layout t (.hash h) → Basic H layout t h
  | .null _ b _ => b
  | .opaque _ b _ => b
  | .ptr _ b _ => b
  | .num _ b _ _ _ => b
  | .enum _ b _ _ _ => b
  | .arr _ b _ _ _ _ => b
  | .vec _ b _ _ _ => b
  | .str _ b _ _ _ => b
  | .comp _ b _ _ _ => b

/-- everything the fields of two hashes tell is the same -/
def FieldsAlike (H H' : Heap) (fs fs' : List FieldD) : Prop :=
  fs.length = fs'.length ∧
  (∀ (i : Nat) (h : i < fs.length) (h' : i < fs'.length), fs[i].name = fs'[i].name ∧ fs[i].offset = fs'[i].offset) ∧
  (∀ (i : Nat) (h : i < fs.length) (h' : i < fs'.length), Alike H H' fs[i].ty fs'[i].ty)

mutual
theorem tells_alike {H H' : Heap} : ∀ {t : TId} {v : RV}, Tells H true true t v → ∀ {t' : TId}, Tells H' true true t' v → Alike H H' t t'
  | _, _, .null hk b _, t', h' => by
    obtain ⟨h1, h2, h3⟩ := b.same (tells_basic h')
    rw [hk] at h3
    refine .null h1 h2 hk ?_
    cases hk' : H'.kind t' <;> rw [hk'] at h3 <;> first | rfl | cases h3
  | _, _, .opaque hk b _, t', h' => by
    obtain ⟨h1, h2, h3⟩ := b.same (tells_basic h')
    rw [hk] at h3
    refine .opaque h1 h2 hk ?_
    cases hk' : H'.kind t' <;> rw [hk'] at h3 <;> first | rfl | cases h3
  | _, _, .ptr hk b _, t', h' => by
    obtain ⟨h1, h2, h3⟩ := b.same (tells_basic h')
    rw [hk] at h3
    cases hk' : H'.kind t' with
    | ptr e => exact .ptr h1 h2 hk hk'
    | _ => rw [hk'] at h3; cases h3
  | _, _, .num (c := c) hk b hs hi hu, t', h' => by
    obtain ⟨h1, h2, h3⟩ := b.same (tells_basic h')
    rw [hk] at h3
    cases h' with
    | @num _ c' _ hk' _ _ hi' hu' =>
      refine .num h1 h2 hk ?_
      rw [hk']
      rw [hi] at hi'
      rw [hu] at hu'
      cases c <;> cases c' <;> simp_all
    | null hk' _ _ => rw [hk'] at h3; cases h3
    | «opaque» hk' _ _ => rw [hk'] at h3; cases h3
    | ptr hk' _ _ => rw [hk'] at h3; cases h3
    | «enum» hk' _ _ _ _ => rw [hk'] at h3; cases h3
    | arr hk' _ _ _ _ _ => rw [hk'] at h3; cases h3
    | vec hk' _ _ _ _ => rw [hk'] at h3; cases h3
    | str hk' _ _ _ _ => rw [hk'] at h3; cases h3
    | comp hk' _ _ _ _ => rw [hk'] at h3; cases h3
  | _, _, .enum hk b _ hl hs, t', h' => by
    obtain ⟨h1, h2, h3⟩ := b.same (tells_basic h')
    rw [hk] at h3
    cases h' with
    | «enum» hk' _ _ hl' hs' =>
      rw [hl] at hl'
      simp only [Option.some.injEq, RV.list.injEq] at hl'
      subst hl'
      exact .enum h1 h2 hk (by rw [syms_unique hs hs']; exact hk')
    | null hk' _ _ => rw [hk'] at h3; cases h3
    | «opaque» hk' _ _ => rw [hk'] at h3; cases h3
    | ptr hk' _ _ => rw [hk'] at h3; cases h3
    | num hk' _ _ _ _ => rw [hk'] at h3; cases h3
    | arr hk' _ _ _ _ _ => rw [hk'] at h3; cases h3
    | vec hk' _ _ _ _ => rw [hk'] at h3; cases h3
    | str hk' _ _ _ _ => rw [hk'] at h3; cases h3
    | comp hk' _ _ _ _ => rw [hk'] at h3; cases h3
  | _, _, .arr hk b _ hl he hp, t', h' => by
    obtain ⟨h1, h2, h3⟩ := b.same (tells_basic h')
    rw [hk] at h3
    cases h' with
    | arr hk' _ _ hl' he' hp' =>
      rw [hl] at hl'
      rw [he] at he'
      simp only [Option.some.injEq, RV.int.injEq, Int.natCast_inj] at hl' he'
      subst hl' he'
      exact .arr h1 h2 hk hk' (part_alike hp hp')
    | null hk' _ _ => rw [hk'] at h3; cases h3
    | «opaque» hk' _ _ => rw [hk'] at h3; cases h3
    | ptr hk' _ _ => rw [hk'] at h3; cases h3
    | num hk' _ _ _ _ => rw [hk'] at h3; cases h3
    | «enum» hk' _ _ _ _ => rw [hk'] at h3; cases h3
    | vec hk' _ _ _ _ => rw [hk'] at h3; cases h3
    | str hk' _ _ _ _ => rw [hk'] at h3; cases h3
    | comp hk' _ _ _ _ => rw [hk'] at h3; cases h3
  | _, _, .vec hk b _ he hp, t', h' => by
    obtain ⟨h1, h2, h3⟩ := b.same (tells_basic h')
    rw [hk] at h3
    cases h' with
    | vec hk' _ _ he' hp' =>
      rw [he] at he'
      simp only [Option.some.injEq] at he'
      subst he'
      exact .cont h1 h2 (.inl hk) (.inl hk') (part_alike hp hp')
    | str hk' _ _ he' hp' =>
      rw [he] at he'
      simp only [Option.some.injEq] at he'
      subst he'
      exact .cont h1 h2 (.inl hk) (.inr hk') (part_alike hp hp')
    | null hk' _ _ => rw [hk'] at h3; cases h3
    | «opaque» hk' _ _ => rw [hk'] at h3; cases h3
    | ptr hk' _ _ => rw [hk'] at h3; cases h3
    | num hk' _ _ _ _ => rw [hk'] at h3; cases h3
    | «enum» hk' _ _ _ _ => rw [hk'] at h3; cases h3
    | arr hk' _ _ _ _ _ => rw [hk'] at h3; cases h3
    | comp hk' _ _ _ _ => rw [hk'] at h3; cases h3
  | _, _, .str hk b _ he hp, t', h' => by
    obtain ⟨h1, h2, h3⟩ := b.same (tells_basic h')
    rw [hk] at h3
    cases h' with
    | vec hk' _ _ he' hp' =>
      rw [he] at he'
      simp only [Option.some.injEq] at he'
      subst he'
      exact .cont h1 h2 (.inr hk) (.inl hk') (part_alike hp hp')
    | str hk' _ _ he' hp' =>
      rw [he] at he'
      simp only [Option.some.injEq] at he'
      subst he'
      exact .cont h1 h2 (.inr hk) (.inr hk') (part_alike hp hp')
    | null hk' _ _ => rw [hk'] at h3; cases h3
    | «opaque» hk' _ _ => rw [hk'] at h3; cases h3
    | ptr hk' _ _ => rw [hk'] at h3; cases h3
    | num hk' _ _ _ _ => rw [hk'] at h3; cases h3
    | «enum» hk' _ _ _ _ => rw [hk'] at h3; cases h3
    | arr hk' _ _ _ _ _ => rw [hk'] at h3; cases h3
    | comp hk' _ _ _ _ => rw [hk'] at h3; cases h3
  | _, _, .comp hk b _ hl hf, t', h' => by
    obtain ⟨h1, h2, h3⟩ := b.same (tells_basic h')
    rw [hk] at h3
    cases h' with
    | comp hk' _ _ hl' hf' =>
      rw [hl] at hl'
      simp only [Option.some.injEq, RV.list.injEq] at hl'
      subst hl'
      obtain ⟨e1, e2, e3⟩ := fields_alike hf hf'
      exact .comp h1 h2 hk hk' e1 e2 e3
    | null hk' _ _ => rw [hk'] at h3; cases h3
    | «opaque» hk' _ _ => rw [hk'] at h3; cases h3
    | ptr hk' _ _ => rw [hk'] at h3; cases h3
    | num hk' _ _ _ _ => rw [hk'] at h3; cases h3
    | «enum» hk' _ _ _ _ => rw [hk'] at h3; cases h3
    | arr hk' _ _ _ _ _ => rw [hk'] at h3; cases h3
    | vec hk' _ _ _ _ => rw [hk'] at h3; cases h3
    | str hk' _ _ _ _ => rw [hk'] at h3; cases h3
theorem part_alike {H H' : Heap} : ∀ {t : TId} {v : RV}, TellsPart H true true t v → ∀ {t' : TId}, TellsPart H' true true t' v → Alike H H' t t'
  | _, _, .full _ h, _, .full _ h' => tells_alike h h'
  | _, _, .full _ _, _, .basic h' _ _ => by cases h'
  | _, _, .basic h _ _, _, _ => by cases h
theorem fields_alike {H H' : Heap} : ∀ {fs : List FieldD} {l : List RV}, TellsFields H true true fs l → ∀ {fs' : List FieldD},
    TellsFields H' true true fs' l → FieldsAlike H H' fs fs'
  | _, _, .nil, _, .nil => ⟨rfl, fun i h => absurd h (by simp), fun i h => absurd h (by simp)⟩
  | _, _, .cons hn ht hp ho hr, _, .cons hn' ht' hp' ho' hr' => by
    obtain ⟨e1, e2, e3⟩ := fields_alike hr hr'
    rw [hn] at hn'
    rw [ht] at ht'
    rw [ho] at ho'
    simp only [Option.some.injEq, RV.str.injEq, if_true, RV.int.injEq, Int.natCast_inj] at hn' ht' ho'
    subst ht'
    refine ⟨by simp [e1], ?_, ?_⟩
    · intro i h h'
      cases i with
      | zero => exact ⟨hn', ho'⟩
      | succ i =>
        simp only [List.length_cons] at h h'
        exact e2 i (by omega) (by omega)
    · intro i h h'
      cases i with
      | zero => exact part_alike hp hp'
      | succ i =>
        simp only [List.length_cons] at h h'
        exact e3 i (by omega) (by omega)
end

/-! ### the converse -/

theorem offsetOf_alike (n : Str) : ∀ {fs fs' : List FieldD}, fs.length = fs'.length →
    (∀ (i : Nat) (h : i < fs.length) (h' : i < fs'.length), fs[i].name = fs'[i].name ∧ fs[i].offset = fs'[i].offset) →
    offsetOf n fs = offsetOf n fs'
  | [], [], _, _ => rfl
  | [], _ :: _, h, _ => by cases h
  | _ :: _, [], h, _ => by cases h
  | f :: fs, g :: gs, hl, h => by
    have h0 := h 0 (by simp) (by simp)
    have ht : offsetOf n fs = offsetOf n gs := offsetOf_alike n (by simpa using hl) (fun i hi hi' => by
      have := h (i + 1) (by simpa using hi) (by simpa using hi')
      simpa using this)
    simp only [List.getElem_cons_zero] at h0
    unfold offsetOf
    rw [h0.1, h0.2, ht]

theorem addOffsets_congr {all all' : List FieldD} (h : ∀ n, offsetOf n all = offsetOf n all') : ∀ l, addOffsets all l = addOffsets all' l
  | [] => rfl
  | (n, x) :: r => by unfold addOffsets; rw [h n, addOffsets_congr h r]

theorem fieldHashes_alike {rec rec' : TId → Res RV} : ∀ {fs fs' : List FieldD}, fs.length = fs'.length →
    (∀ (i : Nat) (h : i < fs.length) (h' : i < fs'.length), fs[i].name = fs'[i].name ∧ fs[i].offset = fs'[i].offset) →
    (∀ (i : Nat) (h : i < fs.length) (h' : i < fs'.length), rec fs[i].ty = rec' fs'[i].ty) →
    fieldHashes rec fs = fieldHashes rec' fs'
  | [], [], _, _, _ => rfl
  | [], _ :: _, h, _, _ => by cases h
  | _ :: _, [], h, _, _ => by cases h
  | f :: fs, g :: gs, hl, h, hr => by
    have h0 := h 0 (by simp) (by simp)
    have hr0 := hr 0 (by simp) (by simp)
    have ht : fieldHashes rec fs = fieldHashes rec' gs := fieldHashes_alike (by simpa using hl)
      (fun i hi hi' => by
        have := h (i + 1) (by simpa using hi) (by simpa using hi')
        simpa using this)
      (fun i hi hi' => by
        have := hr (i + 1) (by simpa using hi) (by simpa using hi')
        simpa using this)
    simp only [List.getElem_cons_zero] at h0 hr0
    unfold fieldHashes
    rw [h0.1, hr0, ht]

theorem minimal_same {H H' : Heap} {layout : Bool} {t t' : TId} (h1 : H.name t = H'.name t') (h2 : H.size t = H'.size t')
    (h3 : className (H.kind t) = className (H'.kind t')) : minimal H layout t = minimal H' layout t' := by
  unfold minimal; rw [h1, h2, h3]

theorem alike_toH {H H' : Heap} {layout : Bool} {t t' : TId} (h : Alike H H' t t') : ∀ f, toH H true layout f t = toH H' true layout f t' := by
  induction h with
  | null h1 h2 hk hk' =>
    intro f; cases f with
    | zero => rfl
    | succ f => unfold toH; rw [hk, hk', minimal_same h1 h2 (by rw [hk, hk'])]
  | «opaque» h1 h2 hk hk' =>
    intro f; cases f with
    | zero => rfl
    | succ f => unfold toH; rw [hk, hk', minimal_same h1 h2 (by rw [hk, hk'])]
  | ptr h1 h2 hk hk' =>
    intro f; cases f with
    | zero => rfl
    | succ f => unfold toH; rw [hk, hk', minimal_same h1 h2 (by rw [hk, hk']; rfl)]
  | num h1 h2 hk hk' =>
    intro f; cases f with
    | zero => rfl
    | succ f => unfold toH; rw [hk, hk', minimal_same h1 h2 (by rw [hk, hk']), h2]
  | «enum» h1 h2 hk hk' =>
    intro f; cases f with
    | zero => rfl
    | succ f => unfold toH; rw [hk, hk', minimal_same h1 h2 (by rw [hk, hk'])]
  | arr h1 h2 hk hk' _ ih =>
    intro f; cases f with
    | zero => rfl
    | succ f => unfold toH; rw [hk, hk', minimal_same h1 h2 (by rw [hk, hk']; rfl)]; simp only [if_true, ih f]
  | @cont t t' e e' h1 h2 hk hk' _ ih =>
    intro f; cases f with
    | zero => rfl
    | succ f =>
      have hc : className (H.kind t) = className (H'.kind t') := by
        rcases hk with hk | hk <;> rcases hk' with hk' | hk' <;> rw [hk, hk'] <;> rfl
      unfold toH
      rw [minimal_same h1 h2 hc]
      rcases hk with hk | hk <;> rcases hk' with hk' | hk' <;> rw [hk, hk'] <;> simp only [if_true, ih f]
  | comp h1 h2 hk hk' hl hn _ ih =>
    intro f; cases f with
    | zero => rfl
    | succ f =>
      unfold toH
      rw [hk, hk', minimal_same h1 h2 (by rw [hk, hk']; rfl)]
      simp only [if_true]
      rw [fieldHashes_alike hl hn (fun i h h' => ih i h h' f)]
      unfold withOffsets
      simp only [addOffsets_congr (fun n => offsetOf_alike n hl hn)]

/-- **C83, complete**: with `recursive` and `layout_info` the hash tells the whole definition: two types, of the same registry or of two,
have equal hashes exactly if name, size, class, numeric category, symbols, dimension, fields, offsets are the same at every depth
(pointers: by name only). -/
theorem C83_complete_partial {H H' : Heap} (hu : Usual H) (hu' : Usual H') {f : Nat} {t t' : TId} {v : RV} (h : toH H true true f t = .ok v) :
    (∃ f', toH H' true true f' t' = .ok v) ↔ Alike H H' t t' := by
  constructor
  · rintro ⟨f', h'⟩
    exact tells_alike (toH_tells hu f t v h) (toH_tells hu' f' t' v h')
  · intro ha
    exact ⟨f, by rw [← alike_toH ha f]; exact h⟩

/-! ### What does not hold -/

/-- 0: int32, 1: enum, 2: int32[3], 3: a pointer to 5 (or 0), 4: vector of 2, 5: a compound with all of them, 6: a compound that contains a
vector (7) of itself, 8: a compound with two fields of the same name, 9: a compound with a field that is not ASCII -/
def exGet (target : TId) : TId → TypeDef
  | 0 => ⟨['/', 'i'], 4, .num .sint⟩
  | 1 => ⟨['/', 'e'], 4, .enum [(['A'], 0), (['B'], -7)]⟩
  | 2 => ⟨['/', 'i', '[', '3', ']'], 12, .arr 3 0⟩
  | 3 => ⟨['/', 'p'], 8, .ptr target⟩
  | 4 => ⟨['/', 'v'], 24, .vec 2⟩
  | 5 => ⟨['/', 'S'], 56, .comp [⟨['a'], 0, 0⟩, ⟨['b'], 4, 1⟩, ⟨['c'], 8, 2⟩, ⟨['d'], 24, 3⟩, ⟨['f'], 32, 4⟩]⟩
  | 6 => ⟨['/', 'N'], 24, .comp [⟨['n'], 0, 7⟩]⟩
  | 7 => ⟨['/', 'v', 'N'], 24, .vec 6⟩
  | 8 => ⟨['/', 'D'], 8, .comp [⟨['a'], 0, 0⟩, ⟨['a'], 4, 0⟩]⟩
  | 9 => ⟨['/', 'U'], 4, .comp [⟨['é'], 0, 0⟩]⟩
  | _ => ⟨[], 0, .null⟩
def exHeap (target : TId) : Heap := ⟨10, exGet target⟩

/-- **C83, counterexample**: the recursive description of a type that contains a vector of itself does not end. -/
theorem C83_recursive_counterexample (layout : Bool) : ∀ f, toH (exHeap 0) true layout f 6 = .fuel ∧ toH (exHeap 0) true layout f 7 = .fuel := by
  intro f
  induction f with
  | zero => exact ⟨rfl, rfl⟩
  | succ f ih =>
    have h6 : (exHeap 0).kind 6 = .comp [⟨['n'], 0, 7⟩] := rfl
    have h7 : (exHeap 0).kind 7 = .vec 6 := rfl
    constructor
    · unfold toH; rw [h6]; simp only [if_true, fieldHashes, ih.2]; rfl
    · unfold toH; rw [h7]; simp only [if_true, ih.1]; rfl

/-- the offset the hash of the `i`-th field tells -/
def toldOffset (v : Res RV) (i : Nat) : Option Int :=
  match v with
  | .ok (.hash h) =>
    match hget h .fields with
    | some (.list l) =>
      match l[i]? with
      | some (.hash f) =>
        match hget f .offset with
        | some (.int o) => some o
        | _ => none
      | _ => none
    | _ => none
  | _ => none

/-- **C83, counterexample**: of two fields with the same name (a compound can have them, C24) both are told to be at the offset of the
first. -/
theorem C83_duplicate_counterexample : toldOffset (toH (exHeap 0) true true 5 8) 1 = some 0 ∧ (exHeap 0).kind 8 =
    .comp [⟨['a'], 0, 0⟩, ⟨['a'], 4, 0⟩] := ⟨rfl, rfl⟩

/-- **C83, counterexample**: layout info of a compound with a field name that is not ASCII raises "no such field". -/
theorem C83_ascii_counterexample (recursive : Bool) : toH (exHeap 0) recursive true 5 9 = .exn .runtime ∧
    ∃ v, toH (exHeap 0) recursive false 5 9 = .ok v := by
  cases recursive <;> exact ⟨rfl, _, rfl⟩

/-- **C83, counterexample**: types that differ in what a pointer points to have equal hashes. -/
theorem C83_pointer_counterexample : toH (exHeap 0) true true 5 3 = toH (exHeap 1) true true 5 3 ∧
    (exHeap 0).kind 3 = .ptr 0 ∧ (exHeap 1).kind 3 = .ptr 1 := ⟨rfl, rfl, rfl⟩

theorem large_num (t : TId) (n : Str) (x : Nat) :
    toH ⟨1, fun _ => ⟨n, x, .num .sint⟩⟩ true true 1 t = .ok (.hash [(.name, .str n), (.cls, .str "Typelib::NumericType".toList),
      (.size, .int (int2fix x)), (.integer, .bool true), (.unsigned, .bool false)]) := rfl

theorem int2fix_large : int2fix (2 ^ 62) = -(2 ^ 62) := by
  have h : (2 ^ 62 : Nat) % 2 ^ 63 = 2 ^ 62 := by decide
  unfold int2fix
  rw [h, if_neg (Nat.lt_irrefl _)]
  decide

/-- **C83, counterexample**: a size of 2^62 bytes is told as a negative number. -/
theorem C83_large_counterexample (t : TId) (n : Str) :
    toH ⟨1, fun _ => ⟨n, 2 ^ 62, .num .sint⟩⟩ true true 1 t = .ok (.hash [(.name, .str n), (.cls, .str "Typelib::NumericType".toList),
      (.size, .int (-(2 ^ 62))), (.integer, .bool true), (.unsigned, .bool false)]) := by
  rw [large_num, int2fix_large]

/-! ### the hypotheses are met -/

/-- the first six types only -/
def okHeap (target : TId) : Heap := ⟨6, fun t => if t < 6 then exGet target t else ⟨[], 0, .null⟩⟩

theorem ok_get (target n : TId) : (okHeap target).get (n + 6) = ⟨[], 0, .null⟩ :=
  if_neg (c := (n + 6 : Nat) < 6) (t := exGet target (n + 6)) (e := ⟨[], 0, .null⟩) (Nat.not_lt.mpr (Nat.le_add_left 6 n))

theorem ok_kind (target n : TId) : (okHeap target).kind (n + 6) = .null := congrArg TypeDef.kind (ok_get target n)

theorem ok_size (target n : TId) : (okHeap target).size (n + 6) = 0 := congrArg TypeDef.size (ok_get target n)

theorem ok_usual (target : TId) : Usual (okHeap target) := by
  refine ⟨?_, ?_, ?_, ?_, ?_⟩
  · intro t
    match t with
    | 0 => show (4 : Nat) < 2 ^ 62; decide
    | 1 => show (4 : Nat) < 2 ^ 62; decide
    | 2 => show (12 : Nat) < 2 ^ 62; decide
    | 3 => show (8 : Nat) < 2 ^ 62; decide
    | 4 => show (24 : Nat) < 2 ^ 62; decide
    | 5 => show (56 : Nat) < 2 ^ 62; decide
    | n + 6 => rw [ok_size]; decide
  · intro t d e h
    match t with
    | 0 | 1 | 3 | 4 | 5 => cases h
    | 2 => cases h; decide
    | n + 6 => rw [ok_kind] at h; cases h
  all_goals
    intro t fs h
    match t with
    | 0 | 1 | 2 | 3 | 4 => cases h
    | 5 => cases h; decide
    | n + 6 => rw [ok_kind] at h; cases h

example : ∃ v, toH (okHeap 0) true true 5 5 = .ok v ∧ Tells (okHeap 0) true true 5 v :=
  ⟨_, rfl, C83_contents_partial (ok_usual 0) (f := 5) rfl⟩

example : ∃ v, toH (okHeap 0) false false 5 5 = .ok v ∧ Tells (okHeap 0) false false 5 v :=
  ⟨_, rfl, C83_contents_partial (ok_usual 0) (f := 5) rfl⟩

/-- the same type in two registries, with pointers to other types -/
example : Alike (okHeap 0) (okHeap 1) 5 5 :=
  (C83_complete_partial (ok_usual 0) (ok_usual 1) (f := 5) (t := 5) rfl).mp ⟨5, rfl⟩

theorem ok_contains (target : TId) (t u : TId) (ht : t < 6) (h : Contains (okHeap target) t u) : (u : Nat) < t := by
  cases h with
  | field hk hm =>
    match t, ht with
    | 5, _ =>
      cases hk
      revert hm
      simp only [List.mem_cons, List.not_mem_nil, or_false]
      rintro (rfl | rfl | rfl | rfl | rfl) <;> decide
    | 0, _ | 1, _ | 2, _ | 3, _ | 4, _ => cases hk
  | arr hk =>
    match t, ht with
    | 2, _ => cases hk; decide
    | 0, _ | 1, _ | 3, _ | 4, _ | 5, _ => cases hk
  | vec hk =>
    match t, ht with
    | 4, _ => cases hk; decide
    | 0, _ | 1, _ | 2, _ | 3, _ | 5, _ => cases hk
  | str hk =>
    match t, ht with
    | 0, _ | 1, _ | 2, _ | 3, _ | 4, _ | 5, _ => cases hk

theorem ok_part (target : TId) {t u : TId} (h : Part (okHeap target) t u) : t < 6 → (u : Nat) ≤ t := by
  induction h with
  | refl t => intro _; exact Nat.le_refl _
  | step hc _ ih =>
    intro ht
    have h1 := ok_contains target _ _ ht hc
    exact Nat.le_trans (ih (Nat.lt_trans h1 ht)) (Nat.le_of_lt h1)

example : ∃ f v, toH (okHeap 0) true true f 5 = .ok v :=
  (C83_ends_partial (ok_usual 0) (fun t ht u h => Nat.lt_trans (ok_contains 0 t u ht h) ht) true 5 (by decide)).2 (by
    rintro ⟨u, v, h1, h2, h3⟩
    have hu : u < 6 := Nat.lt_of_le_of_lt (ok_part 0 h1 (by decide)) (by decide)
    have hv : (v : Nat) < u := ok_contains 0 u v hu h2
    exact absurd (ok_part 0 h3 (Nat.lt_trans hv hu)) (Nat.not_le_of_lt hv))

end Verif.RubyHash
