import Verif.LayoutSpec

/-! Properties C07, C08, C09: the memory layout of a type. -/

namespace Verif.Layout
open Verif

/-- the meaning of an operation list is unique -/
theorem C07_denotes_unique {m m' : Bool} {w : List Word} {k k' : List Item} (h : Denotes m w k) (h' : Denotes m' w k') :
    k = k' := by
  obtain ⟨l, h1, rfl, _⟩ := denotes_tree h
  obtain ⟨l', h2, rfl, _⟩ := denotes_tree h'
  have := (enc_inj l l' [] [] (Or.inl rfl) (Or.inl rfl) (by simp [h1, h2])).1
  rw [this]

mutual
theorem visit_ok_hasLayout (ap ao : Bool) : ∀ (t : Ty) (l : ML), ¬ t.HasLayout ap ao →
    visit ap ao l t = .exn .noLayout ∨ visit ap ao l t = .exn .runtime
  | .num n, l, h => (h trivial).elim
  | .enum n vs, l, h => by
    have h : ¬ n ≤ 8 := h
    right; simp only [visit]; rw [if_pos (by omega)]
  | .arr d e, l, h => by
    rcases visit_ok_hasLayout false false e ⟨[], []⟩ h with h | h <;> simp [visit, h]
  | .vec c e, l, h => by
    rcases visit_ok_hasLayout false false e ⟨[], []⟩ h with h | h <;> simp [visit, h]
  | .str c, l, h => (h trivial).elim
  | .comp n fs, l, h => by
    rcases visitFields_ok_hasLayout ap ao fs l 0 h with h | h <;> simp [visit, h]
  | .ptr n, l, h => by
    have h : ¬ ap = true := h
    left; simp [visit, h]
  | .opaq n, l, h => by
    have h : ¬ ao = true := h
    left; simp [visit, h]
theorem visitFields_ok_hasLayout (ap ao : Bool) : ∀ (fs : Fields) (l : ML) (cur : Nat), ¬ fs.HasLayout ap ao →
    visitFields ap ao l cur fs = .exn .noLayout ∨ visitFields ap ao l cur fs = .exn .runtime
  | .nil, l, cur, h => (h trivial).elim
  | .cons off t r, l, cur, h => by
    by_cases ht : t.HasLayout ap ao
    · have hr : ¬ r.HasLayout ap ao := fun hr => h ⟨ht, hr⟩
      simp only [visitFields]
      rw [visit_raw ap ao t _ ht]
      simp only [Res.bind_ok]
      exact visitFields_ok_hasLayout ap ao r _ _ hr
    · rcases visit_ok_hasLayout ap ao t (pushSkip l (wsub off cur)) ht with h | h <;> simp [visitFields, h]
end

/-- C07. The raw layout of a type is computed, it has a meaning, and that meaning is: the items it visits are exactly
the leaves of the type at their byte offsets, the rest being padding, and the visit ends at `getSize()`. -/
theorem C07_raw_layout_covers (ap ao : Bool) (t : Ty) (hw : t.WF) (hl : t.HasLayout ap ao) :
    ∃ ml items, rawLayoutOf ap ao t = .ok ml ∧ Denotes false ml.ops items ∧
      itemsSize items = t.size ∧
      (∀ o x, Leaf t o x → ItemAt items o x) ∧
      (∀ o x, x ≠ .pad → ItemAt items o x → Leaf t o x) := by
  refine ⟨_, (rawL t).expand, visit_raw ap ao t _ hl, ?_, ?_, ?_, ?_⟩
  · simpa using denotes_enc _ (raw_good t hw)
  · rw [expand_raw t hw, kinds_size t hw]
  · intro o x h; rw [expand_raw t hw]; exact leaf_itemAt t hw o x h
  · intro o x hx h
    rw [expand_raw t hw] at h
    exact (itemAt_leaf t hw o x h).resolve_left hx

/-- C07, complement: a type with a pointer, an opaque (where not accepted) or an enum larger than 8 bytes is rejected
with an exception, whatever the rest of it looks like. -/
theorem C07_rejected (ap ao : Bool) (t : Ty) (hl : ¬ t.HasLayout ap ao) :
    rawLayoutOf ap ao t = .exn .noLayout ∨ rawLayoutOf ap ao t = .exn .runtime :=
  visit_ok_hasLayout ap ao t _ hl

theorem mp_size (m : Bool) (x : Item) : (mp m x).size = x.size := by
  cases x <;> cases m <;> rfl
theorem itemsSize_map_mp (m : Bool) (l : List Item) : itemsSize (l.map (mp m)) = itemsSize l := by
  simp only [itemsSize, List.map_map]
  congr 1
  apply List.map_congr_left
  intro x _; exact mp_size m x

theorem itemAt_map_mp {m : Bool} {l : List Item} {o : Nat} {y : Item} :
    ItemAt (l.map (mp m)) o y ↔ ∃ x, ItemAt l o x ∧ mp m x = y := by
  constructor
  · rintro ⟨a, b, h, rfl⟩
    obtain ⟨a', r', rfl, rfl, h2⟩ := List.map_eq_append_iff.mp h
    obtain ⟨x, b', rfl, rfl, rfl⟩ := List.map_eq_cons_iff.mp h2
    exact ⟨x, ⟨a', b', rfl, (itemsSize_map_mp m a').symm⟩, rfl⟩
  · rintro ⟨x, ⟨a, b, rfl, rfl⟩, rfl⟩
    exact ⟨a.map (mp m), b.map (mp m), by simp, itemsSize_map_mp m a⟩

/-- C08. `layout_of` (raw layout + simplification) describes the same bytes: leaves stay where they are; containers
are only where the type has them, with the element layout of their element type (part of `Denotes`); without
`merge_skip_copy` only data bytes are data; what is not described any more is padding at the end. -/
theorem C08_simplified_layout_same_meaning (ap ao merge rem : Bool) (t : Ty) (hw : t.WF) (hl : t.HasLayout ap ao) :
    ∃ ml items, layoutOf ap ao merge rem t = .ok ml ∧ Denotes merge ml.ops items ∧
      itemsSize items ≤ t.size ∧
      (∀ o x, x ≠ .pad → Leaf t o x → ItemAt items o x) ∧
      (∀ o, Leaf t o .pad → itemsSize items ≤ o ∨ ItemAt items o (if merge then .data else .pad)) ∧
      (∀ o c, ItemAt items o (.cont c) → Leaf t o (.cont c)) ∧
      (merge = false → ∀ o, ItemAt items o .data → Leaf t o .data) := by
  obtain ⟨k, X, h1, h2⟩ := layL_expand merge rem t hw
  refine ⟨_, (layL merge rem t).expand, layoutOf_eq ap ao merge rem t hw hl, denotes_enc _ (layL_good _ _ t hw),
    ?_, ?_, ?_, ?_, ?_⟩
  · rw [h2, itemsSize_map_mp, ← kinds_size t hw, h1, itemsSize_append]; omega
  · intro o x hx hlf
    have := leaf_itemAt t hw o x hlf
    rw [h1] at this
    rcases itemAt_append this with h | ⟨o', rfl, h⟩
    · rw [h2]
      refine itemAt_map_mp.mpr ⟨x, h, ?_⟩
      cases x <;> simp_all
    · exact absurd ((itemAt_replicate rfl).mp h).1 hx
  · intro o hlf
    have := leaf_itemAt t hw o .pad hlf
    rw [h1] at this
    rcases itemAt_append this with h | ⟨o', rfl, h⟩
    · right
      rw [h2]
      exact itemAt_map_mp.mpr ⟨.pad, h, rfl⟩
    · left
      rw [h2, itemsSize_map_mp]; omega
  · intro o c h
    rw [h2] at h
    obtain ⟨x, h, hx⟩ := itemAt_map_mp.mp h
    have hx' : x = .cont c := by cases x <;> cases merge <;> simp_all [mp]
    subst hx'
    have := itemAt_left (m := List.replicate k .pad) h
    rw [← h1] at this
    exact (itemAt_leaf t hw _ _ this).resolve_left (by simp)
  · intro hm o h
    subst hm
    rw [h2, map_mp_false] at h
    have := itemAt_left (m := List.replicate k .pad) h
    rw [← h1] at this
    exact (itemAt_leaf t hw _ _ this).resolve_left (by simp)

/-- C08, initialisation side: after simplification the initialisation operations do the same to every byte; only
"leave alone" operations at the very end disappear. `IDenotes` is the meaning of initialisation operations. -/
inductive IDenotes : List Word → List IItem → Prop where
  | nil : IDenotes [] []
  | init {d : List UInt8} {w k} : IDenotes w k →
      IDenotes (.n FLAG_INIT :: .n d.length :: (d.map (fun b => .n b.toNat) ++ w)) (d.map .set ++ k)
  | skip {n w k} : IDenotes w k → IDenotes (.n FLAG_INIT_SKIP :: .n n :: w) (List.replicate n .leave ++ k)
  | repeat_ {n body b w k} : IDenotes body b → IDenotes w k →
      IDenotes (.n FLAG_INIT_REPEAT :: .n n :: (body ++ .n FLAG_INIT_END :: w)) (rep n b ++ k)
  | container {c w k} : IDenotes w k → IDenotes (.n FLAG_INIT_CONTAINER :: .p c :: w) (.cont c :: k)

theorem idenotes_enc (l : LI) : IDenotes l.enc l.expand := by
  induction l with
  | nil => exact .nil
  | ini d k ih => exact .init ih
  | sk n k ih => exact .skip ih
  | re n b k ihb ihk => exact .repeat_ ihb ihk
  | co c k ih => exact .container ih

theorem C08_init_same_meaning (ap ao merge rem : Bool) (t : Ty) (hw : t.WF) (hl : t.HasLayout ap ao) :
    ∃ raw ml items j, rawLayoutOf ap ao t = .ok raw ∧ layoutOf ap ao merge rem t = .ok ml ∧
      IDenotes raw.init (items ++ List.replicate j .leave) ∧ IDenotes ml.init items ∧
      items ++ List.replicate j .leave = ikinds t := by
  obtain ⟨j, hj⟩ := layI_expand t hw
  refine ⟨_, _, (layI t).expand, j, visit_raw ap ao t _ hl, layoutOf_eq ap ao merge rem t hw hl, ?_,
    idenotes_enc _, hj.symm⟩
  rw [← hj, ← expandI_raw t hw]
  simpa using idenotes_enc (rawI t)

/-- C09. Every layout returned by `layout_of` on a well-formed type passes `validate()`. -/
theorem C09_validate (ap ao merge rem : Bool) (t : Ty) (hw : t.WF) (ml : ML)
    (h : layoutOf ap ao merge rem t = .ok ml) : validate ml = .ok () := by
  by_cases hl : t.HasLayout ap ao
  · rw [layoutOf_eq ap ao merge rem t hw hl] at h
    simp only [Res.ok.injEq] at h
    subst h
    unfold validate
    have h1 := validateOps_enc (layL merge rem t) 0 []
    simp only [List.append_nil] at h1
    simp only [h1, validateOps, Res.bind_ok]
    rw [if_neg (by omega)]
    obtain ⟨f', h2, h3⟩ := validateInit_enc (layI t) ((layI t).enc.length + 1) 0 [] (by omega)
    simp only [List.append_nil] at h2
    rw [h2]
    cases f' with
    | zero => omega
    | succ f' => simp [validateInit]
  · exfalso
    unfold layoutOf at h
    rcases visit_ok_hasLayout ap ao t ⟨[], []⟩ hl with h' | h' <;>
      simp [rawLayoutOf, h'] at h

/-- C09, blocks: in an operation list that has a meaning, `skipBlock` started at the body of a block (with
anything after the block) returns the END of that block. -/
theorem C09_skipBlock {m : Bool} {body : List Word} {k : List Item} (h : Denotes m body k) (after : List Word) :
    skipBlock 0 (body ++ .n FLAG_END :: after) = .ok (.n FLAG_END :: after) := by
  obtain ⟨l, rfl, _, _⟩ := denotes_tree h
  rw [skipBlock_enc]
  rw [skipBlock.eq_def]
  simp [FLAG_ARRAY, FLAG_CONTAINER, FLAG_END]

/-! ### the hypotheses are met, and are needed -/

/-- a compound with an enum, padding, an array of compounds with trailing padding, a vector and a string -/
def sample : Ty :=
  .comp 96 (.cons 0 (.enum 4 [-1, 2]) (.cons 8 (.arr 2 (.comp 16 (.cons 0 (.num 8) (.cons 8 (.num 1) .nil))))
    (.cons 40 (.vec 24 (.vec 24 (.num 8))) (.cons 64 (.str 24) .nil))))

example : sample.WF ∧ sample.HasLayout false false := by
  simp [sample, Ty.WF, Fields.WF, Ty.HasLayout, Fields.HasLayout, Ty.size, wmul, W]

example : Leaf sample 40 (.cont (.vec 24 (.vec 24 (.num 8)))) := by
  have : Leaf sample (40 + 0) (.cont (.vec 24 (.vec 24 (.num 8)))) := .field (.tail (.tail .head)) .vec
  exact this
example : Leaf sample 32 .data := by
  have : Leaf sample (8 + (1 * 16 + (8 + 0))) .data :=
    .field (.tail .head) (.arr (e := .comp 16 (.cons 0 (.num 8) (.cons 8 (.num 1) .nil))) (by decide)
      (.field (.tail .head) (.num (by decide))))
  exact this

/-- Well-formedness is needed: on an array of empty arrays `layout_of` dies with a length error
(`simplified.ops.resize(content_i - 4)` when nothing precedes the array). -/
theorem C09_empty_array_counterexample :
    layoutOf false false false true (.arr 2 (.arr 0 (.num 4))) = .exn .lengthError := rfl

/-- Likewise, when something precedes it, its operations are cut: an operand is
missing and `validate()` itself runs past the end of the operation list. -/
theorem C09_empty_array_counterexample2 :
    ∃ ml, layoutOf false false false true
        (.comp 24 (.cons 0 (.vec 24 (.num 4)) (.cons 24 (.arr 2 (.arr 0 (.num 4))) .nil))) = .ok ml ∧
      validate ml = .ub := ⟨_, rfl, rfl⟩

/-- `remove_trailing_skips = false` is not honoured: the trailing padding of a compound is not described. -/
theorem C08_trailing_skips_counterexample :
    ∃ ml, layoutOf false false false false (.comp 8 (.cons 0 (.num 4) .nil)) = .ok ml ∧
      ml.ops = [.n FLAG_MEMCPY, .n 4, .n FLAG_SKIP, .n 0] := ⟨_, rfl, rfl⟩

/-! ### The theorems on concrete cases -/

theorem sample_ok : sample.WF ∧ sample.HasLayout false false := by
  simp [sample, Ty.WF, Fields.WF, Ty.HasLayout, Fields.HasLayout, Ty.size, wmul, W]

example := C07_raw_layout_covers false false sample sample_ok.1 sample_ok.2

/-- the operations of the sample have one meaning -/
example : ∃ ml items, rawLayoutOf false false sample = .ok ml ∧ ∀ items', Denotes false ml.ops items' → items = items' := by
  obtain ⟨ml, items, h, hd, _⟩ := C07_raw_layout_covers false false sample sample_ok.1 sample_ok.2
  exact ⟨ml, items, h, fun _ h' => C07_denotes_unique hd h'⟩

/-- a structure with a pointer, pointers not accepted -/
example := C07_rejected false false (.comp 16 (.cons 0 (.num 4) (.cons 8 (.ptr 8) .nil)))
  (by simp [Ty.HasLayout, Fields.HasLayout])

example := C08_simplified_layout_same_meaning false false true true sample sample_ok.1 sample_ok.2

example := C08_init_same_meaning false false true true sample sample_ok.1 sample_ok.2

example : ∃ ml, layoutOf false false true true sample = .ok ml ∧ validate ml = .ok () := by
  obtain ⟨ml, _, h, _⟩ := C08_simplified_layout_same_meaning false false true true sample sample_ok.1 sample_ok.2
  exact ⟨ml, h, C09_validate false false true true sample sample_ok.1 ml h⟩

example : ∃ body items, Denotes true body items ∧ body ≠ [] ∧
    skipBlock 0 (body ++ .n FLAG_END :: []) = .ok (.n FLAG_END :: []) := by
  obtain ⟨ml, items, h, hd, _⟩ := C08_simplified_layout_same_meaning false false true true sample sample_ok.1 sample_ok.2
  refine ⟨ml.ops, items, hd, ?_, C09_skipBlock hd []⟩
  cases h
  exact fun h => nomatch h

end Verif.Layout
