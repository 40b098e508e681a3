import Verif.RubyCast

/-! Property C72: values of types that can be cast into each other. -/

namespace Verif.Cast
open Verif Verif.Graph Verif.Layout Verif.LayoutGraph Verif.Value

/-- the registered types are well-formed, and `tree` gives their definitions -/
structure Setup (H : Heap) (tree : TId → Option Ty) : Prop where
  wf : WF H
  sane : Sane H
  trees : Trees H tree

/-- `b` can be used in place of `a`, and the elements of their containers have the same sizes -/
structure Compatible (H : Heap) (a b : TId) : Prop where
  left : a < H.next
  right : b < H.next
  noNull : NoNull H a
  cast : canCastTo H a b = .ok true
  elements : SameElements H a b

theorem Compatible.tcast {H : Heap} {tree : TId → Option Ty} (hS : Setup H tree) {a b : TId} (h : Compatible H a b) {ta tb : Ty}
    (ia : IsTree H a ta) (ib : IsTree H b tb) (wa : ta.WF) (wb : tb.WF) : TCast ta tb :=
  tcast_of_canCast hS.wf hS.sane h.left h.right ia ib wa wb h.noNull h.elements h.cast

theorem canCastTo_refl (H : Heap) (a : TId) : canCastTo H a a = .ok true := by simp [canCastTo]

theorem SameElements.symm {H : Heap} {a b : TId} (h : SameElements H a b) : SameElements H b a :=
  fun p x y ex ey h1 h2 h3 h4 => (h p y x ey ex h2 h1 h4 h3).symm

/-- the same memory, seen as two types -/
theorem same_self {env : Env} {a b : Ty} (wa : a.WF) (wb : b.WF) (hl : a.HasLayout true false) (h : TCast a b) {m : Mem} {v w : List AV}
    (ha : Valid env a m v) (hb : Valid env b m w) : Same (kinds a) v (kinds b) w := by
  obtain ⟨r, s, h1, h2⟩ := (compare_cast wa wb hl h ha hb).1
  obtain ⟨r', s', h3, h4⟩ := C16_compare wa hl ha ha
  rw [h1] at h3
  injection h3 with h3 _
  exact h2.mp (h3 ▸ h4.mpr (VEq.refl_of_abs ha))

theorem Same.pads {n : Nat} {K' : List Item} {v w : List AV} (h : Same (List.replicate n .pad) v K' w) :
    ∃ (bs cs : List UInt8), bs.length = n ∧ v = bs.map .b ∧ K' = List.replicate cs.length .pad ∧ w = cs.map .b := by
  generalize hK : List.replicate n Item.pad = K at h
  induction h generalizing n with
  | tail bs cs =>
    have := congrArg List.length hK
    simp at this
    exact ⟨bs, cs, this.symm, rfl, rfl, rfl⟩
  | @pad K K' v w x y _ ih =>
    cases n with
    | zero => cases hK
    | succ n =>
      rw [List.replicate_succ] at hK
      injection hK with _ hK
      obtain ⟨bs, cs, h1, rfl, rfl, rfl⟩ := ih hK
      exact ⟨x :: bs, y :: cs, by simp [h1], rfl, rfl, rfl⟩
  | data _ _ => cases n <;> simp [List.replicate_succ] at hK
  | vec _ _ _ _ => cases n <;> simp [List.replicate_succ] at hK
  | str _ _ => cases n <;> simp [List.replicate_succ] at hK

theorem Same.trans {K K' K'' : List Item} {u v w : List AV} (h : Same K u K' v) (h' : Same K' v K'' w) : Same K u K'' w := by
  induction h generalizing K'' w with
  | tail bs cs =>
    obtain ⟨cs', ds, h1, h2, rfl, rfl⟩ := h'.pads
    exact .tail bs ds
  | @data K K' v0 w0 x h ih =>
    generalize hk : Item.data :: K' = L at h'
    generalize hv : AV.b x :: w0 = V at h'
    cases h' with
    | tail bs cs => cases bs <;> simp [List.replicate_succ] at hk
    | data h' => injection hk with _ hk; injection hv with hv1 hv; injection hv1 with hv1; subst hv1; exact .data (ih (hk ▸ hv ▸ h'))
    | pad h' => cases hk
    | vec _ h' => cases hk
    | str h' => cases hk
  | @pad K K' v0 w0 x y h ih =>
    generalize hk : Item.pad :: K' = L at h'
    generalize hv : AV.b y :: w0 = V at h'
    cases h' with
    | tail bs cs =>
      cases bs with
      | nil => cases hk
      | cons b bs =>
        simp only [List.length_cons, List.replicate_succ, List.cons.injEq, true_and] at hk
        simp only [List.map_cons, List.cons.injEq] at hv
        rw [hk, hv.2] at h
        obtain ⟨p, q, _, q2, q3, q4⟩ := h.symm.pads
        rw [q3, q4]
        exact .tail (x :: q) cs
    | pad h' => injection hk with _ hk; injection hv with hv1 hv; exact .pad (ih (hk ▸ hv ▸ h'))
    | data h' => cases hk
    | vec _ h' => cases hk
    | str h' => cases hk
  | @vec cs e e' n f g K K' v0 w0 h0 h ih0 ih =>
    generalize hk : Item.cont (.vec cs e') :: K' = L at h'
    generalize hv : AV.seq n g :: w0 = V at h'
    cases h' with
    | tail bs cs => cases bs <;> simp [List.replicate_succ] at hk
    | vec h1 h' =>
      injection hk with hk1 hk; injection hk1 with hk1; injection hk1 with hk1 hk2
      injection hv with hv1 hv; injection hv1 with hv1 hv2
      subst hk1 hk2 hv1 hv2
      exact .vec (ih0 h1) (ih (hk ▸ hv ▸ h'))
    | pad h' => cases hk
    | data h' => cases hk
    | str h' => cases hk
  | @str cs s K K' v0 w0 h ih =>
    generalize hk : Item.cont (.str cs) :: K' = L at h'
    generalize hv : AV.s s :: w0 = V at h'
    cases h' with
    | tail bs cs => cases bs <;> simp [List.replicate_succ] at hk
    | str h' =>
      injection hk with hk1 hk; injection hk1 with hk1; injection hk1 with hk1
      injection hv with hv1 hv; injection hv1 with hv1
      subst hk1 hv1
      exact .str (ih (hk ▸ hv ▸ h'))
    | pad h' => cases hk
    | vec _ h' => cases hk
    | data h' => cases hk

/-- the copy of one zone to another one -/
theorem copyZone_ok {H : Heap} {tree : TId → Option Ty} (hS : Setup H tree) {env : Env} {st : Store} {t : TId} {ta tb : Ty}
    (ia : IsTree H t ta) (oa : OkType ta) (wb : tb.WF) (hc : TCast ta tb) {p q : Nat} {v w : List AV}
    (hv : Valid env ta (st q) v) (hw : Valid env tb (st p) w) :
    ∃ st' w', copyZone tree env st t p q = .ok () st' ∧ Valid env tb (st' p) w' ∧ Same (kinds ta) v (kinds tb) w' ∧
      (∀ r, r ≠ p → st' r = st r) ∧ (p = q → st' = st) := by
  unfold copyZone
  rw [(hS.trees t ta).mpr ia]
  simp only
  rw [layoutOf_eq false false true true ta oa.1 oa.2.1]
  simp only
  by_cases hpq : p = q
  · subst hpq
    rw [if_pos rfl]
    exact ⟨st, w, rfl, hw, same_self oa.1 wb (hasLayout_ptr _ _ oa.2.1) hc hv hw, fun _ _ => rfl, fun _ => rfl⟩
  · rw [if_neg hpq]
    obtain ⟨d', w', h1, h2, h3⟩ := copy_cast oa wb hc hv hw
    rw [h1]
    refine ⟨st.set p d', w', rfl, ?_, h3, fun r hr => ?_, fun h => absurd h hpq⟩
    · simpa [Store.set] using h2
    · simp [Store.set, hr]

/-- **C72.** `Typelib.copy` between values of types that can be cast into each other: afterwards the target holds the contents of the
source, in its own type, and no other memory has changed. (`_partial`: the elements of the containers must have the same sizes, see
`C72_vector_counterexample`; the types have a layout, see `C72_abort_counterexample`.) -/
theorem C72_copy_partial {H : Heap} {tree : TId → Option Ty} (hS : Setup H tree) {env : Env} {st : Store} {to src : RVal} {ta tb : Ty}
    {v w : List AV} (hs : Holds H env st src ta v) (ht : Holds H env st to tb w) (oa : OkType ta) (wb : tb.WF)
    (hc : Compatible H src.ty to.ty) :
    ∃ st' w', rbCopy H tree env st to src = .ok () st' ∧ Holds H env st' to tb w' ∧ Same (kinds ta) v (kinds tb) w' ∧
      Holds H env st' src ta v ∧ ∀ p, to.data ≠ some p → st' p = st p := by
  obtain ⟨ia, q, hq, hv⟩ := hs
  obtain ⟨ib, p, hp, hw⟩ := ht
  obtain ⟨st', w', h1, h2, h3, h4, h5⟩ := copyZone_ok hS ia oa wb (hc.tcast hS ia ib oa.1 wb) hv hw
  refine ⟨st', w', ?_, ⟨ib, p, hp, h2⟩, h3, ⟨ia, q, hq, ?_⟩, fun r hr => h4 r (fun h => hr (h ▸ hp))⟩
  · unfold rbCopy
    rw [hp, hq]
    simp only
    split
    · rw [hc.cast]; exact h1
    · exact h1
  · by_cases hpq : p = q
    · rw [h5 hpq]; exact hv
    · rw [h4 q (fun h => hpq h.symm)]; exact hv

/-- **C72.** `Typelib.compare`, and `==` between values: true exactly if both hold the same contents. -/
theorem C72_compare_partial {H : Heap} {tree : TId → Option Ty} (hS : Setup H tree) {env : Env} {st : Store} {to src : RVal} {ta tb : Ty}
    {v w : List AV} (hs : Holds H env st src ta v) (ht : Holds H env st to tb w) (wa : ta.WF) (la : ta.HasLayout true false) (wb : tb.WF)
    (hc : Compatible H src.ty to.ty) :
    ∃ r, rbCompare H tree st to src = .ok r st ∧ (r = true ↔ Same (kinds tb) w (kinds ta) v) := by
  obtain ⟨ia, q, hq, hv⟩ := hs
  obtain ⟨ib, p, hp, hw⟩ := ht
  obtain ⟨r, s, h1, h2⟩ := (compare_cast wa wb la (hc.tcast hS ia ib wa wb) hv hw).2
  refine ⟨r, ?_, h2⟩
  have hz : compareZone tree st src.ty to.data src.data = .ok r st := by
    unfold compareZone
    rw [(hS.trees _ _).mpr ia]
    simp only [hp, hq, Store.at]
    rw [h1]
  unfold rbCompare
  split
  · rw [hc.cast]; exact hz
  · exact hz

/-- **C72.** After a copy, the two values are equal. -/
theorem C72_copy_equal_partial {H : Heap} {tree : TId → Option Ty} (hS : Setup H tree) {env : Env} {st : Store} {to src : RVal} {ta tb : Ty}
    {v w : List AV} (hs : Holds H env st src ta v) (ht : Holds H env st to tb w) (oa : OkType ta) (wb : tb.WF)
    (hc : Compatible H src.ty to.ty) :
    ∃ st', rbCopy H tree env st to src = .ok () st' ∧ rbCompare H tree st' to src = .ok true st' := by
  obtain ⟨st', w', h1, h2, h3, h4, _⟩ := C72_copy_partial hS hs ht oa wb hc
  obtain ⟨r, h5, h6⟩ := C72_compare_partial hS h4 h2 oa.1 (hasLayout_ptr _ _ oa.2.1) wb hc
  rw [h6.mpr h3.symm] at h5
  exact ⟨st', h1, h5⟩

/-- **C72.** Both ways round, `==` gives the same answer, if both types can be cast into each other. -/
theorem C72_compare_symmetric_partial {H : Heap} {tree : TId → Option Ty} (hS : Setup H tree) {env : Env} {st : Store} {x y : RVal}
    {tx ty : Ty} {v w : List AV} (hx : Holds H env st x tx v) (hy : Holds H env st y ty w) (wx : tx.WF) (lx : tx.HasLayout true false)
    (wy : ty.WF) (ly : ty.HasLayout true false) (hc : Compatible H x.ty y.ty) (hc' : Compatible H y.ty x.ty) :
    rbCompare H tree st x y = rbCompare H tree st y x := by
  obtain ⟨r, h1, h2⟩ := C72_compare_partial hS hy hx wy ly wx hc'
  obtain ⟨r', h3, h4⟩ := C72_compare_partial hS hx hy wx lx wy hc
  have : r = r' := by
    rw [Bool.eq_iff_iff, h2, h4]
    exact ⟨Same.symm, Same.symm⟩
  rw [h1, h3, this]

/-- **C72.** `==` is transitive, among the values that can be compared. -/
theorem C72_compare_transitive_partial {H : Heap} {tree : TId → Option Ty} (hS : Setup H tree) {env : Env} {st : Store} {x y z : RVal}
    {tx ty tz : Ty} {u v w : List AV} (hx : Holds H env st x tx u) (hy : Holds H env st y ty v) (hz : Holds H env st z tz w)
    (wx : tx.WF) (wy : ty.WF) (ly : ty.HasLayout true false) (wz : tz.WF) (lz : tz.HasLayout true false)
    (hyx : Compatible H y.ty x.ty) (hzy : Compatible H z.ty y.ty) (hzx : Compatible H z.ty x.ty)
    (h1 : rbCompare H tree st x y = .ok true st) (h2 : rbCompare H tree st y z = .ok true st) :
    rbCompare H tree st x z = .ok true st := by
  obtain ⟨r, e1, e2⟩ := C72_compare_partial hS hy hx wy ly wx hyx
  obtain ⟨r', e3, e4⟩ := C72_compare_partial hS hz hy wz lz wy hzy
  obtain ⟨r'', e5, e6⟩ := C72_compare_partial hS hz hx wz lz wx hzx
  rw [h1] at e1; injection e1 with e1 _
  rw [h2] at e3; injection e3 with e3 _
  rw [e6.mpr ((e2.mp e1.symm).trans (e4.mp e3.symm))] at e5
  exact e5

/-- **C72.** A copy, a comparison or a cast between types that cannot be cast is refused with an `ArgumentError`, and a copy that
involves an invalidated value with a `TypeError`; nothing changes. -/
theorem C72_refused {H : Heap} (tree : TId → Option Ty) (env : Env) (st : Store) (to src : RVal) :
    (canCastTo H src.ty to.ty = .ok false →
      (to.data ≠ none → src.data ≠ none → rbCopy H tree env st to src = .exn .rbArg st) ∧
      rbCompare H tree st to src = .exn .rbArg st ∧ rbCast H src to.ty = .exn .rbArg) ∧
    (to.data = none ∨ src.data = none → rbCopy H tree env st to src = .exn .rbType st) := by
  constructor
  · intro h
    have hne : src.ty ≠ to.ty := by
      intro e
      rw [e, canCastTo_refl] at h
      cases h
    refine ⟨fun h1 h2 => ?_, ?_, ?_⟩
    · unfold rbCopy
      cases hp : to.data with
      | none => exact absurd hp h1
      | some p =>
        cases hq : src.data with
        | none => exact absurd hq h2
        | some q => simp only [if_pos hne, h]
    · unfold rbCompare
      rw [if_pos hne, h]
    · unfold rbCast
      rw [h]
  · rintro (h | h)
    · unfold rbCopy; rw [h]
    · unfold rbCopy
      rw [h]
      cases to.data <;> rfl

/-- **C72.** Comparing values whose type has no layout (an opaque somewhere, an enum of more than 8 bytes, a pointer inside an array or
container) raises an `ArgumentError`; it does not answer that they differ. -/
theorem C72_compare_no_layout {H : Heap} {tree : TId → Option Ty} (st : Store) (to src : RVal) {ta : Ty} (ht : tree src.ty = some ta)
    (hl : ¬ ta.HasLayout true false) (hc : canCastTo H src.ty to.ty = .ok true) : rbCompare H tree st to src = .exn .rbArg st := by
  have hz : compareZone tree st src.ty to.data src.data = .exn .rbArg st := by
    have hc : ∃ e s, compare ta (st.at to.data) (st.at src.data) = .exn e s := by
      unfold Value.compare compareAt layoutOf
      rcases C07_rejected true false ta hl with h | h <;> rw [h] <;> exact ⟨_, _, rfl⟩
    obtain ⟨e, s, hc⟩ := hc
    unfold compareZone
    rw [ht]
    simp only
    rw [hc]
  unfold rbCompare
  split
  · rw [hc]; exact hz
  · exact hz

/-- two values of an opaque type -/
example (H : Heap) (st : Store) : rbCompare H (fun _ => some (.opaq 8)) st ⟨0, some 1⟩ ⟨0, some 2⟩ = .exn .rbArg st :=
  C72_compare_no_layout st ⟨0, some 1⟩ ⟨0, some 2⟩ rfl (by simp [Ty.HasLayout]) (canCastTo_refl H 0)

/-- **C72.** The cast of a value is a value of the target type on the same memory (the value itself if it has that type already), and
there it holds the same contents, provided that the memory goes on for the size of the target type. -/
theorem C72_cast_partial {H : Heap} {tree : TId → Option Ty} (hS : Setup H tree) {env : Env} {st : Store} {x : RVal} {target : TId}
    {ta tb : Ty} {v : List AV} (hx : Holds H env st x ta v) (ib : IsTree H target tb) (wa : ta.WF) (la : ta.HasLayout true false) (wb : tb.WF)
    (hc : Compatible H x.ty target) :
    ∃ r p, rbCast H x target = .ok r ∧ r.ty = target ∧ r.data = x.data ∧ (x.ty = target → r = x) ∧ x.data = some p ∧
      ∀ more : List UInt8, tb.size ≤ ta.size + more.length →
        ∃ w, Valid env tb ((st p ++ more.map Cell.byte).take tb.size) w ∧ Same (kinds ta) v (kinds tb) w := by
  obtain ⟨ia, p, hp, hv⟩ := hx
  have ht := hc.tcast hS ia ib wa wb
  have main : ∀ more : List UInt8, tb.size ≤ ta.size + more.length →
        ∃ w, Valid env tb ((st p ++ more.map Cell.byte).take tb.size) w ∧ Same (kinds ta) v (kinds tb) w := by
    intro more hm
    obtain ⟨X, X', k, k', h1, h2, h3, _⟩ := cast_split false wa wb ht
    have sa := kinds_size ta wa
    have sb := kinds_size tb wb
    unfold Valid at hv ⊢
    rw [h1] at hv
    obtain ⟨m1, m2, v1, v2, hm1, rfl, a1, a2⟩ := hv.split
    obtain ⟨bs, hbs, rfl, rfl⟩ := Abs.bytes (Or.inr rfl) a2
    rw [h1, itemsSize_append, itemsSize_replicate _ _ rfl] at sa
    rw [h2, itemsSize_append, itemsSize_replicate _ _ rfl] at sb
    have l1 := a1.length.1
    have l2 := h3.size.1
    refine ⟨v1 ++ ((bs ++ more).take k').map .b, ?_, ?_⟩
    · rw [hm1, h2, List.append_assoc, List.take_append, List.take_of_length_le (by omega)]
      have hl : tb.size - m1.length = k' := by omega
      rw [hl, ← List.map_append, ← List.map_take]
      refine (h3.abs a1).append ?_
      have := Abs.ofBytes env (i := .pad) (Or.inr rfl) ((bs ++ more).take k')
      rwa [show ((bs ++ more).take k').length = k' by simp; omega] at this
    · rw [h1, h2]
      have := same_of_veq (VEq.refl_of_abs a1) h3 bs ((bs ++ more).take k')
      rwa [hbs, show ((bs ++ more).take k').length = k' by simp; omega] at this
  unfold rbCast
  rw [hc.cast]
  simp only
  by_cases he : x.ty = target
  · rw [if_pos he]
    exact ⟨x, p, rfl, he, rfl, fun _ => rfl, hp, main⟩
  · rw [if_neg he]
    exact ⟨⟨target, x.data⟩, p, rfl, rfl, rfl, fun h => absurd h he, hp, main⟩

/-- **C72.** `dup`: the new value has the same type, its own memory and the same contents; the original and everything else is as
it was, whatever is done to the new value's memory later. -/
theorem C72_dup_partial {H : Heap} {tree : TId → Option Ty} (hS : Setup H tree) {env : Env} {st : Store} {x : RVal} {ta : Ty}
    {v w : List AV} (hx : Holds H env st x ta v) (oa : OkType ta) (hn : NoNull H x.ty) (hlt : x.ty < H.next) {p : Nat} {fresh : Mem}
    (hp : x.data ≠ some p) (hf : Valid env ta fresh w) :
    ∃ st' w', rbDup H tree env st x p fresh = .ok ⟨x.ty, some p⟩ st' ∧ Holds H env st' ⟨x.ty, some p⟩ ta w' ∧
      VEq (kinds ta) v w' ∧ ∀ q, q ≠ p → st' q = st q := by
  have hx' : Holds H env (st.set p fresh) x ta v := by
    obtain ⟨ia, q, hq, hv⟩ := hx
    have : q ≠ p := fun h => hp (h ▸ hq)
    exact ⟨ia, q, hq, by simpa [Store.set, this] using hv⟩
  have ht : Holds H env (st.set p fresh) ⟨x.ty, some p⟩ ta w := ⟨hx.1, p, rfl, by simpa [Store.set] using hf⟩
  have hel : SameElements H x.ty x.ty := by
    intro pa a b ea eb h1 h2 h3 h4
    rw [h1] at h2; cases h2
    rw [h3] at h4; cases h4
    rfl
  obtain ⟨st', w', h1, h2, h3, _, h5⟩ := C72_copy_partial hS hx' ht oa oa.1 ⟨hlt, hlt, hn, canCastTo_refl H _, hel⟩
  refine ⟨st', w', ?_, h2, ?_, ?_⟩
  · unfold rbDup
    rw [h1]
    rfl
  · obtain ⟨_, _, _, hv⟩ := hx
    obtain ⟨_, _, _, hw⟩ := h2
    obtain ⟨X, X', k, k', e1, e2, e3, _⟩ := cast_split false oa.1 oa.1 (TCast.refl ta)
    refine veq_of_same h3 (X := kinds ta) (X' := kinds ta) (k := 0) (k' := 0) (A := []) (B := []) ?_ hv.length.2 hw.length.2
      (by simp) (by simp) (by simp) (by simp)
    exact KEq.of_core oa.1 oa.1 rfl (tcast_core ta ta oa.1 oa.1 (TCast.refl ta)).2
  · intro q hq
    rw [h5 q (by simpa using fun h => hq h.symm)]
    simp [Store.set, hq]

end Verif.Cast
