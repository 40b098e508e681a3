import Verif.CastTree

/-!
Values of two types that differ only in their trailing padding (C72): what `copy` and `compare` do with the layout of one of the
types.
-/

namespace Verif.Cast
open Verif Verif.Layout Verif.Value

/-- The same contents, in two types: the same bytes of data and the same elements of the containers at the same places; padding
does not count, in particular the padding at the end, which needs not be as long. -/
inductive Same : List Item → List AV → List Item → List AV → Prop where
  | tail (bs cs : List UInt8) : Same (List.replicate bs.length .pad) (bs.map .b) (List.replicate cs.length .pad) (cs.map .b)
  | data {K K' v w x} : Same K v K' w → Same (.data :: K) (.b x :: v) (.data :: K') (.b x :: w)
  | pad {K K' v w x y} : Same K v K' w → Same (.pad :: K) (.b x :: v) (.pad :: K') (.b y :: w)
  | vec {cs e e' n f g K K' v w} : Same (rep n (kinds e)) f (rep n (kinds e')) g → Same K v K' w →
      Same (.cont (.vec cs e) :: K) (.seq n f :: v) (.cont (.vec cs e') :: K') (.seq n g :: w)
  | str {cs s K K' v w} : Same K v K' w → Same (.cont (.str cs) :: K) (.s s :: v) (.cont (.str cs) :: K') (.s s :: w)

theorem Same.symm {K K' : List Item} {v w : List AV} (h : Same K v K' w) : Same K' w K v := by
  induction h with
  | tail bs cs => exact .tail cs bs
  | data _ ih => exact .data ih
  | pad _ ih => exact .pad ih
  | vec _ _ ih1 ih2 => exact .vec ih1 ih2
  | str _ ih => exact .str ih

theorem same_of_veq {X X' : List Item} {v w : List AV} (h : VEq X v w) (hk : KEq X X') (bs cs : List UInt8) :
    Same (X ++ List.replicate bs.length .pad) (v ++ bs.map .b) (X' ++ List.replicate cs.length .pad) (w ++ cs.map .b) := by
  induction h generalizing X' bs cs with
  | nil => cases hk; exact .tail bs cs
  | data _ ih => cases hk with | data hk => exact .data (ih hk bs cs)
  | pad _ ih => cases hk with | pad hk => exact .pad (ih hk bs cs)
  | vec _ _ ih1 ih2 =>
    cases hk with
    | vec he hk =>
      refine .vec ?_ (ih2 hk bs cs)
      simpa using ih1 (he.rep _) [] []
  | str _ ih => cases hk with | str hk => exact .str (ih hk bs cs)

theorem veq_pads {X : List Item} {v w : List AV} {A B : List AV} {k : Nat} (bs cs : List UInt8)
    (hv : v.length = X.length) (hw : w.length = X.length) (h1 : X ++ List.replicate k .pad = List.replicate bs.length .pad)
    (h2 : v ++ A = bs.map .b) (h3 : w ++ B = cs.map .b) : VEq X v w := by
  have hX : X = List.replicate X.length .pad := by
    refine List.eq_replicate_iff.mpr ⟨rfl, fun x hx => ?_⟩
    have : x ∈ List.replicate bs.length Item.pad := h1 ▸ List.mem_append.mpr (Or.inl hx)
    exact (List.mem_replicate.mp this).2
  have e1 : v = (bs.take v.length).map .b := by
    rw [List.map_take, ← h2]; simp
  have e2 : w = (cs.take w.length).map .b := by
    rw [List.map_take, ← h3]; simp
  have l1 := congrArg List.length e1
  have l2 := congrArg List.length e2
  simp only [List.length_map] at l1 l2
  have := VEq.bytes_pad (bs.take v.length) (cs.take w.length) (by omega)
  rwa [← l1, ← e1, ← e2, hv, ← hX] at this

theorem Same.length {K K' : List Item} {v w : List AV} (h : Same K v K' w) : v.length = K.length ∧ w.length = K'.length := by
  induction h with
  | tail bs cs => simp
  | data _ ih => simp [ih]
  | pad _ ih => simp [ih]
  | vec _ _ _ ih => simp [ih]
  | str _ ih => simp [ih]

theorem veq_of_same {G G' : List Item} {V Z : List AV} (h : Same G V G' Z) : ∀ {X X' : List Item} {v w A B : List AV} {k k' : Nat},
    KEq X X' → v.length = X.length → w.length = X.length → G = X ++ List.replicate k .pad → V = v ++ A →
    G' = X' ++ List.replicate k' .pad → Z = w ++ B → VEq X v w := by
  have nil : ∀ {X X' : List Item} {v w : List AV}, KEq X X' → X = [] → v.length = X.length → w.length = X.length → VEq X v w := by
    intro X X' v w _ hX hv hw
    subst hX
    simp only [List.length_nil] at hv hw
    rw [List.length_eq_zero_iff.mp hv, List.length_eq_zero_iff.mp hw]; exact .nil
  induction h with
  | tail bs cs =>
    intro X X' v w A B k k' hk hv hw h1 h2 h3 h4
    exact veq_pads bs cs hv hw h1.symm h2.symm h4.symm
  | data h ih =>
    intro X X' v w A B k k' hk hv hw h1 h2 h3 h4
    cases hk with
    | nil => exact nil .nil rfl hv hw
    | data hk =>
      obtain ⟨a, v, rfl⟩ := List.exists_cons_of_length_eq_add_one hv
      obtain ⟨b, w, rfl⟩ := List.exists_cons_of_length_eq_add_one hw
      simp only [List.cons_append] at h1 h2 h3 h4
      injection h1 with _ h1; injection h2 with e2 h2; injection h3 with _ h3; injection h4 with e4 h4
      rw [← e2, ← e4]
      simp only [List.length_cons, Nat.add_right_cancel_iff] at hv hw
      exact .data (ih hk hv hw h1 h2 h3 h4)
    | pad hk => cases h1
    | vec _ hk => cases h1
    | str hk => cases h1
  | pad h ih =>
    intro X X' v w A B k k' hk hv hw h1 h2 h3 h4
    cases hk with
    | nil => exact nil .nil rfl hv hw
    | pad hk =>
      obtain ⟨a, v, rfl⟩ := List.exists_cons_of_length_eq_add_one hv
      obtain ⟨b, w, rfl⟩ := List.exists_cons_of_length_eq_add_one hw
      simp only [List.cons_append] at h1 h2 h3 h4
      injection h1 with _ h1; injection h2 with e2 h2; injection h3 with _ h3; injection h4 with e4 h4
      rw [← e2, ← e4]
      simp only [List.length_cons, Nat.add_right_cancel_iff] at hv hw
      exact .pad (ih hk hv hw h1 h2 h3 h4)
    | data hk => cases h1
    | vec _ hk => cases h1
    | str hk => cases h1
  | @vec cs0 e0 e0' n0 f0 g0 K0 K0' v0 w0 h0 h ih0 ih =>
    intro X X' v w A B k k' hk hv hw h1 h2 h3 h4
    cases hk with
    | nil => exact nil .nil rfl hv hw
    | vec he hk =>
      obtain ⟨a, v, rfl⟩ := List.exists_cons_of_length_eq_add_one hv
      obtain ⟨b, w, rfl⟩ := List.exists_cons_of_length_eq_add_one hw
      simp only [List.cons_append] at h1 h2 h3 h4
      injection h1 with e1 h1; injection h2 with e2 h2; injection h3 with e3 h3; injection h4 with e4 h4
      rw [← e2, ← e4]
      simp only [List.length_cons, Nat.add_right_cancel_iff] at hv hw
      injection e1 with e1; injection e1 with _ e1
      injection e3 with e3; injection e3 with _ e3
      have hl := h0.length
      rw [e1, e3] at hl
      have hs := (he.rep n0).size.2
      refine .vec ?_ (ih hk hv hw h1 h2 h3 h4)
      exact ih0 (A := []) (B := []) (k := 0) (k' := 0) (he.rep _) hl.1 (by rw [hl.2, hs]) (by simp [e1]) (by simp) (by simp [e3]) (by simp)
    | data hk => cases h1
    | pad hk => cases h1
    | str hk => cases h1
  | str h ih =>
    intro X X' v w A B k k' hk hv hw h1 h2 h3 h4
    cases hk with
    | nil => exact nil .nil rfl hv hw
    | str hk =>
      obtain ⟨a, v, rfl⟩ := List.exists_cons_of_length_eq_add_one hv
      obtain ⟨b, w, rfl⟩ := List.exists_cons_of_length_eq_add_one hw
      simp only [List.cons_append] at h1 h2 h3 h4
      injection h1 with _ h1; injection h2 with e2 h2; injection h3 with _ h3; injection h4 with e4 h4
      rw [← e2, ← e4]
      simp only [List.length_cons, Nat.add_right_cancel_iff] at hv hw
      exact .str (ih hk hv hw h1 h2 h3 h4)
    | data hk => cases h1
    | vec _ hk => cases h1
    | pad hk => cases h1

/-! ### compare -/

/-- `compareAt_spec` for values of which only what the layout of `t` describes is there -/
theorem compare_core {env : Env} (d : Nat) (t : Ty) (hw : t.WF) (hl : t.HasLayout true false) (hd : cdepth t ≤ d)
    {a post b post' : Mem} {v w : List AV} (hva : Abs env (layL false true t).expand a v)
    (hvb : Abs env (layL false true t).expand b w) (hW : a.length < W) :
    ∃ r s, compareAt (d + 1) t (a ++ post) 0 (b ++ post') 0 = .ok r s ∧ (r = true ↔ VEq (layL false true t).expand v w) := by
  have hp := layL_pos false true t hw
  have hall := layL_all true false false true t hw hl
  have la := hva.length.1
  have lb := hvb.length.1
  have hlen : a.length = b.length := by rw [la, lb]
  have key := walk_tri (γ := Unit) (compareI (compareAt d) (a ++ post) (b ++ post')) (Blk false (cdepth t))
    (fun _ K s => ∃ K1 x y vx vy x' y' vx' vy', (layL false true t).expand = K1 ++ K ∧ a = x ++ y ∧ v = vx ++ vy ∧ b = x' ++ y' ∧ w = vx' ++ vy' ∧
      Abs env K1 x vx ∧ Abs env K y vy ∧ Abs env K1 x' vx' ∧ Abs env K y' vy' ∧ VEq K1 vx vx' ∧
      s = (⟨x.length, x'.length⟩ : PS))
    (fun _ er s => er = .notEqual ∧ ¬ VEq (layL false true t).expand v w) ?_ ?_ ?_ (layL false true t) hall hp () []
    ((layL false true t).enc.length + 1) [] ⟨0, 0⟩ (Or.inl rfl) (by omega) ?_
  · simp only [List.append_nil] at key
    simp only [compareAt]
    rw [layoutOf_eq true false false true t hw hl]
    simp only []
    cases hf : walk (compareI (compareAt d) (a ++ post) (b ++ post')) ((layL false true t).enc.length + 1)
      (layL false true t).enc ⟨0, 0⟩ with
    | ok it s =>
      rw [hf] at key
      obtain ⟨rfl, K1, x, y, vx, vy, x', y', vx', vy', e1, rfl, rfl, rfl, rfl, q1, q2, q3, q4, q5, rfl⟩ := key
      refine ⟨true, _, rfl, ?_⟩
      simp only [true_iff]
      rw [e1]
      cases q2
      cases q4
      simpa using q5
    | exn er s =>
      rw [hf] at key
      obtain ⟨rfl, h⟩ := key
      exact ⟨false, _, rfl, by simpa using h⟩
    | ub => rw [hf] at key; exact key.elim
    | fuel => rw [hf] at key; exact key.elim
  · rintro _ n K s ⟨K1, x, y, vx, vy, x', y', vx', vy', e1, rfl, rfl, rfl, rfl, q1, q2, q3, q4, q5, rfl⟩
    obtain ⟨y1, y2, v1, v2, rfl, rfl, p1, p2⟩ := q2.split
    obtain ⟨z1, z2, w1, w2, rfl, rfl, p3, p4⟩ := q4.split
    obtain ⟨bs, hbs, rfl, rfl⟩ := Abs.bytes (Or.inl rfl) p1
    obtain ⟨cs, hcs, rfl, rfl⟩ := Abs.bytes (Or.inl rfl) p3
    have r1 := readBytes_app x bs (y2 ++ post)
    have r2 := readBytes_app x' cs (z2 ++ post')
    simp only [List.length_append, List.length_map] at hlen hW
    simp only [compareI, List.append_assoc]
    rw [← hbs, r1]
    simp only [Out.ofOpt_some, Out.bind_ok]
    rw [hbs, ← hcs, r2]
    simp only [Out.ofOpt_some, Out.bind_ok]
    have lx := q1.length.1
    have lx' := q3.length.1
    by_cases hbc : bs = cs
    · subst hbc
      rw [if_pos rfl, wadd_eq (by omega), wadd_eq (by omega)]
      refine ⟨K1 ++ List.replicate n .data, x ++ bs.map .byte, y2, vx ++ bs.map .b, v2, x' ++ bs.map .byte, z2, vx' ++ bs.map .b, w2,
        by simp [e1], by simp, by simp, by simp, by simp, q1.append p1, p2, q3.append p3, p4, q5.append ?_, ?_⟩
      · exact VEq.refl_of_abs p1
      · simp
    · rw [if_neg hbc]
      refine ⟨rfl, ?_⟩
      intro hv
      rw [e1] at hv
      have hx := (VEq.split hv q1.length.2 q3.length.2).2
      have hy := (VEq.split hx p1.length.2 p3.length.2).1
      exact hbc ((VEq.bytes_data hbs hcs).mp hy)
  · rintro _ n K s ⟨K1, x, y, vx, vy, x', y', vx', vy', e1, rfl, rfl, rfl, rfl, q1, q2, q3, q4, q5, rfl⟩
    obtain ⟨y1, y2, v1, v2, rfl, rfl, p1, p2⟩ := q2.split
    obtain ⟨z1, z2, w1, w2, rfl, rfl, p3, p4⟩ := q4.split
    obtain ⟨bs, hbs, rfl, rfl⟩ := Abs.bytes (Or.inr rfl) p1
    obtain ⟨cs, hcs, rfl, rfl⟩ := Abs.bytes (Or.inr rfl) p3
    simp only [List.length_append, List.length_map] at hlen hW
    have lx := q1.length.1
    have lx' := q3.length.1
    refine ⟨K1 ++ List.replicate n .pad, x ++ bs.map .byte, y2, vx ++ bs.map .b, v2, x' ++ cs.map .byte, z2, vx' ++ cs.map .b, w2,
        by simp [e1], by simp, by simp, by simp, by simp, q1.append p1, p2, q3.append p3, p4, q5.append ?_, ?_⟩
    · rw [← hbs]; exact VEq.bytes_pad bs cs (by omega)
    · show PS.mk (wadd x.length n) (wadd x'.length n) = _
      rw [wadd_eq (by omega), wadd_eq (by omega)]
      simp [hbs, hcs]
  · rintro _ c bl K f after s hb _ ⟨K1, x, y, vx, vy, x', y', vx', vy', e1, rfl, rfl, rfl, rfl, q1, q2, q3, q4, q5, rfl⟩
    obtain ⟨y1, y2, v1, v2, rfl, rfl, p1, p2⟩ := abs_cons_cont q2
    obtain ⟨z1, z2, w1, w2, rfl, rfl, p3, p4⟩ := abs_cons_cont q4
    have s1 := abs_cont_size p1
    have s2 := abs_cont_size p3
    obtain ⟨r, hr1, hr2⟩ := contCompare_spec (env := env) (cmp := compareAt d) hb.contOk
      (fun e he hd' => compareAt_spec d e he.2.1 (hasLayout_ptr _ _ he.2.2) (by omega)) p1 p3 x (y2 ++ post) x' (z2 ++ post')
    simp only [List.length_append] at hlen hW
    have lx := q1.length.1
    have lx' := q3.length.1
    simp only [compareI, List.append_assoc]
    rw [hr1]
    simp only [Out.bind_ok]
    cases r with
    | true =>
      simp only [if_true, skipBlock_cont, Out.ofRes_ok, Out.bind_ok]
      refine ⟨rfl, K1 ++ [.cont c], x ++ y1, y2, vx ++ v1, v2, x' ++ z1, z2, vx' ++ w1, w2,
        by simp [e1], by simp, by simp, by simp, by simp, q1.append p1, p2, q3.append p3, p4, q5.append (hr2.mp rfl), ?_⟩
      rw [wadd_eq (by omega), wadd_eq (by omega)]
      simp [s1, s2]
    | false =>
      refine ⟨rfl, ?_⟩
      intro hv
      rw [e1] at hv
      have hx := (VEq.split hv q1.length.2 q3.length.2).2
      have hy := (VEq.split (K := [.cont c]) hx p1.length.2 p3.length.2).1
      simp [hy] at hr2
  · exact ⟨[], [], a, [], v, [], b, [], w, by simp, rfl, rfl, rfl, rfl, .nil, by simpa using hva, .nil, by simpa using hvb, .nil, rfl⟩

/-- `Typelib::compare(void*, void*, a)` on a value of type `a` and a value of type `b`, in either order -/
theorem compare_cast {env : Env} {a b : Ty} (wa : a.WF) (wb : b.WF) (hl : a.HasLayout true false) (h : TCast a b)
    {ma mb : Mem} {v w : List AV} (ha : Valid env a ma v) (hb : Valid env b mb w) :
    (∃ r s, compare a ma mb = .ok r s ∧ (r = true ↔ Same (kinds a) v (kinds b) w)) ∧
    (∃ r s, compare a mb ma = .ok r s ∧ (r = true ↔ Same (kinds b) w (kinds a) v)) := by
  obtain ⟨X, X', k, k', h1, h2, h3, h4⟩ := cast_split false wa wb h
  rw [map_mp_false] at h4
  unfold Valid at ha hb
  have hsz := kinds_size a wa
  have hlt := wf_size_lt wa
  have hla := ha.length.1
  rw [hsz] at hla
  rw [h1] at ha
  rw [h2] at hb
  obtain ⟨m1, m2, v1, v2, rfl, rfl, a1, a2⟩ := ha.split
  obtain ⟨n1, n2, w1, w2, rfl, rfl, b1, b2⟩ := hb.split
  obtain ⟨bs, hbs, rfl, rfl⟩ := Abs.bytes (Or.inr rfl) a2
  obtain ⟨cs, hcs, rfl, rfl⟩ := Abs.bytes (Or.inr rfl) b2
  have b1' := h3.symm.abs b1
  have lx : m1.length = n1.length := by rw [a1.length.1, b1.length.1, h3.size.1]
  simp only [List.length_append, List.length_map] at hla
  have iff : VEq X v1 w1 ↔ Same (kinds a) (v1 ++ bs.map .b) (kinds b) (w1 ++ cs.map .b) := by
    rw [h1, h2]
    constructor
    · intro hv
      have := same_of_veq hv h3 bs cs
      rwa [hbs, hcs] at this
    · intro hs
      exact veq_of_same hs h3 a1.length.2 b1'.length.2 rfl rfl rfl rfl
  constructor
  · obtain ⟨r, s, hr, hv⟩ := compare_core (env := env) (cdepth a) a wa hl (Nat.le_refl _) (post := bs.map .byte) (post' := cs.map .byte)
      (h4 ▸ a1) (h4 ▸ b1') (by omega)
    exact ⟨r, s, hr, by rw [hv, h4, iff]⟩
  · obtain ⟨r, s, hr, hv⟩ := compare_core (env := env) (cdepth a) a wa hl (Nat.le_refl _) (post := cs.map .byte) (post' := bs.map .byte)
      (h4 ▸ b1') (h4 ▸ a1) (by omega)
    refine ⟨r, s, hr, ?_⟩
    rw [hv, h4]
    constructor
    · intro hx; exact (iff.mp hx.symm).symm
    · intro hx; exact (iff.mpr hx.symm).symm

/-! ### copy -/

/-- `Typelib::copy(void*, void*, a)` from a value of type `a` to a value of type `b` -/
theorem copy_cast {env : Env} {a b : Ty} (oa : OkType a) (wb : b.WF) (h : TCast a b) {src dst : Mem} {v w : List AV}
    (hs : Valid env a src v) (hd : Valid env b dst w) :
    ∃ dst' w', copy env a src dst = .ok () dst' ∧ Valid env b dst' w' ∧ Same (kinds a) v (kinds b) w' := by
  obtain ⟨X, X', k, k', h1, h2, h3, h4⟩ := cast_split true oa.1 wb h
  unfold Valid at hs hd
  have hsz := kinds_size a oa.1
  have hla := hs.length.1
  rw [hsz] at hla
  rw [h1] at hs
  rw [h2] at hd
  obtain ⟨m1, m2, v1, v2, rfl, rfl, a1, a2⟩ := hs.split
  obtain ⟨n1, n2, w1, w2, rfl, rfl, b1, b2⟩ := hd.split
  obtain ⟨bs, hbs, rfl, rfl⟩ := Abs.bytes (Or.inr rfl) a2
  obtain ⟨cs, hcs, rfl, rfl⟩ := Abs.bytes (Or.inr rfl) b2
  have b1' := h3.symm.abs b1
  have lx : m1.length = n1.length := by rw [a1.length.1, b1.length.1, h3.size.1]
  simp only [List.length_append, List.length_map] at hla
  have hlt := wf_size_lt oa.1
  obtain ⟨d', v', q1, q2, q3⟩ := copy_walk (env := env) (allOps env (cdepth a)) (layL true true a) (layL_all false false true true a oa.1 oa.2.1)
    (layL_pos _ _ a oa.1) 0 [] m1 (bs.map .byte) [] n1 (cs.map .byte) v1 w1
    (by rw [h4]; simpa using Abs.map_mp.mpr a1) (by rw [h4]; simpa using Abs.map_mp.mpr b1') (by simp; omega) (by simp; omega) (layI a).enc
  simp only [List.replicate_zero, List.append_nil, List.nil_append, List.length_nil] at q1 q2 q3
  rw [h4] at q2 q3
  have q2 := h3.abs (Abs.map_mp.mp q2)
  have q3 := VEq.of_map_mp q3
  refine ⟨d' ++ cs.map .byte, v' ++ cs.map .b, ?_, ?_, ?_⟩
  · unfold copy
    rw [withLayout_ok oa]
    exact q1
  · unfold Valid
    rw [h2]
    exact q2.append b2
  · rw [h1, h2]
    have := same_of_veq q3 h3 bs cs
    rwa [hbs, hcs] at this

end Verif.Cast
