import Verif.ValueResize

/-! destroy, zero and copy. -/

namespace Verif.Value
open Verif Verif.Layout

/-- containers the layout code accepts, with elements nested less than `D` deep -/
def ContOk (D : Nat) (c : Ty) : Prop :=
  match c with
  | .vec cs e => 0 < cs ∧ cs < W ∧ ElemOk e ∧ cdepth e < D
  | .str cs => 0 < cs ∧ cs < W
  | _ => False

theorem Blk.contOk {m : Bool} {D : Nat} {c : Ty} {b : L} (h : Blk m D c b) : ContOk D c := by
  unfold Blk at h
  unfold ContOk
  split at h
  · exact ⟨h.1, h.2.1, h.2.2.1, h.2.2.2.1⟩
  · exact ⟨h.1, h.2.1⟩
  · exact h.elim

/-- the operations are adequate for elements nested less than `D` deep -/
def AllOps (env : Env) (O : ElemOps) (D : Nat) : Prop := ∀ e, ElemOk e → cdepth e < D → OpsOk env O e

theorem abs_cont_size {env : Env} {c : Ty} {cells : Mem} {w : List AV} (h : Abs env [.cont c] cells w) :
    cells.length = c.size := by
  rw [h.length.1]; simp [itemsSize, Item.size]

theorem contClear_spec {env : Env} {O : ElemOps} {D : Nat} {c : Ty} (hc : ContOk D c) (hO : AllOps env O D) {cells : Mem}
    {w : List AV} (h : Abs env [.cont c] cells w) (pre post : Mem) :
    ∃ cells', contClear env O c (pre ++ (cells ++ post)) pre.length = .ok () (pre ++ (cells' ++ post)) ∧
      Abs env [.cont c] cells' [freshAV c] := by
  cases h with
  | @vec cs e _ cap buf n flat m v h0 hb hl hm hn =>
    cases hn
    obtain ⟨_, _, he, hd⟩ := hc
    have hr := vecResize_spec he (hO e he hd) (v := ⟨cap, buf⟩) hb hl hm 0 (by simp [W])
    rcases hr with ⟨h1, _⟩ | ⟨_, v', flat', h2, h3⟩
    · simp at h1
    · have hn := h3.abs
      rw [rep_zero] at hn
      refine ⟨.vec v'.cap [] :: (List.replicate (cs - 1) .tail ++ []), ?_, ?_⟩
      · simp only [contClear, getVec, List.append_nil, List.cons_append]
        rw [getCell_app _ _ _ _ h0]
        simp only []
        rw [h2]
        simp only [Out.conv_ok, setVec, setCell_app]
        cases hv : v'.buf with
        | nil => rfl
        | cons a b => rw [hv] at hn; cases hn
      · refine Abs.vec h0 (n := 0) .nil ?_ h3.cap .nil
        simp
  | @str cs _ bytes m v h0 hl hn =>
    cases hn
    refine ⟨.str [] :: (List.replicate (cs - 1) .tail ++ []), ?_, ?_⟩
    · simp only [contClear, getStr, List.append_nil, List.cons_append]
      rw [getCell_app _ _ _ _ h0]
      simp only [setCell_app]
    · exact Abs.str h0 (Nat.zero_le _) .nil

theorem kill_cont {env : Env} {c : Ty} {cells : Mem} {w : List AV} (h : Abs env [.cont c] cells w) :
    kill cells = List.replicate c.size .dead := by
  cases h with
  | @vec cs e _ cap buf n flat m v h0 hb hl hm hn =>
    cases hn
    show _ = List.replicate cs Cell.dead
    obtain ⟨k, rfl⟩ : ∃ k, cs = k + 1 := ⟨cs - 1, by omega⟩
    simp [kill, killC, List.replicate_succ]
  | @str cs _ bytes m v h0 hl hn =>
    cases hn
    show _ = List.replicate cs Cell.dead
    obtain ⟨k, rfl⟩ : ∃ k, cs = k + 1 := ⟨cs - 1, by omega⟩
    simp [kill, killC, List.replicate_succ]

theorem contDestroy_spec {env : Env} {O : ElemOps} {D : Nat} {c : Ty} (hc : ContOk D c) (hO : AllOps env O D) {cells : Mem}
    {w : List AV} (h : Abs env [.cont c] cells w) (pre post : Mem) :
    contDestroy env O c (pre ++ (cells ++ post)) pre.length = .ok () (pre ++ (kill cells ++ post)) := by
  have hk := kill_cont h
  obtain ⟨cells', h1, h2⟩ := contClear_spec hc hO h pre post
  cases c with
  | vec cs e =>
    simp only [contDestroy]
    rw [h1]
    simp only [Out.bind_ok]
    have hs := abs_cont_size h2
    cases h2 with
    | @vec _ _ _ cap buf n flat m v h0 hb hl hm hn =>
      cases hn
      rw [rep_zero] at hb
      cases hb
      simp only [getVec, List.append_nil, List.cons_append]
      rw [getCell_app _ _ _ _ h0]
      simp only [List.any_nil, Bool.false_eq_true, if_false]
      rw [hk]
      have := destruct_app pre (.vec cap [] :: List.replicate (cs - 1) .tail) post cs (by simp; omega)
      simp only [List.cons_append] at this
      rw [this]
      rfl
  | str cs =>
    have hs := abs_cont_size h
    cases h with
    | @str _ _ bytes m v h0 hl hn =>
      cases hn
      rw [hk]
      simp only [contDestroy, getStr, List.append_nil, List.cons_append]
      rw [getCell_app _ _ _ _ h0]
      have := destruct_app pre (.str bytes :: List.replicate (cs - 1) .tail) post cs (by simp; omega)
      simp only [List.cons_append] at this
      simp only [this]
      rfl
  | _ => exact hc.elim

theorem vecCopy_spec {env : Env} {O : ElemOps} {e : Ty} (he : ElemOk e) (hO : OpsOk env O e) {s1 sm s2 d1 dm d2 : Mem}
    {sidx didx count : Nat} {v w : List AV} (hs : s1.length = sidx * e.size) (hd : d1.length = didx * e.size)
    (hsm : Abs env (rep count (kinds e)) sm v) (hdm : Abs env (rep count (kinds e)) dm w)
    (hsW : s1.length + sm.length < W) (hdW : d1.length + dm.length < W) :
    ∃ dm' v', vecCopy O e (s1 ++ (sm ++ s2)) sidx (d1 ++ (dm ++ d2)) didx count = .ok () (d1 ++ (dm' ++ d2)) ∧
      Abs env (rep count (kinds e)) dm' v' ∧ VEq (rep count (kinds e)) v v' := by
  have lsm := abs_elems he hsm
  have ldm := abs_elems he hdm
  have e1 : wmul sidx e.size = s1.length := by rw [wmul_eq (by omega), hs]
  have e2 : wmul didx e.size = d1.length := by rw [wmul_eq (by omega), hd]
  unfold vecCopy
  rw [e1, e2]
  by_cases hmc : isElementMemcpy e = true
  · rw [if_pos hmc]
    obtain ⟨bs, hbs, rfl, rfl⟩ := Abs.memcpy_bytes he hmc hsm
    obtain ⟨cs, hcs, rfl, rfl⟩ := Abs.memcpy_bytes he hmc hdm
    have : wmul e.size count = bs.length := by
      rw [hbs, Nat.mul_comm count, wmul_eq]
      simp at hsW; rw [Nat.mul_comm]; omega
    rw [this, readBytes_app]
    simp only []
    rw [writeBytes_app _ _ _ _ (by simp [hbs, hcs]) (bytes_not_live _)]
    exact ⟨_, _, rfl, hsm, VEq.refl_of_abs hsm⟩
  · rw [if_neg hmc]
    have hstep := Nat.le_mul_of_pos_right count he.1
    have key := forStep_tri (fun i (d : Mem) => O.copy e (s1 ++ (sm ++ s2)) (wadd s1.length (wmul i e.size)) d
        (wadd d1.length (wmul i e.size))) 1
      (fun k b => ∃ a c b1 x1 va vc v1, sm = a ++ c ∧ v = va ++ vc ∧ Abs env (rep k (kinds e)) a va ∧
        Abs env (rep (count - k) (kinds e)) c vc ∧ Abs env (rep k (kinds e)) b1 v1 ∧ VEq (rep k (kinds e)) va v1 ∧
        (∃ w1, Abs env (rep (count - k) (kinds e)) x1 w1) ∧ b = d1 ++ (b1 ++ (x1 ++ d2)))
      (fun _ _ => False) count 0 (by omega) (by omega) ?_ count 0 (count + 1) (d1 ++ (dm ++ d2)) (by omega) (by omega) ?_
    · obtain ⟨_, s, h1, a, c, b1, x1, va, vc, v1, rfl, rfl, ha, hc, hb1, hv, ⟨w1, hw⟩, rfl⟩ := Tri.ok_iff.mp key
      rw [Nat.sub_self] at hc hw
      cases hc; cases hw
      refine ⟨b1, v1, ?_, hb1, by simpa using hv⟩
      simp only [Nat.zero_add, Nat.mul_one] at h1
      rw [h1]; simp
    · rintro k b hk ⟨a, c, b1, x1, va, vc, v1, rfl, rfl, ha, hc, hb1, hv, ⟨w1, hw⟩, rfl⟩
      obtain ⟨j, hj⟩ : ∃ j, count - k = j + 1 := ⟨count - k - 1, by omega⟩
      rw [hj, rep_succ] at hc hw
      obtain ⟨c1, c2, vc1, vc2, rfl, rfl, hc1, hc2⟩ := hc.split
      obtain ⟨x2, x3, vx2, vx3, rfl, rfl, hx2, hx3⟩ := hw.split
      have la := abs_elems he ha
      have lb := abs_elems he hb1
      have lc1 := abs_elem he hc1
      have lx2 := abs_elem he hx2
      have hk1 : (k + 1) * e.size ≤ count * e.size := Nat.mul_le_mul_right _ (by omega)
      rw [Nat.succ_mul] at hk1
      obtain ⟨d', v', h3, h4, h5⟩ := hO.copy (s1 ++ a) c1 (c2 ++ s2) (d1 ++ b1) x2 (x3 ++ d2) vc1 vx2 hc1 hx2
        (by simp [la]; omega) (by simp [lb]; omega)
      simp only [List.length_append, la, lb, List.append_assoc] at h3
      simp only [Nat.zero_add, Nat.mul_one]
      rw [wmul_eq (by omega), wadd_eq (by omega), wadd_eq (by omega)]
      simp only [List.append_assoc] at h3 ⊢
      rw [h3]
      refine ⟨a ++ c1, c2, b1 ++ d', x3, va ++ vc1, vc2, v1 ++ v', by simp, by simp, ?_, ?_, ?_, ?_, ?_, by simp⟩
      · rw [rep_succ']; exact ha.append hc1
      · rwa [show count - (k + 1) = j by omega]
      · rw [rep_succ']; exact hb1.append h4
      · rw [rep_succ']; exact hv.append h5
      · exact ⟨_, by rwa [show count - (k + 1) = j by omega]⟩
    · exact ⟨[], sm, [], dm, [], v, [], rfl, rfl, .nil, hsm, .nil, .nil, ⟨w, hdm⟩, rfl⟩

theorem contCopy_spec {env : Env} {O : ElemOps} {D : Nat} {c : Ty} (hc : ContOk D c) (hO : AllOps env O D) {src dst : Mem}
    {v w : List AV} (hs : Abs env [.cont c] src v) (hd : Abs env [.cont c] dst w) (spre spost dpre dpost : Mem) :
    ∃ dst' v', contCopy env O c (spre ++ (src ++ spost)) spre.length (dpre ++ (dst ++ dpost)) dpre.length =
        .ok () (dpre ++ (dst' ++ dpost)) ∧ Abs env [.cont c] dst' v' ∧ VEq [.cont c] v v' := by
  have hmaxW : env.maxAlloc < W := by have := env.hmax; unfold W; omega
  cases hs with
  | @vec cs e _ cap buf n flat m v h0 hb hl hm hn =>
    cases hn
    cases hd with
    | @vec _ _ _ dcap dbuf dn dflat m v _ hb' hl' hm' hn' =>
      cases hn'
      obtain ⟨_, _, he, hdp⟩ := hc
      have lb := abs_elems he hb
      have hne : ¬ e.size = 0 := by have := he.1; omega
      have hcnt : buf.length / e.size = n := by rw [lb]; exact Nat.mul_div_cancel _ he.1
      rcases vecResize_spec he (hO e he hdp) (v := ⟨dcap, dbuf⟩) hb' hl' hm' n (by omega) with ⟨h1, _⟩ | ⟨_, v', flat', h2, h3⟩
      · omega
      · have lv := abs_elems he h3.abs
        have := h3.len
        have := h3.cap
        obtain ⟨b', x', h4, h5, h6⟩ := vecCopy_spec he (hO e he hdp) (s1 := []) (sm := buf) (s2 := []) (d1 := [])
          (dm := v'.buf) (d2 := []) (sidx := 0) (didx := 0) (count := n) (by simp) (by simp) hb h3.abs
          (by simp; omega) (by simp; omega)
        simp only [List.nil_append, List.append_nil] at h4
        refine ⟨.vec v'.cap b' :: (List.replicate (cs - 1) .tail ++ []), [.seq n x'], ?_, ?_, .vec h6 .nil⟩
        · simp only [contCopy, getVec, List.append_nil, List.cons_append]
          rw [getCell_app _ _ _ _ h0, getCell_app _ _ _ _ h0]
          simp only [vecCount, hne, if_false, hcnt]
          rw [h2]
          simp only [Out.conv_ok, Out.bind_ok, setVec, setCell_app]
          rw [getCell_app _ _ _ _ h0]
          simp only []
          rw [h4]
          simp only [Out.conv_ok]
        · exact Abs.vec h0 h5 (by rw [abs_elems he h5]; omega) h3.cap .nil
  | @str cs _ bytes m v h0 hl hn =>
    cases hn
    cases hd with
    | @str _ _ dbytes m v _ hl' hn' =>
      cases hn'
      refine ⟨.str bytes :: (List.replicate (cs - 1) .tail ++ []), [.s bytes], ?_, ?_, .str .nil⟩
      · simp only [contCopy, getStr, List.append_nil, List.cons_append]
        rw [getCell_app _ _ _ _ h0, getCell_app _ _ _ _ h0]
        simp only [setCell_app]
      · exact Abs.str h0 hl .nil

/-! ### the loops -/

theorem skipBlock_cont (c : Ty) (b : L) (after : List Word) :
    skipBlock 0 (.p c :: (b.enc ++ .n 4 :: after)) = .ok (.n 4 :: after) := by
  rw [skipBlock, skipBlock_enc, skipBlock.eq_def]
  simp [FLAG_ARRAY, FLAG_CONTAINER, FLAG_END]

theorem skipBlock_body (b : L) (after : List Word) :
    skipBlock 0 (b.enc ++ .n 4 :: after) = .ok (.n 4 :: after) := by
  rw [skipBlock_enc, skipBlock.eq_def]
  simp [FLAG_ARRAY, FLAG_CONTAINER, FLAG_END]

theorem abs_cons_cont {env : Env} {c : Ty} {K : List Item} {m : Mem} {v : List AV} (h : Abs env (.cont c :: K) m v) :
    ∃ m1 m2 v1 v2, m = m1 ++ m2 ∧ v = v1 ++ v2 ∧ Abs env [.cont c] m1 v1 ∧ Abs env K m2 v2 :=
  Abs.split (K := [.cont c]) h

theorem destroy_walk {env : Env} {O : ElemOps} {m : Bool} {D : Nat} (hO : AllOps env O D) (l : L) (hl : l.All (Blk m D)) (hp : l.Pos)
    (k : Nat) (pre cells post : Mem) (v : List AV) (h : Abs env (l.expand ++ List.replicate k .pad) cells v)
    (hW : pre.length + cells.length < W) (init : List Word) :
    destroyL env O ⟨l.enc, init⟩ (pre ++ (cells ++ post)) pre.length = .ok () (pre ++ (kill cells ++ post)) := by
  have key := walk_tri (γ := Unit) (destroyI env O) (Blk m D)
    (fun _ K s => ∃ x y vy, cells = x ++ y ∧ Abs env K y vy ∧ s = ⟨pre ++ (kill x ++ (y ++ post)), pre.length + x.length⟩)
    (fun _ _ _ => False) ?_ ?_ ?_ l hl hp () (List.replicate k .pad) (l.enc.length + 1) [] ⟨pre ++ (cells ++ post), pre.length⟩
    (Or.inl rfl) (by omega) ?_
  · obtain ⟨it, s, h1, rfl, x, y, vy, rfl, hy, rfl⟩ := Tri.ok_iff.mp key
    unfold destroyL
    simp only [List.append_nil] at h1
    rw [h1]
    obtain ⟨bs, _, rfl, rfl⟩ := Abs.bytes (Or.inr rfl) hy
    simp [kill_bytes]
  · rintro _ n K s ⟨x, y, vy, rfl, hy, rfl⟩
    obtain ⟨y1, y2, v1, v2, rfl, rfl, h1, h2⟩ := hy.split
    obtain ⟨bs, rfl, rfl, rfl⟩ := Abs.bytes (Or.inl rfl) h1
    refine ⟨x ++ bs.map .byte, y2, v2, by simp, h2, ?_⟩
    simp only [List.length_append, List.length_map] at hW
    show MS.mk _ (wadd (pre.length + x.length) _) = _
    rw [wadd_eq (by omega)]
    simp [kill_bytes, Nat.add_assoc]
  · rintro _ n K s ⟨x, y, vy, rfl, hy, rfl⟩
    obtain ⟨y1, y2, v1, v2, rfl, rfl, h1, h2⟩ := hy.split
    obtain ⟨bs, rfl, rfl, rfl⟩ := Abs.bytes (Or.inr rfl) h1
    refine ⟨x ++ bs.map .byte, y2, v2, by simp, h2, ?_⟩
    simp only [List.length_append, List.length_map] at hW
    show MS.mk _ (wadd (pre.length + x.length) _) = _
    rw [wadd_eq (by omega)]
    simp [kill_bytes, Nat.add_assoc]
  · rintro _ c b K f after s hb _ ⟨x, y, vy, rfl, hy, rfl⟩
    obtain ⟨y1, y2, v1, v2, rfl, rfl, h1, h2⟩ := abs_cons_cont hy
    have hs := abs_cont_size h1
    have := contDestroy_spec hb.contOk hO h1 (pre ++ kill x) (y2 ++ post)
    simp only [destroyI]
    simp only [List.append_assoc, List.length_append, kill_length] at this ⊢
    simp only [List.length_append] at hW
    rw [this]
    simp only [Out.conv_ok, Out.bind_ok, skipBlock_cont, Out.ofRes_ok]
    refine ⟨rfl, x ++ y1, y2, v2, by simp, h2, ?_⟩
    rw [wadd_eq (by omega)]
    simp [hs, Nat.add_assoc]
  · exact ⟨[], cells, v, rfl, h, by simp [kill]⟩

/-- zeroed items: bytes are 0, containers empty -/
def zeroV : List Item → List AV
  | [] => []
  | .cont c :: K => freshAV c :: zeroV K
  | _ :: K => .b 0 :: zeroV K

theorem zeroV_append (a b : List Item) : zeroV (a ++ b) = zeroV a ++ zeroV b := by
  induction a with
  | nil => rfl
  | cons i a ih => cases i <;> simp [zeroV, ih]
theorem zeroV_replicate (n : Nat) {i : Item} (hi : i = .data ∨ i = .pad) : zeroV (List.replicate n i) = List.replicate n (.b 0) := by
  induction n with
  | zero => rfl
  | succ n ih => rcases hi with rfl | rfl <;> simp [List.replicate_succ, zeroV, ih]

theorem zero_walk {env : Env} {O : ElemOps} {m : Bool} {D : Nat} (hO : AllOps env O D) (l : L) (hl : l.All (Blk m D)) (hp : l.Pos)
    (k : Nat) (pre cells post : Mem) (v : List AV) (h : Abs env (l.expand ++ List.replicate k .pad) cells v)
    (hW : pre.length + cells.length < W) (init : List Word) :
    ∃ (cells' : Mem) (pads : List UInt8), zeroL env O ⟨l.enc, init⟩ (pre ++ (cells ++ post)) pre.length = .ok () (pre ++ (cells' ++ post)) ∧
      Abs env (l.expand ++ List.replicate k .pad) cells' (zeroV l.expand ++ pads.map .b) ∧ pads.length = k := by
  have bytes_case : ∀ (n : Nat) (i : Item), (i = .data ∨ i = .pad) → ∀ K s,
      (∃ (K1 : List Item) (x x' y : Mem) (vy : List AV), cells.length = x.length + y.length ∧ l.expand ++ List.replicate k .pad = K1 ++ (List.replicate n i ++ K) ∧
        Abs env (List.replicate n i ++ K) y vy ∧ Abs env K1 x' (zeroV K1) ∧ x'.length = x.length ∧
        s = (⟨pre ++ (x' ++ (y ++ post)), pre.length + x.length⟩ : MS)) →
      Tri ((Out.ofOpt (writeBytes s.mem s.off (List.replicate n 0)) s).bind fun m s => .ok () (⟨m, wadd s.off n⟩ : MS))
        (fun _ s => ∃ (K1 : List Item) (x x' y : Mem) (vy : List AV), cells.length = x.length + y.length ∧ l.expand ++ List.replicate k .pad = K1 ++ K ∧
        Abs env K y vy ∧ Abs env K1 x' (zeroV K1) ∧ x'.length = x.length ∧
        s = (⟨pre ++ (x' ++ (y ++ post)), pre.length + x.length⟩ : MS)) (fun _ _ => False) := by
    rintro n i hi K s ⟨K1, x, x', y, vy, hc, hK, hy, hx', hlx, rfl⟩
    obtain ⟨y1, y2, v1, v2, rfl, rfl, h1, h2⟩ := hy.split
    obtain ⟨bs, rfl, rfl, rfl⟩ := Abs.bytes hi h1
    have e1 := writeBytes_app (pre ++ x') (bs.map .byte) (List.replicate bs.length 0) (y2 ++ post) (by simp) (bytes_not_live _)
    simp only [List.append_assoc, List.length_append, hlx] at e1 ⊢
    rw [e1]
    simp only [Out.ofOpt_some, Out.bind_ok]
    simp only [List.length_append, List.length_map] at hc
    refine ⟨K1 ++ List.replicate bs.length i, x ++ bs.map .byte, x' ++ (List.replicate bs.length 0).map .byte, y2, v2,
      by simp; omega, by simp [hK], h2, ?_, by simp [hlx], ?_⟩
    · rw [zeroV_append, zeroV_replicate _ hi]
      refine hx'.append ?_
      have := Abs.ofBytes env hi (List.replicate bs.length 0)
      simpa using this
    · rw [wadd_eq (by omega)]
      simp [Nat.add_assoc]
  have key := walk_tri (γ := Unit) (zeroI env O) (Blk m D)
    (fun _ K s => ∃ (K1 : List Item) (x x' y : Mem) (vy : List AV), cells.length = x.length + y.length ∧ l.expand ++ List.replicate k .pad = K1 ++ K ∧
        Abs env K y vy ∧ Abs env K1 x' (zeroV K1) ∧ x'.length = x.length ∧
        s = (⟨pre ++ (x' ++ (y ++ post)), pre.length + x.length⟩ : MS))
    (fun _ _ _ => False) ?_ ?_ ?_ l hl hp () (List.replicate k .pad) (l.enc.length + 1) [] ⟨pre ++ (cells ++ post), pre.length⟩
    (Or.inl rfl) (by omega) ?_
  · obtain ⟨it, s, h1, rfl, K1, x, x', y, vy, hc, hK, hy, hx', hlx, rfl⟩ := Tri.ok_iff.mp key
    have hK := List.append_cancel_right hK
    subst hK
    obtain ⟨bs, hbs, rfl, rfl⟩ := Abs.bytes (Or.inr rfl) hy
    refine ⟨x' ++ bs.map .byte, bs, ?_, hx'.append hy, hbs⟩
    unfold zeroL
    simp only [List.append_nil] at h1
    rw [h1]
    simp
  · intro _ n K s hi
    exact bytes_case n .data (Or.inl rfl) K s hi
  · intro _ n K s hi
    exact bytes_case n .pad (Or.inr rfl) K s hi
  · rintro _ c b K f after s hb _ ⟨K1, x, x', y, vy, hc, hK, hy, hx', hlx, rfl⟩
    obtain ⟨y1, y2, v1, v2, rfl, rfl, h1, h2⟩ := abs_cons_cont hy
    have hs := abs_cont_size h1
    obtain ⟨y1', h3, h4⟩ := contClear_spec hb.contOk hO h1 (pre ++ x') (y2 ++ post)
    have hs' := abs_cont_size h4
    simp only [zeroI]
    simp only [List.append_assoc, List.length_append, hlx] at h3 ⊢
    simp only [List.length_append] at hc
    rw [h3]
    simp only [Out.conv_ok, Out.bind_ok, skipBlock_body, Out.ofRes_ok]
    refine ⟨rfl, K1 ++ [.cont c], x ++ y1, x' ++ y1', y2, v2, by simp; omega, by simp [hK], h2, ?_, by simp; omega, ?_⟩
    · rw [zeroV_append]; exact hx'.append h4
    · rw [wadd_eq (by omega)]
      simp [hs, Nat.add_assoc]
  · exact ⟨[], [], [], cells, v, by simp, by simp, h, .nil, rfl, by simp⟩

theorem copy_walk {env : Env} {O : ElemOps} {m : Bool} {D : Nat} (hO : AllOps env O D) (l : L) (hl : l.All (Blk m D)) (hp : l.Pos)
    (k : Nat) (spre src spost dpre dst dpost : Mem) (v w : List AV)
    (hs : Abs env (l.expand ++ List.replicate k .pad) src v) (hd : Abs env (l.expand ++ List.replicate k .pad) dst w)
    (hsW : spre.length + src.length < W) (hdW : dpre.length + dst.length < W) (init : List Word) :
    ∃ dst' v', copyL env O ⟨l.enc, init⟩ (spre ++ (src ++ spost)) spre.length (dpre ++ (dst ++ dpost)) dpre.length =
        .ok () (dpre ++ (dst' ++ dpost)) ∧ Abs env (l.expand ++ List.replicate k .pad) dst' v' ∧
      VEq (l.expand ++ List.replicate k .pad) v v' := by
  have hlen : src.length = dst.length := by rw [hs.length.1, hd.length.1]
  have key := walk_tri (γ := Unit) (copyI env O (spre ++ (src ++ spost))) (Blk m D)
    (fun _ K s => ∃ K1 x y vx vy x' vx' z vz, l.expand ++ List.replicate k .pad = K1 ++ K ∧ src = x ++ y ∧ v = vx ++ vy ∧
      Abs env K1 x vx ∧ Abs env K y vy ∧ Abs env K1 x' vx' ∧ VEq K1 vx vx' ∧ Abs env K z vz ∧
      s = (⟨dpre ++ (x' ++ (z ++ dpost)), dpre.length + x'.length, spre.length + x.length⟩ : CS))
    (fun _ _ _ => False) ?_ ?_ ?_ l hl hp () (List.replicate k .pad) (l.enc.length + 1) [] ⟨dpre ++ (dst ++ dpost), dpre.length, spre.length⟩
    (Or.inl rfl) (by omega) ?_
  · obtain ⟨it, s, h1, rfl, K1, x, y, vx, vy, x', vx', z, vz, hK, rfl, rfl, hx, hy, hx', hv, hz, rfl⟩ := Tri.ok_iff.mp key
    have hK := List.append_cancel_right hK
    subst hK
    obtain ⟨bs, hbs, rfl, rfl⟩ := Abs.bytes (Or.inr rfl) hy
    obtain ⟨cs, hcs, rfl, rfl⟩ := Abs.bytes (Or.inr rfl) hz
    refine ⟨x' ++ cs.map .byte, vx' ++ cs.map .b, ?_, hx'.append hz, ?_⟩
    · unfold copyL
      simp only [List.append_nil] at h1
      rw [h1]
      simp
    · refine hv.append ?_
      rw [← hbs]
      exact VEq.bytes_pad bs cs (by omega)
  · rintro _ n K s ⟨K1, x, y, vx, vy, x', vx', z, vz, hK, rfl, rfl, hx, hy, hx', hv, hz, rfl⟩
    obtain ⟨y1, y2, v1, v2, rfl, rfl, h1, h2⟩ := hy.split
    obtain ⟨z1, z2, w1, w2, rfl, rfl, h3, h4⟩ := hz.split
    obtain ⟨bs, rfl, rfl, rfl⟩ := Abs.bytes (Or.inl rfl) h1
    obtain ⟨cs, hcs, rfl, rfl⟩ := Abs.bytes (Or.inl rfl) h3
    have lx := hx.length.1
    have lx' := hx'.length.1
    have r1 := readBytes_app (spre ++ x) bs (y2 ++ spost)
    have r2 := writeBytes_app (dpre ++ x') (cs.map .byte) bs (z2 ++ dpost) (by simp [hcs]) (bytes_not_live _)
    simp only [List.append_assoc, List.length_append] at r1 r2
    have hd2 := hd.length.1
    rw [hK, itemsSize_append, itemsSize_append, itemsSize_replicate _ _ rfl] at hd2
    simp only [List.length_append, List.length_map] at hsW
    simp only [copyI, List.append_assoc]
    rw [r1]
    simp only [Out.ofOpt_some, Out.bind_ok]
    rw [r2]
    simp only [Out.ofOpt_some, Out.bind_ok]
    rw [wadd_eq (by omega), wadd_eq (by omega)]
    refine ⟨K1 ++ List.replicate bs.length .data, x ++ bs.map .byte, y2, vx ++ bs.map .b, v2, x' ++ bs.map .byte, vx' ++ bs.map .b,
      z2, w2, by simp [hK], by simp, by simp, hx.append h1, h2, hx'.append h1, ?_, h4, ?_⟩
    · exact hv.append (VEq.refl_of_abs h1)
    · simp [Nat.add_assoc]
  · rintro _ n K s ⟨K1, x, y, vx, vy, x', vx', z, vz, hK, rfl, rfl, hx, hy, hx', hv, hz, rfl⟩
    obtain ⟨y1, y2, v1, v2, rfl, rfl, h1, h2⟩ := hy.split
    obtain ⟨z1, z2, w1, w2, rfl, rfl, h3, h4⟩ := hz.split
    obtain ⟨bs, rfl, rfl, rfl⟩ := Abs.bytes (Or.inr rfl) h1
    obtain ⟨cs, hcs, rfl, rfl⟩ := Abs.bytes (Or.inr rfl) h3
    have lx := hx.length.1
    have lx' := hx'.length.1
    have hd2 := hd.length.1
    rw [hK, itemsSize_append, itemsSize_append, itemsSize_replicate _ _ rfl] at hd2
    simp only [List.length_append, List.length_map] at hsW
    simp only [copyI, List.append_assoc]
    rw [wadd_eq (by omega), wadd_eq (by omega)]
    refine ⟨K1 ++ List.replicate bs.length .pad, x ++ bs.map .byte, y2, vx ++ bs.map .b, v2, x' ++ cs.map .byte, vx' ++ cs.map .b,
      z2, w2, by simp [hK], by simp, by simp, hx.append h1, h2, hx'.append h3, ?_, h4, ?_⟩
    · exact hv.append (VEq.bytes_pad bs cs (by omega))
    · simp [Nat.add_assoc, hcs]
  · rintro _ c b K f after s hb _ ⟨K1, x, y, vx, vy, x', vx', z, vz, hK, rfl, rfl, hx, hy, hx', hv, hz, rfl⟩
    obtain ⟨y1, y2, v1, v2, rfl, rfl, h1, h2⟩ := abs_cons_cont hy
    obtain ⟨z1, z2, w1, w2, rfl, rfl, h3, h4⟩ := abs_cons_cont hz
    have s1 := abs_cont_size h1
    have lx := hx.length.1
    have lx' := hx'.length.1
    obtain ⟨d', v', h5, h6, h7⟩ := contCopy_spec hb.contOk hO h1 h3 (spre ++ x) (y2 ++ spost) (dpre ++ x') (z2 ++ dpost)
    have s2 := abs_cont_size h6
    have hd2 := hd.length.1
    rw [hK, itemsSize_append] at hd2
    have hsz : itemsSize (.cont c :: K) = c.size + itemsSize K := by simp [itemsSize, Item.size]
    rw [hsz] at hd2
    simp only [List.length_append] at hsW
    simp only [copyI]
    simp only [List.append_assoc, List.length_append] at h5 ⊢
    rw [h5]
    simp only [Out.conv_ok, Out.bind_ok, skipBlock_cont, Out.ofRes_ok]
    rw [wadd_eq (by omega), wadd_eq (by omega)]
    refine ⟨rfl, K1 ++ [.cont c], x ++ y1, y2, vx ++ v1, v2, x' ++ d', vx' ++ v', z2, w2, by simp [hK], by simp, by simp,
      hx.append h1, h2, hx'.append h6, hv.append h7, h4, ?_⟩
    simp [Nat.add_assoc, s1, s2]
  · exact ⟨[], [], src, [], v, [], [], dst, w, by simp, rfl, rfl, .nil, hs, .nil, .nil, hd, by simp⟩

/-! ### elements -/

theorem lay_veq (merge rem : Bool) (t : Ty) (h : t.WF) : ∃ k, (∀ env m v,
    (Abs env ((layL merge rem t).expand ++ List.replicate k .pad) m v ↔ Abs env (kinds t) m v)) ∧
    (∀ v w, VEq ((layL merge rem t).expand ++ List.replicate k .pad) v w → VEq (kinds t) v w) ∧
    (merge = false → (layL merge rem t).expand ++ List.replicate k .pad = kinds t) ∧
    (∃ X, kinds t = X ++ List.replicate k .pad ∧ (layL merge rem t).expand = X.map (mp merge)) := by
  obtain ⟨k, X, h1, h2⟩ := layL_expand merge rem t h
  refine ⟨k, ?_, ?_, ?_, X, h1, h2⟩
  · intro env m v
    rw [h1, h2]
    constructor
    · intro h
      obtain ⟨m1, m2, v1, v2, rfl, rfl, ha, hb⟩ := h.split
      exact (Abs.map_mp.mp ha).append hb
    · intro h
      obtain ⟨m1, m2, v1, v2, rfl, rfl, ha, hb⟩ := h.split
      exact (Abs.map_mp.mpr ha).append hb
  · intro v w h
    rw [h1]
    rw [h2] at h
    have hl := h.length
    rw [List.length_append, List.length_map] at hl
    have e1 : v = v.take X.length ++ v.drop X.length := by simp
    have e2 : w = w.take X.length ++ w.drop X.length := by simp
    rw [e1, e2] at h
    obtain ⟨ha, hb⟩ := VEq.split h (by simp; omega) (by simp; omega)
    rw [e1, e2]
    exact (VEq.of_map_mp ha).append hb
  · intro hm
    subst hm
    rw [h1, h2, map_mp_false]

/-- the element operations of a depth are adequate for elements with fewer container levels -/
theorem allOps (env : Env) : ∀ d, AllOps env (opsAt env d) d := by
  intro d
  induction d with
  | zero => intro e _ h; omega
  | succ d ih =>
    intro e he hd
    have hD : cdepth e ≤ d := by omega
    have hall : (layL true true e).All (Blk true d) :=
      sT_all _ _ _ (raw_all e false false _ he.2.1 he.2.2 hD) _ _ _ _
    obtain ⟨k, ha, hv, _⟩ := lay_veq true true e he.2.1
    have hp := layL_pos true true e he.2.1
    refine ⟨?_, ?_, ?_⟩
    · intro pre bs post hl hW
      show initL (elemLayout e) _ _ = _
      rw [elemLayout_eq he]
      exact initL_spec he.2.1 pre bs post hl hW _
    · intro pre cells post v h hW
      show destroyL env _ (elemLayout e) _ _ = _
      rw [elemLayout_eq he]
      exact destroy_walk ih _ hall hp k pre cells post v ((ha env _ _).mpr h) (by rw [abs_elem he h]; exact hW) _
    · intro spre src spost dpre dst dpost v w h1 h2 hW1 hW2
      obtain ⟨d', v', h3, h4, h5⟩ := copy_walk ih _ hall hp k spre src spost dpre dst dpost v w ((ha env _ _).mpr h1)
        ((ha env _ _).mpr h2) (by rw [abs_elem he h1]; exact hW1) (by rw [abs_elem he h2]; exact hW2) (layI e).enc
      refine ⟨d', v', ?_, (ha env _ _).mp h4, hv _ _ h5⟩
      show copyL env _ (elemLayout e) _ _ _ _ = _
      rw [elemLayout_eq he]
      exact h3

end Verif.Value
