import Verif.ValueInit

/-! `Vector::resize`. -/

namespace Verif.Value
open Verif Verif.Layout

/-- memory of a destroyed value: containers are gone, bytes stay -/
def killC : Cell → Cell
  | .byte b => .byte b
  | _ => .dead
def kill (m : Mem) : Mem := m.map killC

@[simp] theorem kill_append (a b : Mem) : kill (a ++ b) = kill a ++ kill b := List.map_append
@[simp] theorem kill_length (a : Mem) : (kill a).length = a.length := List.length_map _
theorem kill_not_live (m : Mem) : (kill m).any Cell.live = false := by
  induction m with
  | nil => rfl
  | cons c m ih => cases c <;> simp_all [kill, killC, Cell.live]
theorem kill_bytes (bs : List UInt8) : kill (bs.map .byte) = bs.map .byte := by
  induction bs with
  | nil => rfl
  | cons x bs ih => simp [kill, killC]
theorem bytes_any_live (bs : List UInt8) : (bs.map Cell.byte).any Cell.live = false := by
  rw [← kill_bytes]; exact kill_not_live _

/-- the operations on one element do what they are for -/
structure OpsOk (env : Env) (O : ElemOps) (e : Ty) : Prop where
  init : ∀ (pre : Mem) (bs : List UInt8) (post : Mem), bs.length = e.size → pre.length + e.size < W →
    O.init e (pre ++ (bs.map .byte ++ post)) pre.length = .ok () (pre ++ (initM (ikinds e) bs ++ post))
  destroy : ∀ (pre cells post : Mem) (v : List AV), Abs env (kinds e) cells v → pre.length + e.size < W →
    O.destroy e (pre ++ (cells ++ post)) pre.length = .ok () (pre ++ (kill cells ++ post))
  copy : ∀ (spre src spost dpre dst dpost : Mem) (v w : List AV), Abs env (kinds e) src v → Abs env (kinds e) dst w →
    spre.length + e.size < W → dpre.length + e.size < W →
    ∃ dst' v', O.copy e (spre ++ (src ++ spost)) spre.length (dpre ++ (dst ++ dpost)) dpre.length =
      .ok () (dpre ++ (dst' ++ dpost)) ∧ Abs env (kinds e) dst' v' ∧ VEq (kinds e) v v'

/-- contents of `n` new elements: zeros for plain elements, initialised from zeros for the others -/
def freshV (e : Ty) (n : Nat) : List AV :=
  if isElementMemcpy e then List.replicate (n * e.size) (.b 0) else rep n (initV (ikinds e) (List.replicate e.size 0))

theorem clr_rep {l : List AV} (h : Clr l) (n : Nat) : Clr (rep n l) := by
  induction n with
  | zero => trivial
  | succ n ih => rw [rep_succ]; exact clr_append.mpr ⟨h, ih⟩

theorem clr_freshV {e : Ty} (he : ElemOk e) (env : Env) (n : Nat) : Clr (freshV e n) := by
  unfold freshV
  split
  · have := clr_bytes (List.replicate (n * e.size) 0)
    simpa using this
  · exact clr_rep (initM_abs env (ikinds_match e) (ikinds_citem e he.2.1) _).2 n

theorem freshV_length {e : Ty} (he : ElemOk e) (n : Nat) (env : Env) : (freshV e n).length = n * (kinds e).length := by
  unfold freshV
  split
  · rename_i h
    have h1 := congrArg List.length (((elem_memcpy he).1 h).2)
    simp at h1
    simp [h1]
  · rw [rep_length, (initM_abs env (ikinds_match e) (ikinds_citem e he.2.1) _).1.length.2]

theorem abs_elems {env : Env} {e : Ty} (he : ElemOk e) {n : Nat} {m : Mem} {v : List AV}
    (h : Abs env (rep n (kinds e)) m v) : m.length = n * e.size := by
  rw [h.length.1, itemsSize_rep, kinds_size e he.2.1]

theorem abs_elem {env : Env} {e : Ty} (he : ElemOk e) {m : Mem} {v : List AV}
    (h : Abs env (kinds e) m v) : m.length = e.size := by
  rw [h.length.1, kinds_size e he.2.1]

/-- the loop that destroys the last elements -/
theorem destroyLoop {env : Env} {O : ElemOps} {e : Ty} (he : ElemOk e) (hO : OpsOk env O e) {N : Nat} {m1 m2 : Mem}
    {w : List AV} (h2 : Abs env (rep N (kinds e)) m2 w) (hW : m1.length + N * e.size < W) (f : Nat)
    (hf : N < f) :
    forStep (fun i b => O.destroy e b i) (m1.length + N * e.size) e.size f m1.length (m1 ++ m2) = .ok () (m1 ++ kill m2) := by
  have key := forStep_tri (fun i (b : Mem) => O.destroy e b i) e.size
    (fun k b => ∃ x y vy, m2 = x ++ y ∧ x.length = k * e.size ∧ Abs env (rep (N - k) (kinds e)) y vy ∧ b = m1 ++ (kill x ++ y))
    (fun _ _ => False) N m1.length he.1 hW ?_ N 0 f (m1 ++ m2) (by omega) hf ?_
  · obtain ⟨a, s, h1, x, y, vy, hx, hl, hy, rfl⟩ := Tri.ok_iff.mp key
    simp only [Nat.zero_mul, Nat.add_zero] at h1
    rw [h1, hx]
    rw [Nat.sub_self] at hy
    cases hy
    simp
  · intro k b hk hi
    obtain ⟨x, y, vy, rfl, hx, hy, rfl⟩ := hi
    obtain ⟨j, hj⟩ : ∃ j, N - k = j + 1 := ⟨N - k - 1, by omega⟩
    rw [hj, rep_succ] at hy
    obtain ⟨c, y', vc, vy', rfl, rfl, hc, hy'⟩ := hy.split
    have hlt : (k + 1) * e.size ≤ N * e.size := Nat.mul_le_mul_right _ (by omega)
    rw [Nat.succ_mul] at hlt
    have := hO.destroy (m1 ++ kill x) c y' vc hc (by simp [hx]; omega)
    simp only [List.append_assoc, List.length_append, kill_length, hx] at this
    rw [this]
    refine ⟨x ++ c, y', vy', by simp, ?_, ?_, by simp⟩
    · rw [List.length_append, hx, abs_elem he hc, Nat.succ_mul]
    · rwa [show N - (k + 1) = j by omega]
  · exact ⟨[], m2, w, rfl, by simp, h2, rfl⟩

/-- the loop that initialises new elements -/
theorem initLoop {env : Env} {O : ElemOps} {e : Ty} (_he : ElemOk e) (hO : OpsOk env O e) (N : Nat) (m1 : Mem)
    (hW : m1.length + N * e.size < W) (f : Nat) (hf : N < f) :
    forStep (fun i b => O.init e b i) (m1.length + N * e.size) e.size f m1.length
      (m1 ++ (List.replicate (N * e.size) 0).map .byte) =
      .ok () (m1 ++ rep N (initM (ikinds e) (List.replicate e.size 0))) := by
  have hml : (initM (ikinds e) (List.replicate e.size 0)).length = e.size := by
    rw [initM_length _ (ikinds_citem e _he.2.1), ikinds_size e _he.2.1]
  have key := forStep_tri (fun i (b : Mem) => O.init e b i) e.size
    (fun k b => b = m1 ++ (rep k (initM (ikinds e) (List.replicate e.size 0)) ++ (List.replicate ((N - k) * e.size) 0).map .byte))
    (fun _ _ => False) N m1.length _he.1 hW ?_ N 0 f (m1 ++ (List.replicate (N * e.size) 0).map .byte) (by omega) hf (by simp)
  · obtain ⟨a, s, h1, rfl⟩ := Tri.ok_iff.mp key
    simp only [Nat.zero_mul, Nat.add_zero] at h1
    rw [h1]
    simp
  · intro k b hk hi
    subst hi
    have hlt : (k + 1) * e.size ≤ N * e.size := Nat.mul_le_mul_right _ (by omega)
    rw [Nat.succ_mul] at hlt
    have := hO.init (m1 ++ rep k (initM (ikinds e) (List.replicate e.size 0))) (List.replicate e.size 0)
      ((List.replicate ((N - (k + 1)) * e.size) 0).map .byte) (by simp) (by simp [rep_length, hml]; omega)
    simp only [List.append_assoc, List.length_append, rep_length, hml] at this
    have e1 : (List.replicate ((N - k) * e.size) 0).map Cell.byte =
        (List.replicate e.size 0).map Cell.byte ++ (List.replicate ((N - (k + 1)) * e.size) 0).map .byte := by
      rw [← List.map_append, List.replicate_append_replicate]
      congr 2
      rw [show N - k = (N - (k + 1)) + 1 by omega, Nat.succ_mul]; omega
    rw [e1, this]
    show _ = _
    rw [rep_succ']
    simp

/-- the loop that moves elements to a new buffer -/
theorem moveLoop {env : Env} {O : ElemOps} {e : Ty} (he : ElemOk e) (hO : OpsOk env O e) {N : Nat} {m : Mem} {flat : List AV}
    (hm : Abs env (rep N (kinds e)) m flat) (extra : Nat) (hW : N * e.size + extra < W) (f : Nat) (hf : N < f) :
    ∃ x g, forStep (fun i (s : Mem × Mem) =>
        ((O.init e s.2 i).conv (fun n => (s.1, n))).bind fun _ s =>
        ((O.copy e s.1 i s.2 i).conv (fun n => (s.1, n))).bind fun _ s =>
        ((O.destroy e s.1 i).conv (fun b => (b, s.2))).bind fun _ s => .ok () s)
        (N * e.size) e.size f 0 (m, (List.replicate (N * e.size + extra) 0).map .byte) =
        .ok () (kill m, x ++ (List.replicate extra 0).map .byte) ∧
      Abs env (rep N (kinds e)) x g ∧ VEq (rep N (kinds e)) flat g := by
  have key := forStep_tri (fun i (s : Mem × Mem) =>
        ((O.init e s.2 i).conv (fun n => (s.1, n))).bind fun _ s =>
        ((O.copy e s.1 i s.2 i).conv (fun n => (s.1, n))).bind fun _ s =>
        ((O.destroy e s.1 i).conv (fun b => (b, s.2))).bind fun _ s => .ok () s) e.size
    (fun k s => ∃ x y fx fy x' g, m = x ++ y ∧ flat = fx ++ fy ∧ Abs env (rep k (kinds e)) x fx ∧
      Abs env (rep (N - k) (kinds e)) y fy ∧ Abs env (rep k (kinds e)) x' g ∧ VEq (rep k (kinds e)) fx g ∧
      s = (kill x ++ y, x' ++ (List.replicate ((N - k) * e.size + extra) 0).map .byte))
    (fun _ _ => False) N 0 he.1 (by omega) ?_ N 0 f (m, (List.replicate (N * e.size + extra) 0).map .byte) (by omega) hf ?_
  · obtain ⟨a, s, h1, x, y, fx, fy, x', g, rfl, rfl, hx, hy, hx', hv, rfl⟩ := Tri.ok_iff.mp key
    simp only [Nat.zero_mul, Nat.add_zero, Nat.zero_add] at h1
    rw [Nat.sub_self] at hy
    cases hy
    refine ⟨x', g, ?_, hx', by simpa using hv⟩
    rw [h1]; simp
  · rintro k s hk ⟨x, y, fx, fy, x', g, rfl, rfl, hx, hy, hx', hv, rfl⟩
    obtain ⟨j, hj⟩ : ∃ j, N - k = j + 1 := ⟨N - k - 1, by omega⟩
    rw [hj, rep_succ] at hy
    obtain ⟨c, y', vc, vy', rfl, rfl, hc, hy'⟩ := hy.split
    have hlt : (k + 1) * e.size ≤ N * e.size := Nat.mul_le_mul_right _ (by omega)
    rw [Nat.succ_mul] at hlt
    have lx := abs_elems he hx
    have lx' := abs_elems he hx'
    have h1 := hO.init x' (List.replicate e.size 0) ((List.replicate (j * e.size + extra) 0).map .byte) (by simp) (by omega)
    obtain ⟨ha, hcl⟩ := initM_abs env (ikinds_match e) (ikinds_citem e he.2.1) (List.replicate e.size 0)
    obtain ⟨d', vd, h2, h3, h4⟩ := hO.copy (kill x) c y' x' (initM (ikinds e) (List.replicate e.size 0))
      ((List.replicate (j * e.size + extra) 0).map .byte) vc _ hc ha (by simp [lx]; omega) (by omega)
    have h5 := hO.destroy (kill x) c y' vc hc (by simp [lx]; omega)
    simp only [kill_length, lx, lx'] at h1 h2 h5
    have e1 : (List.replicate ((N - k) * e.size + extra) 0).map Cell.byte =
        (List.replicate e.size 0).map Cell.byte ++ (List.replicate (j * e.size + extra) 0).map .byte := by
      rw [← List.map_append, List.replicate_append_replicate]
      congr 2
      rw [hj, Nat.succ_mul]; omega
    simp only [Nat.zero_add]
    rw [e1, h1]
    simp only [Out.conv_ok, Out.bind_ok]
    rw [h2]
    simp only [Out.conv_ok, Out.bind_ok]
    rw [h5]
    simp only [Out.conv_ok, Out.bind_ok]
    refine ⟨x ++ c, y', fx ++ vc, vy', x' ++ d', g ++ vd, by simp, by simp, ?_, ?_, ?_, ?_, ?_⟩
    · rw [rep_succ']; exact hx.append hc
    · rwa [show N - (k + 1) = j by omega]
    · rw [rep_succ']; exact hx'.append h3
    · rw [rep_succ']; exact hv.append h4
    · rw [show N - (k + 1) = j by omega]; simp
  · refine ⟨[], m, [], flat, [], [], rfl, rfl, .nil, hm, .nil, .nil, ?_⟩
    simp [kill]

/-- what `resize` guarantees -/
structure Resized (env : Env) (e : Ty) (n0 : Nat) (flat : List AV) (n : Nat) (v' : Vec) (flat' : List AV) : Prop where
  abs : Abs env (rep n (kinds e)) v'.buf flat'
  len : v'.buf.length ≤ v'.cap
  cap : v'.cap ≤ env.maxAlloc
  /-- the common prefix is kept, the rest is new -/
  content : ∃ f1 f2 g, flat = f1 ++ f2 ∧ flat' = g ++ freshV e (n - n0) ∧ VEq (rep (min n0 n) (kinds e)) f1 g

theorem abs_fresh (env : Env) {e : Ty} (he : ElemOk e) (n : Nat) :
    Abs env (rep n (kinds e)) (rep n (initM (ikinds e) (List.replicate e.size 0))) (rep n (initV (ikinds e) (List.replicate e.size 0))) := by
  induction n with
  | zero => exact .nil
  | succ n ih =>
    rw [rep_succ, rep_succ, rep_succ]
    exact (initM_abs env (ikinds_match e) (ikinds_citem e he.2.1) _).1.append ih

theorem vecResize_spec {env : Env} {O : ElemOps} {e : Ty} (he : ElemOk e) (hO : OpsOk env O e) {v : Vec} {n0 : Nat}
    {flat : List AV} (hv : Abs env (rep n0 (kinds e)) v.buf flat) (hlen : v.buf.length ≤ v.cap) (hcap : v.cap ≤ env.maxAlloc)
    (n : Nat) (hW : n * e.size < W) :
    (env.maxAlloc < n * e.size ∧ vecResize env O e n v = .exn .lengthError v) ∨
    (n * e.size ≤ env.maxAlloc ∧ ∃ v' flat', vecResize env O e n v = .ok () v' ∧ Resized env e n0 flat n v' flat') := by
  have hbl := abs_elems he hv
  have hmax := env.hmax
  have hdiv : n0 * e.size / e.size = n0 := Nat.mul_div_cancel _ he.1
  have hne : ¬ e.size = 0 := by have := he.1; omega
  have hge : ∀ a b : Nat, a < b → a * e.size + e.size ≤ b * e.size := by
    intro a b h
    have := Nat.mul_le_mul_right e.size (show a + 1 ≤ b from h)
    rwa [Nat.succ_mul] at this
  have h1W : W = 18446744073709551616 := rfl
  have hes := he.1
  unfold vecResize
  rw [if_neg hne]
  simp only [elemLayout_nonempty he, Bool.false_eq_true, if_false, wmul_eq hW]
  rw [hbl, hdiv]
  -- splitting the old elements when the vector does not grow
  have hshrink : n ≤ n0 → ∃ m1 m2 f1 f2, v.buf = m1 ++ m2 ∧ flat = f1 ++ f2 ∧ Abs env (rep n (kinds e)) m1 f1 ∧
      Abs env (rep (n0 - n) (kinds e)) m2 f2 := by
    intro h
    have e1 : rep n0 (kinds e) = rep n (kinds e) ++ rep (n0 - n) (kinds e) := by
      rw [← rep_add]; congr 1; omega
    rw [e1] at hv
    exact hv.split
  by_cases hmc : isElementMemcpy e = true
  · rw [if_pos hmc]
    obtain ⟨bs, hbs, hb, hf⟩ := Abs.memcpy_bytes he hmc hv
    unfold rawResize
    rw [hbl]
    by_cases hle : n ≤ n0
    · right
      have hle' : n * e.size ≤ n0 * e.size := Nat.mul_le_mul_right _ hle
      rw [if_pos hle', if_neg]
      · refine ⟨by omega, ⟨v.cap, v.buf.take (n * e.size)⟩, flat.take (n * e.size), rfl, ?_, ?_, hcap, ?_⟩
        · have := Abs.of_memcpy_bytes env he hmc (n := n) (bs := bs.take (n * e.size)) (by simp; omega)
          simp only [hb, hf, ← List.map_take]; exact this
        · simp; omega
        · obtain ⟨m1, m2, f1, f2, h1, rfl, h3, h4⟩ := hshrink hle
          refine ⟨f1, f2, f1, rfl, ?_, ?_⟩
          · have hk := congrArg List.length (((elem_memcpy he).1 hmc).2)
            simp only [List.length_map, List.length_replicate] at hk
            have l1 := h3.length.2
            rw [rep_length, hk] at l1
            have : freshV e (n - n0) = [] := by
              rw [show n - n0 = 0 by omega]; unfold freshV; split <;> simp
            rw [this, ← l1, List.take_left, List.append_nil]
          · rw [show min n0 n = n by omega]; exact VEq.refl_of_abs h3
      · rw [hb, ← List.map_drop, bytes_any_live]; simp
    · have hlt := hge n0 n (by omega)
      rw [if_neg (by omega)]
      have key : Abs env (rep n (kinds e)) (v.buf ++ List.replicate (n * e.size - n0 * e.size) (.byte 0))
          (flat ++ freshV e (n - n0)) := by
        have := Abs.of_memcpy_bytes env he hmc (n := n - n0) (bs := List.replicate ((n - n0) * e.size) 0) (by simp)
        have e1 : rep n (kinds e) = rep n0 (kinds e) ++ rep (n - n0) (kinds e) := by
          rw [← rep_add]; congr 1; omega
        rw [e1]
        refine hv.append ?_
        unfold freshV
        rw [if_pos hmc, ← Nat.sub_mul]
        simpa using this
      have hc : ∃ f1 f2 g, flat = f1 ++ f2 ∧ flat ++ freshV e (n - n0) = g ++ freshV e (n - n0) ∧
          VEq (rep (min n0 n) (kinds e)) f1 g := by
        refine ⟨flat, [], flat, by simp, rfl, ?_⟩
        rw [show min n0 n = n0 by omega]; exact VEq.refl_of_abs hv
      by_cases hc1 : n * e.size ≤ v.cap
      · right
        rw [if_pos hc1]
        refine ⟨by omega, _, _, rfl, key, ?_, hcap, hc⟩
        simp [hbl]; omega
      · rw [if_neg hc1]
        by_cases hm : env.maxAlloc < n * e.size
        · left; rw [if_pos hm]; exact ⟨hm, rfl⟩
        · right
          rw [if_neg hm, if_neg]
          · obtain ⟨g1, g2⟩ := env.grow_ok v.cap (n * e.size) (by omega)
            refine ⟨by omega, _, _, rfl, key, ?_, g2, hc⟩
            simp [hbl]; omega
          · rw [hb, bytes_any_live]; simp
  · rw [if_neg hmc]
    have hfresh0 : freshV e 0 = [] := by unfold freshV; split <;> simp
    by_cases hle : n ≤ n0
    · right
      obtain ⟨m1, m2, f1, f2, h1, rfl, h3, h4⟩ := hshrink hle
      have l1 := abs_elems he h3
      have hle' : n * e.size ≤ n0 * e.size := Nat.mul_le_mul_right _ hle
      have hdl := destroyLoop he hO (m1 := m1) h4 (by rw [l1, ← Nat.add_mul, show n + (n0 - n) = n0 by omega]; omega)
        (n0 * e.size + 1) (by have := Nat.le_mul_of_pos_right n0 he.1; omega)
      rw [l1, ← Nat.add_mul, show n + (n0 - n) = n0 by omega] at hdl
      have hres : ∀ w : Vec, w.cap = v.cap → w.buf = m1 ++ kill m2 → rawResize env w (n * e.size) = .ok () ⟨v.cap, m1⟩ := by
        intro w hw1 hw2
        unfold rawResize
        rw [hw1, hw2, if_pos (by simp [l1]), if_neg]
        · rw [← l1, List.take_left]
        · rw [← l1, List.drop_left, kill_not_live]; simp
      have hfin : Resized env e n0 (f1 ++ f2) n ⟨v.cap, m1⟩ f1 := by
        refine ⟨h3, by simp [l1]; omega, hcap, f1, f2, f1, rfl, ?_, ?_⟩
        · rw [show n - n0 = 0 by omega, hfresh0, List.append_nil]
        · rw [show min n0 n = n by omega]; exact VEq.refl_of_abs h3
      refine ⟨by omega, ⟨v.cap, m1⟩, f1, ?_, hfin⟩
      by_cases hlt : n < n0
      · rw [if_pos (by omega), h1, hdl]
        simp only [Out.conv_ok, Out.bind_ok]
        rw [if_pos (by omega), hres ⟨v.cap, m1 ++ kill m2⟩ rfl rfl]
        simp only [Out.bind_ok]
        rw [if_neg (by omega)]
      · have : n = n0 := by omega
        subst this
        rw [if_neg (by omega)]
        simp only [Out.bind_ok]
        rw [Nat.sub_self] at h4
        cases h4
        rw [if_pos (by omega), hres v rfl (by rw [h1]; rfl)]
        simp only [Out.bind_ok]
        rw [if_neg (by omega)]
    · have hlt := hge n0 n (by omega)
      rw [if_neg (by omega)]
      simp only [Out.bind_ok]
      have hsplit : n * e.size = n0 * e.size + (n - n0) * e.size := by
        rw [← Nat.add_mul]; congr 1; omega
      have hrep : rep n (kinds e) = rep n0 (kinds e) ++ rep (n - n0) (kinds e) := by
        rw [← rep_add]; congr 1; omega
      have hfV : freshV e (n - n0) = rep (n - n0) (initV (ikinds e) (List.replicate e.size 0)) := by
        unfold freshV; rw [if_neg hmc]
      have hfl : (rep (n - n0) (initM (ikinds e) (List.replicate e.size 0))).length = (n - n0) * e.size :=
        abs_elems he (abs_fresh env he (n - n0))
      -- initialisation of the new elements after a prefix of `n0` elements
      have hinit : ∀ x : Mem, x.length = n0 * e.size →
          forStep (fun i b => O.init e b i) (n * e.size) e.size (n * e.size + 1) (n0 * e.size)
            (x ++ (List.replicate ((n - n0) * e.size) 0).map .byte) =
          .ok () (x ++ rep (n - n0) (initM (ikinds e) (List.replicate e.size 0))) := by
        intro x hx
        have := initLoop he hO (n - n0) x (by omega) (n * e.size + 1)
          (by have := Nat.le_mul_of_pos_right n he.1; omega)
        rw [hx, ← hsplit] at this
        exact this
      by_cases hc1 : n * e.size ≤ v.cap
      · right
        refine ⟨by omega, ⟨v.cap, v.buf ++ rep (n - n0) (initM (ikinds e) (List.replicate e.size 0))⟩,
          flat ++ freshV e (n - n0), ?_, ?_, ?_, hcap, ?_⟩
        · rw [if_pos hc1]
          have : rawResize env v (n * e.size) = .ok () ⟨v.cap, v.buf ++ (List.replicate ((n - n0) * e.size) 0).map .byte⟩ := by
            unfold rawResize
            rw [if_neg (by omega), if_pos hc1, hbl, Nat.sub_mul]
            simp
          rw [this]
          simp only [Out.bind_ok]
          rw [if_pos (by omega), hinit v.buf hbl]
          rfl
        · rw [hrep, hfV]; exact hv.append (abs_fresh env he _)
        · simp [hfl, hbl]; omega
        · exact ⟨flat, [], flat, by simp, rfl, by rw [show min n0 n = n0 by omega]; exact VEq.refl_of_abs hv⟩
      · rw [if_neg hc1]
        by_cases hm : env.maxAlloc < n * e.size
        · left; rw [if_pos hm]; exact ⟨hm, rfl⟩
        · right
          rw [if_neg hm]
          obtain ⟨x, g, hml, hx, hg⟩ := moveLoop he hO hv ((n - n0) * e.size) (by omega) (n0 * e.size + 1)
            (by have := Nat.le_mul_of_pos_right n0 he.1; omega)
          obtain ⟨g1, g2⟩ := env.grow_ok 0 (n * e.size) (by omega)
          refine ⟨by omega, ⟨env.grow 0 (n * e.size), x ++ rep (n - n0) (initM (ikinds e) (List.replicate e.size 0))⟩,
            g ++ freshV e (n - n0), ?_, ?_, ?_, g2, ?_⟩
          · rw [Nat.min_eq_left (by omega)]
            have e1 : List.replicate (n * e.size) (Cell.byte 0) = (List.replicate (n0 * e.size + (n - n0) * e.size) 0).map .byte := by
              rw [hsplit]; simp
            rw [e1, hml]
            simp only [kill_not_live, Bool.false_eq_true, if_false, Out.bind_ok]
            rw [if_pos (by omega), hinit x (abs_elems he hx)]
            rfl
          · rw [hrep, hfV]; exact hx.append (abs_fresh env he _)
          · simp [hfl, abs_elems he hx]; omega
          · exact ⟨flat, [], g, by simp, rfl, by rw [show min n0 n = n0 by omega]; exact hg⟩

end Verif.Value
