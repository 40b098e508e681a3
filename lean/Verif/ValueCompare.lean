import Verif.ValueOps

/-! compare -/

namespace Verif.Value
open Verif Verif.Layout

mutual
/-- accepting pointers accepts more types -/
theorem hasLayout_ptr : ∀ (t : Ty) (ao : Bool), t.HasLayout false ao → t.HasLayout true ao
  | .num _, _, h => h
  | .enum _ _, _, h => h
  | .arr _ _, _, h => h
  | .vec _ _, _, h => h
  | .str _, _, h => h
  | .comp _ fs, ao, h => hasLayout_ptrF fs ao h
  | .ptr _, _, _ => rfl
  | .opaq _, _, h => h
theorem hasLayout_ptrF : ∀ (fs : Fields) (ao : Bool), fs.HasLayout false ao → fs.HasLayout true ao
  | .nil, _, h => h
  | .cons _ t r, ao, h => ⟨hasLayout_ptr t ao h.1, hasLayout_ptrF r ao h.2⟩
end

/-- the comparison of one element is right -/
def CmpOk (env : Env) (cmp : Ty → Mem → Nat → Mem → Nat → Out PS Bool) (t : Ty) : Prop :=
  ∀ (pre a post pre' b post' : Mem) (v w : List AV), Abs env (kinds t) a v → Abs env (kinds t) b w →
    pre.length + t.size < W → pre'.length + t.size < W →
    ∃ r s, cmp t (pre ++ (a ++ post)) pre.length (pre' ++ (b ++ post')) pre'.length = .ok r s ∧
      (r = true ↔ VEq (kinds t) v w)

theorem contCompare_spec {env : Env} {cmp : Ty → Mem → Nat → Mem → Nat → Out PS Bool} {D : Nat} {c : Ty} (hc : ContOk D c)
    (hcmp : ∀ e, ElemOk e → cdepth e < D → CmpOk env cmp e) {a b : Mem} {v w : List AV}
    (ha : Abs env [.cont c] a v) (hb : Abs env [.cont c] b w) (pre post pre' post' : Mem) :
    ∃ r, contCompare cmp c (pre ++ (a ++ post)) pre.length (pre' ++ (b ++ post')) pre'.length =
      .ok r ⟨pre.length, pre'.length⟩ ∧ (r = true ↔ VEq [.cont c] v w) := by
  have hmaxW : env.maxAlloc < W := by have := env.hmax; unfold W; omega
  cases ha with
  | @vec cs e _ cap buf n flat m v h0 hbuf hl hm hn =>
    cases hn
    cases hb with
    | @vec _ _ _ cap' buf' n' flat' m v _ hbuf' hl' hm' hn' =>
      cases hn'
      obtain ⟨_, _, he, hdp⟩ := hc
      have hes := he.1
      have lb := abs_elems he hbuf
      have lb' := abs_elems he hbuf'
      have hne : ¬ e.size = 0 := by have := he.1; omega
      have hcnt : buf.length / e.size = n := by rw [lb]; exact Nat.mul_div_cancel _ he.1
      have hcnt' : buf'.length / e.size = n' := by rw [lb']; exact Nat.mul_div_cancel _ he.1
      simp only [contCompare, getVec, List.append_nil, List.cons_append]
      rw [getCell_app _ _ _ _ h0, getCell_app _ _ _ _ h0]
      simp only [hne, if_false, vecCount, hcnt, hcnt']
      by_cases hnn : n = n'
      · subst hnn
        rw [if_neg (by simp)]
        have hstep := Nat.le_mul_of_pos_right n he.1
        have kk := forStep_tri (fun i (s : PS) => (cmp e buf (wmul i e.size) buf' (wmul i e.size)).bind fun r _ =>
            if r then .ok () s else .exn .notEqual s) 1
          (fun k s => s = ⟨pre.length, pre'.length⟩ ∧ ∃ x y vx vy x' y' vx' vy', buf = x ++ y ∧ flat = vx ++ vy ∧ buf' = x' ++ y' ∧ flat' = vx' ++ vy' ∧
            Abs env (rep k (kinds e)) x vx ∧ Abs env (rep (n - k) (kinds e)) y vy ∧ Abs env (rep k (kinds e)) x' vx' ∧
            Abs env (rep (n - k) (kinds e)) y' vy' ∧ VEq (rep k (kinds e)) vx vx')
          (fun er s => er = .notEqual ∧ s = ⟨pre.length, pre'.length⟩ ∧ ¬ VEq (rep n (kinds e)) flat flat')
          n 0 (by omega) (by omega) ?_ n 0 (n + 1) ⟨pre.length, pre'.length⟩ (by omega) (by omega) ?_
        · simp only [Nat.zero_add, Nat.mul_one] at kk
          cases hf : forStep (fun i (s : PS) => (cmp e buf (wmul i e.size) buf' (wmul i e.size)).bind fun r _ =>
            if r then .ok () s else .exn .notEqual s) n 1 (n + 1) 0 ⟨pre.length, pre'.length⟩ with
          | ok u s =>
            rw [hf] at kk
            obtain ⟨rfl, x, y, vx, vy, x', y', vx', vy', rfl, rfl, rfl, rfl, h1, h2, h3, h4, h5⟩ := kk
            rw [Nat.sub_self, rep_zero] at h2 h4
            cases h2; cases h4
            refine ⟨true, rfl, ?_⟩
            simp only [true_iff]
            exact .vec (by simpa using h5) .nil
          | exn er s =>
            rw [hf] at kk
            obtain ⟨rfl, rfl, h5⟩ := kk
            refine ⟨false, rfl, ?_⟩
            simp only [Bool.false_eq_true, false_iff]
            intro hv
            cases hv with
            | vec hv _ => exact h5 hv
          | ub => rw [hf] at kk; exact kk.elim
          | fuel => rw [hf] at kk; exact kk.elim
        · rintro k s hk ⟨rfl, x, y, vx, vy, x', y', vx', vy', rfl, rfl, rfl, rfl, h1, h2, h3, h4, h5⟩
          obtain ⟨j, hj⟩ : ∃ j, n - k = j + 1 := ⟨n - k - 1, by omega⟩
          rw [hj, rep_succ] at h2 h4
          obtain ⟨y1, y2, vy1, vy2, rfl, rfl, h6, h7⟩ := h2.split
          obtain ⟨z1, z2, vz1, vz2, rfl, rfl, h8, h9⟩ := h4.split
          have l1 := abs_elems he h1
          have l3 := abs_elems he h3
          have hk1 : (k + 1) * e.size ≤ n * e.size := Nat.mul_le_mul_right _ (by omega)
          rw [Nat.succ_mul] at hk1
          obtain ⟨r, s', hr, hv⟩ := hcmp e he hdp x y1 y2 x' z1 z2 vy1 vz1 h6 h8 (by omega) (by omega)
          simp only [Nat.zero_add, Nat.mul_one]
          rw [l1, l3] at hr
          rw [wmul_eq (by omega), hr]
          simp only [Out.bind_ok]
          cases r with
          | true =>
            refine ⟨rfl, x ++ y1, y2, vx ++ vy1, vy2, x' ++ z1, z2, vx' ++ vz1, vz2, by simp, by simp, by simp, by simp, ?_, ?_, ?_, ?_, ?_⟩
            · rw [rep_succ']; exact h1.append h6
            · rwa [show n - (k + 1) = j by omega]
            · rw [rep_succ']; exact h3.append h8
            · rwa [show n - (k + 1) = j by omega]
            · rw [rep_succ']; exact h5.append (hv.mp rfl)
          | false =>
            refine ⟨rfl, rfl, ?_⟩
            intro hall
            rw [show n = k + (1 + j) by omega, rep_add, rep_add, rep_succ, rep_zero, List.append_nil] at hall
            have hx := (VEq.split hall h1.length.2 h3.length.2).2
            have hy := (VEq.split hx h6.length.2 h8.length.2).1
            simp [hy] at hv
        · exact ⟨rfl, [], buf, [], flat, [], buf', [], flat', rfl, rfl, rfl, rfl, .nil, hbuf, .nil, hbuf', .nil⟩
      · rw [if_pos hnn]
        refine ⟨false, rfl, ?_⟩
        simp only [Bool.false_eq_true, false_iff]
        intro hv
        cases hv with
        | vec hv _ => exact hnn rfl
  | @str cs _ bytes m v h0 hl hn =>
    cases hn
    cases hb with
    | @str _ _ bytes' m v _ hl' hn' =>
      cases hn'
      simp only [contCompare, getStr, List.append_nil, List.cons_append]
      rw [getCell_app _ _ _ _ h0, getCell_app _ _ _ _ h0]
      refine ⟨bytes == bytes', rfl, ?_⟩
      rw [beq_iff_eq]
      constructor
      · rintro rfl; exact .str .nil
      · intro hv; cases hv; rfl

theorem compareAt_spec {env : Env} : ∀ (d : Nat) (t : Ty), t.WF → t.HasLayout true false → cdepth t < d → CmpOk env (compareAt d) t := by
  intro d
  induction d with
  | zero => intro t _ _ h; omega
  | succ d ih =>
    intro t hw hl hd pre a post pre' b post' v w hva hvb hW hW'
    obtain ⟨k, h1, h2, h3, X, h4, h5⟩ := lay_veq false true t hw
    have hp := layL_pos false true t hw
    have hall := layL_all true false false true t hw hl
    have hK := h3 rfl
    have la := hva.length.1
    have lb := hvb.length.1
    have hsz := kinds_size t hw
    have key := walk_tri (γ := Unit) (compareI (compareAt d) (pre ++ (a ++ post)) (pre' ++ (b ++ post'))) (Blk false (cdepth t))
      (fun _ K s => ∃ K1 x y vx vy x' y' vx' vy', kinds t = K1 ++ K ∧ a = x ++ y ∧ v = vx ++ vy ∧ b = x' ++ y' ∧ w = vx' ++ vy' ∧
        Abs env K1 x vx ∧ Abs env K y vy ∧ Abs env K1 x' vx' ∧ Abs env K y' vy' ∧ VEq K1 vx vx' ∧
        s = (⟨pre.length + x.length, pre'.length + x'.length⟩ : PS))
      (fun _ er s => er = .notEqual ∧ ¬ VEq (kinds t) v w) ?_ ?_ ?_ (layL false true t) hall hp () (List.replicate k .pad)
      ((layL false true t).enc.length + 1) [] ⟨pre.length, pre'.length⟩ (Or.inl rfl) (by omega) ?_
    · simp only [List.append_nil] at key
      simp only [compareAt]
      rw [layoutOf_eq true false false true t hw hl]
      simp only []
      cases hf : walk (compareI (compareAt d) (pre ++ (a ++ post)) (pre' ++ (b ++ post'))) ((layL false true t).enc.length + 1)
        (layL false true t).enc ⟨pre.length, pre'.length⟩ with
      | ok it s =>
        rw [hf] at key
        obtain ⟨rfl, K1, x, y, vx, vy, x', y', vx', vy', e1, rfl, rfl, rfl, rfl, q1, q2, q3, q4, q5, rfl⟩ := key
        refine ⟨true, _, rfl, ?_⟩
        simp only [true_iff]
        rw [e1]
        refine q5.append ?_
        obtain ⟨bs, hbs, rfl, rfl⟩ := Abs.bytes (Or.inr rfl) q2
        obtain ⟨cs, hcs, rfl, rfl⟩ := Abs.bytes (Or.inr rfl) q4
        rw [← hbs]
        exact VEq.bytes_pad bs cs (by omega)
      | exn er s =>
        rw [hf] at key
        obtain ⟨rfl, h⟩ := key
        exact ⟨false, _, rfl, by simpa using h⟩
      | ub => rw [hf] at key; exact key.elim
      | fuel => rw [hf] at key; exact key.elim
    · rintro _ n K s ⟨K1, x, y, vx, vy, x', y', vx', vy', e1, rfl, rfl, rfl, rfl, q1, q2, q3, q4, q5, rfl⟩
      obtain ⟨y1, y2, v1, v2, rfl, rfl, p1, p2⟩ := q2.split
      obtain ⟨z1, z2, w1, w2, rfl, rfl, p3, p4⟩ := q4.split
      obtain ⟨bs, hbs, rfl, rfl⟩ := Abs.bytes (Or.inl rfl) p1
      obtain ⟨cs, hcs, rfl, rfl⟩ := Abs.bytes (Or.inl rfl) p3
      have r1 := readBytes_app (pre ++ x) bs (y2 ++ post)
      have r2 := readBytes_app (pre' ++ x') cs (z2 ++ post')
      simp only [List.append_assoc, List.length_append] at r1 r2
      simp only [List.length_append, List.length_map] at la lb
      simp only [compareI, List.append_assoc]
      rw [← hbs, r1]
      simp only [Out.ofOpt_some, Out.bind_ok]
      rw [hbs, ← hcs, r2]
      simp only [Out.ofOpt_some, Out.bind_ok]
      by_cases hbc : bs = cs
      · subst hbc
        rw [if_pos rfl, wadd_eq (by omega), wadd_eq (by omega)]
        refine ⟨K1 ++ List.replicate n .data, x ++ bs.map .byte, y2, vx ++ bs.map .b, v2, x' ++ bs.map .byte, z2, vx' ++ bs.map .b, w2,
          by simp [e1], by simp, by simp, by simp, by simp, q1.append p1, p2, q3.append p3, p4, q5.append ?_, ?_⟩
        · exact VEq.refl_of_abs p1
        · simp [Nat.add_assoc]
      · rw [if_neg hbc]
        refine ⟨rfl, ?_⟩
        intro hv
        rw [e1] at hv
        have hx := (VEq.split hv q1.length.2 q3.length.2).2
        have hy := (VEq.split hx p1.length.2 p3.length.2).1
        exact hbc ((VEq.bytes_data hbs hcs).mp hy)
    · rintro _ n K s ⟨K1, x, y, vx, vy, x', y', vx', vy', e1, rfl, rfl, rfl, rfl, q1, q2, q3, q4, q5, rfl⟩
      obtain ⟨y1, y2, v1, v2, rfl, rfl, p1, p2⟩ := q2.split
      obtain ⟨z1, z2, w1, w2, rfl, rfl, p3, p4⟩ := q4.split
      obtain ⟨bs, hbs, rfl, rfl⟩ := Abs.bytes (Or.inr rfl) p1
      obtain ⟨cs, hcs, rfl, rfl⟩ := Abs.bytes (Or.inr rfl) p3
      simp only [List.length_append, List.length_map] at la lb
      refine ⟨K1 ++ List.replicate n .pad, x ++ bs.map .byte, y2, vx ++ bs.map .b, v2, x' ++ cs.map .byte, z2, vx' ++ cs.map .b, w2,
          by simp [e1], by simp, by simp, by simp, by simp, q1.append p1, p2, q3.append p3, p4, q5.append ?_, ?_⟩
      · rw [← hbs]; exact VEq.bytes_pad bs cs (by omega)
      · show PS.mk (wadd (pre.length + x.length) n) (wadd (pre'.length + x'.length) n) = _
        rw [wadd_eq (by omega), wadd_eq (by omega)]
        simp [hbs, hcs, Nat.add_assoc]
    · rintro _ c bl K f after s hb _ ⟨K1, x, y, vx, vy, x', y', vx', vy', e1, rfl, rfl, rfl, rfl, q1, q2, q3, q4, q5, rfl⟩
      obtain ⟨y1, y2, v1, v2, rfl, rfl, p1, p2⟩ := abs_cons_cont q2
      obtain ⟨z1, z2, w1, w2, rfl, rfl, p3, p4⟩ := abs_cons_cont q4
      have s1 := abs_cont_size p1
      have s2 := abs_cont_size p3
      obtain ⟨r, hr1, hr2⟩ := contCompare_spec (env := env) (cmp := compareAt d) hb.contOk
        (fun e he hd' => ih e he.2.1 (hasLayout_ptr _ _ he.2.2) (by omega)) p1 p3 (pre ++ x) (y2 ++ post) (pre' ++ x') (z2 ++ post')
      simp only [List.append_assoc, List.length_append] at hr1
      simp only [List.length_append] at la lb
      simp only [compareI, List.append_assoc]
      rw [hr1]
      simp only [Out.bind_ok]
      cases r with
      | true =>
        simp only [if_true, skipBlock_cont, Out.ofRes_ok, Out.bind_ok]
        refine ⟨rfl, K1 ++ [.cont c], x ++ y1, y2, vx ++ v1, v2, x' ++ z1, z2, vx' ++ w1, w2,
          by simp [e1], by simp, by simp, by simp, by simp, q1.append p1, p2, q3.append p3, p4, q5.append (hr2.mp rfl), ?_⟩
        rw [wadd_eq (by omega), wadd_eq (by omega)]
        simp [s1, s2, Nat.add_assoc]
      | false =>
        refine ⟨rfl, ?_⟩
        intro hv
        rw [e1] at hv
        have hx := (VEq.split hv q1.length.2 q3.length.2).2
        have hy := (VEq.split (K := [.cont c]) hx p1.length.2 p3.length.2).1
        simp [hy] at hr2
    · refine ⟨[], [], a, [], v, [], b, [], w, ?_, rfl, rfl, rfl, rfl, .nil, ?_, .nil, ?_, .nil, rfl⟩
      · rw [hK]; rfl
      · exact (h1 env _ _).mpr hva
      · exact (h1 env _ _).mpr hvb

end Verif.Value
