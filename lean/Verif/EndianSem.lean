import Verif.EndianOps

/-!
Specification of the byte swap and proof that the compiled program realises it.
-/

namespace Verif.Endian
open Verif Verif.Layout
set_option linter.unusedSimpArgs false

/-- apply `f` to each of `d` consecutive chunks of `k` bytes -/
def chunkMap (f : List UInt8 → List UInt8) (k : Nat) : Nat → List UInt8 → List UInt8
  | 0, _ => []
  | d + 1, bs => f (bs.take k) ++ chunkMap f k d (bs.drop k)

mutual
/-- The value with the bytes of every scalar reversed and everything else unchanged. -/
def swapSpec : Ty → List UInt8 → List UInt8
  | .num _, bs => bs.reverse
  | .enum _ _, bs => bs.reverse
  | .arr d e, bs => chunkMap (swapSpec e) e.size d bs
  | .comp _ fs, bs => swapFields 0 fs bs
  | _, bs => bs
/-- `bs`: the bytes of the compound from offset `cur` on -/
def swapFields (cur : Nat) : Fields → List UInt8 → List UInt8
  | .nil, bs => bs
  | .cons off t r, bs =>
    bs.take (off - cur) ++ swapSpec t ((bs.drop (off - cur)).take t.size)
      ++ swapFields (off + t.size) r (bs.drop (off - cur + t.size))
end

theorem chunkMap_length (f : List UInt8 → List UInt8) (k : Nat)
    (hf : ∀ bs : List UInt8, bs.length = k → (f bs).length = k) :
    ∀ (d : Nat) (bs : List UInt8), bs.length = d * k → (chunkMap f k d bs).length = d * k
  | 0, bs, _ => by simp [chunkMap]
  | d + 1, bs, h => by
    have hk : d * k + k = (d + 1) * k := by rw [Nat.succ_mul]
    have ih := chunkMap_length f k hf d (bs.drop k) (by rw [List.length_drop]; omega)
    simp only [chunkMap, List.length_append, ih]
    rw [hf _ (by rw [List.length_take]; omega)]
    omega

mutual
theorem swapSpec_length : ∀ (t : Ty), t.WF → ∀ bs : List UInt8, bs.length = t.size → (swapSpec t bs).length = t.size
  | .num n, _, bs, h => by simpa [swapSpec] using h
  | .enum n _, _, bs, h => by simpa [swapSpec] using h
  | .arr d e, hw, bs, h => by
    rw [arr_size hw] at h ⊢
    simp only [swapSpec]
    exact chunkMap_length _ _ (swapSpec_length e hw.2.2.2) d bs h
  | .comp n fs, hw, bs, h => by
    simp only [swapSpec]
    have := swapFields_length fs 0 n hw.2 bs (by simpa [Ty.size] using h)
    simpa [Ty.size] using this
  | .vec _ _, _, bs, h => by simpa [swapSpec] using h
  | .str _, _, bs, h => by simpa [swapSpec] using h
  | .ptr _, _, bs, h => by simpa [swapSpec] using h
  | .opaq _, _, bs, h => by simpa [swapSpec] using h
theorem swapFields_length : ∀ (fs : Fields) (cur n : Nat), fs.WF cur n → ∀ bs : List UInt8, bs.length = n - cur →
    (swapFields cur fs bs).length = n - cur
  | .nil, cur, n, _, bs, h => by simpa [swapFields] using h
  | .cons off t r, cur, n, hw, bs, h => by
    have hoff : cur ≤ off := hw.1
    have hend := fieldsWF_le r hw.2.2
    have h1 := swapSpec_length t hw.2.1 ((bs.drop (off - cur)).take t.size)
      (by rw [List.length_take, List.length_drop]; omega)
    have h2 := swapFields_length r (off + t.size) n hw.2.2 (bs.drop (off - cur + t.size))
      (by rw [List.length_drop]; omega)
    simp only [swapFields, List.length_append, h1, h2, List.length_take]
    omega
end

/-! ### effect of the operations -/

def slice (inp : List UInt8) (o n : Nat) : List UInt8 := (inp.drop o).take n

theorem slice_length {inp : List UInt8} {o n : Nat} (h : o + n ≤ inp.length) : (slice inp o n).length = n := by
  simp only [slice, List.length_take, List.length_drop]; omega

theorem slice_add (inp : List UInt8) (o a b : Nat) : slice inp o (a + b) = slice inp o a ++ slice inp (o + a) b := by
  simp only [slice, List.take_add, List.drop_drop]

theorem slice_drop (inp : List UInt8) (o n a : Nat) : (slice inp o n).drop a = slice inp (o + a) (n - a) := by
  simp only [slice, List.drop_take, List.drop_drop]

theorem slice_take (inp : List UInt8) (o n a : Nat) (h : a ≤ n) : (slice inp o n).take a = slice inp o a := by
  simp only [slice, List.take_take, Nat.min_eq_left h]

theorem readIn_eq {inp : List UInt8} {s : St} {o n : Nat} (h : o + n ≤ inp.length) :
    readIn false inp s o n = .ok (slice inp o n) := by
  simp [readIn, h, slice]

/-- the state after writing `bs` -/
def put (s : St) (bs : List UInt8) : St :=
  ⟨s.o + bs.length, s.out.take s.o ++ bs ++ s.out.drop (s.o + bs.length)⟩

theorem emit_eq {s : St} {bs : List UInt8} (h : s.o + bs.length ≤ s.out.length) : emit s bs = .ok (put s bs) := by
  simp [emit, h, put]

theorem put_out_length {s : St} {bs : List UInt8} (h : s.o + bs.length ≤ s.out.length) :
    (put s bs).out.length = s.out.length := by
  simp only [put, List.length_append, List.length_take, List.length_drop]; omega

theorem put_o (s : St) (bs : List UInt8) : (put s bs).o = s.o + bs.length := rfl

theorem put_put {s : St} {a b : List UInt8} (h : s.o + a.length + b.length ≤ s.out.length) :
    put (put s a) b = put s (a ++ b) := by
  obtain ⟨o, out⟩ := s
  simp only at h
  simp only [put, List.length_append, St.mk.injEq]
  refine ⟨by omega, ?_⟩
  have e1 : (out.take o ++ a).length = o + a.length := by
    rw [List.length_append, List.length_take]; omega
  rw [List.take_left' e1, ← List.drop_drop, List.drop_left' e1, List.drop_drop]
  simp only [List.append_assoc]
  congr 4
  omega

theorem put_nil (s : St) (h : s.o ≤ s.out.length) : put s [] = s := by
  obtain ⟨o, out⟩ := s
  simp [put]

theorem emit_ok {s s' : St} {bs : List UInt8} (h : emit s bs = .ok s') :
    s.o + bs.length ≤ s.out.length ∧ s' = put s bs := by
  unfold emit at h
  by_cases hc : s.o + bs.length ≤ s.out.length
  · rw [if_pos hc] at h; injection h with h; exact ⟨hc, h.symm⟩
  · rw [if_neg hc] at h; cases h

theorem run_skipO (inp : List UInt8) (p : Ops) (m ioff : Nat) (s s1 : St) (hr : p.run inp ioff s = .ok s1)
    (h1 : s1.o + m ≤ inp.length) (h2 : s1.o + m ≤ s1.out.length) :
    (skipO p m).run inp ioff s = .ok (put s1 (slice inp s1.o m)) := by
  have gen : ∀ q : Ops, q.run inp ioff s = .ok s1 → (Ops.skip q m).run inp ioff s = .ok (put s1 (slice inp s1.o m)) := by
    intro q hq
    simp only [Ops.run, hq, Res.bind_ok, readIn_eq h1]
    rw [emit_eq (by rw [slice_length h1]; exact h2)]
  cases p with
  | nil => exact gen _ hr
  | s4 q => exact gen _ hr
  | s8 q => exact gen _ hr
  | idx q j => exact gen _ hr
  | arr q d es b => exact gen _ hr
  | skip q n =>
    simp only [Ops.run] at hr
    obtain ⟨s0, hq, hr⟩ := Res.bind_eq_ok.1 hr
    obtain ⟨bs, hb, hr⟩ := Res.bind_eq_ok.1 hr
    have hb' : s0.o + n ≤ inp.length ∧ bs = slice inp s0.o n := by
      simp only [readIn, Bool.false_eq_true, if_false] at hb
      by_cases hc : s0.o + n ≤ inp.length
      · rw [if_pos hc] at hb; injection hb with hb; exact ⟨hc, hb.symm⟩
      · rw [if_neg hc] at hb; cases hb
    obtain ⟨hn, rfl⟩ := hb'
    obtain ⟨he, rfl⟩ := emit_ok hr
    rw [slice_length hn] at he
    rw [put_out_length (by rw [slice_length hn]; exact he)] at h2
    simp only [put_o, slice_length hn] at h1 h2 ⊢
    simp only [skipO, Ops.run, hq, Res.bind_ok]
    rw [readIn_eq (by omega), Res.bind_ok, slice_add, emit_eq]
    · rw [put_put]
      rw [slice_length hn, slice_length h1]; omega
    · rw [List.length_append, slice_length hn, slice_length h1]; omega

/-- an array loop that writes `f chunk` for each element -/
theorem runLoop_chunks (inp : List UInt8) (f : List UInt8 → List UInt8) (k ioff : Nat) (g : Nat → St → Res St)
    (x : Nat)
    (hf : ∀ bs : List UInt8, bs.length = k → (f bs).length = k)
    (hg : ∀ i s, s.o = ioff + k * i + x → s.o + k ≤ inp.length → s.o + k ≤ s.out.length →
      g i s = .ok (put s (f (slice inp s.o k)))) :
    ∀ (d i : Nat) (s : St), s.o = ioff + k * i + x → s.o + d * k ≤ inp.length → s.o + d * k ≤ s.out.length →
      runLoop g d i s = .ok (put s (chunkMap f k d (slice inp s.o (d * k))))
  | 0, i, s, _, _, h => by
    simp only [runLoop, chunkMap]
    rw [put_nil s (by omega)]
  | d + 1, i, s, ho, h1, h2 => by
    have hk : (d + 1) * k = k + d * k := by rw [Nat.succ_mul, Nat.add_comm]
    rw [hk] at h1 h2 ⊢
    have hl : (f (slice inp s.o k)).length = k := hf _ (slice_length (by omega))
    simp only [runLoop]
    rw [hg i s ho (by omega) (by omega), Res.bind_ok]
    rw [runLoop_chunks inp f k ioff g x hf hg d (i + 1) _ (by rw [put_o, hl, ho, Nat.mul_succ]; omega)
      (by rw [put_o, hl]; omega) (by rw [put_out_length (by rw [hl]; omega), put_o, hl]; omega)]
    rw [put_o, hl, put_put]
    · simp only [chunkMap]
      rw [slice_take _ _ _ _ (by omega), slice_drop, show k + d * k - k = d * k by omega]
    · rw [hl, chunkMap_length f k hf d _ (slice_length (by omega))]; omega

theorem chunkMap_mul (f : List UInt8 → List UInt8) (k m : Nat) :
    ∀ (d : Nat) (bs : List UInt8), bs.length = d * (m * k) →
      chunkMap (chunkMap f k m) (m * k) d bs = chunkMap f k (m * d) bs := by
  have app : ∀ (a b : Nat) (bs : List UInt8), a * k ≤ bs.length →
      chunkMap f k (a + b) bs = chunkMap f k a (bs.take (a * k)) ++ chunkMap f k b (bs.drop (a * k)) := by
    intro a
    induction a with
    | zero => intro b bs _; simp [chunkMap]
    | succ a ih =>
      intro b bs h
      have hk : (a + 1) * k = k + a * k := by rw [Nat.succ_mul, Nat.add_comm]
      rw [hk] at h ⊢
      rw [show a + 1 + b = (a + b) + 1 by omega]
      simp only [chunkMap]
      rw [ih b (bs.drop k) (by rw [List.length_drop]; omega)]
      simp only [List.append_assoc]
      rw [List.take_take, Nat.min_eq_left (by omega), List.drop_take, show k + a * k - k = a * k by omega,
        List.drop_drop]
  intro d
  induction d with
  | zero => intro bs _; simp [chunkMap]
  | succ d ih =>
    intro bs h
    have hk : (d + 1) * (m * k) = m * k + d * (m * k) := by rw [Nat.succ_mul, Nat.add_comm]
    rw [hk] at h
    simp only [chunkMap]
    rw [ih _ (by rw [List.length_drop]; omega), Nat.mul_succ, Nat.add_comm (m * d) m, app m (m * d) bs (by omega)]

theorem swapSpec_inner : ∀ (t : Ty), isArr t = true → t.WF → SwapOk t → ∀ bs : List UInt8, bs.length = t.size →
    swapSpec t bs = chunkMap (swapSpec (inner t)) (inner t).size (total t) bs
  | .arr d e, _, hw, h, bs, hl => by
    by_cases he : isArr e = true
    · have hsz := arr_size hw
      obtain ⟨u1, u2, u3, u4, u5, u6, u7⟩ := total_inner e he hw.2.2.2 h.2
      simp only [swapSpec, inner, total, he, if_true]
      rw [← chunkMap_mul _ _ _ d bs (by rw [hl, hsz, u1]), ← u1]
      have key : ∀ d (bs : List UInt8), bs.length = d * e.size → chunkMap (swapSpec e) e.size d bs
          = chunkMap (chunkMap (swapSpec (inner e)) (inner e).size (total e)) e.size d bs := by
        intro d
        induction d with
        | zero => intro bs _; rfl
        | succ d ih =>
          intro bs hb
          have hk : (d + 1) * e.size = e.size + d * e.size := by rw [Nat.succ_mul, Nat.add_comm]
          simp only [chunkMap]
          rw [swapSpec_inner e he hw.2.2.2 h.2 _ (by rw [List.length_take]; omega),
            ih _ (by rw [List.length_drop]; omega)]
      exact key d bs (by rw [hl, hsz])
    · simp only [swapSpec, inner, total, he, if_false, Bool.false_eq_true]
  | .num _, h, _, _, _, _ => by simp [isArr] at h
  | .enum _ _, h, _, _, _, _ => by simp [isArr] at h
  | .vec _ _, h, _, _, _, _ => by simp [isArr] at h
  | .str _, h, _, _, _, _ => by simp [isArr] at h
  | .comp _ _, h, _, _, _, _ => by simp [isArr] at h
  | .ptr _, h, _, _, _, _ => by simp [isArr] at h
  | .opaq _, h, _, _, _, _ => by simp [isArr] at h

theorem chunkMap_id (k : Nat) : ∀ (d : Nat) (bs : List UInt8), bs.length = d * k → chunkMap (fun l => l) k d bs = bs
  | 0, bs, h => by
    have : bs.length = 0 := by omega
    simp [chunkMap, List.length_eq_zero_iff.1 this]
  | d + 1, bs, h => by
    have hk : (d + 1) * k = k + d * k := by rw [Nat.succ_mul, Nat.add_comm]
    simp only [chunkMap]
    rw [chunkMap_id k d _ (by rw [List.length_drop]; omega), List.take_append_drop]

theorem run_wrap_arr (inp : List UInt8) (p b : Ops) (d es ioff : Nat) (s s1 : St) (hr : p.run inp ioff s = .ok s1)
    (h1 : s1.o + d * b.adv ≤ inp.length) (h2 : s1.o + d * b.adv ≤ s1.out.length) :
    (wrap p d es b).run inp ioff s = runLoop (fun i s => b.run inp (ioff + es * i) s) d 0 s1 := by
  by_cases hs : ∃ n, b = .skip .nil n
  · obtain ⟨n, rfl⟩ := hs
    simp only [Ops.adv, Nat.zero_add] at h1 h2
    have hloop := runLoop_chunks inp (fun l => l) n s1.o
      (fun i s => (Ops.skip .nil n).run inp (ioff + es * i) s) 0 (fun _ h => h)
      (fun i s _ ha hb => by
        simp only [Ops.run, Res.bind_ok, readIn_eq ha]
        rw [emit_eq (by rw [slice_length ha]; exact hb)])
      d 0 s1 (by simp) h1 h2
    rw [hloop, chunkMap_id n d _ (slice_length h1)]
    simp only [wrap, Ops.run, hr, Res.bind_ok]
    rw [Nat.mul_comm n d, readIn_eq h1, Res.bind_ok, emit_eq (by rw [slice_length h1]; exact h2)]
  · have hw : wrap p d es b = .arr p d es b := by
      unfold wrap
      split
      · exact absurd ⟨_, rfl⟩ hs
      · rfl
    rw [hw]
    simp only [Ops.run, hr, Res.bind_ok]

theorem slice1 (inp : List UInt8) (o : Nat) (h : o < inp.length) : slice inp o 1 = [inp[o]] := by
  simp only [slice]
  rw [List.drop_eq_getElem_cons h]
  rfl

theorem slice_succ (inp : List UInt8) (o n : Nat) (h : o < inp.length) :
    slice inp o (n + 1) = inp[o] :: slice inp (o + 1) n := by
  rw [Nat.add_comm n 1, slice_add, slice1 inp o h]; rfl

theorem slice_zero (inp : List UInt8) (o : Nat) : slice inp o 0 = [] := by simp [slice]

theorem run_idx (inp : List UInt8) (p : Ops) (j ioff : Nat) (s s1 : St) (bs : List UInt8)
    (hr : p.run inp ioff s = .ok (put s1 bs)) (h1 : ioff + j < inp.length)
    (h2 : s1.o + bs.length + 1 ≤ s1.out.length) :
    (Ops.idx p j).run inp ioff s = .ok (put s1 (bs ++ [inp[ioff + j]])) := by
  simp only [Ops.run, hr, Res.bind_ok]
  rw [readIn_eq (by omega), Res.bind_ok, slice1 inp _ h1, emit_eq, put_put]
  · simpa using h2
  · rw [put_out_length (by omega), put_o]; simpa using h2

mutual
theorem run_app (inp : List UInt8) : ∀ (t : Ty), t.WF → SwapOk t → ∀ x (p : Ops) ioff s s1,
    p.run inp ioff s = .ok s1 → s1.o = ioff + x → s1.o + t.size ≤ inp.length → s1.o + t.size ≤ s1.out.length →
    (app x p t).run inp ioff s = .ok (put s1 ((swapSpec t (slice inp s1.o t.size)).take (advT t)))
  | .num n, _, h, x, p, ioff, s, s1, hr, ho, h1, h2 => by
    simp only [SwapOk] at h
    simp only [Ty.size] at h1 h2 ⊢
    rw [List.take_of_length_le (by simp [swapSpec, advT, slice_length h1])]
    simp only [swapSpec]
    rcases h with rfl | rfl | rfl | rfl
    · simp only [app, if_true]
      rw [run_skipO inp p 1 ioff s s1 hr h1 h2, slice1 inp _ (by omega)]
      rfl
    · have e : app x p (.num 2) = .idx (.idx p (x + 1)) x := by simp [app]
      have hr0 : p.run inp ioff s = .ok (put s1 []) := by rw [put_nil s1 (by omega)]; exact hr
      have r1 := run_idx inp p (x + 1) ioff s s1 [] hr0 (by omega) (by simp; omega)
      have r2 := run_idx inp _ x ioff s s1 _ r1 (by omega) (by simp; omega)
      rw [e, r2, slice_succ inp _ _ (by omega), slice_succ inp _ _ (by omega), slice_zero]
      simp only [ho]
      rfl
    · have e : app x p (.num 4) = .s4 p := by simp [app]
      rw [e]
      simp only [Ops.run, hr, Res.bind_ok]
      rw [readIn_eq h1, Res.bind_ok, slice_succ inp _ _ (by omega), slice_succ inp _ _ (by omega),
        slice_succ inp _ _ (by omega), slice_succ inp _ _ (by omega), slice_zero, swapMem4_reverse, emit_eq]
      · rfl
      · simpa using h2
    · have e : app x p (.num 8) = .s8 p := by simp [app]
      rw [e]
      simp only [Ops.run, hr, Res.bind_ok]
      rw [readIn_eq h1, Res.bind_ok, slice_succ inp _ _ (by omega), slice_succ inp _ _ (by omega),
        slice_succ inp _ _ (by omega), slice_succ inp _ _ (by omega), slice_succ inp _ _ (by omega),
        slice_succ inp _ _ (by omega),
        slice_succ inp _ _ (by omega), slice_succ inp _ _ (by omega), slice_zero, swapMem8_reverse, emit_eq]
      · rfl
      · simpa using h2
  | .enum n vs, _, h, x, p, ioff, s, s1, hr, ho, h1, h2 => by
    simp only [SwapOk] at h
    subst h
    simp only [Ty.size] at h1 h2 ⊢
    rw [List.take_of_length_le (by simp [swapSpec, advT, slice_length h1])]
    simp only [swapSpec]
    have hr0 : p.run inp ioff s = .ok (put s1 []) := by rw [put_nil s1 (by omega)]; exact hr
    have r1 := run_idx inp p (x + 3) ioff s s1 [] hr0 (by omega) (by simp; omega)
    have r2 := run_idx inp _ (x + 2) ioff s s1 _ r1 (by omega) (by simp; omega)
    have r3 := run_idx inp _ (x + 1) ioff s s1 _ r2 (by omega) (by simp; omega)
    have r4 := run_idx inp _ x ioff s s1 _ r3 (by omega) (by simp; omega)
    simp only [app]
    rw [r4, slice_succ inp _ _ (by omega), slice_succ inp _ _ (by omega), slice_succ inp _ _ (by omega),
      slice_succ inp _ _ (by omega), slice_zero]
    simp only [ho]
    rfl
  | .arr d e, hw, h, x, p, ioff, s, s1, hr, ho, h1, h2 => by
    obtain ⟨t1, t2, t3, t4, t5, t6, t7⟩ := total_inner (.arr d e) rfl hw h
    rw [List.take_of_length_le (by rw [t7, swapSpec_length _ hw _ (slice_length h1)]; exact Nat.le_refl _)]
    rw [swapSpec_inner _ rfl hw h _ (slice_length h1)]
    rw [app_arr (.arr d e) rfl x p]
    have hbadv := app_adv (inner (.arr d e)) t5 t6 x .nil
    rw [t2] at hbadv
    simp only [Ops.adv, Nat.zero_add] at hbadv
    rw [t1] at h1 h2 ⊢
    rw [run_wrap_arr inp p _ _ _ ioff s s1 hr (by rw [hbadv]; exact h1) (by rw [hbadv]; exact h2)]
    refine runLoop_chunks inp (swapSpec (inner (.arr d e))) (inner (.arr d e)).size ioff _ x
      (swapSpec_length _ t5) (fun i s' hs' hb1 hb2 => ?_) _ 0 s1 (by rw [ho]; omega) h1 h2
    have := run_inner inp (.arr d e) rfl hw h x (ioff + (inner (.arr d e)).size * i) s' hs' hb1 hb2
    simpa using this
  | .comp n fs, hw, h, x, p, ioff, s, s1, hr, ho, h1, h2 => by
    simp only [app, advT, swapSpec, Ty.size] at *
    have := runF_app inp fs 0 n hw.2 h x p ioff s s1 hr (by omega) (by omega) (by omega)
    simpa using this
  | .vec _ _, _, h, _, _, _, _, _, _, _, _, _ => by cases h
  | .str _, _, h, _, _, _, _, _, _, _, _, _ => by cases h
  | .ptr _, _, h, _, _, _, _, _, _, _, _, _ => by cases h
  | .opaq _, _, h, _, _, _, _, _, _, _, _, _ => by cases h
/-- effect of the program of the innermost element of an array -/
theorem run_inner (inp : List UInt8) : ∀ (t : Ty), isArr t = true → t.WF → SwapOk t → ∀ x ioff s,
    s.o = ioff + x → s.o + (inner t).size ≤ inp.length → s.o + (inner t).size ≤ s.out.length →
    (app x .nil (inner t)).run inp ioff s = .ok (put s (swapSpec (inner t) (slice inp s.o (inner t).size)))
  | .arr d e, _, hw, h, x, ioff, s, ho, h1, h2 => by
    by_cases he : isArr e = true
    · simp only [inner, he, if_true] at h1 h2 ⊢
      exact run_inner inp e he hw.2.2.2 h.2 x ioff s ho h1 h2
    · simp only [inner, he, if_false, Bool.false_eq_true] at h1 h2 ⊢
      have := run_app inp e hw.2.2.2 h.2 x .nil ioff s s rfl ho h1 h2
      rw [this, List.take_of_length_le (by rw [h.1, swapSpec_length _ hw.2.2.2 _ (slice_length h1)]; exact Nat.le_refl _)]
  | .num _, h, _, _, _, _, _, _, _, _ => by simp [isArr] at h
  | .enum _ _, h, _, _, _, _, _, _, _, _ => by simp [isArr] at h
  | .vec _ _, h, _, _, _, _, _, _, _, _ => by simp [isArr] at h
  | .str _, h, _, _, _, _, _, _, _, _ => by simp [isArr] at h
  | .comp _ _, h, _, _, _, _, _, _, _, _ => by simp [isArr] at h
  | .ptr _, h, _, _, _, _, _, _, _, _ => by simp [isArr] at h
  | .opaq _, h, _, _, _, _, _, _, _, _ => by simp [isArr] at h
theorem runF_app (inp : List UInt8) : ∀ (fs : Fields) (cur n : Nat), fs.WF cur n → SwapOkF fs →
    ∀ base (p : Ops) ioff s s1,
    p.run inp ioff s = .ok s1 → s1.o = ioff + (base + cur) → s1.o + (n - cur) ≤ inp.length →
    s1.o + (n - cur) ≤ s1.out.length →
    (appF base (base + cur) p fs).run inp ioff s
      = .ok (put s1 ((swapFields cur fs (slice inp s1.o (n - cur))).take (advF cur fs - cur)))
  | .nil, cur, n, _, _, base, p, ioff, s, s1, hr, ho, h1, h2 => by
    simp only [appF, advF, Nat.sub_self, List.take_zero]
    rw [put_nil s1 (by omega)]
    exact hr
  | .cons off t r, cur, n, hw, h, base, p, ioff, s, s1, hr, ho, h1, h2 => by
    have hoff : cur ≤ off := hw.1
    have hend := fieldsWF_le r hw.2.2
    have hadvt := advT_le t hw.2.1 h.1
    simp only [appF]
    have hgap : (if base + off > base + cur then skipO p (base + off - (base + cur)) else p).run inp ioff s
        = .ok (put s1 (slice inp s1.o (off - cur))) := by
      by_cases hg : base + off > base + cur
      · rw [if_pos hg, show base + off - (base + cur) = off - cur by omega]
        exact run_skipO inp p _ ioff s s1 hr (by omega) (by omega)
      · rw [if_neg hg, show off - cur = 0 by omega, slice_zero, put_nil s1 (by omega)]
        exact hr
    generalize (if base + off > base + cur then skipO p (base + off - (base + cur)) else p) = q at *
    have hgl : (slice inp s1.o (off - cur)).length = off - cur := slice_length (by omega)
    have hso : s1.o + (off - cur) + t.size ≤ inp.length := by omega
    have iht := run_app inp t hw.2.1 h.1 (base + off) q ioff s _ hgap (by rw [put_o, hgl]; omega)
      (by rw [put_o, hgl]; omega) (by rw [put_out_length (by rw [hgl]; omega), put_o, hgl]; omega)
    rw [put_o, hgl] at iht
    have hsl : (swapSpec t (slice inp (s1.o + (off - cur)) t.size)).length = t.size :=
      swapSpec_length t hw.2.1 _ (slice_length hso)
    rw [put_put (by rw [List.length_take, hgl, hsl]; omega)] at iht
    have hsf : swapFields cur (.cons off t r) (slice inp s1.o (n - cur))
        = slice inp s1.o (off - cur) ++ (swapSpec t (slice inp (s1.o + (off - cur)) t.size)
          ++ swapFields (off + t.size) r (slice inp (s1.o + (off - cur) + t.size) (n - (off + t.size)))) := by
      simp only [swapFields, List.append_assoc]
      rw [slice_take _ _ _ _ (by omega), slice_drop, slice_take _ _ _ _ (by omega), slice_drop]
      rw [show s1.o + (off - cur + t.size) = s1.o + (off - cur) + t.size by omega,
        show n - cur - (off - cur + t.size) = n - (off + t.size) by omega]
    rw [hsf]
    cases r with
    | nil =>
      simp only [appF, advF]
      rw [iht]
      congr 2
      rw [List.take_append, List.take_of_length_le (l := slice inp s1.o (off - cur)) (by rw [hgl]; omega), hgl,
        show off + advT t - cur - (off - cur) = advT t by omega,
        List.take_append_of_le_length (by rw [hsl]; exact hadvt)]
    | cons off' t' r' =>
      rcases h.2.1 with hc | hc
      · cases hc
      · rw [List.take_of_length_le (by rw [hsl, hc]; exact Nat.le_refl _)] at iht
        have hll : (slice inp s1.o (off - cur) ++ swapSpec t (slice inp (s1.o + (off - cur)) t.size)).length
            = off - cur + t.size := by rw [List.length_append, hgl, hsl]
        rw [Nat.add_assoc base off]
        have ihr := runF_app inp (.cons off' t' r') (off + t.size) n hw.2.2 h.2.2 base _ ioff s _ iht
          (by rw [put_o, hll]; omega) (by rw [put_o, hll]; omega)
          (by rw [put_out_length (by rw [hll]; omega), put_o, hll]; omega)
        rw [ihr, put_o, hll]
        have hfl := swapFields_length (.cons off' t' r') (off + t.size) n hw.2.2
          (slice inp (s1.o + (off - cur) + t.size) (n - (off + t.size))) (slice_length (by omega))
        rw [show s1.o + (off - cur + t.size) = s1.o + (off - cur) + t.size by omega]
        rw [put_put]
        · congr 2
          simp only [advF]
          have hle : off + t.size ≤ advF (off + t.size) (.cons off' t' r') := by
            have h5 := le_advF (.cons off' t' r') (off + t.size) n hw.2.2
            exact h5
          rw [← List.append_assoc, List.take_append, List.take_of_length_le
            (l := slice inp s1.o (off - cur) ++ swapSpec t (slice inp (s1.o + (off - cur)) t.size))
            (by rw [hll]; omega), hll]
          congr 2
          omega
        · rw [List.length_take, hfl, hll]; omega
theorem le_advF : ∀ (fs : Fields) (cur n : Nat), fs.WF cur n → cur ≤ advF cur fs
  | .nil, cur, n, _ => by simp [advF]
  | .cons off t .nil, cur, n, hw => by
    simp only [advF]; have := hw.1; omega
  | .cons off t (.cons off' t' r), cur, n, hw => by
    simp only [advF]
    have h1 := le_advF (.cons off' t' r) (off + t.size) n hw.2.2
    have := hw.1
    omega
end

/-- the compiled swap of a supported type writes the swapped bytes -/
theorem endianSwap_eq (t : Ty) (hw : t.WF) (hs : SwapOk t) (hl : t.size < LIM) (inp out : List UInt8)
    (hi : inp.length = t.size) (ho : out.length = t.size) :
    endianSwap t inp out = .ok ((swapSpec t inp).take (advT t) ++ out.drop (advT t)) := by
  obtain ⟨h1, h2⟩ := compile_app t hw hs 0 .nil [] ⟨by simp [SkipHead], by simp⟩ trivial (by simp [Ops.adv])
    (by simpa using hl)
  simp only [Ops.enc, List.nil_append] at h1
  simp only [endianSwap, compileTop, h1, Res.bind_ok, swapTop]
  have h3 := swapRun_enc inp (app 0 .nil t) h2 ((app 0 .nil t).enc.length + 1) 0 [] ⟨0, out⟩ (by omega)
  rw [List.append_nil] at h3
  have h4 := run_app inp t hw hs 0 .nil 0 ⟨0, out⟩ ⟨0, out⟩ rfl rfl (by simp [hi]) (by simp [ho])
  rw [h4, Res.bind_ok] at h3
  rw [h3]
  obtain ⟨g, hg⟩ : ∃ g, (app 0 .nil t).enc.length + 1 - (app 0 .nil t).nops = g + 1 :=
    ⟨(app 0 .nil t).enc.length - (app 0 .nil t).nops, by have := (app 0 .nil t).nops_le; omega⟩
  rw [hg]
  have hsl : slice inp 0 t.size = inp := by simp [slice, ← hi]
  have hadv := advT_le t hw hs
  have hlen := swapSpec_length t hw inp hi
  simp only [swapRun, Res.bind_ok, put, hsl, List.take_zero, List.nil_append, List.length_take, hlen, Nat.zero_add]
  rw [Nat.min_eq_left hadv]

end Verif.Endian
