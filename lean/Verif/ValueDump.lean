import Verif.ValueOps

/-! dump: what is written, for any kind of output stream. -/

namespace Verif.Value
open Verif Verif.Layout

/-- maximal size of an object in memory -/
@[reducible] def HALF : Nat := 9223372036854775808

theorem blk_vec {m : Bool} {D cs : Nat} {e : Ty} {b : L} (h : Blk m D (.vec cs e) b) :
    0 < cs ∧ cs < W ∧ ElemOk e ∧ cdepth e < D ∧ b = sT m (rawL e) none 0 0 0 := h
theorem blk_str {m : Bool} {D cs : Nat} {b : L} (h : Blk m D (.str cs) b) : 0 < cs ∧ cs < W ∧ 0 < D ∧ b = .mc 1 .nil := h

variable {S : Type}

/-- what is expected of the `write` method of a stream: `WInv acc s`: the stream has received `acc`; `WX acc e s`: an
exception was thrown instead of accepting the last bytes of `acc` -/
def WriterOk (w : List UInt8 → S → Out S Unit) (WInv : List UInt8 → S → Prop) (WX : List UInt8 → Err → S → Prop) : Prop :=
  ∀ acc bs s, bs.length < HALF → WInv acc s → Tri (w bs s) (fun _ s' => WInv (acc ++ bs) s') (fun e s' => WX (acc ++ bs) e s')

/-- invariant of the dump loop; `tl`: what will be dumped after the current object -/
def DInv (env : Env) (WInv : List UInt8 → S → Prop) (full : List UInt8) (tl : List UInt8) (K : List Item) (s : DS S) : Prop :=
  (∀ i ∈ K, i ≠ .pad) ∧ ∃ x y post vy acc, s.mem = x ++ (y ++ post) ∧ s.off = x.length ∧ s.mem.length < HALF ∧ Abs env K y vy ∧ WInv acc s.out ∧
    acc ++ (encL vy ++ tl) = full

theorem dsWrite_tri {w : List UInt8 → S → Out S Unit} {WInv WX} (hw : WriterOk w WInv WX) {acc bs : List UInt8} {s : DS S}
    (hb : bs.length < HALF) (hi : WInv acc s.out) :
    Tri (s.write w bs) (fun _ s' => ∃ o, s' = { s with out := o } ∧ WInv (acc ++ bs) o)
      (fun e s' => WX (acc ++ bs) e s'.out) := by
  unfold DS.write
  apply Tri.conv
  exact (hw acc bs s.out hb hi).mono (fun _ o h => ⟨o, rfl, h⟩) (fun _ _ h => h)

theorem dump_tri {w : List UInt8 → S → Out S Unit} {WInv WX} (env : Env) (hw : WriterOk w WInv WX) (full : List UInt8)
    {D : Nat} (l : L) (hl : l.All (Blk true D)) (hp : l.Pos) (cells post : Mem) (v : List AV)
    (h : Abs env l.expand cells v) (hnp : ∀ i ∈ l.expand, i ≠ .pad) (hW : cells.length + post.length < HALF) (acc : List UInt8) (o : S) (ho : WInv acc o)
    (hfull : acc ++ encL v = full) :
    Tri (walk (dumpI w) (l.enc.length + 1) l.enc ⟨cells ++ post, 0, o⟩)
      (fun it s => it = [] ∧ WInv full s.out)
      (fun e s => ∃ p r, full = p ++ r ∧ WX p e s.out) := by
  have hHW : HALF < W := by unfold W; decide
  have hmaxH : env.maxAlloc < HALF := env.hmax
  have key := walk_tri (γ := List UInt8) (dumpI w) (Blk true D) (DInv env WInv full)
    (fun _ e s => ∃ p r, full = p ++ r ∧ WX p e s.out) ?_ ?_ ?_ l hl hp [] [] (l.enc.length + 1) [] ⟨cells ++ post, 0, o⟩
    (Or.inl rfl) (by omega) ?_
  · simp only [List.append_nil] at key
    refine key.mono ?_ (fun _ _ h => h)
    rintro it s ⟨rfl, _, x, y, post', vy, acc', h1, h2, h3, h4, h5, h6⟩
    cases h4
    simp only [encL, List.append_nil] at h6
    subst h6
    exact ⟨rfl, h5⟩
  · -- memcpy
    rintro tl n K ⟨mem, off, out⟩ ⟨hn, x, y, post', vy, acc', h1, h2, h3, h4, h5, h6⟩
    simp only at h1 h2 h3 h5
    subst h1 h2
    obtain ⟨y1, y2, v1, v2, rfl, rfl, ha, hb⟩ := h4.split
    obtain ⟨bs, rfl, rfl, rfl⟩ := Abs.bytes (Or.inl rfl) ha
    simp only [List.length_append, List.length_map] at h3
    simp only [dumpI, List.append_assoc]
    rw [readBytes_app]
    simp only [Out.ofOpt_some, Out.bind_ok]
    rw [encL_append, encL_bytes] at h6
    apply Tri.bind
    refine (dsWrite_tri hw (acc := acc') (bs := bs) (by omega) h5).mono ?_ ?_
    · rintro _ s ⟨o', rfl, ho'⟩
      refine ⟨fun i hi => hn i (by simp [hi]), x ++ bs.map .byte, y2, post', v2, acc' ++ bs, by simp, ?_, by simp; omega, hb, ho', by simpa using h6⟩
      simp only []
      rw [wadd_eq (by omega)]; simp
    · intro e s he
      exact ⟨acc' ++ bs, encL v2 ++ tl, by simpa using h6.symm, he⟩
  · -- skip: never in a merged layout with bytes, but harmless
    rintro tl n K ⟨mem, off, out⟩ ⟨hn, x, y, post', vy, acc', h1, h2, h3, h4, h5, h6⟩
    simp only at h1 h2 h3 h5
    cases n with
    | zero =>
      subst h1 h2
      simp only [List.length_append] at h3
      refine ⟨by simpa using hn, x, y, post', vy, acc', rfl, ?_, by simp; omega, by simpa using h4, h5, h6⟩
      simp only []
      rw [wadd_eq (by omega)]; rfl
    | succ n => exact absurd rfl (hn .pad (by simp [List.replicate_succ]))
  · -- container
    rintro tl c b K f after ⟨mem, off, out⟩ hb ih ⟨hn, x, y, post', vy, acc', h1, h2, h3, h4, h5, h6⟩
    simp only at h1 h2 h3 h5
    subst h1 h2
    have hnK : ∀ i ∈ K, i ≠ .pad := fun i hi => hn i (List.mem_cons_of_mem _ hi)
    obtain ⟨y1, y2, v1, v2, rfl, rfl, ha, hb2⟩ := abs_cons_cont h4
    have hsz := abs_cont_size ha
    simp only [List.length_append] at h3
    rw [encL_append] at h6
    have hoff : wadd x.length c.size = (x ++ y1).length := by
      rw [wadd_eq (by omega), List.length_append, hsz]
    -- the invariant after the container
    have hafter : ∀ o', WInv (acc' ++ encL v1) o' →
        DInv env WInv full tl K ⟨x ++ (y1 ++ (y2 ++ post')), wadd x.length c.size, o'⟩ := by
      intro o' ho'
      exact ⟨hnK, x ++ y1, y2, post', v2, acc' ++ encL v1, by simp, hoff, by simp; omega, hb2, ho', by simpa using h6⟩
    cases ha with
    | @vec cs e _ cap buf n flat m v h0 hbuf hl hm hnil =>
      cases hnil
      obtain ⟨_, _, he, _, hbe⟩ := blk_vec hb
      have lb := abs_elems he hbuf
      have hne : ¬ e.size = 0 := by have := he.1; omega
      have hcnt : buf.length / e.size = n := by rw [lb]; exact Nat.mul_div_cancel _ he.1
      have hgv : getVec (x ++ (Cell.vec cap buf :: (List.replicate (cs - 1) Cell.tail ++ (y2 ++ post')))) x.length cs =
          some ⟨cap, buf⟩ := by
        unfold getVec; rw [getCell_app _ _ _ _ h0]
      simp only [dumpI, List.append_assoc, List.cons_append, List.append_nil, contCount, hne, if_false]
      rw [hgv]
      simp only [Option.map_some, vecCount, hcnt, Out.ofOpt_some, Out.bind_ok]
      apply Tri.bind
      refine (dsWrite_tri hw (acc := acc') (bs := le64 n) (by rw [le64, leBytes_length]; decide) h5).mono ?_ ?_
      · rintro _ s ⟨o1, rfl, ho1⟩
        simp only [List.append_assoc, List.cons_append, List.append_nil, encL, AV.enc] at hafter h6
        by_cases hn0 : n = 0
        · subst hn0
          rw [if_pos rfl, skipBlock_body]
          refine ⟨rfl, hafter o1 ?_⟩
          rw [rep_zero] at hbuf
          cases hbuf
          simpa [encL] using ho1
        · rw [if_neg hn0]
          simp only [contDump]
          rw [hgv]
          simp only []
          by_cases hmc : isElementMemcpy e = true
          · rw [if_pos hmc]
            rw [hbe, ((elem_memcpy he).1 hmc).1]
            simp only [L.enc, List.cons_append, List.nil_append]
            obtain ⟨bs, hbs, rfl, rfl⟩ := Abs.memcpy_bytes he hmc hbuf
            simp only [List.length_map] at lb hl
            have e1 : wmul e.size n = bs.length := by
              rw [hbs, Nat.mul_comm n, wmul_eq]; rw [Nat.mul_comm]; omega
            have r1 := readBytes_app [] bs []
            simp only [List.nil_append, List.append_nil, List.length_nil] at r1
            rw [e1, r1]
            simp only []
            apply Tri.bind
            refine (dsWrite_tri hw (acc := acc' ++ le64 n) (bs := bs) (by omega) ho1).mono ?_ ?_
            · rintro _ s ⟨o2, rfl, ho2⟩
              refine ⟨rfl, hafter o2 ?_⟩
              rw [encL_bytes]; simpa using ho2
            · intro er s hx
              refine ⟨acc' ++ (le64 n ++ bs), encL v2 ++ tl, ?_, by simpa using hx⟩
              rw [encL_bytes] at h6
              simpa using h6.symm
          · rw [if_neg hmc]
            have hstep := Nat.le_mul_of_pos_right n he.1
            apply Tri.conv
            apply Tri.bind
            have kk := forStep_tri (dumpElem (walk (dumpI w) f) (b.enc ++ Word.n 4 :: after) buf e.size
                ⟨x ++ (Cell.vec cap buf :: (List.replicate (cs - 1) Cell.tail ++ (y2 ++ post'))), wadd x.length (Ty.vec cs e).size, o1⟩) 1
              (fun k p => (p.1 = .n 4 :: after ∨ k = 0) ∧ ∃ o', p.2 = ⟨x ++ (Cell.vec cap buf :: (List.replicate (cs - 1) Cell.tail ++ (y2 ++ post'))), wadd x.length (Ty.vec cs e).size, o'⟩ ∧
                ∃ a d va vd, buf = a ++ d ∧ flat = va ++ vd ∧ Abs env (rep k (kinds e)) a va ∧ Abs env (rep (n - k) (kinds e)) d vd ∧
                  WInv (acc' ++ (le64 n ++ encL va)) o')
              (fun er p => ∃ p' r, full = p' ++ r ∧ WX p' er p.2.out) n 0 (by omega) (by omega) ?_ n 0 (n + 1)
              (b.enc ++ Word.n 4 :: after, ⟨x ++ (Cell.vec cap buf :: (List.replicate (cs - 1) Cell.tail ++ (y2 ++ post'))), wadd x.length (Ty.vec cs e).size, o1⟩)
              (by omega) (by omega) ?_
            · simp only [Nat.zero_add, Nat.mul_one] at kk
              refine kk.mono ?_ (fun _ _ h => h)
              rintro _ ⟨it, s'⟩ ⟨hit, o', hs', a, d, va, vd, rfl, rfl, h7, h8, h9⟩
              simp only at hit hs'
              subst hs'
              rcases hit with rfl | h0'
              · rw [Nat.sub_self, rep_zero] at h8
                cases h8
                exact ⟨rfl, hafter o' (by simpa using h9)⟩
              · exact absurd h0' hn0
            · rintro k ⟨it, s'⟩ hk ⟨hit, o', hs', a, d, va, vd, rfl, rfl, h7, h8, h9⟩
              simp only at hs'
              subst hs'
              obtain ⟨j, hj⟩ : ∃ j, n - k = j + 1 := ⟨n - k - 1, by omega⟩
              rw [hj, rep_succ] at h8
              obtain ⟨d1, d2, vd1, vd2, rfl, rfl, h10, h11⟩ := h8.split
              have la := abs_elems he h7
              have ld := abs_elem he h10
              have hk1 : (k + 1) * e.size ≤ n * e.size := Nat.mul_le_mul_right _ (by omega)
              rw [Nat.succ_mul] at hk1
              have hexp : b.expand = (kinds e).map (mp true) := by rw [hbe]; exact blk_expand he
              have h12 : Abs env b.expand d1 vd1 := by rw [hexp]; exact Abs.map_mp.mpr h10
              have key := ih (encL vd2 ++ (encL v2 ++ tl)) [] (Word.n 4 :: after)
                ⟨a ++ (d1 ++ d2), wmul k e.size, o'⟩ (Or.inr ⟨_, rfl⟩) (by
                  refine ⟨?_, a, d1, d2, vd1, acc' ++ (le64 n ++ encL va), rfl, ?_, ?_, by simpa using h12, h9, ?_⟩
                  · rw [hexp]; simp only [List.append_nil]; intro i hi
                    obtain ⟨i', _, rfl⟩ := List.mem_map.mp hi
                    cases i' <;> simp [mp]
                  · show wmul k e.size = _
                    rw [wmul_eq (by omega), la]
                  · show List.length (a ++ (d1 ++ d2)) < _
                    omega
                  · rw [← h6]; simp [encL_append])
              simp only [Nat.zero_add, Nat.mul_one]
              unfold dumpElem
              simp only []
              cases hwk : walk (dumpI w) f (b.enc ++ Word.n 4 :: after) ⟨a ++ (d1 ++ d2), wmul k e.size, o'⟩ with
              | ok it' t =>
                rw [hwk] at key
                obtain ⟨rfl, _, x', y', p', vy', acc'', k1, k2, k3, k4, k5, k6⟩ := key
                cases k4
                refine ⟨Or.inl rfl, t.out, rfl, a ++ d1, d2, va ++ vd1, vd2, by simp, by simp, ?_, ?_, ?_⟩
                · rw [rep_succ']; exact h7.append h10
                · rwa [show n - (k + 1) = j by omega]
                · have : acc'' = acc' ++ (le64 n ++ encL (va ++ vd1)) := by
                    rw [← h6] at k6
                    simp only [encL, List.nil_append, encL_append, ← List.append_assoc] at k6
                    have k6 := List.append_cancel_right (List.append_cancel_right (List.append_cancel_right k6))
                    rw [k6]; simp [encL_append]
                  rw [← this]; exact k5
              | exn er t =>
                rw [hwk] at key
                exact key
              | ub => rw [hwk] at key; exact key
              | fuel => rw [hwk] at key; exact key
            · exact ⟨Or.inr rfl, o1, rfl, [], buf, [], flat, rfl, rfl, .nil, hbuf, by simpa [encL] using ho1⟩
      · intro er s hx
        refine ⟨acc' ++ le64 n, encL flat ++ (encL v2 ++ tl), ?_, hx⟩
        simp [encL, AV.enc] at h6
        rw [← h6]; simp
    | @str cs _ bytes m v h0 hl hnil =>
      cases hnil
      obtain ⟨_, _, _, hbe⟩ := blk_str hb
      have hgv : getStr (x ++ (Cell.str bytes :: (List.replicate (cs - 1) Cell.tail ++ (y2 ++ post')))) x.length cs =
          some bytes := by
        unfold getStr; rw [getCell_app _ _ _ _ h0]
      simp only [dumpI, List.append_assoc, List.cons_append, List.append_nil, contCount]
      rw [hgv]
      simp only [Option.map_some, Out.ofOpt_some, Out.bind_ok]
      apply Tri.bind
      refine (dsWrite_tri hw (acc := acc') (bs := le64 bytes.length) (by rw [le64, leBytes_length]; decide) h5).mono ?_ ?_
      · rintro _ s ⟨o1, rfl, ho1⟩
        simp only [List.append_assoc, List.cons_append, List.append_nil, encL, AV.enc] at hafter h6
        by_cases hn0 : bytes.length = 0
        · rw [if_pos hn0, skipBlock_body]
          refine ⟨rfl, hafter o1 ?_⟩
          have := List.length_eq_zero_iff.mp hn0
          subst this
          simpa using ho1
        · rw [if_neg hn0]
          simp only [contDump]
          rw [hgv, hbe]
          simp only [L.enc, List.cons_append, List.nil_append, List.take_length]
          apply Tri.bind
          refine (dsWrite_tri hw (acc := acc' ++ le64 bytes.length) (bs := bytes) (by omega) ho1).mono ?_ ?_
          · rintro _ s ⟨o2, rfl, ho2⟩
            exact ⟨rfl, hafter o2 (by simpa using ho2)⟩
          · intro er s hx
            exact ⟨acc' ++ (le64 bytes.length ++ bytes), encL v2 ++ tl, by simpa using h6.symm, by simpa using hx⟩
      · intro er s hx
        refine ⟨acc' ++ le64 bytes.length, bytes ++ (encL v2 ++ tl), ?_, hx⟩
        simp [encL, AV.enc] at h6
        rw [← h6]; simp
  · exact ⟨by simpa using hnp, [], cells, post, v, acc, rfl, rfl, by simpa using hW, by simpa using h, ho, by simpa using hfull⟩

end Verif.Value
