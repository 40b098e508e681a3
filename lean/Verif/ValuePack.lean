import Verif.ValueProps

/-!
dump and load for every kind of layout (padding merged or not): what is written for a value, and that reading it gives the value back.
Used by C87.
-/

namespace Verif.Value
open Verif Verif.Layout

/-! ### Specification -/

/-- `Packed merge K v B`: the bytes `B` that stand for the contents `v` of the items `K`. Padding is left out (`K` says what is padding);
a container is its 64-bit element count followed by its elements; in the elements padding is kept iff `merge`. -/
inductive Packed (merge : Bool) : List Item → List AV → List UInt8 → Prop where
  | nil : Packed merge [] [] []
  | data {K v B x} : Packed merge K v B → Packed merge (.data :: K) (.b x :: v) (x :: B)
  | pad {K v B x} : Packed merge K v B → Packed merge (.pad :: K) (.b x :: v) B
  | vec {cs e K n flat v F B} : Packed merge (rep n ((kinds e).map (mp merge))) flat F → Packed merge K v B →
      Packed merge (.cont (.vec cs e) :: K) (.seq n flat :: v) (le64 n ++ (F ++ B))
  | str {cs K s v B} : Packed merge K v B → Packed merge (.cont (.str cs) :: K) (.s s :: v) (le64 s.length ++ (s ++ B))

/-- padding is the same in both -/
inductive Frame : List Item → List AV → List AV → Prop where
  | nil : Frame [] [] []
  | data {K v w x y} : Frame K v w → Frame (.data :: K) (.b x :: v) (.b y :: w)
  | pad {K v w x} : Frame K v w → Frame (.pad :: K) (.b x :: v) (.b x :: w)
  | cont {c K v w a b} : Frame K v w → Frame (.cont c :: K) (a :: v) (b :: w)

/-! ### Lemmas -/

theorem Packed.append {merge : Bool} {K K' : List Item} {v v' : List AV} {B B' : List UInt8} (h : Packed merge K v B)
    (h' : Packed merge K' v' B') : Packed merge (K ++ K') (v ++ v') (B ++ B') := by
  induction h with
  | nil => exact h'
  | data _ ih => exact .data ih
  | pad _ ih => exact .pad ih
  | vec h1 _ _ ih => simpa using Packed.vec h1 ih
  | str _ ih => simpa using Packed.str ih

theorem Packed.split {merge : Bool} {K K' : List Item} {v v' : List AV} {B : List UInt8} (h : Packed merge (K ++ K') (v ++ v') B)
    (hl : v.length = K.length) : ∃ B1 B2, B = B1 ++ B2 ∧ Packed merge K v B1 ∧ Packed merge K' v' B2 := by
  induction K generalizing v B with
  | nil =>
    have := List.length_eq_zero_iff.mp hl; subst this
    exact ⟨[], B, rfl, .nil, h⟩
  | cons k K ih =>
    cases v with
    | nil => simp at hl
    | cons a v =>
      simp only [List.length_cons, Nat.add_right_cancel_iff] at hl
      cases h with
      | data h => obtain ⟨B1, B2, rfl, h1, h2⟩ := ih h hl; exact ⟨_, B2, rfl, .data h1, h2⟩
      | pad h => obtain ⟨B1, B2, rfl, h1, h2⟩ := ih h hl; exact ⟨_, B2, rfl, .pad h1, h2⟩
      | vec h0 h => obtain ⟨B1, B2, rfl, h1, h2⟩ := ih h hl; exact ⟨_, B2, by simp, .vec h0 h1, h2⟩
      | str h => obtain ⟨B1, B2, rfl, h1, h2⟩ := ih h hl; exact ⟨_, B2, by simp, .str h1, h2⟩

theorem Packed.bytes {merge : Bool} {n : Nat} {bs B : List UInt8} (h : Packed merge (List.replicate n .data) (bs.map .b) B) : B = bs := by
  induction n generalizing bs B with
  | zero =>
    cases bs with
    | nil => cases h; rfl
    | cons x bs => cases h
  | succ n ih =>
    rw [List.replicate_succ] at h
    cases bs with
    | nil => cases h
    | cons x bs => cases h with | data h => rw [ih h]

theorem Packed.pads {merge : Bool} {n : Nat} {bs B : List UInt8} (h : Packed merge (List.replicate n .pad) (bs.map .b) B) : B = [] := by
  induction n generalizing bs B with
  | zero =>
    cases bs with
    | nil => cases h; rfl
    | cons x bs => cases h
  | succ n ih =>
    rw [List.replicate_succ] at h
    cases bs with
    | nil => cases h
    | cons x bs => cases h with | pad h => exact ih h

theorem Packed.ofBytes (merge : Bool) (bs : List UInt8) : Packed merge (List.replicate bs.length .data) (bs.map .b) bs := by
  induction bs with
  | nil => exact .nil
  | cons x bs ih => exact .data ih

theorem Abs.packed (merge : Bool) {env : Env} {K : List Item} {m : Mem} {v : List AV} (h : Abs env K m v) :
    ∃ B, Packed merge (K.map (mp merge)) v B := by
  induction h with
  | nil => exact ⟨_, .nil⟩
  | data _ ih => obtain ⟨B, h⟩ := ih; exact ⟨_, .data h⟩
  | pad _ ih =>
    obtain ⟨B, h⟩ := ih
    cases merge
    · exact ⟨_, .pad h⟩
    · exact ⟨_, .data h⟩
  | vec _ _ _ _ _ ih1 ih =>
    obtain ⟨F, h1⟩ := ih1
    obtain ⟨B, h⟩ := ih
    rw [rep_map] at h1
    exact ⟨_, .vec h1 h⟩
  | str _ _ _ ih => obtain ⟨B, h⟩ := ih; exact ⟨_, .str h⟩

theorem Frame.append {K K' : List Item} {v w v' w' : List AV} (h : Frame K v w) (h' : Frame K' v' w') :
    Frame (K ++ K') (v ++ v') (w ++ w') := by
  induction h with
  | nil => exact h'
  | data _ ih => exact .data ih
  | pad _ ih => exact .pad ih
  | cont _ ih => exact .cont ih

theorem Frame.bytes_data {n : Nat} {x y : List UInt8} (hx : x.length = n) (hy : y.length = n) :
    Frame (List.replicate n .data) (x.map .b) (y.map .b) := by
  induction n generalizing x y with
  | zero => rw [List.length_eq_zero_iff.mp hx, List.length_eq_zero_iff.mp hy]; exact .nil
  | succ n ih =>
    cases x with
    | nil => simp at hx
    | cons a x =>
      cases y with
      | nil => simp at hy
      | cons b y => exact .data (ih (by simpa using hx) (by simpa using hy))

theorem Frame.bytes_pad (x : List UInt8) : Frame (List.replicate x.length .pad) (x.map .b) (x.map .b) := by
  induction x with
  | nil => exact .nil
  | cons a x ih => exact .pad ih

/-- what is needed of the containers of a layout: elements that are copied with memcpy have a block that is one memcpy -/
def PBlk (merge : Bool) (D : Nat) (c : Ty) (b : L) : Prop :=
  Blk merge D c b ∧ ∀ cs e, c = .vec cs e → isElementMemcpy e = true →
    b = .mc e.size .nil ∧ (kinds e).map (mp merge) = List.replicate e.size .data

/-! ### dump -/

section
variable {S : Type}

def PInv (merge : Bool) (env : Env) (WInv : List UInt8 → S → Prop) (full : List UInt8) (tl : List UInt8) (K : List Item) (s : DS S) : Prop :=
  ∃ x y post vy acc B, s.mem = x ++ (y ++ post) ∧ s.off = x.length ∧ s.mem.length < HALF ∧ Abs env K y vy ∧ WInv acc s.out ∧
    Packed merge K vy B ∧ acc ++ (B ++ tl) = full

theorem dumpP_tri {w : List UInt8 → S → Out S Unit} {WInv WX} (env : Env) (hw : WriterOk w WInv WX) {merge : Bool} (full : List UInt8)
    {D : Nat} (l : L) (hl : l.All (PBlk merge D)) (hp : l.Pos) (cells post : Mem) (v : List AV)
    (h : Abs env l.expand cells v) (hW : cells.length + post.length < HALF) (acc : List UInt8) (o : S) (ho : WInv acc o)
    {B : List UInt8} (hB : Packed merge l.expand v B) (hfull : acc ++ B = full) :
    Tri (walk (dumpI w) (l.enc.length + 1) l.enc ⟨cells ++ post, 0, o⟩)
      (fun it s => it = [] ∧ WInv full s.out)
      (fun e s => ∃ p r, full = p ++ r ∧ WX p e s.out) := by
  have hHW : HALF < W := by unfold W; decide
  have hmaxH : env.maxAlloc < HALF := env.hmax
  have key := walk_tri (γ := List UInt8) (dumpI w) (PBlk merge D) (PInv merge env WInv full)
    (fun _ e s => ∃ p r, full = p ++ r ∧ WX p e s.out) ?_ ?_ ?_ l hl hp [] [] (l.enc.length + 1) [] ⟨cells ++ post, 0, o⟩
    (Or.inl rfl) (by omega) ?_
  · simp only [List.append_nil] at key
    refine key.mono ?_ (fun _ _ h => h)
    rintro it s ⟨rfl, x, y, post', vy, acc', B', h1, h2, h3, h4, h5, hP, h6⟩
    cases h4
    cases hP
    simp only [List.append_nil] at h6
    subst h6
    exact ⟨rfl, h5⟩
  · -- memcpy
    rintro tl n K ⟨mem, off, out⟩ ⟨x, y, post', vy, acc', B', h1, h2, h3, h4, h5, hP, h6⟩
    simp only at h1 h2 h3 h5
    subst h1 h2
    obtain ⟨y1, y2, v1, v2, rfl, rfl, ha, hb⟩ := h4.split
    obtain ⟨B1, B2, rfl, hP1, hP2⟩ := hP.split ha.length.2
    obtain ⟨bs, rfl, rfl, rfl⟩ := Abs.bytes (Or.inl rfl) ha
    have := hP1.bytes
    subst this
    simp only [List.length_append, List.length_map] at h3
    simp only [dumpI, List.append_assoc]
    rw [readBytes_app]
    simp only [Out.ofOpt_some, Out.bind_ok]
    apply Tri.bind
    refine (dsWrite_tri hw (acc := acc') (bs := B1) (by omega) h5).mono ?_ ?_
    · rintro _ s ⟨o', rfl, ho'⟩
      refine ⟨x ++ B1.map .byte, y2, post', v2, acc' ++ B1, B2, by simp, ?_, by simp; omega, hb, ho', hP2, by simpa using h6⟩
      simp only []
      rw [wadd_eq (by omega)]; simp
    · intro e s he
      exact ⟨acc' ++ B1, B2 ++ tl, by simpa using h6.symm, he⟩
  · -- skip
    rintro tl n K ⟨mem, off, out⟩ ⟨x, y, post', vy, acc', B', h1, h2, h3, h4, h5, hP, h6⟩
    simp only at h1 h2 h3 h5
    subst h1 h2
    obtain ⟨y1, y2, v1, v2, rfl, rfl, ha, hb⟩ := h4.split
    obtain ⟨B1, B2, rfl, hP1, hP2⟩ := hP.split ha.length.2
    obtain ⟨bs, rfl, rfl, rfl⟩ := Abs.bytes (Or.inr rfl) ha
    have := hP1.pads
    subst this
    simp only [List.length_append, List.length_map] at h3
    refine ⟨x ++ bs.map .byte, y2, post', v2, acc', B2, by simp, ?_, by simp; omega, hb, h5, hP2, by simpa using h6⟩
    simp only []
    rw [wadd_eq (by omega)]; simp
  · -- container
    rintro tl c b K f after ⟨mem, off, out⟩ ⟨hb, hmcb⟩ ih ⟨x, y, post', vy, acc', B', h1, h2, h3, h4, h5, hP, h6⟩
    simp only at h1 h2 h3 h5
    subst h1 h2
    obtain ⟨y1, y2, v1, v2, rfl, rfl, ha, hb2⟩ := abs_cons_cont h4
    obtain ⟨B1, B2, rfl, hP1, hP2⟩ := Packed.split (K := [.cont c]) hP ha.length.2
    have hsz := abs_cont_size ha
    simp only [List.length_append] at h3
    have hoff : wadd x.length c.size = (x ++ y1).length := by
      rw [wadd_eq (by omega), List.length_append, hsz]
    -- the invariant after the container
    have hafter : ∀ o', WInv (acc' ++ B1) o' →
        PInv merge env WInv full tl K ⟨x ++ (y1 ++ (y2 ++ post')), wadd x.length c.size, o'⟩ := by
      intro o' ho'
      exact ⟨x ++ y1, y2, post', v2, acc' ++ B1, B2, by simp, hoff, by simp; omega, hb2, ho', hP2, by simpa using h6⟩
    cases ha with
    | @vec cs e _ cap buf n flat m v h0 hbuf hl hm hnil =>
      cases hnil
      cases hP1 with
      | @vec _ _ _ _ _ _ F Bn hF hPn =>
      cases hPn
      obtain ⟨_, _, he, _, hbe⟩ := blk_vec hb
      have lb := abs_elems he hbuf
      have hne : ¬ e.size = 0 := by have := he.1; omega
      have hcnt : buf.length / e.size = n := by rw [lb]; exact Nat.mul_div_cancel _ he.1
      have hgv : getVec (x ++ (Cell.vec cap buf :: (List.replicate (cs - 1) Cell.tail ++ (y2 ++ post')))) x.length cs =
          some ⟨cap, buf⟩ := by
        unfold getVec; rw [getCell_app _ _ _ _ h0]
      simp only [dumpI, List.append_assoc, List.cons_append, List.append_nil, contCount, hne, if_false]
      rw [hgv]
      simp only [Option.map_some, vecCount, hcnt, Out.ofOpt_some, Out.bind_ok]
      apply Tri.bind
      refine (dsWrite_tri hw (acc := acc') (bs := le64 n) (by rw [le64, leBytes_length]; decide) h5).mono ?_ ?_
      · rintro _ s ⟨o1, rfl, ho1⟩
        simp only [List.append_assoc, List.cons_append, List.append_nil] at hafter h6
        by_cases hn0 : n = 0
        · subst hn0
          rw [if_pos rfl, skipBlock_body]
          refine ⟨rfl, hafter o1 ?_⟩
          rw [rep_zero] at hF
          cases hF
          simpa using ho1
        · rw [if_neg hn0]
          simp only [contDump]
          rw [hgv]
          simp only []
          by_cases hmc : isElementMemcpy e = true
          · rw [if_pos hmc]
            obtain ⟨hb1, hb2'⟩ := hmcb cs e rfl hmc
            rw [hb1]
            simp only [L.enc, List.cons_append, List.nil_append]
            obtain ⟨bs, hbs, rfl, rfl⟩ := Abs.memcpy_bytes he hmc hbuf
            rw [hb2', rep_replicate] at hF
            have := hF.bytes
            subst this
            simp only [List.length_map] at lb hl
            have e1 : wmul e.size n = F.length := by
              rw [hbs, Nat.mul_comm n, wmul_eq]; rw [Nat.mul_comm]; omega
            have r1 := readBytes_app [] F []
            simp only [List.nil_append, List.append_nil, List.length_nil] at r1
            rw [e1, r1]
            simp only []
            apply Tri.bind
            refine (dsWrite_tri hw (acc := acc' ++ le64 n) (bs := F) (by omega) ho1).mono ?_ ?_
            · rintro _ s ⟨o2, rfl, ho2⟩
              refine ⟨rfl, hafter o2 ?_⟩
              simpa using ho2
            · intro er s hx
              exact ⟨acc' ++ (le64 n ++ F), B2 ++ tl, by simpa using h6.symm, by simpa using hx⟩
          · rw [if_neg hmc]
            have hstep := Nat.le_mul_of_pos_right n he.1
            apply Tri.conv
            apply Tri.bind
            have kk := forStep_tri (dumpElem (walk (dumpI w) f) (b.enc ++ Word.n 4 :: after) buf e.size
                ⟨x ++ (Cell.vec cap buf :: (List.replicate (cs - 1) Cell.tail ++ (y2 ++ post'))), wadd x.length (Ty.vec cs e).size, o1⟩) 1
              (fun k p => (p.1 = .n 4 :: after ∨ k = 0) ∧ ∃ o', p.2 = ⟨x ++ (Cell.vec cap buf :: (List.replicate (cs - 1) Cell.tail ++ (y2 ++ post'))), wadd x.length (Ty.vec cs e).size, o'⟩ ∧
                ∃ a d va vd Fa Fd, buf = a ++ d ∧ flat = va ++ vd ∧ Abs env (rep k (kinds e)) a va ∧ Abs env (rep (n - k) (kinds e)) d vd ∧
                  F = Fa ++ Fd ∧ Packed merge (rep (n - k) ((kinds e).map (mp merge))) vd Fd ∧
                  WInv (acc' ++ (le64 n ++ Fa)) o')
              (fun er p => ∃ p' r, full = p' ++ r ∧ WX p' er p.2.out) n 0 (by omega) (by omega) ?_ n 0 (n + 1)
              (b.enc ++ Word.n 4 :: after, ⟨x ++ (Cell.vec cap buf :: (List.replicate (cs - 1) Cell.tail ++ (y2 ++ post'))), wadd x.length (Ty.vec cs e).size, o1⟩)
              (by omega) (by omega) ?_
            · simp only [Nat.zero_add, Nat.mul_one] at kk
              refine kk.mono ?_ (fun _ _ h => h)
              rintro _ ⟨it, s'⟩ ⟨hit, o', hs', a, d, va, vd, Fa, Fd, rfl, rfl, h7, h8, rfl, hFd, h9⟩
              simp only at hit hs'
              subst hs'
              rcases hit with rfl | h0'
              · rw [Nat.sub_self, rep_zero] at h8 hFd
                cases h8
                cases hFd
                exact ⟨rfl, hafter o' (by simpa using h9)⟩
              · exact absurd h0' hn0
            · rintro k ⟨it, s'⟩ hk ⟨hit, o', hs', a, d, va, vd, Fa, Fd, rfl, rfl, h7, h8, rfl, hFd, h9⟩
              simp only at hs'
              subst hs'
              obtain ⟨j, hj⟩ : ∃ j, n - k = j + 1 := ⟨n - k - 1, by omega⟩
              rw [hj, rep_succ] at h8 hFd
              obtain ⟨d1, d2, vd1, vd2, rfl, rfl, h10, h11⟩ := h8.split
              obtain ⟨F1, F2, rfl, hF1, hF2⟩ := hFd.split (by rw [h10.length.2, List.length_map])
              have la := abs_elems he h7
              have ld := abs_elem he h10
              have hk1 : (k + 1) * e.size ≤ n * e.size := Nat.mul_le_mul_right _ (by omega)
              rw [Nat.succ_mul] at hk1
              have hexp : b.expand = (kinds e).map (mp merge) := by rw [hbe]; exact blk_expand he
              have h12 : Abs env b.expand d1 vd1 := by rw [hexp]; exact Abs.map_mp.mpr h10
              have key := ih (F2 ++ (B2 ++ tl)) [] (Word.n 4 :: after)
                ⟨a ++ (d1 ++ d2), wmul k e.size, o'⟩ (Or.inr ⟨_, rfl⟩) (by
                  refine ⟨a, d1, d2, vd1, acc' ++ (le64 n ++ Fa), F1, rfl, ?_, ?_, by simpa using h12, h9, by simpa [hexp] using hF1, ?_⟩
                  · show wmul k e.size = _
                    rw [wmul_eq (by omega), la]
                  · show List.length (a ++ (d1 ++ d2)) < _
                    omega
                  · rw [← h6]; simp)
              simp only [Nat.zero_add, Nat.mul_one]
              unfold dumpElem
              simp only []
              cases hwk : walk (dumpI w) f (b.enc ++ Word.n 4 :: after) ⟨a ++ (d1 ++ d2), wmul k e.size, o'⟩ with
              | ok it' t =>
                rw [hwk] at key
                obtain ⟨rfl, x', y', p', vy', acc'', B'', k1, k2, k3, k4, k5, k7, k6⟩ := key
                cases k4
                cases k7
                refine ⟨Or.inl rfl, t.out, rfl, a ++ d1, d2, va ++ vd1, vd2, Fa ++ F1, F2, by simp, by simp, ?_, ?_, by simp, ?_, ?_⟩
                · rw [rep_succ']; exact h7.append h10
                · rwa [show n - (k + 1) = j by omega]
                · rwa [show n - (k + 1) = j by omega]
                · have : acc'' = acc' ++ (le64 n ++ (Fa ++ F1)) := by
                    rw [← h6] at k6
                    simp only [List.nil_append, ← List.append_assoc] at k6
                    have k6 := List.append_cancel_right (List.append_cancel_right (List.append_cancel_right k6))
                    rw [k6]; simp
                  rw [← this]; exact k5
              | exn er t =>
                rw [hwk] at key
                exact key
              | ub => rw [hwk] at key; exact key
              | fuel => rw [hwk] at key; exact key
            · exact ⟨Or.inr rfl, o1, rfl, [], buf, [], flat, [], F, rfl, rfl, .nil, hbuf, rfl, hF, by simpa using ho1⟩
      · intro er s hx
        refine ⟨acc' ++ le64 n, F ++ (B2 ++ tl), ?_, hx⟩
        simp at h6
        rw [← h6]; simp
    | @str cs _ bytes m v h0 hl hnil =>
      cases hnil
      cases hP1 with
      | @str _ _ _ _ Bn hPn =>
      cases hPn
      obtain ⟨_, _, _, hbe⟩ := blk_str hb
      have hgv : getStr (x ++ (Cell.str bytes :: (List.replicate (cs - 1) Cell.tail ++ (y2 ++ post')))) x.length cs =
          some bytes := by
        unfold getStr; rw [getCell_app _ _ _ _ h0]
      simp only [dumpI, List.append_assoc, List.cons_append, List.append_nil, contCount]
      rw [hgv]
      simp only [Option.map_some, Out.ofOpt_some, Out.bind_ok]
      apply Tri.bind
      refine (dsWrite_tri hw (acc := acc') (bs := le64 bytes.length) (by rw [le64, leBytes_length]; decide) h5).mono ?_ ?_
      · rintro _ s ⟨o1, rfl, ho1⟩
        simp only [List.append_assoc, List.cons_append, List.append_nil] at hafter h6
        by_cases hn0 : bytes.length = 0
        · rw [if_pos hn0, skipBlock_body]
          refine ⟨rfl, hafter o1 ?_⟩
          have := List.length_eq_zero_iff.mp hn0
          subst this
          simpa using ho1
        · rw [if_neg hn0]
          simp only [contDump]
          rw [hgv, hbe]
          simp only [L.enc, List.cons_append, List.nil_append, List.take_length]
          apply Tri.bind
          refine (dsWrite_tri hw (acc := acc' ++ le64 bytes.length) (bs := bytes) (by omega) ho1).mono ?_ ?_
          · rintro _ s ⟨o2, rfl, ho2⟩
            exact ⟨rfl, hafter o2 (by simpa using ho2)⟩
          · intro er s hx
            exact ⟨acc' ++ (le64 bytes.length ++ bytes), B2 ++ tl, by simpa using h6.symm, by simpa using hx⟩
      · intro er s hx
        refine ⟨acc' ++ le64 bytes.length, bytes ++ (B2 ++ tl), ?_, hx⟩
        simp at h6
        rw [← h6]; simp
  · exact ⟨[], cells, post, v, acc, B, rfl, rfl, by simpa using hW, by simpa using h, ho, by simpa using hB, by simpa using hfull⟩

end


/-! ### load -/

theorem inRead_ok {input : List UInt8} (hin : input.length < HALF) {idx : Nat} {bs r : List UInt8} (hidx : idx ≤ input.length)
    (h : input.drop idx = bs ++ r) :
    inRead input idx bs.length = .ok (bs, idx + bs.length) ∧ input.drop (idx + bs.length) = r ∧ idx + bs.length ≤ input.length := by
  have hl := congrArg List.length h
  simp only [List.length_drop, List.length_append] at hl
  rcases inRead_cases hin (n := bs.length) hidx (by omega) with ⟨b', h1, h2, h3, h4⟩ | ⟨h1, _⟩
  · rw [h] at h2
    obtain ⟨rfl, h5⟩ := List.append_inj h2 h1.symm
    exact ⟨h4, h5.symm, h3⟩
  · rw [h, List.length_append] at h1; omega

/-- what a load started from: the memory around the object, its items, the source value, the destination value, what follows in the input -/
structure PG where
  pre : Mem
  post : Mem
  K0 : List Item
  u0 : List AV
  w0 : List AV
  tl : List UInt8

def QInv (merge : Bool) (env : Env) (input : List UInt8) (g : PG) (K : List Item) (s : LS) : Prop :=
  s.idx ≤ input.length ∧ ∃ K1 x1 v1 u1 w1 y vy my uy B, g.K0 = K1 ++ K ∧ s.mem = g.pre ++ (x1 ++ (y ++ g.post)) ∧
    s.off = g.pre.length + x1.length ∧ s.mem.length < HALF ∧ Abs env K1 x1 v1 ∧ Abs env K y vy ∧ Abs env K my uy ∧
    Packed merge K uy B ∧ input.drop s.idx = B ++ g.tl ∧ g.u0 = u1 ++ uy ∧ g.w0 = w1 ++ vy ∧ (Clr vy ∨ Full uy) ∧
    VEq K1 u1 v1 ∧ Frame K1 w1 v1

theorem or_left {a b : List AV} {c d : List AV} (h : Clr (a ++ b) ∨ Full (c ++ d)) : Clr a ∨ Full c :=
  h.imp (fun h => (clr_append.mp h).1) (fun h => (full_append.mp h).1)
theorem or_right {a b : List AV} {c d : List AV} (h : Clr (a ++ b) ∨ Full (c ++ d)) : Clr b ∨ Full d :=
  h.imp (fun h => (clr_append.mp h).2) (fun h => (full_append.mp h).2)

theorem loadP_tri {env : Env} {O : ElemOps} {D : Nat} (hO : AllOps env O D) {merge : Bool} (input : List UInt8)
    (hin : input.length < HALF) (l : L) (hl : l.All (PBlk merge D)) (hp : l.Pos) (g : PG) (f : Nat) (s : LS)
    (hf : l.enc.length < f) (h : QInv merge env input g l.expand s) :
    Tri (walk (loadI env O input) f l.enc s) (fun it s' => it = [] ∧ QInv merge env input g [] s') (fun _ _ => False) := by
  have hHW : HALF < W := by unfold W; decide
  have hmaxH : env.maxAlloc < HALF := env.hmax
  have key := walk_tri (γ := PG) (loadI env O input) (PBlk merge D) (QInv merge env input)
    (fun _ _ _ => False) ?_ ?_ ?_ l hl hp g [] f [] s (Or.inl rfl) hf (by simpa using h)
  · simpa using key
  · -- memcpy
    rintro ⟨pre, post, K0, u0, w0, tl⟩ n K ⟨mem, off, idx⟩ ⟨hidx, K1, x1, v1, u1, w1, y, vy, my, uy, B, hK, h1, h2, h3, h4, h5, h6, hP, h7, h8, h9, h10, h11, h12⟩
    simp only at hidx hK h1 h2 h3 h7 h8 h9
    subst h1 h2
    obtain ⟨y1, y2, vy1, vy2, rfl, rfl, ha, hb⟩ := h5.split
    obtain ⟨my1, my2, uy1, uy2, rfl, rfl, ha', hb'⟩ := h6.split
    obtain ⟨B1, B2, rfl, hP1, hP2⟩ := hP.split ha'.length.2
    obtain ⟨old, hold, rfl, rfl⟩ := Abs.bytes (Or.inl rfl) ha
    obtain ⟨bs, hbs, rfl, rfl⟩ := Abs.bytes (Or.inl rfl) ha'
    have := hP1.bytes
    subst this
    simp only [List.length_append, List.length_map] at h3
    rw [List.append_assoc] at h7
    obtain ⟨r1, r2, r3⟩ := inRead_ok hin hidx h7
    simp only [loadI]
    rw [hbs] at r1 r2 r3
    rw [r1]
    simp only [Out.ofRes_ok, Out.bind_ok]
    have w1' := writeBytes_app (pre ++ x1) (old.map .byte) B1 (y2 ++ post) (by simp [hold, hbs]) (bytes_not_live _)
    simp only [List.append_assoc, List.length_append] at w1'
    simp only [List.append_assoc]
    rw [w1']
    simp only [Out.ofOpt_some, Out.bind_ok]
    refine ⟨r3, K1 ++ List.replicate n .data, x1 ++ B1.map .byte, v1 ++ B1.map .b, u1 ++ B1.map .b, w1 ++ old.map .b, y2, vy2, my2, uy2, B2,
      by simp [hK], by simp, ?_, by simp; omega, h4.append ?_, hb, hb', hP2, r2, by simp [h8], by simp [h9], or_right h10,
      h11.append ((VEq.bytes_data hbs hbs).mpr rfl), h12.append (Frame.bytes_data hold hbs)⟩
    · show wadd _ _ = _
      rw [wadd_eq (by omega)]; simp; omega
    · rw [← hbs]; exact Abs.ofBytes env (Or.inl rfl) B1
  · -- skip
    rintro ⟨pre, post, K0, u0, w0, tl⟩ n K ⟨mem, off, idx⟩ ⟨hidx, K1, x1, v1, u1, w1, y, vy, my, uy, B, hK, h1, h2, h3, h4, h5, h6, hP, h7, h8, h9, h10, h11, h12⟩
    simp only at hidx hK h1 h2 h3 h7 h8 h9
    subst h1 h2
    obtain ⟨y1, y2, vy1, vy2, rfl, rfl, ha, hb⟩ := h5.split
    obtain ⟨my1, my2, uy1, uy2, rfl, rfl, ha', hb'⟩ := h6.split
    obtain ⟨B1, B2, rfl, hP1, hP2⟩ := hP.split ha'.length.2
    have ha0 := ha
    obtain ⟨old, hold, rfl, rfl⟩ := Abs.bytes (Or.inr rfl) ha
    obtain ⟨bs, hbs, rfl, rfl⟩ := Abs.bytes (Or.inr rfl) ha'
    have := hP1.pads
    subst this
    simp only [List.length_append, List.length_map] at h3
    refine ⟨hidx, K1 ++ List.replicate n .pad, x1 ++ old.map .byte, v1 ++ old.map .b, u1 ++ bs.map .b, w1 ++ old.map .b, y2, vy2, my2, uy2, B2,
      by simp [hK], by simp, ?_, by simp; omega, h4.append ha0, hb, hb', hP2, by simpa using h7, by simp [h8], by simp [h9], or_right h10,
      h11.append ?_, h12.append ?_⟩
    · show wadd (pre.length + x1.length) n = _
      rw [wadd_eq (by omega)]; simp; omega
    · have := VEq.bytes_pad bs old (by omega)
      rwa [hbs] at this
    · have := Frame.bytes_pad old
      rwa [hold] at this
  · -- container
    rintro ⟨pre, post, K0, u0, w0, tl⟩ c b K f after ⟨mem, off, idx⟩ ⟨hb, hmcb⟩ ih ⟨hidx, K1, x1, v1, u1, w1, y, vy, my, uy, B, hK, h1, h2, h3, h4, h5, h6, hP, h7, h8, h9, h10, h11, h12⟩
    simp only at hidx hK h1 h2 h3 h7 h8 h9
    subst h1 h2
    obtain ⟨y1, y2, vy1, vy2, rfl, rfl, ha, hb2⟩ := abs_cons_cont h5
    obtain ⟨my1, my2, uy1, uy2, rfl, rfl, ha', hb2'⟩ := abs_cons_cont h6
    obtain ⟨B1, B2, rfl, hP1, hP2⟩ := Packed.split (K := [.cont c]) hP ha'.length.2
    have hsz := abs_cont_size ha
    simp only [List.length_append] at h3
    -- the invariant after the container, given what it became
    have hafter : ∀ (z : Mem) (vz : List AV) (idx' : Nat), z.length = y1.length → Abs env [.cont c] z vz →
        idx' ≤ input.length → input.drop idx' = B2 ++ tl → VEq [.cont c] uy1 vz →
        QInv merge env input ⟨pre, post, K0, u0, w0, tl⟩ K
          ⟨pre ++ (x1 ++ (z ++ (y2 ++ post))), wadd (pre.length + x1.length) c.size, idx'⟩ := by
      intro z vz idx' hz hz1 hle hd hv
      refine ⟨hle, K1 ++ [.cont c], x1 ++ z, v1 ++ vz, u1 ++ uy1, w1 ++ vy1, y2, vy2, my2, uy2, B2, by simp [hK], by simp, ?_, by simp; omega,
        h4.append hz1, hb2, hb2', hP2, hd, by simp [h8], by simp [h9], or_right h10, h11.append hv, h12.append ?_⟩
      · show wadd _ _ = _
        rw [wadd_eq (by omega)]; simp; omega
      · have l1 := ha.length.2
        have l2 := hz1.length.2
        obtain ⟨a, rfl⟩ := List.length_eq_one_iff.mp (l1.trans rfl)
        obtain ⟨b, rfl⟩ := List.length_eq_one_iff.mp (l2.trans rfl)
        exact .cont .nil
    have hcf := or_left h10
    simp only [loadI]
    cases ha' with
    | @vec cs e _ scap sbuf n sflat m v h0 hsbuf hslc hsm hnil =>
      cases hnil
      cases hP1 with
      | @vec _ _ _ _ _ _ F Bn hF hPn =>
      cases hPn
      cases ha with
      | @vec _ _ _ cap buf n0 flat m v _ hbuf hlc hm hnil =>
      cases hnil
      obtain ⟨_, _, he, hdep, hbe⟩ := blk_vec hb
      have sl := abs_elems he hsbuf
      have hstep := Nat.le_mul_of_pos_right n he.1
      simp only [List.append_nil, List.append_assoc] at h7
      obtain ⟨r1, r2, r3⟩ := inRead_ok hin hidx h7
      rw [le64_length] at r1 r2 r3
      rw [r1]
      simp only [Out.ofRes_ok, Out.bind_ok]
      rw [leVal_le64 (by omega)]
      by_cases hc0 : n = 0
      · subst hc0
        rw [if_pos rfl, skipBlock_body]
        refine ⟨rfl, ?_⟩
        rw [rep_zero] at hF hsbuf
        cases hF
        cases hsbuf
        have hclr : n0 = 0 ∧ flat = [] := by
          rcases hcf with hcf | hcf
          · exact ⟨hcf.1, hcf.2.1⟩
          · exact absurd rfl hcf.1.1
        obtain ⟨rfl, rfl⟩ := hclr
        have := hafter (.vec cap buf :: (List.replicate (cs - 1) .tail ++ [])) [.seq 0 []] (idx + 8) rfl (.vec h0 hbuf hlc hm .nil) r3
          (by simpa using r2) (.vec (by rw [rep_zero]; exact .nil) .nil)
        simpa using this
      · rw [if_neg hc0]
        have hgv : ∀ cap' buf', getVec (pre ++ (x1 ++ (Cell.vec cap' buf' :: (List.replicate (cs - 1) Cell.tail ++ (y2 ++ post)))))
            (pre.length + x1.length) cs = some ⟨cap', buf'⟩ := by
          intro cap' buf'
          unfold getVec
          have := getCell_app (pre ++ x1) (.vec cap' buf') cs (y2 ++ post) h0
          simp only [List.append_assoc, List.length_append] at this
          rw [this]
        have hset : ∀ (cap' : Nat) (buf' : Mem) (v' : Vec), setVec (pre ++ (x1 ++ (Cell.vec cap' buf' :: (List.replicate (cs - 1) Cell.tail ++ (y2 ++ post)))))
            (pre.length + x1.length) v' = pre ++ (x1 ++ (Cell.vec v'.cap v'.buf :: (List.replicate (cs - 1) Cell.tail ++ (y2 ++ post)))) := by
          intro cap' buf' v'
          unfold setVec
          have := setCell_app (pre ++ x1) (.vec cap' buf') (.vec v'.cap v'.buf) (List.replicate (cs - 1) Cell.tail ++ (y2 ++ post))
          simp only [List.append_assoc, List.length_append] at this
          rw [this]
        have hzl : ∀ cap' buf', (Cell.vec cap' buf' :: (List.replicate (cs - 1) Cell.tail ++ [])).length =
          (Cell.vec cap buf :: (List.replicate (cs - 1) Cell.tail ++ [])).length := by intros; simp
        simp only [contLoad, List.append_assoc, List.cons_append, List.nil_append]
        rw [hgv]
        simp only []
        rcases vecResize_spec he (hO e he hdep) (v := ⟨cap, buf⟩) hbuf hlc hm n (by omega) with ⟨hr1, hr2⟩ | ⟨hr1, v', flat', hr2, hr3⟩
        · omega
        · rw [hr2]
          simp only [Out.conv_ok, Out.bind_ok, hset, hgv]
          have hlen' := hr3.len
          have hcap' := hr3.cap
          have lb' := abs_elems he hr3.abs
          have hclrF : Clr flat' ∨ Full sflat := by
            rcases hcf with hcf | hcf
            · left
              obtain ⟨rfl, rfl, _⟩ := hcf
              obtain ⟨f1, f2, gg, hf1, hf2, hf3⟩ := hr3.content
              rw [Nat.zero_min, rep_zero] at hf3
              cases hf3
              rw [hf2]
              exact clr_freshV he env _
            · exact Or.inr hcf.1.2
          by_cases hmc : isElementMemcpy e = true
          · rw [if_pos hmc]
            obtain ⟨hb1, hb2''⟩ := hmcb cs e rfl hmc
            rw [hb1]
            simp only [L.enc, List.cons_append, List.nil_append]
            obtain ⟨old, hold, hbo, hfo⟩ := Abs.memcpy_bytes he hmc hr3.abs
            obtain ⟨bs, hbs, rfl, rfl⟩ := Abs.memcpy_bytes he hmc hsbuf
            rw [hb2'', rep_replicate] at hF
            have := hF.bytes
            subst this
            have e1 : wmul e.size n = F.length := by
              rw [wmul_eq (by rw [Nat.mul_comm]; omega), Nat.mul_comm, hbs]
            obtain ⟨q1, q2, q3⟩ := inRead_ok hin r3 r2
            rw [e1, q1]
            simp only [Out.ofRes_ok, Out.bind_ok]
            have w1' := writeBytes_app [] v'.buf F [] (by omega) (by rw [hbo]; exact bytes_not_live _)
            simp only [List.nil_append, List.append_nil, List.length_nil] at w1'
            rw [w1']
            simp only [hset]
            refine ⟨rfl, ?_⟩
            have ha'' := Abs.of_memcpy_bytes env he hmc hbs
            have := hafter (.vec v'.cap (F.map .byte) :: (List.replicate (cs - 1) .tail ++ [])) [.seq n (F.map .b)]
              (idx + 8 + F.length) (hzl _ _) (.vec h0 ha'' (by simp; omega) hcap' .nil) q3 q2 (.vec (VEq.refl_of_abs ha'') .nil)
            simpa using this
          · rw [if_neg hmc]
            apply Tri.conv
            apply Tri.bind
            have hexp : b.expand = (kinds e).map (mp merge) := by rw [hbe]; exact blk_expand he
            have kk := forStep_tri (loadElem (walk (loadI env O input) f) (b.enc ++ Word.n 4 :: after) e.size) 1
              (fun k p => (p.1 = .n 4 :: after ∨ k = 0) ∧ p.2.2 ≤ input.length ∧
                ∃ a va d vd fa fd md Fd, p.2.1 = a ++ d ∧ Abs env (rep k (kinds e)) a va ∧ Abs env (rep (n - k) (kinds e)) d vd ∧
                  sflat = fa ++ fd ∧ Abs env (rep (n - k) (kinds e)) md fd ∧ Packed merge (rep (n - k) ((kinds e).map (mp merge))) fd Fd ∧
                  input.drop p.2.2 = Fd ++ (B2 ++ tl) ∧ VEq (rep k (kinds e)) fa va ∧ (Clr vd ∨ Full fd))
              (fun _ _ => False)
              n 0 (by omega) (by omega) ?_ n 0 (n + 1) ([], v'.buf, idx + 8) (by omega) (by omega) ?_
            · simp only [Nat.zero_add, Nat.mul_one] at kk
              refine kk.mono ?_ (fun _ _ h => h)
              rintro _ ⟨it, bm, ix⟩ ⟨hit, hix, a, va, d, vd, fa, fd, md, Fd, hbm, q1, q2, q3, q4, q5, q6, q7, q8⟩
              simp only at hit hix hbm q6
              subst hbm q3
              rw [Nat.sub_self, rep_zero] at q2 q4 q5
              cases q2
              cases q4
              cases q5
              rcases hit with rfl | hh
              · refine ⟨rfl, ?_⟩
                simp only [List.append_nil] at hafter ⊢
                have l1 := abs_elems he q1
                have := hafter (.vec v'.cap a :: (List.replicate (cs - 1) .tail)) [.seq n va]
                  ix (by simp) (by simpa using Abs.vec h0 q1 (by omega) hcap' .nil) hix (by simpa using q6) (.vec q7 .nil)
                simpa using this
              · exact absurd hh hc0
            · rintro k ⟨it, bm, ix⟩ hk ⟨hit, hix, a, va, d, vd, fa, fd, md, Fd, hbm, q1, q2, q3, q4, q5, q6, q7, q8⟩
              simp only at hix hbm q6
              subst hbm q3
              obtain ⟨j, hj⟩ : ∃ j, n - k = j + 1 := ⟨n - k - 1, by omega⟩
              rw [hj, rep_succ] at q2 q4 q5
              obtain ⟨d1, d2, vd1, vd2, rfl, rfl, q9, q10⟩ := q2.split
              obtain ⟨md1, md2, fd1, fd2, rfl, rfl, q11, q12⟩ := q4.split
              obtain ⟨F1, F2, rfl, hF1, hF2⟩ := q5.split (by rw [q11.length.2, List.length_map])
              have la := abs_elems he q1
              have ld := abs_elem he q9
              have ld2 := abs_elems he q10
              have hk1' : (k + 1 + j) * e.size = n * e.size := by congr 1; omega
              rw [Nat.add_mul, Nat.succ_mul] at hk1'
              have hlenb : (a ++ (d1 ++ d2)).length < HALF := by simp only [List.length_append]; omega
              simp only [Nat.zero_add, Nat.mul_one]
              have key := ih ⟨a, d2, b.expand, fd1, vd1, F2 ++ (B2 ++ tl)⟩ [] (Word.n 4 :: after) ⟨a ++ (d1 ++ d2), wmul k e.size, ix⟩ (Or.inr ⟨_, rfl⟩) (by
                refine ⟨hix, [], [], [], [], [], d1, vd1, md1, fd1, F1, by simp, rfl, ?_, hlenb, .nil, ?_, ?_, by simpa [hexp] using hF1,
                  by simpa using q6, rfl, rfl, or_left q8, .nil, .nil⟩
                · show wmul k e.size = _
                  rw [wmul_eq (by omega), la]; rfl
                · rw [List.append_nil, hexp]; exact Abs.map_mp.mpr q9
                · rw [List.append_nil, hexp]; exact Abs.map_mp.mpr q11)
              unfold loadElem
              simp only []
              cases hwk : walk (loadI env O input) f (b.enc ++ Word.n 4 :: after) ⟨a ++ (d1 ++ d2), wmul k e.size, ix⟩ with
              | ok it' t =>
                rw [hwk] at key
                obtain ⟨rfl, k0, K1', x', vx', ux', wx', y', vy', my', uy', B', p1, p2, p3, p4, p5, p6, p7, p8, p9, p10, p11, p12, p13, p14⟩ := key
                cases p6
                cases p7
                cases p8
                simp only [List.append_nil] at p1 p10
                subst p1 p10
                simp only [List.nil_append] at p2 p9
                rw [hexp] at p5 p13
                have p5 := Abs.map_mp.mp p5
                have p13 := VEq.of_map_mp p13
                refine ⟨Or.inl rfl, k0, a ++ x', va ++ vx', d2, vd2, fa ++ fd1, fd2, md2, F2, ?_, ?_, ?_, by simp, ?_, ?_, p9, ?_, or_right q8⟩
                · simp [p2]
                · rw [rep_succ']; exact q1.append p5
                · rwa [show n - (k + 1) = j by omega]
                · rwa [show n - (k + 1) = j by omega]
                · rwa [show n - (k + 1) = j by omega]
                · rw [rep_succ']; exact q7.append p13
              | exn er t => rw [hwk] at key; exact key
              | ub => rw [hwk] at key; exact key
              | fuel => rw [hwk] at key; exact key
            · exact ⟨Or.inr rfl, r3, [], [], v'.buf, flat', [], sflat, sbuf, F, rfl, .nil, hr3.abs, rfl, hsbuf, hF, r2, .nil, hclrF⟩
    | @str cs _ sbytes m v h0 hslc hnil =>
      cases hnil
      cases hP1 with
      | @str _ _ _ _ Bn hPn =>
      cases hPn
      cases ha with
      | @str _ _ bytes m v _ hlc hnil =>
      cases hnil
      obtain ⟨_, _, _, hbe⟩ := blk_str hb
      simp only [List.append_nil, List.append_assoc] at h7
      obtain ⟨r1, r2, r3⟩ := inRead_ok hin hidx h7
      rw [le64_length] at r1 r2 r3
      rw [r1]
      simp only [Out.ofRes_ok, Out.bind_ok]
      rw [leVal_le64 (by omega)]
      by_cases hc0 : sbytes.length = 0
      · rw [if_pos hc0, skipBlock_body]
        refine ⟨rfl, ?_⟩
        have := List.length_eq_zero_iff.mp hc0
        subst this
        have hclr : bytes = [] := by
          rcases hcf with hcf | hcf
          · exact hcf.1
          · exact absurd rfl hcf.1
        subst hclr
        have := hafter (.str [] :: (List.replicate (cs - 1) .tail ++ [])) [.s []] (idx + 8) rfl (.str h0 hlc .nil) r3
          (by simpa using r2) (.str .nil)
        simpa using this
      · rw [if_neg hc0]
        have hgv : getStr (pre ++ (x1 ++ (Cell.str bytes :: (List.replicate (cs - 1) Cell.tail ++ (y2 ++ post)))))
            (pre.length + x1.length) cs = some bytes := by
          unfold getStr
          have := getCell_app (pre ++ x1) (.str bytes) cs (y2 ++ post) h0
          simp only [List.append_assoc, List.length_append] at this
          rw [this]
        have hset : ∀ (s0 s1 : List UInt8), setCell (pre ++ (x1 ++ (Cell.str s0 :: (List.replicate (cs - 1) Cell.tail ++ (y2 ++ post)))))
            (pre.length + x1.length) (.str s1) = pre ++ (x1 ++ (Cell.str s1 :: (List.replicate (cs - 1) Cell.tail ++ (y2 ++ post)))) := by
          intro s0 s1
          have := setCell_app (pre ++ x1) (.str s0) (.str s1) (List.replicate (cs - 1) Cell.tail ++ (y2 ++ post))
          simp only [List.append_assoc, List.length_append] at this
          rw [this]
        simp only [contLoad, List.append_assoc, List.cons_append, List.nil_append]
        rw [hgv]
        simp only [hset]
        rw [if_neg (by omega)]
        obtain ⟨q1, q2, q3⟩ := inRead_ok hin r3 r2
        rw [q1, hbe]
        simp only [Out.ofRes_ok, Out.bind_ok, L.enc, List.cons_append, List.nil_append, hset]
        refine ⟨rfl, ?_⟩
        have := hafter (.str sbytes :: (List.replicate (cs - 1) .tail ++ [])) [.s sbytes]
          (idx + 8 + sbytes.length) (by simp) (.str h0 (by omega) .nil) q3 q2 (.str .nil)
        simpa using this

end Verif.Value
