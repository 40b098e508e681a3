import Verif.ValueCodec

/-! load: what is read and what becomes of the destination, for any input. -/

namespace Verif.Value
open Verif Verif.Layout

/-- what a load started from: the memory around the object, the items of the object, the position in the input, whether
all containers of the destination were empty -/
structure LG where
  pre : Mem
  post : Mem
  K0 : List Item
  idx0 : Nat
  clr : Prop

/-- no 8 bytes of the input, taken as a number of elements, overflow the size of a vector of `e` -/
def NoOvf (input : List UInt8) (e : Ty) : Prop := ∀ i, leVal ((input.drop i).take 8) * e.size < W

/-- `noOvf` covers all vectors -/
def LBlk (all : Prop) (input : List UInt8) (D : Nat) (c : Ty) (b : L) : Prop :=
  Blk true D c b ∧ (all → ∀ cs e, c = .vec cs e → NoOvf input e)

/-- invariant of the load loop: `u1` is what has been read, `v1` what the destination holds -/
def LInv (env : Env) (all : Prop) (input : List UInt8) (g : LG) (K : List Item) (s : LS) : Prop :=
  (∀ i ∈ g.K0, i ≠ .pad) ∧ KOk g.K0 ∧ s.idx ≤ input.length ∧ (all ∨ FitsT env K (input.drop s.idx)) ∧
  ∃ K1 x1 v1 m1 u1 y vy, g.K0 = K1 ++ K ∧ s.mem = g.pre ++ (x1 ++ (y ++ g.post)) ∧ s.off = g.pre.length + x1.length ∧
    s.mem.length < HALF ∧ Abs env K1 x1 v1 ∧ Abs env K y vy ∧ Abs env K1 m1 u1 ∧
    input.drop g.idx0 = encL u1 ++ input.drop s.idx ∧ (g.clr → Clr vy ∧ v1 = u1) ∧ (Full u1 → v1 = u1)

/-- state after an exception: the object is valid, and the input does not start with a value -/
def LExn (env : Env) (input : List UInt8) (g : LG) (_ : Err) (s : LS) : Prop :=
  ∃ cells v, s.mem = g.pre ++ (cells ++ g.post) ∧ Abs env g.K0 cells v ∧ ¬ Fits env g.K0 (input.drop g.idx0)

theorem rep_one' {α : Type} (l : List α) : rep 1 l = l := by rw [rep_succ, rep_zero, List.append_nil]

theorem load_tri {env : Env} {O : ElemOps} {D : Nat} (hO : AllOps env O D) (all : Prop) (input : List UInt8)
    (hin : input.length < HALF) (l : L) (hl : l.All (LBlk all input D)) (hp : l.Pos) (g : LG) (f : Nat) (s : LS)
    (hf : l.enc.length < f) (h : LInv env all input g l.expand s) :
    Tri (walk (loadI env O input) f l.enc s) (fun it s' => it = [] ∧ LInv env all input g [] s') (LExn env input g) := by
  have hHW : HALF < W := by unfold W; decide
  have hmaxH : env.maxAlloc < HALF := env.hmax
  have key := walk_tri (γ := LG) (loadI env O input) (LBlk all input D) (LInv env all input)
    (LExn env input) ?_ ?_ ?_ l hl hp g [] f [] s (Or.inl rfl) hf (by simpa using h)
  · simpa using key
  · -- memcpy
    rintro ⟨pre, post, K0, idx0, clr⟩ n K ⟨mem, off, idx⟩ ⟨hnp, hkk, hidx, hs, K1, x1, v1, m1, u1, y, vy, hK, h1, h2, h3, h4, h5, h6, h7, h8, hfu⟩
    simp only at hnp hkk hidx hs hK h1 h2 h3 h7 h8 hfu
    subst h1 h2
    obtain ⟨y1, y2, vy1, vy2, rfl, rfl, ha, hb⟩ := h5.split
    obtain ⟨old, hold, rfl, rfl⟩ := Abs.bytes (Or.inl rfl) ha
    simp only [List.length_append, List.length_map] at h3
    have hk1 : KOk K1 := (kok_append.mp (hK ▸ hkk)).1
    simp only [loadI]
    rcases inRead_cases hin (n := n) hidx (by omega) with ⟨bs, hbs, hd, hle, hr⟩ | ⟨hlt, hr⟩
    · rw [hr]
      simp only [Out.ofRes_ok, Out.bind_ok]
      have w1 := writeBytes_app (pre ++ x1) (old.map .byte) bs (y2 ++ post) (by simp [hold, hbs]) (bytes_not_live _)
      simp only [List.append_assoc, List.length_append] at w1
      simp only [List.append_assoc]
      rw [w1]
      simp only [Out.ofOpt_some, Out.bind_ok]
      have habs : Abs env (List.replicate n .data) (bs.map .byte) (bs.map .b) := by
        rw [← hbs]; exact Abs.ofBytes env (Or.inl rfl) bs
      refine ⟨hnp, hkk, hle, ?_, K1 ++ List.replicate n .data, x1 ++ bs.map .byte, v1 ++ bs.map .b, m1 ++ bs.map .byte, u1 ++ bs.map .b,
        y2, vy2, by simp [hK], by simp, ?_, by simp; omega, h4.append habs, hb, h6.append habs, ?_, ?_, fun hfx => by rw [hfu (full_append.mp hfx).1]⟩
      · rcases hs with hs | hs
        · exact Or.inl hs
        · refine Or.inr (FitsT.rest (u := bs.map .b) ?_ habs ?_)
          · intro c hc; simp at hc
          · rw [encL_bytes, ← hd]; exact hs
      · show wadd _ _ = _
        rw [wadd_eq (by omega)]; simp; omega
      · show _ = _ ++ List.drop (idx + n) input
        rw [h7, hd, encL_append, encL_bytes, List.append_assoc]
      · intro hc
        obtain ⟨h9, rfl⟩ := h8 hc
        exact ⟨(clr_append.mp h9).2, rfl⟩
    · rw [hr]
      refine ⟨x1 ++ (old.map .byte ++ y2), v1 ++ (old.map .b ++ vy2), by simp, ?_, ?_⟩
      · show Abs env K0 _ _
        rw [hK]; exact h4.append h5
      · show ¬ Fits env K0 (input.drop idx0)
        rw [hK, h7]
        intro hf'
        have := (hf'.rest hk1 h6).bytes_length
        omega
  · -- skip
    rintro ⟨pre, post, K0, idx0, clr⟩ n K ⟨mem, off, idx⟩ ⟨hnp, hkk, hidx, hs, K1, x1, v1, m1, u1, y, vy, hK, h1, h2, h3, h4, h5, h6, h7, h8, hfu⟩
    cases n with
    | zero =>
      simp only at h1 h2 h3
      subst h1 h2
      simp only [List.length_append] at h3
      refine ⟨hnp, hkk, hidx, by simpa using hs, K1, x1, v1, m1, u1, y, vy, by simpa using hK, rfl, ?_, by simp; omega, h4, by simpa using h5, h6, h7, h8, hfu⟩
      show wadd (pre.length + x1.length) 0 = _
      rw [wadd_eq (by omega)]; rfl
    | succ n => exact absurd rfl (hnp .pad (by simp only at hK; rw [hK]; simp [List.replicate_succ]))
  · -- container
    rintro ⟨pre, post, K0, idx0, clr⟩ c b K f after ⟨mem, off, idx⟩ ⟨hb, hno⟩ ih ⟨hnp, hkk, hidx, hs, K1, x1, v1, m1, u1, y, vy, hK, h1, h2, h3, h4, h5, h6, h7, h8, hfu⟩
    simp only at hnp hkk hidx hs hK h1 h2 h3 h7 h8 hfu
    subst h1 h2
    have hk1 : KOk K1 := (kok_append.mp (hK ▸ hkk)).1
    obtain ⟨y1, y2, vy1, vy2, rfl, rfl, ha, hb2⟩ := abs_cons_cont h5
    have hsz := abs_cont_size ha
    simp only [List.length_append] at h3
    -- the invariant after the container, given what was read and what it became
    have hafter : ∀ (z : Mem) (vz : List AV) (mz : Mem) (uz : List AV) (idx' : Nat), z.length = y1.length → Abs env [.cont c] z vz → Abs env [.cont c] mz uz →
        idx' ≤ input.length → input.drop idx = encL uz ++ input.drop idx' → (clr → vz = uz) → (Full uz → vz = uz) →
        LInv env all input ⟨pre, post, K0, idx0, clr⟩ K
          ⟨pre ++ (x1 ++ (z ++ (y2 ++ post))), wadd (pre.length + x1.length) c.size, idx'⟩ := by
      intro z vz mz uz idx' hz hz1 hz2 hle hd hc hfz
      refine ⟨hnp, hkk, hle, ?_, K1 ++ [.cont c], x1 ++ z, v1 ++ vz, m1 ++ mz, u1 ++ uz, y2, vy2, by simp [hK], by simp, ?_, by simp; omega,
        h4.append hz1, hb2, h6.append hz2, ?_, ?_, fun hfx => by rw [hfu (full_append.mp hfx).1, hfz (full_append.mp hfx).2]⟩
      · rcases hs with hs | hs
        · exact Or.inl hs
        · refine Or.inr (FitsT.rest (K1 := [.cont c]) (u := uz) ?_ hz2 ?_)
          · intro c' hc'
            have : c' = c := by simpa using hc'
            subst this
            exact ⟨D, hb.contOk⟩
          · rw [← hd]; exact hs
      · show wadd _ _ = _
        rw [wadd_eq (by omega)]; simp; omega
      · show _ = _ ++ List.drop idx' input
        rw [h7, hd, encL_append, List.append_assoc]
      · intro hcl
        obtain ⟨h9, rfl⟩ := h8 hcl
        rw [hc hcl]
        exact ⟨(clr_append.mp h9).2, rfl⟩
    -- exception
    have hexn : ∀ er (z : Mem) (vz : List AV) (o i : Nat), Abs env [.cont c] z vz → ¬ Fits env (.cont c :: K) (input.drop idx) →
        LExn env input ⟨pre, post, K0, idx0, clr⟩ er ⟨pre ++ (x1 ++ (z ++ (y2 ++ post))), o, i⟩ := by
      intro er z vz o i hz hnf
      refine ⟨x1 ++ (z ++ y2), v1 ++ (vz ++ vy2), by simp, ?_, ?_⟩
      · show Abs env K0 _ _
        rw [hK]; exact h4.append (hz.append hb2)
      · show ¬ Fits env K0 (input.drop idx0)
        rw [hK, h7]
        intro hf'
        exact hnf (hf'.rest hk1 h6)
    have hclr : clr → Clr vy1 := fun hc => (clr_append.mp (h8 hc).1).1
    simp only [loadI]
    rcases inRead_cases hin (n := 8) hidx (by decide) with ⟨cb, hcb, hd, hle, hr⟩ | ⟨hlt, hr⟩
    · rw [hr]
      simp only [Out.ofRes_ok, Out.bind_ok]
      have hcount : leVal cb < W := leVal_lt_W hcb
      have hle64 := le64_leVal hcb
      cases ha with
      | @vec cs e _ cap buf n0 flat m v h0 hbuf hlc hm hnil =>
        cases hnil
        obtain ⟨_, _, he, hdep, hbe⟩ := blk_vec hb
        have hzl : ∀ cap' buf', (Cell.vec cap' buf' :: (List.replicate (cs - 1) Cell.tail ++ [])).length =
          (Cell.vec cap buf :: (List.replicate (cs - 1) Cell.tail ++ [])).length := by intros; simp
        by_cases hc0 : leVal cb = 0
        · rw [if_pos hc0, skipBlock_body]
          refine ⟨rfl, ?_⟩
          have := hafter (.vec cap buf :: (List.replicate (cs - 1) .tail ++ [])) [.seq n0 flat] (.vec 0 [] :: (List.replicate (cs - 1) .tail ++ []))
            [.seq 0 []] (idx + 8) rfl (.vec h0 hbuf hlc hm .nil) (.vec (n := 0) h0 .nil (Nat.le_refl _) (Nat.zero_le _) .nil) hle
            (by rw [hd]; simp [encL, AV.enc]; rw [← hle64, hc0]) (by
              intro hc; have := hclr hc; obtain ⟨rfl, rfl, _⟩ := this; rfl) (fun hfx => absurd rfl hfx.1.1)
          simpa using this
        · rw [if_neg hc0]
          -- the number of elements does not overflow
          have hov : leVal cb * e.size < W := by
            rcases hs with hs | ⟨tail, hs⟩
            · have := hno hs cs e rfl idx
              rwa [hd, List.take_append_of_le_length (by omega), List.take_of_length_le (by omega)] at this
            · obtain ⟨n, inp', hn1, hn2, hn3, _⟩ := hs.cont_vec he
              rw [hd, List.append_assoc] at hn3
              have := (List.append_inj hn3 (by rw [hcb, le64_length])).1
              rw [this, leVal_le64 hn2]
              omega
          -- what a value at this point of the input must be
          have hfits : Fits env (.cont (.vec cs e) :: K) (input.drop idx) → leVal cb * e.size ≤ env.maxAlloc ∧
              Fits env (rep (leVal cb) (kinds e) ++ K) (input.drop (idx + 8)) := by
            intro hf'
            obtain ⟨n, inp', hn1, hn2, hn3, hn4⟩ := hf'.cont_vec he
            rw [hd] at hn3
            have := List.append_inj hn3 (by rw [hcb, le64_length])
            rw [this.1, leVal_le64 hn2, this.2]
            exact ⟨hn1, hn4⟩
          have hgv : ∀ cap' buf', getVec (pre ++ (x1 ++ (Cell.vec cap' buf' :: (List.replicate (cs - 1) Cell.tail ++ (y2 ++ post)))))
              (pre.length + x1.length) cs = some ⟨cap', buf'⟩ := by
            intro cap' buf'
            unfold getVec
            have := getCell_app (pre ++ x1) (.vec cap' buf') cs (y2 ++ post) h0
            simp only [List.append_assoc, List.length_append] at this
            rw [this]
          have hset : ∀ (cap' : Nat) (buf' : Mem) (v' : Vec), setVec (pre ++ (x1 ++ (Cell.vec cap' buf' :: (List.replicate (cs - 1) Cell.tail ++ (y2 ++ post)))))
              (pre.length + x1.length) v' = pre ++ (x1 ++ (Cell.vec v'.cap v'.buf :: (List.replicate (cs - 1) Cell.tail ++ (y2 ++ post)))) := by
            intro cap' buf' v'
            unfold setVec
            have := setCell_app (pre ++ x1) (.vec cap' buf') (.vec v'.cap v'.buf) (List.replicate (cs - 1) Cell.tail ++ (y2 ++ post))
            simp only [List.append_assoc, List.length_append] at this
            rw [this]
          simp only [contLoad, List.append_assoc, List.cons_append, List.nil_append]
          rw [hgv]
          simp only []
          rcases vecResize_spec he (hO e he hdep) (v := ⟨cap, buf⟩) hbuf hlc hm (leVal cb) hov with ⟨hr1, hr2⟩ | ⟨hr1, v', flat', hr2, hr3⟩
          · rw [hr2]
            simp only [Out.conv_exn, Out.bind_exn, hset]
            have := hexn .lengthError (.vec cap buf :: (List.replicate (cs - 1) .tail ++ [])) [.seq n0 flat]
              (wadd (pre.length + x1.length) (Ty.vec cs e).size) (idx + 8) (.vec h0 hbuf hlc hm .nil) (by
                intro hf'; have := (hfits hf').1; omega)
            simpa [Tri] using this
          · rw [hr2]
            simp only [Out.conv_ok, Out.bind_ok, hset, hgv]
            have hlen' := hr3.len
            have hcap' := hr3.cap
            have lb' := abs_elems he hr3.abs
            have hclrF : clr → Clr flat' := by
              intro hc
              obtain ⟨rfl, rfl, _⟩ := hclr hc
              obtain ⟨f1, f2, gg, hf1, hf2, hf3⟩ := hr3.content
              rw [Nat.zero_min, rep_zero] at hf3
              cases hf3
              rw [hf2]
              exact clr_freshV he env _
            by_cases hmc : isElementMemcpy e = true
            · rw [if_pos hmc]
              rw [hbe, ((elem_memcpy he).1 hmc).1]
              simp only [L.enc, List.cons_append, List.nil_append]
              obtain ⟨old, hold, hbo, hfo⟩ := Abs.memcpy_bytes he hmc hr3.abs
              have e1 : wmul e.size (leVal cb) = leVal cb * e.size := by
                rw [wmul_eq (by rw [Nat.mul_comm]; omega), Nat.mul_comm]
              rw [e1]
              rcases inRead_cases hin (n := leVal cb * e.size) hle (by omega) with ⟨bs, hbs, hd', hle', hr'⟩ | ⟨hlt', hr'⟩
              · rw [hr']
                simp only [Out.ofRes_ok, Out.bind_ok]
                have w1 := writeBytes_app [] v'.buf bs [] (by omega) (by rw [hbo]; exact bytes_not_live _)
                simp only [List.nil_append, List.append_nil, List.length_nil] at w1
                rw [w1]
                simp only [hset]
                refine ⟨rfl, ?_⟩
                have ha' := Abs.of_memcpy_bytes env he hmc hbs
                have := hafter (.vec v'.cap (bs.map .byte) :: (List.replicate (cs - 1) .tail ++ [])) [.seq (leVal cb) (bs.map .b)]
                  (.vec v'.cap (bs.map .byte) :: (List.replicate (cs - 1) .tail ++ [])) [.seq (leVal cb) (bs.map .b)]
                  (idx + 8 + leVal cb * e.size) (hzl _ _) (.vec h0 ha' (by simp; omega) hcap' .nil) (.vec h0 ha' (by simp; omega) hcap' .nil) hle'
                  (by rw [hd, hd']; simp [encL, AV.enc, encL_bytes, hle64]) (fun _ => rfl) (fun _ => rfl)
                simpa using this
              · rw [hr']
                simp only [Out.ofRes_exn, Out.bind_exn]
                have := hexn .runtime (.vec v'.cap v'.buf :: (List.replicate (cs - 1) .tail ++ [])) [.seq (leVal cb) flat']
                  (wadd (pre.length + x1.length) (Ty.vec cs e).size) (idx + 8) (.vec h0 hr3.abs hlen' hcap' .nil) (by
                    intro hf'
                    obtain ⟨m, v, r, q1, q2⟩ := (hfits hf').2.pre
                    obtain ⟨bs', hb1, rfl, rfl⟩ := Abs.memcpy_bytes he hmc q1
                    rw [q2, encL_bytes] at hlt'
                    simp at hlt'; omega)
                simpa [Tri] using this
            · rw [if_neg hmc]
              apply Tri.conv
              apply Tri.bind
              have hstep := Nat.le_mul_of_pos_right (leVal cb) he.1
              have hexp : b.expand = (kinds e).map (mp true) := by rw [hbe]; exact blk_expand he
              have hexpnp : ∀ i ∈ b.expand, i ≠ .pad := by
                rw [hexp]; intro i hi
                obtain ⟨i', _, rfl⟩ := List.mem_map.mp hi
                cases i' <;> simp [mp]
              have hexpk : KOk b.expand := by
                rw [hexp]; intro c' hc'
                obtain ⟨i', hi1, hi2⟩ := List.mem_map.mp hc'
                cases i' with
                | data => simp [mp] at hi2
                | pad => simp [mp] at hi2
                | cont c'' => simp [mp] at hi2; subst hi2; exact kok_kinds he.2.1 he.2.2 _ hi1
              have hFm : ∀ inp, Fits env (kinds e) inp ↔ Fits env b.expand inp := by
                intro inp; rw [hexp]; unfold Fits
                simp only [Abs.map_mp]
              have kk := forStep_tri (loadElem (walk (loadI env O input) f) (b.enc ++ Word.n 4 :: after) e.size) 1
                (fun k p => (p.1 = .n 4 :: after ∨ k = 0) ∧ p.2.2 ≤ input.length ∧
                  (all ∨ FitsT env (rep (leVal cb - k) (kinds e) ++ K) (input.drop p.2.2)) ∧
                  ∃ a va ma ua d vd, p.2.1 = a ++ d ∧ Abs env (rep k (kinds e)) a va ∧ Abs env (rep k (kinds e)) ma ua ∧
                    Abs env (rep (leVal cb - k) (kinds e)) d vd ∧ input.drop (idx + 8) = encL ua ++ input.drop p.2.2 ∧
                    (clr → Clr vd ∧ va = ua) ∧ (Full ua → va = ua))
                (fun er p => ∃ vb, Abs env (rep (leVal cb) (kinds e)) p.2.1 vb ∧ ¬ Fits env (rep (leVal cb) (kinds e) ++ K) (input.drop (idx + 8)))
                (leVal cb) 0 (by omega) (by omega) ?_ (leVal cb) 0 (leVal cb + 1) ([], v'.buf, idx + 8) (by omega) (by omega) ?_
              · simp only [Nat.zero_add, Nat.mul_one] at kk
                refine kk.mono ?_ ?_
                · rintro _ ⟨it, bm, ix⟩ ⟨hit, hix, hfi, a, va, ma, ua, d, vd, hbm, q1, q2, q3, q4, q5, q5f⟩
                  simp only at hit hix hbm q4
                  subst hbm
                  rw [Nat.sub_self, rep_zero] at q3
                  cases q3
                  rcases hit with rfl | hh
                  · refine ⟨rfl, ?_⟩
                    simp only [List.append_nil]
                    have l1 := abs_elems he q1
                    have l2 := abs_elems he q2
                    have := hafter (.vec v'.cap a :: (List.replicate (cs - 1) .tail ++ [])) [.seq (leVal cb) va]
                      (.vec v'.cap ma :: (List.replicate (cs - 1) .tail ++ [])) [.seq (leVal cb) ua]
                      ix (hzl _ _) (.vec h0 q1 (by omega) hcap' .nil) (.vec h0 q2 (by omega) hcap' .nil) hix
                      (by rw [hd, q4]; simp [encL, AV.enc, hle64]) (fun hc => by rw [(q5 hc).2]) (fun hfx => by rw [q5f hfx.1.2])
                    simpa using this
                  · exact absurd hh hc0
                · rintro er ⟨it, bm, ix⟩ ⟨vb, q1, q2⟩
                  simp only at q1 ⊢
                  have l1 := abs_elems he q1
                  have := hexn er (.vec v'.cap bm :: (List.replicate (cs - 1) .tail ++ [])) [.seq (leVal cb) vb]
                    (wadd (pre.length + x1.length) (Ty.vec cs e).size) ix (.vec h0 q1 (by omega) hcap' .nil) (fun hf' => q2 (hfits hf').2)
                  simpa using this
              · rintro k ⟨it, bm, ix⟩ hk ⟨hit, hix, hfi, a, va, ma, ua, d, vd, hbm, q1, q2, q3, q4, q5, q5f⟩
                simp only at hix hfi hbm q4
                subst hbm
                obtain ⟨j, hj⟩ : ∃ j, leVal cb - k = j + 1 := ⟨leVal cb - k - 1, by omega⟩
                rw [hj, rep_succ] at q3
                obtain ⟨d1, d2, vd1, vd2, rfl, rfl, q6, q7⟩ := q3.split
                have la := abs_elems he q1
                have ld := abs_elem he q6
                have ld2 := abs_elems he q7
                have hk1' : (k + 1 + j) * e.size = leVal cb * e.size := by congr 1; omega
                rw [Nat.add_mul, Nat.succ_mul] at hk1'
                have hlenb : (a ++ (d1 ++ d2)).length < HALF := by simp only [List.length_append]; omega
                simp only [Nat.zero_add, Nat.mul_one]
                have key := ih ⟨a, d2, b.expand, ix, clr⟩ [] (Word.n 4 :: after) ⟨a ++ (d1 ++ d2), wmul k e.size, ix⟩ (Or.inr ⟨_, rfl⟩) (by
                  refine ⟨hexpnp, hexpk, hix, ?_, [], [], [], [], [], d1, vd1, by simp, rfl, ?_, hlenb, .nil, ?_, .nil, by simp [encL], ?_, fun _ => rfl⟩
                  · rcases hfi with hfi | hfi
                    · exact Or.inl hfi
                    · right
                      rw [hj, rep_succ, List.append_assoc] at hfi
                      obtain ⟨tail, hfi⟩ := hfi
                      exact ⟨tail, by simpa using (hFm _).mp hfi.pre⟩
                  · show wmul k e.size = _
                    rw [wmul_eq (by omega), la]; rfl
                  · rw [List.append_nil, hexp]; exact Abs.map_mp.mpr q6
                  · intro hc; exact ⟨(clr_append.mp (q5 hc).1).1, rfl⟩)
                unfold loadElem
                simp only []
                cases hwk : walk (loadI env O input) f (b.enc ++ Word.n 4 :: after) ⟨a ++ (d1 ++ d2), wmul k e.size, ix⟩ with
                | ok it' t =>
                  rw [hwk] at key
                  obtain ⟨rfl, _, _, k1, k2, K1', x', vx', mx', ux', y', vy', p1, p2, p3, p4, p5, p6, p7, p8, p9, p9f⟩ := key
                  cases p6
                  simp only [List.append_nil] at p1
                  subst p1
                  simp only [List.nil_append] at p2 p8
                  rw [hexp] at p5 p7
                  have p5 := Abs.map_mp.mp p5
                  have p7 := Abs.map_mp.mp p7
                  refine ⟨Or.inl rfl, k1, ?_, a ++ x', va ++ vx', ma ++ mx', ua ++ ux', d2, vd2, ?_, ?_, ?_, ?_, ?_, ?_,
                    fun hfx => by rw [q5f (full_append.mp hfx).1, p9f (full_append.mp hfx).2]⟩
                  · rcases hfi with hfi | hfi
                    · exact Or.inl hfi
                    · right
                      rw [hj, rep_succ, List.append_assoc, p8] at hfi
                      rw [show leVal cb - (k + 1) = j by omega]
                      exact hfi.rest (kok_kinds he.2.1 he.2.2) p7
                  · simp [p2]
                  · rw [rep_succ']; exact q1.append p5
                  · rw [rep_succ']; exact q2.append p7
                  · rwa [show leVal cb - (k + 1) = j by omega]
                  · simp only [encL_append, q4, p8, List.append_assoc]
                  · intro hc
                    rw [(q5 hc).2, (p9 hc).2]
                    exact ⟨(clr_append.mp (q5 hc).1).2, rfl⟩
                | exn er t =>
                  rw [hwk] at key
                  obtain ⟨cells, v, p1, p2, p3⟩ := key
                  simp only at p1 p2 p3
                  rw [hexp] at p2
                  have p2 := Abs.map_mp.mp p2
                  refine ⟨va ++ (v ++ vd2), ?_, ?_⟩
                  · show Abs env _ t.mem _
                    rw [p1, show leVal cb = k + (1 + j) by omega, rep_add, rep_add, rep_one']
                    exact q1.append (p2.append q7)
                  · rw [q4, show leVal cb = k + (1 + j) by omega, rep_add, rep_add, rep_one', List.append_assoc, List.append_assoc]
                    intro hf'
                    exact p3 ((hFm _).mp ((hf'.rest (kok_elems he k) q2).pre))
                | ub => rw [hwk] at key; exact key
                | fuel => rw [hwk] at key; exact key
              · refine ⟨Or.inr rfl, hle, ?_, [], [], [], [], v'.buf, flat', rfl, .nil, .nil, hr3.abs, by simp [encL], fun hc => ⟨hclrF hc, rfl⟩, fun _ => rfl⟩
                rcases hs with hs | ⟨tail, hs⟩
                · exact Or.inl hs
                · right
                  obtain ⟨n, inp', hn1, hn2, hn3, hn4⟩ := hs.cont_vec he
                  rw [hd, List.append_assoc] at hn3
                  have := List.append_inj hn3 (by rw [hcb, le64_length])
                  refine ⟨tail, ?_⟩
                  rw [this.1, leVal_le64 hn2, Nat.sub_zero]
                  show Fits env _ (List.drop (idx + 8) input ++ tail)
                  rw [this.2]; exact hn4
      | @str cs _ bytes m v h0 hlc hnil =>
        cases hnil
        obtain ⟨_, _, _, hbe⟩ := blk_str hb
        by_cases hc0 : leVal cb = 0
        · rw [if_pos hc0, skipBlock_body]
          refine ⟨rfl, ?_⟩
          have := hafter (.str bytes :: (List.replicate (cs - 1) .tail ++ [])) [.s bytes] (.str [] :: (List.replicate (cs - 1) .tail ++ []))
            [.s []] (idx + 8) rfl (.str h0 hlc .nil) (.str h0 (Nat.zero_le _) .nil) hle
            (by rw [hd]; simp [encL, AV.enc]; rw [← hle64, hc0]) (by
              intro hc; have := hclr hc; obtain ⟨rfl, _⟩ := this; rfl) (fun hfx => absurd rfl hfx.1)
          simpa using this
        · rw [if_neg hc0]
          have hgv : getStr (pre ++ (x1 ++ (Cell.str bytes :: (List.replicate (cs - 1) Cell.tail ++ (y2 ++ post)))))
              (pre.length + x1.length) cs = some bytes := by
            unfold getStr
            have := getCell_app (pre ++ x1) (.str bytes) cs (y2 ++ post) h0
            simp only [List.append_assoc, List.length_append] at this
            rw [this]
          have hset : ∀ (s0 s1 : List UInt8), setCell (pre ++ (x1 ++ (Cell.str s0 :: (List.replicate (cs - 1) Cell.tail ++ (y2 ++ post)))))
              (pre.length + x1.length) (.str s1) = pre ++ (x1 ++ (Cell.str s1 :: (List.replicate (cs - 1) Cell.tail ++ (y2 ++ post)))) := by
            intro s0 s1
            have := setCell_app (pre ++ x1) (.str s0) (.str s1) (List.replicate (cs - 1) Cell.tail ++ (y2 ++ post))
            simp only [List.append_assoc, List.length_append] at this
            rw [this]
          have hfits : Fits env (.cont (.str cs) :: K) (input.drop idx) → leVal cb ≤ env.maxAlloc ∧ leVal cb ≤ (input.drop (idx + 8)).length := by
            intro hf'
            obtain ⟨n, inp', hn1, hn2, hn3, hn4⟩ := hf'.cont_str
            rw [hd] at hn3
            have := List.append_inj hn3 (by rw [hcb, le64_length])
            rw [this.1, leVal_le64 hn2, this.2]
            exact ⟨hn1, hn4⟩
          simp only [contLoad, List.append_assoc, List.cons_append, List.nil_append]
          rw [hgv]
          simp only [hset]
          have habs0 : Abs env [.cont (.str cs)] (.str [] :: (List.replicate (cs - 1) .tail ++ [])) [.s []] := .str h0 (Nat.zero_le _) .nil
          by_cases hbig : env.maxAlloc < leVal cb
          · rw [if_pos hbig]
            have := hexn .lengthError (.str [] :: (List.replicate (cs - 1) .tail ++ [])) [.s []]
              (wadd (pre.length + x1.length) (Ty.str cs).size) (idx + 8) habs0 (by
                intro hf'; have := (hfits hf').1; omega)
            simpa [Tri] using this
          · rw [if_neg hbig]
            rcases inRead_cases hin (n := leVal cb) hle (by omega) with ⟨bs, hbs, hd', hle', hr'⟩ | ⟨hlt', hr'⟩
            · rw [hr', hbe]
              simp only [Out.ofRes_ok, Out.bind_ok, L.enc, List.cons_append, List.nil_append, hset]
              refine ⟨rfl, ?_⟩
              have ha' : Abs env [.cont (.str cs)] (.str bs :: (List.replicate (cs - 1) .tail ++ [])) [.s bs] := .str h0 (by omega) .nil
              have := hafter (.str bs :: (List.replicate (cs - 1) .tail ++ [])) [.s bs]
                (.str bs :: (List.replicate (cs - 1) .tail ++ [])) [.s bs]
                (idx + 8 + leVal cb) (by simp) ha' ha' hle'
                (by rw [hd, hd']; simp [encL, AV.enc, hbs, hle64]) (fun _ => rfl) (fun _ => rfl)
              simpa using this
            · rw [hr']
              simp only [Out.ofRes_exn, Out.bind_exn]
              have := hexn .runtime (.str [] :: (List.replicate (cs - 1) .tail ++ [])) [.s []]
                (wadd (pre.length + x1.length) (Ty.str cs).size) (idx + 8) habs0 (by
                  intro hf'; have := (hfits hf').2; omega)
              simpa [Tri] using this
    · rw [hr]
      simp only [Out.ofRes_exn, Out.bind_exn]
      refine hexn .runtime y1 vy1 _ idx ha ?_ |> fun h => by simpa [Tri] using h
      intro hf'
      have : 8 ≤ (input.drop idx).length := by
        cases c with
        | vec cs e =>
          obtain ⟨_, _, he, _⟩ := blk_vec hb
          obtain ⟨n, inp', _, _, hn3, _⟩ := hf'.cont_vec he
          rw [hn3]; simp [le64_length]
        | str cs =>
          obtain ⟨n, inp', _, _, hn3, _⟩ := hf'.cont_str
          rw [hn3]; simp [le64_length]
        | _ => exact (show False from hb).elim
      omega

end Verif.Value
