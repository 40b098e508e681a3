import Verif.ValueProps

/-!
# Dumping into files and streams

`Typelib::dump` has variants which write into a file descriptor, a `FILE*`, a
`std::ostream` or any object derived from `OutputStream`
(typelib/value_ops.cc:612-730); `Typelib::load` can read from any object derived
from `InputStream` (value_ops.cc:817-835).  The operating system decides at every
write how many of the bytes it takes, and whether it fails: the models below
take that decision from an oracle `io`, consulted with the number of writes
made so far and the number of bytes requested.
-/

namespace Verif.Value
open Verif Verif.Layout

/-! ## The streams -/

/-- A file that is being written to: what it has received, how many writes were
made, and its error indicator (`ferror` for a `FILE*`, `bad()` for a
`std::ostream`; a file descriptor has none). -/
structure Sink where
  got : List UInt8
  calls : Nat
  bad : Bool

/-- What the operating system makes of a write: `none` is an error, `some k` means
that `k` bytes (at most the number requested) were taken. -/
abbrev OsIO := Nat → Nat → Option Nat

/-- `FDOutputStream::write` (value_ops.cc:652-663): `write(2)`, called once. -/
def fdWrite (io : OsIO) (bs : List UInt8) (s : Sink) : Out Sink Unit :=
  match io s.calls bs.length with
  | none => .exn .runtime { s with calls := s.calls + 1 }
  | some k =>
    let s' : Sink := { s with got := s.got ++ bs.take k, calls := s.calls + 1 }
    if min k bs.length ≠ bs.length then .exn .runtime s' else .ok () s'

/-- `FileOutputStream::write` (value_ops.cc:691-694): `fwrite`, whose result is
ignored; `fwrite` sets the error indicator when not everything was taken. -/
def fileWrite (io : OsIO) (bs : List UInt8) (s : Sink) : Out Sink Unit :=
  match io s.calls bs.length with
  | none => .ok () { s with calls := s.calls + 1, bad := true }
  | some k => .ok () {
      got := s.got ++ bs.take k
      calls := s.calls + 1
      bad := s.bad || decide (min k bs.length ≠ bs.length) }

/-- `OstreamOutputStream::write` (value_ops.cc:621-624): `std::ostream::write`, for
a stream whose exception mask is empty (the default): nothing is written once
the stream is bad. -/
def ostreamWrite (io : OsIO) (bs : List UInt8) (s : Sink) : Out Sink Unit :=
  if s.bad then .ok () s
  else
    match io s.calls bs.length with
    | none => .ok () { s with calls := s.calls + 1, bad := true }
    | some k => .ok () {
        got := s.got ++ bs.take k
        calls := s.calls + 1
        bad := decide (min k bs.length ≠ bs.length) }

/-- `Typelib::dump(Value, OutputStream&)` (value_ops.cc:716-730) -/
def dumpTo {S : Type} (w : List UInt8 → S → Out S Unit) (t : Ty) (m : Mem) (o : S) : Out S Unit :=
  withLayout t o fun ml => dumpL w ml m o

/-- `Typelib::dump(Value, int fd)` (value_ops.cc:665-669) -/
def dumpFd (io : OsIO) (t : Ty) (m : Mem) (s : Sink) : Out Sink Unit := dumpTo (fdWrite io) t m s

/-- `Typelib::dump(Value, FILE*)` (value_ops.cc:696-700) -/
def dumpFile (io : OsIO) (t : Ty) (m : Mem) (s : Sink) : Out Sink Unit := dumpTo (fileWrite io) t m s

/-- `Typelib::dump(Value, std::ostream&)` (value_ops.cc:626-630) -/
def dumpOstream (io : OsIO) (t : Ty) (m : Mem) (s : Sink) : Out Sink Unit := dumpTo (ostreamWrite io) t m s

/-- `Typelib::load(Value, InputStream&)` (value_ops.cc:820-835), where `read` takes the
next bytes of `input` and throws when there are not enough (as
`VectorInputStream::read`, 846-857); the result is the value and the position.
What follows in the stream is not looked at. -/
def loadFrom (env : Env) (t : Ty) (input : List UInt8) (idx : Nat) (m : Mem) : Out (Mem × Nat) Unit :=
  withLayout t (m, idx) fun ml =>
    match walk (loadI env (opsAt env (cdepth t)) input) (ml.ops.length + 1) ml.ops ⟨m, 0, idx⟩ with
    | .ok [] s => .ok () (s.mem, s.idx)
    | .ok (_ :: _) s => .exn .runtime (s.mem, s.idx)
    | .exn e s => .exn e (s.mem, s.idx)
    | .ub => .ub
    | .fuel => .fuel

/-! ## Specification -/

/-- The bytes of a value: what `dump` to a vector produces, were there enough
memory. -/
def Bytes (env : Env) (t : Ty) (m : Mem) (v : List AV) (B : List UInt8) : Prop :=
  Serial t v B ∧ (B.length ≤ env.maxAlloc → dump env t m [] = .ok () B)

/-- Feeding a stream with one piece after the other, until it throws. -/
def feed {S : Type} (w : List UInt8 → S → Out S Unit) : List (List UInt8) → S → Out S Unit
  | [], s => .ok () s
  | p :: ps, s => (w p s).bind fun _ s => feed w ps s

/-! ## Proofs -/

theorem dumpTo_tri {env : Env} {t : Ty} (ht : OkType t) {m : Mem} {v : List AV} (hv : Valid env t m v) :
    ∃ B, Bytes env t m v B ∧ ∀ {S : Type} {w : List UInt8 → S → Out S Unit} (WInv : List UInt8 → S → Prop)
      (WX : List UInt8 → Err → S → Prop),
      WriterOk w WInv WX → ∀ o, WInv [] o →
      Tri (dumpTo w t m o) (fun _ s => WInv B s) (fun e s => ∃ p r, B = p ++ r ∧ WX p e s) := by
  obtain ⟨cells, vx, pads, rfl, rfl, ha, hser, hd, _⟩ := dump_all ht hv
  refine ⟨encL vx, ⟨hser, fun hle => ?_⟩, ?_⟩
  · exact (hd [] (Nat.zero_le _)).1 (by simpa using hle)
  intro S w WInv WX hw o ho
  have key := dump_walk env hw ht hv ha [] o ho
  unfold dumpTo
  rw [withLayout_ok ht]
  unfold dumpL
  simp only []
  simp only [List.nil_append] at key
  generalize walk (dumpI w) ((layL true true t).enc.length + 1) (layL true true t).enc
    ⟨cells ++ pads.map .byte, 0, o⟩ = res at key
  cases res with
  | ok it s => obtain ⟨rfl, h⟩ := key; exact h
  | exn e s => exact key
  | ub => exact key.elim
  | fuel => exact key.elim

theorem feed_app {S : Type} (w : List UInt8 → S → Out S Unit) : ∀ (ps qs : List (List UInt8)) (s : S),
    feed w (ps ++ qs) s = (feed w ps s).bind fun _ s => feed w qs s := by
  intro ps
  induction ps with
  | nil => intro qs s; rfl
  | cons p ps ih =>
    intro qs s
    simp only [List.cons_append, feed]
    cases w p s <;> simp [Out.bind, ih]

/-- C75: whatever the stream, `dump` feeds it with the bytes of the value, cut into
pieces, in order; it stops at the first exception, which it passes on, and
otherwise writes everything. -/
theorem C75_any_stream {S : Type} {w : List UInt8 → S → Out S Unit} {env : Env} {t : Ty} (ht : OkType t) {m : Mem}
    {v : List AV} (hv : Valid env t m v) (hw : ∀ bs s, w bs s ≠ .ub ∧ w bs s ≠ .fuel) :
    ∃ B, Bytes env t m v B ∧ ∀ o, ∃ (pieces : List (List UInt8)) (rest : List UInt8),
      B = pieces.flatten ++ rest ∧ dumpTo w t m o = feed w pieces o ∧
      (∀ s, dumpTo w t m o = .ok () s → rest = []) := by
  obtain ⟨B, hB, h⟩ := dumpTo_tri ht hv
  refine ⟨B, hB, fun o => ?_⟩
  have key := h (w := w) (fun acc s => ∃ ps, ps.flatten = acc ∧ feed w ps o = .ok () s)
    (fun p e s => ∃ ps, ps.flatten = p ∧ feed w ps o = .exn e s) ?_ o ⟨[], rfl, rfl⟩
  · cases hd : dumpTo w t m o with
    | ok a s =>
      rw [hd] at key
      obtain ⟨ps, h1, h2⟩ := key
      exact ⟨ps, [], by simp [h1], h2.symm, fun _ _ => rfl⟩
    | exn e s =>
      rw [hd] at key
      obtain ⟨p, r, h0, ps, h1, h2⟩ := key
      exact ⟨ps, r, by rw [h1, h0], h2.symm, fun _ h => by cases h⟩
    | ub => rw [hd] at key; exact key.elim
    | fuel => rw [hd] at key; exact key.elim
  · rintro acc bs s _ ⟨ps, h1, h2⟩
    have h3 : feed w (ps ++ [bs]) o = w bs s := by
      rw [feed_app, h2]
      simp only [Out.bind, feed]
      cases w bs s <;> rfl
    cases hr : w bs s with
    | ok a s' => exact ⟨ps ++ [bs], by simp [h1], by rw [h3, hr]⟩
    | exn e s' => exact ⟨ps ++ [bs], by simp [h1], by rw [h3, hr]⟩
    | ub => exact absurd hr (hw bs s).1
    | fuel => exact absurd hr (hw bs s).2

theorem take_min {α : Type} {l : List α} {k : Nat} (h : min k l.length = l.length) : l.take k = l :=
  List.take_of_length_le (by omega)

/-- The system takes all of the `n` bytes of write number `i`. -/
def Taken (io : OsIO) (i n : Nat) : Prop := ∃ k, io i n = some k ∧ n ≤ k

/-- C75: dumping into a file descriptor: when it returns, the file has received
exactly the bytes of the value; otherwise it raises, the file has received a
beginning of these bytes, and some write has failed or was not taken in full. -/
theorem C75_fd {env : Env} {t : Ty} (ht : OkType t) {m : Mem} {v : List AV} (hv : Valid env t m v) :
    ∃ B, Bytes env t m v B ∧ ∀ (io : OsIO) (s : Sink),
      (∃ s', dumpFd io t m s = .ok () s' ∧ s'.got = s.got ++ B) ∨
      (∃ s' p r i n, dumpFd io t m s = .exn .runtime s' ∧ B = p ++ r ∧ s'.got = s.got ++ p ∧
        s.calls ≤ i ∧ ¬ Taken io i n) := by
  obtain ⟨B, hB, h⟩ := dumpTo_tri ht hv
  refine ⟨B, hB, fun io s => ?_⟩
  have key := h (w := fdWrite io) (fun acc s' => s'.got = s.got ++ acc ∧ s.calls ≤ s'.calls)
    (fun p e s' => e = .runtime ∧ ∃ q r, p = q ++ r ∧ s'.got = s.got ++ q ∧ ∃ i n, s.calls ≤ i ∧ ¬ Taken io i n)
    ?_ s ⟨by simp, Nat.le_refl _⟩
  · unfold dumpFd
    cases hd : dumpTo (fdWrite io) t m s with
    | ok a s' => rw [hd] at key; exact .inl ⟨s', rfl, key.1⟩
    | exn e s' =>
      rw [hd] at key
      obtain ⟨p, r, h0, rfl, q, r', rfl, hg, i, n, hi, hf⟩ := key
      exact .inr ⟨s', q, r' ++ r, i, n, rfl, by simp [h0], hg, hi, hf⟩
    | ub => rw [hd] at key; exact key.elim
    | fuel => rw [hd] at key; exact key.elim
  · rintro acc bs s' _ ⟨h1, h2⟩
    unfold fdWrite
    cases hk : io s'.calls bs.length with
    | none => exact ⟨rfl, acc, bs, rfl, h1, s'.calls, bs.length, h2, fun ⟨k, hk', _⟩ => by rw [hk] at hk'; cases hk'⟩
    | some k =>
      simp only []
      by_cases hm : min k bs.length ≠ bs.length
      · rw [if_pos hm]
        refine ⟨rfl, acc ++ bs.take k, bs.drop k, by simp, by simp [h1], s'.calls, bs.length, h2, ?_⟩
        rintro ⟨k', hk', hle⟩
        rw [hk] at hk'
        injection hk' with hk'
        omega
      · rw [if_neg hm]
        have hm : min k bs.length = bs.length := by omega
        refine ⟨?_, Nat.le_succ_of_le h2⟩
        show s'.got ++ bs.take k = _
        rw [take_min hm, h1, List.append_assoc]

/-- C75: when every write is taken in full, dumping into a file descriptor
returns. -/
theorem C75_fd_returns {env : Env} {t : Ty} (ht : OkType t) {m : Mem} {v : List AV} (hv : Valid env t m v)
    {io : OsIO} (hio : ∀ i n, Taken io i n) (s : Sink) :
    ∃ B s', Bytes env t m v B ∧ dumpFd io t m s = .ok () s' ∧ s'.got = s.got ++ B := by
  obtain ⟨B, hB, h⟩ := C75_fd ht hv
  rcases h io s with ⟨s', h1, h2⟩ | ⟨s', p, r, i, n, _, _, _, _, h⟩
  · exact ⟨B, s', hB, h1, h2⟩
  · exact absurd (hio i n) h

/-- C75 (partial): dumping into a `FILE*` returns, whatever happens; only if the
file's error indicator is not set afterwards has the file received the bytes of
the value, and it is set only if it was before or some write has failed or was
not taken in full.  Missing: that `dump` tells about it, and that the file has
received a beginning of the bytes (`C75_cex_file`). -/
theorem C75_file_partial {env : Env} {t : Ty} (ht : OkType t) {m : Mem} {v : List AV} (hv : Valid env t m v) :
    ∃ B, Bytes env t m v B ∧ ∀ (io : OsIO) (s : Sink), ∃ s', dumpFile io t m s = .ok () s' ∧
      (s'.bad = false → s'.got = s.got ++ B) ∧
      (s'.bad = true → s.bad = true ∨ ∃ i n, s.calls ≤ i ∧ ¬ Taken io i n) := by
  obtain ⟨B, hB, h⟩ := dumpTo_tri ht hv
  refine ⟨B, hB, fun io s => ?_⟩
  have key := h (w := fileWrite io) (fun acc s' => s.calls ≤ s'.calls ∧ (s'.bad = false → s'.got = s.got ++ acc) ∧
      (s'.bad = true → s.bad = true ∨ ∃ i n, s.calls ≤ i ∧ ¬ Taken io i n))
    (fun _ _ _ => False) ?_ s ⟨Nat.le_refl _, by simp, .inl⟩
  · unfold dumpFile
    cases hd : dumpTo (fileWrite io) t m s with
    | ok a s' => rw [hd] at key; exact ⟨s', rfl, key.2⟩
    | exn e s' => rw [hd] at key; obtain ⟨_, _, _, h⟩ := key; exact h.elim
    | ub => rw [hd] at key; exact key.elim
    | fuel => rw [hd] at key; exact key.elim
  · rintro acc bs s' _ ⟨h1, h2, h3⟩
    unfold fileWrite
    cases hk : io s'.calls bs.length with
    | none =>
      refine ⟨Nat.le_succ_of_le h1, (fun h => by cases h), fun _ => .inr ⟨s'.calls, bs.length, h1, ?_⟩⟩
      rintro ⟨k, hk', _⟩; rw [hk] at hk'; cases hk'
    | some k =>
      refine ⟨Nat.le_succ_of_le h1, fun h => ?_, fun h => ?_⟩
      · simp only [Bool.or_eq_false_iff, decide_eq_false_iff_not, Classical.not_not] at h
        show s'.got ++ bs.take k = _
        rw [take_min h.2, h2 h.1, List.append_assoc]
      · simp only [Bool.or_eq_true, decide_eq_true_eq] at h
        rcases h with h | h
        · exact h3 h
        · refine .inr ⟨s'.calls, bs.length, h1, ?_⟩
          rintro ⟨k', hk', hle⟩
          rw [hk] at hk'
          injection hk' with hk'
          omega

/-- C75: dumping into a `std::ostream` returns; the stream has received a beginning
of the bytes of the value, all of them unless it is bad afterwards, and it is
bad only if it was before or some write has failed or was not taken in full. -/
theorem C75_ostream {env : Env} {t : Ty} (ht : OkType t) {m : Mem} {v : List AV} (hv : Valid env t m v) :
    ∃ B, Bytes env t m v B ∧ ∀ (io : OsIO) (s : Sink), ∃ s' p r, dumpOstream io t m s = .ok () s' ∧
      B = p ++ r ∧ s'.got = s.got ++ p ∧ (s'.bad = false → r = []) ∧ (s.bad = true → p = [] ∧ s'.bad = true) ∧
      (s'.bad = true → s.bad = true ∨ ∃ i n, s.calls ≤ i ∧ ¬ Taken io i n) := by
  obtain ⟨B, hB, h⟩ := dumpTo_tri ht hv
  refine ⟨B, hB, fun io s => ?_⟩
  have key := h (w := ostreamWrite io) (fun acc s' => ∃ p r, acc = p ++ r ∧ s.calls ≤ s'.calls ∧ s'.got = s.got ++ p ∧
      (s'.bad = false → r = []) ∧ (s.bad = true → p = [] ∧ s'.bad = true) ∧
      (s'.bad = true → s.bad = true ∨ ∃ i n, s.calls ≤ i ∧ ¬ Taken io i n))
    (fun _ _ _ => False) ?_ s ⟨[], [], rfl, Nat.le_refl _, by simp, fun _ => rfl, fun h => ⟨rfl, h⟩, .inl⟩
  · unfold dumpOstream
    cases hd : dumpTo (ostreamWrite io) t m s with
    | ok a s' =>
      rw [hd] at key
      obtain ⟨p, r, h1, h2, h3, h4, h5, h6⟩ := key
      exact ⟨s', p, r, rfl, h1, h3, h4, h5, h6⟩
    | exn e s' => rw [hd] at key; obtain ⟨_, _, _, h⟩ := key; exact h.elim
    | ub => rw [hd] at key; exact key.elim
    | fuel => rw [hd] at key; exact key.elim
  · rintro acc bs s' _ ⟨p, r, h1, h2, h3, h4, h5, h6⟩
    unfold ostreamWrite
    cases hb : s'.bad with
    | true =>
      rw [if_pos rfl]
      exact ⟨p, r ++ bs, by simp [h1], h2, h3, (fun h => by rw [hb] at h; cases h), h5, h6⟩
    | false =>
      rw [if_neg (by simp)]
      have hr := h4 hb
      subst hr
      have hs : s.bad = true → False := fun h => by have := (h5 h).2; rw [hb] at this; cases this
      cases hk : io s'.calls bs.length with
      | none =>
        refine ⟨p, bs, by simp [h1], Nat.le_succ_of_le h2, h3, (fun h => by cases h), fun h => (hs h).elim,
          fun _ => .inr ⟨s'.calls, bs.length, h2, ?_⟩⟩
        rintro ⟨k, hk', _⟩; rw [hk] at hk'; cases hk'
      | some k =>
        refine ⟨p ++ bs.take k, bs.drop k, by simp [h1], Nat.le_succ_of_le h2, by simp [h3], ?_,
          fun h => (hs h).elim, ?_⟩
        · intro h
          simp only [decide_eq_false_iff_not, Classical.not_not] at h
          exact List.drop_eq_nil_of_le (by omega)
        · intro h
          simp only [decide_eq_true_eq] at h
          refine .inr ⟨s'.calls, bs.length, h2, ?_⟩
          rintro ⟨k', hk', hle⟩
          rw [hk] at hk'
          injection hk' with hk'
          omega

/-! ## Reading back -/

/-- C75: a value is loaded back from the middle of a stream, into a destination
whose containers are empty; the position is then exactly after its bytes,
whatever follows. -/
theorem C75_load_from {env : Env} {t : Ty} (ht : OkType t) {src : Mem} {v : List AV} (hs : Valid env t src v)
    {B : List UInt8} (hB : dump env t src [] = .ok () B) (before after : List UInt8)
    (hlen : before.length + B.length + after.length < HALF)
    {dst : Mem} {w : List AV} (hd : Valid env t dst w) (hc : Clr w) :
    ∃ dst' v', loadFrom env t (before ++ B ++ after) before.length dst = .ok () (dst', before.length + B.length) ∧
      Valid env t dst' v' ∧ VEq (kinds t) v v' := by
  obtain ⟨scells, svx, spads, rfl, rfl, sa, rfl, slen, _⟩ := serial_dump ht hs hB
  obtain ⟨cells, vx, pads, rfl, rfl, ha⟩ := lay_merged ht.1 hd
  obtain ⟨k, hk, ⟨X, hX1, hX2⟩, hback⟩ := lay_pad_unique (env := env) ht.1
  have hpl := hk _ _ hd cells vx pads rfl rfl ha
  have hspl := hk _ _ hs scells svx spads rfl rfl sa
  have hll := hd.length.1
  rw [kinds_size t ht.1, List.length_append] at hll
  have hsz := ht.2.2
  have hall : (layL true true t).All (LBlk (∀ e, VecIn t e → NoOvf (before ++ encL svx ++ after) e)
      (before ++ encL svx ++ after) (cdepth t)) := by
    refine all_mono ?_ _ (all_and _ (layL_all false false true true t ht.1 ht.2.1) (layL_vecIn true true t))
    rintro c b ⟨h1, h2⟩
    exact ⟨h1, fun hno cs e he => hno e (h2 cs e he)⟩
  have hkok := kok_expand (layL_all false false true true t ht.1 ht.2.1)
  have hdrop : (before ++ encL svx ++ after).drop before.length = encL svx ++ after := by
    rw [List.append_assoc, List.drop_left]
  have key := load_tri (allOps env (cdepth t)) _ (before ++ encL svx ++ after)
    (by simp only [List.length_append]; omega) (layL true true t) hall (layL_pos _ _ t ht.1)
    ⟨[], pads.map .byte, (layL true true t).expand, before.length, Clr (vx ++ pads.map .b)⟩ ((layL true true t).enc.length + 1)
    ⟨cells ++ pads.map .byte, 0, before.length⟩ (by omega) ⟨expand_np t ht.1, hkok, by simp [Nat.add_assoc],
      Or.inr (by rw [hdrop]; exact ⟨[], scells, svx, after, sa, by simp⟩),
      [], [], [], [], [], cells, vx, rfl, rfl, rfl, by simp only [List.length_append]; omega, .nil, ha, .nil, by simp [encL],
      fun h => ⟨(clr_append.mp h).1, rfl⟩, fun _ => rfl⟩
  unfold loadFrom
  rw [withLayout_ok ht]
  simp only []
  generalize walk (loadI env (opsAt env (cdepth t)) (before ++ encL svx ++ after)) ((layL true true t).enc.length + 1)
    (layL true true t).enc ⟨cells ++ pads.map .byte, 0, before.length⟩ = res at key
  cases res with
  | ok it s =>
    obtain ⟨rfl, _, _, k1, k2, K1, x1, v1, m1, u1, y, vy, p1, p2, p3, p4, p5, p6, p7, p8, p9, p10⟩ := key
    cases p6
    simp only [List.append_nil] at p1
    subst p1
    simp only [List.nil_append] at p2 p8
    rw [hdrop] at p8
    obtain ⟨rfl, he⟩ := enc_inj sa hkok p7 p8
    have hidx : s.idx = before.length + (encL svx).length := by
      have := congrArg List.length he
      simp only [List.length_drop, List.length_append] at this k1
      omega
    obtain ⟨_, rfl⟩ := p9 hc
    refine ⟨s.mem, v1 ++ pads.map .b, by simp only []; rw [hidx], by rw [p2]; exact hback _ _ _ hpl p5, ?_⟩
    have l3 := sa.length.2
    rw [hX2] at l3
    rw [hX1]
    refine VEq.append ?_ ?_
    · exact VEq.of_map_mp (m := true) (by rw [← hX2]; exact VEq.refl_of_abs sa)
    · rw [← hspl]; exact VEq.bytes_pad spads pads (by omega)
  | exn e s =>
    obtain ⟨cells', v', q1, q2, q3⟩ := key
    refine absurd ?_ q3
    rw [hdrop]
    exact ⟨scells, svx, after, sa, rfl⟩
  | ub => exact key.elim
  | fuel => exact key.elim

/-- A value to be dumped and loaded back: its type, its memory and the value there;
the memory it is loaded into and the value there before. -/
structure Parcel where
  ty : Ty
  mem : Mem
  val : List AV
  dst : Mem
  dstVal : List AV

/-- Both are values of the type, and the containers of the second are empty. -/
structure Parcel.Ok (env : Env) (x : Parcel) : Prop where
  ty : OkType x.ty
  src : Valid env x.ty x.mem x.val
  dst : Valid env x.ty x.dst x.dstVal
  clr : Clr x.dstVal

/-- Dumping values one after the other into a stream. -/
def dumpEach {S : Type} (w : List UInt8 → S → Out S Unit) : List Parcel → S → Out S Unit
  | [], s => .ok () s
  | x :: xs, s => (dumpTo w x.ty x.mem s).bind fun _ s => dumpEach w xs s

/-- Loading values one after the other from a stream, from position `idx` on: the
memory of each and the final position. -/
def loadEach (env : Env) (input : List UInt8) : List Parcel → Nat → Res (List Mem × Nat)
  | [], idx => .ok ([], idx)
  | x :: xs, idx =>
    match loadFrom env x.ty input idx x.dst with
    | .ok _ (m', idx') =>
      match loadEach env input xs idx' with
      | .ok (ms, i) => .ok (m' :: ms, i)
      | .exn e => .exn e
      | .ub => .ub
      | .fuel => .fuel
    | .exn e _ => .exn e
    | .ub => .ub
    | .fuel => .fuel

/-- The memories hold the values of the parcels. -/
inductive Same (env : Env) : List Parcel → List Mem → Prop where
  | nil : Same env [] []
  | cons {x : Parcel} {xs : List Parcel} {m : Mem} {ms : List Mem} {v : List AV} :
      Valid env x.ty m v → VEq (kinds x.ty) x.val v → Same env xs ms → Same env (x :: xs) (m :: ms)

theorem loadEach_ok {env : Env} : ∀ (xs : List Parcel) (Bs : List (List UInt8)) (before after : List UInt8),
    (∀ x ∈ xs, x.Ok env) → Bs.length = xs.length →
    (∀ p ∈ xs.zip Bs, Bytes env p.1.ty p.1.mem p.1.val p.2) →
    before.length + Bs.flatten.length ≤ env.maxAlloc → before.length + Bs.flatten.length + after.length < HALF →
    ∃ ms, loadEach env (before ++ Bs.flatten ++ after) xs before.length =
      .ok (ms, before.length + Bs.flatten.length) ∧ Same env xs ms := by
  intro xs
  induction xs with
  | nil =>
    intro Bs before after _ hl _ _ _
    obtain rfl := List.length_eq_zero_iff.mp hl
    exact ⟨[], by simp [loadEach], .nil⟩
  | cons x xs ih =>
    intro Bs before after hok hl hb hlen hhalf
    cases Bs with
    | nil => simp at hl
    | cons B Bs =>
      have hx := hok x (by simp)
      have hB : Bytes env x.ty x.mem x.val B := hb (x, B) (by simp)
      simp only [List.flatten_cons, List.length_append] at hlen hhalf
      have hd := hB.2 (by omega)
      obtain ⟨dst', v', h1, h2, h3⟩ := C75_load_from hx.ty hx.src hd before (Bs.flatten ++ after)
        (by simp only [List.length_append]; omega) hx.dst hx.clr
      obtain ⟨ms, h4, h5⟩ := ih Bs (before ++ B) after (fun y hy => hok y (List.mem_cons_of_mem _ hy))
        (by simpa using hl) (fun p hp => hb p (List.mem_cons_of_mem _ hp))
        (by simp only [List.length_append]; omega) (by simp only [List.length_append]; omega)
      refine ⟨dst' :: ms, ?_, .cons h2 h3 h5⟩
      have e1 : before ++ (B :: Bs).flatten ++ after = before ++ B ++ (Bs.flatten ++ after) := by simp
      have e2 : before ++ (B :: Bs).flatten ++ after = before ++ B ++ Bs.flatten ++ after := by simp
      have e3 : loadFrom env x.ty (before ++ (B :: Bs).flatten ++ after) before.length x.dst =
          .ok () (dst', before.length + B.length) := by rw [e1]; exact h1
      have e4 : loadEach env (before ++ (B :: Bs).flatten ++ after) xs (before.length + B.length) =
          .ok (ms, before.length + B.length + Bs.flatten.length) := by
        rw [e2]; simpa [List.length_append] using h4
      have e5 : before.length + (B :: Bs).flatten.length = before.length + B.length + Bs.flatten.length := by
        simp only [List.flatten_cons, List.length_append]; omega
      rw [e5]
      simp only [loadEach, e3, e4]

theorem dumpEach_fd {env : Env} {io : OsIO} : ∀ (xs : List Parcel) (s s' : Sink), (∀ x ∈ xs, x.Ok env) →
    dumpEach (fdWrite io) xs s = .ok () s' →
    ∃ Bs : List (List UInt8), Bs.length = xs.length ∧ (∀ p ∈ xs.zip Bs, Bytes env p.1.ty p.1.mem p.1.val p.2) ∧
      s'.got = s.got ++ Bs.flatten := by
  intro xs
  induction xs with
  | nil => intro s s' _ h; cases h; exact ⟨[], rfl, nofun, by simp⟩
  | cons x xs ih =>
    intro s s' hok h
    have hx := hok x (by simp)
    obtain ⟨B, hB, hfd⟩ := C75_fd hx.ty hx.src
    simp only [dumpEach] at h
    rcases hfd io s with ⟨s1, h1, h2⟩ | ⟨s1, p, r, i, n, h1, _⟩
    · rw [show dumpTo (fdWrite io) x.ty x.mem s = .ok () s1 from h1] at h
      obtain ⟨Bs, g1, g2, g3⟩ := ih s1 s' (fun y hy => hok y (List.mem_cons_of_mem _ hy)) h
      refine ⟨B :: Bs, by simp [g1], ?_, by rw [g3, h2]; simp⟩
      intro p hp
      rcases List.mem_cons.mp hp with rfl | hp
      · exact hB
      · exact g2 p hp
    · rw [show dumpTo (fdWrite io) x.ty x.mem s = .exn .runtime s1 from h1] at h
      cases h

/-- C75: any values of any types, dumped one after the other into a file, are loaded
back from it one after the other, from where the first one starts; the file may
have been written to before and after. -/
theorem C75_history {env : Env} {io : OsIO} {xs : List Parcel} {s s' : Sink} (hok : ∀ x ∈ xs, x.Ok env)
    (h : dumpEach (fdWrite io) xs s = .ok () s') (hlen : s'.got.length ≤ env.maxAlloc)
    (after : List UInt8) (hafter : s'.got.length + after.length < HALF) :
    ∃ ms, loadEach env (s'.got ++ after) xs s.got.length = .ok (ms, s'.got.length) ∧ Same env xs ms := by
  obtain ⟨Bs, h1, h2, h3⟩ := dumpEach_fd xs s s' hok h
  rw [h3, List.length_append] at hlen hafter ⊢
  exact loadEach_ok xs Bs s.got after hok h1 h2 hlen hafter

/-- C75: the same when the last of the dumps fails, at any write: what was dumped
before it is loaded back. -/
theorem C75_history_crash {env : Env} {io : OsIO} {xs : List Parcel} {y : Parcel} {s s1 s2 : Sink} {e : Err}
    (hok : ∀ x ∈ xs, x.Ok env) (hy : y.Ok env)
    (h : dumpEach (fdWrite io) xs s = .ok () s1) (hf : dumpFd io y.ty y.mem s1 = .exn e s2)
    (hlen : s2.got.length ≤ env.maxAlloc) :
    ∃ ms, loadEach env s2.got xs s.got.length = .ok (ms, s1.got.length) ∧ Same env xs ms := by
  obtain ⟨B, hB, hfd⟩ := C75_fd hy.ty hy.src
  have hmax := env.hmax
  rcases hfd io s1 with ⟨s', h1, _⟩ | ⟨s', p, r, i, n, h1, _, h2, _⟩
  · rw [h1] at hf; cases hf
  · rw [h1] at hf
    injection hf with _ hs
    subst hs
    rw [h2] at hlen ⊢
    rw [List.length_append] at hlen
    exact C75_history hok h (by omega) p (by simp only [HALF]; omega)

end Verif.Value
