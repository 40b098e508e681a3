import Verif.Streams
import Verif.ValueExamples

/-!
Concrete cases for C75, and what does not hold.
-/

namespace Verif.Value
open Verif Verif.Layout

/-- a system which takes everything -/
def ioAll : OsIO := fun _ n => some n
/-- a system whose second write fails, once (e.g. a full disk on which place is made) -/
def ioOnce : OsIO := fun i n => if i = 1 then none else some n
/-- a system whose second write takes one byte only (e.g. a signal, a non-blocking socket) -/
def ioShort : OsIO := fun i n => if i = 1 then some (min 1 n) else some n

def sink0 : Sink := ⟨[42], 0, false⟩

theorem ioAll_taken : ∀ i n, Taken ioAll i n := fun _ n => ⟨n, rfl, Nat.le_refl n⟩

/-- the bytes of a value are unique as soon as they fit in memory -/
theorem Bytes.eq {env : Env} {t : Ty} {m : Mem} {v : List AV} {B B' : List UInt8} (h : Bytes env t m v B)
    (hl : B.length ≤ env.maxAlloc) (hd : dump env t m [] = .ok () B') : B = B' := by
  have := h.2 hl
  rw [hd] at this
  injection this with _ h
  exact h.symm

example := C75_any_stream (w := fdWrite ioOnce) rec0_ok (mem0_valid 9)
  (fun bs s => by
    unfold fdWrite ioOnce
    by_cases h : s.calls = 1
    · simp [h]
    · simp [h])
example := C75_fd rec0_ok (mem0_valid 9)
example := C75_fd_returns rec0_ok (mem0_valid 9) ioAll_taken sink0
example := C75_file_partial rec0_ok (mem0_valid 9)
example := C75_ostream rec0_ok (mem0_valid 9)

example : dumpFd ioAll rec0 (mem0 9) sink0 = .ok () ⟨42 :: dump0, 8, false⟩ := rfl
/-- an error or a short write: the exception is raised, and the file holds a beginning of the dump -/
example : dumpFd ioOnce rec0 (mem0 9) sink0 = .exn .runtime ⟨42 :: dump0.take 8, 2, false⟩ := rfl
example : dumpFd ioShort rec0 (mem0 9) sink0 = .exn .runtime ⟨42 :: dump0.take 9, 2, false⟩ := rfl
example : dumpOstream ioOnce rec0 (mem0 9) sink0 = .ok () ⟨42 :: dump0.take 8, 2, true⟩ := rfl

/-- C75 does not hold of `FILE*`: a write fails, `dump` returns, and the file is not
a beginning of the dump but has a hole: no reader can get the value back. -/
theorem C75_cex_file : ∃ (io : OsIO) (s s' : Sink), s.got = [] ∧ s.bad = false ∧ dumpFile io rec0 (mem0 9) s = .ok () s' ∧
    (∀ B, Bytes env0 rec0 (mem0 9) (val0 9) B → B.length ≤ 1048576 → ¬ s'.got <+: B) := by
  refine ⟨ioOnce, ⟨[], 0, false⟩, _, rfl, rfl, rfl, ?_⟩
  intro B hB hl
  have := hB.eq hl dump0_eq
  subst this
  show ¬ _ <+: dump0
  decide +kernel

/-- C75 does not hold of a file descriptor: a write which is not taken in full is not
an error for the operating system, which asks to be called again for the rest
(a pipe, a socket, a signal); `dump` raises, and the file is left with a part of
the value. -/
theorem C75_cex_short : ∃ (io : OsIO) (s s' : Sink), (∀ i n, n ≠ 0 → ∃ k, io i n = some k ∧ k ≠ 0) ∧ s.got = [] ∧
    dumpFd io rec0 (mem0 9) s = .exn .runtime s' ∧ s'.got.length = 9 := by
  refine ⟨ioShort, ⟨[], 0, false⟩, _, ?_, rfl, rfl, rfl⟩
  intro i n hn
  unfold ioShort
  split
  · exact ⟨_, rfl, by omega⟩
  · exact ⟨_, rfl, hn⟩

/-- C75 does not hold of a `std::ostream` either: `dump` returns although nothing was
written. -/
theorem C75_cex_ostream : ∃ (io : OsIO) (s s' : Sink), s.bad = false ∧ dumpOstream io rec0 (mem0 9) s = .ok () s' ∧
    s'.got = s.got ∧ dump0 ≠ [] :=
  ⟨fun _ _ => none, sink0, _, rfl, rfl, rfl, by decide⟩

/-! ### Reading back -/

/-- a destination for `rec0` -/
theorem dst0 : ∃ dst w, Valid env0 rec0 dst w ∧ Clr w := by
  obtain ⟨dst, w, _, h2, h3, _⟩ := C17_init (env := env0) rec0_ok (List.replicate 64 255) rfl
  exact ⟨dst, w, h2, h3⟩

example : ∃ dst w dst' v', Valid env0 rec0 dst w ∧
    loadFrom env0 rec0 ([1, 2, 3] ++ dump0 ++ [4]) 3 dst = .ok () (dst', 3 + dump0.length) ∧
    Valid env0 rec0 dst' v' ∧ VEq (kinds rec0) (val0 9) v' := by
  obtain ⟨dst, w, h1, h2⟩ := dst0
  obtain ⟨dst', v', h⟩ := C75_load_from rec0_ok (mem0_valid 9) dump0_eq [1, 2, 3] [4] (by decide) h1 h2
  exact ⟨dst, w, dst', v', h1, h⟩

theorem str_ok : OkType (.str 32) := by simp [OkType, Ty.WF, Ty.HasLayout, Ty.size, HALF, W]
theorem str_valid (b : List UInt8) (h : b.length ≤ 1048576) :
    Valid env0 (.str 32) (.str b :: (List.replicate 31 .tail ++ [])) [.s b] := .str (by decide) h .nil

/-- two values of different types in one file, written to before and after -/
example : ∃ dst w ms, loadEach env0 ([42] ++ dump0 ++ [1, 0, 0, 0, 0, 0, 0, 0, 65] ++ [7, 7])
      [⟨rec0, mem0 9, val0 9, dst, w⟩, ⟨.str 32, .str [65] :: (List.replicate 31 .tail ++ []), [.s [65]],
        .str [] :: (List.replicate 31 .tail ++ []), [.s []]⟩] 1 = .ok (ms, 56) ∧ ms.length = 2 := by
  obtain ⟨dst, w, h1, h2⟩ := dst0
  obtain ⟨ms, h3, h4⟩ := C75_history (env := env0) (io := ioAll) (s := sink0)
    (s' := ⟨[42] ++ dump0 ++ [1, 0, 0, 0, 0, 0, 0, 0, 65], 10, false⟩)
    (xs := [⟨rec0, mem0 9, val0 9, dst, w⟩, ⟨.str 32, .str [65] :: (List.replicate 31 .tail ++ []), [.s [65]],
        .str [] :: (List.replicate 31 .tail ++ []), [.s []]⟩])
    (by
      intro x hx
      rcases List.mem_cons.mp hx with rfl | hx
      · exact ⟨rec0_ok, mem0_valid 9, h1, h2⟩
      · rcases List.mem_cons.mp hx with rfl | hx
        · exact ⟨str_ok, str_valid _ (by decide), str_valid _ (by decide), by simp [Clr]⟩
        · cases hx) rfl (by decide) [7, 7] (by decide)
  refine ⟨dst, w, ms, h3, ?_⟩
  cases h4 with
  | cons _ _ h => cases h with
    | cons _ _ h => cases h; rfl

/-- the disk is full during the second dump -/
example : ∃ dst w ms, loadEach env0 ([42, 1, 0, 0, 0, 0, 0, 0, 0, 65] ++ dump0.take 8)
      [⟨.str 32, .str [65] :: (List.replicate 31 .tail ++ []), [.s [65]],
        .str [] :: (List.replicate 31 .tail ++ []), [.s []]⟩] 1 = .ok (ms, 10) ∧ Valid env0 rec0 dst w := by
  obtain ⟨dst, w, h1, h2⟩ := dst0
  obtain ⟨ms, h3, _⟩ := C75_history_crash (env := env0) (io := fun i n => if i = 3 then none else some n) (s := sink0)
    (s1 := ⟨[42, 1, 0, 0, 0, 0, 0, 0, 0, 65], 2, false⟩)
    (xs := [⟨.str 32, .str [65] :: (List.replicate 31 .tail ++ []), [.s [65]],
        .str [] :: (List.replicate 31 .tail ++ []), [.s []]⟩])
    (y := ⟨rec0, mem0 9, val0 9, dst, w⟩)
    (by
      intro x hx
      rcases List.mem_cons.mp hx with rfl | hx
      · exact ⟨str_ok, str_valid _ (by decide), str_valid _ (by decide), by simp [Clr]⟩
      · cases hx) ⟨rec0_ok, mem0_valid 9, h1, h2⟩ rfl
    (e := .runtime) (s2 := ⟨[42, 1, 0, 0, 0, 0, 0, 0, 0, 65] ++ dump0.take 8, 4, false⟩) rfl (by decide)
  exact ⟨dst, w, ms, h3, h1⟩

end Verif.Value
