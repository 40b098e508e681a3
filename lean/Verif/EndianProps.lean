import Verif.EndianSem

/-!
C20: byte swapping.
-/

namespace Verif.Endian
open Verif Verif.Layout
set_option linter.unusedSimpArgs false

/-! ### Specification -/

/-- `Scalar t o n`: a value of type `t` has a scalar (number or enum) of `n` bytes at offset `o`. -/
inductive Scalar : Ty → Nat → Nat → Prop where
  | num {n} : Scalar (.num n) 0 n
  | enum {n vs} : Scalar (.enum n vs) 0 n
  | elem {d e i o n} : i < d → Scalar e o n → Scalar (.arr d e) (i * e.size + o) n
  | field {sz fs off t o n} : Fields.Mem off t fs → Scalar t o n → Scalar (.comp sz fs) (off + o) n

mutual
/-- The type can be compiled: numbers of 1, 2, 4 or 8 bytes, enums, and arrays and compounds of them. -/
def Supported : Ty → Prop
  | .num n => n = 1 ∨ n = 2 ∨ n = 4 ∨ n = 8
  | .enum _ _ => True
  | .arr _ e => Supported e
  | .comp _ fs => SupportedF fs
  | _ => False
def SupportedF : Fields → Prop
  | .nil => True
  | .cons _ t r => Supported t ∧ SupportedF r
end

/-! ### the specification function swaps the scalars -/

theorem slice_slice (bs : List UInt8) (a k o n : Nat) (h : o + n ≤ k) :
    slice (slice bs a k) o n = slice bs (a + o) n := by
  simp only [slice, List.drop_take, List.take_take, List.drop_drop]
  rw [Nat.min_eq_left (by omega)]

theorem slice_append_right (a b : List UInt8) (o n : Nat) : slice (a ++ b) (a.length + o) n = slice b o n := by
  simp only [slice]
  rw [← List.drop_drop, List.drop_left' rfl]

theorem slice_append_left (a b : List UInt8) (o n : Nat) (h : o + n ≤ a.length) :
    slice (a ++ b) o n = slice a o n := by
  simp only [slice]
  rw [List.drop_append_of_le_length (by omega), List.take_append_of_le_length (by rw [List.length_drop]; omega)]

theorem slice_all (bs : List UInt8) (n : Nat) (h : bs.length = n) : slice bs 0 n = bs := by
  simp [slice, ← h]

theorem Fields.mem_le {off : Nat} {t : Ty} : ∀ {fs : Fields} {cur n : Nat}, fs.WF cur n → Fields.Mem off t fs →
    off + t.size ≤ n ∧ t.WF
  | .nil, _, _, _, hm => by cases hm
  | .cons off' t' r, cur, n, hw, hm => by
    cases hm with
    | head => exact ⟨fieldsWF_le r hw.2.2, hw.2.1⟩
    | tail hm => exact Fields.mem_le hw.2.2 hm

theorem Scalar.le : ∀ {t : Ty} {o n : Nat}, Scalar t o n → t.WF → o + n ≤ t.size := by
  intro t o n h
  induction h with
  | num => intro _; simp [Ty.size]
  | enum => intro _; simp [Ty.size]
  | @elem d e i o n hi _ ih =>
    intro hw
    rw [arr_size hw]
    have := ih hw.2.2.2
    have h2 : (i + 1) * e.size ≤ d * e.size := Nat.mul_le_mul_right _ hi
    rw [Nat.succ_mul] at h2
    omega
  | @field sz fs off t o n hm _ ih =>
    intro hw
    obtain ⟨h1, h2⟩ := Fields.mem_le hw.2 hm
    have := ih h2
    simp only [Ty.size]
    omega

theorem chunkMap_slice (f : List UInt8 → List UInt8) (k : Nat)
    (hf : ∀ bs : List UInt8, bs.length = k → (f bs).length = k) :
    ∀ (d i : Nat) (bs : List UInt8), bs.length = d * k → i < d →
      slice (chunkMap f k d bs) (i * k) k = f (slice bs (i * k) k)
  | 0, i, bs, _, h => by omega
  | d + 1, i, bs, hl, h => by
    have hk : (d + 1) * k = k + d * k := by rw [Nat.succ_mul, Nat.add_comm]
    have hfl : (f (bs.take k)).length = k := hf _ (by rw [List.length_take]; omega)
    simp only [chunkMap]
    cases i with
    | zero =>
      rw [Nat.zero_mul, slice_append_left _ _ _ _ (by omega), slice_all _ _ hfl]
      simp [slice]
    | succ i =>
      have e : (i + 1) * k = (f (bs.take k)).length + i * k := by rw [hfl, Nat.succ_mul, Nat.add_comm]
      rw [e, slice_append_right, chunkMap_slice f k hf d i _ (by rw [List.length_drop]; omega) (by omega), hfl]
      simp only [slice, List.drop_drop]

theorem swapFields_slice : ∀ (fs : Fields) (cur n : Nat), fs.WF cur n → ∀ (bs : List UInt8), bs.length = n - cur →
    ∀ {off t}, Fields.Mem off t fs →
      slice (swapFields cur fs bs) (off - cur) t.size = swapSpec t (slice bs (off - cur) t.size)
  | .nil, _, _, _, _, _, _, _, hm => by cases hm
  | .cons off' t' r, cur, n, hw, bs, hl, off, t, hm => by
    have hoff : cur ≤ off' := hw.1
    have hend := fieldsWF_le r hw.2.2
    have h1 : (swapSpec t' ((bs.drop (off' - cur)).take t'.size)).length = t'.size :=
      swapSpec_length t' hw.2.1 _ (by rw [List.length_take, List.length_drop]; omega)
    have h0 : (bs.take (off' - cur)).length = off' - cur := by rw [List.length_take]; omega
    simp only [swapFields]
    cases hm with
    | head =>
      rw [List.append_assoc]
      have e := slice_append_right (bs.take (off' - cur)) (swapSpec t' ((bs.drop (off' - cur)).take t'.size)
        ++ swapFields (off' + t'.size) r (bs.drop (off' - cur + t'.size))) 0 t'.size
      rw [h0, Nat.add_zero] at e
      rw [e, slice_append_left _ _ _ _ (by rw [h1]; omega), slice_all _ _ h1]
      rfl
    | tail hm =>
      have hge := mem_ge r hw.2.2 hm
      have e := slice_append_right (bs.take (off' - cur) ++ swapSpec t' ((bs.drop (off' - cur)).take t'.size))
        (swapFields (off' + t'.size) r (bs.drop (off' - cur + t'.size))) (off - (off' + t'.size)) t.size
      rw [List.length_append, h0, h1, show off' - cur + t'.size + (off - (off' + t'.size)) = off - cur by omega] at e
      rw [e, swapFields_slice r _ n hw.2.2 _ (by rw [List.length_drop]; omega) hm]
      congr 1
      simp only [slice, List.drop_drop]
      congr 2
      omega

theorem swapSpec_scalar : ∀ {t : Ty} {o n : Nat}, Scalar t o n → t.WF → ∀ bs : List UInt8, bs.length = t.size →
    slice (swapSpec t bs) o n = (slice bs o n).reverse := by
  intro t o n h
  induction h with
  | num =>
    intro _ bs hl
    simp only [Ty.size] at hl
    simp only [swapSpec]
    rw [slice_all _ _ (by simpa using hl), slice_all _ _ hl]
  | enum =>
    intro _ bs hl
    simp only [Ty.size] at hl
    simp only [swapSpec]
    rw [slice_all _ _ (by simpa using hl), slice_all _ _ hl]
  | @elem d e i o n hi hsc ih =>
    intro hw bs hl
    have hle := hsc.le hw.2.2.2
    have hlen := hl
    rw [arr_size hw] at hlen
    have h2 : (i + 1) * e.size ≤ d * e.size := Nat.mul_le_mul_right _ hi
    rw [Nat.succ_mul] at h2
    simp only [swapSpec]
    rw [← slice_slice _ (i * e.size) e.size o n hle,
      chunkMap_slice _ _ (swapSpec_length e hw.2.2.2) d i bs hlen hi,
      ih hw.2.2.2 _ (slice_length (by omega)), slice_slice _ _ _ _ _ hle]
  | @field sz fs off t o n hm hsc ih =>
    intro hw bs hl
    obtain ⟨h1, h2⟩ := Fields.mem_le hw.2 hm
    have hle := hsc.le h2
    simp only [Ty.size] at hl
    have := swapFields_slice fs 0 sz hw.2 bs (by omega) hm
    rw [Nat.sub_zero] at this
    simp only [swapSpec]
    rw [← slice_slice _ off t.size o n hle, this, ih h2 _ (slice_length (by omega)), slice_slice _ _ _ _ _ hle]

theorem chunkMap_get (f : List UInt8 → List UInt8) (k : Nat) (P : Nat → Prop)
    (hf : ∀ bs : List UInt8, bs.length = k → (f bs).length = k)
    (hg : ∀ j, j < k → P j → ∀ bs : List UInt8, bs.length = k → (f bs)[j]? = bs[j]?) :
    ∀ (d : Nat) (bs : List UInt8), bs.length = d * k → ∀ i j, i < d → j < k → P j →
      (chunkMap f k d bs)[i * k + j]? = bs[i * k + j]?
  | 0, _, _, i, _, h, _, _ => by omega
  | d + 1, bs, hl, i, j, hi, hj, hp => by
    have hk : (d + 1) * k = k + d * k := by rw [Nat.succ_mul, Nat.add_comm]
    have hfl : (f (bs.take k)).length = k := hf _ (by rw [List.length_take]; omega)
    simp only [chunkMap]
    cases i with
    | zero =>
      rw [Nat.zero_mul, Nat.zero_add, List.getElem?_append_left (by omega),
        hg j hj hp _ (by rw [List.length_take]; omega), List.getElem?_take, if_pos hj]
    | succ i =>
      have e : (i + 1) * k + j = k + (i * k + j) := by rw [Nat.succ_mul]; omega
      rw [e, List.getElem?_append_right (by omega), hfl, show k + (i * k + j) - k = i * k + j by omega,
        chunkMap_get f k P hf hg d _ (by rw [List.length_drop]; omega) i j (by omega) hj hp, List.getElem?_drop]

mutual
theorem swapSpec_other : ∀ (t : Ty), t.WF → ∀ (bs : List UInt8), bs.length = t.size → ∀ i, i < t.size →
    (∀ o n, Scalar t o n → ¬ (o ≤ i ∧ i < o + n)) → (swapSpec t bs)[i]? = bs[i]?
  | .num n, _, bs, _, i, hi, h => absurd ⟨Nat.zero_le _, by simpa [Ty.size] using hi⟩ (h 0 n .num)
  | .enum n vs, _, bs, _, i, hi, h => absurd ⟨Nat.zero_le _, by simpa [Ty.size] using hi⟩ (h 0 n .enum)
  | .arr d e, hw, bs, hl, i, hi, h => by
    rw [arr_size hw] at hl hi
    have hpos : 0 < e.size := hw.2.1
    have hq : i / e.size < d := Nat.div_lt_of_lt_mul (by rw [Nat.mul_comm]; exact hi)
    have hm : i % e.size < e.size := Nat.mod_lt _ hpos
    have hdm : i / e.size * e.size + i % e.size = i := by rw [Nat.mul_comm]; exact Nat.div_add_mod i e.size
    simp only [swapSpec]
    have := chunkMap_get (swapSpec e) e.size (fun j => ∀ o n, Scalar e o n → ¬ (o ≤ j ∧ j < o + n))
      (swapSpec_length e hw.2.2.2) (fun j hj hp bs hb => swapSpec_other e hw.2.2.2 bs hb j hj hp)
      d bs hl (i / e.size) (i % e.size) hq hm (fun o n hs hc => h _ _ (.elem hq hs) (by omega))
    rw [hdm] at this
    exact this
  | .comp sz fs, hw, bs, hl, i, hi, h => by
    simp only [Ty.size] at hl hi
    simp only [swapSpec]
    have := swapFields_other fs 0 sz hw.2 bs (by omega) i (by omega)
      (fun off t hm o n hs hc => h _ _ (.field hm hs) (by omega))
    simpa using this
  | .vec _ _, _, _, _, _, _, _ => by simp [swapSpec]
  | .str _, _, _, _, _, _, _ => by simp [swapSpec]
  | .ptr _, _, _, _, _, _, _ => by simp [swapSpec]
  | .opaq _, _, _, _, _, _, _ => by simp [swapSpec]
theorem swapFields_other : ∀ (fs : Fields) (cur n : Nat), fs.WF cur n → ∀ (bs : List UInt8), bs.length = n - cur →
    ∀ i, i < n - cur →
    (∀ off t, Fields.Mem off t fs → ∀ o n, Scalar t o n → ¬ (off + o ≤ cur + i ∧ cur + i < off + o + n)) →
    (swapFields cur fs bs)[i]? = bs[i]?
  | .nil, _, _, _, _, _, _, _, _ => by simp [swapFields]
  | .cons off t r, cur, n, hw, bs, hl, i, hi, h => by
    have hoff : cur ≤ off := hw.1
    have hend := fieldsWF_le r hw.2.2
    have hbl : ((bs.drop (off - cur)).take t.size).length = t.size := by
      rw [List.length_take, List.length_drop]; omega
    have h1 := swapSpec_length t hw.2.1 _ hbl
    have h0 : (bs.take (off - cur)).length = off - cur := by rw [List.length_take]; omega
    simp only [swapFields]
    by_cases c1 : i < off - cur
    · rw [List.append_assoc, List.getElem?_append_left (by omega), List.getElem?_take, if_pos c1]
    · by_cases c2 : i < off - cur + t.size
      · rw [List.getElem?_append_left (by rw [List.length_append, h0, h1]; exact c2),
          List.getElem?_append_right (by omega), h0]
        rw [swapSpec_other t hw.2.1 _ hbl (i - (off - cur)) (by omega)
          (fun o n' hs hc => h off t .head o n' hs (by omega))]
        rw [List.getElem?_take, if_pos (by omega), List.getElem?_drop]
        congr 1; omega
      · rw [List.getElem?_append_right (by rw [List.length_append, h0, h1]; omega), List.length_append, h0, h1]
        rw [swapFields_other r (off + t.size) n hw.2.2 _ (by rw [List.length_drop]; omega) _ (by omega)
          (fun off' t' hm o n' hs hc => h off' t' (.tail hm) o n' hs (by omega))]
        rw [List.getElem?_drop]
        congr 1; omega
end

theorem advF_mono : ∀ (fs : Fields) (cur n : Nat), fs.WF cur n → SwapOkF fs → ∀ {off t}, Fields.Mem off t fs →
    off + advT t ≤ advF cur fs
  | .nil, _, _, _, _, _, _, hm => by cases hm
  | .cons off' t' .nil, cur, n, hw, h, off, t, hm => by
    cases hm with
    | head => simp [advF]
    | tail hm => cases hm
  | .cons off' t' (.cons off'' t'' r), cur, n, hw, h, off, t, hm => by
    simp only [advF]
    cases hm with
    | head =>
      have h1 := le_advF (.cons off'' t'' r) (off' + t'.size) n hw.2.2
      have h2 := advT_le t' hw.2.1 h.1
      omega
    | tail hm => exact advF_mono _ _ n hw.2.2 h.2.2 hm

theorem Fields.mem_swapOk {off : Nat} {t : Ty} : ∀ {fs : Fields}, SwapOkF fs → Fields.Mem off t fs → SwapOk t
  | .nil, _, hm => by cases hm
  | .cons off' t' r, h, hm => by
    cases hm with
    | head => exact h.1
    | tail hm => exact Fields.mem_swapOk h.2.2 hm

theorem Scalar.le_adv : ∀ {t : Ty} {o n : Nat}, Scalar t o n → t.WF → SwapOk t → o + n ≤ advT t := by
  intro t o n h
  induction h with
  | num => intro _ _; simp [advT]
  | enum => intro _ h; simp only [SwapOk] at h; simp [advT, h]
  | @elem d e i o n hi hsc _ =>
    intro hw h
    simp only [SwapOk] at h
    have := (Scalar.elem hi hsc).le hw
    rw [arr_size hw] at this
    simp only [advT, h.1]
    exact this
  | @field sz fs off t o n hm _ ih =>
    intro hw h
    have h2 := (Fields.mem_le hw.2 hm).2
    have := ih h2 (Fields.mem_swapOk h hm)
    have h3 := advF_mono fs 0 sz hw.2 h hm
    simp only [advT]
    omega

/-! ### the properties -/

/-- The compiled swap succeeds, reverses the bytes of every scalar, and copies every other byte - except that bytes
after the end of the last field of the value keep what the output held. -/
theorem C20_swap_partial (t : Ty) (hw : t.WF) (hs : SwapOk t) (hl : t.size < 2 ^ 31) (inp out : List UInt8)
    (hi : inp.length = t.size) (ho : out.length = t.size) :
    ∃ r, endianSwap t inp out = .ok r ∧ r.length = t.size ∧
      (∀ o n, Scalar t o n → (r.drop o).take n = ((inp.drop o).take n).reverse) ∧
      (∀ i, i < t.size → (∀ o n, Scalar t o n → ¬ (o ≤ i ∧ i < o + n)) →
        r[i]? = inp[i]? ∨ (advT t ≤ i ∧ r[i]? = out[i]?)) := by
  have hadv := advT_le t hw hs
  have hlen := swapSpec_length t hw inp hi
  refine ⟨_, endianSwap_eq t hw hs hl inp out hi ho, ?_, ?_, ?_⟩
  · rw [List.length_append, List.length_take, List.length_drop, hlen, ho]; omega
  · intro o n hsc
    have h1 := hsc.le_adv hw hs
    have h2 := swapSpec_scalar hsc hw inp hi
    have h3 : slice ((swapSpec t inp).take (advT t) ++ out.drop (advT t)) o n = slice (swapSpec t inp) o n := by
      rw [slice_append_left _ _ _ _ (by rw [List.length_take, hlen]; omega)]
      have : (swapSpec t inp).take (advT t) = slice (swapSpec t inp) 0 (advT t) := by simp [slice]
      rw [this, slice_slice _ _ _ _ _ h1, Nat.zero_add]
    exact h3.trans h2
  · intro i hi' hno
    have h2 := swapSpec_other t hw inp hi i hi' hno
    by_cases hc : i < advT t
    · left
      rw [List.getElem?_append_left (by rw [List.length_take, hlen]; omega), List.getElem?_take, if_pos hc]
      exact h2
    · right
      refine ⟨by omega, ?_⟩
      rw [List.getElem?_append_right (by rw [List.length_take]; omega), List.length_take, hlen,
        Nat.min_eq_left hadv, List.getElem?_drop]
      congr 1; omega

/-- Swapping twice gives back every scalar; when the last field ends the value, it gives back the whole value. -/
theorem C20_involution_partial (t : Ty) (hw : t.WF) (hs : SwapOk t) (hl : t.size < 2 ^ 31)
    (inp out out2 : List UInt8) (hi : inp.length = t.size) (ho : out.length = t.size) (ho2 : out2.length = t.size) :
    ∃ r r2, endianSwap t inp out = .ok r ∧ endianSwap t r out2 = .ok r2 ∧
      (∀ o n, Scalar t o n → (r2.drop o).take n = (inp.drop o).take n) ∧
      (advT t = t.size → r2 = inp) := by
  obtain ⟨r, h1, h2, h3, h4⟩ := C20_swap_partial t hw hs hl inp out hi ho
  obtain ⟨r2, k1, k2, k3, k4⟩ := C20_swap_partial t hw hs hl r out2 h2 ho2
  have hsc : ∀ o n, Scalar t o n → (r2.drop o).take n = (inp.drop o).take n := by
    intro o n h
    rw [k3 o n h, h3 o n h, List.reverse_reverse]
  refine ⟨r, r2, h1, k1, hsc, ?_⟩
  intro hadv
  apply List.ext_getElem?
  intro i
  by_cases hlt : i < t.size
  · by_cases hin : ∃ o n, Scalar t o n ∧ o ≤ i ∧ i < o + n
    · obtain ⟨o, n, h, ha, hb⟩ := hin
      have e := congrArg (fun l : List UInt8 => l[i - o]?) (hsc o n h)
      simp only [List.getElem?_take, List.getElem?_drop] at e
      rw [if_pos (by omega), if_pos (by omega), show o + (i - o) = i by omega] at e
      exact e
    · have hno : ∀ o n, Scalar t o n → ¬ (o ≤ i ∧ i < o + n) := fun o n h hc => hin ⟨o, n, h, hc⟩
      rcases k4 i hlt hno with e | e
      · rcases h4 i hlt hno with e' | e'
        · rw [e, e']
        · omega
      · omega
  · rw [List.getElem?_eq_none (by omega), List.getElem?_eq_none (by omega)]

/-- On a single number of 2, 4 or 8 bytes the swap is exactly the reversal (1 byte: the copy). -/
theorem C20_scalar (n : Nat) (hn : n = 1 ∨ n = 2 ∨ n = 4 ∨ n = 8) (inp out : List UInt8)
    (hi : inp.length = n) (ho : out.length = n) : endianSwap (.num n) inp out = .ok inp.reverse := by
  have hw : (Ty.num n).WF := by rcases hn with rfl | rfl | rfl | rfl <;> simp [Ty.WF, W]
  rw [endianSwap_eq (.num n) hw hn (by simp only [Ty.size, LIM]; omega) inp out hi ho]
  have h1 : (swapSpec (.num n) inp).take (advT (.num n)) = inp.reverse := by
    simp only [swapSpec, advT]; exact List.take_of_length_le (by simp [hi])
  have h2 : out.drop (advT (.num n)) = [] := List.drop_of_length_le (by simp [advT, ho])
  rw [h1, h2, List.append_nil]

/-- `Endian::swap` on 16, 32 and 64-bit integers reverses the bytes of their memory representation, and is an
involution on it. -/
theorem C20_integer_swap :
    (∀ bs : List UInt8, bs.length = 2 → swapMem2 bs = bs.reverse ∧ swapMem2 (swapMem2 bs) = bs) ∧
    (∀ bs : List UInt8, bs.length = 4 → swapMem4 bs = bs.reverse ∧ swapMem4 (swapMem4 bs) = bs) ∧
    (∀ bs : List UInt8, bs.length = 8 → swapMem8 bs = bs.reverse ∧ swapMem8 (swapMem8 bs) = bs) := by
  refine ⟨?_, ?_, ?_⟩
  · intro bs h
    match bs, h with
    | [a, b], _ => simp [swapMem2_reverse]
  · intro bs h
    match bs, h with
    | [a, b, c, d], _ => simp [swapMem4_reverse]
  · intro bs h
    match bs, h with
    | [a, b, c, d, e, f, g, i], _ => simp [swapMem8_reverse]

/-! ### rejected types -/

theorem skipW_len (c : List Nat) (n : Nat) : c.length ≤ (skipW c n).length := by
  unfold skipW
  split
  · rename_i h; simp only [List.length_append, List.length_take, List.length_cons, List.length_nil]; omega
  · simp

mutual
/-- outcome of the compilation: a longer program or `UnsupportedEndianSwap` -/
theorem compile_cases : ∀ (t : Ty) (x : Nat) (c : List Nat),
    (∃ c', compile x c t = .ok c' ∧ c.length ≤ c'.length ∧ (isArr t = true → c.length + 2 ≤ c'.length)) ∨
      compile x c t = .exn .runtime
  | .num n, x, c => by
    simp only [compile, isArr, Bool.false_eq_true, false_implies, and_true]
    split
    · exact Or.inl ⟨_, rfl, skipW_len _ _⟩
    · split
      · exact Or.inl ⟨_, rfl, by simp⟩
      · split
        · exact Or.inl ⟨_, rfl, by simp⟩
        · split
          · exact Or.inl ⟨_, rfl, by simp⟩
          · exact Or.inr rfl
  | .enum n vs, x, c => by
    simp only [compile, isArr, Bool.false_eq_true, false_implies, and_true]
    exact Or.inl ⟨_, rfl, by simp⟩
  | .arr d e, x, c => by
    have ha : isArr (.arr d e) = true := rfl
    simp only [compile, ha, true_implies]
    by_cases he : isArr e = true
    · rw [if_pos he]
      rcases compile_cases e x c with ⟨c', h1, h2, h3⟩ | h
      · left
        have h3 := h3 he
        rw [h1, Res.bind_ok]
        unfold mulAt
        rw [List.getElem?_eq_getElem (by omega)]
        exact ⟨_, rfl, by simpa using h2, by simpa using h3⟩
      · right; rw [h]; rfl
    · rw [if_neg he]
      rcases compile_cases e x (c ++ [F_ARRAY, d, e.size]) with ⟨c', h1, h2, h3⟩ | h
      · left
        simp only [List.length_append, List.length_cons, List.length_nil] at h2
        rw [h1, Res.bind_ok]
        by_cases hc : c'.length = c.length + 3 + 2 ∧ c'[c.length + 3]? = some F_SKIP
        · rw [if_pos hc, List.getElem?_eq_getElem (by omega)]
          refine ⟨_, rfl, ?_, ?_⟩ <;> simp only [List.length_append, List.length_take, List.length_cons, List.length_nil] <;> omega
        · rw [if_neg hc]
          refine ⟨_, rfl, ?_, ?_⟩ <;> simp only [List.length_append, List.length_cons, List.length_nil] <;> omega
      · right; rw [h]; rfl
  | .comp n fs, x, c => by
    simp only [compile, isArr, Bool.false_eq_true, false_implies, and_true]
    exact compileF_cases fs x x c
  | .vec _ _, _, _ => Or.inr rfl
  | .str _, _, _ => Or.inr rfl
  | .ptr _, _, _ => Or.inr rfl
  | .opaq _, _, _ => Or.inr rfl
theorem compileF_cases : ∀ (fs : Fields) (base x : Nat) (c : List Nat),
    (∃ c', compileF base x c fs = .ok c' ∧ c.length ≤ c'.length) ∨ compileF base x c fs = .exn .runtime
  | .nil, _, _, c => Or.inl ⟨c, rfl, Nat.le_refl _⟩
  | .cons off t r, base, x, c => by
    simp only [compileF]
    by_cases hn : wadd base off < x
    · rw [if_pos hn]; exact compileF_cases r base x c
    · rw [if_neg hn]
      have hlen : c.length ≤ (if wadd base off > x then skipW c (wsub (wadd base off) x) else c).length := by
        split
        · exact skipW_len _ _
        · exact Nat.le_refl _
      generalize (if wadd base off > x then skipW c (wsub (wadd base off) x) else c) = c0 at *
      rcases compile_cases t (wadd base off) c0 with ⟨c', h1, h2, _⟩ | h
      · rw [h1, Res.bind_ok]
        rcases compileF_cases r base (wadd (wadd base off) t.size) c' with ⟨c'', k1, k2⟩ | h
        · exact Or.inl ⟨c'', k1, by omega⟩
        · exact Or.inr h
      · right; rw [h]; rfl
end

mutual
theorem compile_unsupported : ∀ (t : Ty), t.WF → ¬ Supported t → ∀ x c, x + t.size < W →
    compile x c t = .exn .runtime
  | .num n, _, h, x, c, _ => by
    simp only [Supported, not_or] at h
    simp [compile, h.1, h.2.1, h.2.2.1, h.2.2.2]
  | .enum _ _, _, h, _, _, _ => by simp [Supported] at h
  | .arr d e, hw, h, x, c, hx => by
    simp only [Supported] at h
    rw [arr_size hw] at hx
    have hle : e.size ≤ d * e.size := Nat.le_mul_of_pos_left _ hw.1
    simp only [compile]
    by_cases he : isArr e = true
    · rw [if_pos he, compile_unsupported e hw.2.2.2 h _ _ (by omega)]; rfl
    · rw [if_neg he, compile_unsupported e hw.2.2.2 h _ _ (by omega)]; rfl
  | .comp n fs, hw, h, x, c, hx => by
    simp only [compile]
    exact compileF_unsupported fs 0 n hw.2 h x c hx
  | .vec _ _, _, _, _, _, _ => rfl
  | .str _, _, _, _, _, _ => rfl
  | .ptr _, _, _, _, _, _ => rfl
  | .opaq _, _, _, _, _, _ => rfl
theorem compileF_unsupported : ∀ (fs : Fields) (cur n : Nat), fs.WF cur n → ¬ SupportedF fs → ∀ base c,
    base + n < W → compileF base (base + cur) c fs = .exn .runtime
  | .nil, _, _, _, h, _, _, _ => absurd trivial h
  | .cons off t r, cur, n, hw, h, base, c, hx => by
    have hoff : cur ≤ off := hw.1
    have hend := fieldsWF_le r hw.2.2
    simp only [compileF]
    rw [wadd_eq (a := base) (b := off) (by omega), if_neg (by omega)]
    generalize (if base + off > base + cur then skipW c (wsub (base + off) (base + cur)) else c) = c0 at *
    by_cases ht : Supported t
    · have hr : ¬ SupportedF r := fun hr => h ⟨ht, hr⟩
      rcases compile_cases t (base + off) c0 with ⟨c', h1, _, _⟩ | h1
      · rw [h1, Res.bind_ok, wadd_eq (by omega), Nat.add_assoc base off]
        exact compileF_unsupported r _ n hw.2.2 hr base c' hx
      · rw [h1]; rfl
    · rw [compile_unsupported t hw.2.1 ht _ _ (by omega)]; rfl
end

/-- Types that hold a pointer, an opaque, a container, or a number of another size are rejected with an exception
and nothing is written; every type either compiles or is rejected. -/
theorem C20_unsupported_rejected (t : Ty) (hw : t.WF) :
    (¬ Supported t → ∀ inp out, endianSwap t inp out = .exn .runtime) ∧
    ((∃ c, compileTop t = .ok c) ∨ compileTop t = .exn .runtime) := by
  refine ⟨fun h inp out => ?_, ?_⟩
  · have := compile_unsupported t hw h 0 [] (by have := wf_size_lt hw; omega)
    simp only [endianSwap, compileTop, this, Res.bind_exn]
  · rcases compile_cases t 0 [] with ⟨c, h, _⟩ | h
    · exact Or.inl ⟨c, h⟩
    · exact Or.inr h

/-! ### non-vacuity and counterexamples -/

/-- `struct { uint16 a; struct { uint32 b; enum c; } d[2][3]; double e; uint8 f; }` -/
def sampleT : Ty :=
  .comp 72 (.cons 0 (.num 2) (.cons 4 (.arr 2 (.arr 3 (.comp 8 (.cons 0 (.num 4) (.cons 4 (.enum 4 [0, 1]) .nil)))))
    (.cons 56 (.num 8) (.cons 64 (.num 1) .nil))))

example : sampleT.WF ∧ SwapOk sampleT ∧ sampleT.size < 2 ^ 31 := by
  simp [sampleT, Ty.WF, Fields.WF, SwapOk, SwapOkF, advT, advF, Ty.size, wmul, W]

example : Scalar sampleT 56 8 ∧ Scalar sampleT 44 4 :=
  ⟨.field (off := 56) (o := 0) (.tail (.tail .head)) .num,
   .field (off := 4) (o := 40) (.tail .head)
    (.elem (i := 1) (o := 16) (by decide) (.elem (i := 2) (o := 0) (by decide) (.field (off := 0) (o := 0) .head .num)))⟩

/-- the elements of an array: `struct { uint32 a; uint8 b; /* 3 bytes of padding */ }` -/
def padT : Ty := .arr 2 (.comp 8 (.cons 0 (.num 4) (.cons 4 (.num 1) .nil)))

def bytes16 : List UInt8 := [0, 1, 2, 3, 4, 5, 6, 7, 8, 9, 10, 11, 12, 13, 14, 15]

/-- The full claim is false of the code: the trailing padding of an array element is not skipped, so that the second
element is written at the wrong place. -/
theorem C20_trailing_padding_counterexample :
    padT.WF ∧ Supported padT ∧ Scalar padT 8 4 ∧
    ∃ r, endianSwap padT bytes16 (List.replicate 16 0) = .ok r ∧
      (r.drop 8).take 4 ≠ ((bytes16.drop 8).take 4).reverse := by
  refine ⟨by simp [padT, Ty.WF, Fields.WF, Ty.size, wmul, W], by simp [padT, Supported, SupportedF],
    .elem (i := 1) (o := 0) (by decide) (.field (off := 0) (o := 0) .head .num),
    [3, 2, 1, 0, 4, 8, 7, 6, 5, 9, 0, 0, 0, 0, 0, 0], by decide +kernel, by decide⟩

/-- Enums are swapped as 4 bytes whatever their size: a 1-byte enum makes the swap access memory outside the value. -/
theorem C20_small_enum_counterexample :
    endianSwap (.enum 1 [0]) [7] [0] = .ub ∧ endianSwap (.enum 8 [0]) [0, 1, 2, 3, 4, 5, 6, 7] (List.replicate 8 0)
      = .ok [3, 2, 1, 0, 0, 0, 0, 0] := by
  decide +kernel

/-- An array of dimension 0 that is not only padding uses an uninitialised iterator. -/
theorem C20_empty_array_counterexample : endianSwap (.arr 0 (.num 4)) [] [] = .ub := by decide +kernel

/-- Using the same value as input and output destroys 2-byte numbers and enums. -/
theorem C20_in_place_counterexample : endianSwapInPlace (.num 2) [1, 2] = .ok [2, 2] := by decide +kernel

/-! ### The theorems on concrete cases -/

theorem sampleT_ok : sampleT.WF ∧ SwapOk sampleT ∧ sampleT.size < 2 ^ 31 := by
  simp [sampleT, Ty.WF, Fields.WF, SwapOk, SwapOkF, advT, advF, Ty.size, wmul, W]

example := C20_swap_partial sampleT sampleT_ok.1 sampleT_ok.2.1 sampleT_ok.2.2 (List.replicate 72 1) (List.replicate 72 0)
  rfl rfl

example := C20_involution_partial sampleT sampleT_ok.1 sampleT_ok.2.1 sampleT_ok.2.2 (List.replicate 72 1)
  (List.replicate 72 0) (List.replicate 72 2) rfl rfl rfl

example := C20_scalar 4 (by decide) [1, 2, 3, 4] [0, 0, 0, 0] rfl rfl

/-- an array of structures with a 16-byte number is refused -/
example : endianSwap (.arr 2 (.comp 16 (.cons 0 (.num 16) .nil))) [] [] = .exn .runtime :=
  (C20_unsupported_rejected _ (by simp [Ty.WF, Fields.WF, Ty.size, W])).1 (by simp [Supported, SupportedF]) [] []

end Verif.Endian
