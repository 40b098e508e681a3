import Verif.ValueLoad
import Verif.ValueCompare

/-! Properties C10 to C18: dump, load, copy, compare, init, destroy, zero. -/

namespace Verif.Value
open Verif Verif.Layout

/-- types on which the value operations are defined, of a size that fits in memory -/
def OkType (t : Ty) : Prop := t.WF ∧ t.HasLayout false false ∧ t.size < HALF

/-- a layout without padding (merged), and the padding after it -/
theorem lay_merged {env : Env} {t : Ty} (hw : t.WF) {m : Mem} {v : List AV} (h : Valid env t m v) :
    ∃ (cells : Mem) (vx : List AV) (pads : List UInt8), m = cells ++ pads.map .byte ∧ v = vx ++ pads.map .b ∧
      Abs env (layL true true t).expand cells vx := by
  obtain ⟨k, h1, _, _, X, h4, h5⟩ := lay_veq true true t hw
  have h := (h1 env m v).mpr h
  obtain ⟨m1, m2, v1, v2, rfl, rfl, ha, hb⟩ := h.split
  obtain ⟨bs, _, rfl, rfl⟩ := Abs.bytes (Or.inr rfl) hb
  exact ⟨m1, v1, bs, rfl, rfl, ha⟩

theorem expand_np (t : Ty) (hw : t.WF) : ∀ i ∈ (layL true true t).expand, i ≠ .pad := by
  obtain ⟨k, _, _, _, X, h4, h5⟩ := lay_veq true true t hw
  rw [h5]
  intro i hi
  obtain ⟨i', _, rfl⟩ := List.mem_map.mp hi
  cases i' <;> simp [mp]

/-- number of trailing padding bytes that the layout of a type does not describe -/
theorem lay_pad_unique {env : Env} {t : Ty} (hw : t.WF) : ∃ k, (∀ m v (_ : Valid env t m v) (cells : Mem) (vx : List AV) (pads : List UInt8),
      m = cells ++ pads.map .byte → v = vx ++ pads.map .b → Abs env (layL true true t).expand cells vx → pads.length = k) ∧
    (∃ X, kinds t = X ++ List.replicate k .pad ∧ (layL true true t).expand = X.map (mp true)) ∧
    ∀ (cells : Mem) (vx : List AV) (pads : List UInt8), pads.length = k → Abs env (layL true true t).expand cells vx →
      Valid env t (cells ++ pads.map .byte) (vx ++ pads.map .b) := by
  obtain ⟨k, h1, _, _, X, h4, h5⟩ := lay_veq true true t hw
  refine ⟨k, ?_, ⟨X, h4, h5⟩, ?_⟩
  · intro m v hv cells vx pads hm hve ha
    have l1 := hv.length.2
    have l2 := ha.length.2
    rw [h4, hve] at l1
    rw [h5] at l2
    simp at l1 l2
    omega
  · intro cells vx pads hp ha
    refine (h1 env _ _).mp (ha.append ?_)
    rw [← hp]
    exact Abs.ofBytes env (Or.inr rfl) pads

theorem withLayout_ok {σ α : Type} {t : Ty} (ht : OkType t) (s : σ) (k : ML → Out σ α) :
    withLayout t s k = k ⟨(layL true true t).enc, (layI t).enc⟩ := by
  unfold withLayout
  rw [layoutOf_eq false false true true t ht.1 ht.2.1]
  rfl

/-- the dump loop on a value, for any stream -/
theorem dump_walk {S : Type} {w : List UInt8 → S → Out S Unit} {WInv WX} (env : Env) (hw : WriterOk w WInv WX)
    {t : Ty} (ht : OkType t) {cells : Mem} {vx : List AV} {pads : List UInt8}
    (hv : Valid env t (cells ++ pads.map .byte) (vx ++ pads.map .b))
    (ha : Abs env (layL true true t).expand cells vx) (acc : List UInt8) (o : S) (ho : WInv acc o) :
    Tri (walk (dumpI w) ((layL true true t).enc.length + 1) (layL true true t).enc ⟨cells ++ pads.map .byte, 0, o⟩)
      (fun it s => it = [] ∧ WInv (acc ++ encL vx) s.out)
      (fun e s => ∃ p r, acc ++ encL vx = p ++ r ∧ WX p e s.out) := by
  have hl := hv.length.1
  rw [kinds_size t ht.1, List.length_append] at hl
  exact dump_tri env hw _ _ (layL_all false false true true t ht.1 ht.2.1) (layL_pos _ _ t ht.1) cells (pads.map .byte) vx ha
    (expand_np t ht.1) (by have := ht.2.2; omega) acc o ho rfl

/-! ### the streams -/

theorem vecWrite_ok (env : Env) : WriterOk (vecWrite env) (fun acc o => o = acc ∧ acc.length ≤ env.maxAlloc) (fun p e _ => e = .lengthError ∧ env.maxAlloc < p.length) := by
  rintro acc bs s hb ⟨rfl, hi⟩
  unfold vecWrite
  by_cases h : env.maxAlloc < s.length + bs.length
  · rw [if_pos h]; exact ⟨rfl, by simpa using h⟩
  · rw [if_neg h]; exact ⟨rfl, by simp; omega⟩

theorem countWrite_ok : WriterOk countWrite (fun acc n => n = acc.length % W) (fun _ _ _ => False) := by
  intro acc bs n hb hi
  subst hi
  show wadd (acc.length % W) bs.length = (acc ++ bs).length % W
  unfold wadd
  rw [List.length_append, Nat.mod_add_mod]

theorem baWrite_ok (size : Nat) (buf : List UInt8) (hs : size ≤ buf.length) (h32 : size < 4294967296) :
    WriterOk (baWrite size) (fun acc o => acc.length ≤ size ∧ o.current = acc.length ∧ o.buf = acc ++ buf.drop acc.length)
      (fun p _ o => size < p.length ∧ o.buf.drop size = buf.drop size) := by
  intro acc bs o hb ⟨h1, h2, h3⟩
  have e1 : wadd o.current bs.length = acc.length + bs.length := by
    rw [h2, wadd_eq]; simp only [HALF] at hb; unfold W; omega
  unfold baWrite
  rw [e1]
  by_cases hlt : acc.length + bs.length > size
  · rw [if_pos hlt]
    refine ⟨by simpa using hlt, ?_⟩
    rw [h3, List.drop_append, List.drop_eq_nil_of_le h1, List.nil_append, List.drop_drop]
    congr 1; omega
  · rw [if_neg hlt]
    have hlen : o.buf.length = buf.length := by rw [h3]; simp; omega
    by_cases h0 : bs.length = 0
    · have := List.length_eq_zero_iff.mp h0
      subst this
      simp only [List.length_nil, if_true, List.append_nil]
      exact ⟨h1, h2, h3⟩
    · rw [if_neg h0, if_pos (by omega)]
      refine ⟨by simp; omega, ?_, ?_⟩
      · show (o.current + bs.length) % 4294967296 = _
        rw [List.length_append, h2]; omega
      · show o.buf.take o.current ++ bs ++ o.buf.drop (o.current + bs.length) = _
        rw [h2, h3, List.take_left, List.drop_append, List.drop_eq_nil_of_le (by omega), List.nil_append, List.drop_drop,
          List.length_append]
        congr 2; omega

/-! ### C10, C11, C12: dump -/

/-- `B` is the serialised form of the value `v` of type `t`, except for trailing padding bytes -/
def Serial (t : Ty) (v : List AV) (B : List UInt8) : Prop :=
  ∃ (X : List Item) (vx : List AV) (pads : List UInt8), kinds t = X ++ List.replicate pads.length .pad ∧
    vx.length = X.length ∧ v = vx ++ pads.map .b ∧ B = encL vx

/-- everything about dump at once -/
theorem dump_all {env : Env} {t : Ty} (ht : OkType t) {m : Mem} {v : List AV} (hv : Valid env t m v) :
    ∃ (cells : Mem) (vx : List AV) (pads : List UInt8), m = cells ++ pads.map .byte ∧ v = vx ++ pads.map .b ∧
      Abs env (layL true true t).expand cells vx ∧ Serial t v (encL vx) ∧
      (∀ o, o.length ≤ env.maxAlloc → (o.length + (encL vx).length ≤ env.maxAlloc → dump env t m o = .ok () (o ++ encL vx)) ∧
        (env.maxAlloc < o.length + (encL vx).length → ∃ o', dump env t m o = .exn .lengthError o')) ∧
      getDumpSize t m = .ok () ((encL vx).length % W) ∧
      (∀ size buf, size ≤ buf.length → size < 4294967296 →
        ∃ n ba, dumpFixed t m size buf = .ok n ba ∧ ba.buf.drop size = buf.drop size ∧
          ((encL vx).length ≤ size → n = (encL vx).length ∧ ba.buf = encL vx ++ buf.drop (encL vx).length) ∧
          (size < (encL vx).length → n = 0)) := by
  obtain ⟨cells, vx, pads, rfl, rfl, ha⟩ := lay_merged ht.1 hv
  refine ⟨cells, vx, pads, rfl, rfl, ha, ?_, ?_, ?_, ?_⟩
  · obtain ⟨k, h1, ⟨X, h2, h3⟩, _⟩ := lay_pad_unique (env := env) ht.1
    have := h1 _ _ hv cells vx pads rfl rfl ha
    refine ⟨X, vx, pads, by rw [this]; exact h2, ?_, rfl, rfl⟩
    have := ha.length.2
    rw [h3] at this
    simpa using this
  · intro o hol
    have key := dump_walk env (vecWrite_ok env) ht hv ha o o ⟨rfl, hol⟩
    unfold dump
    rw [withLayout_ok ht]
    unfold dumpL
    simp only []
    cases hwk : walk (dumpI (vecWrite env)) ((layL true true t).enc.length + 1) (layL true true t).enc ⟨cells ++ pads.map .byte, 0, o⟩ with
    | ok it s =>
      rw [hwk] at key
      obtain ⟨rfl, h1, h2⟩ := key
      simp only []
      refine ⟨fun _ => by rw [h1], ?_⟩
      intro hgt
      simp only [List.length_append] at h2
      omega
    | exn e s =>
      rw [hwk] at key
      obtain ⟨p, r, h1, rfl, h3⟩ := key
      have := congrArg List.length h1
      simp only [List.length_append] at this
      exact ⟨fun h => by omega, fun _ => ⟨_, rfl⟩⟩
    | ub => rw [hwk] at key; exact key.elim
    | fuel => rw [hwk] at key; exact key.elim
  · have key := dump_walk env countWrite_ok ht hv ha [] 0 rfl
    unfold getDumpSize
    rw [withLayout_ok ht]
    simp only []
    cases hwk : walk (dumpI countWrite) ((layL true true t).enc.length + 1) (layL true true t).enc ⟨cells ++ pads.map .byte, 0, 0⟩ with
    | ok it s =>
      rw [hwk] at key
      simp only []
      rw [key.2]; rfl
    | exn e s => rw [hwk] at key; obtain ⟨_, _, _, h⟩ := key; exact h.elim
    | ub => rw [hwk] at key; exact key.elim
    | fuel => rw [hwk] at key; exact key.elim
  · intro size buf hs h32
    have key := dump_walk env (baWrite_ok size buf hs h32) ht hv ha [] ⟨buf, 0⟩ ⟨Nat.zero_le _, rfl, rfl⟩
    unfold dumpFixed
    rw [withLayout_ok ht]
    simp only []
    cases hwk : walk (dumpI (baWrite size)) ((layL true true t).enc.length + 1) (layL true true t).enc ⟨cells ++ pads.map .byte, 0, ⟨buf, 0⟩⟩ with
    | ok it s =>
      rw [hwk] at key
      obtain ⟨rfl, h1, h2, h3⟩ := key
      simp only [List.nil_append] at h1 h2 h3 ⊢
      refine ⟨_, _, rfl, ?_, ?_, fun h => by omega⟩
      · rw [h3, List.drop_append, List.drop_eq_nil_of_le h1, List.nil_append, List.drop_drop]
        congr 1; omega
      · exact fun _ => ⟨h2, h3⟩
    | exn e s =>
      rw [hwk] at key
      obtain ⟨p, r, h1, h2, h3⟩ := key
      have := congrArg List.length h1
      simp only [List.length_append, List.nil_append] at this
      exact ⟨_, _, rfl, h3, fun h => by omega, fun _ => rfl⟩
    | ub => rw [hwk] at key; exact key.elim
    | fuel => rw [hwk] at key; exact key.elim

/-- what is dumped determines the value, padding included, except the trailing padding; so the serialised form is unique -/
theorem serial_dump {env : Env} {t : Ty} (ht : OkType t) {m : Mem} {v : List AV} (hv : Valid env t m v) {B : List UInt8}
    (h : dump env t m [] = .ok () B) : ∃ (cells : Mem) (vx : List AV) (pads : List UInt8), m = cells ++ pads.map .byte ∧
      v = vx ++ pads.map .b ∧ Abs env (layL true true t).expand cells vx ∧ B = encL vx ∧ B.length ≤ env.maxAlloc ∧ Serial t v B := by
  obtain ⟨cells, vx, pads, h1, h2, h3, h4, h5, _⟩ := dump_all ht hv
  obtain ⟨h6, h7⟩ := h5 [] (Nat.zero_le _)
  by_cases hle : ([] : List UInt8).length + (encL vx).length ≤ env.maxAlloc
  · have := h6 hle
    rw [h] at this
    injection this with _ hB
    simp only [List.nil_append] at hB
    subst hB
    exact ⟨cells, vx, pads, h1, h2, h3, rfl, by simpa using hle, h4⟩
  · obtain ⟨o', ho⟩ := h7 (by omega)
    rw [h] at ho
    cases ho

/-- C11. One number: the bytes that `dump` appends to a vector, what `getDumpSize` returns and what the dump into a fixed
buffer returns. (`getDumpSize` counts modulo 2^64.) -/
theorem C11_dump_size {env : Env} {t : Ty} (ht : OkType t) {m : Mem} {v : List AV} (hv : Valid env t m v) :
    ∃ B, Serial t v B ∧
      (∀ o, o.length + B.length ≤ env.maxAlloc → dump env t m o = .ok () (o ++ B)) ∧
      (B.length < W → getDumpSize t m = .ok () B.length) ∧
      (∀ size buf, size ≤ buf.length → size < 4294967296 → B.length ≤ size →
        ∃ ba, dumpFixed t m size buf = .ok B.length ba) := by
  obtain ⟨cells, vx, pads, h1, h2, h3, h4, h5, h6, h7⟩ := dump_all ht hv
  refine ⟨encL vx, h4, fun o ho => (h5 o (by omega)).1 ho, ?_, ?_⟩
  · intro hlt; rw [h6, Nat.mod_eq_of_lt hlt]
  · intro size buf hs h32 hle
    obtain ⟨n, ba, h8, _, h9, _⟩ := h7 size buf hs h32
    exact ⟨ba, by rw [h8, (h9 hle).1]⟩

/-- C11, consequence: whenever the dump to a vector succeeds, `getDumpSize` is the number of bytes it appended. -/
theorem C11_dump_size_agrees {env : Env} {t : Ty} (ht : OkType t) {m : Mem} {v : List AV} (hv : Valid env t m v)
    {o o' : List UInt8} (ho : o.length ≤ env.maxAlloc) (h : dump env t m o = .ok () o') :
    ∃ n, getDumpSize t m = .ok () n ∧ o'.length = o.length + n ∧ o'.take o.length = o := by
  have hmax : env.maxAlloc < W := by have := env.hmax; unfold W; omega
  obtain ⟨cells, vx, pads, h1, h2, h3, h4, h5, h6, h7⟩ := dump_all ht hv
  obtain ⟨h8, h9⟩ := h5 o ho
  by_cases hle : o.length + (encL vx).length ≤ env.maxAlloc
  · rw [h8 hle] at h
    cases h
    exact ⟨_, by rw [h6, Nat.mod_eq_of_lt (by omega)], by simp, by simp⟩
  · obtain ⟨o', ho⟩ := h9 (by omega)
    rw [h] at ho
    cases ho

/-- C12. The dump into a fixed buffer always returns; nothing at or after index `size` changes; when the serialised value
fits, it is written at the beginning of the buffer, the rest is unchanged and its length is returned; when it does not
fit, 0 is returned. -/
theorem C12_fixed_buffer {env : Env} {t : Ty} (ht : OkType t) {m : Mem} {v : List AV} (hv : Valid env t m v)
    (size : Nat) (buf : List UInt8) (hs : size ≤ buf.length) (h32 : size < 4294967296) :
    ∃ B n ba, Serial t v B ∧ dumpFixed t m size buf = .ok n ba ∧ ba.buf.drop size = buf.drop size ∧
      (B.length ≤ size → n = B.length ∧ ba.buf = B ++ buf.drop B.length) ∧
      (size < B.length → n = 0) := by
  obtain ⟨cells, vx, pads, h1, h2, h3, h4, h5, h6, h7⟩ := dump_all ht hv
  obtain ⟨n, ba, h8, h9⟩ := h7 size buf hs h32
  exact ⟨encL vx, n, ba, h4, h8, h9⟩

/-! ### load -/

/-- `e` is the element type of a vector that occurs in a type -/
inductive VecIn : Ty → Ty → Prop where
  | vec {c e} : VecIn (.vec c e) e
  | elem {c e x} : VecIn e x → VecIn (.vec c e) x
  | arr {d e x} : VecIn e x → VecIn (.arr d e) x
  | field {n fs off t x} : Fields.Mem off t fs → VecIn t x → VecIn (.comp n fs) x

theorem all_mono {P Q : Ty → L → Prop} (h : ∀ c b, P c b → Q c b) : ∀ l : L, l.All P → l.All Q := by
  intro l
  induction l with
  | nil => exact fun _ => trivial
  | mc n k ih => exact ih
  | sk n k ih => exact ih
  | ar n b k ihb ihk => exact fun hl => ⟨ihb hl.1, ihk hl.2⟩
  | co c b k ihb ihk => exact fun hl => ⟨h _ _ hl.1, ihb hl.2.1, ihk hl.2.2⟩

theorem all_and {P Q : Ty → L → Prop} : ∀ l : L, l.All P → l.All Q → l.All (fun c b => P c b ∧ Q c b) := by
  intro l
  induction l with
  | nil => exact fun _ _ => trivial
  | mc n k ih => exact ih
  | sk n k ih => exact ih
  | ar n b k ihb ihk => exact fun h1 h2 => ⟨ihb h1.1 h2.1, ihk h1.2 h2.2⟩
  | co c b k ihb ihk => exact fun h1 h2 => ⟨⟨h1.1, h2.1⟩, ihb h1.2.1 h2.2.1, ihk h1.2.2 h2.2.2⟩

/-- simplification keeps the containers -/
theorem sT_allc (merge : Bool) (P : Ty → Prop) (l : L) : l.All (fun c _ => P c) → ∀ mode op c skc,
    (sT merge l mode op c skc).All (fun c _ => P c) := by
  induction l with
  | nil =>
    intro _ mode op c skc
    cases mode with
    | none => simp only [sT, fin, all_flush, L.All]
    | some r =>
      simp only [sT, fin]
      split
      · split
        · unfold one; split <;> simp [L.All]
        · simp [L.All]
      · simp [L.All]
  | mc n k ih =>
    intro hl mode op c skc
    have ih := ih hl
    simp only [sT]
    split
    · exact ih ..
    · split
      · exact ih ..
      · rw [all_flush]; exact ih ..
  | sk n k ih =>
    intro hl mode op c skc
    have ih := ih hl
    simp only [sT]
    split
    · exact ih ..
    · split
      · exact ih ..
      · rw [all_flush]; exact ih ..
  | ar n b k ihb ihk =>
    intro hl mode op c skc
    have ihk := ihk hl.2
    have ihb := ihb hl.1
    simp only [sT]
    split
    · split
      · exact ihk ..
      · rw [all_flush]; exact ihk ..
    · rw [all_flush]; exact ⟨ihb .., ihk ..⟩
  | co ct b k ihb ihk =>
    intro hl mode op c skc
    have ihk := ihk hl.2.2
    have ihb := ihb hl.2.1
    simp only [sT]
    rw [all_flush]
    exact ⟨hl.1, ihb .., ihk ..⟩

mutual
theorem raw_vecIn : ∀ (t : Ty), (rawL t).All (fun c _ => ∀ cs e, c = .vec cs e → VecIn t e)
  | .num _ => trivial
  | .enum _ _ => trivial
  | .arr d e => ⟨all_mono (fun _ _ h cs e he => .arr (h cs e he)) _ (raw_vecIn e), trivial⟩
  | .vec c e => by
    refine ⟨?_, ?_, trivial⟩
    · intro cs e' h; cases h; exact .vec
    · exact all_mono (fun _ _ h cs e he => .elem (h cs e he)) _ (raw_vecIn e)
  | .str c => ⟨fun cs e h => (by cases h), trivial, trivial⟩
  | .comp n fs => all_mono (fun c b h cs e he => by
      obtain ⟨off, t, hm, hv⟩ := h cs e he
      exact .field hm hv) _ (raw_vecInF 0 n fs)
  | .ptr _ => trivial
  | .opaq _ => trivial
theorem raw_vecInF : ∀ (cur n : Nat) (fs : Fields), (rawLF cur n fs).All (fun c _ => ∀ cs e, c = .vec cs e → ∃ off t, Fields.Mem off t fs ∧ VecIn t e)
  | _, _, .nil => trivial
  | cur, n, .cons off t r => by
    show ((rawL t).app _).All _
    rw [all_app]
    refine ⟨all_mono (fun _ _ h cs e he => ⟨off, t, .head, h cs e he⟩) _ (raw_vecIn t), ?_⟩
    exact all_mono (fun c b h cs e he => by
      obtain ⟨off', t', hm, hv⟩ := h cs e he
      exact ⟨off', t', .tail hm, hv⟩) _ (raw_vecInF _ n r)
end

theorem layL_vecIn (merge rem : Bool) (t : Ty) : (layL merge rem t).All (fun c _ => ∀ cs e, c = .vec cs e → VecIn t e) :=
  sT_allc _ (fun c => ∀ cs e, c = .vec cs e → VecIn t e) _ (raw_vecIn t) _ _ _ _

theorem trailingPadding_le (t : Ty) : trailingPadding t ≤ t.size := by
  unfold trailingPadding
  split <;> simp [Ty.size]

/-- the loading loop: outcome for any input and any valid destination -/
theorem load_all {env : Env} {t : Ty} (ht : OkType t) {dst : Mem} {w : List AV} (hd : Valid env t dst w) {input : List UInt8}
    (hin : input.length < HALF)
    (hsafe : (∀ e, VecIn t e → NoOvf input e) ∨ FitsT env (layL true true t).expand input) :
    Tri (load env t input dst)
      (fun _ m => ∃ w' mu u r, Valid env t m w' ∧ Abs env (layL true true t).expand mu u ∧ input = encL u ++ r ∧
        (r.length = 0 ∨ r.length = trailingPadding t) ∧
        ((Clr w ∨ Full u) → ∃ pads, w' = u ++ List.map AV.b pads))
      (fun _ m => (∃ w', Valid env t m w') ∧ ∀ mu u r, Abs env (layL true true t).expand mu u → input = encL u ++ r →
        r.length ≠ 0 ∧ r.length ≠ trailingPadding t) := by
  obtain ⟨cells, vx, pads, rfl, rfl, ha⟩ := lay_merged ht.1 hd
  obtain ⟨k, hk, _, hback⟩ := lay_pad_unique (env := env) ht.1
  have hpl := hk _ _ hd cells vx pads rfl rfl ha
  have hll := hd.length.1
  rw [kinds_size t ht.1, List.length_append] at hll
  have hsz := ht.2.2
  have hall : (layL true true t).All (LBlk (∀ e, VecIn t e → NoOvf input e) input (cdepth t)) := by
    refine all_mono ?_ _ (all_and _ (layL_all false false true true t ht.1 ht.2.1) (layL_vecIn true true t))
    rintro c b ⟨h1, h2⟩
    exact ⟨h1, fun hno cs e he => hno e (h2 cs e he)⟩
  have hkok := kok_expand (layL_all false false true true t ht.1 ht.2.1)
  have key := load_tri (allOps env (cdepth t)) _ input hin (layL true true t) hall (layL_pos _ _ t ht.1)
    ⟨[], pads.map .byte, (layL true true t).expand, 0, Clr (vx ++ pads.map .b)⟩ ((layL true true t).enc.length + 1)
    ⟨cells ++ pads.map .byte, 0, 0⟩ (by omega) ⟨expand_np t ht.1, hkok, Nat.zero_le _, by simpa using hsafe,
      [], [], [], [], [], cells, vx, rfl, rfl, rfl, by simp only [List.length_append]; omega, .nil, ha, .nil, by simp [encL],
      fun h => ⟨(clr_append.mp h).1, rfl⟩, fun _ => rfl⟩
  unfold load
  rw [withLayout_ok ht]
  unfold loadFinish
  simp only []
  cases hwk : walk (loadI env (opsAt env (cdepth t)) input) ((layL true true t).enc.length + 1) (layL true true t).enc
      ⟨cells ++ pads.map .byte, 0, 0⟩ with
  | ok it s =>
    rw [hwk] at key
    obtain ⟨rfl, _, _, k1, k2, K1, x1, v1, m1, u1, y, vy, p1, p2, p3, p4, p5, p6, p7, p8, p9, p10⟩ := key
    cases p6
    simp only [List.append_nil] at p1
    subst p1
    simp only [List.drop_zero, List.nil_append] at p2 p8
    have hval : Valid env t s.mem (v1 ++ pads.map .b) := by rw [p2]; exact hback _ _ _ hpl p5
    have hpad := trailingPadding_le t
    have hwadd : wadd s.idx (trailingPadding t) = s.idx + trailingPadding t :=
      wadd_eq (by simp only [HALF] at *; unfold W; omega)
    simp only []
    by_cases hend : s.idx ≠ input.length ∧ wadd s.idx (trailingPadding t) ≠ input.length
    · rw [if_pos hend]
      refine ⟨⟨_, hval⟩, ?_⟩
      intro mu u r hu hi
      rw [p8] at hi
      obtain ⟨rfl, rfl⟩ := enc_inj p7 hkok hu hi
      rw [hwadd] at hend
      rw [List.length_drop]
      omega
    · rw [if_neg hend]
      refine ⟨_, m1, u1, input.drop s.idx, hval, p7, p8, ?_, ?_⟩
      · rw [hwadd] at hend
        rw [List.length_drop]
        omega
      · rintro (h | h)
        · exact ⟨pads, by rw [(p9 h).2]⟩
        · exact ⟨pads, by rw [p10 h]⟩
  | exn e s =>
    rw [hwk] at key
    obtain ⟨cells', v', p1, p2, p3⟩ := key
    simp only [List.nil_append, List.drop_zero] at p1 p2 p3
    refine ⟨⟨v' ++ pads.map .b, by rw [p1]; exact hback _ _ _ hpl p2⟩, ?_⟩
    intro mu u r hu hi
    exact absurd ⟨mu, u, r, hu, hi⟩ p3
  | ub => rw [hwk] at key; exact key.elim
  | fuel => rw [hwk] at key; exact key.elim

/-! ### C10, C13, C14: load -/

/-- C10. Dumping a value and loading the bytes into a value of the type whose containers are empty (in particular one
that has just been initialised) succeeds and gives an equal value. -/
theorem C10_dump_load {env : Env} {t : Ty} (ht : OkType t) {src : Mem} {v : List AV} (hs : Valid env t src v)
    {B : List UInt8} (hB : dump env t src [] = .ok () B) {dst : Mem} {w : List AV} (hd : Valid env t dst w) (hc : Clr w) :
    ∃ dst' v', load env t B dst = .ok () dst' ∧ Valid env t dst' v' ∧ VEq (kinds t) v v' := by
  obtain ⟨cells, vx, pads, rfl, rfl, ha, rfl, hlen, _⟩ := serial_dump ht hs hB
  have hkok := kok_expand (layL_all false false true true t ht.1 ht.2.1)
  have key := load_all ht hd (input := encL vx) (by have := env.hmax; simp only [HALF]; omega)
    (Or.inr ⟨[], cells, vx, [], ha, by simp⟩)
  cases hl : load env t (encL vx) dst with
  | ok a s =>
    rw [hl] at key
    obtain ⟨w', mu, u, r, h1, h2, h3, h4, h5⟩ := key
    have h3' : encL vx ++ [] = encL u ++ r := by simpa using h3
    obtain ⟨rfl, rfl⟩ := enc_inj ha hkok h2 h3'
    obtain ⟨pads', rfl⟩ := h5 (Or.inl hc)
    refine ⟨s, _, rfl, h1, ?_⟩
    obtain ⟨k, hk, ⟨X, h6, h7⟩, _⟩ := lay_pad_unique (env := env) ht.1
    have l1 := hs.length.2
    have l2 := h1.length.2
    have l3 := ha.length.2
    rw [h7] at l3
    rw [h6] at l1 l2 ⊢
    simp at l1 l2 l3
    refine VEq.append ?_ ?_
    · exact VEq.of_map_mp (m := true) (by rw [← h7]; exact VEq.refl_of_abs ha)
    · have hp : pads.length = k := by omega
      rw [← hp]; exact VEq.bytes_pad pads pads' (by omega)
  | exn e s =>
    rw [hl] at key
    have := (key.2 cells vx [] ha (by simp)).1
    simp at this
  | ub => rw [hl] at key; exact key.elim
  | fuel => rw [hl] at key; exact key.elim

/-- C46 (partial). Loading a dump into any valid destination gives an equal value, when no container of the value (at any depth) is empty. -/
theorem C46_load_any_destination_partial {env : Env} {t : Ty} (ht : OkType t) {src : Mem} {v : List AV} (hs : Valid env t src v)
    (hfull : Full v) {B : List UInt8} (hB : dump env t src [] = .ok () B) {dst : Mem} {w : List AV} (hd : Valid env t dst w) :
    ∃ dst' v', load env t B dst = .ok () dst' ∧ Valid env t dst' v' ∧ VEq (kinds t) v v' := by
  obtain ⟨cells, vx, pads, rfl, rfl, ha, rfl, hlen, _⟩ := serial_dump ht hs hB
  have hkok := kok_expand (layL_all false false true true t ht.1 ht.2.1)
  have key := load_all ht hd (input := encL vx) (by have := env.hmax; simp only [HALF]; omega)
    (Or.inr ⟨[], cells, vx, [], ha, by simp⟩)
  cases hl : load env t (encL vx) dst with
  | ok a s =>
    rw [hl] at key
    obtain ⟨w', mu, u, r, h1, h2, h3, h4, h5⟩ := key
    have h3' : encL vx ++ [] = encL u ++ r := by simpa using h3
    obtain ⟨rfl, rfl⟩ := enc_inj ha hkok h2 h3'
    obtain ⟨pads', rfl⟩ := h5 (Or.inr (full_append.mp hfull).1)
    refine ⟨s, _, rfl, h1, ?_⟩
    obtain ⟨k, hk, ⟨X, h6, h7⟩, _⟩ := lay_pad_unique (env := env) ht.1
    have l1 := hs.length.2
    have l2 := h1.length.2
    have l3 := ha.length.2
    rw [h7] at l3
    rw [h6] at l1 l2 ⊢
    simp at l1 l2 l3
    refine VEq.append ?_ ?_
    · exact VEq.of_map_mp (m := true) (by rw [← h7]; exact VEq.refl_of_abs ha)
    · have hp : pads.length = k := by omega
      rw [← hp]; exact VEq.bytes_pad pads pads' (by omega)
  | exn e s =>
    rw [hl] at key
    have := (key.2 cells vx [] ha (by simp)).1
    simp at this
  | ub => rw [hl] at key; exact key.elim
  | fuel => rw [hl] at key; exact key.elim

/-- C13 (partial: the sizes announced in the buffer do not overflow). For every buffer in which no 8 consecutive bytes, read
as an element count, times the size of an element of a vector of the type reach 2^64, `load` returns or throws, nothing
outside of the value and its containers is accessed, and the value is still valid (hence destructible: C17). -/
theorem C13_load_arbitrary_partial {env : Env} {t : Ty} (ht : OkType t) {dst : Mem} {w : List AV} (hd : Valid env t dst w)
    {input : List UInt8} (hin : input.length < HALF)
    (hno : ∀ e, VecIn t e → ∀ i, leVal ((input.drop i).take 8) * e.size < W) :
    ∃ dst' w', Valid env t dst' w' ∧ (load env t input dst = .ok () dst' ∨ ∃ e, load env t input dst = .exn e dst') := by
  have key := load_all ht hd hin (Or.inl hno)
  cases hl : load env t input dst with
  | ok a s =>
    rw [hl] at key
    obtain ⟨w', mu, u, r, h1, _⟩ := key
    exact ⟨s, w', h1, Or.inl rfl⟩
  | exn e s =>
    rw [hl] at key
    obtain ⟨⟨w', h1⟩, _⟩ := key
    exact ⟨s, w', h1, Or.inr ⟨e, rfl⟩⟩
  | ub => rw [hl] at key; exact key.elim
  | fuel => rw [hl] at key; exact key.elim

/-- types without vectors (fixed-size data and strings): no condition on the buffer -/
theorem C13_load_arbitrary_no_vector {env : Env} {t : Ty} (ht : OkType t) (hn : ∀ e, ¬ VecIn t e) {dst : Mem} {w : List AV}
    (hd : Valid env t dst w) {input : List UInt8} (hin : input.length < HALF) :
    ∃ dst' w', Valid env t dst' w' ∧ (load env t input dst = .ok () dst' ∨ ∃ e, load env t input dst = .exn e dst') :=
  C13_load_arbitrary_partial ht hd hin (fun e he => absurd he (hn e))

/-- C14, too short. Every strict prefix of a dump is refused, whatever the destination holds; the destination stays valid. -/
theorem C14_truncated {env : Env} {t : Ty} (ht : OkType t) {src : Mem} {v : List AV} (hs : Valid env t src v)
    {B : List UInt8} (hB : dump env t src [] = .ok () B) {dst : Mem} {w : List AV} (hd : Valid env t dst w)
    (n : Nat) (hn : n < B.length) :
    ∃ e dst' w', load env t (B.take n) dst = .exn e dst' ∧ Valid env t dst' w' := by
  obtain ⟨cells, vx, pads, rfl, rfl, ha, rfl, hlen, _⟩ := serial_dump ht hs hB
  have hkok := kok_expand (layL_all false false true true t ht.1 ht.2.1)
  have key := load_all ht hd (input := (encL vx).take n)
    (by have := env.hmax; simp only [HALF, List.length_take]; omega)
    (Or.inr ⟨(encL vx).drop n, cells, vx, [], ha, by simp⟩)
  cases hl : load env t ((encL vx).take n) dst with
  | ok a s =>
    rw [hl] at key
    obtain ⟨w', mu, u, r, h1, h2, h3, h4, h5⟩ := key
    have h6 : encL vx ++ [] = encL u ++ (r ++ (encL vx).drop n) := by
      rw [← List.append_assoc, ← h3]; simp
    obtain ⟨rfl, h7⟩ := enc_inj ha hkok h2 h6
    have := congrArg List.length h7
    simp at this
    omega
  | exn e s =>
    rw [hl] at key
    obtain ⟨⟨w', h1⟩, _⟩ := key
    exact ⟨e, s, w', rfl, h1⟩
  | ub => rw [hl] at key; exact key.elim
  | fuel => rw [hl] at key; exact key.elim

/-- C14, too long. A dump followed by other bytes is accepted exactly when there are as many as the trailing padding of
the type (or none). -/
theorem C14_trailing {env : Env} {t : Ty} (ht : OkType t) {src : Mem} {v : List AV} (hs : Valid env t src v)
    {B : List UInt8} (hB : dump env t src [] = .ok () B) {dst : Mem} {w : List AV} (hd : Valid env t dst w)
    (extra : List UInt8) (hx : (B ++ extra).length < HALF) :
    ((∃ dst', load env t (B ++ extra) dst = .ok () dst') ↔ (extra.length = 0 ∨ extra.length = trailingPadding t)) ∧
    (¬ (extra.length = 0 ∨ extra.length = trailingPadding t) → ∃ e dst', load env t (B ++ extra) dst = .exn e dst') := by
  obtain ⟨cells, vx, pads, rfl, rfl, ha, rfl, hlen, _⟩ := serial_dump ht hs hB
  have hkok := kok_expand (layL_all false false true true t ht.1 ht.2.1)
  have key := load_all ht hd (input := encL vx ++ extra) hx (Or.inr ⟨[], cells, vx, extra, ha, by simp⟩)
  cases hl : load env t (encL vx ++ extra) dst with
  | ok a s =>
    rw [hl] at key
    obtain ⟨w', mu, u, r, h1, h2, h3, h4, h5⟩ := key
    obtain ⟨rfl, rfl⟩ := enc_inj ha hkok h2 h3
    exact ⟨⟨fun _ => h4, fun _ => ⟨s, rfl⟩⟩, fun h => absurd h4 h⟩
  | exn e s =>
    rw [hl] at key
    have := key.2 cells vx extra ha rfl
    refine ⟨⟨?_, ?_⟩, fun _ => ⟨e, s, rfl⟩⟩
    · rintro ⟨_, h⟩; cases h
    · intro h; rcases h with h | h
      · exact absurd h this.1
      · exact absurd h this.2
  | ub => rw [hl] at key; exact key.elim
  | fuel => rw [hl] at key; exact key.elim

/-! ### C15: copy -/

/-- C15. `copy` makes the destination equal to the source whatever it held before, as a valid value of its own; all accesses are
inside the two values (the source is not modified: it is an argument). -/
theorem C15_copy {env : Env} {t : Ty} (ht : OkType t) {src dst : Mem} {v w : List AV} (hs : Valid env t src v)
    (hd : Valid env t dst w) : ∃ dst' v', copy env t src dst = .ok () dst' ∧ Valid env t dst' v' ∧ VEq (kinds t) v v' := by
  obtain ⟨k, h1, h2, _⟩ := lay_veq true true t ht.1
  have hsz := kinds_size t ht.1
  have l1 := hs.length.1
  have l2 := hd.length.1
  have hW : HALF < W := by unfold W; decide
  have hlt := ht.2.2
  obtain ⟨d', v', h3, h4, h5⟩ := copy_walk (allOps env (cdepth t)) _ (layL_all false false true true t ht.1 ht.2.1)
    (layL_pos _ _ t ht.1) k [] src [] [] dst [] v w ((h1 env _ _).mpr hs) ((h1 env _ _).mpr hd)
    (by simp; omega) (by simp; omega) (layI t).enc
  refine ⟨d', v', ?_, (h1 env _ _).mp h4, h2 _ _ h5⟩
  unfold copy
  rw [withLayout_ok ht]
  simpa using h3

/-! ### C16: compare -/

/-- C16. `compare` on two valid values returns true exactly when they are equal: same data bytes, same container contents,
padding ignored. (`compare` also accepts types with pointers, compared as bytes.) -/
theorem C16_compare {env : Env} {t : Ty} (hw : t.WF) (hl : t.HasLayout true false) {a b : Mem} {v w : List AV}
    (ha : Valid env t a v) (hb : Valid env t b w) :
    ∃ r s, compare t a b = .ok r s ∧ (r = true ↔ VEq (kinds t) v w) := by
  have := compareAt_spec (env := env) (cdepth t + 1) t hw hl (by omega) [] a [] [] b [] v w ha hb
    (by simpa using wf_size_lt hw) (by simpa using wf_size_lt hw)
  simpa [compare] using this

/-- the answer of `compare` -/
def cmpResult (t : Ty) (a b : Mem) : Option Bool :=
  match compare t a b with
  | .ok r _ => some r
  | _ => none

/-- C16, consequence: on valid values `compare` is an equivalence relation. -/
theorem C16_equivalence {env : Env} {t : Ty} (hw : t.WF) (hl : t.HasLayout true false) {a b c : Mem} {v w x : List AV}
    (ha : Valid env t a v) (hb : Valid env t b w) (hc : Valid env t c x) :
    cmpResult t a a = some true ∧ cmpResult t a b = cmpResult t b a ∧
    (cmpResult t a b = some true → cmpResult t b c = some true → cmpResult t a c = some true) := by
  have key : ∀ {a b : Mem} {v w : List AV}, Valid env t a v → Valid env t b w →
      ∃ r, cmpResult t a b = some r ∧ (r = true ↔ VEq (kinds t) v w) := by
    intro a b v w ha hb
    obtain ⟨r, s, h1, h2⟩ := C16_compare hw hl ha hb
    exact ⟨r, by simp [cmpResult, h1], h2⟩
  obtain ⟨r1, h1, h1'⟩ := key ha ha
  obtain ⟨r2, h2, h2'⟩ := key ha hb
  obtain ⟨r3, h3, h3'⟩ := key hb ha
  obtain ⟨r4, h4, h4'⟩ := key hb hc
  obtain ⟨r5, h5, h5'⟩ := key ha hc
  rw [h1, h2, h3, h4, h5]
  refine ⟨?_, ?_, ?_⟩
  · rw [h1'.mpr (VEq.refl_of_abs ha)]
  · congr 1
    rw [Bool.eq_iff_iff, h2', h3']
    exact ⟨VEq.symm, VEq.symm⟩
  · intro e1 e2
    have e1 := h2'.mp (by simpa using e1)
    have e2 := h4'.mp (by simpa using e2)
    rw [h5'.mpr (e1.trans e2)]

/-! ### C17, C18: init, destroy, zero -/

/-- a value of the type has at byte offset `o` an enum of `n` bytes with these symbol values -/
inductive EnumAt : Ty → Nat → Nat → List Int → Prop where
  | enum {n vs} : EnumAt (.enum n vs) 0 n vs
  | arr {d e k i n vs} : k < d → EnumAt e i n vs → EnumAt (.arr d e) (k * e.size + i) n vs
  | field {m fs off t i n vs} : Fields.Mem off t fs → EnumAt t i n vs → EnumAt (.comp m fs) (off + i) n vs

/-- a segment of an initialisation plan -/
def ISeg (l : List IItem) (o : Nat) (seg : List IItem) : Prop := ∃ a b, l = a ++ (seg ++ b) ∧ iitemsSize a = o

theorem ISeg.left {l m seg : List IItem} {o : Nat} (h : ISeg l o seg) : ISeg (l ++ m) o seg := by
  obtain ⟨a, b, rfl, rfl⟩ := h
  exact ⟨a, b ++ m, by simp, rfl⟩
theorem ISeg.right {l m seg : List IItem} {o : Nat} (h : ISeg m o seg) : ISeg (l ++ m) (iitemsSize l + o) seg := by
  obtain ⟨a, b, rfl, rfl⟩ := h
  exact ⟨l ++ a, b, by simp, iitemsSize_append _ _⟩

theorem ISeg.rep {l seg : List IItem} {o d k : Nat} (hk : k < d) (h : ISeg l o seg) : ISeg (rep d l) (k * iitemsSize l + o) seg := by
  induction d generalizing k with
  | zero => omega
  | succ d ih =>
    rw [rep_succ]
    cases k with
    | zero => simpa using h.left
    | succ k =>
      have := (ih (k := k) (by omega)).right (l := l)
      rw [Nat.succ_mul]
      have e : iitemsSize l + (k * iitemsSize l + o) = k * iitemsSize l + iitemsSize l + o := by omega
      rwa [e] at this

mutual
theorem enumAt_seg : ∀ (t : Ty), t.WF → ∀ o n x vs, EnumAt t o n (x :: vs) → ISeg (ikinds t) o ((leBytes n (x % (W : Int)).toNat).map .set)
  | .num _, _, _, _, _, _, h => by cases h
  | .enum n vs, _, o, _, _, _, h => by
    cases h
    refine ⟨[], [], ?_, rfl⟩
    simp only [ikinds, enumInit, List.nil_append, List.append_nil]
    cases n with
    | zero => simp [leBytes]
    | succ n => simp [leBytes]
  | .arr d e, hw, o, _, _, _, h => by
    cases h with
    | arr hk h =>
      have := (enumAt_seg e hw.2.2.2 _ _ _ _ h).rep hk
      rwa [ikinds_size e hw.2.2.2] at this
  | .vec _ _, _, _, _, _, _, h => by cases h
  | .str _, _, _, _, _, _, h => by cases h
  | .comp m fs, hw, o, n, x, vs, h => by
    cases h with
    | @field _ _ off t i _ _ hm h =>
      have := enumAt_segF fs hw.2 _ _ _ _ _ _ hm h
      simpa [ikinds] using this
  | .ptr _, _, _, _, _, _, h => by cases h
  | .opaq _, _, _, _, _, _, h => by cases h
theorem enumAt_segF : ∀ (fs : Fields) {cur m : Nat}, fs.WF cur m → ∀ off t i n x vs, Fields.Mem off t fs → EnumAt t i n (x :: vs) →
    ISeg (ikindsF cur m fs) (off + i - cur) ((leBytes n (x % (W : Int)).toNat).map .set)
  | .nil, _, _, _, _, _, _, _, _, _, hm, _ => by cases hm
  | .cons off' t' r, cur, m, hw, off, t, i, n, x, vs, hm, h => by
    obtain ⟨h1, h2, h3⟩ := hw
    have hlv : iitemsSize (List.replicate (off' - cur) IItem.leave) = off' - cur := by simp [iitemsSize, IItem.size]
    show ISeg (List.replicate (off' - cur) .leave ++ ikinds t' ++ ikindsF (off' + t'.size) m r) _ _
    cases hm with
    | head =>
      have := ((enumAt_seg t' h2 _ _ _ _ h).right (l := List.replicate (off' - cur) .leave)).left (m := ikindsF (off' + t'.size) m r)
      rw [hlv] at this
      have e : off' - cur + i = off' + i - cur := by omega
      rwa [e] at this
    | tail hm =>
      have hge := mem_ge r h3 hm
      have := (enumAt_segF r h3 _ _ _ _ _ _ hm h).right (l := List.replicate (off' - cur) .leave ++ ikinds t')
      rw [iitemsSize_append, hlv, ikinds_size t' h2] at this
      have e : off' - cur + t'.size + (off + i - (off' + t'.size)) = off + i - cur := by omega
      rwa [e] at this
end

/-- C17, init. On raw memory of the size of the type, `init` gives a valid value; every container is empty; every enum that
has symbols holds its first one (in the order of `Enum::values()`). -/
theorem C17_init {env : Env} {t : Ty} (ht : OkType t) (raw : List UInt8) (hr : raw.length = t.size) :
    ∃ m v, init t (raw.map .byte) = .ok () m ∧ Valid env t m v ∧ Clr v ∧
      (∀ o n x vs, EnumAt t o n (x :: vs) → (m.drop o).take n = (leBytes n (x % (W : Int)).toNat).map .byte) := by
  have hW : HALF < W := by unfold W; decide
  have hlt := ht.2.2
  have h1 := initL_spec ht.1 [] raw [] hr (by simp; omega) (layL true true t).enc
  have h2 := initM_abs env (ikinds_match t) (ikinds_citem t ht.1) raw
  refine ⟨initM (ikinds t) raw, initV (ikinds t) raw, ?_, h2.1, h2.2, ?_⟩
  · unfold init
    rw [withLayout_ok ht]
    simpa using h1
  · intro o n x vs he
    obtain ⟨a, b, h3, h4⟩ := enumAt_seg t ht.1 o n x vs he
    have hc := ikinds_citem t ht.1
    rw [h3] at hc ⊢
    rw [initM_append, initM_append, initM_set]
    rw [← h4, ← initM_length a (fun i hi => hc i (by simp [hi])) raw]
    rw [List.drop_left, List.take_append_of_le_length (by simp [leBytes_length]), List.take_of_length_le (by simp [leBytes_length])]

/-- C10 with the destination made by `init`: raw memory of the size of the type, `init`, then `load` of a dump gives a value
equal to the one dumped. -/
theorem C10_dump_init_load {env : Env} {t : Ty} (ht : OkType t) {src : Mem} {v : List AV} (hs : Valid env t src v)
    {B : List UInt8} (hB : dump env t src [] = .ok () B) (raw : List UInt8) (hr : raw.length = t.size) :
    ∃ dst dst' v', init t (raw.map .byte) = .ok () dst ∧ load env t B dst = .ok () dst' ∧ Valid env t dst' v' ∧
      VEq (kinds t) v v' := by
  obtain ⟨dst, w, h1, h2, h3, _⟩ := C17_init (env := env) ht raw hr
  obtain ⟨dst', v', h4⟩ := C10_dump_load ht hs hB h2 h3
  exact ⟨dst, dst', v', h1, h4⟩

/-- C17, destroy. On any valid value `destroy` runs without undefined behaviour (no use of a destroyed container, no leak: the model
makes each of these undefined), destroys every container object and changes nothing else. -/
theorem C17_destroy {env : Env} {t : Ty} (ht : OkType t) {m : Mem} {v : List AV} (hv : Valid env t m v) :
    ∃ m', destroy env t m = .ok () m' ∧ m'.length = m.length ∧
      ∀ i (h : i < m.length) (h' : i < m'.length), m'[i] = if m[i].live then .dead else m[i] := by
  obtain ⟨k, h1, _⟩ := lay_veq true true t ht.1
  have hW : HALF < W := by unfold W; decide
  have hlt := ht.2.2
  have l1 := hv.length.1
  rw [kinds_size t ht.1] at l1
  have h3 := destroy_walk (allOps env (cdepth t)) _ (layL_all false false true true t ht.1 ht.2.1)
    (layL_pos _ _ t ht.1) k [] m [] v ((h1 env _ _).mpr hv) (by simp; omega) (layI t).enc
  refine ⟨kill m, ?_, kill_length m, ?_⟩
  · unfold destroy
    rw [withLayout_ok ht]
    simpa using h3
  · intro i h h'
    simp only [kill, List.getElem_map]
    cases hm : m[i] <;> simp [killC, Cell.live]

/-- C18. `zero` on a valid value: still valid, every data byte is 0 and every container is empty. -/
theorem C18_zero {env : Env} {t : Ty} (ht : OkType t) {m : Mem} {v : List AV} (hv : Valid env t m v) :
    ∃ m' v', zero env t m = .ok () m' ∧ Valid env t m' v' ∧ VEq (kinds t) v' (zeroV (kinds t)) ∧ Clr v' := by
  obtain ⟨k, h1, h2, _, X, h4, h5⟩ := lay_veq true true t ht.1
  have hW : HALF < W := by unfold W; decide
  have hlt := ht.2.2
  have l1 := hv.length.1
  rw [kinds_size t ht.1] at l1
  obtain ⟨m', pads, h6, h7, h8⟩ := zero_walk (allOps env (cdepth t)) _ (layL_all false false true true t ht.1 ht.2.1)
    (layL_pos _ _ t ht.1) k [] m [] v ((h1 env _ _).mpr hv) (by simp; omega) (layI t).enc
  have hval := (h1 env _ _).mp h7
  have hz : ∀ K : List Item, zeroV (K.map (mp true)) = zeroV K := by
    intro K
    induction K with
    | nil => rfl
    | cons i K ih => cases i <;> simp [mp, zeroV, ih]
  have hcz : ∀ K : List Item, Clr (zeroV K) := by
    intro K
    induction K with
    | nil => trivial
    | cons i K ih =>
      cases i with
      | data => exact ih
      | pad => exact ih
      | cont c => cases c <;> first | exact ⟨rfl, ih⟩ | exact ⟨rfl, rfl, ih⟩
  refine ⟨m', _, ?_, hval, ?_, ?_⟩
  · unfold zero
    rw [withLayout_ok ht]
    simpa using h6
  · rw [h4, zeroV_append]
    rw [h5, hz]
    have hv1 : VEq X (zeroV X) (zeroV X) := by
      obtain ⟨m1, m2, v1, v2, q1, q2, q3, q4⟩ := h7.split
      have := VEq.of_map_mp (m := true) (by rw [← h5]; exact VEq.refl_of_abs q3)
      have hle : v1 = zeroV (layL true true t).expand := by
        refine (List.append_inj q2 ?_).1.symm
        have l2 := h7.length.2
        simp only [List.length_append, List.length_map, List.length_replicate] at l2
        have := q3.length.2
        omega
      rw [hle, h5, hz] at this
      exact this
    refine hv1.append ?_
    rw [← h8, zeroV_replicate _ (Or.inr rfl)]
    have := VEq.bytes_pad pads (List.replicate pads.length 0) (by simp)
    simpa using this
  · exact clr_append.mpr ⟨hcz _, clr_bytes _⟩

end Verif.Value
