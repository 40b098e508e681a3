import Verif.ValueDump

/-! The serialised form is a prefix code: what can be read back, and how reads behave. -/

namespace Verif.Value
open Verif Verif.Layout

/-! ### 64-bit counts -/

theorem leVal_leBytes (k : Nat) : ∀ n, n < 256 ^ k → leVal (leBytes k n) = n := by
  induction k with
  | zero => intro n h; simp at h; subst h; rfl
  | succ k ih =>
    intro n h
    rw [Nat.pow_succ] at h
    simp only [leBytes, leVal]
    rw [ih (n / 256) (by omega)]
    simp
    omega

theorem leVal_lt (bs : List UInt8) : leVal bs < 256 ^ bs.length := by
  induction bs with
  | nil => simp [leVal]
  | cons b r ih =>
    have := b.toNat_lt
    simp only [leVal, List.length_cons, Nat.pow_succ]
    omega

theorem leBytes_leVal (bs : List UInt8) : leBytes bs.length (leVal bs) = bs := by
  induction bs with
  | nil => rfl
  | cons b r ih =>
    have hb := b.toNat_lt
    simp only [leVal, List.length_cons, leBytes]
    have e1 : (b.toNat + 256 * leVal r) % 256 = b.toNat := by omega
    have e2 : (b.toNat + 256 * leVal r) / 256 = leVal r := by omega
    rw [e1, e2, ih]
    simp

theorem leVal_le64 {n : Nat} (h : n < W) : leVal (le64 n) = n := leVal_leBytes 8 n (by unfold W at h; omega)
theorem le64_leVal {bs : List UInt8} (h : bs.length = 8) : le64 (leVal bs) = bs := by
  have := leBytes_leVal bs; rw [h] at this; exact this
theorem le64_length (n : Nat) : (le64 n).length = 8 := leBytes_length _ _
theorem leVal_lt_W {bs : List UInt8} (h : bs.length = 8) : leVal bs < W := by
  have := leVal_lt bs; rw [h] at this; unfold W; omega
theorem le64_inj {a b : Nat} (ha : a < W) (hb : b < W) (h : le64 a = le64 b) : a = b := by
  rw [← leVal_le64 ha, h, leVal_le64 hb]

/-! ### items that a layout can have -/

/-- all containers among the items are acceptable -/
def KOk (K : List Item) : Prop := ∀ c, Item.cont c ∈ K → ∃ D, ContOk D c

theorem mem_flush_expand {c : Ty} {P : Ty → L → Prop} : ∀ (l : L), l.All P → Item.cont c ∈ l.expand → ∃ b, P c b := by
  intro l
  induction l with
  | nil => intro _ h; simp [L.expand] at h
  | mc n k ih =>
    intro hl h
    simp only [L.expand, List.mem_append, List.mem_replicate] at h
    rcases h with h | h
    · simp at h
    · exact ih hl h
  | sk n k ih =>
    intro hl h
    simp only [L.expand, List.mem_append, List.mem_replicate] at h
    rcases h with h | h
    · simp at h
    · exact ih hl h
  | ar n b k ihb ihk =>
    intro hl h
    simp only [L.expand, List.mem_append] at h
    rcases h with h | h
    · exact ihb hl.1 (mem_rep h)
    · exact ihk hl.2 h
  | co c' b k ihb ihk =>
    intro hl h
    simp only [L.expand, List.mem_cons] at h
    rcases h with h | h
    · cases h; exact ⟨b, hl.1⟩
    · exact ihk hl.2.2 h

theorem kok_expand {m : Bool} {D : Nat} {l : L} (h : l.All (Blk m D)) : KOk l.expand := by
  intro c hc
  obtain ⟨b, hb⟩ := mem_flush_expand l h hc
  exact ⟨D, hb.contOk⟩

theorem RawBlk.contOk {D : Nat} {c : Ty} {b : L} (h : RawBlk D c b) : ContOk D c := by
  unfold RawBlk at h
  unfold ContOk
  split at h
  · exact ⟨h.1, h.2.1, h.2.2.1, h.2.2.2.1⟩
  · exact ⟨h.1, h.2.1⟩
  · exact h.elim

theorem kok_kinds {t : Ty} {ap ao : Bool} (hw : t.WF) (hl : t.HasLayout ap ao) : KOk (kinds t) := by
  intro c hc
  rw [← expand_raw t hw] at hc
  obtain ⟨b, hb⟩ := mem_flush_expand _ (raw_all t ap ao _ hw hl (Nat.le_refl _)) hc
  exact ⟨_, hb.contOk⟩

theorem kok_rep {K : List Item} (h : KOk K) (n : Nat) : KOk (rep n K) := fun c hc => h c (mem_rep hc)
theorem kok_append {a b : List Item} : KOk (a ++ b) ↔ KOk a ∧ KOk b := by
  constructor
  · intro h
    exact ⟨fun c hc => h c (List.mem_append_left _ hc), fun c hc => h c (List.mem_append_right _ hc)⟩
  · rintro ⟨h1, h2⟩ c hc
    rcases List.mem_append.mp hc with h | h
    · exact h1 c h
    · exact h2 c h
theorem kok_cons {a : Item} {b : List Item} (h : KOk (a :: b)) : KOk b := fun c hc => h c (List.mem_cons_of_mem _ hc)
theorem kok_elems {e : Ty} (he : ElemOk e) (n : Nat) : KOk (rep n (kinds e)) := kok_rep (kok_kinds he.2.1 he.2.2) n

/-- number of elements of a valid vector -/
theorem vec_count_le {env : Env} {e : Ty} (he : ElemOk e) {n : Nat} {m : Mem} {v : List AV}
    (h : Abs env (rep n (kinds e)) m v) : n ≤ m.length := by
  rw [abs_elems he h]; exact Nat.le_mul_of_pos_right n he.1

/-- the serialised form determines the value, and where it ends -/
theorem enc_inj {env : Env} {K : List Item} {m : Mem} {v : List AV} (h : Abs env K m v) : KOk K →
    ∀ {m' : Mem} {v' : List AV} {r r' : List UInt8}, Abs env K m' v' → encL v ++ r = encL v' ++ r' → v = v' ∧ r = r' := by
  have hmax : env.maxAlloc < W := by have := env.hmax; unfold W; omega
  induction h with
  | nil =>
    intro _ m' v' r r' h' he
    cases h'
    exact ⟨rfl, by simpa [encL] using he⟩
  | data _ ih =>
    intro hk m' v' r r' h' he
    cases h' with
    | data h' =>
      simp only [encL, AV.enc, List.cons_append, List.nil_append, List.cons.injEq] at he
      obtain ⟨rfl, he⟩ := he
      obtain ⟨rfl, rfl⟩ := ih (kok_cons hk) h' he
      exact ⟨rfl, rfl⟩
  | pad _ ih =>
    intro hk m' v' r r' h' he
    cases h' with
    | pad h' =>
      simp only [encL, AV.enc, List.cons_append, List.nil_append, List.cons.injEq] at he
      obtain ⟨rfl, he⟩ := he
      obtain ⟨rfl, rfl⟩ := ih (kok_cons hk) h' he
      exact ⟨rfl, rfl⟩
  | @vec cs e K cap buf n flat m v h0 hb hl hm hn ih1 ih2 =>
    intro hk m' v' r r' h' hen
    obtain ⟨D, hD⟩ := hk _ (List.mem_cons_self ..)
    obtain ⟨_, _, he, _⟩ := hD
    cases h' with
    | @vec _ _ _ cap' buf' n' flat' m' v' _ hb' hl' hm' hn' =>
      simp only [encL, AV.enc, List.append_assoc] at hen
      have h1 := List.append_inj hen (by simp [le64_length])
      have c1 := vec_count_le he hb
      have c2 := vec_count_le he hb'
      have := le64_inj (by omega) (by omega) h1.1
      subst this
      obtain ⟨rfl, h2⟩ := ih1 (kok_elems he _) hb' h1.2
      obtain ⟨rfl, rfl⟩ := ih2 (kok_cons hk) hn' h2
      exact ⟨rfl, rfl⟩
  | @str cs K bytes m v h0 hl hn ih =>
    intro hk m' v' r r' h' hen
    cases h' with
    | @str _ _ bytes' m' v' _ hl' hn' =>
      simp only [encL, AV.enc, List.append_assoc] at hen
      have h1 := List.append_inj hen (by simp [le64_length])
      have := le64_inj (by omega) (by omega) h1.1
      obtain ⟨rfl, h2⟩ := List.append_inj h1.2 this
      obtain ⟨rfl, rfl⟩ := ih (kok_cons hk) hn' h2
      exact ⟨rfl, rfl⟩

/-- some value of the items is at the beginning of the input -/
def Fits (env : Env) (K : List Item) (inp : List UInt8) : Prop := ∃ m v r, Abs env K m v ∧ inp = encL v ++ r

/-- the input is the beginning of something that starts with a value of the items -/
def FitsT (env : Env) (K : List Item) (inp : List UInt8) : Prop := ∃ tail, Fits env K (inp ++ tail)

theorem Fits.toT {env : Env} {K : List Item} {inp : List UInt8} (h : Fits env K inp) : FitsT env K inp :=
  ⟨[], by simpa using h⟩

theorem Fits.rest {env : Env} {K1 K : List Item} {m : Mem} {u : List AV} {inp : List UInt8} (hk : KOk K1) (hu : Abs env K1 m u)
    (h : Fits env (K1 ++ K) (encL u ++ inp)) : Fits env K inp := by
  obtain ⟨m', v, r, hv, he⟩ := h
  obtain ⟨m1, m2, v1, v2, rfl, rfl, h1, h2⟩ := hv.split
  rw [encL_append, List.append_assoc] at he
  obtain ⟨rfl, rfl⟩ := enc_inj hu hk h1 he
  exact ⟨m2, v2, r, h2, rfl⟩

theorem FitsT.rest {env : Env} {K1 K : List Item} {m : Mem} {u : List AV} {inp : List UInt8} (hk : KOk K1) (hu : Abs env K1 m u)
    (h : FitsT env (K1 ++ K) (encL u ++ inp)) : FitsT env K inp := by
  obtain ⟨tail, h⟩ := h
  rw [List.append_assoc] at h
  exact ⟨tail, h.rest hk hu⟩

theorem Fits.pre {env : Env} {K1 K : List Item} {inp : List UInt8} (h : Fits env (K1 ++ K) inp) : Fits env K1 inp := by
  obtain ⟨m', v, r, hv, rfl⟩ := h
  obtain ⟨m1, m2, v1, v2, rfl, rfl, h1, h2⟩ := hv.split
  exact ⟨m1, v1, encL v2 ++ r, h1, by simp [encL_append]⟩

theorem FitsT.pre {env : Env} {K1 K : List Item} {inp : List UInt8} (h : FitsT env (K1 ++ K) inp) : FitsT env K1 inp := by
  obtain ⟨tail, h⟩ := h
  exact ⟨tail, h.pre⟩

theorem Fits.bytes_length {env : Env} {n : Nat} {K : List Item} {inp : List UInt8}
    (h : Fits env (List.replicate n .data ++ K) inp) : n ≤ inp.length := by
  obtain ⟨m, v, r, hv, rfl⟩ := h.pre
  obtain ⟨bs, rfl, rfl, rfl⟩ := Abs.bytes (Or.inl rfl) hv
  simp [encL_bytes]

/-- what is expected of the input in front of a container -/
theorem Fits.cont_vec {env : Env} {cs : Nat} {e : Ty} (he : ElemOk e) {K : List Item} {inp : List UInt8}
    (h : Fits env (.cont (.vec cs e) :: K) inp) :
    ∃ n inp', n * e.size ≤ env.maxAlloc ∧ n < W ∧ inp = le64 n ++ inp' ∧ Fits env (rep n (kinds e) ++ K) inp' := by
  have hmax : env.maxAlloc < W := by have := env.hmax; unfold W; omega
  obtain ⟨m, v, r, hv, rfl⟩ := h
  cases hv with
  | @vec _ _ _ cap buf n flat m v _ hb hl hm hn =>
    have := vec_count_le he hb
    have := abs_elems he hb
    refine ⟨n, encL flat ++ (encL v ++ r), by omega, by omega, by simp [encL, AV.enc], _, flat ++ v, r, hb.append hn, by simp [encL_append]⟩

theorem Fits.cont_str {env : Env} {cs : Nat} {K : List Item} {inp : List UInt8}
    (h : Fits env (.cont (.str cs) :: K) inp) :
    ∃ n inp', n ≤ env.maxAlloc ∧ n < W ∧ inp = le64 n ++ inp' ∧ n ≤ inp'.length := by
  have hmax : env.maxAlloc < W := by have := env.hmax; unfold W; omega
  obtain ⟨m, v, r, hv, rfl⟩ := h
  cases hv with
  | @str _ _ bytes m v _ hl hn =>
    exact ⟨bytes.length, bytes ++ (encL v ++ r), hl, by omega, by simp [encL, AV.enc], by simp⟩

/-! ### reading -/

theorem inRead_cases {input : List UInt8} (hin : input.length < HALF) {idx n : Nat} (hidx : idx ≤ input.length) (hn : n < HALF) :
    (∃ bs, bs.length = n ∧ input.drop idx = bs ++ input.drop (idx + n) ∧ idx + n ≤ input.length ∧
      inRead input idx n = .ok (bs, idx + n)) ∨
    ((input.drop idx).length < n ∧ inRead input idx n = .exn .runtime) := by
  have e1 : wadd n idx = n + idx := wadd_eq (by simp only [HALF] at *; unfold W; omega)
  unfold inRead
  rw [e1]
  by_cases h : n + idx > input.length
  · right
    rw [if_pos h]
    exact ⟨by rw [List.length_drop]; omega, rfl⟩
  · left
    rw [if_neg h]
    refine ⟨(input.drop idx).take n, ?_, ?_, by omega, ?_⟩
    · rw [List.length_take, List.length_drop]; omega
    · rw [← List.drop_drop, List.take_append_drop]
    · by_cases h0 : n = 0
      · subst h0; simp
      · rw [if_neg h0, if_pos (by omega)]

end Verif.Value
