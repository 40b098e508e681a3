import Verif.RubySimple

/-!
C69: specification and theorems.
-/

namespace Verif.RubySimple
open Verif Verif.RubyConvert
open Verif.Value (leVal leVal_leBytes leBytes_leVal leVal_lt)
open Verif.Layout (leBytes leBytes_length)
open Verif.RubyBytes (RStr packA packA_eq)

/-! ### Specification -/

/-- the fields, as a list -/
def Fs.toList : Fs → List (Str × T)
  | .nil => []
  | .cons n t rest => (n, t) :: rest.toList

mutual
/-- `v` is a value of the type: numbers have the number of bytes of their type (integers of 1, 2, 4 or 8 bytes, floats of 4 or 8,
enumerations of 4), arrays have as many elements as declared, compounds one value per field. -/
def Ok : T → V → Prop
  | .int _ k, .num bs => CSize k ∧ bs.length = k
  | .char, .num bs => bs.length = 1
  | .bool, .num bs => bs.length = 1
  | .float k, .num bs => (k = 4 ∨ k = 8) ∧ bs.length = k
  | .enum _, .num bs => bs.length = 4
  | .str, .str _ => True
  | .arr n e, .seq l => l.length = n ∧ ∀ v ∈ l, Ok e v
  | .vec e, .seq l => ∀ v ∈ l, Ok e v
  | .comp fs, .seq l => OkFields fs l
  | .other, _ => True
  | _, _ => False
/-- one value of its type per field -/
def OkFields : Fs → List V → Prop
  | .nil, l => l = []
  | .cons _ t rest, v :: vs => Ok t v ∧ OkFields rest vs
  | .cons _ _ _, [] => False
end

mutual
/-- the declarations in the type make sense: integers have 1, 2, 4 or 8 bytes and floats 4 or 8, the fields of a compound have different names, the symbols of an enumeration
are different C strings (made of non-zero bytes) of `int` values -/
def Sound : T → Prop
  | .int _ k => CSize k
  | .float k => k = 4 ∨ k = 8
  | .enum syms => Decl syms ∧ ∀ p ∈ syms, ∀ c ∈ p.1, c.toNat ≠ 0 ∧ c.toNat < 256
  | .arr _ e => Sound e
  | .vec e => Sound e
  | .comp fs => (fs.toList.map (·.1)).Nodup ∧ SoundFields fs
  | _ => True
/-- the types of the fields make sense -/
def SoundFields : Fs → Prop
  | .nil => True
  | .cons _ t rest => Sound t ∧ SoundFields rest
end

/-- an enumeration type -/
def IsEnum : T → Prop
  | .enum _ => True
  | _ => False

mutual
/-- The values that plain Ruby objects represent faithfully:
* integers, but for an `uint64_t` of 2^63 or more
* booleans stored as 0 or 1
* doubles; floats that the conversion to `double` and back preserves
* declared values of enumerations
* strings whose characters are all encoded on one byte
* arrays and compounds of such values
* containers of such values, if they are empty or their elements are not enumerations
and no pointer nor opaque. -/
def Faithful (env : Env) : T → V → Prop
  | .int sg k, .num bs => sg = false → k = 8 → leVal bs < 2 ^ 63
  | .char, .num _ => True
  | .bool, .num bs => bs = [0] ∨ bs = [1]
  | .float k, .num bs => k = 4 → env.narrow (env.widen bs) = bs
  | .enum syms, .num bs => ∃ n z, (n, z) ∈ syms ∧ Holds true 4 (memOf bs) 0 z
  | .str, .str bs => ∀ c ∈ env.chars bs, c.length = 1
  | .arr _ e, .seq l => ∀ v ∈ l, Faithful env e v
  | .vec e, .seq l => l = [] ∨ (¬ IsEnum e ∧ ∀ v ∈ l, Faithful env e v)
  | .comp fs, .seq l => FaithfulFields env fs l
  | _, _ => False
/-- every field is represented faithfully -/
def FaithfulFields (env : Env) : Fs → List V → Prop
  | .nil, _ => True
  | .cons _ t rest, v :: vs => Faithful env t v ∧ FaithfulFields env rest vs
  | .cons _ _ _, [] => False
end

/-- what is assumed of Ruby's encodings: a string is made of its characters, each of at least one byte; and of `float`s: they
have 4 bytes; and of `new`: it returns a value of the type -/
structure Sane (env : Env) : Prop where
  flatten : ∀ bs, (env.chars bs).flatten = bs
  nonempty : ∀ bs, ∀ c ∈ env.chars bs, c ≠ []
  narrow : ∀ d, (env.narrow d).length = 4
  junk : ∀ p t, Sound t → Ok t (env.junk p t)

/-! ### Numbers -/

theorem load_memOf : ∀ (bs : List UInt8), load (memOf bs) 0 bs.length = bs := by
  have key : ∀ (bs : List UInt8) (m : Mem) (a : Nat), (∀ i < bs.length, m (a + i) = bs.getD i 0) → load m a bs.length = bs := by
    intro bs
    induction bs with
    | nil => intros; rfl
    | cons b bs ih =>
      intro m a h
      have h0 := h 0 (by simp)
      simp only [Nat.add_zero, List.getD_cons_zero] at h0
      simp only [List.length_cons, load, h0]
      rw [ih m (a + 1)]
      intro i hi
      have := h (i + 1) (by simp; omega)
      rw [List.getD_cons_succ] at this
      rw [← this]
      congr 1; omega
  intro bs
  exact key bs _ 0 (fun i _ => by simp [memOf])

/-- equal low bytes, equal bytes -/
theorem load_of_lowBytes {k : Nat} {m m' : Mem} {z : Int} : ∀ (a a' : Nat),
    (∀ i < k, m (a + i) = m' (a' + i)) → load m a k = load m' a' k := by
  induction k generalizing z with
  | zero => intros; rfl
  | succ k ih =>
    intro a a' h
    have h0 := h 0 (by omega)
    simp only [Nat.add_zero] at h0
    simp only [load, h0]
    rw [ih (z := z) (a + 1) (a' + 1)]
    intro i hi
    have := h (i + 1) (by omega)
    rw [show a + 1 + i = a + (i + 1) by omega, show a' + 1 + i = a' + (i + 1) by omega, this]

theorem byte_of_lowBytes {k : Nat} {m m' : Mem} {z : Int} (h : LowBytes k m 0 z) (h' : LowBytes k m' 0 z) :
    load m 0 k = load m' 0 k := by
  refine load_of_lowBytes (z := z) 0 0 fun i hi => ?_
  have e := h i hi
  have e' := h' i hi
  apply UInt8.toNat_inj.mp
  omega

theorem putInt_of_lowBytes {sg : Bool} {k : Nat} (hk : CSize k) {bs : List UInt8} (hl : bs.length = k) {z : Int}
    (hz : LowBytes k (memOf bs) 0 z) (ha : Accepted sg k z) : putInt sg k (.int z) = .ok bs := by
  obtain ⟨m', h1, h2, _⟩ := (C52_set sg k hk (memOf []) 0 z).1 ha
  unfold putInt
  rw [h1]
  simp only
  rw [byte_of_lowBytes h2 hz, ← hl, load_memOf]

/-- what the Ruby integer of a number is -/
theorem intToRuby_spec (sg : Bool) (k : Nat) (hk : CSize k) (bs : List UInt8) :
    ∃ z, intToRuby sg k bs = .ok z ∧ LowBytes k (memOf bs) 0 z ∧
      (Accepted sg k z ↔ (sg = false → k = 8 → leVal (load (memOf bs) 0 k) < 2 ^ 63)) := by
  obtain ⟨z, hz, _⟩ := holds_exists sg k hk (memOf bs) 0
  by_cases hx : sg = false ∧ k = 4 ∧ 2147483648 ≤ z
  · obtain ⟨rfl, rfl, hx⟩ := hx
    refine ⟨z - 4294967296, ?_, ?_, ?_⟩
    · unfold intToRuby
      rw [C52_get_u32_counterexample _ _ _ hz hx]
    · have e := hz.2
      intro i hi
      rw [e i hi]
      have : i = 0 ∨ i = 1 ∨ i = 2 ∨ i = 3 := by omega
      rcases this with rfl | rfl | rfl | rfl
      · have e : (256 : Int) ^ 0 = 1 := by decide
        rw [e]; omega
      · have e : (256 : Int) ^ 1 = 256 := by decide
        rw [e]; omega
      · have e : (256 : Int) ^ 2 = 65536 := by decide
        rw [e]; omega
      · have e : (256 : Int) ^ 3 = 16777216 := by decide
        rw [e]; omega
    · have := (hz.1.bounds.2.2.1 rfl).2 rfl
      unfold Accepted
      constructor
      · intro _ _ h; exact absurd h (by decide)
      · intro _
        simp only [show ¬ ((4 : Nat) = 8) by decide, if_false]
        first | omega | (split <;> omega) | (simp; omega)
  · refine ⟨z, ?_, hz.2, ?_⟩
    · unfold intToRuby
      rw [C52_get _ _ hk _ _ _ hz hx]
    · obtain ⟨b1, b2, b4, b8, b8'⟩ := hz.1.bounds
      unfold Accepted
      rcases hk with h | h | h | h
      · have := b1 h
        subst h
        cases sg <;> simp <;> omega
      · have := b2 h
        subst h
        cases sg <;> simp <;> omega
      · have := b4 h
        subst h
        cases sg
        · have := this.2 rfl
          simp; omega
        · have := this.1 rfl
          simp; omega
      · have := b8 h
        have h2 := b8' h
        subst h
        cases sg
        · have hr := readInt_of_holds hz
          unfold readInt at hr
          simp only [Bool.false_eq_true, if_false] at hr
          rw [if_pos rfl]
          constructor
          · intro h _ _; omega
          · intro h
            have := h rfl rfl
            omega
        · have := h2 rfl
          rw [if_pos rfl]
          constructor
          · intro _ h; exact absurd h (by decide)
          · intro _; omega

theorem int_roundtrip {env : Env} {sg : Bool} {k : Nat} {bs : List UInt8} (hk : CSize k) (hl : bs.length = k) :
    ∃ z, intToRuby sg k bs = .ok z ∧ ((sg = false → k = 8 → leVal bs < 2 ^ 63) →
        intFromRuby env sg k (.int z) = .ok bs) ∧
      (¬ (sg = false → k = 8 → leVal bs < 2 ^ 63) → intFromRuby env sg k (.int z) = .error .range) := by
  obtain ⟨z, h1, h2, h3⟩ := intToRuby_spec sg k hk bs
  have e : load (memOf bs) 0 k = bs := by rw [← hl]; exact load_memOf bs
  rw [e] at h3
  refine ⟨z, h1, fun h => putInt_of_lowBytes hk hl h2 (h3.mpr h), fun h => ?_⟩
  have := (C52_set sg k hk (memOf []) 0 z).2 (fun ha => h (h3.mp ha))
  show putInt sg k (.int z) = _
  unfold putInt
  rw [this]
  rfl

theorem putEnum_of_holds {syms : List (Str × Int)} (hd : Decl syms) {bs : List UInt8} (hl : bs.length = 4) {v : RVal} {z : Int}
    (hz : Holds true 4 (memOf bs) 0 z) (hv : Denotes syms v z) : putEnum syms v = .ok bs := by
  obtain ⟨m', h1, h2, _⟩ := (C52_enum_set syms hd (memOf []) 0 v).1 z hv
  unfold putEnum
  rw [h1]
  simp only
  have := byte_of_lowBytes h2.2 hz.2
  rw [this, ← hl, load_memOf]

theorem cstr_nameBytes {n : Str} (h : ∀ c ∈ n, c.toNat ≠ 0 ∧ c.toNat < 256) : cstr (nameBytes n) = n := by
  unfold cstr nameBytes
  induction n with
  | nil => rfl
  | cons c n ih =>
    have hc := h c (by simp)
    have e : (UInt8.ofNat c.toNat).toNat = c.toNat := by
      rw [UInt8.toNat_ofNat']; exact Nat.mod_eq_of_lt hc.2
    have hne : UInt8.ofNat c.toNat ≠ 0 := by
      intro h0
      rw [h0] at e
      exact hc.1 e.symm
    simp only [List.map_cons, List.takeWhile_cons, hne, ne_eq, not_false_eq_true, decide_true, if_true, e, List.map_cons,
      Char.ofNat_toNat, List.cons.injEq, true_and]
    exact ih fun c hc => h c (by simp [hc])

theorem all_one {s : RStr} (hne : ∀ c ∈ s, c ≠ []) : s.length = s.flatten.length ↔ ∀ c ∈ s, c.length = 1 := by
  induction s with
  | nil => simp
  | cons c s ih =>
    have hle : ∀ s : RStr, (∀ c ∈ s, c ≠ []) → s.length ≤ s.flatten.length := by
      intro s hs
      induction s with
      | nil => simp
      | cons c s ih =>
        have := ih fun c hc => hs c (by simp [hc])
        have hc := hs c (by simp)
        have : 0 < c.length := List.length_pos_iff.mpr hc
        simp only [List.flatten_cons, List.length_append, List.length_cons]; omega
    have h1 := hle s fun c hc => hne c (by simp [hc])
    have hc : 0 < c.length := List.length_pos_iff.mpr (hne c (by simp))
    have := ih fun c hc => hne c (by simp [hc])
    simp only [List.flatten_cons, List.length_append, List.length_cons, List.mem_cons, forall_eq_or_imp]
    rw [← this]
    omega

theorem packA_faithful {s : RStr} (hne : ∀ c ∈ s, c ≠ []) :
    packA s.length s.flatten = s.flatten ↔ ∀ c ∈ s, c.length = 1 := by
  obtain ⟨h1, h2⟩ := packA_eq hne
  change packA s.length s.flatten = s.flatten.take s.length at h1
  change s.length ≤ s.flatten.length at h2
  rw [h1, ← all_one hne]
  constructor
  · intro h
    have := congrArg List.length h
    rw [List.length_take] at this
    omega
  · intro h
    rw [h, List.take_length]

/-! ### Lists -/

theorem mapAll_ok {α β : Type} {f : α → Except Exn β} {l : List α} {r : List β} :
    mapAll f l = .ok r ↔ l.length = r.length ∧ ∀ (i : Nat) a, l[i]? = some a → ∃ b, r[i]? = some b ∧ f a = .ok b := by
  induction l generalizing r with
  | nil =>
    simp only [mapAll, Except.ok.injEq]
    constructor
    · intro h; subst h; simp
    · rintro ⟨h, _⟩
      exact (List.length_eq_zero_iff.mp h.symm).symm
  | cons a l ih =>
    simp only [mapAll]
    cases hf : f a with
    | error e =>
      simp only [reduceCtorEq, false_iff]
      rintro ⟨_, h⟩
      obtain ⟨b, _, hb⟩ := h 0 a rfl
      rw [hf] at hb; cases hb
    | ok b =>
      cases hm : mapAll f l with
      | error e =>
        simp only [reduceCtorEq, false_iff]
        rintro ⟨hlen, h⟩
        cases r with
        | nil => simp at hlen
        | cons b' r =>
          have := (ih (r := r)).mpr ⟨by simpa using hlen, fun i a hi => h (i + 1) a hi⟩
          rw [hm] at this; cases this
      | ok bs =>
        obtain ⟨h1, h2⟩ := (ih (r := bs)).mp hm
        constructor
        · intro h
          simp only [Except.ok.injEq] at h
          subst h
          refine ⟨by simp [h1], fun i a' hi => ?_⟩
          cases i with
          | zero => simp at hi; subst hi; exact ⟨b, rfl, hf⟩
          | succ i => exact h2 i a' hi
        · rintro ⟨hlen, h⟩
          cases r with
          | nil => simp at hlen
          | cons b' r =>
            obtain ⟨b'', hb, hb'⟩ := h 0 a rfl
            have := (ih (r := r)).mpr ⟨by simpa using hlen, fun i a hi => h (i + 1) a hi⟩
            rw [hm] at this
            rw [hf] at hb'
            simp at hb hb' this
            rw [this, hb', hb]

theorem mapIdx_ok {α β : Type} {f : Nat → α → Except Exn β} {k : Nat} {l : List α} {r : List β} :
    mapIdx f k l = .ok r ↔ l.length = r.length ∧
      ∀ (i : Nat) a, l[i]? = some a → ∃ b, r[i]? = some b ∧ f (k + i) a = .ok b := by
  induction l generalizing r k with
  | nil =>
    simp only [mapIdx, Except.ok.injEq]
    constructor
    · intro h; subst h; simp
    · rintro ⟨h, _⟩
      exact (List.length_eq_zero_iff.mp h.symm).symm
  | cons a l ih =>
    simp only [mapIdx]
    have shift : ∀ {r' : List β}, (∀ (i : Nat) a, l[i]? = some a → ∃ b, r'[i]? = some b ∧ f (k + 1 + i) a = .ok b) ↔
        (∀ (i : Nat) a, l[i]? = some a → ∃ b, r'[i]? = some b ∧ f (k + (i + 1)) a = .ok b) := by
      intro r'
      constructor <;> intro h i a hi
      · rw [show k + (i + 1) = k + 1 + i by omega]; exact h i a hi
      · rw [show k + 1 + i = k + (i + 1) by omega]; exact h i a hi
    cases hf : f k a with
    | error e =>
      simp only [reduceCtorEq, false_iff]
      rintro ⟨_, h⟩
      obtain ⟨b, _, hb⟩ := h 0 a rfl
      rw [Nat.add_zero, hf] at hb; cases hb
    | ok b =>
      cases hm : mapIdx f (k + 1) l with
      | error e =>
        simp only [reduceCtorEq, false_iff]
        rintro ⟨hlen, h⟩
        cases r with
        | nil => simp at hlen
        | cons b' r =>
          have := (ih (r := r) (k := k + 1)).mpr ⟨by simpa using hlen, shift.mpr fun i a hi => h (i + 1) a hi⟩
          rw [hm] at this; cases this
      | ok bs =>
        obtain ⟨h1, h2⟩ := (ih (r := bs) (k := k + 1)).mp hm
        constructor
        · intro h
          simp only [Except.ok.injEq] at h
          subst h
          refine ⟨by simp [h1], fun i a' hi => ?_⟩
          cases i with
          | zero => simp at hi; subst hi; exact ⟨b, rfl, hf⟩
          | succ i => exact shift.mp h2 i a' hi
        · rintro ⟨hlen, h⟩
          cases r with
          | nil => simp at hlen
          | cons b' r =>
            obtain ⟨b'', hb, hb'⟩ := h 0 a rfl
            have := (ih (r := r) (k := k + 1)).mpr ⟨by simpa using hlen, shift.mpr fun i a hi => h (i + 1) a hi⟩
            rw [hm] at this
            rw [Nat.add_zero, hf] at hb'
            simp at hb hb' this
            rw [this, hb', hb]

theorem map_ok {α β : Type} {f : α → β} {r : Except Exn α} {b : β} : r.map f = .ok b ↔ ∃ a, r = .ok a ∧ f a = b := by
  cases r with
  | error e => simp [Except.map]
  | ok a => simp [Except.map]

/-! ### Fields -/

theorem setField_ok {env : Env} {p : List Nat} {k : Str} {s : S} : ∀ (fs : Fs) (cur cur' : List V),
    cur.length = fs.toList.length → (fs.toList.map (·.1)).Nodup →
    (setField env fs p k s cur = .ok cur' ↔
      ∃ (j : Nat) (t : T) (v : V), fs.toList[j]? = some (k, t) ∧ fromRuby env t p s = .ok v ∧ cur' = cur.set j v) := by
  intro fs
  induction fs using Fs.rec (motive_1 := fun _ => True) with
  | int => trivial
  | char => trivial
  | bool => trivial
  | float => trivial
  | enum => trivial
  | str => trivial
  | arr => trivial
  | vec => trivial
  | comp => trivial
  | other => trivial
  | nil => intro cur cur' _ _; simp [setField, Fs.toList]
  | cons n t rest _ ih =>
    intro cur cur' hl hn
    cases cur with
    | nil => simp [Fs.toList] at hl
    | cons c cur =>
      simp only [Fs.toList, List.length_cons, Nat.add_right_cancel_iff, List.map_cons, List.nodup_cons] at hl hn
      simp only [setField, List.tail_cons, List.headD_cons]
      by_cases h : n = k
      · subst h
        rw [if_pos rfl]
        constructor
        · intro hh
          cases hf : fromRuby env t p s with
          | error e => rw [hf] at hh; simp at hh
          | ok v =>
            rw [hf] at hh
            simp only [Except.ok.injEq] at hh
            exact ⟨0, t, v, by simp [Fs.toList], hf, by simp [hh]⟩
        · rintro ⟨j, t', v, h1, h2, h3⟩
          cases j with
          | zero =>
            simp only [Fs.toList, List.getElem?_cons_zero, Option.some.injEq, Prod.mk.injEq, true_and] at h1
            subst h1
            rw [h2]
            simp [h3]
          | succ j =>
            simp only [Fs.toList, List.getElem?_cons_succ] at h1
            exact absurd (List.mem_map.mpr ⟨_, List.mem_of_getElem? h1, rfl⟩) hn.1
      · rw [if_neg h]
        have ih' := fun c' => ih cur c' hl hn.2
        constructor
        · intro hh
          cases hf : setField env rest p k s cur with
          | error e => rw [hf] at hh; simp at hh
          | ok vs =>
            rw [hf] at hh
            simp only [Except.ok.injEq] at hh
            obtain ⟨j, t', v, h1, h2, h3⟩ := (ih' vs).mp hf
            exact ⟨j + 1, t', v, h1, h2, by rw [← hh, h3]; rfl⟩
        · rintro ⟨j, t', v, h1, h2, h3⟩
          cases j with
          | zero =>
            simp only [Fs.toList, List.getElem?_cons_zero, Option.some.injEq, Prod.mk.injEq] at h1
            exact absurd h1.1 h
          | succ j =>
            have := (ih' _).mpr ⟨j, t', v, h1, h2, rfl⟩
            rw [this]
            simp [h3]

/-- two fields of the same name are the same -/
theorem field_unique {l : List (Str × T)} (hn : (l.map (·.1)).Nodup) {i j : Nat} {k : Str} {t t' : T}
    (hi : l[i]? = some (k, t)) (hj : l[j]? = some (k, t')) : i = j := by
  have e1 : (l.map (·.1))[i]? = some k := by simp [hi]
  have e2 : (l.map (·.1))[j]? = some k := by simp [hj]
  obtain ⟨h1, e1⟩ := List.getElem?_eq_some_iff.mp e1
  obtain ⟨h2, e2⟩ := List.getElem?_eq_some_iff.mp e2
  exact (List.getElem_inj hn).mp (e1.trans e2.symm)

theorem assignAll_ok {env : Env} {fs : Fs} {p : List Nat} (hn : (fs.toList.map (·.1)).Nodup) :
    ∀ (l : List (Str × S)) (i : Nat) (cur cur' : List V), (l.map (·.1)).Nodup → cur.length = fs.toList.length →
    (assignAll (fun i k s cur => setField env fs (i :: p) k s cur) i l cur = .ok cur' ↔
      cur'.length = cur.length ∧
      (∀ (a : Nat) k s, l[a]? = some (k, s) → ∃ (j : Nat) (t : T) (v : V), fs.toList[j]? = some (k, t) ∧
        fromRuby env t ((i + a) :: p) s = .ok v ∧ cur'[j]? = some v) ∧
      (∀ (j : Nat) n t, fs.toList[j]? = some (n, t) → n ∉ l.map (·.1) → cur'[j]? = cur[j]?)) := by
  intro l
  induction l with
  | nil =>
    intro i cur cur' _ hl
    simp only [assignAll, Except.ok.injEq]
    constructor
    · intro h; subst h; simp
    · rintro ⟨h1, _, h3⟩
      apply List.ext_getElem?
      intro j
      by_cases hj : j < cur.length
      · have := h3 j (fs.toList[j]'(by omega)).1 (fs.toList[j]'(by omega)).2 (by simp [List.getElem?_eq_getElem (show j < fs.toList.length by omega)])
          (by simp)
        exact this.symm
      · rw [List.getElem?_eq_none (by omega), List.getElem?_eq_none (by omega)]
  | cons x l ih =>
    obtain ⟨k, s⟩ := x
    intro i cur cur' hk hl
    simp only [List.map_cons, List.nodup_cons] at hk
    simp only [assignAll]
    constructor
    · intro h
      cases hf : setField env fs (i :: p) k s cur with
      | error e => rw [hf] at h; simp at h
      | ok c1 =>
        rw [hf] at h
        simp only at h
        obtain ⟨j, t, v, h1, h2, h3⟩ := (setField_ok fs cur c1 hl hn).mp hf
        have hlen : c1.length = cur.length := by rw [h3, List.length_set]
        obtain ⟨g1, g2, g3⟩ := (ih (i + 1) c1 cur' hk.2 (by omega)).mp h
        refine ⟨by omega, ?_, ?_⟩
        · intro a k' s' ha
          cases a with
          | zero =>
            simp only [List.getElem?_cons_zero, Option.some.injEq, Prod.mk.injEq] at ha
            obtain ⟨rfl, rfl⟩ := ha
            refine ⟨j, t, v, h1, h2, ?_⟩
            rw [g3 j _ t h1 hk.1, h3, List.getElem?_set_self (by
              have := (List.getElem?_eq_some_iff.mp h1).1; omega)]
          | succ a =>
            obtain ⟨j', t', v', e1, e2, e3⟩ := g2 a k' s' ha
            exact ⟨j', t', v', e1, by rw [show i + (a + 1) = i + 1 + a by omega]; exact e2, e3⟩
        · intro j' n t' hj' hnot
          simp only [List.map_cons, List.mem_cons, not_or] at hnot
          rw [g3 j' n t' hj' hnot.2, h3, List.getElem?_set_ne]
          intro he
          subst he
          rw [h1] at hj'
          simp only [Option.some.injEq, Prod.mk.injEq] at hj'
          exact hnot.1 hj'.1.symm
    · rintro ⟨g1, g2, g3⟩
      obtain ⟨j, t, v, e1, e2, e3⟩ := g2 0 k s rfl
      have hf := (setField_ok (env := env) (p := i :: p) (s := s) fs cur (cur.set j v) hl hn).mpr ⟨j, t, v, e1, e2, rfl⟩
      rw [hf]
      simp only
      refine (ih (i + 1) _ cur' hk.2 (by rw [List.length_set]; exact hl)).mpr ⟨by rw [List.length_set]; exact g1, ?_, ?_⟩
      · intro a k' s' ha
        obtain ⟨j', t', v', e1, e2, e3⟩ := g2 (a + 1) k' s' ha
        exact ⟨j', t', v', e1, by rw [show i + 1 + a = i + (a + 1) by omega]; exact e2, e3⟩
      · intro j' n t' hj' hnot
        by_cases he : n = k
        · subst he
          have := field_unique hn hj' e1
          subst this
          rw [e3, List.getElem?_set_self (by have := (List.getElem?_eq_some_iff.mp e1).1; omega)]
        · rw [g3 j' n t' hj' (by simp [he, hnot]), List.getElem?_set_ne]
          intro hjj
          subst hjj
          rw [e1] at hj'
          simp only [Option.some.injEq, Prod.mk.injEq] at hj'
          exact he hj'.1.symm

theorem okFields_iff : ∀ (fs : Fs) (l : List V), OkFields fs l ↔ l.length = fs.toList.length ∧
    ∀ (j : Nat) n t v, fs.toList[j]? = some (n, t) → l[j]? = some v → Ok t v := by
  intro fs
  induction fs using Fs.rec (motive_1 := fun _ => True) with
  | int => trivial
  | char => trivial
  | bool => trivial
  | float => trivial
  | enum => trivial
  | str => trivial
  | arr => trivial
  | vec => trivial
  | comp => trivial
  | other => trivial
  | nil => intro l; simp [OkFields, Fs.toList]
  | cons n t rest _ ih =>
    intro l
    cases l with
    | nil => simp [OkFields, Fs.toList]
    | cons v l =>
      simp only [OkFields, Fs.toList, List.length_cons, Nat.add_right_cancel_iff, ih l]
      constructor
      · rintro ⟨h1, h2, h3⟩
        refine ⟨h2, fun j n' t' v' hj hv => ?_⟩
        cases j with
        | zero => simp at hj hv; rw [← hj.2, ← hv]; exact h1
        | succ j => exact h3 j n' t' v' hj hv
      · rintro ⟨h1, h2⟩
        exact ⟨h2 0 n t v rfl rfl, h1, fun j n' t' v' hj hv => h2 (j + 1) n' t' v' hj hv⟩

theorem faithfulFields_iff {env : Env} : ∀ (fs : Fs) (l : List V), l.length = fs.toList.length →
    (FaithfulFields env fs l ↔
      ∀ (j : Nat) n t v, fs.toList[j]? = some (n, t) → l[j]? = some v → Faithful env t v) := by
  intro fs
  induction fs using Fs.rec (motive_1 := fun _ => True) with
  | int => trivial
  | char => trivial
  | bool => trivial
  | float => trivial
  | enum => trivial
  | str => trivial
  | arr => trivial
  | vec => trivial
  | comp => trivial
  | other => trivial
  | nil => intro l _; simp [FaithfulFields, Fs.toList]
  | cons n t rest _ ih =>
    intro l hl
    cases l with
    | nil => simp [Fs.toList] at hl
    | cons v l =>
      simp only [Fs.toList, List.length_cons, Nat.add_right_cancel_iff] at hl
      simp only [FaithfulFields, Fs.toList, ih l hl]
      constructor
      · rintro ⟨h1, h3⟩ j n' t' v' hj hv
        cases j with
        | zero => simp at hj hv; rw [← hj.2, ← hv]; exact h1
        | succ j => exact h3 j n' t' v' hj hv
      · intro h2
        exact ⟨h2 0 n t v rfl rfl, fun j n' t' v' hj hv => h2 (j + 1) n' t' v' hj hv⟩

theorem hashPut_new {k : Str} {s : S} : ∀ {l : List (Str × S)}, k ∉ l.map (·.1) → hashPut k s l = l ++ [(k, s)] := by
  intro l
  induction l with
  | nil => intro _; rfl
  | cons p l ih =>
    intro h
    simp only [List.map_cons, List.mem_cons, not_or] at h
    simp only [hashPut]
    rw [if_neg (fun e => h.1 e.symm), ih h.2]
    rfl

/-- `to_simple_value` of a compound: one entry per field, in order -/
theorem fieldsToSimple_ok {env : Env} {opt : Special} : ∀ (fs : Fs) (l : List V) (acc r : List (Str × S)),
    l.length = fs.toList.length → (acc.map (·.1) ++ fs.toList.map (·.1)).Nodup →
    (fieldsToSimple env opt fs l acc = .ok r ↔ ∃ r' : List (Str × S), r = acc ++ r' ∧ r'.map (·.1) = fs.toList.map (·.1) ∧
      ∀ (j : Nat) n t v, fs.toList[j]? = some (n, t) → l[j]? = some v →
        ∃ s, r'[j]? = some (n, s) ∧ toSimple env opt t v = .ok s) := by
  intro fs
  induction fs using Fs.rec (motive_1 := fun _ => True) with
  | int => trivial
  | char => trivial
  | bool => trivial
  | float => trivial
  | enum => trivial
  | str => trivial
  | arr => trivial
  | vec => trivial
  | comp => trivial
  | other => trivial
  | nil =>
    intro l acc r _ _
    simp only [fieldsToSimple, Except.ok.injEq, Fs.toList, List.map_nil, List.map_eq_nil_iff]
    constructor
    · intro h; exact ⟨[], by simp [h], rfl, by simp⟩
    · rintro ⟨r', h, h', _⟩; rw [h, h']; simp
  | cons n t rest _ ih =>
    intro l acc r hl hn
    cases l with
    | nil => simp [Fs.toList] at hl
    | cons v l =>
      simp only [Fs.toList, List.length_cons, Nat.add_right_cancel_iff, List.map_cons] at hl hn
      have hnew : n ∉ acc.map (·.1) := by
        intro h
        exact (List.nodup_append.mp hn).2.2 n h n (by simp) rfl
      have hn' : ∀ s : S, ((acc ++ [(n, s)]).map (·.1) ++ rest.toList.map (·.1)).Nodup := by
        intro s
        rw [List.map_append, List.append_assoc]
        exact hn
      simp only [fieldsToSimple]
      constructor
      · intro h
        cases hs : toSimple env opt t v with
        | error e => rw [hs] at h; simp at h
        | ok s =>
          rw [hs] at h
          simp only at h
          rw [hashPut_new hnew] at h
          obtain ⟨r', h1, h2, h3⟩ := (ih l _ r hl (hn' s)).mp h
          refine ⟨(n, s) :: r', by rw [h1]; simp, by simp [Fs.toList, h2], fun j n' t' v' hj hv => ?_⟩
          cases j with
          | zero =>
            simp only [Fs.toList, List.getElem?_cons_zero, Option.some.injEq, Prod.mk.injEq] at hj hv
            obtain ⟨rfl, rfl⟩ := hj
            subst hv
            exact ⟨s, rfl, hs⟩
          | succ j => exact h3 j n' t' v' hj hv
      · rintro ⟨r', h1, h2, h3⟩
        cases r' with
        | nil => simp [Fs.toList] at h2
        | cons x r' =>
          obtain ⟨s, hx, hs⟩ := h3 0 n t v rfl rfl
          simp only [List.getElem?_cons_zero, Option.some.injEq] at hx
          subst hx
          rw [hs]
          simp only
          rw [hashPut_new hnew]
          refine (ih l _ r hl (hn' s)).mpr ⟨r', by rw [h1]; simp, ?_, fun j n' t' v' hj hv => h3 (j + 1) n' t' v' hj hv⟩
          simpa [Fs.toList] using h2

/-! ### The round trip -/

/-- the two directions for one value -/
def Trip (env : Env) (t : T) (v : V) : Prop :=
  (Faithful env t v → ∃ s, toSimple env .none t v = .ok s ∧ ∀ p, fromRuby env t p s = .ok v) ∧
  (∀ s p, toSimple env .none t v = .ok s → fromRuby env t p s = .ok v → Faithful env t v)

theorem rescue_ok {α : Type} {r : Except Exn α} {a : α} : rescueType r = .ok a ↔ r = .ok a := by
  cases r with
  | ok b => simp [rescueType]
  | error e => cases e <;> simp [rescueType]

theorem numFromRuby_ok {env : Env} {sg : Bool} {k : Nat} {s : S} {v : V} :
    numFromRuby env sg k s = .ok v ↔ ∃ bs, intFromRuby env sg k s = .ok bs ∧ .num bs = v := by
  unfold numFromRuby
  rw [map_ok]
  simp only [rescue_ok]

theorem trip_int {env : Env} {sg : Bool} {k : Nat} {v : V} (h : Ok (.int sg k) v) : Trip env (.int sg k) v := by
  cases v with
  | num bs =>
    obtain ⟨hk, hl⟩ := h
    obtain ⟨z, h1, h2, h3⟩ := int_roundtrip (env := env) (sg := sg) hk hl
    have e : toSimple env .none (.int sg k) (.num bs) = .ok (.int z) := by simp only [toSimple, h1]; rfl
    refine ⟨fun hf => ⟨.int z, e, fun p => ?_⟩, fun s p hs hr => ?_⟩
    · exact numFromRuby_ok.mpr ⟨bs, h2 hf, rfl⟩
    · rw [e] at hs
      cases hs
      by_cases hf : sg = false → k = 8 → leVal bs < 2 ^ 63
      · exact hf
      · obtain ⟨bs', hb, _⟩ := numFromRuby_ok.mp hr
        rw [h3 hf] at hb
        cases hb
  | str bs => exact absurd h (by simp [Ok])
  | seq l => exact absurd h (by simp [Ok])

theorem trip_char {env : Env} {v : V} (h : Ok .char v) : Trip env .char v := by
  cases v with
  | num bs =>
    obtain ⟨z, h1, h2, _⟩ := int_roundtrip (env := env) (sg := true) (k := 1) (bs := bs) (by simp [CSize]) h
    refine ⟨fun _ => ⟨.int z, by simp only [toSimple, h1]; rfl, fun p => ?_⟩, fun _ _ _ _ => by simp [Faithful]⟩
    exact numFromRuby_ok.mpr ⟨bs, h2 (by simp), rfl⟩
  | str bs => exact absurd h (by simp [Ok])
  | seq l => exact absurd h (by simp [Ok])

theorem byte_int (b : UInt8) : ∃ z, intToRuby true 1 [b] = .ok z ∧ (z = 0 ↔ b = 0) := by
  obtain ⟨z, h1, h2, _⟩ := intToRuby_spec true 1 (by simp [CSize]) [b]
  obtain ⟨z', hz', _⟩ := holds_exists true 1 (by simp [CSize]) (memOf [b]) 0
  have e := C52_get true 1 (by simp [CSize]) _ _ _ hz' (by simp)
  refine ⟨z', by unfold intToRuby; rw [e], ?_⟩
  have hb := hz'.2 0 (by decide)
  have hr := hz'.1.bounds.1 rfl
  have hm : memOf [b] (0 + 0) = b := rfl
  have p0 : (256 : Int) ^ 0 = 1 := by decide
  rw [hm, p0] at hb
  have hin := hz'.1
  unfold InRange at hin
  have p1 : (256 : Nat) ^ 1 = 256 := by decide
  rw [if_pos rfl, p1] at hin
  have : b = 0 ↔ b.toNat = 0 := by
    constructor
    · intro h; rw [h]; rfl
    · intro h; exact UInt8.toNat_inj.mp h
  rw [this]
  omega

theorem put_bool (env : Env) (b : Bool) : numFromRuby env false 1 (.int (if b then 1 else 0)) = .ok (.num [if b then 1 else 0]) := by
  have key : putInt false 1 (.int (if b then 1 else 0)) = .ok [if b then 1 else 0] := by
    refine putInt_of_lowBytes (k := 1) (by simp [CSize]) rfl ?_ ?_
    · intro i hi
      have : i = 0 := by omega
      subst this
      cases b <;> rfl
    · unfold Accepted
      cases b <;> simp
  exact numFromRuby_ok.mpr ⟨_, key, rfl⟩

theorem trip_bool {env : Env} {v : V} (h : Ok .bool v) : Trip env .bool v := by
  cases v with
  | num bs =>
    match bs, h with
    | [b], _ =>
      obtain ⟨z, h1, h2⟩ := byte_int b
      have e : toSimple env .none .bool (.num [b]) = .ok (.bool (z != 0)) := by simp only [toSimple, h1]; rfl
      refine ⟨fun hf => ⟨_, e, fun p => ?_⟩, fun s p hs hr => ?_⟩
      · simp only [fromRuby]
        rw [put_bool]
        simp only [Faithful, List.cons.injEq, and_true] at hf
        rcases hf with rfl | rfl
        · rw [h2.mpr rfl]; rfl
        · have hz : z ≠ 0 := fun hz => absurd (h2.mp hz) (by decide)
          simp [hz]
      · rw [e] at hs
        cases hs
        simp only [fromRuby] at hr
        rw [put_bool] at hr
        simp only [Except.ok.injEq, V.num.injEq, List.cons.injEq, and_true] at hr
        simp only [Faithful, List.cons.injEq, and_true]
        rw [← hr]
        by_cases hz : z = 0 <;> simp [hz]
  | str bs => exact absurd h (by simp [Ok])
  | seq l => exact absurd h (by simp [Ok])

theorem trip_float {env : Env} {k : Nat} {v : V} (h : Ok (.float k) v) : Trip env (.float k) v := by
  cases v with
  | num bs =>
    obtain ⟨hk, hl⟩ := h
    rcases hk with rfl | rfl
    · have e : toSimple env .none (.float 4) (.num bs) = .ok (.float (env.widen bs)) := rfl
      have e' : ∀ p, fromRuby env (.float 4) p (.float (env.widen bs)) = .ok (.num (env.narrow (env.widen bs))) := fun _ => rfl
      refine ⟨fun hf => ⟨_, e, fun p => ?_⟩, fun s p hs hr _ => ?_⟩
      · rw [e', hf rfl]
      · rw [e] at hs
        cases hs
        rw [e'] at hr
        simpa using hr
    · have e : toSimple env .none (.float 8) (.num bs) = .ok (.float (UInt64.ofNat (leVal bs))) := rfl
      have e' : ∀ p, fromRuby env (.float 8) p (.float (UInt64.ofNat (leVal bs))) = .ok (.num (leBytes 8 (UInt64.ofNat (leVal bs)).toNat)) := fun _ => rfl
      refine ⟨fun _ => ⟨_, e, fun p => ?_⟩, fun s p hs hr h48 => absurd h48 (by decide)⟩
      have hlt := leVal_lt bs
      rw [hl] at hlt
      rw [e', UInt64.toNat_ofNat', Nat.mod_eq_of_lt (by
        have : (256 : Nat) ^ 8 = 2 ^ 64 := by decide
        omega), ← hl, leBytes_leVal]
  | str bs => exact absurd h (by simp [Ok])
  | seq l => exact absurd h (by simp [Ok])

theorem trip_enum {env : Env} (he : Sane env) {syms : List (Str × Int)} {v : V} (hs : Sound (.enum syms))
    (h : Ok (.enum syms) v) : Trip env (.enum syms) v := by
  cases v with
  | num bs =>
    obtain ⟨hd, hc⟩ := hs
    change bs.length = 4 at h
    obtain ⟨z, hz, huniq⟩ := holds_exists true 4 (by simp [CSize]) (memOf bs) 0
    rcases C52_enum_get syms (memOf bs) 0 z hz with ⟨n, hn, hg⟩ | ⟨hno, hg⟩
    · have e : toSimple env .none (.enum syms) (.num bs) = .ok (.str (env.chars (nameBytes n))) := by
        simp only [toSimple]; rw [hg]
      refine ⟨fun _ => ⟨_, e, fun p => ?_⟩, fun s p _ _ => ⟨n, z, hn, hz⟩⟩
      simp only [fromRuby, rval]
      rw [he.flatten, putEnum_of_holds hd h hz (show Denotes syms (.str (nameBytes n)) z by
        show (cstr (nameBytes n), z) ∈ syms
        rw [cstr_nameBytes (hc _ hn)]; exact hn)]
      rfl
    · have e : toSimple env .none (.enum syms) (.num bs) = .ok (.str (env.chars [])) := by
        simp only [toSimple]; rw [hg]
      refine ⟨fun ⟨n, z', hn, hz'⟩ => ?_, fun s p hs hr => ?_⟩
      · rw [huniq z' hz'] at hn
        exact absurd hn (hno n)
      · rw [e] at hs
        cases hs
        exfalso
        simp only [fromRuby, rval] at hr
        rw [he.flatten] at hr
        obtain ⟨bs', hb, hv⟩ := map_ok.mp hr
        cases hv
        by_cases hex : ∃ z', Denotes syms (.str []) z'
        · obtain ⟨z', hz'⟩ := hex
          have hlt := hd.ints _ hz'
          obtain ⟨m', e1, e2, _⟩ := (C52_enum_set syms hd (memOf []) 0 (.str [])).1 z' hz'
          unfold putEnum at hb
          rw [e1] at hb
          simp only [Except.ok.injEq] at hb
          have : Holds true 4 (memOf bs) 0 z' := by
            refine ⟨e2.1, fun i hi => ?_⟩
            rw [← e2.2 i hi]
            have hget : ∀ (k : Nat) (m : Mem) (a i : Nat), i < k → (load m a k).getD i 0 = m (a + i) := by
              intro k
              induction k with
              | zero => intro m a i hi; omega
              | succ k ih =>
                intro m a i hi
                cases i with
                | zero => rfl
                | succ i =>
                  simp only [load, List.getD_cons_succ]
                  rw [ih m (a + 1) i (by omega)]
                  congr 1; omega
            have := hget 4 m' 0 i hi
            rw [hb] at this
            show ((memOf bs (0 + i)).toNat : Int) = _
            rw [← this]
            simp [memOf]
          exact hno _ (huniq z' this ▸ hz')
        · obtain ⟨e', he'⟩ := (C52_enum_set syms hd (memOf []) 0 (.str [])).2 (fun z' hz' => hex ⟨z', hz'⟩)
          unfold putEnum at hb
          rw [he'] at hb
          cases hb
  | str bs => exact absurd h (by simp [Ok])
  | seq l => exact absurd h (by simp [Ok])

theorem trip_str {env : Env} (he : Sane env) {v : V} (h : Ok .str v) : Trip env .str v := by
  cases v with
  | num bs => exact absurd h (by simp [Ok])
  | seq l => exact absurd h (by simp [Ok])
  | str bs =>
    have e : toSimple env .none .str (.str bs) = .ok (.str (env.chars bs)) := rfl
    have hp := packA_faithful (he.nonempty bs)
    rw [he.flatten] at hp
    refine ⟨fun hf => ⟨_, e, fun p => ?_⟩, fun s p hs hr => ?_⟩
    · simp only [fromRuby]
      rw [he.flatten, hp.mpr hf]
    · rw [e] at hs
      cases hs
      simp only [fromRuby] at hr
      rw [he.flatten] at hr
      simp only [Except.ok.injEq, V.str.injEq] at hr
      exact hp.mp hr

/-- a list of values, through any conversion of the elements that agrees with `from_ruby` -/
theorem trip_list {env : Env} {e : T} {l : List V} (conv : Nat → S → Except Exn V) (hl : ∀ v ∈ l, Trip env e v)
    (hc : ∀ i s v, conv i s = .ok v → ∃ p, fromRuby env e p s = .ok v) :
    ((∀ v ∈ l, Faithful env e v) → (∀ (i : Nat) s v, (∀ p, fromRuby env e p s = .ok v) → conv i s = .ok v) →
      ∃ ss, mapAll (toSimple env .none e) l = .ok ss ∧ mapIdx conv 0 ss = .ok l) ∧
    (∀ ss, mapAll (toSimple env .none e) l = .ok ss → mapIdx conv 0 ss = .ok l → ∀ v ∈ l, Faithful env e v) := by
  constructor
  · intro hf hconv
    have : ∃ ss : List S, ss.length = l.length ∧ ∀ (i : Nat) v, l[i]? = some v →
        ∃ s, ss[i]? = some s ∧ toSimple env .none e v = .ok s ∧ ∀ p, fromRuby env e p s = .ok v := by
      clear hc hconv
      induction l with
      | nil => exact ⟨[], rfl, by simp⟩
      | cons v l ih =>
        obtain ⟨ss, h1, h2⟩ := ih (fun v hv => hl v (by simp [hv])) (fun v hv => hf v (by simp [hv]))
        obtain ⟨s, hs, hp⟩ := (hl v (by simp)).1 (hf v (by simp))
        refine ⟨s :: ss, by simp [h1], fun i v' hi => ?_⟩
        cases i with
        | zero => simp only [List.getElem?_cons_zero, Option.some.injEq] at hi; subst hi; exact ⟨s, rfl, hs, hp⟩
        | succ i => exact h2 i v' hi
    obtain ⟨ss, h1, h2⟩ := this
    refine ⟨ss, mapAll_ok.mpr ⟨h1.symm, fun i v hi => ?_⟩, mapIdx_ok.mpr ⟨h1, fun i s hi => ?_⟩⟩
    · obtain ⟨s, e1, e2, _⟩ := h2 i v hi
      exact ⟨s, e1, e2⟩
    · have hlt : i < l.length := by rw [← h1]; exact (List.getElem?_eq_some_iff.mp hi).1
      obtain ⟨s', e1, e2, e3⟩ := h2 i l[i] (List.getElem?_eq_getElem hlt)
      rw [hi] at e1
      cases e1
      exact ⟨l[i], List.getElem?_eq_getElem hlt, hconv _ _ _ e3⟩
  · intro ss h1 h2 v hv
    obtain ⟨i, hi⟩ := List.getElem?_of_mem hv
    obtain ⟨_, h1⟩ := mapAll_ok.mp h1
    obtain ⟨_, h2⟩ := mapIdx_ok.mp h2
    obtain ⟨s, hs, e⟩ := h1 i v hi
    obtain ⟨v', hv', e'⟩ := h2 i s hs
    rw [hi] at hv'
    cases hv'
    obtain ⟨p, hp⟩ := hc _ _ _ e'
    exact (hl v hv).2 s p e hp

theorem pushed_ok {env : Env} {e : T} {p : List Nat} {s : S} {v : V} :
    pushed env e (fromRuby env e p) s = .ok v ↔ ¬ IsEnum e ∧ fromRuby env e p s = .ok v := by
  cases e with
  | int sg k =>
    simp only [pushed, IsEnum, not_false_eq_true, true_and, fromRuby, map_ok, numFromRuby_ok]
  | float k =>
    simp only [pushed, IsEnum, not_false_eq_true, true_and, fromRuby, map_ok, rescue_ok]
  | «enum» syms => simp [pushed, IsEnum]
  | other => simp [pushed, IsEnum, fromRuby]
  | char => simp [pushed, IsEnum]
  | bool => simp [pushed, IsEnum]
  | str => simp [pushed, IsEnum]
  | arr n e => simp [pushed, IsEnum]
  | vec e => simp [pushed, IsEnum]
  | comp fs => simp [pushed, IsEnum]

theorem trip_arr {env : Env} {n : Nat} {e : T} (ih : ∀ v, Ok e v → Trip env e v) {v : V} (h : Ok (.arr n e) v) :
    Trip env (.arr n e) v := by
  cases v with
  | num bs => exact absurd h (by simp [Ok])
  | str bs => exact absurd h (by simp [Ok])
  | seq l =>
    obtain ⟨hn, hl⟩ := h
    constructor
    · intro hf
      obtain ⟨ss, h1, h2⟩ := (trip_list (env := env) (e := e) (l := l) (fun i s => fromRuby env e [i] s) (fun v hv => ih v (hl v hv))
        (fun i s v hh => ⟨_, hh⟩)).1 hf (fun i s v hh => hh _)
      have hlen := (mapAll_ok.mp h1).1
      refine ⟨.arr ss, by simp only [toSimple, h1]; rfl, fun p => ?_⟩
      simp only [fromRuby]
      rw [if_neg (by simp only [ne_eq, Decidable.not_not]; omega)]
      obtain ⟨ss', h1', h2'⟩ := (trip_list (env := env) (e := e) (l := l) (fun i s => fromRuby env e (i :: p) s)
        (fun v hv => ih v (hl v hv)) (fun i s v hh => ⟨_, hh⟩)).1 hf (fun i s v hh => hh _)
      rw [h1] at h1'
      cases h1'
      rw [h2']
      rfl
    · intro s p hs hr
      simp only [toSimple] at hs
      obtain ⟨ss, h1, rfl⟩ := map_ok.mp hs
      simp only [fromRuby] at hr
      split at hr
      · cases hr
      · obtain ⟨vs, h2, hv⟩ := map_ok.mp hr
        cases hv
        exact (trip_list (env := env) (e := e) (l := l) (fun i s => fromRuby env e (i :: p) s)
          (fun v hv => ih v (hl v hv)) (fun i s v hh => ⟨_, hh⟩)).2 ss h1 h2

theorem trip_vec {env : Env} {e : T} (ih : ∀ v, Ok e v → Trip env e v) {v : V} (h : Ok (.vec e) v) :
    Trip env (.vec e) v := by
  cases v with
  | num bs => exact absurd h (by simp [Ok])
  | str bs => exact absurd h (by simp [Ok])
  | seq l =>
    have hl : ∀ v ∈ l, Ok e v := h
    constructor
    · intro hf
      rcases hf with rfl | ⟨hne, hf⟩
      · exact ⟨.arr [], rfl, fun p => rfl⟩
      · have hex : ∀ p, ∃ ss, mapAll (toSimple env .none e) l = .ok ss ∧
            mapIdx (fun i s => pushed env e (fromRuby env e (i :: p)) s) 0 ss = .ok l := fun p =>
          (trip_list (env := env) (e := e) (l := l) (fun i s => pushed env e (fromRuby env e (i :: p)) s)
            (fun v hv => ih v (hl v hv)) (fun i s v hh => ⟨_, (pushed_ok.mp hh).2⟩)).1 hf
            (fun i s v hh => pushed_ok.mpr ⟨hne, hh _⟩)
        obtain ⟨ss, h1, _⟩ := hex []
        refine ⟨.arr ss, by simp only [toSimple, h1]; rfl, fun p => ?_⟩
        obtain ⟨ss', h1', h2'⟩ := hex p
        rw [h1] at h1'
        cases h1'
        simp only [fromRuby]
        rw [h2']
        rfl
    · intro s p hs hr
      simp only [toSimple] at hs
      obtain ⟨ss, h1, rfl⟩ := map_ok.mp hs
      simp only [fromRuby] at hr
      obtain ⟨vs, h2, hv⟩ := map_ok.mp hr
      cases hv
      have hall := (trip_list (env := env) (e := e) (l := l) (fun i s => pushed env e (fromRuby env e (i :: p)) s)
          (fun v hv => ih v (hl v hv)) (fun i s v hh => ⟨_, (pushed_ok.mp hh).2⟩)).2 ss h1 h2
      cases l with
      | nil => exact .inl rfl
      | cons v l =>
        refine .inr ⟨?_, hall⟩
        obtain ⟨s, hs, _⟩ := (mapAll_ok.mp h1).2 0 v rfl
        obtain ⟨v', _, hp⟩ := (mapIdx_ok.mp h2).2 0 s hs
        exact (pushed_ok.mp hp).1

theorem trip_comp {env : Env} (he : Sane env) {fs : Fs} (hs : Sound (.comp fs))
    (ih : ∀ n t, (n, t) ∈ fs.toList → ∀ v, Ok t v → Trip env t v) {v : V} (h : Ok (.comp fs) v) :
    Trip env (.comp fs) v := by
  cases v with
  | num bs => exact absurd h (by simp [Ok])
  | str bs => exact absurd h (by simp [Ok])
  | seq l =>
    obtain ⟨hlen, hok⟩ := (okFields_iff fs l).mp h
    have hn : (fs.toList.map (·.1)).Nodup := hs.1
    have hn0 : (([] : List (Str × S)).map (·.1) ++ fs.toList.map (·.1)).Nodup := hn
    have hjunk : ∀ p, (env.junk p (.comp fs)).elems.length = fs.toList.length := by
      intro p
      have := he.junk p (.comp fs) hs
      cases hj : env.junk p (.comp fs) with
      | num bs => rw [hj] at this; exact absurd this (by simp [Ok])
      | str bs => rw [hj] at this; exact absurd this (by simp [Ok])
      | seq l' => rw [hj] at this; exact ((okFields_iff fs l').mp this).1
    have trip : ∀ (j : Nat) n t v, fs.toList[j]? = some (n, t) → l[j]? = some v → Trip env t v :=
      fun j n t v hj hv => ih n t (List.mem_of_getElem? hj) v (hok j n t v hj hv)
    constructor
    · intro hf
      have hf' := (faithfulFields_iff fs l hlen).mp hf
      -- the hash
      have : ∃ r : List (Str × S), r.map (·.1) = fs.toList.map (·.1) ∧
          ∀ (j : Nat) n t v, fs.toList[j]? = some (n, t) → l[j]? = some v →
            ∃ s, r[j]? = some (n, s) ∧ toSimple env .none t v = .ok s ∧ ∀ p, fromRuby env t p s = .ok v := by
        have gen : ∀ (F : List (Str × T)) (l : List V), l.length = F.length →
            (∀ (j : Nat) n t v, F[j]? = some (n, t) → l[j]? = some v → Trip env t v) →
            (∀ (j : Nat) n t v, F[j]? = some (n, t) → l[j]? = some v → Faithful env t v) →
            ∃ r : List (Str × S), r.map (·.1) = F.map (·.1) ∧
              ∀ (j : Nat) n t v, F[j]? = some (n, t) → l[j]? = some v →
                ∃ s, r[j]? = some (n, s) ∧ toSimple env .none t v = .ok s ∧ ∀ p, fromRuby env t p s = .ok v := by
          intro F
          induction F with
          | nil => intro l _ _ _; exact ⟨[], rfl, by simp⟩
          | cons x F ihF =>
            obtain ⟨n, t⟩ := x
            intro l hl ht hf
            cases l with
            | nil => simp at hl
            | cons v l =>
              obtain ⟨r, r1, r2⟩ := ihF l (by simpa using hl) (fun j n t v hj hv => ht (j + 1) n t v hj hv)
                (fun j n t v hj hv => hf (j + 1) n t v hj hv)
              obtain ⟨s, hs, hp⟩ := (ht 0 n t v rfl rfl).1 (hf 0 n t v rfl rfl)
              refine ⟨(n, s) :: r, by simp [r1], fun j n' t' v' hj hv => ?_⟩
              cases j with
              | zero =>
                simp only [List.getElem?_cons_zero, Option.some.injEq, Prod.mk.injEq] at hj hv
                obtain ⟨rfl, rfl⟩ := hj
                subst hv
                exact ⟨s, rfl, hs, hp⟩
              | succ j => exact r2 j n' t' v' hj hv
        exact gen _ l hlen trip hf'
      obtain ⟨r, r1, r2⟩ := this
      have e1 : fieldsToSimple env .none fs l [] = .ok r :=
        (fieldsToSimple_ok fs l [] r hlen hn0).mpr ⟨r, rfl, r1, fun j n t v hj hv => by
          obtain ⟨s, h1, h2, _⟩ := r2 j n t v hj hv
          exact ⟨s, h1, h2⟩⟩
      refine ⟨.hash r, by simp only [toSimple, e1]; rfl, fun p => ?_⟩
      have e2 : assignAll (fun i k s cur => setField env fs (i :: p) k s cur) 0 r (env.junk p (.comp fs)).elems = .ok l := by
        refine (assignAll_ok hn r 0 _ l (by rw [r1]; exact hn) (hjunk p)).mpr ⟨by rw [hjunk, hlen], ?_, ?_⟩
        · intro a k s ha
          have hlt : a < fs.toList.length := by
            have h1 := (List.getElem?_eq_some_iff.mp ha).1
            have h2 := congrArg List.length r1
            simp only [List.length_map] at h2
            omega
          have hF : fs.toList[a]? = some (fs.toList[a].1, fs.toList[a].2) := List.getElem?_eq_getElem hlt
          have hV : l[a]? = some (l[a]'(by omega)) := List.getElem?_eq_getElem (by omega)
          obtain ⟨s', h1, h2, h3⟩ := r2 a _ _ _ hF hV
          rw [ha] at h1
          simp only [Option.some.injEq, Prod.mk.injEq] at h1
          obtain ⟨rfl, rfl⟩ := h1
          exact ⟨a, _, _, hF, h3 _, hV⟩
        · intro j n t hj hnot
          rw [r1] at hnot
          exact absurd (List.mem_map.mpr ⟨_, List.mem_of_getElem? hj, rfl⟩) hnot
      simp only [fromRuby]
      rw [e2]
      rfl
    · intro s p hs hr
      simp only [toSimple] at hs
      obtain ⟨r, h1, rfl⟩ := map_ok.mp hs
      obtain ⟨r', hr', r1, r2⟩ := (fieldsToSimple_ok fs l [] r hlen hn0).mp h1
      rw [List.nil_append] at hr'
      subst hr'
      simp only [fromRuby] at hr
      obtain ⟨l', h2, hv⟩ := map_ok.mp hr
      cases hv
      obtain ⟨_, g2, _⟩ := (assignAll_ok hn r 0 _ l (by rw [r1]; exact hn) (hjunk p)).mp h2
      refine (faithfulFields_iff fs l hlen).mpr fun j n t v hj hv => ?_
      obtain ⟨s, hs, hts⟩ := r2 j n t v hj hv
      obtain ⟨j', t', v', e1, e2, e3⟩ := g2 j n s hs
      have := field_unique hn hj e1
      subst this
      rw [hj] at e1
      rw [hv] at e3
      cases e1
      cases e3
      exact (trip j n t v hj hv).2 s _ hts e2

theorem trip {env : Env} (he : Sane env) (t : T) : Sound t → ∀ v, Ok t v → Trip env t v := by
  induction t using T.rec (motive_2 := fun fs => SoundFields fs → ∀ n t, (n, t) ∈ fs.toList → ∀ v, Ok t v → Trip env t v) with
  | int sg k => intro _ v h; exact trip_int h
  | char => intro _ v h; exact trip_char h
  | bool => intro _ v h; exact trip_bool h
  | float k => intro _ v h; exact trip_float h
  | «enum» syms => intro hs v h; exact trip_enum he hs h
  | str => intro _ v h; exact trip_str he h
  | arr n e ih => intro hs v h; exact trip_arr (ih hs) h
  | vec e ih => intro hs v h; exact trip_vec (ih hs) h
  | comp fs ih => intro hs v h; exact trip_comp he hs (ih hs.2) h
  | other =>
    intro _ v _
    exact ⟨fun h => absurd h (by simp [Faithful]), fun s p hs _ => by simp [toSimple] at hs⟩
  | nil => rename_i h _ _; simp [Fs.toList] at h
  | cons n t rest ih ihr =>
    rename_i hs n' t' h v hv
    simp only [Fs.toList, List.mem_cons, Prod.mk.injEq] at h
    rcases h with ⟨_, h⟩ | h
    · rw [h] at hv ⊢; exact ih hs.1 v hv
    · exact ihr hs.2 n' t' h v hv

end Verif.RubySimple
