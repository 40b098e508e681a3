import Verif.RubySimpleProps

/-!
C69: theorems.
-/

namespace Verif.RubySimple
open Verif Verif.RubyConvert
open Verif.Value (leVal leVal_leBytes leBytes_leVal leVal_lt)
open Verif.Layout (leBytes leBytes_length)
open Verif.RubyBytes (RStr packA packA_eq)

/-! ### Specification -/

mutual
/-- the type has no pointer nor opaque in it -/
def Plain : T → Prop
  | .other => False
  | .arr _ e => Plain e
  | .vec e => Plain e
  | .comp fs => PlainFields fs
  | _ => True
/-- nor do the types of the fields -/
def PlainFields : Fs → Prop
  | .nil => True
  | .cons _ t rest => Plain t ∧ PlainFields rest
end

/-- a finite number: the exponent field of the `double` is not all ones (IEEE 754) -/
def Finite (d : UInt64) : Prop := d.toNat / 2 ^ 52 % 2048 ≠ 2047

mutual
/-- no NaN nor infinity in a Ruby object, at any depth -/
def JsonOk : S → Prop
  | .float d => Finite d
  | .arr l => JsonOkList l
  | .hash l => JsonOkHash l
  | _ => True
/-- in a list -/
def JsonOkList : List S → Prop
  | [] => True
  | s :: l => JsonOk s ∧ JsonOkList l
/-- in a hash -/
def JsonOkHash : List (Str × S) → Prop
  | [] => True
  | (_, s) :: l => JsonOk s ∧ JsonOkHash l
end

mutual
/-- replace the floats of a Ruby object, at any depth -/
def mapFloats (f : UInt64 → S) : S → S
  | .float d => f d
  | .arr l => .arr (mapFloatsList f l)
  | .hash l => .hash (mapFloatsHash f l)
  | .int z => .int z
  | .bool b => .bool b
  | .nil => .nil
  | .str s => .str s
/-- in a list -/
def mapFloatsList (f : UInt64 → S) : List S → List S
  | [] => []
  | s :: l => mapFloats f s :: mapFloatsList f l
/-- in a hash -/
def mapFloatsHash (f : UInt64 → S) : List (Str × S) → List (Str × S)
  | [] => []
  | (k, s) :: l => (k, mapFloats f s) :: mapFloatsHash f l
end

/-! ### C69, the round trip -/

/-- **C69, round trip** (partial: the claim without a condition on the value is false): a value that is turned into plain Ruby
objects and back is the same value exactly when those objects represent it faithfully. -/
theorem C69_roundtrip_partial (env : Env) (he : Sane env) (t : T) (ht : Sound t) (v : V) (hv : Ok t v) (p : List Nat) :
    (∃ s, toSimple env .none t v = .ok s ∧ fromRuby env t p s = .ok v) ↔ Faithful env t v := by
  obtain ⟨h1, h2⟩ := trip he t ht v hv
  constructor
  · rintro ⟨s, hs, hr⟩; exact h2 s p hs hr
  · intro hf
    obtain ⟨s, hs, hp⟩ := h1 hf
    exact ⟨s, hs, hp p⟩

/-- **C69, no confusion**: two values that are represented faithfully by the same Ruby object are the same. -/
theorem C69_injective (env : Env) (he : Sane env) (t : T) (ht : Sound t) (v v' : V) (hv : Ok t v) (hv' : Ok t v')
    (hf : Faithful env t v) (hf' : Faithful env t v') (h : toSimple env .none t v = toSimple env .none t v') : v = v' := by
  obtain ⟨s, hs, hp⟩ := (trip he t ht v hv).1 hf
  obtain ⟨s', hs', hp'⟩ := (trip he t ht v' hv').1 hf'
  rw [h, hs'] at hs
  cases hs
  have := hp []
  rw [hp' []] at this
  cases this
  rfl

/-! ### C69, what is representable -/

theorem toSimple_total_list {env : Env} {opt : Special} {e : T} (l : List V) (h : ∀ v ∈ l, ∃ s, toSimple env opt e v = .ok s) :
    ∃ ss, mapAll (toSimple env opt e) l = .ok ss := by
  induction l with
  | nil => exact ⟨[], rfl⟩
  | cons v l ih =>
    obtain ⟨s, hs⟩ := h v (by simp)
    obtain ⟨ss, hss⟩ := ih fun v hv => h v (by simp [hv])
    exact ⟨s :: ss, by simp [mapAll, hs, hss]⟩

theorem toSimple_total (env : Env) (opt : Special) (t : T) : Plain t → ∀ v, Ok t v → ∃ s, toSimple env opt t v = .ok s := by
  induction t using T.rec (motive_2 := fun fs => PlainFields fs → ∀ l, OkFields fs l → ∀ acc,
      ∃ r, fieldsToSimple env opt fs l acc = .ok r) with
  | int sg k =>
    intro _ v h
    cases v with
    | num bs =>
      obtain ⟨z, h1, _⟩ := int_roundtrip (env := env) (sg := sg) h.1 h.2
      exact ⟨.int z, by simp only [toSimple, h1]; rfl⟩
    | str bs => exact absurd h (by simp [Ok])
    | seq l => exact absurd h (by simp [Ok])
  | char =>
    intro _ v h
    cases v with
    | num bs =>
      obtain ⟨z, h1, _⟩ := int_roundtrip (env := env) (sg := true) (k := 1) (bs := bs) (by simp [CSize]) h
      exact ⟨.int z, by simp only [toSimple, h1]; rfl⟩
    | str bs => exact absurd h (by simp [Ok])
    | seq l => exact absurd h (by simp [Ok])
  | bool =>
    intro _ v h
    cases v with
    | num bs =>
      obtain ⟨z, h1, _⟩ := int_roundtrip (env := env) (sg := true) (k := 1) (bs := bs) (by simp [CSize]) h
      exact ⟨.bool (z != 0), by simp only [toSimple, h1]; rfl⟩
    | str bs => exact absurd h (by simp [Ok])
    | seq l => exact absurd h (by simp [Ok])
  | float k =>
    intro _ v h
    cases v with
    | num bs =>
      obtain ⟨hk, _⟩ := h
      rcases hk with rfl | rfl
      · exact ⟨_, rfl⟩
      · exact ⟨_, rfl⟩
    | str bs => exact absurd h (by simp [Ok])
    | seq l => exact absurd h (by simp [Ok])
  | «enum» syms =>
    intro _ v h
    cases v with
    | num bs => exact ⟨_, rfl⟩
    | str bs => exact absurd h (by simp [Ok])
    | seq l => exact absurd h (by simp [Ok])
  | str =>
    intro _ v h
    cases v with
    | str bs => exact ⟨_, rfl⟩
    | num bs => exact absurd h (by simp [Ok])
    | seq l => exact absurd h (by simp [Ok])
  | arr n e ih =>
    intro hp v h
    cases v with
    | seq l =>
      obtain ⟨ss, hss⟩ := toSimple_total_list l fun v hv => ih hp v (h.2 v hv)
      exact ⟨.arr ss, by simp only [toSimple, hss]; rfl⟩
    | num bs => exact absurd h (by simp [Ok])
    | str bs => exact absurd h (by simp [Ok])
  | vec e ih =>
    intro hp v h
    cases v with
    | seq l =>
      obtain ⟨ss, hss⟩ := toSimple_total_list l fun v hv => ih hp v (h v hv)
      exact ⟨.arr ss, by simp only [toSimple, hss]; rfl⟩
    | num bs => exact absurd h (by simp [Ok])
    | str bs => exact absurd h (by simp [Ok])
  | comp fs ih =>
    intro hp v h
    cases v with
    | seq l =>
      obtain ⟨r, hr⟩ := ih hp l h []
      exact ⟨.hash r, by simp only [toSimple, hr]; rfl⟩
    | num bs => exact absurd h (by simp [Ok])
    | str bs => exact absurd h (by simp [Ok])
  | other => intro hp; exact absurd hp (by simp [Plain])
  | nil => exact ⟨_, rfl⟩
  | cons n t rest ih ihr =>
    rename_i hp l hl acc
    cases l with
    | nil => exact absurd hl (by simp [OkFields])
    | cons v l =>
      obtain ⟨s, hs⟩ := ih hp.1 v hl.1
      obtain ⟨r, hr⟩ := ihr hp.2 l hl.2 (hashPut n s acc)
      exact ⟨r, by simp only [fieldsToSimple, hs]; exact hr⟩

/-- **C69, representable**: every value of a type without pointers and opaques has a simple value, and a JSON value. -/
theorem C69_representable (env : Env) (opt : Special) (t : T) (ht : Plain t) (v : V) (hv : Ok t v) :
    ∃ s, toSimple env opt t v = .ok s := toSimple_total env opt t ht v hv

/-! ### C69, what `from_ruby` returns -/

theorem putInt_length {sg : Bool} {k : Nat} {r : RVal} {bs : List UInt8} (h : putInt sg k r = .ok bs) : bs.length = k := by
  unfold putInt at h
  split at h
  · cases h; exact load_length _ _ _
  · cases h
  · cases h

theorem putEnum_length {syms : List (Str × Int)} {r : RVal} {bs : List UInt8} (h : putEnum syms r = .ok bs) : bs.length = 4 := by
  unfold putEnum at h
  split at h
  · cases h; exact load_length _ _ _
  · cases h
  · cases h

theorem intFromRuby_length {env : Env} {sg : Bool} {k : Nat} {s : S} {bs : List UInt8} (h : intFromRuby env sg k s = .ok bs) :
    bs.length = k := by
  unfold intFromRuby at h
  split at h
  · split at h
    · cases h
    · exact putInt_length h
  · exact putInt_length h

theorem num2c_none {sg : Bool} {k : Nat} (hk : ¬ CSize k) : num2c sg k = none := by
  unfold num2c
  split
  all_goals first | rfl | exact absurd (by unfold CSize; omega) hk

theorem setInt_none {sg : Bool} {k : Nat} (hk : ¬ CSize k) (m : Mem) (a : Nat) (r : RVal) :
    setInt sg k m a r = (m, .exn .rbType) := by
  unfold setInt
  rw [num2c_none hk]

theorem intFromRuby_size {env : Env} {sg : Bool} {k : Nat} {s : S} {bs : List UInt8} (h : intFromRuby env sg k s = .ok bs) :
    CSize k := by
  have key : ∀ r, putInt sg k r = .ok bs → CSize k := by
    intro r h
    by_cases hk : CSize k
    · exact hk
    · unfold putInt at h
      rw [setInt_none hk] at h
      cases h
  unfold intFromRuby at h
  split at h
  · split at h
    · cases h
    · exact key _ h
  · exact key _ h

theorem floatFromRuby_length {env : Env} (he : Sane env) {k : Nat} {s : S} {bs : List UInt8} (h : floatFromRuby env k s = .ok bs) :
    (k = 4 ∨ k = 8) ∧ bs.length = k := by
  have key : ∀ d, putFloat env k d = .ok bs → (k = 4 ∨ k = 8) ∧ bs.length = k := by
    intro d h
    unfold putFloat at h
    split at h
    · rename_i hk; cases h; subst hk; exact ⟨.inl rfl, he.narrow d⟩
    · split at h
      · rename_i hk; cases h; subst hk; exact ⟨.inr rfl, leBytes_length _ _⟩
      · cases h
  unfold floatFromRuby at h
  split at h
  · exact key _ h
  · exact key _ h
  · cases h

theorem charFromRuby_num {env : Env} {s : S} {v : V} (h : charFromRuby env s = .ok v) : ∃ bs, v = .num bs ∧ bs.length = 1 := by
  have key : ∀ s, numFromRuby env true 1 s = .ok v → ∃ bs, v = .num bs ∧ bs.length = 1 := by
    intro s h
    obtain ⟨bs, h1, h2⟩ := numFromRuby_ok.mp h
    exact ⟨bs, h2.symm, intFromRuby_length h1⟩
  unfold charFromRuby at h
  split at h
  · split at h
    · exact key _ h
    · cases h
  · cases h
  · exact key _ h

theorem assign_valid {env : Env} {fs : Fs} (hn : (fs.toList.map (·.1)).Nodup)
    (ih : ∀ n t, (n, t) ∈ fs.toList → ∀ p s v, fromRuby env t p s = .ok v → Ok t v)
    {p : List Nat} {k : Str} {s : S} {cur cur' : List V} (hc : OkFields fs cur)
    (h : setField env fs p k s cur = .ok cur') : OkFields fs cur' := by
  obtain ⟨h1, h2⟩ := (okFields_iff fs cur).mp hc
  obtain ⟨j, t, v, e1, e2, rfl⟩ := (setField_ok fs cur cur' h1 hn).mp h
  refine (okFields_iff fs _).mpr ⟨by rw [List.length_set]; exact h1, fun j' n' t' v' hj hv => ?_⟩
  by_cases hjj : j = j'
  · subst hjj
    rw [e1] at hj
    cases hj
    rw [List.getElem?_set_self (by rw [h1]; exact (List.getElem?_eq_some_iff.mp e1).1)] at hv
    cases hv
    exact ih _ _ (List.mem_of_getElem? e1) p s _ e2
  · rw [List.getElem?_set_ne hjj] at hv
    exact h2 j' n' t' v' hj hv

theorem assignAll_valid {P : List V → Prop} {f : Nat → Str → S → List V → Except Exn (List V)}
    (hf : ∀ i k s c c', P c → f i k s c = .ok c' → P c') : ∀ (l : List (Str × S)) (i : Nat) (c c' : List V), P c →
    assignAll f i l c = .ok c' → P c' := by
  intro l
  induction l with
  | nil => intro i c c' hp h; cases h; exact hp
  | cons x l ih =>
    intro i c c' hp h
    simp only [assignAll] at h
    cases hx : f i x.1 x.2 c with
    | error e => rw [hx] at h; cases h
    | ok c1 => rw [hx] at h; exact ih _ _ _ (hf _ _ _ _ _ hp hx) h

theorem assignArray_valid {P : List V → Prop} {f : Nat → Str → S → List V → Except Exn (List V)}
    (hf : ∀ i k s c c', P c → f i k s c = .ok c' → P c') : ∀ (l : List S) (ks : List Str) (i : Nat) (c c' : List V), P c →
    assignArray f i ks l c = .ok c' → P c' := by
  intro l
  induction l with
  | nil =>
    intro ks i c c' hp h
    simp only [assignArray] at h
    cases h; exact hp
  | cons x l ih =>
    intro ks i c c' hp h
    cases ks with
    | nil => simp only [assignArray] at h; cases h
    | cons k ks =>
      simp only [assignArray] at h
      cases hx : f i k x c with
      | error e => rw [hx] at h; cases h
      | ok c1 => rw [hx] at h; exact ih _ _ _ _ (hf _ _ _ _ _ hp hx) h

theorem junk_fields {env : Env} (he : Sane env) (p : List Nat) (fs : Fs) (hs : Sound (.comp fs)) : OkFields fs (env.junk p (.comp fs)).elems := by
  have := he.junk p (.comp fs) hs
  cases hj : env.junk p (.comp fs) with
  | num bs => rw [hj] at this; exact absurd this (by simp [Ok])
  | str bs => rw [hj] at this; exact absurd this (by simp [Ok])
  | seq l' => rw [hj] at this; exact this

theorem list_valid {env : Env} {e : T} {conv : Nat → S → Except Exn V} (hc : ∀ i s v, conv i s = .ok v → Ok e v) {l : List S}
    {vs : List V} {k : Nat} (h : mapIdx conv k l = .ok vs) : vs.length = l.length ∧ ∀ v ∈ vs, Ok e v := by
  obtain ⟨h1, h2⟩ := mapIdx_ok.mp h
  refine ⟨h1.symm, fun v hv => ?_⟩
  obtain ⟨i, hi⟩ := List.getElem?_of_mem hv
  have hlt : i < l.length := by rw [h1]; exact (List.getElem?_eq_some_iff.mp hi).1
  obtain ⟨v', e1, e2⟩ := h2 i l[i] (List.getElem?_eq_getElem hlt)
  rw [hi] at e1
  cases e1
  exact hc _ _ _ e2

theorem charsFromRuby_ok {n : Nat} {s : RStr} {v : V} (h : charsFromRuby n s = .ok v) :
    ∃ bs : List UInt8, bs.length = n ∧ v = .seq (bs.map fun b => .num [b]) := by
  unfold charsFromRuby at h
  generalize RubyConvert.fromString n (memOf []) 0 s.flatten = r at h
  obtain ⟨m, r⟩ := r
  cases r with
  | ok u => simp only [charsResult, Except.ok.injEq] at h; exact ⟨_, load_length _ _ _, h.symm⟩
  | exn e => simp [charsResult] at h
  | ub => simp [charsResult] at h
  | fuel => simp [charsResult] at h

theorem fromRuby_valid {env : Env} (he : Sane env) (t : T) : Sound t → ∀ p s v, fromRuby env t p s = .ok v → Ok t v := by
  induction t using T.rec (motive_2 := fun fs => SoundFields fs → ∀ n t, (n, t) ∈ fs.toList →
      ∀ p s v, fromRuby env t p s = .ok v → Ok t v) with
  | int sg k =>
    intro _ p s v h
    simp only [fromRuby] at h
    obtain ⟨bs, h1, rfl⟩ := numFromRuby_ok.mp h
    exact ⟨intFromRuby_size h1, intFromRuby_length h1⟩
  | char =>
    intro _ p s v h
    simp only [fromRuby] at h
    obtain ⟨bs, rfl, hb⟩ := charFromRuby_num h
    exact hb
  | bool =>
    intro _ p s v h
    have key : ∀ s, numFromRuby env false 1 s = .ok v → Ok .bool v := by
      intro s h
      obtain ⟨bs, h1, rfl⟩ := numFromRuby_ok.mp h
      exact intFromRuby_length h1
    simp only [fromRuby] at h
    split at h
    · exact key _ h
    · exact key _ h
  | float k =>
    intro _ p s v h
    simp only [fromRuby, map_ok, rescue_ok] at h
    obtain ⟨bs, h1, rfl⟩ := h
    exact floatFromRuby_length he h1
  | «enum» syms =>
    intro _ p s v h
    simp only [fromRuby, map_ok] at h
    obtain ⟨bs, h1, rfl⟩ := h
    exact putEnum_length h1
  | str =>
    intro _ p s v h
    simp only [fromRuby] at h
    split at h
    · cases h; trivial
    · obtain ⟨vs, _, rfl⟩ := map_ok.mp h; trivial
    · cases h
  | arr n e ih =>
    intro hs p s v h
    cases s with
    | arr l =>
      simp only [fromRuby] at h
      split at h
      · cases h
      · rename_i hn
        obtain ⟨vs, h1, rfl⟩ := map_ok.mp h
        obtain ⟨g1, g2⟩ := list_valid (env := env) (fun i s v hh => ih hs _ s v hh) h1
        simp only [ne_eq, Decidable.not_not] at hn
        exact ⟨g1.trans hn, g2⟩
    | str s =>
      simp only [fromRuby] at h
      unfold stringToArray at h
      split at h
      · obtain ⟨bs, hb, rfl⟩ := charsFromRuby_ok h
        refine ⟨by rw [List.length_map, hb], fun v hv => ?_⟩
        obtain ⟨b, _, rfl⟩ := List.mem_map.mp hv
        simp [Ok]
      · cases h
    | int z => simp [fromRuby] at h
    | float z => simp [fromRuby] at h
    | bool z => simp [fromRuby] at h
    | nil => simp [fromRuby] at h
    | hash z => simp [fromRuby] at h
  | vec e ih =>
    intro hs p s v h
    simp only [fromRuby] at h
    split at h
    · obtain ⟨vs, h1, rfl⟩ := map_ok.mp h
      exact (list_valid (env := env) (fun i s v hh => ih hs _ s v (pushed_ok.mp hh).2) h1).2
    · cases h
  | comp fs ih =>
    intro hs p s v h
    have step : ∀ (i : Nat) (k : Str) (s : S) (c c' : List V), OkFields fs c → setField env fs (i :: p) k s c = .ok c' →
        OkFields fs c' := fun i k s c c' hc hh => assign_valid hs.1 (ih hs.2) hc hh
    simp only [fromRuby] at h
    split at h
    · obtain ⟨vs, h1, rfl⟩ := map_ok.mp h
      exact assignAll_valid step _ _ _ _ (junk_fields he p fs hs) h1
    · obtain ⟨vs, h1, rfl⟩ := map_ok.mp h
      exact assignArray_valid step _ _ _ _ _ (junk_fields he p fs hs) h1
    · cases h
  | other => intro _ p s v h; simp [fromRuby] at h
  | nil => rename_i h _ _ _ _; simp [Fs.toList] at h
  | cons n t rest ih ihr =>
    rename_i hs n' t' h p s v hv
    simp only [Fs.toList, List.mem_cons, Prod.mk.injEq] at h
    rcases h with ⟨_, h⟩ | h
    · rw [h] at hv ⊢; exact ih hs.1 p s v hv
    · exact ihr hs.2 n' t' h p s v hv

/-- **C69, validity**: whatever Ruby object `from_ruby` is given, what it returns is a value of the type: arrays of the declared
length, numbers of the size of their type, one value per field. -/
theorem C69_valid (env : Env) (he : Sane env) (t : T) (ht : Sound t) (p : List Nat) (s : S) (v : V)
    (h : fromRuby env t p s = .ok v) : Ok t v := fromRuby_valid he t ht p s v h

/-- **C69, hashes**: a compound is built from a hash exactly when every key is the name of a field whose type accepts the value.
The fields in the hash get these values, the other ones keep whatever the memory that `new` returned holds. -/
theorem C69_hash (env : Env) (he : Sane env) (fs : Fs) (hs : Sound (.comp fs)) (l : List (Str × S))
    (hk : (l.map (·.1)).Nodup) (p : List Nat) (r : List V) :
    fromRuby env (.comp fs) p (.hash l) = .ok (.seq r) ↔
      r.length = fs.toList.length ∧
      (∀ (a : Nat) k s, l[a]? = some (k, s) → ∃ (j : Nat) (t : T) (v : V), fs.toList[j]? = some (k, t) ∧
        fromRuby env t (a :: p) s = .ok v ∧ r[j]? = some v) ∧
      (∀ (j : Nat) n t, fs.toList[j]? = some (n, t) → n ∉ l.map (·.1) →
        ∀ l', env.junk p (.comp fs) = .seq l' → r[j]? = l'[j]?) := by
  have hn : (fs.toList.map (·.1)).Nodup := hs.1
  have hj := junk_fields he p fs hs
  have hlen := ((okFields_iff fs _).mp hj).1
  have hsome : ∃ l', env.junk p (.comp fs) = .seq l' := by
    have := he.junk p (.comp fs) hs
    cases hj : env.junk p (.comp fs) with
    | num bs => rw [hj] at this; exact absurd this (by simp [Ok])
    | str bs => rw [hj] at this; exact absurd this (by simp [Ok])
    | seq l' => exact ⟨l', rfl⟩
  obtain ⟨l', hl'⟩ := hsome
  have he' : (env.junk p (.comp fs)).elems = l' := by rw [hl']; rfl
  have key := assignAll_ok (env := env) (p := p) hn l 0 l' r hk (by rw [← he']; exact hlen)
  simp only [Nat.zero_add] at key
  simp only [fromRuby, map_ok, he']
  rw [show (∃ a, assignAll (fun i k s cur => setField env fs (i :: p) k s cur) 0 l l' = .ok a ∧ V.seq a = V.seq r) ↔
      assignAll (fun i k s cur => setField env fs (i :: p) k s cur) 0 l l' = .ok r from
    ⟨fun ⟨a, h1, h2⟩ => by cases h2; exact h1, fun h => ⟨r, h, rfl⟩⟩]
  rw [key]
  have hll : l'.length = fs.toList.length := by rw [← he']; exact hlen
  constructor
  · rintro ⟨h1, h2, h3⟩
    refine ⟨by omega, h2, fun j n t hj hnot l'' hl'' => ?_⟩
    rw [hl'] at hl''
    cases hl''
    exact h3 j n t hj hnot
  · rintro ⟨h1, h2, h3⟩
    exact ⟨by omega, h2, fun j n t hj hnot => h3 j n t hj hnot l' hl'⟩

/-! ### C69, JSON -/

/-- what JSON makes of a float: numbers that are not finite become `null` -/
def jsonFloat (d : UInt64) : S := if d.toNat / 2 ^ 52 % 2048 = 2047 then .nil else .float d

/-- with strings instead: `NaN`, `Infinity`, `-Infinity` -/
def stringFloat (d : UInt64) : S :=
  if d.toNat / 2 ^ 52 % 2048 = 2047 then
    if d.toNat % 2 ^ 52 ≠ 0 then .str (asciiStr "NaN")
    else if d.toNat < 2 ^ 63 then .str (asciiStr "Infinity") else .str (asciiStr "-Infinity")
  else .float d

theorem mapFloatsHash_put (f : UInt64 → S) (k : Str) (s : S) : ∀ l, mapFloatsHash f (hashPut k s l) =
    hashPut k (mapFloats f s) (mapFloatsHash f l) := by
  intro l
  induction l with
  | nil => rfl
  | cons x l ih =>
    obtain ⟨k', s'⟩ := x
    simp only [hashPut, mapFloatsHash]
    by_cases h : k' = k
    · rw [if_pos h, if_pos h]; rfl
    · rw [if_neg h, if_neg h, ← ih]; rfl

theorem except_map_map {α β γ : Type} (f : α → β) (g : β → γ) (r : Except Exn α) : (r.map f).map g = r.map (fun a => g (f a)) := by
  cases r <;> rfl

theorem mapAll_mapFloats {e : T} {f g : V → Except Exn S} {F : UInt64 → S} (l : List V)
    (h : ∀ v ∈ l, f v = (g v).map (mapFloats F)) : mapAll f l = (mapAll g l).map (mapFloatsList F) := by
  induction l with
  | nil => rfl
  | cons v l ih =>
    have h1 := h v (by simp)
    have h2 := ih fun v hv => h v (by simp [hv])
    simp only [mapAll, h1, h2]
    cases g v with
    | error e => rfl
    | ok s =>
      cases mapAll g l with
      | error e => rfl
      | ok ss => rfl

theorem toSimple_opt (env : Env) (opt : Special) (t : T) : ∀ v,
    toSimple env opt t v = (toSimple env .none t v).map (mapFloats (special opt)) := by
  induction t using T.rec (motive_2 := fun fs => ∀ l acc,
      fieldsToSimple env opt fs l (mapFloatsHash (special opt) acc) =
        (fieldsToSimple env .none fs l acc).map (mapFloatsHash (special opt))) with
  | int sg k =>
    intro v
    cases v with
    | num bs =>
      simp only [toSimple, except_map_map]
      rfl
    | str bs => rfl
    | seq l => rfl
  | char =>
    intro v
    cases v with
    | num bs =>
      simp only [toSimple, except_map_map]
      rfl
    | str bs => rfl
    | seq l => rfl
  | bool =>
    intro v
    cases v with
    | num bs =>
      simp only [toSimple, except_map_map]
      rfl
    | str bs => rfl
    | seq l => rfl
  | float k =>
    intro v
    cases v with
    | num bs =>
      simp only [toSimple, except_map_map]
      rfl
    | str bs => rfl
    | seq l => rfl
  | «enum» syms =>
    intro v
    cases v with
    | num bs => rfl
    | str bs => rfl
    | seq l => rfl
  | str =>
    intro v
    cases v with
    | num bs => rfl
    | str bs => rfl
    | seq l => rfl
  | arr n e ih =>
    intro v
    cases v with
    | seq l =>
      simp only [toSimple]
      rw [mapAll_mapFloats (e := e) (f := toSimple env opt e) (g := toSimple env .none e) l fun v _ => ih v, except_map_map,
        except_map_map]
      rfl
    | num bs => rfl
    | str bs => rfl
  | vec e ih =>
    intro v
    cases v with
    | seq l =>
      simp only [toSimple]
      rw [mapAll_mapFloats (e := e) (f := toSimple env opt e) (g := toSimple env .none e) l fun v _ => ih v, except_map_map,
        except_map_map]
      rfl
    | num bs => rfl
    | str bs => rfl
  | comp fs ih =>
    intro v
    cases v with
    | seq l =>
      simp only [toSimple]
      rw [show ([] : List (Str × S)) = mapFloatsHash (special opt) [] from rfl, ih l [], except_map_map]
      show _ = (((fieldsToSimple env .none fs l []).map .hash).map (mapFloats (special opt)))
      rw [except_map_map]
      rfl
    | num bs => rfl
    | str bs => rfl
  | other => intro v; cases v <;> rfl
  | nil => rfl
  | cons n t rest ih ihr =>
    rename_i l acc
    cases l with
    | nil => rfl
    | cons v l =>
      simp only [fieldsToSimple]
      rw [ih v]
      cases toSimple env .none t v with
      | error e => rfl
      | ok s =>
        simp only [Except.map]
        rw [← mapFloatsHash_put, ihr]
        rfl

theorem special_nil : special .nil = jsonFloat := by
  funext d
  unfold special jsonFloat isNan isInf
  by_cases h1 : d.toNat / 2 ^ 52 % 2048 = 2047
  · by_cases h2 : d.toNat % 2 ^ 52 = 0
    · simp [h1, h2]
    · simp [h1, h2]
  · simp [h1]

theorem special_string : special .string = stringFloat := by
  funext d
  unfold special stringFloat isNan isInf isNeg
  by_cases h1 : d.toNat / 2 ^ 52 % 2048 = 2047
  · by_cases h2 : d.toNat % 2 ^ 52 = 0
    · by_cases h3 : d.toNat < 2 ^ 63
      · simp only [h1, h2, beq_self_eq_true, bne_self_eq_false, Bool.and_false, Bool.false_eq_true, if_false, Bool.and_self, if_true,
          ne_eq, not_true_eq_false, if_pos h3, decide_eq_true_eq, if_neg (Nat.not_le.mpr h3)]
      · simp only [h1, h2, beq_self_eq_true, bne_self_eq_false, Bool.and_false, Bool.false_eq_true, if_false, Bool.and_self, if_true,
          ne_eq, not_true_eq_false, if_neg h3, decide_eq_true_eq, if_pos (Nat.not_lt.mp h3)]
    · simp [h1, h2]
  · simp [h1]

/-- **C69, JSON**: `to_json_value` is `to_simple_value` with the numbers that are not finite replaced by `nil`, at any depth, and
nothing else changed. -/
theorem C69_json (env : Env) (t : T) (v : V) : toJson env t v = (toSimple env .none t v).map (mapFloats jsonFloat) := by
  unfold toJson
  rw [toSimple_opt env .nil, special_nil]

/-- **C69, strings for special floats**: the same with `special_float_values: :string`. -/
theorem C69_string_floats (env : Env) (t : T) (v : V) :
    toSimple env .string t v = (toSimple env .none t v).map (mapFloats stringFloat) := by
  rw [toSimple_opt env .string, special_string]

mutual
theorem jsonOk_map : ∀ s, JsonOk (mapFloats jsonFloat s)
  | .float d => by
    simp only [mapFloats, jsonFloat]
    by_cases h : d.toNat / 2 ^ 52 % 2048 = 2047
    · rw [if_pos h]; simp [JsonOk]
    · rw [if_neg h]; exact h
  | .arr l => jsonOkList_map l
  | .hash l => jsonOkHash_map l
  | .int _ => by simp [mapFloats, JsonOk]
  | .bool _ => by simp [mapFloats, JsonOk]
  | .nil => by simp [mapFloats, JsonOk]
  | .str _ => by simp [mapFloats, JsonOk]
theorem jsonOkList_map : ∀ l, JsonOkList (mapFloatsList jsonFloat l)
  | [] => trivial
  | s :: l => ⟨jsonOk_map s, jsonOkList_map l⟩
theorem jsonOkHash_map : ∀ l, JsonOkHash (mapFloatsHash jsonFloat l)
  | [] => trivial
  | (_, s) :: l => ⟨jsonOk_map s, jsonOkHash_map l⟩
end

/-- **C69, JSON is representable**: there is no NaN nor infinity in a JSON value. -/
theorem C69_json_finite (env : Env) (t : T) (v : V) (s : S) (h : toJson env t v = .ok s) : JsonOk s := by
  rw [C69_json] at h
  obtain ⟨s', _, rfl⟩ := map_ok.mp h
  exact jsonOk_map s'

end Verif.RubySimple
