import Verif.StdMap

/-!
Model of `MetaData` (typemodel.hh:19-66, typemodel.cc:185-238) and of the metadata merge of types and
fields (typemodel.cc:170-183, 424-439, 653-659), with property C34.
-/

namespace Verif.Meta
open Verif Verif.Registry Verif.StdMap

/-- `MetaData::m_values`: `std::map<std::string, std::set<std::string>>`. -/
abbrev MetaData := SMap (List Str)

/-- `MetaData::include` (typemodel.cc:185-188). -/
def includes (m : MetaData) (k : Str) : Bool := (find m k).isSome

/-- `MetaData::get(key)` (typemodel.cc:195-201). -/
def get (m : MetaData) (k : Str) : List Str :=
  match find m k with
  | none => []
  | some vs => vs

/-- `MetaData::add(key, value)` (typemodel.cc:209-212). -/
def add (m : MetaData) (k v : Str) : MetaData := upsert k (fun o => sinsert v (o.getD [])) m

/-- `MetaData::add(key, values)` (typemodel.cc:214-221). -/
def addSet (m : MetaData) (k : Str) (vs : List Str) : MetaData :=
  vs.foldl (fun m v => upsert k (fun o => sinsert v (o.getD [])) m) (upsert k (fun o => o.getD []) m)

/-- `MetaData::clear(key)` (typemodel.cc:223-226). -/
def clear (m : MetaData) (k : Str) : MetaData := erase k m

/-- `MetaData::clear()` (typemodel.cc:228-231). -/
def clearAll (_ : MetaData) : MetaData := []

/-- `MetaData::set` (typemodel.cc:203-207). -/
def set (m : MetaData) (k v : Str) : MetaData := add (clear m k) k v

/-- `MetaData::merge` (typemodel.cc:233-238). -/
def merge (m other : MetaData) : MetaData :=
  other.foldl (fun m p => upsert p.1 (fun o => sinsertAll (o.getD []) p.2) m) m

/-! ### Specification: a partial function from keys to sets -/

/-- What a metadata object means: for each key, nothing or a set of values. -/
abbrev Spec := Str → Option (Str → Prop)

def Spec.union (s t : Spec) : Spec := fun k =>
  match s k, t k with
  | none, none => none
  | some a, none => some a
  | none, some b => some b
  | some a, some b => some (fun v => a v ∨ b v)

/-- The objects that calls to the API can produce, each with its meaning. The argument of `merge` is
itself any such object. -/
inductive Hist : MetaData → Spec → Prop
  | init : Hist [] (fun _ => none)
  | set {m s} (k v : Str) : Hist m s → Hist (set m k v) (fun j => if j = k then some (fun w => w = v) else s j)
  | add {m s} (k v : Str) : Hist m s → Hist (add m k v) (fun j =>
      if j = k then some (fun w => w = v ∨ ∃ a, s k = some a ∧ a w) else s j)
  | addSet {m s} (k : Str) (vs : List Str) : Hist m s → Hist (addSet m k vs) (fun j =>
      if j = k then some (fun w => w ∈ vs ∨ ∃ a, s k = some a ∧ a w) else s j)
  | clear {m s} (k : Str) : Hist m s → Hist (clear m k) (fun j => if j = k then none else s j)
  | clearAll {m s} : Hist m s → Hist (clearAll m) (fun _ => none)
  | merge {m s m' s'} : Hist m s → Hist m' s' → Hist (merge m m') (s.union s')

/-- representation invariant -/
def Ok (m : MetaData) : Prop := MSorted m ∧ ∀ p ∈ m, SSorted p.2

theorem ok_find {m : MetaData} (h : Ok m) {k : Str} {vs : List Str} (hf : find m k = some vs) : SSorted vs :=
  h.2 (k, vs) ((mem_iff_find h.1).mpr hf)

theorem ok_upsert {m : MetaData} (h : Ok m) (k : Str) (f : Option (List Str) → List Str)
    (hf : ∀ o : Option (List Str), (∀ vs, o = some vs → SSorted vs) → SSorted (f o)) : Ok (upsert k f m) := by
  have hs := sorted_upsert k f h.1
  refine ⟨hs, ?_⟩
  rintro ⟨j, vs⟩ hp
  have := (mem_iff_find hs).mp hp
  rw [find_upsert k f h.1] at this
  by_cases hk : k = j
  · rw [if_pos hk] at this
    cases this
    exact hf _ (fun vs e => ok_find h e)
  · rw [if_neg hk] at this
    exact ok_find h this

theorem ok_erase {m : MetaData} (h : Ok m) (k : Str) : Ok (erase k m) :=
  ⟨sorted_erase k h.1, fun p hp => h.2 p ((List.mem_filter.mp hp).1)⟩

theorem getD_sorted {o : Option (List Str)} (h : ∀ vs, o = some vs → SSorted vs) : SSorted (o.getD []) := by
  cases o with
  | none => exact List.Pairwise.nil
  | some vs => exact h vs rfl

theorem ok_add {m : MetaData} (h : Ok m) (k v : Str) : Ok (add m k v) :=
  ok_upsert h k _ (fun _ ho => sorted_sinsert (getD_sorted ho))

theorem ok_addSet {m : MetaData} (h : Ok m) (k : Str) (vs : List Str) : Ok (addSet m k vs) := by
  unfold addSet
  have h0 : Ok (upsert k (fun o => o.getD []) m) := ok_upsert h k _ (fun _ ho => getD_sorted ho)
  generalize upsert k (fun o => o.getD []) m = m0 at h0
  induction vs generalizing m0 with
  | nil => exact h0
  | cons v vs ih => exact ih _ (ok_add h0 k v)

theorem ok_merge {m m' : MetaData} (h : Ok m) : Ok (merge m m') := by
  unfold merge
  induction m' generalizing m with
  | nil => exact h
  | cons p r ih => exact ih (ok_upsert h p.1 _ (fun _ ho => sorted_sinsertAll _ (getD_sorted ho)))

/-- bindings after `add` -/
theorem find_add {m : MetaData} (h : Ok m) (k v j : Str) :
    find (add m k v) j = if k = j then some (sinsert v ((find m k).getD [])) else find m j :=
  find_upsert k _ h.1 j

/-- bindings after `add` of a set -/
theorem find_addSet {m : MetaData} (h : Ok m) (k : Str) (vs : List Str) (j : Str) :
    find (addSet m k vs) j = if k = j then some (sinsertAll ((find m k).getD []) vs) else find m j := by
  unfold addSet
  have h0 : Ok (upsert k (fun o => o.getD []) m) := ok_upsert h k _ (fun _ ho => getD_sorted ho)
  have e0 := find_upsert k (fun o => o.getD []) h.1
  have key : ∀ (vs : List Str) (m0 : MetaData) (s : List Str), Ok m0 → find m0 k = some s →
      find (vs.foldl (fun m v => upsert k (fun o => sinsert v (o.getD [])) m) m0) j =
        if k = j then some (sinsertAll s vs) else find m0 j := by
    intro vs
    induction vs with
    | nil => intro m0 s _ hf; by_cases hk : k = j
             · subst hk; simp [sinsertAll, hf]
             · simp [hk]
    | cons v vs ih =>
      intro m0 s ho hf
      have hf' : find (add m0 k v) k = some (sinsert v s) := by rw [find_add ho, hf]; simp
      have := ih (add m0 k v) (sinsert v s) (ok_add ho k v) hf'
      simp only [List.foldl_cons]
      unfold add at this
      rw [this]
      by_cases hk : k = j
      · simp [hk, sinsertAll]
      · rw [if_neg hk, if_neg hk]
        have := find_add ho k v j
        rw [if_neg hk] at this
        exact this
  rw [key vs _ ((find m k).getD []) h0 (by rw [e0]; simp), e0]
  by_cases hk : k = j <;> simp [hk]

/-- bindings after `merge` -/
theorem find_merge {m m' : MetaData} (h : Ok m) (h' : Ok m') (j : Str) :
    find (merge m m') j =
      match find m' j with
      | none => find m j
      | some vs => some (sinsertAll ((find m j).getD []) vs) := by
  unfold merge
  induction m' generalizing m with
  | nil => rfl
  | cons p r ih =>
    obtain ⟨k, us⟩ := p
    obtain ⟨h1, h2⟩ := List.pairwise_cons.mp h'.1
    have hr : Ok r := ⟨h2, fun p hp => h'.2 p (by simp [hp])⟩
    have hu : Ok (upsert k (fun o => sinsertAll (o.getD []) us) m) :=
      ok_upsert h k _ (fun _ ho => sorted_sinsertAll _ (getD_sorted ho))
    simp only [List.foldl_cons]
    rw [ih hu hr, find_upsert k _ h.1]
    simp only [find]
    by_cases hk : k = j
    · subst hk
      rw [find_none_of_lt h1]
      simp
    · simp [hk]

/-- the object and its meaning agree -/
def Agree (m : MetaData) (s : Spec) : Prop :=
  ∀ k, match find m k, s k with
    | none, none => True
    | some vs, some a => ∀ v, v ∈ vs ↔ a v
    | _, _ => False

theorem hist_ok {m : MetaData} {s : Spec} (h : Hist m s) : Ok m := by
  induction h with
  | init => exact ⟨List.Pairwise.nil, by simp⟩
  | set k v _ ih => exact ok_add (ok_erase ih k) k v
  | add k v _ ih => exact ok_add ih k v
  | addSet k vs _ ih => exact ok_addSet ih k vs
  | clear k _ ih => exact ok_erase ih k
  | clearAll _ _ => exact ⟨List.Pairwise.nil, by simp [clearAll]⟩
  | merge _ _ ih _ => exact ok_merge ih

theorem hist_agree {m : MetaData} {s : Spec} (h : Hist m s) : Agree m s := by
  induction h with
  | init => intro k; simp [find]
  | @set m s k v hm ih =>
    intro j
    have := find_add (ok_erase (hist_ok hm) k) k v j
    unfold Meta.set Meta.clear
    rw [this, find_erase, find_erase]
    by_cases hk : k = j
    · subst hk; simp [sinsert]
    · have hk' : ¬ j = k := fun e => hk e.symm
      simpa [hk, hk'] using ih j
  | @add m s k v hm ih =>
    intro j
    rw [find_add (hist_ok hm)]
    by_cases hk : k = j
    · subst hk
      have := ih k
      simp only [if_true]
      cases hf : find m k with
      | none => rw [hf] at this; cases hs : s k with
        | none => simp [sinsert]
        | some a => simp [hs] at this
      | some vs => rw [hf] at this; cases hs : s k with
        | none => simp [hs] at this
        | some a => simp only [hs] at this; simp [mem_sinsert', this]
    · have hk' : ¬ j = k := fun e => hk e.symm
      simpa [hk, hk'] using ih j
  | @addSet m s k vs hm ih =>
    intro j
    rw [find_addSet (hist_ok hm)]
    by_cases hk : k = j
    · subst hk
      have := ih k
      simp only [if_true]
      cases hf : find m k with
      | none => rw [hf] at this; cases hs : s k with
        | none => simp [mem_sinsertAll]
        | some a => simp [hs] at this
      | some vs => rw [hf] at this; cases hs : s k with
        | none => simp [hs] at this
        | some a => simp only [hs] at this; simp [mem_sinsertAll, this, or_comm]
    · have hk' : ¬ j = k := fun e => hk e.symm
      simpa [hk, hk'] using ih j
  | @clear m s k hm ih =>
    intro j
    unfold Meta.clear
    rw [find_erase]
    by_cases hk : k = j
    · subst hk; simp
    · have hk' : ¬ j = k := fun e => hk e.symm
      simpa [hk, hk'] using ih j
  | clearAll _ _ => intro j; simp [Meta.clearAll, find]
  | @merge m s m' s' hm hm' ih ih' =>
    intro j
    rw [find_merge (hist_ok hm) (hist_ok hm')]
    have a := ih j
    have b := ih' j
    unfold Spec.union
    cases hf : find m j <;> cases hs : s j <;> cases hf' : find m' j <;> cases hs' : s' j <;>
      simp_all [mem_sinsertAll]

/-! ### C34 -/

/-- A metadata object is a map from keys to sets: after any history of calls, `include` and `get` answer
according to the abstract map. -/
theorem C34_refines_map {m : MetaData} {s : Spec} (h : Hist m s) (k : Str) :
    (includes m k = true ↔ ∃ a, s k = some a) ∧ (∀ v, v ∈ get m k ↔ ∃ a, s k = some a ∧ a v) := by
  have a := hist_agree h k
  unfold Meta.includes Meta.get
  cases hf : find m k <;> cases hs : s k <;> simp_all

/-- Two objects with the same meaning are indistinguishable (same keys, same values in the same order),
whatever the histories that produced them. -/
theorem C34_canonical {m m' : MetaData} {s s' : Spec} (h : Hist m s) (h' : Hist m' s')
    (hk : ∀ k, includes m k = includes m' k) (hv : ∀ k v, v ∈ get m k ↔ v ∈ get m' k) : m = m' := by
  have ho := hist_ok h
  have ho' := hist_ok h'
  apply ext ho.1 ho'.1
  intro k
  have a := hk k
  have b := hv k
  unfold Meta.includes at a
  unfold Meta.get at b
  cases hf : find m k <;> cases hf' : find m' k <;> rw [hf, hf'] at a b
  · simp at a
  · simp at a
  · simp only at b
    rw [sext (ok_find ho hf) (ok_find ho' hf') b]

theorem includes_merge {m m' : MetaData} (h : Ok m) (h' : Ok m') (k : Str) :
    includes (merge m m') k = (includes m k || includes m' k) := by
  unfold Meta.includes
  rw [find_merge h h']
  cases find m' k <;> simp

theorem get_merge {m m' : MetaData} (h : Ok m) (h' : Ok m') (k v : Str) :
    v ∈ get (merge m m') k ↔ v ∈ get m k ∨ v ∈ get m' k := by
  unfold Meta.get
  rw [find_merge h h']
  cases find m k <;> cases find m' k <;> simp [mem_sinsertAll]

/-- `merge` is a union per key; nothing else changes and nothing is lost. -/
theorem C34_merge_union {m m' : MetaData} {s s' : Spec} (h : Hist m s) (h' : Hist m' s') (k : Str) :
    (includes (merge m m') k = true ↔ includes m k = true ∨ includes m' k = true) ∧
    (∀ v, v ∈ get (merge m m') k ↔ v ∈ get m k ∨ v ∈ get m' k) :=
  ⟨by rw [includes_merge (hist_ok h) (hist_ok h')]; simp, get_merge (hist_ok h) (hist_ok h') k⟩

theorem C34_merge_idempotent {m : MetaData} {s : Spec} (h : Hist m s) : merge m m = m :=
  C34_canonical (Hist.merge h h) h
    (fun k => by rw [includes_merge (hist_ok h) (hist_ok h)]; simp)
    (fun k v => by rw [get_merge (hist_ok h) (hist_ok h)]; simp)

/-- merging a second time adds nothing -/
theorem C34_merge_again {m m' : MetaData} {s s' : Spec} (h : Hist m s) (h' : Hist m' s') :
    merge (merge m m') m' = merge m m' :=
  C34_canonical (Hist.merge (Hist.merge h h') h') (Hist.merge h h')
    (fun k => by
      rw [includes_merge (hist_ok (Hist.merge h h')) (hist_ok h'), includes_merge (hist_ok h) (hist_ok h')]
      cases includes m k <;> simp)
    (fun k v => by
      rw [get_merge (hist_ok (Hist.merge h h')) (hist_ok h'), get_merge (hist_ok h) (hist_ok h')]
      constructor
      · rintro ((h | h) | h) <;> simp [h]
      · intro h; exact Or.inl h)

theorem C34_merge_commutative {m m' : MetaData} {s s' : Spec} (h : Hist m s) (h' : Hist m' s') :
    merge m m' = merge m' m :=
  C34_canonical (Hist.merge h h') (Hist.merge h' h)
    (fun k => by
      rw [includes_merge (hist_ok h) (hist_ok h'), includes_merge (hist_ok h') (hist_ok h), Bool.or_comm])
    (fun k v => by
      rw [get_merge (hist_ok h) (hist_ok h'), get_merge (hist_ok h') (hist_ok h), Or.comm])

theorem C34_merge_associative {a b c : MetaData} {s t u : Spec} (ha : Hist a s) (hb : Hist b t) (hc : Hist c u) :
    merge (merge a b) c = merge a (merge b c) := by
  have hab := Hist.merge ha hb
  have hbc := Hist.merge hb hc
  apply C34_canonical (Hist.merge hab hc) (Hist.merge ha hbc)
  · intro k
    rw [includes_merge (hist_ok hab) (hist_ok hc), includes_merge (hist_ok ha) (hist_ok hb),
      includes_merge (hist_ok ha) (hist_ok hbc), includes_merge (hist_ok hb) (hist_ok hc), Bool.or_assoc]
  · intro k v
    rw [get_merge (hist_ok hab) (hist_ok hc), get_merge (hist_ok ha) (hist_ok hb),
      get_merge (hist_ok ha) (hist_ok hbc), get_merge (hist_ok hb) (hist_ok hc), or_assoc]

/-- `set` replaces: the key holds exactly the new value, the other keys are untouched. -/
theorem C34_set_replaces {m : MetaData} {s : Spec} (h : Hist m s) (k v : Str) :
    get (set m k v) k = [v] ∧ ∀ j, j ≠ k → (includes (set m k v) j = includes m j ∧ get (set m k v) j = get m j) := by
  have := find_add (ok_erase (hist_ok h) k) k v
  constructor
  · unfold Meta.get Meta.set Meta.clear
    rw [this, find_erase]; simp [sinsert]
  · intro j hj
    have hk : ¬ k = j := fun e => hj e.symm
    unfold Meta.includes Meta.get Meta.set Meta.clear
    rw [this j, if_neg hk, find_erase, if_neg hk]
    exact ⟨rfl, rfl⟩

/-- a non-trivial object: two keys, one with two values and one with an empty set -/
def exMeta : MetaData := addSet (merge (add [] ['k'] ['b']) (add (set [] ['k'] ['z']) ['k'] ['a'])) ['e'] []

example : ∃ s, Hist exMeta s :=
  ⟨_, .addSet _ _ (.merge (.add _ _ .init) (.add _ _ (.set _ _ .init)))⟩

example : get exMeta ['k'] = [['a'], ['b'], ['z']] ∧ includes exMeta ['e'] = true ∧ get exMeta ['e'] = [] ∧
    includes exMeta ['q'] = false := by decide

/-! ### Metadata of compound types and their fields -/

/-- The metadata carried by a type: its own and, for compounds, that of each field in order
(`Field::m_metadata`). -/
structure TypeMeta where
  own : MetaData
  fields : List (Str × MetaData)

/-- `Compound::getField` (typemodel.cc:299-307): the first field with that name. -/
def getField (fs : List (Str × MetaData)) (n : Str) : Option MetaData :=
  (fs.find? (fun f => f.1 == n)).map (·.2)

/-- `Compound::mergeMetaData` (typemodel.cc:424-439), `Type::mergeMetaData` (typemodel.cc:180-183),
`Field::mergeMetaData` (typemodel.cc:658-659). `other = none` for the fields: not a compound. -/
def mergeTypeMeta (a : TypeMeta) (own : MetaData) (other : Option (List (Str × MetaData))) : TypeMeta :=
  { own := merge a.own own,
    fields := match other with
      | none => a.fields
      | some fs => a.fields.map (fun f => match getField fs f.1 with
          | some md => (f.1, merge f.2 md)
          | none => f) }

/-- Merging the metadata of two compounds: the type gets the union of both, each field gets the union of
its own and that of the field of the same name in the other type, if any; no field is added, lost,
renamed or reordered. -/
theorem C34_compound_merge (a b : TypeMeta)
    (ha : ∀ f ∈ a.fields, ∃ s, Hist f.2 s) (hb : ∀ f ∈ b.fields, ∃ s, Hist f.2 s)
    (hao : ∃ s, Hist a.own s) (hbo : ∃ s, Hist b.own s) :
    let r := mergeTypeMeta a b.own (some b.fields)
    (∀ k v, v ∈ get r.own k ↔ v ∈ get a.own k ∨ v ∈ get b.own k) ∧
    r.fields.map (·.1) = a.fields.map (·.1) ∧
    (∀ (i : Nat) (n : Str) (md : MetaData), a.fields[i]? = some (n, md) → ∃ md', r.fields[i]? = some (n, md') ∧
      ∀ k v, v ∈ get md' k ↔ v ∈ get md k ∨ ∃ md2, getField b.fields n = some md2 ∧ v ∈ get md2 k) := by
  obtain ⟨_, hao⟩ := hao
  obtain ⟨_, hbo⟩ := hbo
  refine ⟨fun k v => get_merge (hist_ok hao) (hist_ok hbo) k v, ?_, ?_⟩
  · simp only [mergeTypeMeta, List.map_map]
    apply List.map_congr_left
    intro f _
    simp only [Function.comp]
    cases getField b.fields f.1 <;> rfl
  · intro i n md hi
    have hm := List.mem_of_getElem? hi
    obtain ⟨_, h1⟩ := ha _ hm
    simp only [mergeTypeMeta, List.getElem?_map, hi, Option.map_some]
    cases hg : getField b.fields n with
    | none => exact ⟨md, rfl, by simp⟩
    | some md2 =>
      have : (∃ s, Hist md2 s) := by
        unfold getField at hg
        cases hf : b.fields.find? (fun f => f.1 == n) with
        | none => simp [hf] at hg
        | some q => rw [hf] at hg; cases hg; exact hb _ (List.mem_of_find?_eq_some hf)
      obtain ⟨_, h2⟩ := this
      exact ⟨merge md md2, rfl, fun k v => by rw [get_merge (hist_ok h1) (hist_ok h2)]; simp⟩

example : (mergeTypeMeta ⟨exMeta, [(['x'], []), (['y'], exMeta)]⟩ [] (some [(['x'], exMeta)])).fields =
    [(['x'], exMeta), (['y'], exMeta)] := by decide

/-! ### The theorems on concrete cases -/

theorem exMeta_hist : ∃ s, Hist exMeta s :=
  ⟨_, .addSet _ _ (.merge (.add _ _ .init) (.add _ _ (.set _ _ .init)))⟩

example := C34_merge_union exMeta_hist.choose_spec (Hist.add ['q'] ['w'] .init) ['k']

example := C34_merge_commutative exMeta_hist.choose_spec (Hist.add ['q'] ['w'] .init)

example := C34_merge_associative exMeta_hist.choose_spec (Hist.add ['q'] ['w'] .init) exMeta_hist.choose_spec

example := C34_compound_merge ⟨exMeta, [(['x'], []), (['y'], exMeta)]⟩ ⟨[], [(['x'], exMeta)]⟩
  (by
    intro f hf
    simp only [List.mem_cons, List.not_mem_nil, or_false] at hf
    rcases hf with rfl | rfl
    · exact ⟨_, .init⟩
    · exact exMeta_hist)
  (by
    intro f hf
    simp only [List.mem_cons, List.not_mem_nil, or_false] at hf
    subst hf
    exact exMeta_hist)
  exMeta_hist ⟨_, .init⟩

end Verif.Meta
