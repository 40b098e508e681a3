import Verif.MetaData

/-!
Model of the Ruby interface to metadata (bindings/ruby/ext/metadata.cc, bindings/ruby/lib/typelib/metadata.rb), on top of
the model of the C++ `MetaData` class (`Verif.Meta`), with property C79.

Strings are the sequences of their bytes; encodings are not modelled.
-/

namespace Verif.RubyMeta
open Verif Verif.Registry Verif.StdMap

/-- A Ruby argument: a string, or something `StringValuePtr` cannot convert. Objects that define `to_str` count as the string it
returns. -/
inductive RVal where
  | str (s : Str)
  | other
  deriving DecidableEq, Repr

/-- A `char const*` turned into a `std::string`: what precedes the first NUL byte. -/
def cstr (s : Str) : Str := s.takeWhile (fun c => c != Char.ofNat 0)

/-- `StringValuePtr(v)` used as a C string: `TypeError` if there is no conversion -/
def toCstr : RVal → Res Str
  | .str s => .ok (cstr s)
  | .other => .exn .rbType

/-- the loop of `metadata_add` (metadata.cc:55-60): the values are inserted in a `std::set` -/
def toValues : List RVal → List Str → Res (List Str)
  | [], acc => .ok acc
  | v :: vs, acc =>
    match toCstr v with
    | .ok s => toValues vs (sinsert s acc)
    | .exn e => .exn e
    | .ub => .ub
    | .fuel => .fuel

/-- `metadata_include_p` (metadata.cc:18-22) -/
def includeP (m : Meta.MetaData) (k : RVal) : Res Bool :=
  match toCstr k with
  | .ok s => .ok (Meta.includes m s)
  | .exn e => .exn e
  | .ub => .ub
  | .fuel => .fuel

/-- `metadata_get` (metadata.cc:24-33) -/
def get (m : Meta.MetaData) (k : RVal) : Res (List Str) :=
  match toCstr k with
  | .ok s => .ok (Meta.get m s)
  | .exn e => .exn e
  | .ub => .ub
  | .fuel => .fuel

/-- `metadata_keys` (metadata.cc:35-44) -/
def keys (m : Meta.MetaData) : List Str := m.map (·.1)

/-- `metadata_add` (metadata.cc:46-63); `rb_scan_args` asks for one argument at least. -/
def add (m : Meta.MetaData) (args : List RVal) : Meta.MetaData × Res Unit :=
  match args with
  | [] => (m, .exn .rbArg)
  | k :: vs =>
    match toCstr k with
    | .ok s =>
      (match toValues vs [] with
       | .ok values => (Meta.addSet m s values, .ok ())
       | .exn e => (m, .exn e)
       | .ub => (m, .ub)
       | .fuel => (m, .fuel))
    | .exn e => (m, .exn e)
    | .ub => (m, .ub)
    | .fuel => (m, .fuel)

/-- `metadata_clear`, bound to `clear` and `delete` (metadata.cc:65-73, 95-96) -/
def clear (m : Meta.MetaData) (args : List RVal) : Meta.MetaData × Res Unit :=
  match args with
  | [] => (Meta.clearAll m, .ok ())
  | [k] =>
    (match toCstr k with
     | .ok s => (Meta.clear m s, .ok ())
     | .exn e => (m, .exn e)
     | .ub => (m, .ub)
     | .fuel => (m, .fuel))
  | _ => (m, .ok ())

/-- `MetaData#set` (metadata.rb:17-20) -/
def set (m : Meta.MetaData) (args : List RVal) : Meta.MetaData × Res Unit :=
  match args with
  | [] => (m, .exn .rbArg)
  | k :: vs =>
    match clear m [k] with
    | (m', .ok ()) => add m' (k :: vs)
    | r => r

/-- `MetaData#each` (metadata.rb:4-11) with a block that changes nothing: what it is called with, in order -/
def each (m : Meta.MetaData) : List (Str × List Str) := (keys m).map (fun k => (k, Meta.get m (cstr k)))

/-- A call that can change the object. `md[k] = v` is `set(k, v)` (metadata.rb:15-17); `delete` is `clear`. -/
inductive Call where
  | add (args : List RVal)
  | clear (args : List RVal)
  | set (args : List RVal)
  deriving DecidableEq, Repr

def step (m : Meta.MetaData) : Call → Meta.MetaData × Res Unit
  | .add args => add m args
  | .clear args => clear m args
  | .set args => set m args

/-- the object after a history of calls, on a new object (`metadata_alloc`, metadata.cc:80-84) -/
def run : List Call → Meta.MetaData
  | [] => []
  | c :: h => (step (run h) c).1

/-! ### Specification -/

/-- strings without NUL byte -/
def Clean (s : Str) : Prop := Char.ofNat 0 ∉ s

/-- The values of a key after a history, last call first: `none` if there is no such key.
Strings are taken as they are; a call with an argument that is not a string changes nothing. -/
def has : List Call → Str → Option (Str → Prop)
  | [], _ => none
  | .add (.str k :: vs) :: h, j =>
    if j = k ∧ RVal.other ∉ vs then some (fun v => RVal.str v ∈ vs ∨ ∃ a, has h j = some a ∧ a v) else has h j
  | .set (.str k :: vs) :: h, j =>
    if j = k ∧ RVal.other ∉ vs then some (fun v => RVal.str v ∈ vs) else has h j
  | .clear [] :: _, _ => none
  | .clear [.str k] :: h, j => if j = k then none else has h j
  | _ :: h, j => has h j

/-- The calls of the claim: no NUL byte in strings, no value given to `set` that is not a string, at most one key
given to `clear`. -/
def Call.Fine : Call → Prop
  | .add args => ∀ s, RVal.str s ∈ args → Clean s
  | .clear args => (∀ s, RVal.str s ∈ args → Clean s) ∧ args.length ≤ 1
  | .set args => (∀ s, RVal.str s ∈ args → Clean s) ∧ ∀ k vs, args = .str k :: vs → RVal.other ∉ vs

/-! ### Proofs -/

theorem cstr_clean {s : Str} (h : Clean s) : cstr s = s := by
  unfold cstr
  induction s with
  | nil => rfl
  | cons c s ih =>
    have hc : c ≠ Char.ofNat 0 := fun e => h (e ▸ List.mem_cons_self)
    have hb : (c != Char.ofNat 0) = true := bne_iff_ne.mpr hc
    simp only [List.takeWhile_cons, hb, if_true]
    rw [ih (fun hm => h (List.mem_cons_of_mem _ hm))]

theorem toValues_other (vs : List RVal) : ∀ acc, RVal.other ∈ vs → toValues vs acc = .exn .rbType := by
  induction vs with
  | nil => intro acc h; cases h
  | cons v vs ih =>
    intro acc h
    cases v with
    | other => rfl
    | str s =>
      have h' : RVal.other ∈ vs := by simpa using h
      exact ih _ h'

theorem toValues_ok (vs : List RVal) : ∀ acc, RVal.other ∉ vs → (∀ s, RVal.str s ∈ vs → Clean s) →
    ∃ l, toValues vs acc = .ok l ∧ ∀ v, v ∈ l ↔ v ∈ acc ∨ RVal.str v ∈ vs := by
  induction vs with
  | nil => intro acc _ _; exact ⟨acc, rfl, fun v => by simp⟩
  | cons v vs ih =>
    intro acc h hc
    cases v with
    | other => exact absurd List.mem_cons_self h
    | str s =>
      have hs : cstr s = s := cstr_clean (hc s List.mem_cons_self)
      obtain ⟨l, h1, h2⟩ := ih (sinsert s acc) (fun hm => h (List.mem_cons_of_mem _ hm))
        (fun x hx => hc x (List.mem_cons_of_mem _ hx))
      refine ⟨l, ?_, ?_⟩
      · show toValues vs (sinsert (cstr s) acc) = .ok l
        rw [hs]; exact h1
      · intro v
        rw [h2, mem_sinsert']
        simp only [List.mem_cons, RVal.str.injEq]
        constructor
        · rintro ((h | h) | h)
          · exact Or.inr (Or.inl h)
          · exact Or.inl h
          · exact Or.inr (Or.inr h)
        · rintro (h | h | h)
          · exact Or.inl (Or.inr h)
          · exact Or.inl (Or.inl h)
          · exact Or.inr h

theorem run_hist (h : List Call) : ∃ s, Meta.Hist (run h) s := by
  induction h with
  | nil => exact ⟨_, .init⟩
  | cons c h ih =>
    obtain ⟨s, hs⟩ := ih
    have hadd : ∀ m args, (∃ s, Meta.Hist m s) → ∃ s, Meta.Hist (add m args).1 s := by
      rintro m args ⟨s, hs⟩
      cases args with
      | nil => exact ⟨s, hs⟩
      | cons k vs =>
        cases k with
        | other => exact ⟨s, hs⟩
        | str k =>
          simp only [add, toCstr]
          cases toValues vs [] with
          | ok l => exact ⟨_, .addSet _ _ hs⟩
          | exn e => exact ⟨s, hs⟩
          | ub => exact ⟨s, hs⟩
          | fuel => exact ⟨s, hs⟩
    cases c with
    | add args => exact hadd _ args ⟨s, hs⟩
    | clear args =>
      show ∃ s, Meta.Hist (clear (run h) args).1 s
      cases args with
      | nil => exact ⟨_, .clearAll hs⟩
      | cons k vs =>
        cases vs with
        | nil =>
          cases k with
          | other => exact ⟨s, hs⟩
          | str k => exact ⟨_, .clear _ hs⟩
        | cons _ _ => exact ⟨s, hs⟩
    | set args =>
      show ∃ s, Meta.Hist (set (run h) args).1 s
      cases args with
      | nil => exact ⟨s, hs⟩
      | cons k vs =>
        cases k with
        | other => exact ⟨s, hs⟩
        | str k => exact hadd _ _ ⟨_, .clear (cstr k) hs⟩

/-- What `include` and `get` of C++ answer on the object of a history. -/
def Answers (m : Meta.MetaData) (f : Str → Option (Str → Prop)) : Prop :=
  ∀ k, (Meta.includes m k = true ↔ f k ≠ none) ∧ ∀ v, v ∈ Meta.get m k ↔ ∃ a, f k = some a ∧ a v

theorem answers_addSet {m : Meta.MetaData} (hm : ∃ s, Meta.Hist m s) (k : Str) (l : List Str) (j : Str) :
    (Meta.includes (Meta.addSet m k l) j = true ↔ j = k ∨ Meta.includes m j = true) ∧
    ∀ v, v ∈ Meta.get (Meta.addSet m k l) j ↔ (j = k ∧ v ∈ l) ∨ v ∈ Meta.get m j := by
  obtain ⟨s, hs⟩ := hm
  have a := Meta.C34_refines_map (Meta.Hist.addSet k l hs) j
  have b := Meta.C34_refines_map hs j
  by_cases hj : j = k
  · subst hj
    simp only [if_pos] at a
    refine ⟨?_, ?_⟩
    · rw [a.1]; simp
    · intro v
      rw [a.2, b.2]
      simp
  · simp only [if_neg hj] at a
    refine ⟨?_, ?_⟩
    · rw [a.1, b.1]; simp [hj]
    · intro v
      rw [a.2, b.2]; simp [hj]

theorem answers_clear {m : Meta.MetaData} (hm : ∃ s, Meta.Hist m s) (k j : Str) :
    (Meta.includes (Meta.clear m k) j = true ↔ j ≠ k ∧ Meta.includes m j = true) ∧
    ∀ v, v ∈ Meta.get (Meta.clear m k) j ↔ j ≠ k ∧ v ∈ Meta.get m j := by
  obtain ⟨s, hs⟩ := hm
  have a := Meta.C34_refines_map (Meta.Hist.clear k hs) j
  have b := Meta.C34_refines_map hs j
  by_cases hj : j = k
  · subst hj
    simp only [if_pos] at a
    refine ⟨?_, ?_⟩
    · rw [a.1]; simp
    · intro v
      rw [a.2]; simp
  · simp only [if_neg hj] at a
    refine ⟨?_, ?_⟩
    · rw [a.1, b.1]; simp [hj]
    · intro v
      rw [a.2, b.2]; simp [hj]

theorem run_answers (h : List Call) (hf : ∀ c ∈ h, c.Fine) : Answers (run h) (has h) := by
  induction h with
  | nil => intro k; exact ⟨by show false = true ↔ _; simp [has], fun v => by show v ∈ [] ↔ _; simp [has]⟩
  | cons c h ih =>
    have ih' := ih (fun c hc => hf c (List.mem_cons_of_mem _ hc))
    have hfc := hf c List.mem_cons_self
    have hm := run_hist h
    intro j
    obtain ⟨i1, i2⟩ := ih' j
    cases c with
    | add args =>
      show (Meta.includes (add (run h) args).1 j = true ↔ _) ∧ ∀ v, v ∈ Meta.get (add (run h) args).1 j ↔ _
      cases args with
      | nil => exact ⟨i1, i2⟩
      | cons k vs =>
        cases k with
        | other => exact ⟨i1, i2⟩
        | str k =>
          have hk : cstr k = k := cstr_clean (hfc k List.mem_cons_self)
          by_cases ho : RVal.other ∈ vs
          · have e : (add (run h) (.str k :: vs)).1 = run h := by
              simp only [add, toCstr, toValues_other vs [] ho]
            rw [e]
            simp only [has, ho, not_true, and_false, if_false]
            exact ⟨i1, i2⟩
          · obtain ⟨l, h1, h2⟩ := toValues_ok vs [] ho (fun s hs => hfc s (List.mem_cons_of_mem _ hs))
            have e : (add (run h) (.str k :: vs)).1 = Meta.addSet (run h) k l := by
              simp only [add, toCstr, h1, hk]
            rw [e]
            obtain ⟨a1, a2⟩ := answers_addSet hm k l j
            simp only [has, ho, not_false_eq_true, and_true]
            by_cases hj : j = k
            · simp only [if_pos hj]
              refine ⟨by rw [a1]; simp [hj], ?_⟩
              intro v
              rw [a2, i2, h2]
              simp [hj]
            · simp only [if_neg hj]
              refine ⟨by rw [a1, i1]; simp [hj], ?_⟩
              intro v
              rw [a2, i2]
              simp [hj]
    | clear args =>
      show (Meta.includes (clear (run h) args).1 j = true ↔ _) ∧ ∀ v, v ∈ Meta.get (clear (run h) args).1 j ↔ _
      cases args with
      | nil => exact ⟨by show false = true ↔ _; simp [has], fun v => by show v ∈ [] ↔ _; simp [has]⟩
      | cons k vs =>
        cases vs with
        | cons _ _ => exact absurd hfc.2 (by simp)
        | nil =>
          cases k with
          | other => exact ⟨i1, i2⟩
          | str k =>
            have hk : cstr k = k := cstr_clean (hfc.1 k List.mem_cons_self)
            have e : (clear (run h) [.str k]).1 = Meta.clear (run h) k := by
              simp only [clear, toCstr, hk]
            rw [e]
            obtain ⟨a1, a2⟩ := answers_clear hm k j
            simp only [has]
            by_cases hj : j = k
            · simp only [if_pos hj]
              exact ⟨by rw [a1]; simp [hj], fun v => by rw [a2]; simp [hj]⟩
            · simp only [if_neg hj]
              exact ⟨by rw [a1, i1]; simp [hj], fun v => by rw [a2, i2]; simp [hj]⟩
    | set args =>
      show (Meta.includes (set (run h) args).1 j = true ↔ _) ∧ ∀ v, v ∈ Meta.get (set (run h) args).1 j ↔ _
      cases args with
      | nil => exact ⟨i1, i2⟩
      | cons k vs =>
        cases k with
        | other => exact ⟨i1, i2⟩
        | str k =>
          have hk : cstr k = k := cstr_clean (hfc.1 k List.mem_cons_self)
          have ho : RVal.other ∉ vs := hfc.2 k vs rfl
          obtain ⟨l, h1, h2⟩ := toValues_ok vs [] ho (fun s hs => hfc.1 s (List.mem_cons_of_mem _ hs))
          have e : (set (run h) (.str k :: vs)).1 = Meta.addSet (Meta.clear (run h) k) k l := by
            simp only [set, clear, add, toCstr, h1, hk]
          rw [e]
          have hm' : ∃ s, Meta.Hist (Meta.clear (run h) k) s := by
            obtain ⟨s, hs⟩ := hm; exact ⟨_, .clear k hs⟩
          obtain ⟨a1, a2⟩ := answers_addSet hm' k l j
          obtain ⟨b1, b2⟩ := answers_clear hm k j
          simp only [has, ho, not_false_eq_true, and_true]
          by_cases hj : j = k
          · simp only [if_pos hj]
            refine ⟨by rw [a1]; simp [hj], ?_⟩
            intro v
            rw [a2, b2, h2]
            simp [hj]
          · simp only [if_neg hj]
            refine ⟨by rw [a1, b1, i1]; simp [hj], ?_⟩
            intro v
            rw [a2, b2, i2]
            simp [hj]

/-! ### C79 -/

/-- **C79**: after any history of `add`, `set`, `clear` and `delete` with strings without NUL byte, `include?(k)` answers whether
the key was added or set and not removed since, `get(k)` is the sorted list, without repetition, of the values given to it
since then, and `keys` lists the keys, sorted and each once. Calls that get something else than strings change nothing. -/
theorem C79_history_partial (h : List Call) (hf : ∀ c ∈ h, c.Fine) (k : Str) (hk : Clean k) :
    (includeP (run h) (.str k) = .ok true ↔ has h k ≠ none) ∧
    (∃ vs, get (run h) (.str k) = .ok vs ∧ (∀ v, v ∈ vs ↔ ∃ a, has h k = some a ∧ a v) ∧
      vs.Pairwise (fun a b => strLt a b = true)) ∧
    (k ∈ keys (run h) ↔ has h k ≠ none) ∧ (keys (run h)).Pairwise (fun a b => strLt a b = true) := by
  obtain ⟨s, hs⟩ := run_hist h
  have hok := Meta.hist_ok hs
  obtain ⟨a1, a2⟩ := run_answers h hf k
  have hc := cstr_clean hk
  refine ⟨?_, ⟨Meta.get (run h) k, ?_, a2, ?_⟩, ?_, ?_⟩
  · simp only [includeP, toCstr, hc]
    rw [← a1]
    constructor
    · intro e; injection e
    · intro e; rw [e]
  · simp only [get, toCstr, hc]
  · unfold Meta.get
    cases hf : find (run h) k with
    | none => exact List.Pairwise.nil
    | some vs => exact Meta.ok_find hok hf
  · rw [← a1]
    unfold keys Meta.includes
    rw [List.mem_map]
    constructor
    · rintro ⟨p, hp, rfl⟩
      exact find_isSome_of_mem hp
    · intro hsome
      obtain ⟨b, hb⟩ := Option.isSome_iff_exists.mp hsome
      exact ⟨(k, b), (mem_iff_find hok.1).mpr hb, rfl⟩
  · unfold keys
    rw [List.pairwise_map]
    exact hok.1

theorem keys_clean (h : List Call) (hf : ∀ c ∈ h, c.Fine) : ∀ k, has h k ≠ none → Clean k := by
  induction h with
  | nil => intro k hk; exact absurd rfl hk
  | cons c h ih =>
    intro k hk
    have ih' := ih (fun c hc => hf c (List.mem_cons_of_mem _ hc)) k
    have hfc := hf c List.mem_cons_self
    cases c with
    | add args =>
      cases args with
      | nil => exact ih' hk
      | cons x vs =>
        cases x with
        | other => exact ih' hk
        | str x =>
          simp only [has] at hk
          by_cases hj : k = x ∧ RVal.other ∉ vs
          · rw [hj.1]; exact hfc x List.mem_cons_self
          · rw [if_neg hj] at hk; exact ih' hk
    | set args =>
      cases args with
      | nil => exact ih' hk
      | cons x vs =>
        cases x with
        | other => exact ih' hk
        | str x =>
          simp only [has] at hk
          by_cases hj : k = x ∧ RVal.other ∉ vs
          · rw [hj.1]; exact hfc.1 x List.mem_cons_self
          · rw [if_neg hj] at hk; exact ih' hk
    | clear args =>
      cases args with
      | nil => exact absurd rfl hk
      | cons x vs =>
        cases vs with
        | cons _ _ => exact absurd hfc.2 (by simp)
        | nil =>
          cases x with
          | other => exact ih' hk
          | str x =>
            simp only [has] at hk
            by_cases hj : k = x
            · rw [if_pos hj] at hk; exact absurd rfl hk
            · rw [if_neg hj] at hk; exact ih' hk

/-- **C79, each**: a block that changes nothing gets each key once, in order, with what `get` returns for it. -/
theorem C79_each_partial (h : List Call) (hf : ∀ c ∈ h, c.Fine) :
    (each (run h)).map (·.1) = keys (run h) ∧
    ∀ k vs, (k, vs) ∈ each (run h) ↔ has h k ≠ none ∧ get (run h) (.str k) = .ok vs := by
  have hmem : ∀ k, k ∈ keys (run h) → Clean k ∧ has h k ≠ none := by
    intro k hk
    have : has h k ≠ none := by
      rw [← (run_answers h hf k).1]
      obtain ⟨p, hp, rfl⟩ := List.mem_map.mp hk
      exact find_isSome_of_mem hp
    exact ⟨keys_clean h hf k this, this⟩
  refine ⟨?_, ?_⟩
  · unfold each
    rw [List.map_map]
    exact List.map_id _
  · intro k vs
    unfold each
    rw [List.mem_map]
    constructor
    · rintro ⟨k', hk', e⟩
      obtain ⟨rfl, rfl⟩ := Prod.mk.inj e
      exact ⟨(hmem _ hk').2, rfl⟩
    · rintro ⟨h1, h2⟩
      have hk := (C79_history_partial h hf k (keys_clean h hf k h1)).2.2.1.mpr h1
      refine ⟨k, hk, ?_⟩
      have : Meta.get (run h) (cstr k) = vs := by
        simp only [get, toCstr] at h2
        injection h2
      rw [this]

/-- **C79**: the object is changed by `add` only if it accepts all its arguments, whatever the object and the arguments. -/
theorem C79_add_rejects (m : Meta.MetaData) (args : List RVal) (h : args = [] ∨ RVal.other ∈ args) :
    (add m args).1 = m ∧ ((add m args).2 = .exn .rbArg ∨ (add m args).2 = .exn .rbType) := by
  cases args with
  | nil => exact ⟨rfl, Or.inl rfl⟩
  | cons k vs =>
    cases k with
    | other => exact ⟨rfl, Or.inr rfl⟩
    | str k =>
      have ho : RVal.other ∈ vs := by
        rcases h with h | h
        · cases h
        · simpa using h
      simp only [add, toCstr, toValues_other vs [] ho]
      exact ⟨trivial, Or.inr trivial⟩

/-! ### Concrete cases and counterexamples -/

def exCalls : List Call :=
  [.set [.str ['d'], .str ['n']], .add [.str ['q'], .other], .clear [.str ['x']], .add [.str ['d'], .str ['b'], .str ['a']],
    .add [.str ['x']], .set [.str ['e']]]

theorem exCalls_fine : ∀ c ∈ exCalls, c.Fine := by
  have hcl : ∀ l : List RVal, (∀ v ∈ l, v ∈ [RVal.other, .str ['d'], .str ['n'], .str ['q'], .str ['x'], .str ['b'], .str ['a'],
      .str ['e']]) → ∀ s, RVal.str s ∈ l → Clean s := by
    intro l hl s hs
    have := hl _ hs
    simp only [List.mem_cons, List.not_mem_nil, or_false, RVal.str.injEq, reduceCtorEq, false_or] at this
    rcases this with rfl | rfl | rfl | rfl | rfl | rfl | rfl <;> (show Char.ofNat 0 ∉ _; decide)
  intro c hc
  simp only [exCalls, List.mem_cons, List.not_mem_nil, or_false] at hc
  rcases hc with rfl | rfl | rfl | rfl | rfl | rfl
  · exact ⟨hcl _ (by decide), by intro k vs e; cases e; decide⟩
  · exact hcl _ (by decide)
  · exact ⟨hcl _ (by decide), by decide⟩
  · exact hcl _ (by decide)
  · exact hcl _ (by decide)
  · exact ⟨hcl _ (by decide), by intro k vs e; cases e; decide⟩

example : run exCalls = [(['d'], [['n']]), (['e'], [])] := by decide

example := C79_history_partial exCalls exCalls_fine ['d'] (by show Char.ofNat 0 ∉ _; decide)
example := C79_each_partial exCalls exCalls_fine
example := C79_add_rejects (run exCalls) [.str ['k'], .str ['v'], .other] (Or.inr (by decide))

/-- **`md['k'] = ['b']` loses the key**: `set` removes the key, then `add` raises `TypeError` because an array is not a string. -/
theorem C79_set_counterexample :
    let m := run [.add [.str ['k'], .str ['a']]]
    includeP m (.str ['k']) = .ok true ∧ (set m [.str ['k'], .other]).2 = .exn .rbType ∧
    includeP (set m [.str ['k'], .other]).1 (.str ['k']) = .ok false := by decide

/-- **`delete` with two keys removes none**, and does not complain. -/
theorem C79_delete_counterexample :
    let m := run [.add [.str ['k']], .add [.str ['l']]]
    clear m [.str ['k'], .str ['l']] = (m, .ok ()) ∧ keys m = [['k'], ['l']] := by decide

/-- **Strings are cut at the first NUL byte**: two different keys designate the same entry, two values become one. -/
theorem C79_nul_counterexample :
    let m := run [.add [.str ['k', Char.ofNat 0, 'x'], .str ['a', Char.ofNat 0, '1'], .str ['a', Char.ofNat 0, '2']]]
    keys m = [['k']] ∧ get m (.str ['k', Char.ofNat 0, 'y']) = .ok [['a']] := by decide

end Verif.RubyMeta
