import Verif.StdMap

/-!
Model of the operations of `Enum` (typemodel.hh:308-356, typemodel.cc:452-515), with property C35. Values are
`int`s: the only arithmetic on them is the `+ 1`/`- 1` of automatic values, whose overflow is `ub`.
-/

namespace Verif.EnumModel
open Verif Verif.Registry Verif.StdMap

/-- `Enum::m_last_value`, `Enum::m_values`. -/
structure Enum where
  last : Int
  values : SMap Int
  deriving DecidableEq, Repr

/-- `Enum::Enum(name, initial_value)` (typemodel.cc:453-455): `initial_value - 1` overflows for INT_MIN. -/
def Enum.new (initial : Int) : Res Enum :=
  if initial = -2147483648 then .ub else .ok ⟨initial - 1, []⟩

/-- `Enum::getNextValue` (typemodel.cc:481): signed overflow after INT_MAX. -/
def Enum.getNextValue (e : Enum) : Res Int :=
  if e.last = 2147483647 then .ub else .ok (e.last + 1)

/-- `Enum::add` (typemodel.cc:482-489). `insert` keeps the value of a symbol that exists. The exception is
thrown before `m_last_value` is written. -/
def Enum.add (e : Enum) (name : Str) (value : Int) : Enum × Res Unit :=
  match find e.values name with
  | none => (⟨value, upsert name (fun o => o.getD value) e.values⟩, .ok ())
  | some v => if v ≠ value then (e, .exn .runtime) else ({ e with last := value }, .ok ())

/-- `Enum::get(name)` (typemodel.cc:490-497). -/
def Enum.get (e : Enum) (name : Str) : Res Int :=
  match find e.values name with
  | none => .exn .runtime
  | some v => .ok v

/-- `Enum::get(value)` (typemodel.cc:498-507): the first in map order. -/
def Enum.getName (e : Enum) (value : Int) : Res Str :=
  match e.values.find? (fun p => p.2 == value) with
  | none => .exn .runtime
  | some p => .ok p.1

/-- `Enum::names` (typemodel.cc:508-515). -/
def Enum.names (e : Enum) : List Str := e.values.map (·.1)

/-- a sequence of calls to `add`; the caller goes on after an exception -/
def Enum.run (e : Enum) : List (Str × Int) → Enum
  | [] => e
  | (n, v) :: r => Enum.run (e.add n v).1 r

/-! ### Specification -/

/-- the value given by the first `add` call for this name -/
def firstValue (calls : List (Str × Int)) (n : Str) : Option Int :=
  (calls.find? (fun c => c.1 == n)).map (·.2)

/-- a call conflicts with the calls before it when the name was first given another value -/
def Accepted (before : List (Str × Int)) (c : Str × Int) : Prop :=
  firstValue before c.1 = none ∨ firstValue before c.1 = some c.2

instance (b c) : Decidable (Accepted b c) := by unfold Accepted; infer_instance

/-- the value of the last accepted call (`initial - 1` if none) -/
def lastValue (initial : Int) (calls : List (Str × Int)) : Int :=
  (List.range calls.length).foldl (fun l i =>
    match calls[i]? with
    | some c => if Accepted (calls.take i) c then c.2 else l
    | none => l) (initial - 1)

theorem run_append (e : Enum) (a b : List (Str × Int)) : e.run (a ++ b) = (e.run a).run b := by
  induction a generalizing e with
  | nil => rfl
  | cons p a ih => obtain ⟨n, v⟩ := p; exact ih _

theorem lastValue_snoc (i : Int) (cs : List (Str × Int)) (c : Str × Int) :
    lastValue i (cs ++ [c]) = if Accepted cs c then c.2 else lastValue i cs := by
  unfold lastValue
  rw [List.length_append, List.length_singleton, List.range_succ, List.foldl_append]
  simp only [List.foldl_cons, List.foldl_nil]
  have : (cs ++ [c])[cs.length]? = some c := by simp
  rw [this]
  simp only [List.take_left']
  have hfold : ∀ (l : List Nat) (x : Int), (∀ i ∈ l, i < cs.length) →
      l.foldl (fun l i => match (cs ++ [c])[i]? with
        | some c' => if Accepted ((cs ++ [c]).take i) c' then c'.2 else l
        | none => l) x =
      l.foldl (fun l i => match cs[i]? with
        | some c' => if Accepted (cs.take i) c' then c'.2 else l
        | none => l) x := by
    intro l
    induction l with
    | nil => intro x _; rfl
    | cons j l ih =>
      intro x hl
      have hj : j < cs.length := hl j (by simp)
      simp only [List.foldl_cons]
      rw [List.getElem?_append_left hj, List.take_append_of_le_length (Nat.le_of_lt hj)]
      exact ih _ (fun i hi => hl i (by simp [hi]))
  rw [hfold _ _ (fun i hi => List.mem_range.mp hi)]

theorem firstValue_snoc (cs : List (Str × Int)) (c : Str × Int) (n : Str) :
    firstValue (cs ++ [c]) n = match firstValue cs n with
      | some v => some v
      | none => if c.1 = n then some c.2 else none := by
  unfold firstValue
  rw [List.find?_append]
  cases h : cs.find? (fun c => c.1 == n) with
  | some q => simp
  | none => by_cases hc : c.1 = n <;> simp [hc]

/-- induction on lists by their last element -/
theorem snoc_induction {α : Type} {P : List α → Prop} (nil : P [])
    (snoc : ∀ (l : List α) (a : α), P l → P (l ++ [a])) (l : List α) : P l := by
  have : ∀ (n : Nat) (l : List α), l.length = n → P l := by
    intro n
    induction n with
    | zero => intro l hl; rw [List.length_eq_zero_iff.mp hl]; exact nil
    | succ n ih =>
      intro l hl
      have hne : l ≠ [] := by intro e; subst e; simp at hl
      rw [← List.dropLast_concat_getLast hne]
      exact snoc _ _ (ih _ (by simp [hl]))
  exact this l.length l rfl

/-- what a history leaves in the object -/
theorem run_spec (initial : Int) (cs : List (Str × Int)) :
    let e := Enum.run ⟨initial - 1, []⟩ cs
    MSorted e.values ∧ (∀ n, find e.values n = firstValue cs n) ∧ e.last = lastValue initial cs := by
  induction cs using snoc_induction with
  | nil => exact ⟨List.Pairwise.nil, fun n => rfl, rfl⟩
  | snoc cs c ih =>
    obtain ⟨n, v⟩ := c
    obtain ⟨h1, h2, h3⟩ := ih
    simp only [run_append]
    generalize Enum.run ⟨initial - 1, []⟩ cs = e at h1 h2 h3
    simp only [Enum.run, Enum.add]
    rw [lastValue_snoc]
    have hn := h2 n
    cases hf : find e.values n with
    | none =>
      rw [hf] at hn
      refine ⟨sorted_upsert _ _ h1, ?_, ?_⟩
      · intro k
        simp only [find_upsert n _ h1, firstValue_snoc, hf, h2 k]
        by_cases hk : n = k
        · subst hk; simp [← hn]
        · simp only [hk, if_false]
          cases firstValue cs k <;> rfl
      · rw [if_pos (show Accepted cs (n, v) from Or.inl hn.symm)]
    | some w =>
      rw [hf] at hn
      simp only
      by_cases hw : w = v
      · subst hw
        simp only [ne_eq, not_true, if_false]
        refine ⟨h1, ?_, ?_⟩
        · intro k
          rw [firstValue_snoc, h2 k]
          by_cases hk : n = k
          · subst hk; rw [← hn]
          · simp only [hk, if_false]; cases firstValue cs k <;> rfl
        · rw [if_pos (show Accepted cs (n, w) from Or.inr hn.symm)]
      · simp only [ne_eq, hw, not_false_eq_true, if_true]
        refine ⟨h1, ?_, ?_⟩
        · intro k
          rw [firstValue_snoc, h2 k]
          by_cases hk : n = k
          · subst hk; rw [← hn]
          · simp only [hk, if_false]; cases firstValue cs k <;> rfl
        · rw [if_neg, h3]
          intro h
          rcases h with h | h
          · simp only at h; rw [h] at hn; cases hn
          · simp only at h; rw [h] at hn; cases hn; exact hw rfl

/-! ### C35 -/

/-- After any sequence of `add` calls, `get(name)` returns the value given by the first call for that name,
and throws if there was none. -/
theorem C35_get_first (initial : Int) (cs : List (Str × Int)) (n : Str) :
    (Enum.run ⟨initial - 1, []⟩ cs).get n = match firstValue cs n with
      | some v => .ok v
      | none => .exn .runtime := by
  have h := (run_spec initial cs).2.1 n
  unfold Enum.get
  rw [h]
  cases firstValue cs n <;> rfl

/-- An `add` succeeds exactly when the name is new or already has that value; otherwise it throws and
changes nothing (no symbol, and not the next automatic value either). -/
theorem C35_add_conflict (initial : Int) (cs : List (Str × Int)) (n : Str) (v : Int) :
    let e := Enum.run ⟨initial - 1, []⟩ cs
    (Accepted cs (n, v) → ((e.add n v).2 = .ok () ∧ (e.add n v).1.get n = .ok v ∧
      ∀ m, m ≠ n → (e.add n v).1.get m = e.get m)) ∧
    (¬ Accepted cs (n, v) → e.add n v = (e, .exn .runtime)) := by
  simp only
  obtain ⟨h1, h2, _⟩ := run_spec initial cs
  have hn := h2 n
  generalize Enum.run ⟨initial - 1, []⟩ cs = e at h1 h2 hn
  constructor
  · intro ha
    unfold Enum.add
    cases hf : find e.values n with
    | none =>
      refine ⟨rfl, ?_, ?_⟩
      · simp [Enum.get, find_upsert n _ h1, hf]
      · intro m hm
        have hm' : ¬ n = m := fun e => hm e.symm
        simp [Enum.get, find_upsert n _ h1, hm']
    | some w =>
      rcases ha with ha | ha
      · simp only at ha; rw [ha, hf] at hn; cases hn
      · simp only at ha; rw [ha, hf] at hn; cases hn
        simp [Enum.get, hf]
  · intro ha
    unfold Enum.add
    cases hf : find e.values n with
    | none => exact absurd (Or.inl (by simp only; rw [← hn, hf])) ha
    | some w =>
      simp only
      rw [if_pos]
      intro hw
      subst hw
      exact ha (Or.inr (by simp only; rw [← hn, hf]))

/-- `get(value)` returns a symbol whose value is `value`, the smallest such symbol, and throws only if no
symbol has that value. -/
theorem C35_get_inverse (initial : Int) (cs : List (Str × Int)) (v : Int) :
    let e := Enum.run ⟨initial - 1, []⟩ cs
    (∀ n, e.getName v = .ok n → e.get n = .ok v ∧ ∀ m, e.get m = .ok v → m ≠ n → strLt n m = true) ∧
    ((∃ n, e.get n = .ok v) → ∃ n, e.getName v = .ok n) ∧
    ((¬ ∃ n, e.get n = .ok v) → e.getName v = .exn .runtime) := by
  simp only
  obtain ⟨h1, _, _⟩ := run_spec initial cs
  generalize Enum.run ⟨initial - 1, []⟩ cs = e at h1
  have hget : ∀ n, e.get n = .ok v ↔ (n, v) ∈ e.values := by
    intro n
    rw [mem_iff_find h1]
    unfold Enum.get
    cases find e.values n <;> simp
  refine ⟨?_, ?_, ?_⟩
  · intro n hn
    unfold Enum.getName at hn
    cases hf : e.values.find? (fun p => p.2 == v) with
    | none => rw [hf] at hn; cases hn
    | some p =>
      rw [hf] at hn
      simp only [Res.ok.injEq] at hn
      obtain ⟨k, w⟩ := p
      simp only at hn
      subst hn
      obtain ⟨hp, as, bs, hv, has⟩ := List.find?_eq_some_iff_append.mp hf
      have hw : w = v := by simpa using hp
      subst hw
      refine ⟨(hget k).mpr (by rw [hv]; simp), ?_⟩
      intro m hm hne
      have hmem := (hget m).mp hm
      rw [hv] at hmem
      rcases List.mem_append.mp hmem with hmem | hmem
      · have := has _ hmem; simp at this
      · rcases List.mem_cons.mp hmem with hmem | hmem
        · cases hmem; exact absurd rfl hne
        · unfold MSorted at h1
          rw [hv, List.pairwise_append] at h1
          exact (List.pairwise_cons.mp h1.2.1).1 _ hmem
  · rintro ⟨n, hn⟩
    have hmem := (hget n).mp hn
    unfold Enum.getName
    cases hf : e.values.find? (fun p => p.2 == v) with
    | none => have := List.find?_eq_none.mp hf _ hmem; simp at this
    | some p => exact ⟨p.1, rfl⟩
  · intro hno
    unfold Enum.getName
    cases hf : e.values.find? (fun p => p.2 == v) with
    | none => rfl
    | some p =>
      have h := List.find?_some hf
      have hm := List.mem_of_find?_eq_some hf
      simp only [beq_iff_eq] at h
      exact absurd ⟨p.1, (hget p.1).mpr (by rw [← h]; exact hm)⟩ hno

/-- The automatic value is one more than the last value accepted, the initial value if there is none; past
INT_MAX it is undefined behaviour. -/
theorem C35_next_value (initial : Int) (cs : List (Str × Int)) :
    (Enum.run ⟨initial - 1, []⟩ cs).getNextValue =
      if lastValue initial cs = 2147483647 then .ub else .ok (lastValue initial cs + 1) := by
  have h := (run_spec initial cs).2.2
  unfold Enum.getNextValue
  rw [h]

/-- A new enum starts at its initial value, and automatic values count up from it. -/
theorem C35_automatic_values (initial : Int) (hi : initial ≠ -2147483648) (names : List Str)
    (hnd : names.Nodup) (hr : initial + names.length ≤ 2147483647) :
    ∃ e, Enum.new initial = .ok e ∧
      let addAuto := fun (r : Res Enum) (n : Str) => r >>= fun e => e.getNextValue >>= fun v =>
        (e.add n v).2 >>= fun _ => .ok (e.add n v).1
      ∃ e', names.foldl addAuto (.ok e) = .ok e' ∧
        ∀ (i : Nat) (n : Str), names[i]? = some n → e'.get n = .ok (initial + i) := by
  refine ⟨⟨initial - 1, []⟩, by simp [Enum.new, hi], ?_⟩
  intro addAuto
  have key : ∀ (ns : List Str) (e : Enum) (k : Int), MSorted e.values → ns.Nodup →
      (∀ n ∈ ns, find e.values n = none) → e.last = k - 1 → k + ns.length ≤ 2147483647 →
      ∃ e', ns.foldl addAuto (.ok e) = .ok e' ∧ MSorted e'.values ∧
        (∀ (i : Nat) (n : Str), ns[i]? = some n → find e'.values n = some (k + i)) ∧
        ∀ m, m ∉ ns → find e'.values m = find e.values m := by
    intro ns
    induction ns with
    | nil => intro e k hs _ _ _ _; exact ⟨e, rfl, hs, by simp, fun m _ => rfl⟩
    | cons n ns ih =>
      intro e k hs hnd hno hl hk
      obtain ⟨hn, hnd'⟩ := List.nodup_cons.mp hnd
      have hlen : (((n :: ns).length : Nat) : Int) = ns.length + 1 := by simp
      rw [hlen] at hk
      have hstep : addAuto (.ok e) n = .ok ⟨k, upsert n (fun o => o.getD k) e.values⟩ := by
        have h1 : e.getNextValue = .ok k := by
          unfold Enum.getNextValue
          rw [hl, if_neg (by omega)]
          congr 1; omega
        show (e.getNextValue >>= fun v => (e.add n v).2 >>= fun _ => Res.ok (e.add n v).1) = _
        rw [h1]
        simp [Enum.add, hno n (by simp)]
      simp only [List.foldl_cons, hstep]
      obtain ⟨e', he, hs', hv, ho⟩ := ih ⟨k, upsert n (fun o => o.getD k) e.values⟩ (k + 1)
        (sorted_upsert _ _ hs) hnd' (by
          intro m hm
          have : ¬ n = m := fun e => hn (by rw [e]; exact hm)
          simp only [find_upsert n _ hs, this, if_false]
          exact hno m (by simp [hm])) (by simp) (by omega)
      refine ⟨e', he, hs', ?_, ?_⟩
      · intro i m hm
        cases i with
        | zero =>
          simp only [List.getElem?_cons_zero, Option.some.injEq] at hm
          subst hm
          rw [ho n hn]
          simp [find_upsert n _ hs, hno n (by simp)]
        | succ i =>
          simp only [List.getElem?_cons_succ] at hm
          rw [hv i m hm]
          congr 1
          push_cast
          omega
      · intro m hm
        simp only [List.mem_cons, not_or] at hm
        rw [ho m hm.2]
        have : ¬ n = m := fun e => hm.1 e.symm
        simp [find_upsert n _ hs, this]
  obtain ⟨e', he, _, hv, _⟩ := key names ⟨initial - 1, []⟩ initial List.Pairwise.nil hnd (by intros; rfl) rfl hr
  exact ⟨e', he, fun i n hi => by simp [Enum.get, hv i n hi]⟩

example : (Enum.run ⟨-1, []⟩ [(['b'], 4), (['a'], 4), (['b'], 5), (['b'], 4), (['c'], 9)]).getName 4 = .ok ['a'] ∧
    (Enum.run ⟨-1, []⟩ [(['b'], 4), (['a'], 4), (['b'], 5), (['b'], 4)]).getNextValue = .ok 5 := by decide

example : ¬ Accepted [(['b'], 4), (['a'], 4)] (['b'], 5) := by decide

/-! ### The theorems on concrete cases -/

example := C35_automatic_values 3 (by decide) ["A".toList, "B".toList, "C".toList] (by decide) (by decide)

end Verif.EnumModel
