/-!
Association lists with unique keys (`std::map`, hash tables whose order does not matter).
-/

namespace Verif.Assoc

variable {K V : Type} [DecidableEq K]

/-- lookup -/
def get (m : List (K × V)) (k : K) : Option V := (m.find? (fun p => decide (p.1 = k))).map (·.2)

/-- overwrite the value of a present key -/
def put (m : List (K × V)) (k : K) (v : V) : List (K × V) := m.map (fun p => if p.1 = k then (k, v) else p)

/-- remove a key -/
def del (m : List (K × V)) (k : K) : List (K × V) := m.filter (fun p => decide (p.1 ≠ k))

/-- unique keys -/
def Uniq (m : List (K × V)) : Prop := (m.map (·.1)).Nodup

@[simp] theorem get_nil (k : K) : get ([] : List (K × V)) k = none := rfl

theorem get_cons (p : K × V) (m : List (K × V)) (k : K) :
    get (p :: m) k = if p.1 = k then some p.2 else get m k := by
  simp only [get, List.find?_cons]
  by_cases h : p.1 = k <;> simp [h]

theorem get_append (m m' : List (K × V)) (k : K) : get (m ++ m') k = (get m k).or (get m' k) := by
  induction m with
  | nil => simp
  | cons p m ih =>
    rw [List.cons_append, get_cons, get_cons]
    by_cases h : p.1 = k <;> simp [h, ih]

theorem get_put (m : List (K × V)) (k x : K) (v : V) :
    get (put m k v) x = if x = k then (get m k).map (fun _ => v) else get m x := by
  induction m with
  | nil => simp [put]
  | cons p m ih =>
    simp only [put, List.map_cons] at ih ⊢
    rw [get_cons, ih, get_cons, get_cons]
    by_cases hx : x = k
    · subst hx
      by_cases h : p.1 = x <;> simp [h]
    · by_cases h : p.1 = k
      · have : ¬ k = x := fun e => hx e.symm
        simp [h, hx, this]
      · simp [h, hx]

theorem get_del (m : List (K × V)) (k x : K) : get (del m k) x = if x = k then none else get m x := by
  induction m with
  | nil => simp [del]
  | cons p m ih =>
    simp only [del, List.filter_cons] at ih ⊢
    by_cases h : p.1 = k
    · simp only [h, ne_eq, not_true_eq_false, decide_false, Bool.false_eq_true, if_false, get_cons, ih]
      by_cases hx : x = k
      · simp [hx]
      · simp [hx, Ne.symm hx]
    · simp only [ne_eq, h, not_false_eq_true, decide_true, if_true, get_cons, ih]
      by_cases hx : x = k
      · subst hx; simp [h]
      · simp [hx]

theorem keys_put (m : List (K × V)) (k : K) (v : V) : (put m k v).map (·.1) = m.map (·.1) := by
  induction m with
  | nil => rfl
  | cons p m ih =>
    simp only [put, List.map_cons] at ih ⊢
    rw [ih]
    by_cases h : p.1 = k <;> simp [h]

theorem get_isSome (m : List (K × V)) (k : K) : (get m k).isSome ↔ k ∈ m.map (·.1) := by
  induction m with
  | nil => simp
  | cons p m ih =>
    rw [get_cons]
    by_cases h : p.1 = k
    · simp [h]
    · simp only [h, if_false, ih, List.map_cons, List.mem_cons]
      constructor
      · exact Or.inr
      · rintro (e | e)
        · exact absurd e.symm h
        · exact e

theorem uniq_put {m : List (K × V)} (h : Uniq m) (k : K) (v : V) : Uniq (put m k v) := by
  unfold Uniq; rw [keys_put]; exact h

theorem uniq_del {m : List (K × V)} (h : Uniq m) (k : K) : Uniq (del m k) :=
  (List.Sublist.map _ List.filter_sublist).nodup h

theorem uniq_append {m : List (K × V)} (h : Uniq m) {k : K} {v : V} (hn : get m k = none) :
    Uniq (m ++ [(k, v)]) := by
  unfold Uniq
  rw [List.map_append, List.nodup_append]
  refine ⟨h, by simp, ?_⟩
  intro a ha b hb e
  simp only [List.map_cons, List.map_nil, List.mem_singleton] at hb
  subst hb; subst e
  have := (get_isSome m a).mpr ha
  rw [hn] at this
  simp at this

theorem mem_of_get {m : List (K × V)} {k : K} {v : V} (h : get m k = some v) : (k, v) ∈ m := by
  induction m with
  | nil => simp at h
  | cons p m ih =>
    rw [get_cons] at h
    by_cases e : p.1 = k
    · rw [if_pos e] at h
      have : p = (k, v) := by
        cases p; simp only [Option.some.injEq] at h e; rw [e, h]
      simp [this]
    · rw [if_neg e] at h
      exact List.mem_cons_of_mem _ (ih h)

theorem get_of_mem {m : List (K × V)} (hu : Uniq m) {k : K} {v : V} (h : (k, v) ∈ m) : get m k = some v := by
  induction m with
  | nil => simp at h
  | cons p m ih =>
    simp only [Uniq, List.map_cons, List.nodup_cons] at hu
    rw [get_cons]
    rcases List.mem_cons.mp h with rfl | h
    · simp
    · rw [if_neg, ih hu.2 h]
      intro e
      exact hu.1 (List.mem_map.mpr ⟨(k, v), h, e.symm⟩)

/-- 0 or 1 -/
def bit (b : Bool) : Nat := if b then 1 else 0

theorem put_absent (m : List (K × V)) (k : K) (v : V) (h : k ∉ m.map (·.1)) : put m k v = m := by
  unfold put
  conv => rhs; rw [← List.map_id m]
  apply List.map_congr_left
  intro p hp
  have : p.1 ≠ k := fun e => h (List.mem_map.mpr ⟨p, hp, e⟩)
  simp [this]

theorem del_absent (m : List (K × V)) (k : K) (h : k ∉ m.map (·.1)) : del m k = m := by
  unfold del
  rw [List.filter_eq_self]
  intro p hp
  have : p.1 ≠ k := fun e => h (List.mem_map.mpr ⟨p, hp, e⟩)
  simp [this]

theorem countP_put (P : K × V → Bool) {m : List (K × V)} (hu : Uniq m) {k : K} {v0 : V} (v : V)
    (hg : get m k = some v0) :
    (put m k v).countP P + bit (P (k, v0)) = m.countP P + bit (P (k, v)) := by
  induction m with
  | nil => simp at hg
  | cons p m ih =>
    simp only [Uniq, List.map_cons, List.nodup_cons] at hu
    rw [get_cons] at hg
    by_cases e : p.1 = k
    · rw [if_pos e] at hg
      have hp : p = (k, v0) := by
        cases p; simp only [Option.some.injEq] at hg e; rw [e, hg]
      have hab : put (p :: m) k v = (k, v) :: m := by
        simp only [put, List.map_cons, e, if_true]
        congr 1
        exact put_absent m k v (e ▸ hu.1)
      rw [hab, hp, List.countP_cons, List.countP_cons]
      unfold bit
      omega
    · rw [if_neg e] at hg
      have hab : put (p :: m) k v = p :: put m k v := by
        simp [put, e]
      have := ih hu.2 hg
      rw [hab, List.countP_cons, List.countP_cons]
      omega

theorem countP_del (P : K × V → Bool) {m : List (K × V)} (hu : Uniq m) {k : K} {v0 : V}
    (hg : get m k = some v0) :
    (del m k).countP P + bit (P (k, v0)) = m.countP P := by
  induction m with
  | nil => simp at hg
  | cons p m ih =>
    simp only [Uniq, List.map_cons, List.nodup_cons] at hu
    rw [get_cons] at hg
    by_cases e : p.1 = k
    · rw [if_pos e] at hg
      have hp : p = (k, v0) := by
        cases p; simp only [Option.some.injEq] at hg e; rw [e, hg]
      have hab : del (p :: m) k = m := by
        have : del (p :: m) k = del m k := by simp [del, e]
        rw [this, del_absent m k (e ▸ hu.1)]
      rw [hab, hp, List.countP_cons]
      rfl
    · rw [if_neg e] at hg
      have hab : del (p :: m) k = p :: del m k := by
        simp [del, e]
      have := ih hu.2 hg
      rw [hab, List.countP_cons, List.countP_cons]
      omega

end Verif.Assoc
