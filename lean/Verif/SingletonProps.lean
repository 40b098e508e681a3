import Verif.Singleton
import Mathlib.Data.List.Perm.Subperm

/-!
C41: a singleton exists exactly while it is needed, one object at a time.
-/

namespace Verif.Singleton
open Verif

/-! ### The specification -/

/-- the singleton classes do not use each other in cycles, and at most `f` of them are nested -/
structure Layered (uses : Name → List Name) (rank : Name → Nat) (f : Nat) : Prop where
  bound : ∀ n, rank n < f
  lt : ∀ n u, u ∈ uses n → rank u < rank n

/-- a schedule: which thread makes which call -/
abbrev Sched := List (Nat × Op)

/-- thread `t` holds at least one `use<n>` object after the schedule -/
def Holds (sched : Sched) (t : Nat) (n : Name) : Prop :=
  sched.count (t, .detach n) < sched.count (t, .attach n)

/-- the calls come from `use` objects: a thread destroys only objects it has constructed -/
def Valid (sched : Sched) : Prop :=
  ∀ a t n b, sched = a ++ (t, .detach n) :: b → Holds a t n

/-- `n` is needed: held by a thread, or used by a needed singleton -/
inductive Needed (uses : Name → List Name) (sched : Sched) : Name → Prop where
  | held (t : Nat) (n : Name) (h : Holds sched t n) : Needed uses sched n
  | used (m n : Name) (h : Needed uses sched m) (hn : n ∈ uses m) : Needed uses sched n

/-- The destruction of a singleton that uses others never leaves the process without singletons. -/
def NoLastNested (uses : Name → List Name) (sched : Sched) : Prop :=
  ∀ a t n b, sched = a ++ (t, .detach n) :: b → uses n = [] ∨ ∃ t' m, Holds (a ++ [(t, .detach n)]) t' m

/-- the singleton object exists -/
def Alive (s : St) (n : Name) : Prop := ∃ v k, s.server = some v ∧ find v.map n = some k

/-! ### Lemmas on maps -/

/-- counter of `n`, 0 when absent -/
def refs (m : List (Name × Nat)) (n : Name) : Nat := (find m n).getD 0

/-- references held by the singletons of the map -/
def inner (uses : Name → List Name) (m : List (Name × Nat)) : List Name := m.flatMap (fun p => uses p.1)

def mapOf (s : St) : List (Name × Nat) := (s.server.map (·.map)).getD []

theorem find_cons (p : Name × Nat) (m : List (Name × Nat)) (n : Name) :
    find (p :: m) n = if p.1 = n then some p.2 else find m n := by
  simp only [find, List.find?_cons]
  by_cases h : p.1 = n
  · simp [h]
  · have : (p.1 == n) = false := by simp [h]
    simp [h, this]

@[simp] theorem find_nil (n : Name) : find [] n = none := rfl

theorem find_append (m m' : List (Name × Nat)) (n : Name) :
    find (m ++ m') n = (find m n).or (find m' n) := by
  induction m with
  | nil => simp
  | cons p m ih =>
    rw [List.cons_append, find_cons, find_cons]
    by_cases h : p.1 = n <;> simp [h, ih]

theorem find_erase (m : List (Name × Nat)) (n x : Name) :
    find (erase m n) x = if x = n then none else find m x := by
  induction m with
  | nil => simp [erase]
  | cons p m ih =>
    simp only [erase, List.filter_cons] at ih ⊢
    by_cases h : p.1 = n
    · simp only [h, bne_self_eq_false, Bool.false_eq_true, if_false, ih, find_cons]
      by_cases hx : x = n
      · simp [hx]
      · simp [hx, Ne.symm hx]
    · have : (p.1 != n) = true := by simp [h]
      simp only [this, if_true, find_cons, ih]
      by_cases hx : x = n
      · subst hx; simp [h]
      · simp [hx]

theorem find_setRef (m : List (Name × Nat)) (n x : Name) (k : Nat) :
    find (setRef m n k) x = if x = n then (find m n).map (fun _ => k) else find m x := by
  induction m with
  | nil => simp [setRef]
  | cons p m ih =>
    simp only [setRef, List.map_cons] at ih ⊢
    rw [find_cons, ih, find_cons, find_cons]
    by_cases hx : x = n
    · subst hx
      by_cases h : p.1 = x <;> simp [h]
    · by_cases h : p.1 = n
      · have : ¬ n = x := fun e => hx e.symm
        simp [h, hx, this]
      · simp [h, hx]

theorem inner_setRef (uses : Name → List Name) (m : List (Name × Nat)) (n : Name) (k : Nat) :
    inner uses (setRef m n k) = inner uses m := by
  induction m with
  | nil => rfl
  | cons p m ih =>
    simp only [inner, setRef, List.map_cons, List.flatMap_cons] at ih ⊢
    rw [ih]
    by_cases h : p.1 = n <;> simp [h]

theorem keys_setRef (m : List (Name × Nat)) (n : Name) (k : Nat) :
    (setRef m n k).map (·.1) = m.map (·.1) := by
  induction m with
  | nil => rfl
  | cons p m ih =>
    simp only [setRef, List.map_cons] at ih ⊢
    rw [ih]
    by_cases h : p.1 = n <;> simp [h]

theorem find_isSome (m : List (Name × Nat)) (n : Name) : (find m n).isSome ↔ n ∈ m.map (·.1) := by
  induction m with
  | nil => simp
  | cons p m ih =>
    rw [find_cons]
    by_cases h : p.1 = n
    · simp [h]
    · simp only [h, if_false, ih, List.map_cons, List.mem_cons]
      constructor
      · exact Or.inr
      · rintro (e | e)
        · exact absurd e.symm h
        · exact e

theorem erase_absent (m : List (Name × Nat)) (n : Name) (h : n ∉ m.map (·.1)) : erase m n = m := by
  unfold erase
  rw [List.filter_eq_self]
  intro p hp
  have : p.1 ≠ n := fun e => h (List.mem_map.mpr ⟨p, hp, e⟩)
  simp [this]

theorem inner_erase (uses : Name → List Name) (m : List (Name × Nat)) (n x : Name)
    (hnd : (m.map (·.1)).Nodup) (hn : n ∈ m.map (·.1)) :
    (inner uses m).count x = (inner uses (erase m n)).count x + (uses n).count x := by
  induction m with
  | nil => simp at hn
  | cons p m ih =>
    simp only [List.map_cons, List.nodup_cons] at hnd
    by_cases h : p.1 = n
    · have hab : erase (p :: m) n = m := by
        have : erase (p :: m) n = erase m n := by simp [erase, h]
        rw [this, erase_absent]
        exact h ▸ hnd.1
      rw [hab]
      simp only [inner, List.flatMap_cons, List.count_append, h]
      omega
    · have he : erase (p :: m) n = p :: erase m n := by simp [erase, h]
      have hn' : n ∈ m.map (·.1) := by
        simp only [List.map_cons, List.mem_cons] at hn
        rcases hn with e | e
        · exact absurd e.symm h
        · exact e
      have := ih hnd.2 hn'
      rw [he]
      simp only [inner, List.flatMap_cons, List.count_append] at this ⊢
      omega

theorem keys_erase (m : List (Name × Nat)) (n : Name) (h : (m.map (·.1)).Nodup) :
    ((erase m n).map (·.1)).Nodup :=
  (List.Sublist.map _ List.filter_sublist).nodup h

/-! ### Invariant -/

/-- `ext n` references to `n` are held outside of the finished singletons. -/
structure Inv (uses : Name → List Name) (ext : Name → Nat) (s : St) : Prop where
  keys : ((mapOf s).map (·.1)).Nodup
  refs : ∀ n, refs (mapOf s) n = ext n + (inner uses (mapOf s)).count n
  pos : ∀ n k, find (mapOf s) n = some k → 1 ≤ k
  life : ∀ n, s.created n = s.destroyed n + (if (find (mapOf s) n).isSome then 1 else 0)

/-- `ext` plus the references in a list -/
def plus (ext : Name → Nat) (l : List Name) : Name → Nat := fun n => ext n + l.count n

theorem plus_nil (ext : Name → Nat) : plus ext [] = ext := by funext n; simp [plus]

theorem plus_append (ext : Name → Nat) (l l' : List Name) : plus (plus ext l) l' = plus ext (l ++ l') := by
  funext n; simp [plus, List.count_append, Nat.add_assoc]

theorem plus_perm (ext : Name → Nat) {l l' : List Name} (h : l.Perm l') : plus ext l = plus ext l' := by
  funext n; simp [plus, h.count_eq]

theorem mapOf_instance (s : St) : (instanceServer s).1.map = mapOf s ∧
    mapOf (instanceServer s).2 = mapOf s ∧ (instanceServer s).2.server = some (instanceServer s).1 ∧
    (instanceServer s).2.created = s.created ∧ (instanceServer s).2.destroyed = s.destroyed ∧
    (∀ v, s.server = some v → instanceServer s = (v, s)) := by
  unfold instanceServer mapOf
  cases h : s.server <;> simp [h]

variable {uses : Name → List Name} {rank : Name → Nat} {F : Nat}

/-- postcondition shared by attach and its repetition -/
structure Post (uses : Name → List Name) (ext : Name → Nat) (bound : Name → Prop) (s s' : St) : Prop where
  inv : Inv uses ext s'
  there : s'.server.isSome
  same : ∀ v, s.server = some v → ∃ v', s'.server = some v' ∧ v'.id = v.id
  high : ∀ m, ¬ bound m → find (mapOf s') m = find (mapOf s) m

theorem attach_spec (hl : Layered uses rank F) : ∀ f s n ext, rank n < f → Inv uses ext s →
    ∃ s', attach uses f s n = .ok s' ∧ Post uses (plus ext [n]) (fun m => rank m ≤ rank n) s s' := by
  intro f
  induction f with
  | zero => intro s n ext h; omega
  | succ f ih =>
    intro s n ext hr hi
    obtain ⟨h1, h2, h3, h4, h5, h6⟩ := mapOf_instance s
    -- repeated attach
    have hall : ∀ (l : List Name) (s : St) (ext : Name → Nat), (∀ u ∈ l, rank u < rank n) → Inv uses ext s →
        s.server.isSome → ∃ s', each (attach uses f) s l = .ok s' ∧
          Post uses (plus ext l) (fun m => rank m < rank n) s s' := by
      intro l
      induction l with
      | nil =>
        intro s ext _ hi hs
        exact ⟨s, rfl, by rw [plus_nil]; exact hi, hs, fun v hv => ⟨v, hv, rfl⟩, fun _ _ => rfl⟩
      | cons u l ihl =>
        intro s ext hu hi hs
        have hru := hu u (by simp)
        obtain ⟨s1, e1, p1⟩ := ih s u ext (by omega) hi
        obtain ⟨s2, e2, p2⟩ := ihl s1 (plus ext [u]) (fun w hw => hu w (by simp [hw])) p1.inv p1.there
        refine ⟨s2, by simp [each, e1, e2], ?_, p2.there, ?_, ?_⟩
        · have := p2.inv
          rw [plus_append] at this
          exact this
        · intro v hv
          obtain ⟨v1, hv1, e⟩ := p1.same v hv
          obtain ⟨v2, hv2, e'⟩ := p2.same v1 hv1
          exact ⟨v2, hv2, e'.trans e⟩
        · intro m hm
          rw [p2.high m hm, p1.high m (by omega)]
    simp only [attach]
    cases hf : find (instanceServer s).1.map n with
    | some k =>
      simp only
      refine ⟨_, rfl, ?_, rfl, ?_, ?_⟩
      · rw [h1] at hf
        have hmap : mapOf { (instanceServer s).2 with
            server := some { (instanceServer s).1 with map := setRef (instanceServer s).1.map n (k + 1) } }
            = setRef (mapOf s) n (k + 1) := by simp [mapOf, h1]
        constructor
        · rw [hmap, keys_setRef]; exact hi.keys
        · intro x
          rw [hmap, inner_setRef]
          have hx := hi.refs x
          simp only [refs, find_setRef, plus] at hx ⊢
          by_cases e : x = n
          · subst e
            simp only [if_true, hf, Option.map_some, Option.getD_some, List.count_singleton_self] at hx ⊢
            omega
          · have : List.count x [n] = 0 := by
              rw [List.count_eq_zero]; simpa using e
            simp only [e, if_false, this]
            omega
        · intro x j hj
          rw [hmap, find_setRef] at hj
          by_cases e : x = n
          · simp [e, hf] at hj
            omega
          · simp only [e, if_false] at hj
            exact hi.pos x j hj
        · intro x
          rw [hmap, find_setRef]
          have := hi.life x
          simp only [h4, h5]
          by_cases e : x = n
          · subst e; simpa [hf] using this
          · simpa [e] using this
      · intro v hv
        rw [h6 v hv]
        exact ⟨_, rfl, rfl⟩
      · intro m hm
        have hmap : mapOf { (instanceServer s).2 with
            server := some { (instanceServer s).1 with map := setRef (instanceServer s).1.map n (k + 1) } }
            = setRef (mapOf s) n (k + 1) := by simp [mapOf, h1]
        rw [hmap, find_setRef, if_neg]
        intro e
        exact hm (by simp [e])
    | none =>
      simp only
      have hi0 : Inv uses ext (instanceServer s).2 := by
        refine ⟨by rw [h2]; exact hi.keys, ?_, ?_, ?_⟩
        · rw [h2]; exact hi.refs
        · rw [h2]; exact hi.pos
        · rw [h2, h4, h5]; exact hi.life
      obtain ⟨s1, e1, p1⟩ := hall (uses n) _ ext (hl.lt n) hi0 (by rw [h3]; rfl)
      obtain ⟨v1, hv1, hid⟩ := p1.same _ h3
      rw [e1]
      simp only [Res.bind_ok, hv1]
      rw [if_neg (fun h => h hid)]
      have hm1 : mapOf s1 = v1.map := by simp [mapOf, hv1]
      have hnone : find v1.map n = none := by
        rw [← hm1, p1.high n (by omega), h2, ← h1]; exact hf
      rw [hnone]
      simp only
      refine ⟨_, rfl, ?_, rfl, ?_, ?_⟩
      · have hmap : mapOf { s1 with created := bump s1.created n,
                                     server := some { v1 with map := v1.map ++ [(n, 1)] } }
            = mapOf s1 ++ [(n, 1)] := by rw [hm1]; rfl
        have hn1 : find (mapOf s1) n = none := by rw [hm1]; exact hnone
        have hi1 := p1.inv
        constructor
        · rw [hmap, List.map_append, List.nodup_append]
          refine ⟨hi1.keys, by simp, ?_⟩
          intro a ha b hb e
          simp only [List.map_cons, List.map_nil, List.mem_singleton] at hb
          subst hb; subst e
          have := (find_isSome (mapOf s1) a).mpr ha
          rw [hn1] at this
          simp at this
        · intro x
          rw [hmap]
          have hx := hi1.refs x
          simp only [refs, find_append, plus, inner, List.flatMap_append, List.count_append] at hx ⊢
          by_cases e : x = n
          · subst e
            simp only [hn1, Option.none_or, find_cons, if_true, Option.getD_some, Option.getD_none,
              List.count_singleton_self, List.flatMap_cons, List.flatMap_nil, List.append_nil] at hx ⊢
            omega
          · have e' : ¬ n = x := fun h => e h.symm
            have : List.count x [n] = 0 := by
              rw [List.count_eq_zero]; simpa using e
            simp only [this, find_cons, e', if_false, find_nil, Option.or_none, List.flatMap_cons,
              List.flatMap_nil, List.append_nil]
            omega
        · intro x j hj
          rw [hmap, find_append] at hj
          cases hx : find (mapOf s1) x with
          | some q => rw [hx] at hj; simp at hj; subst hj; exact hi1.pos x q hx
          | none =>
            rw [hx] at hj
            simp only [Option.none_or, find_cons] at hj
            split at hj
            · simp at hj; omega
            · simp at hj
        · intro x
          rw [hmap, find_append]
          have := hi1.life x
          simp only [bump]
          by_cases e : x = n
          · subst e
            simp only [hn1, Option.isSome_none, Bool.false_eq_true, if_false, if_true, Option.none_or,
              find_cons, Option.isSome_some] at this ⊢
            omega
          · have e' : ¬ n = x := fun h => e h.symm
            simpa [e, e', find_cons] using this
      · intro v hv
        rw [h6 v hv] at hid
        exact ⟨_, rfl, hid⟩
      · intro m hm
        have hmap : mapOf { s1 with created := bump s1.created n,
                                     server := some { v1 with map := v1.map ++ [(n, 1)] } }
            = mapOf s1 ++ [(n, 1)] := by rw [hm1]; rfl
        rw [hmap, find_append, p1.high m (by omega), h2]
        have : ¬ n = m := by intro e; subst e; exact hm (Nat.le_refl _)
        simp [find_cons, this]

theorem nonempty_of_ext {ext : Name → Nat} {s : St} (hi : Inv uses ext s) {m : Name} (hm : 0 < ext m) :
    mapOf s ≠ [] := by
  intro e
  have := hi.refs m
  rw [e] at this
  simp [refs] at this
  omega

/-- without outside references nothing is left -/
theorem empty_of_ext (hl : Layered uses rank F) {ext : Name → Nat} {s : St} (hi : Inv uses ext s)
    (h0 : ∀ m, ext m = 0) : mapOf s = [] := by
  have key : ∀ d n, F - rank n ≤ d → find (mapOf s) n = none := by
    intro d
    induction d with
    | zero => intro n h; have := hl.bound n; omega
    | succ d ih =>
      intro n hd
      cases hf : find (mapOf s) n with
      | none => rfl
      | some k =>
        exfalso
        have h1 := hi.pos n k hf
        have h2 := hi.refs n
        simp only [refs, hf, Option.getD_some, h0, Nat.zero_add] at h2
        have h3 : 0 < (inner uses (mapOf s)).count n := by omega
        rw [List.count_pos_iff] at h3
        obtain ⟨p, hp, hn⟩ := List.mem_flatMap.mp h3
        have hlt := hl.lt p.1 n hn
        have hb := hl.bound p.1
        have := ih p.1 (by omega)
        have hs := (find_isSome (mapOf s) p.1).mpr (List.mem_map.mpr ⟨p, hp, rfl⟩)
        rw [this] at hs
        simp at hs
  cases hm : mapOf s with
  | nil => rfl
  | cons p r =>
    have := key F p.1 (by omega)
    rw [hm, find_cons] at this
    simp at this

/-- postcondition of a detach that does not take the last singleton away -/
structure DPost (uses : Name → List Name) (ext : Name → Nat) (s s' : St) : Prop where
  inv : Inv uses ext s'
  same : ∀ v, s.server = some v → ∃ v', s'.server = some v' ∧ v'.id = v.id

theorem server_of_ext {ext : Name → Nat} {s : St} (hi : Inv uses ext s) {m : Name} (hm : 0 < ext m) :
    ∃ v, s.server = some v ∧ v.map = mapOf s := by
  cases h : s.server with
  | none => exact absurd (by simp [mapOf, h]) (nonempty_of_ext hi hm)
  | some v => exact ⟨v, rfl, by simp [mapOf, h]⟩

/-- the state in which the members of `n` are destroyed -/
def dying (s : St) (v : Server) (n : Name) : St :=
  { s with server := some { v with map := erase v.map n }, destroyed := bump s.destroyed n }

theorem dying_inv {ext : Name → Nat} {s : St} {v : Server} {n : Name} {k : Nat}
    (hi : Inv uses (plus ext [n]) s) (hv : s.server = some v) (hf : find v.map n = some k) (hk : k ≤ 1) :
    Inv uses (plus ext (uses n)) (dying s v n) := by
  have hm : mapOf s = v.map := by simp [mapOf, hv]
  have hd : mapOf (dying s v n) = erase v.map n := rfl
  have hin : n ∈ v.map.map (·.1) := (find_isSome v.map n).mp (by rw [hf]; rfl)
  have hkeys := hi.keys
  rw [hm] at hkeys
  have hrn := hi.refs n
  rw [hm] at hrn
  simp only [refs, hf, plus, List.count_singleton_self, Option.getD_some] at hrn
  constructor
  · rw [hd]; exact keys_erase _ _ hkeys
  · intro x
    have hx := hi.refs x
    have he := inner_erase uses v.map n x hkeys hin
    rw [hm] at hx
    rw [hd]
    simp only [refs, plus, find_erase] at hx ⊢
    by_cases e : x = n
    · subst e
      simp only [if_true, Option.getD_none]
      omega
    · have : List.count x [n] = 0 := by
        rw [List.count_eq_zero]; simpa using e
      simp only [e, if_false]
      omega
  · intro x j hj
    rw [hd, find_erase] at hj
    by_cases e : x = n
    · simp [e] at hj
    · simp only [e, if_false] at hj
      exact hi.pos x j (by rw [hm]; exact hj)
  · intro x
    rw [hd, find_erase]
    have := hi.life x
    rw [hm] at this
    simp only [dying, bump]
    by_cases e : x = n
    · subst e
      simpa [hf] using this
    · simpa [e] using this

theorem detach_each {f : Nat} {b : Nat}
    (ih : ∀ s n ext, rank n < b → Inv uses (plus ext [n]) s → (∃ m, 0 < ext m) →
      ∃ s', detach uses f s n = .ok s' ∧ DPost uses ext s s') :
    ∀ (l : List Name) (s : St) (ext : Name → Nat), (∀ u ∈ l, rank u < b) → Inv uses (plus ext l) s →
      (∃ m, 0 < ext m) → ∃ s', each (detach uses f) s l = .ok s' ∧ DPost uses ext s s' := by
  intro l
  induction l with
  | nil =>
    intro s ext _ hi hm
    rw [plus_nil] at hi
    exact ⟨s, rfl, hi, fun v hv => ⟨v, hv, rfl⟩⟩
  | cons u l ihl =>
    intro s ext hu hi hm
    have hp : plus ext (u :: l) = plus (plus ext l) [u] := by
      rw [plus_append]; exact plus_perm ext (List.perm_append_singleton u l).symm
    rw [hp] at hi
    obtain ⟨m, hm⟩ := hm
    obtain ⟨s1, e1, p1⟩ := ih s u (plus ext l) (hu u (by simp)) hi ⟨m, by simp [plus]; omega⟩
    obtain ⟨s2, e2, p2⟩ := ihl s1 ext (fun w hw => hu w (by simp [hw])) p1.inv ⟨m, hm⟩
    refine ⟨s2, by simp [each, e1, e2], p2.inv, ?_⟩
    intro v hv
    obtain ⟨v1, hv1, e⟩ := p1.same v hv
    obtain ⟨v2, hv2, e'⟩ := p2.same v1 hv1
    exact ⟨v2, hv2, e'.trans e⟩

theorem instance_some {s : St} {v : Server} (hv : s.server = some v) : instanceServer s = (v, s) := by
  simp [instanceServer, hv]

theorem detach_decr {ext : Name → Nat} {s : St} {v : Server} {n : Name} {k : Nat}
    (hi : Inv uses (plus ext [n]) s) (hv : s.server = some v) (hf : find v.map n = some k) (hk : ¬ k ≤ 1) :
    Inv uses ext { s with server := some { v with map := setRef v.map n (k - 1) } } := by
  have hm : mapOf s = v.map := by simp [mapOf, hv]
  have hmap : mapOf { s with server := some { v with map := setRef v.map n (k - 1) } }
      = setRef v.map n (k - 1) := rfl
  constructor
  · rw [hmap, keys_setRef, ← hm]; exact hi.keys
  · intro x
    rw [hmap, inner_setRef]
    have hx := hi.refs x
    rw [hm] at hx
    simp only [refs, find_setRef, plus] at hx ⊢
    by_cases e : x = n
    · subst e
      simp only [if_true, hf, Option.map_some, Option.getD_some, List.count_singleton_self] at hx ⊢
      omega
    · have : List.count x [n] = 0 := by
        rw [List.count_eq_zero]; simpa using e
      simp only [e, if_false]
      omega
  · intro x j hj
    rw [hmap, find_setRef] at hj
    by_cases e : x = n
    · simp [e, hf] at hj
      omega
    · simp only [e, if_false] at hj
      exact hi.pos x j (by rw [hm]; exact hj)
  · intro x
    rw [hmap, find_setRef]
    have := hi.life x
    rw [hm] at this
    by_cases e : x = n
    · subst e; simpa [hf] using this
    · simpa [e] using this

theorem detach_spec (hl : Layered uses rank F) : ∀ f s n ext, rank n < f → Inv uses (plus ext [n]) s →
    (∃ m, 0 < ext m) → ∃ s', detach uses f s n = .ok s' ∧ DPost uses ext s s' := by
  intro f
  induction f with
  | zero => intro s n ext h; omega
  | succ f ih =>
    intro s n ext hr hi ⟨m, hm⟩
    obtain ⟨v, hv, hvm⟩ := server_of_ext hi (m := n) (by simp [plus])
    have hrn := hi.refs n
    simp only [detach, instance_some hv]
    cases hf : find v.map n with
    | none =>
      rw [← hvm] at hrn
      simp [refs, hf, plus] at hrn
      omega
    | some k =>
      simp only
      by_cases hk : k ≤ 1
      · rw [if_pos hk]
        have hdi := dying_inv hi hv hf hk
        have hp : plus ext (uses n) = plus ext (uses n).reverse := plus_perm ext (List.reverse_perm _).symm
        rw [hp] at hdi
        obtain ⟨s1, e1, p1⟩ := detach_each (b := rank n) (f := f)
          (fun s u ext hu hi hm => ih s u ext (by omega) hi hm) (uses n).reverse (dying s v n) ext
          (fun u hu => hl.lt n u (by simpa using hu)) hdi ⟨m, hm⟩
        obtain ⟨v1, hv1, hid⟩ := p1.same _ rfl
        simp only [dying] at e1 hid
        rw [e1]
        simp only [Res.bind_ok, hv1]
        rw [if_neg (fun h => h hid), if_neg]
        · refine ⟨s1, rfl, p1.inv, ?_⟩
          intro w hw
          rw [hv] at hw
          cases hw
          exact ⟨v1, hv1, hid⟩
        · have := nonempty_of_ext p1.inv hm
          simpa [mapOf, hv1] using this
      · rw [if_neg hk]
        refine ⟨_, rfl, detach_decr hi hv hf hk, ?_⟩
        intro w hw
        rw [hv] at hw
        cases hw
        exact ⟨_, rfl, rfl⟩

/-- the last singleton, which uses no other, goes: the server is deleted -/
theorem detach_last (hl : Layered uses rank F) {f : Nat} {s : St} {n : Name} {ext : Name → Nat}
    (hi : Inv uses (plus ext [n]) s) (h0 : ∀ m, ext m = 0) (hu : uses n = []) :
    ∃ s', detach uses (f + 1) s n = .ok s' ∧ Inv uses ext s' ∧ s'.server = none := by
  obtain ⟨v, hv, hvm⟩ := server_of_ext hi (m := n) (by simp [plus])
  have hrn := hi.refs n
  simp only [detach, instance_some hv]
  have hmax : ∀ m k, find v.map m = some k → (inner uses v.map).count n = 0 := by
    intro m k hm
    rw [List.count_eq_zero]
    intro hin
    obtain ⟨p, hp, hn⟩ := List.mem_flatMap.mp hin
    -- everything alive is reachable from `n` only: look at what remains without `n`
    have key : ∀ d x, F - rank x ≤ d → x ≠ n → rank n < rank x → find v.map x = none := by
      intro d
      induction d with
      | zero => intro x h; have := hl.bound x; omega
      | succ d ih =>
        intro x hd hxn hrx
        cases hf : find v.map x with
        | none => rfl
        | some k =>
          exfalso
          have h1 := hi.pos x k (by rw [← hvm]; exact hf)
          have h2 := hi.refs x
          have hc : List.count x [n] = 0 := by
            rw [List.count_eq_zero]; simpa using hxn
          rw [← hvm] at h2
          simp only [refs, hf, Option.getD_some, plus, h0, hc, Nat.zero_add, Nat.add_zero] at h2
          have h3 : 0 < (inner uses v.map).count x := by omega
          rw [List.count_pos_iff] at h3
          obtain ⟨q, hq, hxq⟩ := List.mem_flatMap.mp h3
          have hlt := hl.lt q.1 x hxq
          have hb := hl.bound q.1
          have := ih q.1 (by omega) (by intro e; rw [e] at hlt; omega) (by omega)
          have hs := (find_isSome v.map q.1).mpr (List.mem_map.mpr ⟨q, hq, rfl⟩)
          rw [this] at hs
          simp at hs
    have hlt := hl.lt p.1 n hn
    have := key F p.1 (by omega) (by intro e; rw [e] at hlt; omega) hlt
    have hs := (find_isSome v.map p.1).mpr (List.mem_map.mpr ⟨p, hp, rfl⟩)
    rw [this] at hs
    simp at hs
  cases hf : find v.map n with
  | none =>
    rw [← hvm] at hrn
    simp [refs, hf, plus] at hrn
    omega
  | some k =>
    have hc := hmax n k hf
    rw [← hvm] at hrn
    simp only [refs, hf, plus, List.count_singleton_self, Option.getD_some, h0, hc] at hrn
    have hk : k ≤ 1 := by omega
    simp only [if_pos hk, hu, List.reverse_nil, each, Res.bind_ok, ne_eq, not_true_eq_false, if_false]
    have hdi := dying_inv hi hv hf hk
    rw [hu, plus_nil] at hdi
    have he := empty_of_ext hl hdi h0
    have he' : erase v.map n = [] := he
    simp only [he', List.isEmpty_nil, if_true]
    refine ⟨_, rfl, ⟨?_, ?_, ?_, ?_⟩, rfl⟩
    · simp [mapOf]
    · intro x; simp [mapOf, refs, inner, h0]
    · intro x j hj; simp [mapOf] at hj
    · intro x
      have := hdi.life x
      simp only [dying, mapOf, Option.map_some, Option.getD_some, he', find_nil, Option.isSome_none,
        Bool.false_eq_true, if_false, Option.map_none, Option.getD_none] at this ⊢
      exact this

theorem each_append (f : St → Name → Res St) (s : St) (l l' : List Name) :
    each f s (l ++ l') = (each f s l >>= fun s' => each f s' l') := by
  induction l generalizing s with
  | nil => rfl
  | cons a l ih =>
    simp only [List.cons_append, each]
    cases f s a <;> simp [ih]

/-- destroying the last singleton, when it uses others: the server is read after its deletion -/
theorem detach_last_ub (hl : Layered uses rank F) : ∀ f s n ext, rank n < f → Inv uses (plus ext [n]) s →
    (∀ m, ext m = 0) → uses n ≠ [] → detach uses f s n = .ub := by
  intro f
  induction f with
  | zero => intro s n ext h; omega
  | succ f ih =>
    intro s n ext hr hi h0 hu
    obtain ⟨v, hv, hvm⟩ := server_of_ext hi (m := n) (by simp [plus])
    have hrn := hi.refs n
    simp only [detach, instance_some hv]
    cases hf : find v.map n with
    | none => rfl
    | some k =>
      simp only
      by_cases hk : k ≤ 1
      · rw [if_pos hk]
        have hdi := dying_inv hi hv hf hk
        obtain ⟨u, us, hus⟩ : ∃ u us, uses n = u :: us := by
          cases h : uses n with
          | nil => exact absurd h hu
          | cons u us => exact ⟨u, us, rfl⟩
        have hp : plus ext (uses n) = plus (plus ext [u]) us.reverse := by
          rw [plus_append, hus]
          exact plus_perm ext (List.Perm.cons u (List.reverse_perm us).symm)
        rw [hp] at hdi
        obtain ⟨s1, e1, p1⟩ := detach_each (b := rank n) (f := f)
          (fun s u ext hu hi hm => detach_spec hl f s u ext (by omega) hi hm) us.reverse (dying s v n) (plus ext [u])
          (fun w hw => hl.lt n w (by rw [hus]; simp at hw; simp [hw])) hdi ⟨u, by simp [plus]⟩
        simp only [dying] at e1
        rw [hus, List.reverse_cons, each_append, e1]
        simp only [Res.bind_ok, each]
        have hru := hl.lt n u (by rw [hus]; simp)
        by_cases huu : uses u = []
        · obtain ⟨g, rfl⟩ : ∃ g, f = g + 1 := ⟨f - 1, by omega⟩
          obtain ⟨s2, e2, _, hn2⟩ := detach_last (f := g) hl p1.inv h0 huu
          rw [e2]
          simp [hn2]
        · rw [ih s1 u ext (by omega) p1.inv h0 huu]
          rfl
      · exfalso
        -- the counter of `n` is 1
        have hdec := detach_decr hi hv hf hk
        have he := empty_of_ext hl hdec h0
        have : setRef v.map n (k - 1) = [] := he
        have : v.map = [] := by simpa [setRef] using this
        rw [this] at hf
        simp at hf

/-! ### Schedules -/

/-- number of `use<n>` objects alive after the schedule, over all threads -/
def clients (sched : Sched) (n : Name) : Nat :=
  (sched.map (·.2)).count (.attach n) - (sched.map (·.2)).count (.detach n)

theorem count_fst (sched : Sched) (o : Op) (t : Nat) :
    ((sched.filter (fun p => p.2 == o)).map (·.1)).count t = sched.count (t, o) := by
  induction sched with
  | nil => rfl
  | cons p r ih =>
    rw [List.filter_cons]
    by_cases h : p.2 = o
    · have : (p.2 == o) = true := by simp [h]
      rw [if_pos this, List.map_cons, List.count_cons, List.count_cons, ih]
      congr 1
      obtain ⟨a, b⟩ := p
      simp only at h
      subst h
      simp
    · have : ¬ (p.2 == o) = true := by simp [h]
      rw [if_neg this, ih, List.count_cons]
      obtain ⟨a, b⟩ := p
      simp only at h
      have : ((a, b) == (t, o)) = false := by simp [h]
      simp [this]

theorem count_snd (sched : Sched) (o : Op) :
    ((sched.filter (fun p => p.2 == o)).map (·.1)).length = (sched.map (·.2)).count o := by
  rw [List.length_map, List.count_eq_countP, List.countP_map, List.countP_eq_length_filter]
  rfl

/-- every thread has constructed at least as many objects as it has destroyed -/
theorem valid_le {sched : Sched} (hv : Valid sched) (t : Nat) (n : Name) :
    sched.count (t, .detach n) ≤ sched.count (t, .attach n) := by
  by_cases h : (t, Op.detach n) ∈ sched
  · -- last occurrence
    have : ∀ l : Sched, (t, Op.detach n) ∈ l → ∃ a b, l = a ++ (t, .detach n) :: b ∧ (t, Op.detach n) ∉ b := by
      intro l
      induction l with
      | nil => intro h; simp at h
      | cons x l ih =>
        intro hx
        by_cases hl : (t, Op.detach n) ∈ l
        · obtain ⟨a, b, e, hb⟩ := ih hl
          exact ⟨x :: a, b, by rw [e]; rfl, hb⟩
        · simp only [List.mem_cons, hl, or_false] at hx
          exact ⟨[], l, by rw [hx]; rfl, hl⟩
    obtain ⟨a, b, e, hb⟩ := this sched h
    have h1 := hv a t n b e
    unfold Holds at h1
    rw [e, List.count_append, List.count_append, List.count_cons, List.count_cons]
    have : List.count (t, Op.detach n) b = 0 := List.count_eq_zero.mpr hb
    simp only [this, beq_self_eq_true, if_true]
    omega
  · rw [List.count_eq_zero.mpr h]; exact Nat.zero_le _

theorem total_le {sched : Sched} (hv : Valid sched) (n : Name) :
    (sched.map (·.2)).count (.detach n) ≤ (sched.map (·.2)).count (.attach n) := by
  rw [← count_snd, ← count_snd]
  apply List.Subperm.length_le
  rw [List.subperm_ext_iff]
  intro t _
  rw [count_fst, count_fst]
  exact valid_le hv t n

theorem clients_pos {sched : Sched} (hv : Valid sched) (n : Name) :
    0 < clients sched n ↔ ∃ t, Holds sched t n := by
  constructor
  · intro h
    apply Classical.byContradiction
    intro hn
    have : (sched.map (·.2)).count (.attach n) ≤ (sched.map (·.2)).count (.detach n) := by
      rw [← count_snd, ← count_snd]
      apply List.Subperm.length_le
      rw [List.subperm_ext_iff]
      intro t _
      rw [count_fst, count_fst]
      apply Nat.le_of_not_lt
      intro hlt
      exact hn ⟨t, hlt⟩
    unfold clients at h
    omega
  · rintro ⟨t, ht⟩
    have : (t :: (sched.filter (fun p => p.2 == Op.detach n)).map (·.1)).length
        ≤ ((sched.filter (fun p => p.2 == Op.attach n)).map (·.1)).length := by
      apply List.Subperm.length_le
      rw [List.subperm_ext_iff]
      intro x _
      rw [List.count_cons, count_fst, count_fst]
      by_cases e : t = x
      · subst e
        unfold Holds at ht
        simp only [beq_self_eq_true, if_true]
        omega
      · have : (t == x) = false := by simp [e]
        simp only [this, Bool.false_eq_true, if_false]
        exact valid_le hv x n
    rw [List.length_cons, count_snd, count_snd] at this
    unfold clients
    omega

theorem valid_prefix {a b : Sched} (h : Valid (a ++ b)) : Valid a := by
  intro c t n d e
  exact h c t n (d ++ b) (by rw [e]; simp)

theorem clients_attach (sched : Sched) (t : Nat) (n : Name) (hv : Valid sched) :
    clients (sched ++ [(t, .attach n)]) = plus (clients sched) [n] := by
  funext m
  have h1 := total_le hv m
  unfold clients plus
  simp only [List.map_append, List.map_cons, List.map_nil, List.count_append]
  by_cases e : m = n
  · subst e
    have e2 : List.count (Op.detach m) [Op.attach m] = 0 := by
      rw [List.count_eq_zero]; simp
    simp only [List.count_singleton_self, e2]
    omega
  · have e1 : List.count (Op.attach m) [Op.attach n] = 0 := by
      rw [List.count_eq_zero]; simpa using e
    have e2 : List.count (Op.detach m) [Op.attach n] = 0 := by
      rw [List.count_eq_zero]; simp
    have e3 : List.count m [n] = 0 := by
      rw [List.count_eq_zero]; simpa using e
    simp only [e1, e2, e3]
    omega

theorem clients_detach (sched : Sched) (t : Nat) (n : Name) (hv : Valid sched) (hh : Holds sched t n) :
    clients sched = plus (clients (sched ++ [(t, .detach n)])) [n] := by
  funext m
  have h1 := total_le hv m
  have h2 := (clients_pos hv n).mpr ⟨t, hh⟩
  unfold clients at h2
  unfold clients plus
  simp only [List.map_append, List.map_cons, List.map_nil, List.count_append]
  by_cases e : m = n
  · subst e
    have e2 : List.count (Op.attach m) [Op.detach m] = 0 := by
      rw [List.count_eq_zero]; simp
    simp only [List.count_singleton_self, e2]
    omega
  · have e1 : List.count (Op.detach m) [Op.detach n] = 0 := by
      rw [List.count_eq_zero]; simpa using e
    have e2 : List.count (Op.attach m) [Op.detach n] = 0 := by
      rw [List.count_eq_zero]; simp
    have e3 : List.count m [n] = 0 := by
      rw [List.count_eq_zero]; simpa using e
    simp only [e1, e2, e3]
    omega

theorem run_append (f : Nat) (s : St) (l l' : List Op) :
    run uses f s (l ++ l') = (run uses f s l >>= fun s' => run uses f s' l') := by
  induction l generalizing s with
  | nil => rfl
  | cons o l ih =>
    simp only [List.cons_append, run]
    cases step uses f s o <;> simp [ih]

theorem snoc_ind {α : Type _} {P : List α → Prop} (h0 : P []) (h1 : ∀ l a, P l → P (l ++ [a])) : ∀ l, P l := by
  intro l
  have : ∀ l : List α, P l.reverse := by
    intro l
    induction l with
    | nil => exact h0
    | cons a l ih => rw [List.reverse_cons]; exact h1 _ _ ih
  rw [← List.reverse_reverse l]; exact this _

theorem run_spec (hl : Layered uses rank F) : ∀ sched, Valid sched → NoLastNested uses sched →
    ∃ s, run uses F St.init (sched.map (·.2)) = .ok s ∧ Inv uses (clients sched) s ∧
      (∀ v, s.server = some v → v.map ≠ []) := by
  intro sched
  induction sched using snoc_ind with
  | h0 =>
    intro _ _
    refine ⟨St.init, rfl, ⟨by simp [mapOf, St.init], ?_, ?_, ?_⟩, ?_⟩
    · intro n; simp [mapOf, St.init, refs, clients, inner]
    · intro n k h; simp [mapOf, St.init] at h
    · intro n; simp [mapOf, St.init]
    · intro v h; simp [St.init] at h
  | h1 a o ih =>
    intro hv hn
    obtain ⟨s, e, hi, hs⟩ := ih (valid_prefix hv) (by
      intro c t n d ec
      exact hn c t n (d ++ [o]) (by rw [ec]; simp))
    rw [List.map_append, run_append, e]
    simp only [Res.bind_ok, List.map_cons, List.map_nil, run]
    obtain ⟨t, op⟩ := o
    cases op with
    | attach n =>
      obtain ⟨s', e', p'⟩ := attach_spec hl F s n (clients a) (hl.bound n) hi
      simp only [step, e', Res.bind_ok]
      refine ⟨s', rfl, ?_, ?_⟩
      · rw [clients_attach a t n (valid_prefix hv)]; exact p'.inv
      · intro v hv'
        have := nonempty_of_ext p'.inv (m := n) (by simp [plus])
        simpa [mapOf, hv'] using this
    | detach n =>
      have hh := hv a t n [] rfl
      have hcl := clients_detach a t n (valid_prefix hv) hh
      rw [hcl] at hi
      simp only [step]
      by_cases hp : ∃ m, 0 < clients (a ++ [(t, Op.detach n)]) m
      · obtain ⟨s', e', p'⟩ := detach_spec hl F s n _ (hl.bound n) hi hp
        rw [e']
        refine ⟨s', rfl, p'.inv, ?_⟩
        intro v hv'
        obtain ⟨m, hm⟩ := hp
        have := nonempty_of_ext p'.inv hm
        simpa [mapOf, hv'] using this
      · have h0 : ∀ m, clients (a ++ [(t, Op.detach n)]) m = 0 := by
          intro m
          apply Classical.byContradiction
          intro hne
          exact hp ⟨m, by omega⟩
        have hu : uses n = [] := by
          rcases hn a t n [] rfl with h | ⟨t', m, h⟩
          · exact h
          · exfalso
            exact hp ⟨m, (clients_pos hv m).mpr ⟨t', h⟩⟩
        obtain ⟨g, rfl⟩ : ∃ g, F = g + 1 := ⟨F - 1, by have := hl.bound n; omega⟩
        obtain ⟨s', e', hi', hnone⟩ := detach_last (f := g) hl hi h0 hu
        rw [e']
        refine ⟨s', rfl, hi', ?_⟩
        intro v hv'
        rw [hnone] at hv'
        simp at hv'

theorem alive_iff {s : St} {n : Name} : Alive s n ↔ (find (mapOf s) n).isSome := by
  unfold Alive mapOf
  cases h : s.server with
  | none => simp
  | some v => simp [Option.isSome_iff_exists]

theorem alive_needed (hl : Layered uses rank F) {sched : Sched} (hv : Valid sched) {s : St}
    (hi : Inv uses (clients sched) s) (n : Name) : Alive s n ↔ Needed uses sched n := by
  rw [alive_iff]
  constructor
  · have key : ∀ d n, F - rank n ≤ d → (find (mapOf s) n).isSome → Needed uses sched n := by
      intro d
      induction d with
      | zero => intro n h; have := hl.bound n; omega
      | succ d ih =>
        intro n hd hf
        obtain ⟨k, hk⟩ := Option.isSome_iff_exists.mp hf
        have h1 := hi.pos n k hk
        have h2 := hi.refs n
        simp only [refs, hk, Option.getD_some] at h2
        by_cases hc : 0 < clients sched n
        · obtain ⟨t, ht⟩ := (clients_pos hv n).mp hc
          exact .held t n ht
        · have h3 : 0 < (inner uses (mapOf s)).count n := by omega
          rw [List.count_pos_iff] at h3
          obtain ⟨p, hp, hn⟩ := List.mem_flatMap.mp h3
          have hlt := hl.lt p.1 n hn
          have hb := hl.bound p.1
          have hs := (find_isSome (mapOf s) p.1).mpr (List.mem_map.mpr ⟨p, hp, rfl⟩)
          exact .used p.1 n (ih p.1 (by omega) hs) hn
    exact key (F - rank n) n (Nat.le_refl _)
  · intro h
    have pos : ∀ n, 0 < refs (mapOf s) n → (find (mapOf s) n).isSome := by
      intro n hr
      cases hf : find (mapOf s) n with
      | none => simp [refs, hf] at hr
      | some k => rfl
    induction h with
    | held t n h =>
      apply pos
      rw [hi.refs]
      have := (clients_pos hv n).mpr ⟨t, h⟩
      omega
    | used m n h hn ih =>
      apply pos
      rw [hi.refs]
      have : n ∈ inner uses (mapOf s) := by
        obtain ⟨p, hp, e⟩ := List.mem_map.mp ((find_isSome _ _).mp ih)
        exact List.mem_flatMap.mpr ⟨p, hp, e ▸ hn⟩
      have := List.count_pos_iff.mpr this
      omega

/-! ### The property -/

/-- **C41**, as far as it holds. For every set of singleton classes that use each other without cycles, every
number of threads and every interleaving of their calls: as long as the process is not left without
singletons by the destruction of one that uses others, no call fails; afterwards a singleton object exists
exactly if it is needed; it can be accessed; the objects constructed so far are those destroyed plus the one
that exists; and the server object exists exactly while some singleton does. -/
theorem C41_lifetime_partial (hl : Layered uses rank F) (sched : Sched) (hv : Valid sched)
    (hn : NoLastNested uses sched) :
    ∃ s, run uses F St.init (sched.map (·.2)) = .ok s ∧
      (∀ n, Alive s n ↔ Needed uses sched n) ∧
      (∀ n, Needed uses sched n → access s n = .ok ()) ∧
      (∀ n, Needed uses sched n → s.created n = s.destroyed n + 1) ∧
      (∀ n, ¬ Needed uses sched n → s.created n = s.destroyed n) ∧
      (s.server.isSome ↔ ∃ n, Needed uses sched n) := by
  obtain ⟨s, e, hi, hs⟩ := run_spec hl sched hv hn
  have hal := alive_needed hl hv hi
  refine ⟨s, e, hal, ?_, ?_, ?_, ?_⟩
  · intro n h
    have := alive_iff.mp ((hal n).mpr h)
    unfold access
    rw [(mapOf_instance s).1]
    obtain ⟨k, hk⟩ := Option.isSome_iff_exists.mp this
    rw [hk]
  · intro n h
    have h1 := hi.life n
    rw [if_pos (alive_iff.mp ((hal n).mpr h))] at h1
    exact h1
  · intro n h
    have h1 := hi.life n
    rw [if_neg (fun hh => h ((hal n).mp (alive_iff.mpr hh)))] at h1
    exact h1
  · constructor
    · intro h
      obtain ⟨v, hv'⟩ := Option.isSome_iff_exists.mp h
      cases hm : v.map with
      | nil => exact absurd hm (hs v hv')
      | cons p r => exact ⟨p.1, (hal p.1).mp ⟨v, p.2, hv', by rw [hm, find_cons]; simp⟩⟩
    · rintro ⟨n, h⟩
      obtain ⟨v, k, hv', _⟩ := (hal n).mpr h
      rw [hv']; rfl

/-- While a thread holds an object `use<n>` the reference count of `n` is the number of such objects plus the
number of members of that type in the existing singletons. -/
theorem C41_reference_count (hl : Layered uses rank F) (sched : Sched) (hv : Valid sched)
    (hn : NoLastNested uses sched) (t : Nat) (n : Name) (hh : Holds sched t n) :
    ∃ s v, run uses F St.init (sched.map (·.2)) = .ok s ∧ s.server = some v ∧
      find v.map n = some (((sched.map (·.2)).count (.attach n) - (sched.map (·.2)).count (.detach n))
        + ((v.map.map (·.1)).flatMap uses).count n) := by
  obtain ⟨s, e, hi, hs⟩ := run_spec hl sched hv hn
  obtain ⟨v, k, hv', hk⟩ := (alive_needed hl hv hi n).mpr (.held t n hh)
  refine ⟨s, v, e, hv', ?_⟩
  have := hi.refs n
  have hm : mapOf s = v.map := by simp [mapOf, hv']
  rw [hm] at this
  simp only [refs, hk, Option.getD_some] at this
  rw [hk, this]
  congr 2
  rw [List.flatMap_map]
  rfl

/-- The excluded case always goes wrong: when the call that leaves the process without singletons destroys
one that uses another, the server object is read after it has been deleted. -/
theorem C41_nested_use_counterexample (hl : Layered uses rank F) (sched : Sched) (t : Nat) (n : Name)
    (hv : Valid (sched ++ [(t, Op.detach n)])) (hn : NoLastNested uses sched) (hu : uses n ≠ [])
    (h0 : ∀ t' m, ¬ Holds (sched ++ [(t, Op.detach n)]) t' m) :
    run uses F St.init ((sched ++ [(t, Op.detach n)]).map (·.2)) = .ub := by
  have hva := valid_prefix hv
  obtain ⟨s, e, hi, hs⟩ := run_spec hl sched hva hn
  rw [clients_detach sched t n hva (hv sched t n [] rfl)] at hi
  rw [List.map_append, run_append, e]
  simp only [Res.bind_ok, List.map_cons, List.map_nil, run, step]
  rw [detach_last_ub hl F s n _ (hl.bound n) hi ?_ hu]
  · rfl
  · intro m
    apply Classical.byContradiction
    intro hne
    obtain ⟨t', h⟩ := (clients_pos hv m).mp (by omega)
    exact h0 t' m h

/-! ### Instances -/

/-- one class `A` that uses `B` -/
def exUses : Name → List Name := fun n => if n = ['A'] then [['B']] else []
def exRank : Name → Nat := fun n => if n = ['A'] then 1 else 0

theorem exLayered : Layered exUses exRank 2 := by
  constructor
  · intro n; unfold exRank; split <;> omega
  · intro n u h
    unfold exUses at h
    split at h
    · simp only [List.mem_singleton] at h
      subst h
      simp [exRank, *]
    · simp at h

/-- two threads share `A` and `B`; the last object to go is a plain `B` -/
def exSched : Sched :=
  [(1, .attach ['A']), (2, .attach ['A']), (2, .attach ['B']), (1, .detach ['A']), (2, .detach ['A']),
   (2, .detach ['B'])]

theorem split_cons {α : Type _} {x : α} {l a b : List α} {y : α} (h : x :: l = a ++ y :: b) :
    (a = [] ∧ x = y ∧ l = b) ∨ ∃ a', a = x :: a' ∧ l = a' ++ y :: b := by
  cases a with
  | nil => simp at h; exact .inl ⟨rfl, h.1, h.2⟩
  | cons z a => simp at h; exact .inr ⟨a, by rw [h.1], h.2⟩

example : ∃ sched, Valid sched ∧ NoLastNested exUses sched ∧ Needed exUses sched ['B'] ∧
    (1, Op.detach ['A']) ∈ sched := by
  refine ⟨[(1, .attach ['A']), (2, .attach ['A']), (1, .detach ['A'])], ?_, ?_, ?_, by simp⟩
  · intro a t n b h
    rcases split_cons h with ⟨_, e, _⟩ | ⟨a1, rfl, h1⟩
    · simp at e
    rcases split_cons h1 with ⟨_, e, _⟩ | ⟨a2, rfl, h2⟩
    · simp at e
    rcases split_cons h2 with ⟨rfl, e, _⟩ | ⟨a3, rfl, h3⟩
    · simp only [Prod.mk.injEq, Op.detach.injEq] at e
      obtain ⟨rfl, rfl⟩ := e
      simp [Holds]
    · simp at h3
  · intro a t n b h
    rcases split_cons h with ⟨_, e, _⟩ | ⟨a1, rfl, h1⟩
    · simp at e
    rcases split_cons h1 with ⟨_, e, _⟩ | ⟨a2, rfl, h2⟩
    · simp at e
    rcases split_cons h2 with ⟨rfl, e, _⟩ | ⟨a3, rfl, h3⟩
    · simp only [Prod.mk.injEq, Op.detach.injEq] at e
      obtain ⟨rfl, rfl⟩ := e
      exact .inr ⟨2, ['A'], by simp [Holds]⟩
    · simp at h3
  · exact .used ['A'] ['B'] (.held 2 ['A'] (by simp [Holds])) (by simp [exUses])

example : run exUses 2 St.init (exSched.map (·.2)) ≠ .ub ∧
    run exUses 2 St.init [.attach ['A'], .detach ['A']] = .ub := by
  constructor
  · intro h
    have : (match run exUses 2 St.init (exSched.map (·.2)) with | .ub => true | _ => false) = false := by
      decide +kernel
    rw [h] at this
    simp at this
  · have : (match run exUses 2 St.init [.attach ['A'], .detach ['A']] with | .ub => true | _ => false) = true := by
      decide +kernel
    revert this
    cases run exUses 2 St.init [.attach ['A'], .detach ['A']] <;> simp

end Verif.Singleton
