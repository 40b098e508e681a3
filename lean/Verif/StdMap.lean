import Verif.Registry

/-!
`std::map<std::string, β>` and `std::set<std::string>` as lists kept in increasing order of
`std::less<std::string>` (`strLt`, lexicographic on the bytes).
-/

namespace Verif.StdMap
open Verif Verif.Registry

theorem strLt_irrefl (a : Str) : strLt a a = false := by
  induction a with
  | nil => rfl
  | cons x a ih => simp [strLt, ih]

theorem strLt_trans {a b c : Str} (h : strLt a b = true) (h' : strLt b c = true) : strLt a c = true := by
  induction a generalizing b c with
  | nil =>
    cases b with
    | nil => simp [strLt] at h
    | cons y b =>
      cases c with
      | nil => simp [strLt] at h'
      | cons z c => rfl
  | cons x a ih =>
    cases b with
    | nil => simp [strLt] at h
    | cons y b =>
      cases c with
      | nil => simp [strLt] at h'
      | cons z c =>
        unfold strLt at h h' ⊢
        by_cases hxy : x = y
        · subst hxy
          simp only [if_true] at h
          by_cases hyz : x = z
          · subst hyz; simp only [if_true] at h' ⊢; exact ih h h'
          · simp only [hyz, if_false] at h' ⊢; exact h'
        · simp only [hxy, if_false] at h
          by_cases hyz : y = z
          · subst hyz; simp only [hxy, if_false]; exact h
          · simp only [hyz, if_false] at h'
            have h1 := of_decide_eq_true h
            have h2 := of_decide_eq_true h'
            by_cases hxz : x = z
            · subst hxz; omega
            · simp only [hxz, if_false, decide_eq_true_eq]; omega

theorem char_toNat_inj {a b : Char} (h : a.toNat = b.toNat) : a = b := by
  apply Char.ext
  exact UInt32.toNat_inj.mp h

theorem strLt_total {a b : Str} (h : a ≠ b) (h' : strLt a b = false) : strLt b a = true := by
  induction a generalizing b with
  | nil =>
    cases b with
    | nil => exact absurd rfl h
    | cons y b => simp [strLt] at h'
  | cons x a ih =>
    cases b with
    | nil => rfl
    | cons y b =>
      unfold strLt at h' ⊢
      by_cases hxy : x = y
      · subst hxy
        simp only [if_true] at h' ⊢
        exact ih (fun e => h (by rw [e])) h'
      · have hyx : ¬ y = x := fun e => hxy e.symm
        simp only [hxy, hyx, if_false, decide_eq_true_eq] at h' ⊢
        have h1 := of_decide_eq_false h'
        have : x.toNat ≠ y.toNat := fun e => hxy (char_toNat_inj e)
        omega

theorem strLt_asymm {a b : Str} (h : strLt a b = true) : strLt b a = false := by
  cases hb : strLt b a with
  | false => rfl
  | true => have := strLt_trans h hb; rw [strLt_irrefl] at this; cases this

/-- `std::map<std::string, β>` in iteration order. -/
abbrev SMap (β : Type) := List (Str × β)

variable {β : Type}

/-- `m.find(n)`. -/
def find : SMap β → Str → Option β
  | [], _ => none
  | (m, b) :: r, n => if m = n then some b else find r n

/-- `m[n] = f(old)` where `old` is the value currently associated, if any (`operator[]` then assignment or
in-place modification; `insert` when `f` keeps the old value). -/
def upsert (n : Str) (f : Option β → β) : SMap β → SMap β
  | [] => [(n, f none)]
  | (m, b) :: r =>
    if n = m then (m, f (some b)) :: r
    else if strLt n m then (n, f none) :: (m, b) :: r
    else (m, b) :: upsert n f r

/-- `m.erase(n)`. -/
def erase (n : Str) (m : SMap β) : SMap β := m.filter (fun p => p.1 != n)

/-- keys strictly increasing -/
def MSorted (m : SMap β) : Prop := m.Pairwise (fun a b => strLt a.1 b.1 = true)

theorem find_none_of_lt {m : SMap β} {n : Str} (h : ∀ p ∈ m, strLt n p.1 = true) : find m n = none := by
  induction m with
  | nil => rfl
  | cons p r ih =>
    obtain ⟨k, b⟩ := p
    have hk := h (k, b) (by simp)
    have : k ≠ n := fun e => by subst e; simp [strLt_irrefl] at hk
    rw [find, if_neg this]
    exact ih (fun p hp => h p (by simp [hp]))

theorem find_upsert (n : Str) (f : Option β → β) {m : SMap β} (hs : MSorted m) (k : Str) :
    find (upsert n f m) k = if n = k then some (f (find m n)) else find m k := by
  induction m with
  | nil => simp [upsert, find]
  | cons p r ih =>
    obtain ⟨q, b⟩ := p
    obtain ⟨h1, h2⟩ := List.pairwise_cons.mp hs
    unfold upsert
    by_cases hn : n = q
    · subst hn
      rw [if_pos rfl]
      simp only [find, if_true]
      by_cases hk : n = k <;> simp [hk]
    · rw [if_neg hn]
      have hq : ¬ q = n := fun e => hn e.symm
      by_cases hlt : strLt n q = true
      · rw [if_pos hlt]
        have hnone : find ((q, b) :: r) n = none := by
          apply find_none_of_lt
          intro p hp
          rcases List.mem_cons.mp hp with hp | hp
          · subst hp; exact hlt
          · exact strLt_trans hlt (h1 p hp)
        rw [hnone, find]
      · rw [if_neg hlt]
        simp only [find, ih h2, hq, if_false]
        by_cases hk : q = k
        · subst hk; simp [hn]
        · simp [hk]

theorem mem_upsert {n : Str} {f : Option β → β} {m : SMap β} {p : Str × β} (h : p ∈ upsert n f m) :
    p.1 = n ∨ p ∈ m := by
  induction m with
  | nil => simp [upsert] at h; simp [h]
  | cons q r ih =>
    obtain ⟨k, b⟩ := q
    unfold upsert at h
    split at h
    · rename_i e; subst e
      rcases List.mem_cons.mp h with h | h
      · exact Or.inl (by rw [h])
      · exact Or.inr (by simp [h])
    · split at h
      · rcases List.mem_cons.mp h with h | h
        · exact Or.inl (by rw [h])
        · exact Or.inr h
      · rcases List.mem_cons.mp h with h | h
        · exact Or.inr (by simp [h])
        · rcases ih h with h | h
          · exact Or.inl h
          · exact Or.inr (by simp [h])

theorem sorted_upsert (n : Str) (f : Option β → β) {m : SMap β} (hs : MSorted m) : MSorted (upsert n f m) := by
  induction m with
  | nil => simp [upsert, MSorted]
  | cons q r ih =>
    obtain ⟨k, b⟩ := q
    obtain ⟨h1, h2⟩ := List.pairwise_cons.mp hs
    unfold upsert
    by_cases hn : n = k
    · subst hn
      rw [if_pos rfl]
      exact List.pairwise_cons.mpr ⟨h1, h2⟩
    · rw [if_neg hn]
      by_cases hlt : strLt n k = true
      · rw [if_pos hlt]
        refine List.pairwise_cons.mpr ⟨?_, hs⟩
        intro p hp
        rcases List.mem_cons.mp hp with hp | hp
        · subst hp; exact hlt
        · exact strLt_trans hlt (h1 p hp)
      · rw [if_neg hlt]
        refine List.pairwise_cons.mpr ⟨?_, ih h2⟩
        intro p hp
        rcases mem_upsert hp with hp | hp
        · show strLt k p.1 = true
          rw [hp]; exact strLt_total hn (by simpa using hlt)
        · exact h1 p hp

theorem find_erase (n : Str) (m : SMap β) (k : Str) :
    find (erase n m) k = if n = k then none else find m k := by
  induction m with
  | nil => simp [erase, find]
  | cons p r ih =>
    obtain ⟨q, b⟩ := p
    unfold erase at ih ⊢
    by_cases hq : q = n
    · subst hq
      simp only [List.filter_cons, bne_self_eq_false, Bool.false_eq_true, if_false, ih, find]
      by_cases hk : q = k <;> simp [hk]
    · have : ((q, b).1 != n) = true := by simpa using hq
      rw [List.filter_cons, if_pos this, find, ih, find]
      by_cases hk : q = k
      · subst hk
        have : ¬ n = q := fun e => hq e.symm
        simp [this]
      · simp [hk]

theorem sorted_erase (n : Str) {m : SMap β} (hs : MSorted m) : MSorted (erase n m) :=
  List.Pairwise.filter _ hs

theorem mem_iff_find {m : SMap β} (hs : MSorted m) {n : Str} {b : β} : (n, b) ∈ m ↔ find m n = some b := by
  induction m with
  | nil => simp [find]
  | cons p r ih =>
    obtain ⟨q, c⟩ := p
    obtain ⟨h1, h2⟩ := List.pairwise_cons.mp hs
    rw [find]
    by_cases hq : q = n
    · subst hq
      rw [if_pos rfl]
      constructor
      · intro h
        rcases List.mem_cons.mp h with h | h
        · cases h; rfl
        · have := h1 _ h; simp [strLt_irrefl] at this
      · intro h; cases h; simp
    · rw [if_neg hq, ← ih h2]
      have : n ≠ q := fun e => hq e.symm
      simp [this]

theorem find_isSome_of_mem {m : SMap β} {p : Str × β} (h : p ∈ m) : (find m p.1).isSome := by
  induction m with
  | nil => cases h
  | cons q r ih =>
    obtain ⟨k, b⟩ := q
    rw [find]
    by_cases hk : k = p.1
    · simp [hk]
    · rw [if_neg hk]
      rcases List.mem_cons.mp h with h | h
      · subst h; exact absurd rfl hk
      · exact ih h

/-- Two ordered maps with the same bindings are the same list. -/
theorem ext {a b : SMap β} (ha : MSorted a) (hb : MSorted b) (h : ∀ k, find a k = find b k) : a = b := by
  induction a generalizing b with
  | nil =>
    cases b with
    | nil => rfl
    | cons p r => have := h p.1; simp [find] at this
  | cons p r ih =>
    obtain ⟨k, x⟩ := p
    obtain ⟨h1, h2⟩ := List.pairwise_cons.mp ha
    cases b with
    | nil => have := h k; simp [find] at this
    | cons q s =>
      obtain ⟨l, y⟩ := q
      obtain ⟨h3, h4⟩ := List.pairwise_cons.mp hb
      have hkl : k = l := by
        apply Decidable.byContradiction
        intro hne
        cases hlt : strLt k l with
        | true =>
          have e := h k
          rw [find_none_of_lt (m := (l, y) :: s) (n := k) (by
            intro p hp
            rcases List.mem_cons.mp hp with hp | hp
            · subst hp; exact hlt
            · exact strLt_trans hlt (h3 p hp))] at e
          simp [find] at e
        | false =>
          have hlt' := strLt_total hne hlt
          have e := h l
          rw [find_none_of_lt (m := (k, x) :: r) (n := l) (by
            intro p hp
            rcases List.mem_cons.mp hp with hp | hp
            · subst hp; exact hlt'
            · exact strLt_trans hlt' (h1 p hp))] at e
          simp [find] at e
      subst hkl
      have e := h k
      simp only [find, if_true, Option.some.injEq] at e
      subst e
      congr 1
      apply ih h2 h4
      intro j
      have e := h j
      by_cases hj : k = j
      · subst hj
        rw [find_none_of_lt h1, find_none_of_lt h3]
      · simpa [find, hj] using e

/-! ### `std::set<std::string>` -/

/-- elements strictly increasing -/
def SSorted (s : List Str) : Prop := s.Pairwise (fun a b => strLt a b = true)

theorem mem_sinsert' {n m : Str} {s : List Str} : m ∈ sinsert n s ↔ m = n ∨ m ∈ s := by
  induction s with
  | nil => simp [sinsert]
  | cons k r ih =>
    unfold sinsert
    split
    · rename_i e; subst e; simp
    · split
      · simp
      · simp [ih]; constructor <;> rintro (h | h | h) <;> simp [h]

theorem sorted_sinsert {n : Str} {s : List Str} (hs : SSorted s) : SSorted (sinsert n s) := by
  induction s with
  | nil => simp [sinsert, SSorted]
  | cons k r ih =>
    obtain ⟨h1, h2⟩ := List.pairwise_cons.mp hs
    unfold sinsert
    by_cases hn : n = k
    · rw [if_pos hn]; exact hs
    · rw [if_neg hn]
      by_cases hlt : strLt n k = true
      · rw [if_pos hlt]
        refine List.pairwise_cons.mpr ⟨?_, hs⟩
        intro p hp
        rcases List.mem_cons.mp hp with hp | hp
        · subst hp; exact hlt
        · exact strLt_trans hlt (h1 p hp)
      · rw [if_neg hlt]
        refine List.pairwise_cons.mpr ⟨?_, ih h2⟩
        intro p hp
        rcases mem_sinsert'.mp hp with hp | hp
        · subst hp; exact strLt_total hn (by simpa using hlt)
        · exact h1 p hp

/-- `s.insert(first, last)`. -/
def sinsertAll (s vs : List Str) : List Str := vs.foldl (fun s v => sinsert v s) s

theorem mem_sinsertAll {s vs : List Str} {m : Str} : m ∈ sinsertAll s vs ↔ m ∈ s ∨ m ∈ vs := by
  unfold sinsertAll
  induction vs generalizing s with
  | nil => simp
  | cons v vs ih =>
    simp only [List.foldl_cons, ih, mem_sinsert', List.mem_cons]
    constructor
    · rintro ((h | h) | h) <;> simp [h]
    · rintro (h | h | h) <;> simp [h]

theorem sorted_sinsertAll {s : List Str} (vs : List Str) (hs : SSorted s) : SSorted (sinsertAll s vs) := by
  unfold sinsertAll
  induction vs generalizing s with
  | nil => exact hs
  | cons v vs ih => exact ih (sorted_sinsert hs)

/-- Two ordered sets with the same elements are the same list. -/
theorem sext {a b : List Str} (ha : SSorted a) (hb : SSorted b) (h : ∀ k, k ∈ a ↔ k ∈ b) : a = b := by
  have key : ∀ {x y : List Str} {k : Str}, SSorted (k :: x) → (∀ j, j ∈ k :: x ↔ j ∈ y) → SSorted y →
      ∃ r, y = k :: r := by
    intro x y k hx hxy hy
    cases y with
    | nil => exact absurd ((hxy k).mp (by simp)) (by simp)
    | cons l s =>
      obtain ⟨h1, _⟩ := List.pairwise_cons.mp hx
      obtain ⟨h3, _⟩ := List.pairwise_cons.mp hy
      have a1 := (hxy k).mp (by simp)
      have a2 := (hxy l).mpr (by simp)
      rcases List.mem_cons.mp a1 with e | e
      · exact ⟨s, by rw [e]⟩
      · rcases List.mem_cons.mp a2 with e' | e'
        · exact ⟨s, by rw [e']⟩
        · have := strLt_trans (h1 _ e') (h3 _ e)
          simp [strLt_irrefl] at this
  induction a generalizing b with
  | nil =>
    cases b with
    | nil => rfl
    | cons p r => exact absurd ((h p).mpr (by simp)) (by simp)
  | cons k r ih =>
    obtain ⟨s, hs⟩ := key ha h hb
    subst hs
    obtain ⟨h1, h2⟩ := List.pairwise_cons.mp ha
    obtain ⟨h3, h4⟩ := List.pairwise_cons.mp hb
    congr 1
    apply ih h2 h4
    intro j
    have e := h j
    by_cases hj : j = k
    · subst hj
      constructor <;> intro h'
      · have := h1 _ h'; simp [strLt_irrefl] at this
      · have := h3 _ h'; simp [strLt_irrefl] at this
    · simpa [hj] using e

end Verif.StdMap
