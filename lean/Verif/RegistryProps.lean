import Verif.RegistryHist

/-!
Properties C02, C21, C23, C24, C25 of the registry.

Everything is stated with the public queries: `R.get name` (`Registry::get`), and
`isAbsoluteName`, for the registries reachable from an empty one by any sequence of calls.
-/

namespace Verif.Registry
open Verif Verif.Names Verif.Graph

variable {key : Char → Int} {H : Heap}

/-- `u` is registered: it is found under its own name. -/
def Regd (H : Heap) (R : Reg) (u : TId) : Prop := R.get (H.name u) = some u

theorem Inv.regd_iff {R : Reg} (h : Inv key H R) (u : TId) : Regd H R u ↔ R.regd H u := by
  constructor
  · intro hg; exact h.get_regd hg
  · intro hr
    unfold Regd
    rw [h.abs _ (h.reg_name hr).2.1]; exact hr

theorem Inv.get_reg {R : Reg} (h : Inv key H R) {n : Str} (hn : isAbsoluteName n = true) : R.get n = R.reg n :=
  h.abs n hn

theorem Inv.reg_rel {R : Reg} (h : Inv key H R) {n : Str} (hn : isAbsoluteName n = false) : R.reg n = none := by
  cases hr : R.reg n with
  | none => rfl
  | some u =>
    have := (h.reg_name hr).2.1
    rw [hn] at this; cases this

/-! ### C02 -/

/-- `"/c1/…/ck/"` -/
def nsName (l : List Str) : Str := joinAbs l ++ ['/']

theorem nsName_snoc (l : List Str) (t : Str) : nsName (l ++ [t]) = nsName l ++ t ++ ['/'] := by
  simp [nsName, joinAbs]

/-- the value at the largest index `1 ≤ k ≤ n` that has one -/
def deepest {α : Type} (g : Nat → Option α) : Nat → Option α
  | 0 => none
  | n + 1 => (g (n + 1)).or (deepest g n)

theorem deepest_shift {α : Type} (g : Nat → Option α) (n : Nat) :
    deepest g (n + 1) = (deepest (fun k => g (k + 1)) n).or (g 1) := by
  induction n with
  | zero => simp [deepest]
  | succ n ih => rw [deepest, ih, deepest, Option.or_assoc]

theorem deepest_some {α : Type} (g : Nat → Option α) (n : Nat) (e : α) :
    deepest g n = some e ↔ ∃ k, 1 ≤ k ∧ k ≤ n ∧ g k = some e ∧ ∀ j, k < j → j ≤ n → g j = none := by
  induction n with
  | zero => simp [deepest]; intro k h1 h2; omega
  | succ n ih =>
    unfold deepest
    cases hg : g (n + 1) with
    | some e' =>
      simp only [Option.some_or, Option.some.injEq]
      constructor
      · rintro rfl; exact ⟨n + 1, by omega, by omega, hg, fun j h1 h2 => by omega⟩
      · rintro ⟨k, h1, h2, h3, h4⟩
        by_cases hk : k = n + 1
        · subst hk; rw [hg] at h3; cases h3; rfl
        · have := h4 (n + 1) (by omega) (by omega)
          rw [hg] at this; cases this
    | none =>
      simp only [Option.none_or]
      rw [ih]
      constructor
      · rintro ⟨k, h1, h2, h3, h4⟩
        refine ⟨k, h1, by omega, h3, fun j h5 h6 => ?_⟩
        by_cases hj : j = n + 1
        · rw [hj]; exact hg
        · exact h4 j h5 (by omega)
      · rintro ⟨k, h1, h2, h3, h4⟩
        have hk : k ≠ n + 1 := by rintro rfl; rw [hg] at h3; cases h3
        exact ⟨k, h1, by omega, h3, fun j h5 h6 => h4 j h5 (by omega)⟩

theorem deepest_none {α : Type} (g : Nat → Option α) (n : Nat) :
    deepest g n = none ↔ ∀ j, 1 ≤ j → j ≤ n → g j = none := by
  induction n with
  | zero => simp [deepest]; intro j h1 h2; omega
  | succ n ih =>
    unfold deepest
    rw [Option.or_eq_none_iff, ih]
    constructor
    · rintro ⟨h1, h2⟩ j h3 h4
      by_cases hj : j = n + 1
      · rw [hj]; exact h1
      · exact h2 j h3 (by omega)
    · intro h; exact ⟨h _ (by omega) (by omega), fun j h1 h2 => h j h1 (by omega)⟩

/-- searching the namespaces from the deepest one -/
theorem deepPaths_find {α : Type} (f : Str → Option α) (pre toks : List Str) :
    (deepPaths (nsName pre) toks).findSome? f =
      deepest (fun k => f (nsName (pre ++ toks.take k))) toks.length := by
  induction toks generalizing pre with
  | nil => rfl
  | cons t ts ih =>
    unfold deepPaths
    rw [← nsName_snoc, List.findSome?_append, ih, List.length_cons, deepest_shift]
    simp

/-- **C02.** After `setDefaultNamespace(ns)`, `ns` being `/c1/…/cm` (with or without a final `/`):
lookups of absolute names are unchanged, and a relative name resolves to the type registered under it
in the deepest of the namespaces `/c1/…/cm/`, ..., `/c1/`, `/` that has one. -/
theorem C02_default_namespace (hk : ∀ a b, key a = key b → a = b) (hac : Acyclic H) {R : Reg}
    (hR : Reachable key H R) (comps : List Str) (ns : Str) (hc : ∀ c ∈ comps, Ident c)
    (hns : ns = nsName comps ∨ (ns = joinAbs comps ∧ comps ≠ [])) :
    (setDefaultNamespace key R ns).2 = true ∧
    (∀ n, isAbsoluteName n = true → (setDefaultNamespace key R ns).1.get n = R.get n) ∧
    (∀ rel u, isAbsoluteName rel = false →
      ((setDefaultNamespace key R ns).1.get rel = some u ↔
        ∃ k, k ≤ comps.length ∧ R.get (nsName (comps.take k) ++ rel) = some u ∧
          ∀ j, k < j → j ≤ comps.length → R.get (nsName (comps.take j) ++ rel) = none)) := by
  have h := inv_reachable hk hac hR
  have hidc : ∀ x ∈ comps, x ≠ [] ∧ ∀ c ∈ x, c ≠ '/' ∧ c ≠ '<' ∧ c ≠ '>' ∧ identChar c = true := by
    intro x hx
    refine ⟨(hc x hx).1, fun c hcx => ?_⟩
    have hcc := (hc x hx).2 c hcx
    refine ⟨?_, ?_, ?_, ?_⟩
    · rintro rfl; revert hcc; decide
    · rintro rfl; revert hcc; decide
    · rintro rfl; revert hcc; decide
    · unfold identChar
      rcases hcc with hcc | hcc | hcc <;> simp [hcc]
  have htok : tokens ns = comps := by
    have := tokens_join comps (fun x hx => ⟨(hidc x hx).1, fun c hcx => ((hidc x hx).2 c hcx).1⟩)
    rcases hns with rfl | ⟨rfl, _⟩
    · exact this.2
    · exact this.1
  have hchars : ∀ c ∈ ns, c ≠ '<' ∧ c ≠ '>' := by
    have hj : ∀ c ∈ joinAbs comps, c ≠ '<' ∧ c ≠ '>' := by
      intro c hcm
      unfold joinAbs at hcm
      obtain ⟨x, hx, hcx⟩ := List.mem_flatMap.mp hcm
      rcases List.mem_cons.mp hcx with rfl | hcx
      · decide
      · exact ⟨((hidc x hx).2 c hcx).2.1, ((hidc x hx).2 c hcx).2.2.1⟩
    rcases hns with rfl | ⟨rfl, _⟩
    · intro c hcm
      rcases List.mem_append.mp hcm with hcm | hcm
      · exact hj c hcm
      · rw [List.mem_singleton.mp hcm]; decide
    · exact hj
  have hhead : ns ≠ [] ∧ ns.head? = some '/' := by
    rcases hns with rfl | ⟨rfl, hne⟩
    · cases comps with
      | nil => simp [nsName, joinAbs]
      | cons a l => simp [nsName, joinAbs]
    · cases comps with
      | nil => exact absurd rfl hne
      | cons a l => simp [joinAbs]
  have hvalid : isValidNamespace ns true = true := by
    unfold isValidNamespace
    rw [if_neg (by simpa using hhead.1), if_neg (by simp [hhead.2]), htok, List.all_eq_true]
    intro x hx
    unfold isValidIdentifier
    rw [Bool.and_eq_true, List.all_eq_true]
    exact ⟨by simpa using (hidc x hx).1, fun c hcx => ((hidc x hx).2 c hcx).2.2.2⟩
  have hR' : setDefaultNamespace key R ns = (updateCurrent key { R with ns := getNormalizedNamespace ns }, true) := by
    unfold setDefaultNamespace; rw [if_pos hvalid]
  have hinv' := inv_setDefaultNamespace hk h ns hchars
  rw [hR'] at hinv' ⊢
  simp only at hinv' ⊢
  have hg : ∀ n, (updateCurrent key { R with ns := getNormalizedNamespace ns }).reg n = R.reg n := by
    intro n; unfold Reg.reg; rw [(updateCurrent_global key _).1]
  refine ⟨trivial, ?_, ?_⟩
  · intro n hn
    rw [hinv'.abs n hn, hg, h.abs n hn]
  · intro rel u hrel
    have habs : ∀ k, R.get (nsName (comps.take k) ++ rel) = R.reg (nsName (comps.take k) ++ rel) := by
      intro k
      apply h.abs
      cases hk : comps.take k with
      | nil => rfl
      | cons a l => simp [nsName, joinAbs, isAbsoluteName]
    have hrel0 : glookup R.global rel = none := by
      have := h.reg_rel hrel
      unfold Reg.reg at this
      simpa using this
    rw [get_eq, updateCurrent_current key hk { R with ns := getNormalizedNamespace ns } h.sorted]
    simp only [tokens_normalized, htok, hrel0]
    have hd := deepPaths_find (fun p => glookup R.global (p ++ rel)) [] comps
    rw [show nsName [] = ['/'] from rfl] at hd
    rw [hd]
    have hget : ∀ k, R.get (nsName (comps.take k) ++ rel) =
        (glookup R.global (nsName (comps.take k) ++ rel)).map (·.ty) := habs
    have hroot : ∀ k, k = 0 → glookup R.global (nsName (comps.take k) ++ rel) = glookup R.global ('/' :: rel) := by
      rintro k rfl; rfl
    simp only [List.nil_append, Option.none_or]
    constructor
    · intro hh
      cases hdp : deepest (fun k => glookup R.global (nsName (comps.take k) ++ rel)) comps.length with
      | some e =>
        rw [hdp] at hh
        obtain ⟨k, h1, h2, h3, h4⟩ := (deepest_some _ _ _).mp hdp
        refine ⟨k, h2, ?_, ?_⟩
        · rw [hget, h3]; simpa using hh
        · intro j h5 h6; rw [hget, h4 j h5 h6]; rfl
      | none =>
        rw [hdp] at hh
        refine ⟨0, by omega, ?_, ?_⟩
        · rw [hget, hroot 0 rfl]; simpa using hh
        · intro j h5 h6; rw [hget, (deepest_none _ _).mp hdp j (by omega) h6]; rfl
    · rintro ⟨k, h1, h2, h3⟩
      have h3' : ∀ j, k < j → j ≤ comps.length → glookup R.global (nsName (comps.take j) ++ rel) = none := by
        intro j h5 h6
        have := h3 j h5 h6
        rw [hget] at this
        simpa using this
      rw [hget] at h2
      by_cases hk0 : k = 0
      · have : deepest (fun k => glookup R.global (nsName (comps.take k) ++ rel)) comps.length = none :=
          (deepest_none _ _).mpr (fun j h5 h6 => h3' j (by omega) h6)
        rw [this, ← hroot k hk0]
        simpa using h2
      · cases he : glookup R.global (nsName (comps.take k) ++ rel) with
        | none => rw [he] at h2; simp at h2
        | some e =>
          have : deepest (fun k => glookup R.global (nsName (comps.take k) ++ rel)) comps.length = some e :=
            (deepest_some _ _ _).mpr ⟨k, by omega, h1, he, h3'⟩
          rw [this]
          rw [he] at h2
          simpa using h2

/-- **C02.** `importNamespace(name, erase)` makes exactly the members of the namespace reachable under
the rest of their name; `erase` says which of the old and the new meaning of a name wins. -/
theorem C02_import_namespace (hk : ∀ a b, key a = key b → a = b) (hac : Acyclic H) {R : Reg}
    (hR : Reachable key H R) (comps : List Str) (ns : Str) (hc : ∀ c ∈ comps, PlainTok c)
    (hns : ns = nsName comps ∨ (ns = joinAbs comps ∧ comps ≠ [])) (erase : Bool) :
    (∀ n, isAbsoluteName n = true → (importNamespace key R ns erase).get n = R.get n) ∧
    (∀ rel, isAbsoluteName rel = false →
      (importNamespace key R ns erase).get rel =
        if erase then (R.get (nsName comps ++ rel)).or (R.get rel)
        else (R.get rel).or (R.get (nsName comps ++ rel))) := by
  have h := inv_reachable hk hac hR
  have hnorm : getNormalizedNamespace ns = nsName comps := by
    rcases hns with rfl | ⟨rfl, hne⟩
    · exact normalized_slash _
    · unfold getNormalizedNamespace
      have hnn : joinAbs comps ≠ [] := by
        cases comps with
        | nil => exact absurd rfl hne
        | cons a l => simp [joinAbs]
      rw [if_neg (by simpa using hnn)]
      have : (joinAbs comps).getLast? ≠ some '/' := by
        obtain ⟨l', a, rfl⟩ : ∃ l' a, comps = l' ++ [a] :=
          ⟨comps.dropLast, comps.getLast hne, (List.dropLast_concat_getLast hne).symm⟩
        have ha := hc a (by simp)
        have e : joinAbs (l' ++ [a]) = joinAbs l' ++ '/' :: a := by simp [joinAbs]
        rw [e, getLast?_append_ne _ (by simp)]
        intro hl
        have hla : a.getLast? = some '/' := by
          cases a with
          | nil => exact absurd rfl ha.1
          | cons x xs => simpa using hl
        have := List.mem_of_getLast? hla
        exact (ha.2 _ this).1 rfl
      rw [if_pos this]
      rfl
  have hpp : ∀ comps pre : List Str, (∀ c ∈ comps, PlainTok c) → PlainPath (nsName pre) →
      PlainPath (nsName (pre ++ comps)) := by
    intro comps
    induction comps with
    | nil => intro pre _ h; simpa using h
    | cons a l ih =>
      intro pre hc hp
      have := ih (pre ++ [a]) (fun x hx => hc x (by simp [hx]))
        (by rw [nsName_snoc]; exact plainPath_snoc hp (hc a (by simp)))
      simpa using this
  have hplain := hpp comps [] hc plainPath_root
  simp only [List.nil_append] at hplain
  have hinv' := inv_importNamespace hk h ns (by rw [hnorm]; exact hplain) erase
  constructor
  · intro n hn
    rw [hinv'.abs n hn, h.abs n hn]; rfl
  · intro rel hrel
    have habs : R.get (nsName comps ++ rel) = R.reg (nsName comps ++ rel) := by
      apply h.abs
      cases comps with
      | nil => rfl
      | cons a l => simp [nsName, joinAbs, isAbsoluteName]
    rw [get_eq, importNamespace_current key hk R h.sorted, hnorm, habs]
    unfold Reg.reg
    cases erase with
    | true => simp only [if_true, get_eq]; cases glookup R.global (nsName comps ++ rel) <;> simp
    | false => simp only [Bool.false_eq_true, if_false, get_eq]; cases R.current rel <;> simp

/-! ### C21 -/

/-- `n` is the name of the registered array, pointer or vector type `u`, written with an alias `a` of
its element type instead of the element's own name. -/
def DerivedName (H : Heap) (R : Reg) (n : Str) (u : TId) : Prop :=
  Regd H R u ∧ ∃ ind x a, (H.kind u).indirectName = some ind ∧ (H.kind u).elem? = some x ∧ n = ind a ∧
    isAbsoluteName a = true ∧ R.get a = some x ∧ a ≠ H.name x

theorem Inv.derived_iff {R : Reg} (h : Inv key H R) (n : Str) (u : TId) :
    Derived H R n u ↔ DerivedName H R n u := by
  constructor
  · rintro ⟨ind, x, a, h1, h2, h3, h4, h5, h6⟩
    have ha := (h.reg_name h4).2.1
    exact ⟨(h.regd_iff u).mpr h6, ind, x, a, h1, h2, h3, ha, by rw [h.abs a ha]; exact h4, h5⟩
  · rintro ⟨h6, ind, x, a, h1, h2, h3, ha, h4, h5⟩
    exact ⟨ind, x, a, h1, h2, h3, by rw [← h.abs a ha]; exact h4, h5, (h.regd_iff u).mp h6⟩

theorem Inv.new_iff {R R' : Reg} (h : Inv key H R) (h' : Inv key H R') {n : Str} {u : TId}
    (hn : isAbsoluteName n = true) : New R R' n u ↔ R.get n = none ∧ R'.get n = some u := by
  unfold New
  rw [h.abs n hn, h'.abs n hn]

/-- **C21.** A successful `add` makes the type available under its own name, changes no other
registration, and adds nothing else than names derived from existing aliases of its element. -/
theorem C21_add (hk : ∀ a b, key a = key b → a = b) (hac : Acyclic H) {R : Reg}
    (hR : Reachable key H R) (t : TId) (ht : t < H.next) (habs : isAbsoluteName (H.name t) = true)
    (p : Bool) (src : Str) :
    ((add key H R t p src).2 = .ok () → (add key H R t p src).1.get (H.name t) = some t) ∧
    (∀ n u, isAbsoluteName n = true → R.get n = some u → (add key H R t p src).1.get n = some u) ∧
    (∀ n u, isAbsoluteName n = true → R.get n = none → (add key H R t p src).1.get n = some u →
      (n = H.name t ∧ u = t) ∨ DerivedName H (add key H R t p src).1 n u) := by
  have h := inv_reachable hk hac hR
  obtain ⟨⟨h1, h2, h3, h4, h5⟩, h6, h7⟩ := add_spec hk hac h t ht habs p src
  refine ⟨fun hok => ?_, ?_, ?_⟩
  · rw [h1.abs _ habs]; exact (h6 hok).1
  · intro n u hn hg
    rw [h1.abs n hn]
    rw [h.abs n hn] at hg
    exact h3 n u hg
  · intro n u hn hg1 hg2
    rcases h4 n u ((h.new_iff h1 hn).mpr ⟨hg1, hg2⟩) with h | h
    · exact Or.inl h
    · exact Or.inr ((h1.derived_iff n u).mp h)

/-- **C21.** A failed `add` changes nothing: an invalid name and a name already taken by another type
are rejected without effect. What is missing: a third failure exists, where the type *has* been
registered and the exception comes from an invalid derived alias (`C21_failed_add_counterexample`). -/
theorem C21_failed_add_partial (hk : ∀ a b, key a = key b → a = b) (hac : Acyclic H) {R : Reg}
    (hR : Reachable key H R) (t : TId) (ht : t < H.next) (habs : isAbsoluteName (H.name t) = true)
    (p : Bool) (src : Str) (hfail : (add key H R t p src).2 ≠ .ok ()) :
    ((add key H R t p src).2 = .exn .badName ∧ isValidTypename (H.name t) true = false ∧
      (add key H R t p src).1 = R) ∨
    ((add key H R t p src).2 = .exn .alreadyDefined ∧ (∃ u, u ≠ t ∧ R.get (H.name t) = some u) ∧
      (add key H R t p src).1 = R) ∨
    ((add key H R t p src).2 = .exn .badName ∧ (add key H R t p src).1.get (H.name t) = some t ∧
      ∃ n u, DerivedName H (add key H R t p src).1 n u ∧ isValidTypename n true = false) := by
  have h := inv_reachable hk hac hR
  obtain ⟨⟨h1, h2, h3, h4, h5⟩, h6, h7⟩ := add_spec hk hac h t ht habs p src
  rcases h7 with h7 | ⟨e1, e2, e3⟩ | ⟨e1, e2, u, e3, e4⟩ | ⟨e1, e2, n, u, e3, e4⟩
  · exact absurd h7 hfail
  · exact Or.inl ⟨e1, e3, e2⟩
  · exact Or.inr (Or.inl ⟨e1, ⟨u, e4, by rw [h.abs _ habs]; exact e3⟩, e2⟩)
  · exact Or.inr (Or.inr ⟨e1, by rw [h1.abs _ habs]; exact e2, n, u, (h1.derived_iff n u).mp e3, e4⟩)

/-- `add` succeeds exactly when the name is valid and free (or already this type), unless a derived
alias is invalid. -/
theorem C21_add_succeeds (hk : ∀ a b, key a = key b → a = b) (hac : Acyclic H) {R : Reg}
    (hR : Reachable key H R) (t : TId) (ht : t < H.next) (habs : isAbsoluteName (H.name t) = true)
    (p : Bool) (src : Str) (hv : isValidTypename (H.name t) true = true)
    (hfree : R.get (H.name t) = none ∨ R.get (H.name t) = some t)
    (hd : ∀ n u, DerivedName H (add key H R t p src).1 n u → isValidTypename n true = true) :
    (add key H R t p src).2 = .ok () := by
  have h := inv_reachable hk hac hR
  apply Classical.byContradiction
  intro hne
  rcases C21_failed_add_partial hk hac hR t ht habs p src hne with ⟨_, e, _⟩ | ⟨_, ⟨u, e1, e2⟩, _⟩ | ⟨_, _, n, u, e1, e2⟩
  · rw [hv] at e; cases e
  · rcases hfree with hf | hf
    · rw [hf] at e2; cases e2
    · rw [hf] at e2; cases e2; exact e1 rfl
  · rw [hd n u e1] at e2; cases e2

/-- **C21.** The same for `alias`. -/
theorem C21_alias (hk : ∀ a b, key a = key b → a = b) (hac : Acyclic H) {R : Reg}
    (hR : Reachable key H R) (base new : Str) (habs : isAbsoluteName new = true) (p : Bool) (src : Str) :
    ((alias key H R base new p src).2 = .ok () →
      ∃ t, R.get base = some t ∧ (alias key H R base new p src).1.get new = some t) ∧
    (∀ n u, isAbsoluteName n = true → R.get n = some u → (alias key H R base new p src).1.get n = some u) ∧
    (∀ n u, isAbsoluteName n = true → R.get n = none → (alias key H R base new p src).1.get n = some u →
      (n = new ∧ R.get base = some u) ∨ DerivedName H (alias key H R base new p src).1 n u) ∧
    ((alias key H R base new p src).2 = .exn .alreadyDefined →
      (∃ u, R.get new = some u ∧ R.get base ≠ some u) ∧ (alias key H R base new p src).1 = R) := by
  have h := inv_reachable hk hac hR
  unfold alias
  cases hg : R.get base with
  | none =>
    have e : aliasF key H (H.next + 1) R base new p src = (R, .exn .badName) ∨
        aliasF key H (H.next + 1) R base new p src = (R, .exn .undefined) := by
      unfold aliasF
      rw [hg]
      split
      · exact Or.inl rfl
      · exact Or.inr rfl
    rcases e with e | e <;> rw [e] <;>
    · refine ⟨(fun h => by cases h), fun n u _ h => h, fun n u _ h1 h2 => ?_, (fun h => by cases h)⟩
      rw [h1] at h2; cases h2
  | some t =>
    obtain ⟨⟨h1, h2, h3, h4, h5⟩, h6, h7⟩ :=
      aliasF_spec hk hac (H.next + 1) R base new p src t h habs hg (h.get_regd hg)
    refine ⟨fun hok => ⟨t, rfl, ?_⟩, ?_, ?_, ?_⟩
    · rw [h1.abs _ habs]; exact (h6 hok).1
    · intro n u hn hg'
      rw [h1.abs n hn]
      rw [h.abs n hn] at hg'
      exact h3 n u hg'
    · intro n u hn hg1 hg2
      rcases h4 n u ((h.new_iff h1 hn).mpr ⟨hg1, hg2⟩) with ⟨e1, e2⟩ | h
      · exact Or.inl ⟨e1, by rw [e2]⟩
      · exact Or.inr ((h1.derived_iff n u).mp h)
    · intro he
      rw [he] at h7
      simp only at h7
      rcases h7 with ⟨h7, _⟩ | ⟨_, e1, u, e2, e3⟩
      · cases h7
      · exact ⟨⟨u, by rw [h.abs _ habs]; exact e2, by simpa using fun e => e3 e.symm⟩, e1⟩

theorem updateCurrent_reg (R : Reg) (n : Str) : (updateCurrent key R).reg n = R.reg n := by
  unfold Reg.reg; rw [(updateCurrent_global key R).1]

/-- **C21.** `removeAlias` removes exactly the alias; it fails, without effect, on a name that is not
registered and on the name of a type. -/
theorem C21_removeAlias (hk : ∀ a b, key a = key b → a = b) (hac : Acyclic H) {R : Reg}
    (hR : Reachable key H R) (name : Str) (habs : isAbsoluteName name = true) :
    ((∃ t, R.get name = some t ∧ H.name t ≠ name) →
      (removeAlias key H R name).2 = .ok () ∧
      ∀ n, isAbsoluteName n = true →
        (removeAlias key H R name).1.get n = if n = name then none else R.get n) ∧
    ((¬ ∃ t, R.get name = some t ∧ H.name t ≠ name) →
      (removeAlias key H R name).2 = .exn .runtime ∧ (removeAlias key H R name).1 = R) := by
  have h := inv_reachable hk hac hR
  have hinv' := inv_removeAlias hk h name
  have hgr := h.abs name habs
  unfold Reg.reg at hgr
  rw [hgr]
  unfold removeAlias at hinv' ⊢
  cases hl : glookup R.global name with
  | none =>
    refine ⟨?_, fun _ => ⟨rfl, rfl⟩⟩
    rintro ⟨t, h1, _⟩
    cases h1
  | some e =>
    rw [hl] at hinv'
    simp only at hinv' ⊢
    constructor
    · rintro ⟨t, h1, h2⟩
      have h1' : e.ty = t := by simpa using h1
      subst h1'
      rw [if_neg h2] at hinv' ⊢
      refine ⟨rfl, fun n hn => ?_⟩
      rw [hinv'.abs n hn, updateCurrent_reg, reg_filter h.sorted]
      by_cases hnn : n = name
      · subst hnn; rw [hl]; simp
      · rw [if_neg hnn, h.abs n hn]
        unfold Reg.reg
        cases glookup R.global n with
        | none => rfl
        | some e' => simp [hnn]
    · intro hno
      have : H.name e.ty = name := by
        apply Classical.byContradiction
        intro hne
        exact hno ⟨e.ty, by simp, hne⟩
      rw [if_pos this]
      exact ⟨rfl, rfl⟩

/-- **C21.** `clearAliases` removes exactly the names that are not the own name of a type. -/
theorem C21_clearAliases (hk : ∀ a b, key a = key b → a = b) (hac : Acyclic H) {R : Reg}
    (hR : Reachable key H R) (n : Str) (hn : isAbsoluteName n = true) :
    (clearAliases key H R).get n = (R.get n).filter (fun u => H.name u = n) := by
  have h := inv_reachable hk hac hR
  have hinv' := inv_clearAliases hk h
  rw [hinv'.abs n hn, h.abs n hn]
  unfold clearAliases
  rw [updateCurrent_reg, reg_filter h.sorted]
  unfold Reg.reg
  cases glookup R.global n with
  | none => rfl
  | some e =>
    simp only [isAlias, Option.bind_some, Option.map_some, Option.filter_some]
    by_cases he : n = H.name e.ty
    · simp [← he]
    · have : ¬ H.name e.ty = n := fun x => he x.symm
      simp [he, this]

/-- **C21.** Changing the default namespace, importing a namespace or setting a source ID has no effect
on absolute names. -/
theorem C21_namespaces_keep (hk : ∀ a b, key a = key b → a = b) (hac : Acyclic H) {R : Reg}
    (hR : Reachable key H R) (n : Str) (hn : isAbsoluteName n = true) :
    (∀ s, OkOp H (.setDefaultNamespace s) → (setDefaultNamespace key R s).1.get n = R.get n) ∧
    (∀ s e, OkOp H (.importNamespace s e) → (importNamespace key R s e).get n = R.get n) ∧
    (∀ t s, (setSourceID H R t s).get n = R.get n) := by
  have h := inv_reachable hk hac hR
  refine ⟨fun s ho => ?_, fun s e ho => ?_, fun t s => rfl⟩
  · have hinv' := inv_setDefaultNamespace hk h s ho
    rw [hinv'.abs n hn, h.abs n hn]
    unfold setDefaultNamespace
    split
    · exact updateCurrent_reg _ _
    · rfl
  · have hinv' := inv_importNamespace hk h s ho e
    rw [hinv'.abs n hn, h.abs n hn]; rfl

/-! ### C23 -/

/-- **C23.** `remove(t)` returns `t` and exactly the registered types that depend on it (transitively,
cycles included); it unregisters all their names and nothing else; nothing left depends on them. -/
theorem C23_remove (hk : ∀ a b, key a = key b → a = b) (hac : Acyclic H) {R : Reg}
    (hR : Reachable key H R) (t : TId) :
    ∃ types, (remove H R t).2 = .ok types ∧
      (∀ u, u ∈ types ↔ Reaches H (Regd H R) t u) ∧
      (∀ n u, (remove H R t).1.get n = some u ↔ R.get n = some u ∧ ¬ Reaches H (Regd H R) t u) ∧
      (∀ v, Regd H (remove H R t).1 v → ∀ d ∈ H.deps v, ¬ Reaches H (Regd H R) t d) := by
  have h := inv_reachable hk hac hR
  obtain ⟨types, h1, h2⟩ := reverseDepends_spec (H := H) h.sorted t
  have hreg : Regd H R = R.regd H := by
    funext u; exact propext (h.regd_iff u)
  rw [hreg]
  have hget : ∀ n u, (remove H R t).1.get n = some u ↔ R.get n = some u ∧ ¬ Reaches H (R.regd H) t u := by
    intro n u
    unfold remove
    rw [h1]
    simp only [get_eq]
    cases hc : R.current n with
    | none => simp
    | some e =>
      simp only [Option.map_some, Option.some.injEq]
      by_cases hin : e.ty ∈ types
      · simp only [List.contains_iff_mem.mpr hin, if_true, Option.map_none]
        constructor
        · intro hx; cases hx
        · rintro ⟨rfl, hnr⟩; exact absurd ((h2 _).mp hin) hnr
      · have : types.contains e.ty = false := by simpa using hin
        simp only [this, Bool.false_eq_true, if_false, Option.map_some, Option.some.injEq]
        constructor
        · rintro rfl; exact ⟨rfl, fun hr => hin ((h2 _).mpr hr)⟩
        · exact fun hx => hx.1
  refine ⟨types, by unfold remove; rw [h1], h2, hget, ?_⟩
  intro v hv d hd hr
  obtain ⟨e1, e2⟩ := (hget _ _).mp hv
  exact e2 (.step hr ((h.regd_iff v).mp e1) hd)

/-! ### C21: lifetime -/

/-- the operations that unregister a name -/
theorem step_lost (hk : ∀ a b, key a = key b → a = b) (hac : Acyclic H) {R : Reg}
    (hR : Reachable key H R) (o : Op) (ho : OkOp H o) (n : Str) (t : TId) (hn : isAbsoluteName n = true)
    (hg : R.get n = some t) :
    (step key H R o).1.get n = some t ∨
    (o = .removeAlias n ∧ n ≠ H.name t) ∨ (o = .clearAliases ∧ n ≠ H.name t) ∨
    ∃ s, o = .remove s ∧ Reaches H (Regd H R) s t := by
  cases o with
  | add u p s => exact Or.inl ((C21_add hk hac hR u ho.1 ho.2 p s).2.1 n t hn hg)
  | addAuto u s => exact Or.inl ((C21_add hk hac hR u ho.1 ho.2 _ s).2.1 n t hn hg)
  | alias b m p s => exact Or.inl ((C21_alias hk hac hR b m ho p s).2.1 n t hn hg)
  | aliasAuto b m s =>
    left
    simp only [step, aliasAuto]
    cases hb : R.get b with
    | none => exact hg
    | some u => exact (C21_alias hk hac hR b m ho _ s).2.1 n t hn hg
  | removeAlias m =>
    simp only [step]
    by_cases hmn : m = n
    · subst hmn
      by_cases hp : ∃ u, R.get m = some u ∧ H.name u ≠ m
      · obtain ⟨u, e1, e2⟩ := hp
        rw [hg] at e1; cases e1
        exact Or.inr (Or.inl ⟨rfl, fun e => e2 e.symm⟩)
      · left; rw [((C21_removeAlias hk hac hR m hn).2 hp).2]; exact hg
    · left
      by_cases hma : isAbsoluteName m = true
      · by_cases hp : ∃ u, R.get m = some u ∧ H.name u ≠ m
        · rw [((C21_removeAlias hk hac hR m hma).1 hp).2 n hn, if_neg (fun e => hmn e.symm)]; exact hg
        · rw [((C21_removeAlias hk hac hR m hma).2 hp).2]; exact hg
      · have h := inv_reachable hk hac hR
        have hgl : glookup R.global m = none := by
          have := h.reg_rel (n := m) (by simpa using hma)
          unfold Reg.reg at this; simpa using this
        unfold removeAlias
        rw [hgl]; exact hg
  | clearAliases =>
    by_cases hp : n = H.name t
    · left
      simp only [step]
      rw [C21_clearAliases hk hac hR n hn, hg]
      simp [hp]
    · exact Or.inr (Or.inr (Or.inl ⟨rfl, hp⟩))
  | remove s =>
    obtain ⟨types, _, _, h3, _⟩ := C23_remove hk hac hR s
    by_cases hr : Reaches H (Regd H R) s t
    · exact Or.inr (Or.inr (Or.inr ⟨s, rfl, hr⟩))
    · exact Or.inl ((h3 n t).mpr ⟨hg, hr⟩)
  | setDefaultNamespace s =>
    left; simp only [step]; rw [(C21_namespaces_keep hk hac hR n hn).1 s ho]; exact hg
  | importNamespace s e =>
    left; simp only [step]; rw [(C21_namespaces_keep hk hac hR n hn).2.1 s e ho]; exact hg
  | setSourceID u s => exact Or.inl hg

/-- **C21.** Once a type is registered under a name, every later lookup of that name returns it, until
one of: `removeAlias` of that very name, `clearAliases` when the name is an alias, or `remove` of the
type or of something it depends on. -/
theorem C21_lifetime (hk : ∀ a b, key a = key b → a = b) (hac : Acyclic H) {R : Reg}
    (hR : Reachable key H R) (ops : List Op) (ho : ∀ o ∈ ops, OkOp H o) (n : Str) (t : TId)
    (hn : isAbsoluteName n = true) (hg : R.get n = some t) :
    (run key H R ops).get n = some t ∨
    ∃ before op after, ops = before ++ op :: after ∧ (run key H R before).get n = some t ∧
      ((op = .removeAlias n ∧ n ≠ H.name t) ∨ (op = .clearAliases ∧ n ≠ H.name t) ∨
        ∃ s, op = .remove s ∧ Reaches H (Regd H (run key H R before)) s t) := by
  induction ops generalizing R with
  | nil => exact Or.inl hg
  | cons o os ih =>
    rcases step_lost hk hac hR o (ho o (by simp)) n t hn hg with h1 | h1
    · have hR' : Reachable key H (step key H R o).1 := reachable_run hR [o] (by
        intro x hx; rw [List.mem_singleton.mp hx]; exact ho o (by simp))
      rcases ih hR' (fun x hx => ho x (by simp [hx])) h1 with h2 | ⟨b, op, a, e1, e2, e3⟩
      · exact Or.inl h2
      · exact Or.inr ⟨o :: b, op, a, by rw [e1]; rfl, e2, e3⟩
    · exact Or.inr ⟨[], o, os, rfl, hg, h1⟩

/-! ### C24 -/

/-- **C24.** In every reachable registry, whatever a name (absolute or relative) resolves to is
registered under its own name. -/
theorem C24_resolved_types_are_registered (hk : ∀ a b, key a = key b → a = b) (hac : Acyclic H) {R : Reg}
    (hR : Reachable key H R) (n : Str) (u : TId) (hg : R.get n = some u) : Regd H R u := by
  have h := inv_reachable hk hac hR
  exact (h.regd_iff u).mpr (h.get_regd hg)

/-- **C24.** A name that is not absolute never resolves to anything but a type registered under some
namespace followed by that name. -/
theorem C24_relative_names_sound (hk : ∀ a b, key a = key b → a = b) (hac : Acyclic H) {R : Reg}
    (hR : Reachable key H R) (n : Str) (u : TId) (hn : isAbsoluteName n = false) (hg : R.get n = some u) :
    ∃ ns : Str, ns.getLast? = some '/' ∧ isAbsoluteName ns = true ∧ R.get (ns ++ n) = some u := by
  have h := inv_reachable hk hac hR
  obtain ⟨p, ⟨q, rfl, hq, hh⟩, hr⟩ := h.rel n u hn hg
  have hpa : ∀ m, isAbsoluteName (q ++ ['/'] ++ m) = true := by
    intro m
    rcases hh with hh | rfl
    · cases q with
      | nil => simp at hh
      | cons a q => simpa [isAbsoluteName] using hh
    · rfl
  refine ⟨q ++ ['/'], by simp, by simpa using hpa [], ?_⟩
  rw [h.abs _ (hpa n)]; exact hr

/-- **C24.** `getAliasesOf(t)` lists exactly the other names of `t`. -/
theorem C24_getAliasesOf (hk : ∀ a b, key a = key b → a = b) (hac : Acyclic H) {R : Reg}
    (hR : Reachable key H R) (t : TId) (n : Str) :
    n ∈ getAliasesOf H R t ↔ isAbsoluteName n = true ∧ R.get n = some t ∧ n ≠ H.name t := by
  have h := inv_reachable hk hac hR
  rw [mem_getAliasesOf h.toGInv]
  constructor
  · rintro ⟨h1, h2⟩
    have := (h.reg_name h1).2.1
    exact ⟨this, by rw [h.abs n this]; exact h1, h2⟩
  · rintro ⟨h1, h2, h3⟩
    exact ⟨by rw [← h.abs n h1]; exact h2, h3⟩

/-- **C24.** `removeAlias` and `clearAliases` never remove a type. -/
theorem C24_types_survive (hk : ∀ a b, key a = key b → a = b) (hac : Acyclic H) {R : Reg}
    (hR : Reachable key H R) (u : TId) (hu : Regd H R u) :
    (∀ n, Regd H (removeAlias key H R n).1 u) ∧ Regd H (clearAliases key H R) u := by
  have h := inv_reachable hk hac hR
  have habs : isAbsoluteName (H.name u) = true := (h.reg_name ((h.regd_iff u).mp hu)).2.1
  constructor
  · intro n
    rcases step_lost hk hac hR (.removeAlias n) trivial (H.name u) u habs hu with h1 | ⟨_, h1⟩ | ⟨_, h1⟩ | ⟨s, h1, _⟩
    · exact h1
    · exact absurd rfl h1
    · exact absurd rfl h1
    · cases h1
  · rcases step_lost hk hac hR .clearAliases trivial (H.name u) u habs hu with h1 | ⟨_, h1⟩ | ⟨_, h1⟩ | ⟨s, h1, _⟩
    · exact h1
    · exact absurd rfl h1
    · exact absurd rfl h1
    · cases h1

end Verif.Registry
