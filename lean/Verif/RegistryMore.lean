import Verif.RegistryProps

/-! Properties C22 and C25 of the registry, examples and counterexamples. -/

namespace Verif.Registry
open Verif Verif.Names Verif.Graph

variable {key : Char → Int} {H : Heap}

/-! ### C25 -/

/-- Array, pointer and vector types are named after their element (the constructors of
`Array`, `Pointer` and `Vector`: typemodel.cc:520-522, 561-562, containers.cc:20-24). -/
def NamedByElement (H : Heap) : Prop :=
  ∀ u ind x, (H.kind u).indirectName = some ind → (H.kind u).elem? = some x → H.name u = ind (H.name x)

theorem natStr_digits (n : Nat) : ∀ c ∈ natStr n, c.isDigit = true := by
  intro c hc
  unfold natStr at hc
  have : c ∈ Nat.toDigits 10 n := by
    simpa [toString, Nat.repr] using hc
  exact Nat.isDigit_of_mem_toDigits (by decide) (by decide) this

/-- a decorated name determines the decoration and the undecorated name -/
theorem indirect_inj {k k' : Kind} {ind ind' : Str → Str} (h : k.indirectName = some ind)
    (h' : k'.indirectName = some ind') {a b : Str} (he : ind a = ind' b) : a = b ∧ ind = ind' := by
  have hlast : ∀ x : Str, (ind x).getLast? = (ind []).getLast? ∧ (ind [] ≠ []) := by
    intro x
    cases k <;> simp [Kind.indirectName] at h <;> subst h <;> simp [List.getLast?_append, List.getLast?_cons]
  have hlast' : ∀ x : Str, (ind' x).getLast? = (ind' []).getLast? := by
    intro x
    cases k' <;> simp [Kind.indirectName] at h' <;> subst h' <;> simp [List.getLast?_append, List.getLast?_cons]
  have hl : (ind []).getLast? = (ind' []).getLast? := by
    rw [← (hlast a).1, he, hlast' b]
  cases k <;> cases k' <;> simp [Kind.indirectName] at h h' <;> subst h <;> subst h' <;>
    simp [List.getLast?_append, List.getLast?_cons] at hl
  · -- array / array
    rename_i d e d' e'
    have he' : a ++ '[' :: natStr d = b ++ '[' :: natStr d' := by
      have h1 : (a ++ '[' :: natStr d) ++ [']'] = (b ++ '[' :: natStr d') ++ [']'] := by simpa using he
      exact List.append_cancel_right h1
    have hno : ∀ n : Nat, ∀ c ∈ natStr n, c ≠ '[' := by
      intro n c hc e
      have := natStr_digits n c hc
      rw [e] at this
      revert this; decide
    have key : ∀ (a b s s' : Str), (∀ c ∈ s, c ≠ '[') → (∀ c ∈ s', c ≠ '[') →
        a ++ '[' :: s = b ++ '[' :: s' → a = b ∧ s = s' := by
      intro a
      induction a with
      | nil =>
        intro b s s' h1 h2 h3
        cases b with
        | nil => simpa using h3
        | cons x b =>
          simp only [List.nil_append, List.cons_append, List.cons.injEq] at h3
          obtain ⟨rfl, h3⟩ := h3
          exact absurd rfl (h1 '[' (by rw [h3]; simp))
      | cons y a ih =>
        intro b s s' h1 h2 h3
        cases b with
        | nil =>
          simp only [List.nil_append, List.cons_append, List.cons.injEq] at h3
          obtain ⟨rfl, h3⟩ := h3
          exact absurd rfl (h2 '[' (by rw [← h3]; simp))
        | cons x b =>
          simp only [List.cons_append, List.cons.injEq] at h3
          obtain ⟨rfl, h3⟩ := h3
          obtain ⟨e1, e2⟩ := ih b s s' h1 h2 h3
          exact ⟨by rw [e1], e2⟩
    obtain ⟨e1, e2⟩ := key a b _ _ (hno d) (hno d') he'
    exact ⟨e1, by rw [e2]⟩
  · exact ⟨by simpa using he, rfl⟩
  · refine ⟨?_, rfl⟩
    have h2 : ("/std/vector<".toList ++ a) ++ ['>'] = ("/std/vector<".toList ++ b) ++ ['>'] := he
    exact List.append_cancel_left (List.append_cancel_right h2)

/-- **C25.** After a successful `alias(base, new)`, the new name and every other name it gave rise to
is propagated: each registered array, pointer or vector over the named type is known under the
corresponding derived name, to any depth; a derived name that was free designates that very type. -/
theorem C25_alias_propagates (hk : ∀ a b, key a = key b → a = b) (hac : Acyclic H)
    (hnm : NamedByElement H) {R : Reg} (hR : Reachable key H R) (base new : Str)
    (habs : isAbsoluteName new = true) (p : Bool) (src : Str) (t : TId) (hb : R.get base = some t)
    (hne : new ≠ H.name t) (hok : (alias key H R base new p src).2 = .ok ()) :
    let R' := (alias key H R base new p src).1
    R'.get new = some t ∧
    ∀ n x, isAbsoluteName n = true →
      ((n = new ∧ x = t) ∨ (R.get n = none ∧ R'.get n = some x)) →
      ∀ u ind, Regd H R' u → (H.kind u).indirectName = some ind → (H.kind u).elem? = some x →
        ∃ v, R'.get (ind n) = some v ∧ (R.get (ind n) = none → ind n ≠ new → v = u) := by
  intro R'
  have h := inv_reachable hk hac hR
  obtain ⟨⟨h1, h2, h3, h4, h5⟩, h6, h7⟩ :=
    aliasF_spec hk hac (H.next + 1) R base new p src t h habs hb (h.get_regd hb)
  obtain ⟨h6a, h6b⟩ := h6 hok
  refine ⟨(h1.abs _ habs).trans h6a, ?_⟩
  intro n x hn hnx u ind hu hi he
  have hR'reg : ∀ n, isAbsoluteName n = true → R'.get n = R'.reg n := fun n hn => h1.abs n hn
  have hnx' : New R R' n x ∨ (n = new ∧ x = t ∧ n ≠ H.name t) := by
    rcases hnx with ⟨rfl, rfl⟩ | hx
    · exact Or.inr ⟨rfl, rfl, hne⟩
    · exact Or.inl ((h.new_iff h1 hn).mpr hx)
  have hxn : R'.reg n = some x := by
    rcases hnx' with hx | ⟨rfl, rfl, _⟩
    · exact hx.2
    · exact h6a
  have huR : R'.reg (H.name u) = some u := (h1.regd_iff u).mp hu
  obtain ⟨v, hv⟩ := h6b n x hnx' u ind huR hi he
  have hind := indirect_abs hi hn
  refine ⟨v, by rw [hR'reg _ hind]; exact hv, ?_⟩
  intro hfree hnew
  rw [h.abs _ hind] at hfree
  rcases h4 (ind n) v ⟨hfree, hv⟩ with ⟨e, _⟩ | ⟨ind', x', a, e1, e2, e3, e4, e5, e6⟩
  · exact absurd e hnew
  · obtain ⟨ea, ei⟩ := indirect_inj hi e1 e3
    have hx' : R'.reg a = some x' := e4
    rw [← ea, hxn] at hx'
    cases hx'
    have hname : H.name v = H.name u := by
      rw [hnm v ind' x e1 e2, hnm u ind x hi he, ei]
    have e6' : R'.reg (H.name v) = some v := e6
    rw [hname, huR] at e6'
    cases e6'; rfl

/-- **C25.** `alias` (and `add`) always terminate normally or with a documented exception: the mutual
recursion of `alias` and `modifiedDependencyAliases` is bounded. -/
theorem C25_alias_terminates (hk : ∀ a b, key a = key b → a = b) (hac : Acyclic H) {R : Reg}
    (hR : Reachable key H R) (base new : Str) (habs : isAbsoluteName new = true) (p : Bool) (src : Str) :
    (alias key H R base new p src).2 = .ok () ∨ (alias key H R base new p src).2 = .exn .badName ∨
    (alias key H R base new p src).2 = .exn .undefined ∨
    (alias key H R base new p src).2 = .exn .alreadyDefined := by
  have h := inv_reachable hk hac hR
  unfold alias
  cases hg : R.get base with
  | none =>
    unfold aliasF
    rw [hg]
    split
    · exact Or.inr (Or.inl rfl)
    · exact Or.inr (Or.inr (Or.inl rfl))
  | some t =>
    obtain ⟨_, _, h7⟩ := aliasF_spec hk hac (H.next + 1) R base new p src t h habs hg (h.get_regd hg)
    generalize (aliasF key H (H.next + 1) R base new p src).2 = r at h7
    cases r with
    | ok v => exact Or.inl rfl
    | exn e =>
      simp only at h7
      rcases h7 with ⟨rfl, _⟩ | ⟨rfl, _⟩
      · exact Or.inr (Or.inl rfl)
      · exact Or.inr (Or.inr (Or.inr rfl))
    | ub => exact absurd h7 id
    | fuel => exact absurd (h7 (by show @LT.lt Nat _ _ _; omega)) id

/-- a history of registrations, all of which succeeded -/
inductive Built (key : Char → Int) (H : Heap) : Reg → Prop
  | empty : Built key H Reg.empty
  | add {R} (t : TId) (p : Bool) (src : Str) : Built key H R → OkOp H (.add t p src) →
      (add key H R t p src).2 = .ok () → Built key H (add key H R t p src).1
  | alias {R} (base new : Str) (p : Bool) (src : Str) : Built key H R → OkOp H (.alias base new p src) →
      (alias key H R base new p src).2 = .ok () → Built key H (alias key H R base new p src).1
  | setDefaultNamespace {R} (s : Str) : Built key H R → OkOp H (.setDefaultNamespace s) →
      Built key H (setDefaultNamespace key R s).1

theorem built_reachable (hac : Acyclic H) {R : Reg} (h : Built key H R) : Reachable key H R := by
  induction h with
  | empty => exact .start hac
  | add t p src _ ho _ ih => exact reachable_run ih [.add t p src] (by simpa using ho)
  | alias b n p src _ ho _ ih => exact reachable_run ih [.alias b n p src] (by simpa using ho)
  | setDefaultNamespace s _ ho ih => exact reachable_run ih [.setDefaultNamespace s] (by simpa using ho)

/-- **C25.** In a registry built by successful registrations and aliases, in any order, every alias is
propagated to every derived type. -/
theorem C25_all_aliases_propagated (hk : ∀ a b, key a = key b → a = b) (hac : Acyclic H) {R : Reg}
    (hB : Built key H R) (n : Str) (x u : TId) (ind : Str → Str) (hn : isAbsoluteName n = true)
    (hg : R.get n = some x) (hne : n ≠ H.name x) (hu : Regd H R u)
    (hi : (H.kind u).indirectName = some ind) (he : (H.kind u).elem? = some x) :
    ∃ v, R.get (ind n) = some v := by
  have main : ∀ {R : Reg}, Built key H R → ∀ n x, R.reg n = some x → n ≠ H.name x → ClosedAt H R n x := by
    intro R hB
    induction hB with
    | empty => intro n x hx; cases hx
    | @add R t p src hB ho hok ih =>
      have h := inv_reachable hk hac (built_reachable hac hB)
      obtain ⟨⟨h1, h2, h3, h4, h5⟩, h6, _⟩ := add_spec hk hac h t ho.1 ho.2 p src
      obtain ⟨h6a, h6b, h6c⟩ := h6 hok
      intro n x hx hne u ind hu hi he
      cases hold : R.reg n with
      | none =>
        refine h6b n x ⟨hold, hx⟩ ?_ u ind hu hi he
        intro hnt
        rcases h4 n x ⟨hold, hx⟩ with ⟨_, e⟩ | hd
        · exact hne (by rw [hnt, e])
        · rw [hnt, h6a] at hx
          cases hx
          exact hne hnt
      | some x' =>
        have := h3 n x' hold
        rw [hx] at this
        cases this
        by_cases hut : u = t
        · subst hut
          exact h6c ind x n hi he hold hne
        · have huR : R.reg (H.name u) = some u := by
            cases hru : R.reg (H.name u) with
            | none =>
              rcases h5 _ _ ⟨hru, hu⟩ with e | e
              · exact absurd e hut
              · rw [hru] at e; cases e
            | some w =>
              have := h3 _ _ hru
              rw [hu] at this
              exact this.symm
          obtain ⟨v, hv⟩ := ih n x hold hne u ind huR hi he
          exact ⟨v, h3 _ _ hv⟩
    | @alias R base new p src hB ho hok ih =>
      have h := inv_reachable hk hac (built_reachable hac hB)
      cases hb : R.get base with
      | none =>
        exfalso
        unfold alias aliasF at hok
        rw [hb] at hok
        split at hok <;> cases hok
      | some t =>
        obtain ⟨⟨h1, h2, h3, h4, h5⟩, h6, _⟩ :=
          aliasF_spec hk hac (H.next + 1) R base new p src t h ho hb (h.get_regd hb)
        obtain ⟨h6a, h6b⟩ := h6 hok
        intro n x hx hne
        cases hold : R.reg n with
        | none => exact h6b n x (Or.inl ⟨hold, hx⟩)
        | some x' =>
          have := h3 n x' hold
          have hx' := hx
          unfold alias at hx'
          rw [hx'] at this
          cases this
          exact (ih n x hold hne).mono h3 h5
    | @setDefaultNamespace R s hB ho ih =>
      have hreg : ∀ n, (setDefaultNamespace key R s).1.reg n = R.reg n := by
        intro n; unfold setDefaultNamespace; split
        · exact updateCurrent_reg _ _
        · rfl
      intro n x hx hne u ind hu hi he
      rw [hreg] at hx hu
      obtain ⟨v, hv⟩ := ih n x hx hne u ind hu hi he
      exact ⟨v, by rw [hreg]; exact hv⟩
  have h := inv_reachable hk hac (built_reachable hac hB)
  obtain ⟨v, hv⟩ := main hB n x (by rw [← h.abs n hn]; exact hg) hne u ind ((h.regd_iff u).mp hu) hi he
  exact ⟨v, by rw [h.abs _ (indirect_abs hi hn)]; exact hv⟩

end Verif.Registry
