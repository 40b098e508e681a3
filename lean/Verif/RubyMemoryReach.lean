import Verif.RubyMemoryProps

/-!
C44: theorems over all histories of calls.
-/

namespace Verif.RubyMemory
open Verif Verif.Assoc

theorem start_inv : Inv St.start.zones (fun _ => 0) St.start := by
  refine ⟨by simp [St.start, Uniq], by simp [St.start, Uniq], by simp [St.start, Uniq], ?_, ?_, ?_, ?_, ?_, ?_, ?_, ?_,
    ?_, ?_, ?_, ?_, ?_, ?_, ?_⟩ <;> simp [St.start, kids]

theorem allocate_keeps {s x} (h : Inv s.zones x s) (hq : Quiet s) {p : Ptr} (hl : s.live p = false)
    (hn : get s.table p = none) :
    ∃ s', allocate s p = (s', .ok s.nextZone) ∧ Inv s'.zones x s' ∧ Quiet s' ∧
      s'.zones = (fun y => if y = s.nextZone then some (some p) else s.zones y) ∧
      s'.live = fun q => if q = p then true else s.live q := by
  unfold allocate
  obtain ⟨s', h1, h2, h3, h4, _, h6⟩ := wrap_new h hq p true none (fun q => if q = p then true else s.live q)
    (by intro q; simp) hn (fun _ => hl) (by simp) (by simp)
  exact ⟨s', h1, h4 ▸ h2, h3, h4, h6⟩

theorem wrap_keeps {s x} (h : Inv s.zones x s) (hq : Quiet s) {p : Ptr} {root : Option Ptr}
    (hr : ∀ r, root = some r → r ≠ p ∧ (get s.table r).isSome)
    (hz : ∀ e, get s.table p = some e → s.zones e.object = some (some p)) :
    ∃ s' z, wrap s p false root = (s', .ok z) ∧ s'.zones z = some (some p) ∧ Inv s'.zones x s' ∧ Quiet s' ∧
      s'.live = s.live := by
  cases hg : get s.table p with
  | some e => exact ⟨s, e.object, by simp [wrap, hg], hz e hg, h, hq, rfl⟩
  | none =>
    obtain ⟨s', h1, h2, h3, h4, _, h6⟩ := wrap_new h hq p false root s.live
      (by intro q; simp) hg (by simp) hr (by simp)
    exact ⟨s', s.nextZone, h1, by rw [h4]; simp, h4 ▸ h2, h3, h6⟩

theorem step_inv {a b : St × (Ptr → Nat)} (hs : Step a b) (h : Inv a.1.zones a.2 a.1) (hq : Quiet a.1) :
    Inv b.1.zones b.2 b.1 ∧ Quiet b.1 := by
  cases hs with
  | allocate s x p hl hn =>
    obtain ⟨s', h1, h2, h3, _⟩ := allocate_keeps h hq hl hn
    rw [h1]; exact ⟨h2, h3⟩
  | wrap s x p root hr hz =>
    obtain ⟨s', z, h1, _, h2, h3, _⟩ := wrap_keeps h hq hr hz
    rw [h1]; exact ⟨h2, h3⟩
  | init s x z p t hz hl =>
    obtain ⟨_, h2, h3, _⟩ := init_keeps h hq t hz hl
    exact ⟨h2, h3⟩
  | ref s x p =>
    cases hg : get s.table p with
    | none => rw [memRef_none hg]; exact ⟨h, hq⟩
    | some e =>
      obtain ⟨s', h1, h2, h3, h4, _⟩ := memRef_keeps h hq hg
      rw [h1]
      exact ⟨by simpa [h4] using h2, h3⟩
  | unref s x p =>
    obtain ⟨s', h1, h2, h3, fr⟩ := unref_keeps h hq
    rw [h1]
    exact ⟨by simpa [fr.zones] using h2, h3⟩
  | invalidate s x z hz =>
    obtain ⟨s', h1, h2, h3, _⟩ := invalidate_keeps h hq hz
    rw [h1]; exact ⟨h2, h3⟩
  | collect s x z hz =>
    obtain ⟨s', h1, h2, h3, _⟩ := collect_keeps h hq hz
    rw [h1]; exact ⟨h2, h3⟩

theorem reach_inv {a} (h : Reach a) : Inv a.1.zones a.2 a.1 ∧ Quiet a.1 := by
  induction h with
  | start => exact ⟨start_inv, by intro p e h; simp [St.start] at h⟩
  | step a b _ hs ih => exact step_inv hs ih.1 ih.2

theorem entry_referenced {s x} (h : Inv s.zones x s) (hq : Quiet s) (p : Ptr) :
    (get s.table p).isSome ↔ Referenced s x p := by
  constructor
  · intro hs
    obtain ⟨e, he⟩ := Option.isSome_iff_exists.mp hs
    have hc := h.count p e he
    have hd : e.refs ≠ 0 := by simpa [Entry.dying] using hq p e he
    by_cases hz : s.zones e.object = some (some p)
    · exact .inl ⟨_, hz⟩
    · by_cases hx : 0 < x p
      · exact .inr (.inl hx)
      · have : zref s.zones e p = 0 := by simp [zref, hz, bit]
        have hk : 0 < kids s.table p := by omega
        obtain ⟨⟨q, e'⟩, hm, hp⟩ := List.countP_pos_iff.mp hk
        simp only [isKid, Bool.and_eq_true, decide_eq_true_eq] at hp
        exact .inr (.inr ⟨q, e', get_of_mem h.uniq hm, hp.2⟩)
  · rintro (⟨z, hz⟩ | hx | ⟨q, e, hg, hr⟩)
    · obtain ⟨e, he, _⟩ := h.zone z p hz; simp [he]
    · cases hg : get s.table p with
      | some e => rfl
      | none => have := (h.absent p hg).1; omega
    · obtain ⟨e', he, _⟩ := h.root q e p hg (hq q e hg) hr
      simp [he]

/-! ### Theorems -/

/-- No call of such a history fails: allocating and wrapping return a zone object for the address, a reference is
taken iff the address is known, initialising a block fails only when it already is, and giving back a reference,
invalidating or collecting a zone destroys and frees memory without error — in particular a block is never freed
twice, and a value never destroyed twice. -/
theorem C44_calls_succeed {s x} (h : Reach (s, x)) :
    (∀ p, s.live p = false → get s.table p = none →
      ∃ z, (allocate s p).2 = .ok z ∧ (allocate s p).1.zones z = some (some p) ∧ (allocate s p).1.live p = true) ∧
    (∀ p root, (∀ r, root = some r → r ≠ p ∧ (get s.table r).isSome) →
      (∀ e, get s.table p = some e → s.zones e.object = some (some p)) →
      ∃ z, (wrap s p false root).2 = .ok z ∧ (wrap s p false root).1.zones z = some (some p)) ∧
    (∀ z p t, s.zones z = some (some p) → s.live p = true →
      ((s.inited p = none ∧ (init s z t).2 = .ok () ∧ (init s z t).1.inited p = some t) ∨
        (s.inited p ≠ none ∧ init s z t = (s, .exn .runtime)))) ∧
    (∀ p, (memRef s p).2 = true ↔ Referenced s x p) ∧
    (∀ p x', x = inc x' p → (unref s p).2 = .ok ()) ∧
    (∀ z, s.zones z ≠ none → (invalidate s z).2 = .ok () ∧ (invalidate s z).1.zones z = some none) ∧
    (∀ z, s.zones z ≠ none → (collect s z).2 = .ok () ∧ (collect s z).1.zones z = none) := by
  obtain ⟨hi, hq⟩ := reach_inv h
  refine ⟨?_, ?_, ?_, ?_, ?_, ?_, ?_⟩
  · intro p hl hn
    obtain ⟨s', h1, _, _, h4, h5⟩ := allocate_keeps hi hq hl hn
    refine ⟨s.nextZone, by rw [h1], ?_, ?_⟩
    · rw [h1, h4]; simp
    · rw [h1, h5]; simp
  · intro p root hr hz
    obtain ⟨s', z, h1, h2, _⟩ := wrap_keeps hi hq hr hz
    exact ⟨z, by rw [h1], by rw [h1]; exact h2⟩
  · intro z p t hz hl
    obtain ⟨h1, _⟩ := init_keeps hi hq t hz hl
    have hv := hi.vals p hl
    simp only at hv
    rcases h1 with ⟨a, b, c⟩ | ⟨a, b⟩
    · exact .inl ⟨hv.trans a, b, c⟩
    · refine .inr ⟨?_, b⟩
      rw [hv]
      intro hh
      rw [hh] at a
      simp at a
  · intro p
    rw [← entry_referenced hi hq]
    cases hg : get s.table p with
    | none => rw [memRef_none hg]; simp
    | some e =>
      obtain ⟨s', h1, _⟩ := memRef_keeps hi hq hg
      rw [h1]; simp
  · intro p x' hx
    subst hx
    obtain ⟨s', h1, _⟩ := unref_keeps hi hq
    rw [h1]
  · intro z hz
    obtain ⟨s', h1, _, _, h4⟩ := invalidate_keeps hi hq hz
    rw [h1]
    refine ⟨rfl, ?_⟩
    rcases h4 with rfl | ⟨p, s1, _, _, rfl⟩
    · cases hzz : s'.zones z with
      | none => exact absurd hzz hz
      | some o =>
        cases o with
        | none => rfl
        | some p =>
          exfalso
          obtain ⟨s2, e2, _, _, _⟩ := unref_keeps (hi.forget hzz (v := some none) (by simp)) hq
          have hii : invalidate s' z = (setZone s2 z (some none), .ok ()) := by simp only [invalidate, hzz, e2]
          rw [h1] at hii
          have := congrArg (fun r => r.1.zones z) hii
          simp [setZone, hzz] at this
    · simp [setZone]
  · intro z hz
    obtain ⟨s', h1, _, _, h4⟩ := collect_keeps hi hq hz
    rw [h1]
    refine ⟨rfl, ?_⟩
    rcases h4 with rfl | ⟨p, s1, _, _, rfl⟩ <;> simp [setZone]

/-- The count kept for an address is the number of its references: its zone object if that still is there, the
explicit references, and the zones registered inside of it. -/
theorem C44_refcount {s x} (h : Reach (s, x)) {p : Ptr} {e : Entry} (hg : get s.table p = some e) :
    e.refs = ((if s.zones e.object = some (some p) then 1 else 0) + x p +
      s.table.countP (fun q => decide (q.2.root = some p)) : Nat) ∧
    (∀ z, s.zones z = some (some p) → z = e.object) := by
  obtain ⟨hi, hq⟩ := reach_inv h
  have hc := hi.count p e hg
  constructor
  · rw [hc]
    have : kids s.table p = s.table.countP (fun q => decide (q.2.root = some p)) := by
      apply List.countP_congr
      rintro ⟨q, e'⟩ hm
      have := hq q e' (get_of_mem hi.uniq hm)
      simp [isKid, this]
    rw [this]
    simp only [zref, bit, decide_eq_true_eq]
  · intro z hz
    obtain ⟨e', h1, h2⟩ := hi.zone z p hz
    simp only at h1 hg
    rw [hg] at h1
    cases h1
    exact h2.symm

/-- A block obtained from `malloc` stays allocated as long as, and no longer than, its address is registered as
owned; an address is registered as long as, and no longer than, something refers to it. -/
theorem C44_live_iff {s x} (h : Reach (s, x)) (p : Ptr) :
    (s.live p = true ↔ ∃ e, get s.table p = some e ∧ e.owned = true) ∧
    ((get s.table p).isSome ↔ Referenced s x p) := by
  obtain ⟨hi, hq⟩ := reach_inv h
  refine ⟨⟨?_, ?_⟩, entry_referenced hi hq p⟩
  · intro hl
    obtain ⟨e, h1, h2, _⟩ := hi.noleak p hl
    exact ⟨e, h1, h2⟩
  · rintro ⟨e, h1, h2⟩
    exact hi.alive p e h1 h2 (hq p e h1)

/-- A zone inside of another one keeps the outer one, and all the ones around it, registered. -/
theorem C44_root_kept {s x} (h : Reach (s, x)) {q r : Ptr} {e : Entry} (hg : get s.table q = some e)
    (hr : e.root = some r) : (get s.table r).isSome ∧ (∀ e', get s.table r = some e' → e'.owned = true → s.live r = true) := by
  obtain ⟨hi, hq⟩ := reach_inv h
  obtain ⟨e', h1, _⟩ := hi.root q e r hg (hq q e hg) hr
  refine ⟨by simpa using congrArg Option.isSome h1, ?_⟩
  intro e'' h2 ho
  exact hi.alive r e'' h2 ho (hq r e'' h2)

theorem setZone_live (s : St) (z : Zone) (v) : (setZone s z v).live = s.live := rfl
theorem setZone_table (s : St) (z : Zone) (v) : (setZone s z v).table = s.table := rfl

/-- Memory is freed exactly when its last reference goes: one call that makes a block disappear leaves it without
references, and with its value destroyed; and one call that removes the last reference of a block frees it. -/
theorem C44_freed_exactly_when_unreferenced_partial {a b} (h : Reach a) (hs : Step a b) {p : Ptr} (hl : a.1.live p = true) :
    (b.1.live p = false ↔ ¬ Referenced b.1 b.2 p) ∧ (b.1.live p = false → b.1.inited p = none) := by
  have hb := Reach.step a b h hs
  obtain ⟨hi, hq⟩ := reach_inv h
  obtain ⟨hib, hqb⟩ := reach_inv hb
  obtain ⟨e, hg, ho, _⟩ := hi.noleak p hl
  have hown : ∀ s1, Frame a.1 s1 → ∀ e', get s1.table p = some e' → e'.owned = true := by
    intro s1 fr e' h'
    obtain ⟨e0, h0, _, h2, _⟩ := fr.back p e' h'
    rw [hg] at h0
    cases h0
    exact h2.trans ho
  -- the address does not change hands
  have key : b.1.live p = true ∨ ∀ e', get b.1.table p = some e' → e'.owned = true := by
    cases hs with
    | allocate s x p' hl' hn =>
      obtain ⟨s', h1, _, _, _, h5⟩ := allocate_keeps hi hq hl' hn
      left
      rw [h1]
      simp only [h5]
      split
      · rfl
      · exact hl
    | wrap s x p' root hr hz =>
      obtain ⟨s', z, h1, _, _, _, h5⟩ := wrap_keeps hi hq hr hz
      left; rw [h1]; simpa [h5] using hl
    | init s x z p' t hz hl' =>
      obtain ⟨_, _, _, h4⟩ := init_keeps hi hq t hz hl'
      left; rw [h4]; exact hl
    | ref s x p' =>
      left
      cases hg' : get s.table p' with
      | none => rw [memRef_none hg']; exact hl
      | some e' =>
        obtain ⟨s', h1, _, _, _, h5⟩ := memRef_keeps hi hq hg'
        rw [h1]; simpa [h5] using hl
    | unref s x p' =>
      obtain ⟨s', h1, _, _, fr⟩ := unref_keeps hi hq
      right; rw [h1]; exact hown s' fr
    | invalidate s x z hz =>
      obtain ⟨s', h1, _, _, h4⟩ := invalidate_keeps hi hq hz
      rw [h1]
      rcases h4 with rfl | ⟨p', s1, _, fr, rfl⟩
      · exact .inl hl
      · right; exact hown s1 fr
    | collect s x z hz =>
      obtain ⟨s', h1, _, _, h4⟩ := collect_keeps hi hq hz
      rw [h1]
      rcases h4 with rfl | ⟨p', s1, _, fr, rfl⟩
      · left; exact hl
      · right; exact hown s1 fr
  refine ⟨⟨?_, ?_⟩, ?_⟩
  · intro hd hr
    rw [← entry_referenced hib hqb] at hr
    obtain ⟨e', he'⟩ := Option.isSome_iff_exists.mp hr
    rcases key with hk | hk
    · rw [hk] at hd; simp at hd
    · have := hib.alive p e' he' (hk e' he') (hqb p e' he')
      rw [this] at hd
      simp at hd
  · intro hr
    cases hlb : b.1.live p with
    | false => rfl
    | true =>
      exfalso
      obtain ⟨e', h1, _⟩ := hib.noleak p hlb
      exact hr ((entry_referenced hib hqb p).mp (by simp [h1]))
  · intro hd
    cases ht : b.1.inited p with
    | none => rfl
    | some t =>
      have := hib.noval p t ht
      rw [this] at hd
      simp at hd

/-- chains of roots end -/
theorem no_zone_no_entry {s x} (hi : Inv s.zones x s) (hq : Quiet s) (hz : ∀ z p, s.zones z ≠ some (some p))
    (hx : ∀ p, x p = 0) : ∀ n p e, get s.table p = some e → s.births ≤ e.born + n → False := by
  intro n
  induction n with
  | zero => intro p e hg hb; have := hi.born p e hg; omega
  | succ n ih =>
    intro p e hg hb
    have hr := (entry_referenced hi hq p).mp (by simp [hg])
    rcases hr with ⟨z, h1⟩ | h1 | ⟨q, e', h1, h2⟩
    · exact hz z p h1
    · have := hx p; omega
    · obtain ⟨e'', h3, h4⟩ := hi.root q e' p h1 (hq q e' h1) h2
      rw [hg] at h3
      cases h3
      exact ih q e' h1 (by omega)

theorem get_none_nil {V : Type} {m : List (Nat × V)} (h : ∀ p, get m p = none) : m = [] := by
  cases m with
  | nil => rfl
  | cons a m => have := h a.1; simp [get_cons] at this

/-- Nothing leaks: once all zone objects are collected (or invalidated) and the explicit references given back, every
block is freed, every value destroyed and the tables are empty. -/
theorem C44_no_leak {s x} (h : Reach (s, x)) (hz : ∀ z p, s.zones z ≠ some (some p)) (hx : ∀ p, x p = 0) :
    (∀ p, s.live p = false) ∧ (∀ p, s.inited p = none) ∧ s.table = [] ∧ s.types = [] ∧ s.layouts = [] := by
  obtain ⟨hi, hq⟩ := reach_inv h
  have hno : ∀ p, get s.table p = none := by
    intro p
    cases hg : get s.table p with
    | none => rfl
    | some e => exact (no_zone_no_entry hi hq hz hx s.births p e hg (Nat.le_add_left _ _)).elim
  have hlive : ∀ p, s.live p = false := by
    intro p
    cases hl : s.live p with
    | false => rfl
    | true => obtain ⟨e, h1, _⟩ := hi.noleak p hl; simp only at h1; rw [hno p] at h1; simp at h1
  have hty : s.types = [] := by
    apply get_none_nil
    intro p
    cases ht : get s.types p with
    | none => rfl
    | some t => obtain ⟨e, h1, _⟩ := hi.typed p t ht; simp only at h1; rw [hno p] at h1; simp at h1
  refine ⟨hlive, ?_, get_none_nil hno, hty, ?_⟩
  · intro p
    cases ht : s.inited p with
    | none => rfl
    | some t => have := hi.noval p t ht; simp only at this; rw [hlive p] at this; simp at this
  · apply get_none_nil
    intro t
    cases hk : get s.layouts t with
    | none => rfl
    | some k =>
      have h1 := hi.lay t
      have h2 := hi.laypos t k hk
      simp only [hk, hty, Option.getD_some, List.countP_nil] at h1
      omega

/-! ### A concrete history, and what happens outside of the contract -/

/-- a block with a value, a zone inside of it, and an explicit reference -/
def ex1 : St := (allocate St.start 10).1
def ex2 : St := (init ex1 0 7).1
def ex3 : St := (wrap ex2 14 false (some 10)).1
def ex4 : St := (memRef ex3 10).1
def ex5 : St := (collect ex4 0).1
def ex6 : St := (unref ex5 10).1
def ex7 : St := (collect ex6 1).1

theorem ex5_reach : Reach (ex5, inc (fun _ => 0) 10) := by
  have h1 : Reach (ex1, fun _ => 0) := .step _ _ .start (.allocate St.start _ 10 rfl rfl)
  have h2 : Reach (ex2, fun _ => 0) := .step _ _ h1 (.init ex1 _ 0 10 7 rfl rfl)
  have h3 : Reach (ex3, fun _ => 0) := .step _ _ h2
    (.wrap ex2 _ 14 (some 10) (by intro r h; cases h; exact ⟨by decide, rfl⟩) (by
      intro e h
      have : get ex2.table 14 = none := rfl
      rw [this] at h
      simp at h))
  have h4 : Reach (ex4, inc (fun _ => 0) 10) := .step _ _ h3 (.ref ex3 _ 10)
  exact .step _ _ h4 (.collect ex4 _ 0 (by rw [show ex4.zones 0 = some (some 10) from rfl]; simp))

theorem ex7_reach : Reach (ex7, fun _ => 0) :=
  .step _ _ (.step _ _ ex5_reach (.unref ex5 (fun _ => 0) 10))
    (.collect ex6 _ 1 (by rw [show ex6.zones 1 = some (some 14) from rfl]; simp))

/-- the block outlives its own zone object, and the explicit reference; it goes with the zone inside of it -/
theorem C44_example : ex5.live 10 = true ∧ ex6.live 10 = true ∧ ex6.inited 10 = some 7 ∧ ex7.live 10 = false ∧
    ex7.inited 10 = none ∧ ex7.table.length = 0 := ⟨rfl, rfl, rfl, rfl, rfl, rfl⟩

/-- Outside of the contract: the table keeps naming a zone object that has been collected as long as something else
refers to the address, and wrapping the address returns that dead object. -/
theorem C44_stale_zone_counterexample :
    Reach (ex5, inc (fun _ => 0) 10) ∧ (wrap ex5 10 false none).2 = .ok 0 ∧ ex5.zones 0 = none :=
  ⟨ex5_reach, rfl, rfl⟩

/-- Outside of the contract: registering a zone with a root that is not known raises but leaves the entry, so that
when the root is allocated later the collection of the zone of the failed call frees it while its own zone object
still is there. -/
def ex8 : St := (wrap St.start 14 false (some 10)).1
def ex9 : St := (allocate ex8 10).1
def ex10 : St := (collect ex9 0).1

theorem C44_unknown_root_counterexample :
    (wrap St.start 14 false (some 10)).2 = .exn .runtime ∧
    ex9.zones 1 = some (some 10) ∧ ex9.live 10 = true ∧
    (collect ex9 0).2 = .ok () ∧ ex10.zones 1 = some (some 10) ∧ ex10.live 10 = false :=
  ⟨rfl, rfl, rfl, rfl, rfl, rfl⟩

/-- Outside of the contract: a zone object is created before the arguments are checked; when the check fails it is
not registered, but collecting it gives back a reference it does not hold. -/
def ex11 : St := (wrap ex1 20 true (some 10)).1
def ex12 : St := (wrap ex11 20 false none).1
def ex13 : St := (collect ex12 1).1

theorem C44_rejected_zone_counterexample :
    (wrap ex1 20 true (some 10)).2 = .exn .runtime ∧
    (collect ex11 1).2 = .exn .runtime ∧
    ex12.zones 2 = some (some 20) ∧ (collect ex12 1).2 = .ok () ∧ get ex13.table 20 = none ∧
    ex13.zones 2 = some (some 20) ∧ (collect ex13 2).2 = .exn .runtime :=
  ⟨rfl, rfl, rfl, rfl, rfl, rfl, rfl⟩

/-! ### The theorems on concrete cases -/

example := (C44_calls_succeed ex5_reach).1 20 rfl rfl
example := C44_live_iff ex5_reach 10
example := C44_freed_exactly_when_unreferenced_partial (b := (ex6, fun _ => 0)) ex5_reach (.unref ex5 (fun _ => 0) 10) (p := 10) rfl

end Verif.RubyMemory
