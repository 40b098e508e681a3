import Verif.RubyMemoryInv

/-!
C44: buffers of the Ruby bindings are freed exactly when nothing refers to them.
-/

namespace Verif.RubyMemory
open Verif Verif.Assoc

/-! ### Specification -/

/-- The calls the rest of the bindings may make, and the explicit references (`memory_ref`) they hold (the second
component of the state). `malloc` returns a block that is neither allocated nor known to the table; a child is
registered with a root that is in the table (and is not itself); a zone object that the table still names for an
address has not been collected or invalidated when the address is wrapped again; a block is initialised through its
own zone; explicit references are given back at most once; the collector finalises an object once. -/
inductive Step : St × (Ptr → Nat) → St × (Ptr → Nat) → Prop where
  | allocate (s x) (p : Ptr) (hl : s.live p = false) (hn : get s.table p = none) : Step (s, x) ((allocate s p).1, x)
  | wrap (s x) (p : Ptr) (root : Option Ptr)
      (hr : ∀ r, root = some r → r ≠ p ∧ (get s.table r).isSome)
      (hz : ∀ e, get s.table p = some e → s.zones e.object = some (some p)) :
      Step (s, x) ((wrap s p false root).1, x)
  | init (s x) (z : Zone) (p : Ptr) (t : Ty) (hz : s.zones z = some (some p)) (hl : s.live p = true) :
      Step (s, x) ((init s z t).1, x)
  | ref (s x) (p : Ptr) : Step (s, x) ((memRef s p).1, if (memRef s p).2 then inc x p else x)
  | unref (s x) (p : Ptr) : Step (s, inc x p) ((unref s p).1, x)
  | invalidate (s x) (z : Zone) (hz : s.zones z ≠ none) : Step (s, x) ((invalidate s z).1, x)
  | collect (s x) (z : Zone) (hz : s.zones z ≠ none) : Step (s, x) ((collect s z).1, x)

/-- states reached by any sequence of such calls -/
inductive Reach : St × (Ptr → Nat) → Prop where
  | start : Reach (St.start, fun _ => 0)
  | step (a b) (h : Reach a) (hs : Step a b) : Reach b

/-- Something may still access the memory at `p`: a zone object, an explicit reference, or a zone inside of it. -/
def Referenced (s : St) (x : Ptr → Nat) (p : Ptr) : Prop :=
  (∃ z, s.zones z = some (some p)) ∨ 0 < x p ∨ ∃ q e, get s.table q = some e ∧ e.root = some p

/-- between calls no entry is half removed -/
def Quiet (s : St) : Prop := ∀ p e, get s.table p = some e → e.dying = false

/-! ### The operations keep the invariant -/

theorem wrap_new {zn x s} (h : Inv zn x s) (hq : Quiet s) (p : Ptr) (owned : Bool) (root : Option Ptr)
    (lv : Ptr → Bool) (hlv : ∀ q, lv q = if owned = true ∧ q = p then true else s.live q)
    (hn : get s.table p = none) (hl : owned = true → s.live p = false)
    (hr : ∀ r, root = some r → r ≠ p ∧ (get s.table r).isSome) (hor : ¬ (root.isSome = true ∧ owned = true)) :
    ∃ s', wrap { s with live := lv } p owned root = (s', .ok s.nextZone) ∧
      Inv (fun y => if y = s.nextZone then some (some p) else zn y) x s' ∧ Quiet s' ∧
      s'.zones = (fun y => if y = s.nextZone then some (some p) else s.zones y) ∧
      (∃ e, get s'.table p = some e ∧ e.object = s.nextZone) ∧ s'.live = lv := by
  have habs := h.absent p hn
  have hrp : root ≠ some p := fun e => (hr p e).1 rfl
  let e0 : Entry := ⟨1, s.nextZone, owned, root, s.births⟩
  have hd0 : e0.dying = false := by simp [Entry.dying, e0]
  have hz0 : zn s.nextZone = none := by
    cases hz : zn s.nextZone with
    | none => rfl
    | some v => exact absurd (h.zfresh s.nextZone (by rw [hz]; simp)) (Nat.lt_irrefl _)
  -- the final table
  have hfin : ∃ tb : List (Ptr × Entry),
      wrap { s with live := lv } p owned root = ({ s with
        live := lv
        table := tb
        births := s.births + 1
        nextZone := s.nextZone + 1
        zones := fun y => if y = s.nextZone then some (some p) else s.zones y }, .ok s.nextZone) ∧ Uniq tb ∧
      (∀ q, get tb q = if q = p then some e0 else
        if root = some q then (get s.table q).map (fun e => { e with refs := e.refs + 1 }) else get s.table q) ∧
      (∀ q, kids tb q = kids s.table q + (if root = some q then 1 else 0)) := by
    unfold wrap
    simp only [hn]
    have hos : (root.isSome && owned) = false := by
      cases hro : root.isSome <;> cases hoo : owned <;> simp_all
    have hu1 : Uniq (s.table ++ [(p, e0)]) := uniq_append h.uniq hn
    have hg1 : ∀ q, get (s.table ++ [(p, e0)]) q = if q = p then some e0 else get s.table q := by
      intro q
      rw [get_append]
      by_cases eq : q = p
      · subst eq; simp [hn, get_cons]
      · simp [get_cons, eq, Ne.symm eq]
    have hk1 : ∀ q, kids (s.table ++ [(p, e0)]) q = kids s.table q + (if root = some q then 1 else 0) := by
      intro q
      simp [kids, List.countP_append, isKid, hd0, e0]
    rw [if_neg hrp, if_neg (by simp [hos])]
    cases hroot : root with
    | none =>
      refine ⟨s.table ++ [(p, e0)], by simp [setZone, e0, hroot], hu1, ?_, ?_⟩
      · intro q; rw [hg1]; simp
      · intro q; rw [hk1, hroot]
    | some r =>
      obtain ⟨hrp', hrs⟩ := hr r hroot
      obtain ⟨e, he⟩ := Option.isSome_iff_exists.mp hrs
      have hgr : get (s.table ++ [(p, e0)]) r = some e := by rw [hg1]; simpa [hrp'] using he
      have hgr' : get (s.table ++ [(p, ⟨1, s.nextZone, owned, some r, s.births⟩)]) r = some e := by
        rw [← hroot]; exact hgr
      refine ⟨put (s.table ++ [(p, e0)]) r { e with refs := e.refs + 1 }, ?_, uniq_put hu1 _ _, ?_, ?_⟩
      · simp only [setZone, hgr', e0, hroot]
      · intro q
        rw [get_put, hg1, hg1]
        by_cases eq : q = r
        · subst eq
          simp [hrp', he]
        · by_cases ep : q = p
          · simp [eq, ep, Ne.symm hrp']
          · simp [eq, ep, Ne.symm eq]
      · intro q
        have hdr := hq r e he
        have hne : e.refs + 1 ≠ 0 := by have := h.count r e he; omega
        have := kids_put hu1 hgr { e with refs := e.refs + 1 } q
        have a : isKid q (r, ({ e with refs := e.refs + 1 } : Entry)) = isKid q (r, e) := by
          have hdr' : e.refs ≠ 0 := by simpa [Entry.dying] using hdr
          simp [isKid, Entry.dying, hne, hdr']
        rw [a] at this
        rw [hk1, hroot] at this
        omega
  obtain ⟨tb, hw, hu, hg, hk⟩ := hfin
  refine ⟨_, hw, ?_, ?_, rfl, ⟨e0, by simp [hg], rfl⟩, rfl⟩
  · -- entries of the old table, with the same fields
    have old : ∀ q e', get tb q = some e' → q ≠ p → ∃ e, get s.table q = some e ∧ e'.object = e.object ∧
        e'.owned = e.owned ∧ e'.root = e.root ∧ e'.born = e.born ∧
        e'.refs = e.refs + (if root = some q then 1 else 0) := by
      intro q e' hge hqp
      rw [hg, if_neg hqp] at hge
      by_cases er : root = some q
      · rw [if_pos er] at hge
        obtain ⟨e, h1, h2⟩ := Option.map_eq_some_iff.mp hge
        subst h2
        exact ⟨e, h1, rfl, rfl, rfl, rfl, by simp [er]⟩
      · rw [if_neg er] at hge
        exact ⟨e', hge, rfl, rfl, rfl, rfl, by simp [er]⟩
    have new : ∀ q e, get s.table q = some e → ∃ e', get tb q = some e' ∧ e'.object = e.object ∧
        e'.owned = e.owned ∧ e'.born = e.born ∧ e'.dying = false := by
      intro q e hge
      have hqp : q ≠ p := by intro eq; rw [eq, hn] at hge; simp at hge
      rw [hg, if_neg hqp]
      have hne := hq q e hge
      have hne' : e.refs + 1 ≠ 0 := by have := h.count q e hge; omega
      by_cases er : root = some q
      · rw [if_pos er, hge]
        exact ⟨_, rfl, rfl, rfl, rfl, by simp [Entry.dying, hne']⟩
      · rw [if_neg er, hge]
        exact ⟨_, rfl, rfl, rfl, rfl, hne⟩
    refine ⟨hu, h.tuniq, h.luniq, ?_, ?_, ?_, ?_, ?_, ?_, ?_, ?_, ?_, ?_, ?_, ?_, ?_, h.lay, h.laypos⟩
    · intro q e' hge
      simp only [hk]
      by_cases eq : q = p
      · subst eq
        have : get tb q = some e0 := by simp [hg]
        have he : e' = e0 := Option.some.inj (hge.symm.trans this)
        subst he
        have hz : zref (fun y => if y = s.nextZone then some (some q) else zn y) e0 q = 1 := by
          simp [zref, e0, bit]
        rw [hz, habs.1, habs.2, if_neg hrp]
        rfl
      · obtain ⟨e, h1, h2, _, _, _, h6⟩ := old q e' hge eq
        have hof := h.ofresh q e h1
        have hz : zref (fun y => if y = s.nextZone then some (some p) else zn y) e' q = zref zn e q := by
          have : e.object ≠ s.nextZone := Nat.ne_of_lt hof
          simp [zref, h2, this]
        have := h.count q e h1
        rw [hz, h6]
        split <;> omega
    · intro q hge
      simp only [hk]
      rw [show get tb q = _ from hg q] at hge
      by_cases eq : q = p
      · simp [eq] at hge
      · rw [if_neg eq] at hge
        by_cases er : root = some q
        · rw [if_pos er] at hge
          have := (hr q er).2
          rw [Option.map_eq_none_iff] at hge
          rw [hge] at this
          simp at this
        · rw [if_neg er] at hge
          simpa [er] using h.absent q hge
    · intro z q hzq
      by_cases ez : z = s.nextZone
      · simp only [ez, if_true, Option.some.injEq] at hzq
        subst hzq
        exact ⟨e0, by simp [hg], by simp [e0, ez]⟩
      · simp only [ez, if_false] at hzq
        obtain ⟨e, h1, h2⟩ := h.zone z q hzq
        obtain ⟨e', h3, h4, _⟩ := new q e h1
        exact ⟨e', h3, h4.trans h2⟩
    · intro z hz
      by_cases ez : z = s.nextZone
      · subst ez; exact Nat.lt_succ_self _
      · simp only [ez, if_false] at hz
        exact Nat.lt_succ_of_lt (h.zfresh z hz)
    · intro q e' hge
      by_cases eq : q = p
      · subst eq
        have : get tb q = some e0 := by simp [hg]
        have he : e' = e0 := Option.some.inj (hge.symm.trans this)
        subst he
        exact Nat.lt_succ_self _
      · obtain ⟨e, h1, h2, _⟩ := old q e' hge eq
        rw [h2]
        exact Nat.lt_succ_of_lt (h.ofresh q e h1)
    · intro q e' hge
      by_cases eq : q = p
      · subst eq
        have : get tb q = some e0 := by simp [hg]
        have he : e' = e0 := Option.some.inj (hge.symm.trans this)
        subst he
        exact Nat.lt_succ_self _
      · obtain ⟨e, h1, _, _, _, h2, _⟩ := old q e' hge eq
        rw [h2]
        exact Nat.lt_succ_of_lt (h.born q e h1)
    · intro q e' r hge hd hr'
      by_cases eq : q = p
      · subst eq
        have : get tb q = some e0 := by simp [hg]
        have he : e' = e0 := Option.some.inj (hge.symm.trans this)
        subst he
        obtain ⟨_, hrs⟩ := hr r hr'
        obtain ⟨e, he⟩ := Option.isSome_iff_exists.mp hrs
        obtain ⟨e'', h3, _, _, h5, _⟩ := new r e he
        refine ⟨e'', h3, ?_⟩
        rw [h5]
        exact h.born r e he
      · obtain ⟨e, h1, _, _, h4, h5, _⟩ := old q e' hge eq
        obtain ⟨e1, h6, h7⟩ := h.root q e r h1 (hq q e h1) (h4 ▸ hr')
        obtain ⟨e'', h8, _, _, h9, _⟩ := new r e1 h6
        exact ⟨e'', h8, by rw [h9, h5]; exact h7⟩
    · intro q e' hge ho
      by_cases eq : q = p
      · subst eq
        have : get tb q = some e0 := by simp [hg]
        have he : e' = e0 := Option.some.inj (hge.symm.trans this)
        subst he
        cases hroot : root with
        | none => exact hroot
        | some r => exact absurd ⟨by simp [hroot], ho⟩ hor
      · obtain ⟨e, h1, _, h3, h4, _⟩ := old q e' hge eq
        rw [h4]
        exact h.plain q e h1 (h3 ▸ ho)
    · intro q e' hge ho _
      simp only [hlv]
      by_cases eq : q = p
      · subst eq
        have : get tb q = some e0 := by simp [hg]
        have he : e' = e0 := Option.some.inj (hge.symm.trans this)
        subst he
        rw [if_pos ⟨ho, rfl⟩]
      · obtain ⟨e, h1, _, h3, _⟩ := old q e' hge eq
        rw [if_neg (fun hh => eq hh.2)]
        exact h.alive q e h1 (h3 ▸ ho) (hq q e h1)
    · intro q hlq
      simp only [hlv] at hlq
      by_cases eq : q = p
      · subst eq
        by_cases ho : owned = true
        · exact ⟨e0, by simp [hg], ho, hd0⟩
        · rw [if_neg (fun hh => ho hh.1)] at hlq
          obtain ⟨e, h1, _⟩ := h.noleak q hlq
          rw [hn] at h1
          simp at h1
      · rw [if_neg (fun hh => eq hh.2)] at hlq
        obtain ⟨e, h1, h2, _⟩ := h.noleak q hlq
        obtain ⟨e', h3, _, h5, _, h6⟩ := new q e h1
        exact ⟨e', h3, h5.trans h2, h6⟩
    · intro q t ht
      obtain ⟨e, h1, h2⟩ := h.typed q t ht
      obtain ⟨e', h3, _, h5, _⟩ := new q e h1
      exact ⟨e', h3, h5.trans h2⟩
    · intro q hlq
      simp only [hlv] at hlq
      by_cases hop : owned = true ∧ q = p
      · obtain ⟨ho, rfl⟩ := hop
        have h1 : get s.types q = none := by
          cases ht : get s.types q with
          | none => rfl
          | some t =>
            obtain ⟨e, h2, _⟩ := h.typed q t ht
            rw [hn] at h2
            simp at h2
        have h2 : s.inited q = none := by
          cases ht : s.inited q with
          | none => rfl
          | some t =>
            have := h.noval q t ht
            rw [hl ho] at this
            simp at this
        show s.inited q = get s.types q
        rw [h1, h2]
      · rw [if_neg hop] at hlq
        exact h.vals q hlq
    · intro q t hq'
      simp only [hlv]
      by_cases hop : owned = true ∧ q = p
      · rw [if_pos hop]
      · rw [if_neg hop]
        exact h.noval q t hq'
  · intro q e' hge
    by_cases eq : q = p
    · subst eq
      have : get tb q = some e0 := by simp [hg]
      have he : e' = e0 := Option.some.inj (hge.symm.trans this)
      subst he
      exact hd0
    · rw [show get _ q = _ from hg q, if_neg eq] at hge
      by_cases er : root = some q
      · rw [if_pos er] at hge
        obtain ⟨e, h1, h2⟩ := Option.map_eq_some_iff.mp hge
        subst h2
        have hne' : e.refs + 1 ≠ 0 := by have := h.count q e h1; omega
        simp [Entry.dying, hne']
      · rw [if_neg er] at hge
        exact hq q e' hge

theorem unref_keeps {zn x s} {p : Ptr} (h : Inv zn (inc x p) s) (hq : Quiet s) :
    ∃ s', unref s p = (s', .ok ()) ∧ Inv zn x s' ∧ Quiet s' ∧ Frame s s' := by
  cases hg : get s.table p with
  | none => have := (h.absent p hg).1; simp [inc] at this
  | some e =>
    obtain ⟨s', e1, hi, fr⟩ := memUnref_spec (s.births + 1) s p x e h hg (Nat.lt_succ_of_lt (h.born p e hg))
    refine ⟨s', e1, hi, ?_, fr⟩
    intro q e' h'
    obtain ⟨e0, h0, _, _, _, hd⟩ := fr.back q e' h'
    cases hdd : e'.dying with
    | false => rfl
    | true => exact absurd (hd hdd) (by rw [hq q e0 h0]; simp)

theorem Inv.setZone {zn x s} (h : Inv zn x s) (z : Zone) (v) : Inv zn x (setZone s z v) :=
  ⟨h.uniq, h.tuniq, h.luniq, h.count, h.absent, h.zone, h.zfresh, h.ofresh, h.born, h.root, h.plain, h.alive,
    h.noleak, h.typed, h.vals, h.noval, h.lay, h.laypos⟩

/-- a zone object that forgets its address becomes an explicit reference -/
theorem Inv.forget {zn x s} (h : Inv zn x s) {z : Zone} {p : Ptr} (hz : zn z = some (some p))
    {v : Option (Option Ptr)} (hv : ∀ q, v ≠ some (some q)) :
    Inv (fun y => if y = z then v else zn y) (inc x p) s := by
  obtain ⟨e0, hg0, ho0⟩ := h.zone z p hz
  refine ⟨h.uniq, h.tuniq, h.luniq, ?_, ?_, ?_, ?_, h.ofresh, h.born, h.root, h.plain, h.alive,
    h.noleak, h.typed, h.vals, h.noval, h.lay, h.laypos⟩
  · intro q e hg
    have hc := h.count q e hg
    by_cases eq : q = p
    · subst eq
      rw [hg0] at hg
      cases hg
      have a : zref zn e0 q = 1 := by simp [zref, ho0, hz, bit]
      have b : zref (fun y => if y = z then v else zn y) e0 q = 0 := by simp [zref, ho0, hv q, bit]
      rw [a] at hc
      rw [b]
      simp only [inc, if_true]
      omega
    · have : zref (fun y => if y = z then v else zn y) e q = zref zn e q := by
        by_cases ez : e.object = z
        · have : some (some p) ≠ some (some q) := by simp [Ne.symm eq]
          simp [zref, ez, hv q, hz, Ne.symm eq]
        · simp [zref, ez]
      rw [this]
      simpa [inc, eq] using hc
  · intro q hg
    by_cases eq : q = p
    · subst eq; rw [hg0] at hg; simp at hg
    · simpa [inc, eq] using h.absent q hg
  · intro y q hy
    by_cases ey : y = z
    · simp only [ey, if_true] at hy
      exact absurd hy (hv q)
    · simp only [ey, if_false] at hy
      exact h.zone y q hy
  · intro y hy
    by_cases ey : y = z
    · rw [ey]; exact h.zfresh z (by rw [hz]; simp)
    · simp only [ey, if_false] at hy
      exact h.zfresh y hy

theorem Inv.drop {zn x s} (h : Inv zn x s) {z : Zone} (hz : zn z = some none) :
    Inv (fun y => if y = z then none else zn y) x s := by
  refine ⟨h.uniq, h.tuniq, h.luniq, ?_, h.absent, ?_, ?_, h.ofresh, h.born, h.root, h.plain, h.alive,
    h.noleak, h.typed, h.vals, h.noval, h.lay, h.laypos⟩
  · intro q e hg
    have : zref (fun y => if y = z then none else zn y) e q = zref zn e q := by
      by_cases ez : e.object = z
      · simp [zref, ez, hz]
      · simp [zref, ez]
    rw [this]
    exact h.count q e hg
  · intro y q hy
    by_cases ey : y = z
    · simp [ey] at hy
    · simp only [ey, if_false] at hy
      exact h.zone y q hy
  · intro y hy
    by_cases ey : y = z
    · simp [ey] at hy
    · simp only [ey, if_false] at hy
      exact h.zfresh y hy

theorem invalidate_keeps {s x} (h : Inv s.zones x s) (hq : Quiet s) {z : Zone} (hz : s.zones z ≠ none) :
    ∃ s', invalidate s z = (s', .ok ()) ∧ Inv s'.zones x s' ∧ Quiet s' ∧
      (s' = s ∨ ∃ p s1, s.zones z = some (some p) ∧ Frame s s1 ∧ s' = setZone s1 z (some none)) := by
  unfold invalidate
  cases hzz : s.zones z with
  | none => exact absurd hzz hz
  | some o =>
    cases o with
    | none => exact ⟨s, rfl, h, hq, .inl rfl⟩
    | some p =>
      obtain ⟨s1, e1, hi, hq1, fr⟩ := unref_keeps (h.forget hzz (v := some none) (by simp)) hq
      simp only [e1]
      refine ⟨_, rfl, ?_, hq1, .inr ⟨p, s1, rfl, fr, rfl⟩⟩
      have : (setZone s1 z (some none)).zones = fun y => if y = z then some none else s.zones y := by
        simp only [Verif.RubyMemory.setZone, fr.zones]
      rw [this]
      exact hi.setZone z _

theorem collect_keeps {s x} (h : Inv s.zones x s) (hq : Quiet s) {z : Zone} (hz : s.zones z ≠ none) :
    ∃ s', collect s z = (s', .ok ()) ∧ Inv s'.zones x s' ∧ Quiet s' ∧
      (s' = setZone s z none ∨ ∃ p s1, s.zones z = some (some p) ∧ Frame s s1 ∧ s' = setZone s1 z none) := by
  unfold collect
  cases hzz : s.zones z with
  | none => exact absurd hzz hz
  | some o =>
    cases o with
    | none => exact ⟨_, rfl, (h.drop hzz).setZone z none, hq, .inl rfl⟩
    | some p =>
      obtain ⟨s1, e1, hi, hq1, fr⟩ := unref_keeps (h.forget hzz (v := none) (by simp)) hq
      simp only [e1]
      refine ⟨_, rfl, ?_, hq1, .inr ⟨p, s1, rfl, fr, rfl⟩⟩
      have : (setZone s1 z none).zones = fun y => if y = z then none else s.zones y := by
        simp only [Verif.RubyMemory.setZone, fr.zones]
      rw [this]
      exact hi.setZone z _

theorem memRef_none {s : St} {p : Ptr} (hn : get s.table p = none) : memRef s p = (s, false) := by
  simp [memRef, hn]

theorem memRef_keeps {zn x s} (h : Inv zn x s) (hq : Quiet s) {p : Ptr} {e : Entry} (hg : get s.table p = some e) :
    ∃ s', memRef s p = (s', true) ∧ Inv zn (inc x p) s' ∧ Quiet s' ∧ s'.zones = s.zones ∧ s'.live = s.live := by
  let e1 : Entry := { e with refs := e.refs + 1 }
  have hc := h.count p e hg
  have hnd := hq p e hg
  have hne : e.refs + 1 ≠ 0 := by omega
  have he1 : e1.dying = false := by simp [Entry.dying, e1, hne]
  have hg2 : ∀ q, get (put s.table p e1) q = if q = p then some e1 else get s.table q := by
    intro q
    simp only [get_put, hg, Option.map_some]
  have hkids : ∀ q, kids (put s.table p e1) q = kids s.table q := by
    intro q
    have := kids_put h.uniq hg e1 q
    have a : isKid q (p, e1) = isKid q (p, e) := by simp only [isKid, he1, hnd, e1]
    rw [a] at this
    omega
  -- entries keep their fields
  have old : ∀ q e', get (put s.table p e1) q = some e' → ∃ e, get s.table q = some e ∧ e'.object = e.object ∧
      e'.owned = e.owned ∧ e'.root = e.root ∧ e'.born = e.born ∧ e'.dying = false ∧
      e'.refs = e.refs + (if q = p then 1 else 0) := by
    intro q e' h'
    rw [hg2] at h'
    by_cases eq : q = p
    · subst eq
      simp only [if_true, Option.some.injEq] at h'
      subst h'
      exact ⟨e, hg, rfl, rfl, rfl, rfl, he1, by simp [e1]⟩
    · simp only [eq, if_false] at h'
      exact ⟨e', h', rfl, rfl, rfl, rfl, hq q e' h', by simp [eq]⟩
  have new : ∀ q e, get s.table q = some e → ∃ e', get (put s.table p e1) q = some e' ∧ e'.object = e.object ∧
      e'.owned = e.owned ∧ e'.born = e.born ∧ e'.dying = false := by
    intro q e' h'
    rw [hg2]
    by_cases eq : q = p
    · subst eq
      rw [hg] at h'
      cases h'
      exact ⟨e1, by simp, rfl, rfl, rfl, he1⟩
    · exact ⟨e', by simpa [eq] using h', rfl, rfl, rfl, hq q e' h'⟩
  refine ⟨{ s with table := put s.table p e1 }, by simp only [memRef, hg, e1], ?_, ?_, rfl, rfl⟩
  · refine ⟨uniq_put h.uniq p e1, h.tuniq, h.luniq, ?_, ?_, ?_, h.zfresh, ?_, ?_, ?_, ?_, ?_, ?_, ?_, h.vals,
      h.noval, h.lay, h.laypos⟩
    · intro q e' h'
      obtain ⟨e, h1, h2, _, _, _, _, h6⟩ := old q e' h'
      have a := h.count q e h1
      have b : zref zn e' q = zref zn e q := by simp [zref, h2]
      simp only [hkids, b, h6, inc]
      split <;> omega
    · intro q h'
      simp only [hg2] at h'
      by_cases eq : q = p
      · simp [eq] at h'
      · simp only [eq, if_false] at h'
        simp only [hkids]
        simpa [inc, eq] using h.absent q h'
    · intro z q hz
      obtain ⟨e', h1, h2⟩ := h.zone z q hz
      obtain ⟨e'', h3, h4, _⟩ := new q e' h1
      exact ⟨e'', h3, h4.trans h2⟩
    · intro q e' h'
      obtain ⟨e, h1, h2, _⟩ := old q e' h'
      rw [h2]; exact h.ofresh q e h1
    · intro q e' h'
      obtain ⟨e, h1, _, _, _, h2, _⟩ := old q e' h'
      rw [h2]; exact h.born q e h1
    · intro q e' r h' _ hr
      obtain ⟨e, h1, _, _, h4, h5, _⟩ := old q e' h'
      obtain ⟨e2, h6, h7⟩ := h.root q e r h1 (hq q e h1) (h4 ▸ hr)
      obtain ⟨e3, h8, _, _, h9, _⟩ := new r e2 h6
      exact ⟨e3, h8, by rw [h9, h5]; exact h7⟩
    · intro q e' h' ho
      obtain ⟨e, h1, _, h3, h4, _⟩ := old q e' h'
      rw [h4]; exact h.plain q e h1 (h3 ▸ ho)
    · intro q e' h' ho _
      obtain ⟨e, h1, _, h3, _⟩ := old q e' h'
      exact h.alive q e h1 (h3 ▸ ho) (hq q e h1)
    · intro q hl
      obtain ⟨e, h1, h2, _⟩ := h.noleak q hl
      obtain ⟨e3, h8, _, h5, _, h9⟩ := new q e h1
      exact ⟨e3, h8, h5.trans h2, h9⟩
    · intro q t ht
      obtain ⟨e, h1, h2⟩ := h.typed q t ht
      obtain ⟨e3, h8, _, h5, _, _⟩ := new q e h1
      exact ⟨e3, h8, h5.trans h2⟩
  · intro q e' h'
    obtain ⟨_, _, _, _, _, _, h6, _⟩ := old q e' h'
    exact h6

theorem addLayout_spec {l : List (Ty × Nat)} (hu : Uniq l) (t : Ty) : Uniq (addLayout l t) ∧
    ∀ t', get (addLayout l t) t' = if t' = t then some ((get l t).getD 0 + 1) else get l t' := by
  unfold addLayout
  cases hk : get l t with
  | some k =>
    refine ⟨uniq_put hu t _, fun t' => ?_⟩
    rw [get_put, hk]
    rfl
  | none =>
    refine ⟨uniq_append hu hk, fun t' => ?_⟩
    rw [get_append]
    by_cases e : t' = t
    · subst e; simp [hk, get_cons]
    · simp [get_cons, e, Ne.symm e]

theorem init_keeps {x s} (h : Inv s.zones x s) (hq : Quiet s) {z : Zone} {p : Ptr} (t : Ty)
    (hz : s.zones z = some (some p)) (hl : s.live p = true) :
    ((get s.types p = none ∧ (init s z t).2 = .ok () ∧ (init s z t).1.inited p = some t) ∨
      ((get s.types p).isSome ∧ init s z t = (s, .exn .runtime))) ∧
    Inv (init s z t).1.zones x (init s z t).1 ∧ Quiet (init s z t).1 ∧
      (init s z t).1.live = s.live := by
  unfold init
  simp only [hz]
  cases ht : get s.types p with
  | some t' => exact ⟨.inr ⟨rfl, rfl⟩, h, hq, rfl⟩
  | none =>
    simp only
    refine ⟨.inl ⟨trivial, trivial, by simp⟩, ?_, hq, trivial⟩
    obtain ⟨hlu, hlg⟩ := addLayout_spec h.luniq t
    obtain ⟨e, hg, ho, _⟩ := h.noleak p hl
    have hgt : ∀ q, get (s.types ++ [(p, t)]) q = if q = p then some t else get s.types q := by
      intro q
      rw [get_append]
      by_cases eq : q = p
      · subst eq; simp [ht, get_cons]
      · simp [get_cons, eq, Ne.symm eq]
    refine ⟨h.uniq, uniq_append h.tuniq ht, hlu, h.count, h.absent, h.zone, h.zfresh, h.ofresh, h.born, h.root, h.plain,
      h.alive, h.noleak, ?_, ?_, ?_, ?_, ?_⟩
    · intro q t' h'
      rw [hgt] at h'
      by_cases eq : q = p
      · subst eq; exact ⟨e, hg, ho⟩
      · simp only [eq, if_false] at h'
        exact h.typed q t' h'
    · intro q hlq
      rw [hgt]
      by_cases eq : q = p
      · simp [eq]
      · simp only [eq, if_false]
        exact h.vals q hlq
    · intro q t' h'
      by_cases eq : q = p
      · subst eq; exact hl
      · simp only [eq, if_false] at h'
        exact h.noval q t' h'
    · intro t'
      have a := h.lay t'
      rw [hlg, List.countP_append]
      by_cases e : t' = t
      · subst e
        simp only [if_true, Option.getD_some]
        have : List.countP (fun q => decide (q.2 = t')) [(p, t')] = 1 := by simp
        omega
      · have : List.countP (fun q : Ptr × Ty => decide (q.2 = t')) [(p, t)] = 0 := by simp [Ne.symm e]
        simp only [e, if_false]
        omega
    · intro t' k hk
      rw [hlg] at hk
      by_cases e : t' = t
      · simp only [e, if_true, Option.some.injEq] at hk
        omega
      · simp only [e, if_false] at hk
        exact h.laypos t' k hk

end Verif.RubyMemory
