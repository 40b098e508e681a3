import Verif.RubyMemory

/-!
Invariant of the memory table of the Ruby bindings (C44).
-/

namespace Verif.RubyMemory
open Verif Verif.Assoc

/-- the entry is being removed -/
def Entry.dying (e : Entry) : Bool := decide (e.refs = 0)

def isKid (p : Ptr) (q : Ptr × Entry) : Bool := !q.2.dying && decide (q.2.root = some p)

/-- number of entries rooted at `p` -/
def kids (m : List (Ptr × Entry)) (p : Ptr) : Nat := m.countP (isKid p)

def zref (zn : Zone → Option (Option Ptr)) (e : Entry) (p : Ptr) : Nat := bit (decide (zn e.object = some (some p)))

structure Inv (zn : Zone → Option (Option Ptr)) (x : Ptr → Nat) (s : St) : Prop where
  uniq : Uniq s.table
  tuniq : Uniq s.types
  luniq : Uniq s.layouts
  count : ∀ p e, get s.table p = some e → e.refs = (zref zn e p + x p + kids s.table p : Nat)
  absent : ∀ p, get s.table p = none → x p = 0 ∧ kids s.table p = 0
  zone : ∀ z p, zn z = some (some p) → ∃ e, get s.table p = some e ∧ e.object = z
  zfresh : ∀ z, zn z ≠ none → z < s.nextZone
  ofresh : ∀ p e, get s.table p = some e → e.object < s.nextZone
  born : ∀ p e, get s.table p = some e → e.born < s.births
  root : ∀ p e r, get s.table p = some e → e.dying = false → e.root = some r →
    ∃ e', get s.table r = some e' ∧ e'.born < e.born
  plain : ∀ p e, get s.table p = some e → e.owned = true → e.root = none
  alive : ∀ p e, get s.table p = some e → e.owned = true → e.dying = false → s.live p = true
  noleak : ∀ p, s.live p = true → ∃ e, get s.table p = some e ∧ e.owned = true ∧ e.dying = false
  typed : ∀ p t, get s.types p = some t → ∃ e, get s.table p = some e ∧ e.owned = true
  vals : ∀ p, s.live p = true → s.inited p = get s.types p
  noval : ∀ p t, s.inited p = some t → s.live p = true
  lay : ∀ t, (get s.layouts t).getD 0 = s.types.countP (fun q => decide (q.2 = t))
  laypos : ∀ t k, get s.layouts t = some k → 0 < k

/-- `x` plus one reference to `p` -/
def inc (x : Ptr → Nat) (p : Ptr) : Ptr → Nat := fun q => if q = p then x q + 1 else x q

theorem kids_put {m : List (Ptr × Entry)} (hu : Uniq m) {p : Ptr} {e : Entry} (hg : get m p = some e) (e' : Entry)
    (r : Ptr) : kids (put m p e') r + bit (isKid r (p, e)) = kids m r + bit (isKid r (p, e')) :=
  countP_put (isKid r) hu e' hg

/-- frame of `memory_unref` -/
structure Frame (s s' : St) : Prop where
  zones : s'.zones = s.zones
  births : s'.births = s.births
  nextZone : s'.nextZone = s.nextZone
  keep : ∀ q e, get s.table q = some e → e.dying = true → get s'.table q = some e
  back : ∀ q e', get s'.table q = some e' → ∃ e, get s.table q = some e ∧ e'.object = e.object ∧
    e'.owned = e.owned ∧ e'.root = e.root ∧ (e'.dying = true → e.dying = true)

theorem lay_some {zn x s} (h : Inv zn x s) {p : Ptr} {t : Ty} (ht : get s.types p = some t) :
    ∃ k, get s.layouts t = some k ∧ 0 < k := by
  have h1 := h.lay t
  cases hk : get s.layouts t with
  | some k => exact ⟨k, rfl, h.laypos t k hk⟩
  | none =>
    rw [hk] at h1
    have : 0 < s.types.countP (fun q => decide (q.2 = t)) :=
      List.countP_pos_iff.mpr ⟨(p, t), mem_of_get ht, by simp⟩
    simp only [Option.getD_none] at h1
    omega

theorem dropType_spec {s : St} {p : Ptr}
    (hlay : ∀ t, (get s.layouts t).getD 0 = s.types.countP (fun q => decide (q.2 = t)))
    (hpos : ∀ t k, get s.layouts t = some k → 0 < k) (hu : Uniq s.types) (hlu : Uniq s.layouts) :
    ∃ l, dropType s p = .ok { s with layouts := l, types := del s.types p } ∧ Uniq l ∧
      (∀ t, (get l t).getD 0 = (del s.types p).countP (fun q => decide (q.2 = t))) ∧
      (∀ t k, get l t = some k → 0 < k) := by
  unfold dropType
  cases ht : get s.types p with
  | none =>
    have : del s.types p = s.types := by
      apply del_absent
      intro hm
      have := (get_isSome s.types p).mpr hm
      rw [ht] at this
      simp at this
    refine ⟨s.layouts, by rw [this], hlu, by rw [this]; exact hlay, hpos⟩
  | some t =>
    simp only
    have hc := hlay t
    have hcp : ∀ t', (del s.types p).countP (fun q => decide (q.2 = t')) + bit (decide (t = t'))
        = s.types.countP (fun q => decide (q.2 = t')) := fun t' =>
      countP_del (fun q : Ptr × Ty => decide (q.2 = t')) hu ht
    have hpos' : 0 < s.types.countP (fun q => decide (q.2 = t)) :=
      List.countP_pos_iff.mpr ⟨(p, t), mem_of_get ht, by simp⟩
    cases hk : get s.layouts t with
    | none => rw [hk] at hc; simp only [Option.getD_none] at hc; omega
    | some k =>
      simp only
      rw [hk, Option.getD_some] at hc
      by_cases h1 : k - 1 = 0
      · rw [if_pos h1]
        refine ⟨_, rfl, uniq_del hlu t, ?_, ?_⟩
        · intro t'
          have a := hcp t'
          have b := hlay t'
          rw [get_del]
          by_cases e : t' = t
          · subst e
            simp only [if_true, Option.getD_none, bit, decide_true] at a ⊢
            omega
          · have : decide (t = t') = false := by simp [Ne.symm e]
            simp only [e, if_false, this, bit, Bool.false_eq_true] at a ⊢
            omega
        · intro t' k' hk'
          rw [get_del] at hk'
          by_cases e : t' = t
          · simp [e] at hk'
          · simp only [e, if_false] at hk'
            exact hpos t' k' hk'
      · rw [if_neg h1]
        refine ⟨_, rfl, uniq_put hlu t _, ?_, ?_⟩
        · intro t'
          have a := hcp t'
          have b := hlay t'
          rw [get_put]
          by_cases e : t' = t
          · subst e
            simp only [if_true, hk, Option.map_some, Option.getD_some, bit, decide_true] at a ⊢
            omega
          · have : decide (t = t') = false := by simp [Ne.symm e]
            simp only [e, if_false, this, bit, Bool.false_eq_true] at a ⊢
            omega
        · intro t' k' hk'
          rw [get_put] at hk'
          by_cases e : t' = t
          · simp [e, hk] at hk'
            omega
          · simp only [e, if_false] at hk'
            exact hpos t' k' hk'

theorem memDelete_spec {zn x s} (h : Inv zn x s) {p : Ptr} (hl : s.live p = true) (tb : List (Ptr × Entry)) :
    memDelete { s with table := tb } p = .ok { s with
      table := tb,
      live := fun q => if q = p then false else s.live q,
      inited := fun q => if q = p then none else s.inited q } := by
  unfold memDelete destroyBlock
  have hv := h.vals p hl
  cases ht : get s.types p with
  | none =>
    rw [ht] at hv
    simp only [Res.bind_ok, freeBlock, hl, if_true, Res.ok.injEq]
    congr 1
    funext q
    by_cases e : q = p
    · simp [e, hv]
    · simp [e]
  | some t =>
    obtain ⟨k, hk, _⟩ := lay_some h ht
    rw [ht] at hv
    simp only [hk, hv, if_true, Res.bind_ok, freeBlock, hl]

theorem memUnref_spec {zn : Zone → Option (Option Ptr)} : ∀ (f : Nat) (s : St) (p : Ptr) (x : Ptr → Nat) (e : Entry),
    Inv zn (inc x p) s → get s.table p = some e → e.born < f →
    ∃ s', memUnref f s p = (s', .ok ()) ∧ Inv zn x s' ∧ Frame s s' := by
  intro f
  induction f with
  | zero => intro s p x e _ _ h; omega
  | succ f ih =>
    intro s p x e hi hg hb
    have hc := hi.count p e hg
    have hcp : inc x p p = x p + 1 := by simp [inc]
    rw [hcp] at hc
    have hnd : e.dying = false := by
      have : e.refs ≠ 0 := by omega
      simp [Entry.dying, this]
    simp only [memUnref, hg]
    by_cases h0 : e.refs - 1 = 0
    · -- the entry goes
      rw [if_neg (fun h => h h0)]
      have hz : zref zn e p = 0 ∧ x p = 0 ∧ kids s.table p = 0 := by omega
      let e1 : Entry := { e with refs := e.refs - 1 }
      have he1 : e1.dying = true := by simp [Entry.dying, e1, h0]
      have hrp : e.root ≠ some p := by
        intro hr
        obtain ⟨e', h1, h2⟩ := hi.root p e p hg hnd hr
        rw [hg] at h1
        cases h1
        omega
      -- the state after the block is gone
      let s2 : St := { s with
        table := put s.table p e1,
        live := fun q => if q = p then false else s.live q,
        inited := fun q => if q = p then none else s.inited q }
      have hs2 : (if e.owned = true then memDelete { s with table := put s.table p e1 } p
          else Res.ok { s with table := put s.table p e1 }) = .ok s2 := by
        by_cases ho : e.owned = true
        · rw [if_pos ho]
          exact memDelete_spec hi (hi.alive p e hg ho hnd) _
        · rw [if_neg ho]
          have hl : s.live p = false := by
            cases h : s.live p with
            | false => rfl
            | true =>
              obtain ⟨e', h1, h2, _⟩ := hi.noleak p h
              rw [hg] at h1
              cases h1
              exact absurd h2 ho
          have hv : s.inited p = none := by
            cases h : s.inited p with
            | none => rfl
            | some t => rw [hi.noval p t h] at hl; simp at hl
          simp only [s2, Res.ok.injEq]
          congr 1
          · funext q
            by_cases e : q = p <;> simp [e, hl]
          · funext q
            by_cases e : q = p <;> simp [e, hv]
      let y : Ptr → Nat := match e.root with | some r => inc x r | none => x
      have hkids : ∀ q, kids s2.table q + (if e.root = some q then 1 else 0) = kids s.table q := by
        intro q
        have := kids_put hi.uniq hg e1 q
        have a : isKid q (p, e1) = false := by simp [isKid, he1]
        have b : isKid q (p, e) = decide (e.root = some q) := by simp [isKid, hnd]
        rw [a, b] at this
        simp only [bit, Bool.false_eq_true, if_false, decide_eq_true_eq] at this
        simp only [s2]
        omega
      have hy : ∀ q, y q = x q + (if e.root = some q then 1 else 0) := by
        intro q
        simp only [y]
        cases hr : e.root with
        | none => simp
        | some r =>
          simp only [inc, Option.some.injEq]
          by_cases eq : q = r
          · simp [eq]
          · simp [eq, Ne.symm eq]
      have hg2 : ∀ q, get s2.table q = if q = p then some e1 else get s.table q := by
        intro q
        simp only [s2, get_put, hg, Option.map_some]
      have hi2 : Inv zn y s2 := by
        refine ⟨uniq_put hi.uniq p e1, hi.tuniq, hi.luniq, ?_, ?_, ?_, hi.zfresh, ?_, ?_, ?_, ?_, ?_, ?_, ?_, ?_, ?_,
          hi.lay, hi.laypos⟩
        · intro q e' h
          rw [hg2] at h
          have hk := hkids q
          rw [hy]
          by_cases eq : q = p
          · subst eq
            simp only [if_true, Option.some.injEq] at h
            subst h
            rw [if_neg hrp] at hk ⊢
            have : zref zn e1 q = zref zn e q := rfl
            rw [this]
            have hr1 : e1.refs = 0 := h0
            rw [hr1]
            omega
          · simp only [eq, if_false] at h
            have := hi.count q e' h
            have : inc x p q = x q := by simp [inc, eq]
            omega
        · intro q h
          rw [hg2] at h
          have hk := hkids q
          rw [hy]
          by_cases eq : q = p
          · simp [eq] at h
          · simp only [eq, if_false] at h
            have := hi.absent q h
            simp only [inc, eq, if_false] at this
            omega
        · intro z q h
          obtain ⟨e', h1, h2⟩ := hi.zone z q h
          rw [hg2]
          by_cases eq : q = p
          · subst eq
            rw [hg] at h1
            cases h1
            exact ⟨e1, by simp, h2⟩
          · exact ⟨e', by simpa [eq] using h1, h2⟩
        · intro q e' h
          rw [hg2] at h
          by_cases eq : q = p
          · subst eq
            simp only [if_true, Option.some.injEq] at h
            subst h
            exact hi.ofresh q e hg
          · simp only [eq, if_false] at h
            exact hi.ofresh q e' h
        · intro q e' h
          rw [hg2] at h
          by_cases eq : q = p
          · subst eq
            simp only [if_true, Option.some.injEq] at h
            subst h
            exact hi.born q e hg
          · simp only [eq, if_false] at h
            exact hi.born q e' h
        · intro q e' r h hd hr
          rw [hg2] at h
          by_cases eq : q = p
          · subst eq
            simp only [if_true, Option.some.injEq] at h
            subst h
            rw [he1] at hd
            simp at hd
          · simp only [eq, if_false] at h
            obtain ⟨e'', h1, h2⟩ := hi.root q e' r h hd hr
            rw [hg2]
            by_cases er : r = p
            · subst er
              rw [hg] at h1
              cases h1
              exact ⟨e1, by simp, h2⟩
            · exact ⟨e'', by simpa [er] using h1, h2⟩
        · intro q e' h ho
          rw [hg2] at h
          by_cases eq : q = p
          · subst eq
            simp only [if_true, Option.some.injEq] at h
            subst h
            exact hi.plain q e hg ho
          · simp only [eq, if_false] at h
            exact hi.plain q e' h ho
        · intro q e' h ho hd
          rw [hg2] at h
          by_cases eq : q = p
          · subst eq
            simp only [if_true, Option.some.injEq] at h
            subst h
            rw [he1] at hd
            simp at hd
          · simp only [eq, if_false] at h
            simp only [s2, eq, if_false]
            exact hi.alive q e' h ho hd
        · intro q hl
          simp only [s2] at hl
          by_cases eq : q = p
          · simp [eq] at hl
          · simp only [eq, if_false] at hl
            rw [hg2]
            simpa [eq] using hi.noleak q hl
        · intro q t ht
          obtain ⟨e', h1, h2⟩ := hi.typed q t ht
          rw [hg2]
          by_cases eq : q = p
          · subst eq
            rw [hg] at h1
            cases h1
            exact ⟨e1, by simp, h2⟩
          · exact ⟨e', by simpa [eq] using h1, h2⟩
        · intro q hl
          simp only [s2] at hl ⊢
          by_cases eq : q = p
          · simp [eq] at hl
          · simp only [eq, if_false] at hl ⊢
            exact hi.vals q hl
        · intro q t hq
          simp only [s2] at hq ⊢
          by_cases eq : q = p
          · simp [eq] at hq
          · simp only [eq, if_false] at hq ⊢
            exact hi.noval q t hq
      -- the root
      have hr3 : ∃ s3, atRoot (memUnref f) s2 e.root = (s3, .ok ()) ∧ Inv zn x s3 ∧ Frame s2 s3 := by
        cases hr : e.root with
        | none =>
          refine ⟨s2, rfl, ?_, ⟨rfl, rfl, rfl, fun _ _ h _ => h, fun _ e' h => ⟨e', h, rfl, rfl, rfl, id⟩⟩⟩
          have : y = x := by funext q; rw [hy, hr]; simp
          rw [← this]; exact hi2
        | some r =>
          obtain ⟨e', h1, h2⟩ := hi.root p e r hg hnd hr
          have hyr : y = inc x r := by simp only [y, hr]
          have hrp' : r ≠ p := fun h => hrp (by rw [hr, h])
          exact ih s2 r x e' (hyr ▸ hi2) (by rw [hg2]; simpa [hrp'] using h1) (by omega)
      obtain ⟨s3, e3, hi3, fr3⟩ := hr3
      have hs2' : (if e.owned = true then memDelete { s with table := put s.table p { e with refs := e.refs - 1 } } p
          else Res.ok { s with table := put s.table p { e with refs := e.refs - 1 } }) = .ok s2 := hs2
      rw [hs2']
      simp only
      rw [e3]
      simp only
      have hg3 : get s3.table p = some e1 := fr3.keep p e1 (by rw [hg2]; simp) he1
      have hc3 := hi3.count p e1 hg3
      have hr1 : e1.refs = 0 := h0
      rw [hr1] at hc3
      obtain ⟨l, ed, hlu, hlay, hlpos⟩ := dropType_spec (s := { s3 with table := del s3.table p }) (p := p)
        hi3.lay hi3.laypos hi3.tuniq hi3.luniq
      rw [ed]
      simp only
      have hk4 : ∀ q, kids (del s3.table p) q = kids s3.table q := by
        intro q
        have := countP_del (isKid q) hi3.uniq hg3
        have a : isKid q (p, e1) = false := by simp [isKid, he1]
        rw [a] at this
        simpa [bit, kids] using this
      have hg4 : ∀ q, get (del s3.table p) q = if q = p then none else get s3.table q := get_del s3.table p
      have hlp : s3.live p = false := by
        cases h : s3.live p with
        | false => rfl
        | true =>
          obtain ⟨e', h1, _, h2⟩ := hi3.noleak p h
          rw [hg3] at h1
          cases h1
          rw [he1] at h2
          simp at h2
      refine ⟨_, rfl, ?_, ?_⟩
      · refine ⟨uniq_del hi3.uniq p, uniq_del hi3.tuniq p, hlu, ?_, ?_, ?_, hi3.zfresh, ?_, ?_, ?_, ?_, ?_, ?_, ?_, ?_,
          hi3.noval, hlay, hlpos⟩
        · intro q e' h
          simp only [hg4] at h
          by_cases eq : q = p
          · simp [eq] at h
          · simp only [eq, if_false] at h
            simp only [hk4]
            exact hi3.count q e' h
        · intro q h
          simp only [hg4] at h
          simp only [hk4]
          by_cases eq : q = p
          · subst eq; omega
          · simp only [eq, if_false] at h
            exact hi3.absent q h
        · intro z q h
          obtain ⟨e', h1, h2⟩ := hi3.zone z q h
          simp only [hg4]
          by_cases eq : q = p
          · exfalso
            subst eq
            rw [hg3] at h1
            cases h1
            have : zref zn e1 q = 1 := by simp [zref, h2, h, bit]
            omega
          · exact ⟨e', by simpa [eq] using h1, h2⟩
        · intro q e' h
          simp only [hg4] at h
          by_cases eq : q = p
          · simp [eq] at h
          · simp only [eq, if_false] at h
            exact hi3.ofresh q e' h
        · intro q e' h
          simp only [hg4] at h
          by_cases eq : q = p
          · simp [eq] at h
          · simp only [eq, if_false] at h
            exact hi3.born q e' h
        · intro q e' r h hd hr
          simp only [hg4] at h ⊢
          by_cases eq : q = p
          · simp [eq] at h
          · simp only [eq, if_false] at h
            obtain ⟨e'', h1, h2⟩ := hi3.root q e' r h hd hr
            by_cases er : r = p
            · exfalso
              subst er
              have : 0 < kids s3.table r :=
                List.countP_pos_iff.mpr ⟨(q, e'), mem_of_get h, by simp [isKid, hd, hr]⟩
              omega
            · exact ⟨e'', by simpa [er] using h1, h2⟩
        · intro q e' h ho
          simp only [hg4] at h
          by_cases eq : q = p
          · simp [eq] at h
          · simp only [eq, if_false] at h
            exact hi3.plain q e' h ho
        · intro q e' h ho hd
          simp only [hg4] at h
          by_cases eq : q = p
          · simp [eq] at h
          · simp only [eq, if_false] at h
            exact hi3.alive q e' h ho hd
        · intro q hl
          simp only [hg4]
          by_cases eq : q = p
          · subst eq
            have : s3.live q = true := hl
            rw [hlp] at this
            simp at this
          · simpa [eq] using hi3.noleak q hl
        · intro q t ht
          simp only [get_del] at ht ⊢
          by_cases eq : q = p
          · simp [eq] at ht
          · simp only [eq, if_false] at ht ⊢
            exact hi3.typed q t ht
        · intro q hl
          simp only [get_del]
          by_cases eq : q = p
          · subst eq
            have : s3.live q = true := hl
            rw [hlp] at this
            simp at this
          · simp only [eq, if_false]
            exact hi3.vals q hl
      · refine ⟨fr3.zones, fr3.births, fr3.nextZone, ?_, ?_⟩
        · intro q e' h hd
          simp only [hg4]
          by_cases eq : q = p
          · subst eq
            rw [hg] at h
            cases h
            rw [hnd] at hd
            simp at hd
          · simp only [eq, if_false]
            exact fr3.keep q e' (by rw [hg2]; simpa [eq] using h) hd
        · intro q e' h
          simp only [hg4] at h
          by_cases eq : q = p
          · simp [eq] at h
          · simp only [eq, if_false] at h
            obtain ⟨e'', h1, h2⟩ := fr3.back q e' h
            rw [hg2] at h1
            simp only [eq, if_false] at h1
            exact ⟨e'', h1, h2⟩
    · -- one reference less
      rw [if_pos h0]
      let e1 : Entry := { e with refs := e.refs - 1 }
      have he1 : e1.dying = false := by simp [Entry.dying, e1, h0]
      have hg2 : ∀ q, get (put s.table p e1) q = if q = p then some e1 else get s.table q := by
        intro q
        simp only [get_put, hg, Option.map_some]
      have hkids : ∀ q, kids (put s.table p e1) q = kids s.table q := by
        intro q
        have := kids_put hi.uniq hg e1 q
        have a : isKid q (p, e1) = isKid q (p, e) := by simp only [isKid, he1, hnd, e1]
        rw [a] at this
        omega
      refine ⟨{ s with table := put s.table p e1 }, rfl, ?_, ?_⟩
      · refine ⟨uniq_put hi.uniq p e1, hi.tuniq, hi.luniq, ?_, ?_, ?_, hi.zfresh, ?_, ?_, ?_, ?_, ?_, ?_, ?_, hi.vals,
          hi.noval, hi.lay, hi.laypos⟩
        · intro q e' h
          simp only [hg2] at h
          simp only [hkids]
          by_cases eq : q = p
          · subst eq
            simp only [if_true, Option.some.injEq] at h
            subst h
            have : zref zn e1 q = zref zn e q := rfl
            rw [this]
            have : e1.refs = e.refs - 1 := rfl
            omega
          · simp only [eq, if_false] at h
            have := hi.count q e' h
            simpa [inc, eq] using this
        · intro q h
          simp only [hg2] at h
          simp only [hkids]
          by_cases eq : q = p
          · simp [eq] at h
          · simp only [eq, if_false] at h
            have := hi.absent q h
            simpa [inc, eq] using this
        · intro z q h
          obtain ⟨e', h1, h2⟩ := hi.zone z q h
          simp only [hg2]
          by_cases eq : q = p
          · subst eq
            rw [hg] at h1
            cases h1
            exact ⟨e1, by simp, h2⟩
          · exact ⟨e', by simpa [eq] using h1, h2⟩
        · intro q e' h
          simp only [hg2] at h
          by_cases eq : q = p
          · subst eq
            simp only [if_true, Option.some.injEq] at h
            subst h
            exact hi.ofresh q e hg
          · simp only [eq, if_false] at h
            exact hi.ofresh q e' h
        · intro q e' h
          simp only [hg2] at h
          by_cases eq : q = p
          · subst eq
            simp only [if_true, Option.some.injEq] at h
            subst h
            exact hi.born q e hg
          · simp only [eq, if_false] at h
            exact hi.born q e' h
        · intro q e' r h hd hr
          simp only [hg2] at h ⊢
          have key : ∃ e'', get s.table r = some e'' ∧ e''.born < e'.born := by
            by_cases eq : q = p
            · subst eq
              simp only [if_true, Option.some.injEq] at h
              subst h
              exact hi.root q e r hg hnd hr
            · simp only [eq, if_false] at h
              exact hi.root q e' r h hd hr
          obtain ⟨e'', h1, h2⟩ := key
          by_cases er : r = p
          · subst er
            rw [hg] at h1
            cases h1
            exact ⟨e1, by simp, h2⟩
          · exact ⟨e'', by simpa [er] using h1, h2⟩
        · intro q e' h ho
          simp only [hg2] at h
          by_cases eq : q = p
          · subst eq
            simp only [if_true, Option.some.injEq] at h
            subst h
            exact hi.plain q e hg ho
          · simp only [eq, if_false] at h
            exact hi.plain q e' h ho
        · intro q e' h ho hd
          simp only [hg2] at h
          by_cases eq : q = p
          · subst eq
            simp only [if_true, Option.some.injEq] at h
            subst h
            exact hi.alive q e hg ho hnd
          · simp only [eq, if_false] at h
            exact hi.alive q e' h ho hd
        · intro q hl
          obtain ⟨e', h1, h2, h3⟩ := hi.noleak q hl
          simp only [hg2]
          by_cases eq : q = p
          · subst eq
            rw [hg] at h1
            cases h1
            exact ⟨e1, by simp, h2, he1⟩
          · exact ⟨e', by simpa [eq] using h1, h2, h3⟩
        · intro q t ht
          obtain ⟨e', h1, h2⟩ := hi.typed q t ht
          simp only [hg2]
          by_cases eq : q = p
          · subst eq
            rw [hg] at h1
            cases h1
            exact ⟨e1, by simp, h2⟩
          · exact ⟨e', by simpa [eq] using h1, h2⟩
      · refine ⟨rfl, rfl, rfl, ?_, ?_⟩
        · intro q e' h hd
          simp only [hg2]
          by_cases eq : q = p
          · subst eq
            rw [hg] at h
            cases h
            rw [hnd] at hd
            simp at hd
          · simpa [eq] using h
        · intro q e' h
          simp only [hg2] at h
          by_cases eq : q = p
          · subst eq
            simp only [if_true, Option.some.injEq] at h
            subst h
            exact ⟨e, hg, rfl, rfl, rfl, fun hd => by rw [he1] at hd; simp at hd⟩
          · simp only [eq, if_false] at h
            exact ⟨e', h, rfl, rfl, rfl, id⟩

end Verif.RubyMemory
