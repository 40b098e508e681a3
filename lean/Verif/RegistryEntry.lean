import Verif.RegistryMore
import Verif.RegistryExamples

/-! C47: the entries of the registry. What an iteration shows of each registered name besides the type: whether
it is persistent (exported), and its source. -/

namespace Verif.Registry
open Verif Verif.Names Verif.Graph

variable {key : Char → Int} {H : Heap}

/-- a registered name is visible -/
def Cov (R : Reg) : Prop := ∀ n, glookup R.global n ≠ none → R.current n ≠ none

/-- old entries are kept as they are; new ones satisfy `P` -/
structure Ents (P : Str → Entry → Prop) (R R' : Reg) : Prop where
  cov : Cov R'
  keep : ∀ n e, glookup R.global n = some e → glookup R'.global n = some e
  fresh : ∀ n e, glookup R.global n = none → glookup R'.global n = some e → P n e

/-- the entries that alias propagation makes -/
def Propagated (_ : Str) (e : Entry) : Prop := e.persistent = false ∧ e.source = []

theorem Ents.refl {P : Str → Entry → Prop} {R : Reg} (h : Cov R) : Ents P R R :=
  ⟨h, fun _ _ h => h, fun n e h1 h2 => by rw [h1] at h2; simp at h2⟩

theorem Ents.trans {P Q : Str → Entry → Prop} {R R1 R2 : Reg} (h1 : Ents P R R1) (h2 : Ents Q R1 R2) :
    Ents (fun n e => P n e ∨ Q n e) R R2 := by
  refine ⟨h2.cov, fun n e h => h2.keep n e (h1.keep n e h), fun n e h h' => ?_⟩
  cases hx : glookup R1.global n with
  | none => exact Or.inr (h2.fresh n e hx h')
  | some e' =>
    have := h2.keep n e' hx
    rw [this] at h'
    obtain rfl := Option.some.inj h'
    exact Or.inl (h1.fresh n e' h hx)

theorem Ents.mono {P Q : Str → Entry → Prop} (hpq : ∀ n e, P n e → Q n e) {R R' : Reg} (h : Ents P R R') :
    Ents Q R R' := ⟨h.cov, h.keep, fun n e h1 h2 => hpq n e (h.fresh n e h1 h2)⟩

theorem cinsert_some (c : Str → Option Entry) (n : Str) (e : Entry) (m : Str) (h : c m ≠ none) :
    cinsert c n e m ≠ none := by
  unfold cinsert
  split
  · rename_i hm
    subst hm
    split <;> simp
  · exact h

theorem relUpdate_some (name : Str) (e : Entry) (c : Str → Option Entry) (rel m : Str) (h : c m ≠ none) :
    relUpdate key H name e c rel m ≠ none := by
  unfold relUpdate
  have ins : cinsert (cerase c rel) rel e m ≠ none := by
    unfold cinsert cerase
    by_cases hm : m = rel
    · simp [hm]
    · simp [hm, h]
  cases c rel with
  | none => exact ins
  | some f =>
    simp only
    split
    · exact ins
    · exact h

theorem addRel_some (name : Str) (e : Entry) (toks : List Str) : ∀ (space : Str) (c : Str → Option Entry) (m : Str),
    c m ≠ none → addRel key H name e space toks c m ≠ none := by
  induction toks with
  | nil =>
    intro space c m h
    unfold addRel
    split
    · exact h
    · exact relUpdate_some _ _ _ _ _ h
  | cons t ts ih =>
    intro space c m h
    unfold addRel
    split
    · exact h
    · exact ih _ _ _ (relUpdate_some _ _ _ _ _ h)

theorem addName_ents {R : Reg} (hc : Cov R) (name : Str) (t : TId) (p : Bool) (s : Str) :
    Ents (fun n e => n = name ∧ e = ⟨t, p, s⟩) R (addName key H R name t p s).1 ∧
    ((addName key H R name t p s).2 = .ok () → glookup R.global name = none → R.get name = none →
      glookup (addName key H R name t p s).1.global name = some ⟨t, p, s⟩) := by
  unfold addName
  split
  · exact ⟨.refl hc, by simp⟩
  · cases hg : R.get name with
    | some u =>
      simp only
      split
      · exact ⟨.refl hc, by simp⟩
      · exact ⟨.refl hc, by simp⟩
    | none =>
      simp only
      have hn : R.current name = none := by
        unfold Reg.get at hg
        cases hx : R.current name with
        | none => rfl
        | some e => rw [hx] at hg; simp at hg
      have hgl : glookup R.global name = none := by
        apply Decidable.byContradiction
        intro h
        exact hc name h hn
      have hins : ∀ n, glookup (ginsert key name ⟨t, p, s⟩ R.global) n
          = if n = name then some ⟨t, p, s⟩ else glookup R.global n :=
        fun n => by
          rw [glookup_ginsert key name ⟨t, p, s⟩ R.global hgl n]
          by_cases hx : n = name
          · rw [if_pos hx, if_pos hx.symm]
          · rw [if_neg hx, if_neg (fun e => hx e.symm)]
      refine ⟨⟨?_, ?_, ?_⟩, ?_⟩
      · intro n h
        simp only at h ⊢
        apply addRel_some
        rw [hins] at h
        by_cases hnn : n = name
        · subst hnn
          unfold cinsert
          simp [hn]
        · rw [if_neg hnn] at h
          exact cinsert_some _ _ _ _ (hc n h)
      · intro n e h
        simp only
        rw [hins]
        by_cases hnn : n = name
        · subst hnn; rw [hgl] at h; simp at h
        · rw [if_neg hnn]; exact h
      · intro n e h h'
        simp only at h'
        rw [hins] at h'
        by_cases hnn : n = name
        · rw [if_pos hnn] at h'
          exact ⟨hnn, (Option.some.inj h').symm⟩
        · rw [if_neg hnn, h] at h'
          simp at h'
      · intro _ _ _
        rw [hins, if_pos rfl]

theorem forEach_ents {α : Type} {f : Reg → α → Reg × Res Unit}
    (hf : ∀ R a, Cov R → Ents Propagated R (f R a).1) (l : List α) : ∀ R, Cov R →
    Ents Propagated R (forEach f R l).1 := by
  induction l with
  | nil => intro R h; exact .refl h
  | cons a l ih =>
    intro R h
    have h1 := hf R a h
    unfold forEach
    split
    · rename_i R' heq
      rw [heq] at h1
      exact (h1.trans (ih R' h1.cov)).mono (fun n e h => h.elim id id)
    · rename_i r _
      exact h1

theorem modDep_ents {al : Reg → Str → Str → Reg × Res Unit}
    (hal : ∀ R b n, Cov R → Ents Propagated R (al R b n).1) {R : Reg} (hc : Cov R) (u : TId) :
    Ents Propagated R (modDep al H R u).1 := by
  unfold modDep
  split
  · apply forEach_ents _ _ R hc
    intro R a hR
    split
    · exact .refl hR
    · exact hal R _ _ hR
  · exact .refl hc

/-- the entry made by the call itself, or propagated ones -/
def Made (n : Str) (e : Entry) (m : Str) (f : Entry) : Prop := (m = n ∧ f = e) ∨ Propagated m f

theorem aliasF_ents (f : Nat) : ∀ (R : Reg) (b n : Str) (p : Bool) (s : Str), Cov R →
    Ents (fun m g => (∃ t, R.get b = some t ∧ m = n ∧ g = ⟨t, p, s⟩) ∨ Propagated m g) R
      (aliasF key H f R b n p s).1 := by
  induction f with
  | zero => intro R b n p s h; exact .refl h
  | succ f ih =>
    intro R b n p s h
    unfold aliasF
    split
    · exact .refl h
    · cases hg : R.get b with
      | none => exact .refl h
      | some t =>
        simp only
        have h1 := (addName_ents (key := key) (H := H) h n t p s).1
        have h1' : Ents (fun m g => (∃ u, some t = some u ∧ m = n ∧ g = ⟨u, p, s⟩) ∨ Propagated m g) R
            (addName key H R n t p s).1 := h1.mono (fun m g hm => Or.inl ⟨t, rfl, hm⟩)
        split
        · rename_i R1 heq
          rw [heq] at h1'
          have h2 := forEach_ents (f := modDep (fun R b n => aliasF key H f R b n false []) H) (by
            intro R u hR
            apply modDep_ents _ hR
            intro R b n hR
            apply (ih R b n false [] hR).mono
            rintro m g (⟨u, _, _, rfl⟩ | hm)
            · exact ⟨rfl, rfl⟩
            · exact hm) (triggers H R1 t) R1 h1'.cov
          exact (h1'.trans h2).mono (fun n e h => h.elim id Or.inr)
        · exact h1'

theorem alias_entry {R : Reg} (hc : Cov R) {b n : Str} {t : TId} (hb : R.get b = some t) (hn : R.get n = none)
    (p : Bool) (s : Str) {e : Entry} (he : glookup (alias key H R b n p s).1.global n = some e) :
    e = ⟨t, p, s⟩ := by
  have hnone : glookup R.global n = none := by
    apply Decidable.byContradiction
    intro hh
    apply hc _ hh
    unfold Reg.get at hn
    cases hx : R.current n with
    | none => rfl
    | some e => rw [hx] at hn; simp at hn
  have hadd := addName_ents (key := key) (H := H) hc n t p s
  unfold alias aliasF at he
  split at he
  · rw [hnone] at he; simp at he
  rw [hb] at he
  simp only at he
  split at he
  · rename_i R1 heq
    have := hadd.2 (by rw [heq]) hnone hn
    rw [heq] at this
    have h2 := forEach_ents (f := modDep (fun R b n => aliasF key H H.next R b n false []) H) (by
      intro R u hR
      apply modDep_ents _ hR
      intro R b n hR
      apply (aliasF_ents H.next R b n false [] hR).mono
      rintro m g (⟨u, _, _, rfl⟩ | hm)
      · exact ⟨rfl, rfl⟩
      · exact hm) (triggers H R1 t) R1 (by have := hadd.1.cov; rw [heq] at this; exact this)
    rw [h2.keep _ _ this] at he
    exact (Option.some.inj he).symm
  · exact (hadd.1.fresh n e hnone he).2

theorem Inv.cov {R : Reg} (h : Inv key H R) : Cov R := by
  intro n hn hc
  cases hx : glookup R.global n with
  | none => exact hn hx
  | some e =>
    have hm := glookup_mem hx
    have := h.abs n (h.names _ hm).2
    rw [get_eq, hc, Reg.reg, hx] at this
    simp at this

/-- iterating over the registry shows the entry -/
theorem Inv.mem_iff {R : Reg} (h : Inv key H R) (n : Str) (e : Entry) :
    (n, e) ∈ R.global ↔ glookup R.global n = some e := (glookup_iff h.sorted).symm

/-! ### C47 -/

/-- arrays and pointers -/
def ArrOrPtr (k : Kind) : Prop := (∃ d x, k = .arr d x) ∨ ∃ x, k = .ptr x

theorem cat_arrOrPtr (k : Kind) : (match k.cat with | .pointer => false | .array => false | _ => true) = true ↔
    ¬ ArrOrPtr k := by
  unfold ArrOrPtr
  cases k <;> simp [Kind.cat]

theorem isPersistent_own (t : TId) : isPersistent H (H.name t) t = true ↔ ¬ ArrOrPtr (H.kind t) := by
  unfold isPersistent
  rw [if_neg (by simp)]
  exact cat_arrOrPtr _

theorem add_ents {R : Reg} (hc : Cov R) (t : TId) (p : Bool) (s : Str) :
    Ents (fun m g => (m = H.name t ∧ g = ⟨t, p, s⟩) ∨ Propagated m g) R (add key H R t p s).1 ∧
    ((add key H R t p s).2 = .ok () → R.get (H.name t) = none →
      glookup (add key H R t p s).1.global (H.name t) = some ⟨t, p, s⟩) ∧
    (∀ e, R.get (H.name t) = none → glookup (add key H R t p s).1.global (H.name t) = some e →
      e = ⟨t, p, s⟩) := by
  have h1 := addName_ents (key := key) (H := H) hc (H.name t) t p s
  have hnone : R.get (H.name t) = none → glookup R.global (H.name t) = none := by
    intro h
    apply Decidable.byContradiction
    intro hh
    apply hc _ hh
    unfold Reg.get at h
    cases hx : R.current (H.name t) with
    | none => rfl
    | some e => rw [hx] at h; simp at h
  unfold add
  split
  · rename_i R1 heq
    rw [heq] at h1
    have hmod : Ents Propagated R1 (modDep (fun R b n => alias key H R b n false []) H R1 t).1 := by
      apply modDep_ents _ h1.1.cov
      intro R b n hR
      unfold alias
      apply (aliasF_ents _ R b n false [] hR).mono
      rintro m g (⟨u, _, _, rfl⟩ | hm)
      · exact ⟨rfl, rfl⟩
      · exact hm
    split
    · refine ⟨(h1.1.trans hmod).mono (fun n e h => h), fun _ hg => ?_, fun e hg he => ?_⟩
      · exact hmod.keep _ _ (h1.2 rfl (hnone hg) hg)
      · rw [hmod.keep _ _ (h1.2 rfl (hnone hg) hg)] at he
        exact (Option.some.inj he).symm
    · refine ⟨h1.1.mono (fun n e h => Or.inl h), fun _ hg => h1.2 rfl (hnone hg) hg, fun e hg he => ?_⟩
      rw [h1.2 rfl (hnone hg) hg] at he
      exact (Option.some.inj he).symm
  · rename_i r hne
    refine ⟨h1.1.mono (fun n e h => Or.inl h), fun hok _ => ?_,
      fun e hg he => (h1.1.fresh _ e (hnone hg) he).2⟩
    exfalso
    cases hx : addName key H R (H.name t) t p s with
    | mk R1 o =>
      rw [hx] at hok hne
      simp only at hok
      subst hok
      exact hne R1 rfl

/-- **C47.** A successful `add` of a new type stores it with the persistence and the source given, keeps every
entry that existed exactly as it was, and the only other entries it makes are the propagated aliases, which are
not persistent and have no source. -/
theorem C47_add (hk : ∀ a b, key a = key b → a = b) {R : Reg} (hR : Reachable key H R) (t : TId)
    (ht : t < H.next) (habs : isAbsoluteName (H.name t) = true) (p : Bool) (src : Str)
    (hnew : R.get (H.name t) = none) (hok : (add key H R t p src).2 = .ok ()) :
    (H.name t, (⟨t, p, src⟩ : Entry)) ∈ (add key H R t p src).1.global ∧
    (∀ x ∈ R.global, x ∈ (add key H R t p src).1.global) ∧
    (∀ x ∈ (add key H R t p src).1.global, x ∈ R.global ∨ x = (H.name t, ⟨t, p, src⟩) ∨
      (x.2.persistent = false ∧ x.2.source = [])) := by
  obtain ⟨hac, h⟩ := reachable_inv hk hR
  have h' : Inv key H (add key H R t p src).1 := (add_spec hk hac h t ht habs p src).1.1
  have E := add_ents (key := key) (H := H) h.cov t p src
  refine ⟨(h'.mem_iff _ _).mpr (E.2.1 hok hnew), ?_, ?_⟩
  · rintro ⟨n, e⟩ hx
    exact (h'.mem_iff _ _).mpr (E.1.keep n e ((h.mem_iff _ _).mp hx))
  · rintro ⟨n, e⟩ hx
    have hx' := (h'.mem_iff _ _).mp hx
    cases hg : glookup R.global n with
    | some e' =>
      have := E.1.keep n e' hg
      rw [this] at hx'
      obtain rfl := Option.some.inj hx'
      exact Or.inl ((h.mem_iff _ _).mpr hg)
    | none =>
      rcases E.1.fresh n e hg hx' with ⟨rfl, rfl⟩ | hp
      · exact Or.inr (Or.inl rfl)
      · exact Or.inr (Or.inr hp)

/-- **C47.** Without an explicit flag, a type is stored as persistent exactly when it is neither an array nor a
pointer. -/
theorem C47_add_default (hk : ∀ a b, key a = key b → a = b) {R : Reg} (hR : Reachable key H R) (t : TId)
    (ht : t < H.next) (habs : isAbsoluteName (H.name t) = true) (src : Str)
    (hnew : R.get (H.name t) = none) (hok : (addAuto key H R t src).2 = .ok ()) :
    ∃ p, (p = true ↔ ¬ ArrOrPtr (H.kind t)) ∧
      (H.name t, (⟨t, p, src⟩ : Entry)) ∈ (addAuto key H R t src).1.global :=
  ⟨isPersistent H (H.name t) t, isPersistent_own t, (C47_add hk hR t ht habs _ src hnew hok).1⟩

/-- **C47.** The same for `alias`: the entry has the persistence and source given, the other entries are kept, and
the propagated ones are not persistent and have no source. -/
theorem C47_alias (hk : ∀ a b, key a = key b → a = b) {R : Reg} (hR : Reachable key H R) (base new : Str)
    (habs : isAbsoluteName new = true) (p : Bool) (src : Str) (hnew : R.get new = none)
    (hok : (alias key H R base new p src).2 = .ok ()) :
    ∃ t, R.get base = some t ∧
    (new, (⟨t, p, src⟩ : Entry)) ∈ (alias key H R base new p src).1.global ∧
    (∀ x ∈ R.global, x ∈ (alias key H R base new p src).1.global) ∧
    (∀ x ∈ (alias key H R base new p src).1.global, x ∈ R.global ∨ x = (new, ⟨t, p, src⟩) ∨
      (x.2.persistent = false ∧ x.2.source = [])) := by
  obtain ⟨hac, h⟩ := reachable_inv hk hR
  cases hb : R.get base with
  | none =>
    unfold alias aliasF at hok
    rw [hb] at hok
    split at hok <;> simp at hok
  | some t =>
  have h' : Inv key H (alias key H R base new p src).1 :=
    (aliasF_spec hk hac _ R base new p src t h habs hb (h.get_regd hb)).1.1
  have E : Ents _ R (alias key H R base new p src).1 :=
    aliasF_ents (key := key) (H := H) (H.next + 1) R base new p src h.cov
  have rest : ∀ x ∈ (alias key H R base new p src).1.global, x ∈ R.global ∨ x = (new, ⟨t, p, src⟩) ∨
      (x.2.persistent = false ∧ x.2.source = []) := by
    rintro ⟨n, e⟩ hx
    have hx' := (h'.mem_iff _ _).mp hx
    cases hg : glookup R.global n with
    | some e' =>
      have := E.keep n e' hg
      rw [this] at hx'
      obtain rfl := Option.some.inj hx'
      exact Or.inl ((h.mem_iff _ _).mpr hg)
    | none =>
      rcases E.fresh n e hg hx' with ⟨u, hu, rfl, rfl⟩ | hp
      · rw [hb] at hu
        obtain rfl := Option.some.inj hu
        exact Or.inr (Or.inl rfl)
      · exact Or.inr (Or.inr hp)
  refine ⟨t, rfl, ?_, ?_, rest⟩
  · have hget : (alias key H R base new p src).1.reg new = some t :=
      ((aliasF_spec hk hac _ R base new p src t h habs hb (h.get_regd hb)).2.1 hok).1
    obtain ⟨e, he, _⟩ := reg_mem hget
    have := alias_entry h.cov hb hnew p src ((h'.mem_iff _ _).mp he)
    rw [← this]
    exact he
  · rintro ⟨n, e⟩ hx
    exact (h'.mem_iff _ _).mpr (E.keep n e ((h.mem_iff _ _).mp hx))

/-- **C47.** A new alias given without an explicit flag is persistent, whatever it is an alias of. -/
theorem C47_alias_default (hk : ∀ a b, key a = key b → a = b) {R : Reg} (hR : Reachable key H R) (base new : Str)
    (habs : isAbsoluteName new = true) (src : Str) (hnew : R.get new = none)
    (hok : (aliasAuto key H R base new src).2 = .ok ()) :
    ∃ t, R.get base = some t ∧ (new, (⟨t, true, src⟩ : Entry)) ∈ (aliasAuto key H R base new src).1.global := by
  obtain ⟨hac, h⟩ := reachable_inv hk hR
  cases hb : R.get base with
  | none =>
    unfold aliasAuto at hok
    rw [hb] at hok
    simp at hok
  | some t =>
    have hp : isPersistent H new t = true := by
      unfold isPersistent
      rw [if_pos]
      rintro rfl
      have hreg := h.get_regd hb
      have := (h.regd_iff t).mpr hreg
      unfold Regd at this
      rw [hnew] at this
      simp at this
    unfold aliasAuto at hok ⊢
    rw [hb] at hok ⊢
    simp only [hp] at hok ⊢
    obtain ⟨u, hu, hm, _⟩ := C47_alias hk hR base new habs true src hnew hok
    rw [hb] at hu
    obtain rfl := Option.some.inj hu
    exact ⟨t, rfl, hm⟩

/-- the calls that leave the choice of persistence to the registry -/
def Auto : Op → Prop
  | .add .. => False
  | .alias .. => False
  | _ => True

/-- what an iteration shows about persistence -/
def Sorted47 (H : Heap) (x : Str × Entry) : Prop :=
  (x.1 = H.name x.2.ty → (x.2.persistent = true ↔ ¬ ArrOrPtr (H.kind x.2.ty))) ∧
  (x.1 ≠ H.name x.2.ty → (H.kind x.2.ty).indirectName = none → x.2.persistent = true)

theorem fresh47 {R R' : Reg} (h : Inv key H R) (h' : Inv key H R') {P : Str → Entry → Prop} (E : Ents P R R')
    (old : ∀ x ∈ R.global, Sorted47 H x) (new : ∀ n e, P n e → glookup R'.global n = some e → New R R' n e.ty → Sorted47 H (n, e)) :
    ∀ x ∈ R'.global, Sorted47 H x := by
  rintro ⟨n, e⟩ hx
  have hx' := (h'.mem_iff _ _).mp hx
  cases hg : glookup R.global n with
  | some e' =>
    have := E.keep n e' hg
    rw [this] at hx'
    obtain rfl := Option.some.inj hx'
    exact old _ ((h.mem_iff _ _).mpr hg)
  | none =>
    apply new n e (E.fresh n e hg hx') hx'
    refine ⟨?_, ?_⟩
    · rw [Reg.reg, hg]; rfl
    · rw [Reg.reg, hx']; rfl

theorem step47 (hk : ∀ a b, key a = key b → a = b) {R : Reg} (hR : Reachable key H R) (o : Op) (ho : OkOp H o)
    (ha : Auto o) (old : ∀ x ∈ R.global, Sorted47 H x) : ∀ x ∈ (step key H R o).1.global, Sorted47 H x := by
  obtain ⟨hac, h⟩ := reachable_inv hk hR
  have h' := inv_step hk hac h o ho
  have sub : (∀ x ∈ (step key H R o).1.global, x ∈ R.global) → ∀ x ∈ (step key H R o).1.global, Sorted47 H x :=
    fun hs x hx => old x (hs x hx)
  -- a new derived name is an alias of an indirect type
  have der : ∀ {n : Str} {e : Entry} {R' : Reg}, Derived H R' n e.ty → n ≠ H.name e.ty → Sorted47 H (n, e) := by
    rintro n e R' ⟨ind, x, a, h1, _⟩ hne
    exact ⟨fun hh => absurd hh hne, fun _ hh => by simp only at hh; rw [h1] at hh; simp at hh⟩
  have ne_own : ∀ {n : Str} {u : TId}, R.reg n = none → R.reg (H.name u) = some u → n ≠ H.name u := by
    rintro n u h1 h2 rfl
    rw [h1] at h2; simp at h2
  cases o with
  | add => exact absurd ha (by simp [Auto])
  | alias => exact absurd ha (by simp [Auto])
  | addAuto t s =>
    have E := add_ents (key := key) (H := H) h.cov t (isPersistent H (H.name t) t) s
    have S := (add_spec hk hac h t ho.1 ho.2 (isPersistent H (H.name t) t) s).1
    apply fresh47 h h' E.1 old
    intro n e _ hg hnew
    by_cases hn : n = H.name t
    · subst hn
      have hg0 : R.get (H.name t) = none := by rw [h.abs _ ho.2]; exact hnew.1
      rw [E.2.2 e hg0 hg]
      exact ⟨fun _ => isPersistent_own t, fun hh => absurd rfl hh⟩
    · rcases S.2.2.2.1 n e.ty hnew with ⟨hh, _⟩ | hd
      · exact absurd hh hn
      · rcases S.2.2.2.2 n e.ty hnew with hh | hh
        · exact der hd (by rw [hh]; exact hn)
        · exact der hd (ne_own hnew.1 hh)
  | aliasAuto b m s =>
    cases hb : R.get b with
    | none =>
      apply sub
      intro x hx
      simpa [step, aliasAuto, hb] using hx
    | some t =>
      have e0 : step key H R (.aliasAuto b m s) = alias key H R b m (isPersistent H m t) s := by
        simp [step, aliasAuto, hb]
      rw [e0] at h' ⊢
      have E : Ents _ R (alias key H R b m (isPersistent H m t) s).1 :=
        aliasF_ents (key := key) (H := H) (H.next + 1) R b m (isPersistent H m t) s h.cov
      have S := (aliasF_spec hk hac (H.next + 1) R b m (isPersistent H m t) s t h ho hb (h.get_regd hb)).1
      apply fresh47 h h' E old
      intro n e hP hg hnew
      have hne := ne_own hnew.1 (S.2.2.2.2 n e.ty hnew)
      rcases S.2.2.2.1 n e.ty hnew with ⟨rfl, hh⟩ | hd
      · have hg0 : R.get n = none := by rw [h.abs _ ho]; exact hnew.1
        have he := alias_entry h.cov hb hg0 _ s hg
        subst he
        refine ⟨fun hx => absurd hx hne, fun _ _ => ?_⟩
        simp only
        unfold isPersistent
        rw [if_pos hne]
      · exact der hd hne
  | removeAlias n =>
    apply sub
    intro x hx
    simp only [step, removeAlias] at hx
    split at hx
    · exact hx
    · split at hx
      · exact hx
      · rw [(updateCurrent_global _ _).1] at hx
        exact (List.mem_filter.mp hx).1
  | clearAliases =>
    apply sub
    intro x hx
    simp only [step, clearAliases] at hx
    rw [(updateCurrent_global _ _).1] at hx
    exact (List.mem_filter.mp hx).1
  | remove t =>
    apply sub
    intro x hx
    simp only [step, remove] at hx
    split at hx
    · exact (List.mem_filter.mp hx).1
    · exact hx
    · exact hx
    · exact hx
  | setDefaultNamespace s =>
    apply sub
    intro x hx
    simp only [step, setDefaultNamespace] at hx
    split at hx
    · rw [(updateCurrent_global _ _).1] at hx
      exact hx
    · exact hx
  | importNamespace n e =>
    apply sub
    intro x hx
    exact hx
  | setSourceID t s =>
    intro x hx
    simp only [step, setSourceID, List.mem_map] at hx
    obtain ⟨y, hy, rfl⟩ := hx
    have := old y hy
    split
    · exact this
    · exact this

/-- **C47.** In any registry built by calls that leave the choice to the registry (adding types and aliases,
removing them, changing namespaces and sources, in any order): a type is persistent under its own name exactly
when it is neither an array nor a pointer, and every alias of a type that is not an array, a pointer or a vector
is persistent. -/
theorem C47_history (hk : ∀ a b, key a = key b → a = b) (hac : Acyclic H) (ops : List Op)
    (ho : ∀ o ∈ ops, OkOp H o) (ha : ∀ o ∈ ops, Auto o) (n : Str) (e : Entry)
    (hx : (n, e) ∈ (run key H Reg.empty ops).global) :
    (n = H.name e.ty → (e.persistent = true ↔ ¬ ArrOrPtr (H.kind e.ty))) ∧
    (n ≠ H.name e.ty → (H.kind e.ty).indirectName = none → e.persistent = true) := by
  have gen : ∀ (ops : List Op) (R : Reg), Reachable key H R → (∀ x ∈ R.global, Sorted47 H x) →
      (∀ o ∈ ops, OkOp H o) → (∀ o ∈ ops, Auto o) → ∀ x ∈ (run key H R ops).global, Sorted47 H x := by
    intro ops
    induction ops with
    | nil => intro R _ old _ _; exact old
    | cons o os ih =>
      intro R hR old ho ha
      have h1 := ho o (by simp)
      exact ih _ (.op o hR h1) (step47 hk hR o h1 (ha o (by simp)) old) (fun x hx => ho x (by simp [hx]))
        (fun x hx => ha x (by simp [hx]))
  exact gen ops Reg.empty (.start hac) (by intro x hx; simp [Reg.empty] at hx) ho ha (n, e) hx

/-- **C47.** `removeAlias`, `clearAliases`, `remove` and the namespace operations only drop entries;
`setSourceID` only changes the source of the entry under the type's own name. -/
theorem C47_others {R : Reg} (t : TId) (name src : Str) (erase : Bool) :
    (∀ x ∈ (removeAlias key H R name).1.global, x ∈ R.global) ∧
    (∀ x ∈ (clearAliases key H R).global, x ∈ R.global) ∧
    (∀ x ∈ (remove H R t).1.global, x ∈ R.global) ∧
    (setDefaultNamespace key R name).1.global = R.global ∧
    (importNamespace key R name erase).global = R.global ∧
    (∀ n e, (n, e) ∈ (setSourceID H R t src).global ↔
      (n ≠ H.name t ∧ (n, e) ∈ R.global) ∨
      (n = H.name t ∧ ∃ old, (n, old) ∈ R.global ∧ e = ⟨old.ty, old.persistent, src⟩)) := by
  refine ⟨?_, ?_, ?_, ?_, rfl, ?_⟩
  · intro x hx
    simp only [removeAlias] at hx
    split at hx
    · exact hx
    · split at hx
      · exact hx
      · rw [(updateCurrent_global _ _).1] at hx
        exact (List.mem_filter.mp hx).1
  · intro x hx
    simp only [clearAliases] at hx
    rw [(updateCurrent_global _ _).1] at hx
    exact (List.mem_filter.mp hx).1
  · intro x hx
    simp only [remove] at hx
    split at hx
    · exact (List.mem_filter.mp hx).1
    · exact hx
    · exact hx
    · exact hx
  · simp only [setDefaultNamespace]
    split
    · rw [(updateCurrent_global _ _).1]
    · rfl
  · intro n e
    simp only [setSourceID, List.mem_map]
    constructor
    · rintro ⟨⟨m, f⟩, hy, hh⟩
      by_cases hm : m = H.name t
      · rw [if_pos hm] at hh
        simp only [Prod.mk.injEq] at hh
        obtain ⟨rfl, rfl⟩ := hh
        exact Or.inr ⟨hm, f, hy, rfl⟩
      · rw [if_neg hm] at hh
        simp only [Prod.mk.injEq] at hh
        obtain ⟨rfl, rfl⟩ := hh
        exact Or.inl ⟨hm, hy⟩
    · rintro (⟨hm, hy⟩ | ⟨hm, f, hy, rfl⟩)
      · exact ⟨(n, e), hy, by rw [if_neg hm]⟩
      · exact ⟨(n, f), hy, by rw [if_pos hm]⟩

/-- the history of the example, leaving the choice of persistence to the registry -/
def autoOps : List Op :=
  [.addAuto 0 "a.tlb".toList, .addAuto 1 [], .addAuto 2 [], .aliasAuto "/A".toList "/N/B".toList "b.tlb".toList,
   .addAuto 3 [], .addAuto 4 []]

theorem autoOps_ok : (∀ o ∈ autoOps, OkOp exHeap o) ∧ ∀ o ∈ autoOps, Auto o := by
  constructor <;>
  · intro o ho
    simp only [autoOps, List.mem_cons, List.mem_nil_iff, or_false] at ho
    rcases ho with rfl | rfl | rfl | rfl | rfl | rfl
    all_goals first | exact ⟨by decide, by decide⟩ | (show isAbsoluteName _ = true; decide) | exact trivial

/-- non-vacuity: what an iteration over that registry shows, (name, persistent, source) -/
example : (run ascii exHeap Reg.empty autoOps).global.map (fun x => (x.1, x.2.persistent, x.2.source)) =
    [("/A".toList, true, "a.tlb".toList), ("/A*".toList, false, []), ("/A*[2]".toList, false, []),
     ("/N/B".toList, true, "b.tlb".toList), ("/N/B*".toList, false, []), ("/N/B*[2]".toList, false, []),
     ("/N/S".toList, true, []), ("/std/vector</A>".toList, true, []),
     ("/std/vector</N/B>".toList, false, [])] := by
  decide +kernel

/-- An alias that the user asks for after it was propagated stays what it was: the call succeeds, and the alias is
still not persistent (so it will not be exported) and has no source. -/
theorem C47_propagated_first :
    let R := run ascii exHeap Reg.empty autoOps
    Reachable ascii exHeap R ∧
    (aliasAuto ascii exHeap R "/A*".toList "/N/B*".toList "user".toList).2 = .ok () ∧
    ∀ e, ("/N/B*".toList, e) ∈ (aliasAuto ascii exHeap R "/A*".toList "/N/B*".toList "user".toList).1.global →
      e.persistent = false ∧ e.source = [] := by
  refine ⟨reachable_ops exAcyclic _ autoOps_ok.1, by decide +kernel, ?_⟩
  have h : ∀ x ∈ (aliasAuto ascii exHeap (run ascii exHeap Reg.empty autoOps) "/A*".toList "/N/B*".toList
      "user".toList).1.global, x.1 = "/N/B*".toList → x.2.persistent = false ∧ x.2.source = [] := by
    decide +kernel
  intro e he
  exact h _ he rfl

end Verif.Registry
