import Verif.RegistryInv

/-! `alias` and `modifiedDependencyAliases`: what they register, and that they terminate. -/

namespace Verif.Registry
open Verif Verif.Names Verif.Graph

variable {key : Char → Int} {H : Heap}

theorem mem_sinsert {n m : Str} {s : List Str} : m ∈ sinsert n s ↔ m = n ∨ m ∈ s := by
  induction s with
  | nil => simp [sinsert]
  | cons k s ih =>
    unfold sinsert
    split
    · rename_i h; subst h; simp
    · split
      · simp
      · simp only [List.mem_cons, ih]
        constructor
        · rintro (h | h | h) <;> simp [h]
        · rintro (h | h | h) <;> simp [h]

theorem mem_getAliasesOf {R : Reg} (h : GInv key H R) (t : TId) (n : Str) :
    n ∈ getAliasesOf H R t ↔ R.reg n = some t ∧ n ≠ H.name t := by
  have aux : ∀ (l : List (Str × Entry)) (s : List Str),
      n ∈ l.foldl (fun s p => if isAlias H p && p.2.ty == t then sinsert p.1 s else s) s ↔
        n ∈ s ∨ ∃ p ∈ l, p.1 = n ∧ p.2.ty = t ∧ isAlias H p = true := by
    intro l
    induction l with
    | nil => intro s; simp
    | cons p l ih =>
      intro s
      rw [List.foldl_cons, ih]
      by_cases hp : (isAlias H p && p.2.ty == t) = true
      · rw [if_pos hp, mem_sinsert]
        simp only [Bool.and_eq_true, beq_iff_eq] at hp
        constructor
        · rintro ((h | h) | h)
          · exact Or.inr ⟨p, by simp, h.symm, hp.2, hp.1⟩
          · exact Or.inl h
          · obtain ⟨q, hq, h'⟩ := h; exact Or.inr ⟨q, by simp [hq], h'⟩
        · rintro (h | ⟨q, hq, h1, h2, h3⟩)
          · exact Or.inl (Or.inr h)
          · rcases List.mem_cons.mp hq with rfl | hq
            · exact Or.inl (Or.inl h1.symm)
            · exact Or.inr ⟨q, hq, h1, h2, h3⟩
      · rw [if_neg hp]
        simp only [Bool.and_eq_true, beq_iff_eq, not_and] at hp
        constructor
        · rintro (h | h)
          · exact Or.inl h
          · obtain ⟨q, hq, h'⟩ := h; exact Or.inr ⟨q, by simp [hq], h'⟩
        · rintro (h | ⟨q, hq, h1, h2, h3⟩)
          · exact Or.inl h
          · rcases List.mem_cons.mp hq with rfl | hq
            · exact absurd h2 (hp h3)
            · exact Or.inr ⟨q, hq, h1, h2, h3⟩
  unfold getAliasesOf
  rw [aux]
  constructor
  · rintro (h' | ⟨p, hp, rfl, rfl, h3⟩)
    · cases h'
    · exact ⟨mem_reg h.sorted hp, by simpa [isAlias] using h3⟩
  · rintro ⟨h1, h2⟩
    obtain ⟨e, he, rfl⟩ := reg_mem h1
    exact Or.inr ⟨(n, e), he, rfl, rfl, by simpa [isAlias] using h2⟩

/-- `n` is registered in `R'` but was not in `R`. -/
def New (R R' : Reg) (n : Str) (u : TId) : Prop := R.reg n = none ∧ R'.reg n = some u

/-- `n` is the name of the array, pointer or vector type `u` written with the alias `a` of its
element. -/
def Derived (H : Heap) (R : Reg) (n : Str) (u : TId) : Prop :=
  ∃ ind x a, (H.kind u).indirectName = some ind ∧ (H.kind u).elem? = some x ∧ n = ind a ∧
    R.reg a = some x ∧ a ≠ H.name x ∧ R.reg (H.name u) = some u

/-- every array, pointer or vector type over `x` is known under the name derived from `n` -/
def ClosedAt (H : Heap) (R : Reg) (n : Str) (x : TId) : Prop :=
  ∀ u ind, R.reg (H.name u) = some u → (H.kind u).indirectName = some ind → (H.kind u).elem? = some x →
    ∃ v, R.reg (ind n) = some v

/-- `R'` has all the names of `R`, and the new ones are derived names. -/
structure Grow (key : Char → Int) (H : Heap) (R R' : Reg) : Prop where
  inv : Inv key H R'
  ns : R'.ns = R.ns
  ext : ∀ n u, R.reg n = some u → R'.reg n = some u
  der : ∀ n u, New R R' n u → Derived H R' n u
  prim : ∀ n u, New R R' n u → R.reg (H.name u) = some u

/-- ... and the new names are themselves used in all the derived names. -/
structure GrowOk (key : Char → Int) (H : Heap) (R R' : Reg) : Prop extends Grow key H R R' where
  clo : ∀ n u, New R R' n u → ClosedAt H R' n u

theorem Derived.mono {R R' : Reg} (hx : ∀ n u, R.reg n = some u → R'.reg n = some u) {n : Str} {u : TId}
    (h : Derived H R n u) : Derived H R' n u := by
  obtain ⟨ind, x, a, h1, h2, h3, h4, h5, h6⟩ := h
  exact ⟨ind, x, a, h1, h2, h3, hx _ _ h4, h5, hx _ _ h6⟩

theorem reg_same {R R' : Reg} (hx : ∀ n u, R.reg n = some u → R'.reg n = some u)
    (hp : ∀ n u, New R R' n u → R.reg (H.name u) = some u) {u : TId}
    (h : R'.reg (H.name u) = some u) : R.reg (H.name u) = some u := by
  cases hr : R.reg (H.name u) with
  | none => exact absurd (hp _ u ⟨hr, h⟩) (by rw [hr]; simp)
  | some v =>
    have := hx _ _ hr
    rw [h] at this
    exact this.symm

theorem ClosedAt.mono {R R' : Reg} (hx : ∀ n u, R.reg n = some u → R'.reg n = some u)
    (hp : ∀ n u, New R R' n u → R.reg (H.name u) = some u) {n : Str} {x : TId}
    (h : ClosedAt H R n x) : ClosedAt H R' n x := by
  intro u ind h1 h2 h3
  obtain ⟨v, hv⟩ := h u ind (reg_same hx hp h1) h2 h3
  exact ⟨v, hx _ _ hv⟩

theorem Grow.refl {R : Reg} (h : Inv key H R) : GrowOk key H R R := by
  refine ⟨⟨h, rfl, fun _ _ h => h, ?_, ?_⟩, ?_⟩ <;>
  · rintro n u ⟨h1, h2⟩
    rw [h1] at h2; cases h2

theorem new_cases {R1 R2 R3 : Reg} (hx : ∀ n u, R2.reg n = some u → R3.reg n = some u) {n : Str} {u : TId}
    (h : New R1 R3 n u) : New R1 R2 n u ∨ New R2 R3 n u := by
  cases h2 : R2.reg n with
  | none => exact Or.inr ⟨h2, h.2⟩
  | some v =>
    have := hx _ _ h2
    rw [h.2] at this
    cases this
    exact Or.inl ⟨h.1, h2⟩

theorem Grow.trans {R1 R2 R3 : Reg} (h1 : Grow key H R1 R2) (h2 : Grow key H R2 R3) : Grow key H R1 R3 := by
  refine ⟨h2.inv, h2.ns.trans h1.ns, fun n u h => h2.ext n u (h1.ext n u h), ?_, ?_⟩
  · intro n u h
    rcases new_cases h2.ext h with h | h
    · exact (h1.der n u h).mono h2.ext
    · exact h2.der n u h
  · intro n u h
    rcases new_cases h2.ext h with h | h
    · exact h1.prim n u h
    · exact reg_same h1.ext h1.prim (h2.prim n u h)

theorem GrowOk.trans {R1 R2 R3 : Reg} (h1 : GrowOk key H R1 R2) (h2 : GrowOk key H R2 R3) :
    GrowOk key H R1 R3 := by
  refine ⟨h1.toGrow.trans h2.toGrow, ?_⟩
  intro n u h
  rcases new_cases h2.ext h with h | h
  · exact (h1.clo n u h).mono h2.ext h2.prim
  · exact h2.clo n u h

/-- the failure of a derived alias: some derived name is not a valid name -/
def BadDerived (H : Heap) (R : Reg) : Prop :=
  ∃ n u, Derived H R n u ∧ isValidTypename n true = false

/-- possible outcomes of the propagation of aliases -/
def PropOut (H : Heap) (R : Reg) (fuelOk : Prop) (r : Res Unit) : Prop :=
  match r with
  | .ok _ => True
  | .exn e => e = .badName ∧ BadDerived H R
  | .ub => False
  | .fuel => ¬ fuelOk

theorem forEach_spec {α : Type} (f : Reg → α → Reg × Res Unit) (Q : α → Reg → Prop) (fuelOk : Prop)
    (hQ : ∀ a R R', Q a R → GrowOk key H R R' → Q a R') :
    ∀ (l : List α) (R0 : Reg), Inv key H R0 →
    (∀ a ∈ l, ∀ R, GrowOk key H R0 R →
      Grow key H R (f R a).1 ∧ ((f R a).2 = .ok () → GrowOk key H R (f R a).1 ∧ Q a (f R a).1) ∧
      PropOut H (f R a).1 fuelOk (f R a).2) →
    Grow key H R0 (forEach f R0 l).1 ∧
    ((forEach f R0 l).2 = .ok () → GrowOk key H R0 (forEach f R0 l).1 ∧ ∀ a ∈ l, Q a (forEach f R0 l).1) ∧
    PropOut H (forEach f R0 l).1 fuelOk (forEach f R0 l).2 := by
  intro l
  induction l with
  | nil =>
    intro R0 h _
    exact ⟨(Grow.refl h).toGrow, fun _ => ⟨Grow.refl h, by simp⟩, trivial⟩
  | cons a l ih =>
    intro R0 h hf
    obtain ⟨h1, h2, h3⟩ := hf a (by simp) R0 (Grow.refl h)
    unfold forEach
    generalize hfa : f R0 a = o at h1 h2 h3
    obtain ⟨R1, r⟩ := o
    cases r with
    | ok v =>
      cases v
      obtain ⟨h2a, h2b⟩ := h2 rfl
      simp only at h1 h2a h2b ⊢
      obtain ⟨i1, i2, i3⟩ := ih R1 h1.inv (fun b hb R hR => hf b (by simp [hb]) R (h2a.trans hR))
      refine ⟨h1.trans i1, fun hok => ?_, i3⟩
      obtain ⟨j1, j2⟩ := i2 hok
      refine ⟨h2a.trans j1, ?_⟩
      intro b hb
      rcases List.mem_cons.mp hb with rfl | hb
      · exact hQ _ _ _ h2b j1
      · exact j2 b hb
    | exn e => exact ⟨h1, (fun h => by cases h), h3⟩
    | ub => exact ⟨h1, (fun h => by cases h), h3⟩
    | fuel => exact ⟨h1, (fun h => by cases h), h3⟩

theorem indirect_deps {k : Kind} {ind : Str → Str} (h : k.indirectName = some ind) :
    ∃ x, k.elem? = some x ∧ k.deps = [x] := by
  cases k <;> simp_all [Kind.indirectName, Kind.elem?, Kind.deps]

theorem indirect_abs {k : Kind} {ind : Str → Str} (h : k.indirectName = some ind) {a : Str}
    (ha : isAbsoluteName a = true) : isAbsoluteName (ind a) = true := by
  cases a with
  | nil => cases ha
  | cons c a =>
    cases k <;> simp [Kind.indirectName] at h <;> subst h <;> first
      | exact ha
      | rfl

theorem has_iff (R : Reg) (n : Str) : R.has n = true ↔ ∃ u, R.get n = some u := by
  unfold Reg.has Reg.get
  cases R.current n <;> simp

/-- specification of the recursive call used by `modDep` -/
def AlSpec (key : Char → Int) (H : Heap) (al : Reg → Str → Str → Reg × Res Unit) (fuelOk : TId → Prop) : Prop :=
  ∀ R u n, Inv key H R → R.reg (H.name u) = some u → Derived H R n u → R.reg n = none →
    Grow key H R (al R (H.name u) n).1 ∧
    ((al R (H.name u) n).2 = .ok () → GrowOk key H R (al R (H.name u) n).1 ∧
      (al R (H.name u) n).1.reg n = some u) ∧
    PropOut H (al R (H.name u) n).1 (fuelOk u) (al R (H.name u) n).2

theorem modDep_spec {al : Reg → Str → Str → Reg × Res Unit} {fuelOk : TId → Prop} {F : Prop}
    (hal : AlSpec key H al fuelOk) (u : TId)
    (hF : ∀ ind, (H.kind u).indirectName = some ind → F → fuelOk u) (R : Reg) (h : Inv key H R) (hu : R.reg (H.name u) = some u) :
    Grow key H R (modDep al H R u).1 ∧
    ((modDep al H R u).2 = .ok () → GrowOk key H R (modDep al H R u).1 ∧
      ∀ ind x a, (H.kind u).indirectName = some ind → (H.kind u).elem? = some x →
        R.reg a = some x → a ≠ H.name x → ∃ v, (modDep al H R u).1.reg (ind a) = some v) ∧
    PropOut H (modDep al H R u).1 F (modDep al H R u).2 := by
  unfold modDep
  cases hi : (H.kind u).indirectName with
  | none =>
    exact ⟨(Grow.refl h).toGrow, fun _ => ⟨Grow.refl h, fun ind x a h1 => by cases h1⟩, trivial⟩
  | some ind =>
    obtain ⟨x, hx, _⟩ := indirect_deps hi
    rw [hx]
    simp only
    have := forEach_spec (key := key) (H := H)
      (fun R a => if R.has (ind a) then (R, .ok ()) else al R (H.name u) (ind a))
      (fun a R => ∃ v, R.reg (ind a) = some v) F
      (by rintro a R R' ⟨v, hv⟩ hg; exact ⟨v, hg.ext _ _ hv⟩) (getAliasesOf H R x) R h (by
        intro a ha R1 hg
        obtain ⟨ha1, ha2⟩ := (mem_getAliasesOf h.toGInv x a).mp ha
        have hab : isAbsoluteName (ind a) = true := indirect_abs hi (h.reg_name ha1).2.1
        by_cases hh : R1.has (ind a) = true
        · rw [if_pos hh]
          refine ⟨(Grow.refl hg.inv).toGrow, fun _ => ⟨Grow.refl hg.inv, ?_⟩, trivial⟩
          obtain ⟨v, hv⟩ := (has_iff _ _).mp hh
          exact ⟨v, by rw [← hg.inv.abs _ hab]; exact hv⟩
        · rw [if_neg hh]
          have hnone : R1.reg (ind a) = none := by
            rw [← hg.inv.abs _ hab]
            cases hx2 : R1.get (ind a) with
            | none => rfl
            | some v => exact absurd ((has_iff _ _).mpr ⟨v, hx2⟩) hh
          obtain ⟨k1, k2, k3⟩ := hal R1 u (ind a) hg.inv (hg.ext _ _ hu)
            ⟨ind, x, a, hi, hx, rfl, hg.ext _ _ ha1, ha2, hg.ext _ _ hu⟩ hnone
          refine ⟨k1, fun hok => ⟨(k2 hok).1, u, (k2 hok).2⟩, ?_⟩
          generalize (al R1 (H.name u) (ind a)) = o2 at k3
          obtain ⟨R3, r3⟩ := o2
          cases r3 with
          | ok v => trivial
          | exn e => exact k3
          | ub => exact k3
          | fuel => exact fun hf => k3 (hF ind hi hf))
    obtain ⟨k1, k2, k3⟩ := this
    refine ⟨k1, fun hok => ?_, k3⟩
    obtain ⟨k2a, k2b⟩ := k2 hok
    refine ⟨k2a, ?_⟩
    intro ind' x' a e1 e2 e3 e4
    cases e1; cases e2
    exact k2b a ((mem_getAliasesOf h.toGInv x a).mpr ⟨e3, e4⟩)

/-- Indirect types are built on existing types: an element is older than the type built on it. -/
def Acyclic (H : Heap) : Prop := ∀ u x, (H.kind u).elem? = some x → x < u

theorem mem_triggers {R : Reg} (h : GInv key H R) {t u : TId} :
    u ∈ triggers H R t ↔ R.reg (H.name u) = some u ∧ t ∈ H.deps u := by
  unfold triggers
  simp only [List.mem_map, List.mem_filter, Bool.and_eq_true, Bool.not_eq_true', isAlias, bne_eq_false_iff_eq,
    List.contains_iff_mem]
  constructor
  · rintro ⟨p, ⟨h1, h2, h3⟩, rfl⟩
    have := mem_reg h.sorted h1
    rw [h2] at this
    exact ⟨this, by simpa using h3⟩
  · rintro ⟨h1, h2⟩
    obtain ⟨e, he, rfl⟩ := reg_mem h1
    exact ⟨(H.name e.ty, e), ⟨he, rfl, by simpa using h2⟩, rfl⟩

/-- `alias`: full specification -/
theorem aliasF_spec (hk : ∀ a b, key a = key b → a = b) (hac : Acyclic H) : ∀ (f : Nat) (R : Reg)
    (base new : Str) (p : Bool) (src : Str) (t : TId),
    Inv key H R → isAbsoluteName new = true → R.get base = some t → R.reg (H.name t) = some t →
    let o := aliasF key H f R base new p src
    (Inv key H o.1 ∧ o.1.ns = R.ns ∧ (∀ n u, R.reg n = some u → o.1.reg n = some u) ∧
      (∀ n u, New R o.1 n u → (n = new ∧ u = t) ∨ Derived H o.1 n u) ∧
      (∀ n u, New R o.1 n u → R.reg (H.name u) = some u)) ∧
    (o.2 = .ok () → o.1.reg new = some t ∧
      (∀ n u, New R o.1 n u ∨ (n = new ∧ u = t ∧ n ≠ H.name t) → ClosedAt H o.1 n u)) ∧
    (match o.2 with
      | .ok _ => True
      | .exn e => (e = .badName ∧ ((isValidTypename new true = false ∧ o.1 = R) ∨ BadDerived H o.1)) ∨
          (e = .alreadyDefined ∧ o.1 = R ∧ ∃ u, R.reg new = some u ∧ u ≠ t)
      | .ub => False
      | .fuel => H.next - t < f → False) := by
  intro f
  induction f with
  | zero =>
    intro R base new p src t h habs hb ht
    refine ⟨⟨h, rfl, fun _ _ h => h, ?_, ?_⟩, (fun h => by cases h), fun h => by omega⟩ <;>
    · rintro n u ⟨h1, h2⟩
      simp only [aliasF] at h2
      rw [h1] at h2; cases h2
  | succ f ih =>
    intro R base new p src t h habs hb ht o
    have ho : o = aliasF key H (f + 1) R base new p src := rfl
    unfold aliasF at ho
    have hnoNew : ∀ n u, ¬ New R R n u := by
      rintro n u ⟨h1, h2⟩; rw [h1] at h2; cases h2
    by_cases hv : isValidTypename new true = true
    · rw [hv] at ho
      simp only [Bool.not_true, Bool.false_eq_true, if_false, hb] at ho
      have hal := (h.reg_name ht).2.2.2
      obtain ⟨hinv1, hns1, hcases⟩ := addName_spec hk h new t p src habs (Or.inr ht) hal
      generalize addName key H R new t p src = a at ho hinv1 hns1 hcases
      obtain ⟨R1, r1⟩ := a
      simp only at ho hinv1 hns1 hcases
      -- the recursive call
      have hspec : AlSpec key H (fun R b n => aliasF key H f R b n false []) (fun u => H.next - u < f) := by
        intro R' u n hi hu hd hn
        have hab : isAbsoluteName n = true := by
          obtain ⟨ind, x, a, e1, e2, e3, e4, e5, e6⟩ := hd
          rw [e3]; exact indirect_abs e1 (hi.reg_name e4).2.1
        have hgu : R'.get (H.name u) = some u := by
          rw [hi.abs _ (hi.reg_name hu).2.1]; exact hu
        obtain ⟨⟨i1, i2, i3, i4, i5⟩, i6, i7⟩ := ih R' (H.name u) n false [] u hi hab hgu hu
        have hgrow : Grow key H R' (aliasF key H f R' (H.name u) n false []).1 := by
          refine ⟨i1, i2, i3, ?_, i5⟩
          intro m v hm
          rcases i4 m v hm with ⟨rfl, rfl⟩ | hm
          · exact hd.mono i3
          · exact hm
        refine ⟨hgrow, fun hok => ?_, ?_⟩
        · obtain ⟨j1, j2⟩ := i6 hok
          exact ⟨⟨hgrow, fun m v hm => j2 m v (Or.inl hm)⟩, j1⟩
        · simp only
          generalize (aliasF key H f R' (H.name u) n false []).2 = r at i7
          cases r with
          | ok v => trivial
          | exn e =>
            simp only at i7
            rcases i7 with ⟨e1, e2⟩ | ⟨_, _, v, hv2, _⟩
            · refine ⟨e1, ?_⟩
              rcases e2 with ⟨e2, e3⟩ | e2
              · exact ⟨n, u, hd.mono i3, e2⟩
              · exact e2
            · rw [hn] at hv2; cases hv2
          | ub => exact i7
          | fuel => exact fun hf => i7 hf
      have hmain : R1.reg new = some t → (∀ n u, R.reg n = some u → R1.reg n = some u) →
          (∀ n u, New R R1 n u → n = new ∧ u = t) → r1 = .ok () →
          (Inv key H o.1 ∧ o.1.ns = R.ns ∧ (∀ n u, R.reg n = some u → o.1.reg n = some u) ∧
            (∀ n u, New R o.1 n u → (n = new ∧ u = t) ∨ Derived H o.1 n u) ∧
            (∀ n u, New R o.1 n u → R.reg (H.name u) = some u)) ∧
          (o.2 = .ok () → o.1.reg new = some t ∧
            (∀ n u, New R o.1 n u ∨ (n = new ∧ u = t ∧ n ≠ H.name t) → ClosedAt H o.1 n u)) ∧
          PropOut H o.1 (H.next - t < f + 1) o.2 := by
        intro hR1 hext hnew hr1
        rw [hr1] at ho
        simp only at ho
        have hprim1 : ∀ n u, New R R1 n u → R.reg (H.name u) = some u := by
          intro n u hn; rw [(hnew n u hn).2]; exact ht
        obtain ⟨g1, g2, g3⟩ := forEach_spec (key := key) (H := H)
          (modDep (fun R b n => aliasF key H f R b n false []) H)
          (fun u R => ∀ ind x a, (H.kind u).indirectName = some ind → (H.kind u).elem? = some x →
            R1.reg a = some x → a ≠ H.name x → ∃ v, R.reg (ind a) = some v)
          (H.next - t < f + 1)
          (by
            intro u R2 R3 hq hg ind x a e1 e2 e3 e4
            obtain ⟨v, hv⟩ := hq ind x a e1 e2 e3 e4
            exact ⟨v, hg.ext _ _ hv⟩)
          (triggers H R1 t) R1 hinv1 (by
            intro u hu R2 hg
            obtain ⟨hu1, hu2⟩ := (mem_triggers hinv1.toGInv).mp hu
            obtain ⟨k1, k2, k3⟩ := modDep_spec (F := H.next - t < f + 1) hspec u (by
              intro ind hi hf
              obtain ⟨x, hx1, hx2⟩ := indirect_deps hi
              have hxt : t = x := by simpa [Heap.deps, hx2] using hu2
              have hlt : @LT.lt Nat _ x u := hac u x hx1
              subst hxt
              have hult : @LT.lt Nat _ u H.next := (hinv1.reg_name hu1).2.2.2
              have hf' : @LT.lt Nat _ (H.next - t) (f + 1) := hf
              show @LT.lt Nat _ (H.next - u) f
              omega) R2 hg.inv (hg.ext _ _ hu1)
            refine ⟨k1, fun hok => ⟨(k2 hok).1, ?_⟩, k3⟩
            intro ind x a e1 e2 e3 e4
            exact (k2 hok).2 ind x a e1 e2 (hg.ext _ _ e3) e4)
        rw [← ho] at g1 g2 g3
        refine ⟨⟨g1.inv, g1.ns.trans hns1, fun n u hn => g1.ext n u (hext n u hn), ?_, ?_⟩, ?_, g3⟩
        · intro n u hn
          rcases new_cases g1.ext hn with hn | hn
          · exact Or.inl (hnew n u hn)
          · exact Or.inr (g1.der n u hn)
        · intro n u hn
          rcases new_cases g1.ext hn with hn | hn
          · exact hprim1 n u hn
          · exact reg_same hext hprim1 (g1.prim n u hn)
        · intro hok
          obtain ⟨j1, j2⟩ := g2 hok
          refine ⟨g1.ext _ _ hR1, ?_⟩
          have hroot : new ≠ H.name t → ClosedAt H o.1 new t := by
            intro hne u ind e1 e2 e3
            have hu1 := reg_same j1.ext j1.prim e1
            obtain ⟨x, hx1, hx2⟩ := indirect_deps e2
            rw [e3] at hx1; cases hx1
            exact j2 u ((mem_triggers hinv1.toGInv).mpr ⟨hu1, by simp [Heap.deps, hx2]⟩) ind t new e2 e3 hR1 hne
          intro n u hn
          rcases hn with hn | ⟨rfl, rfl, hn⟩
          · rcases new_cases g1.ext hn with hn' | hn'
            · obtain ⟨rfl, rfl⟩ := hnew n u hn'
              apply hroot
              intro he
              rw [← he] at ht
              have := hn'.1
              rw [ht] at this
              cases this
            · exact j1.clo n u hn'
          · exact hroot hn
      have hweak : ∀ r : Res Unit, PropOut H o.1 (H.next - t < f + 1) r →
          (match r with
            | .ok _ => True
            | .exn e => (e = .badName ∧ ((isValidTypename new true = false ∧ o.1 = R) ∨ BadDerived H o.1)) ∨
                (e = .alreadyDefined ∧ o.1 = R ∧ ∃ u, R.reg new = some u ∧ u ≠ t)
            | .ub => False
            | .fuel => H.next - t < f + 1 → False) := by
        intro r hr
        cases r with
        | ok v => trivial
        | exn e => exact Or.inl ⟨hr.1, Or.inr hr.2⟩
        | ub => exact hr
        | fuel => exact hr
      rcases hcases with ⟨e1, e2, e3⟩ | ⟨e1, e2, e3⟩ | ⟨e1, e2, e3⟩ | ⟨e1, e2, e3, e4⟩
      · rw [hv] at e2; cases e2
      · rw [e1, e2] at ho
        simp only at ho
        rw [ho]
        exact ⟨⟨h, rfl, fun _ _ h => h, fun n u hn => absurd hn (hnoNew n u),
          fun n u hn => absurd hn (hnoNew n u)⟩, (fun h => by cases h), Or.inr ⟨rfl, rfl, e3⟩⟩
      · obtain ⟨m1, m2, m3⟩ := hmain (by rw [e2]; exact e3) (by rw [e2]; exact fun _ _ h => h)
          (by rw [e2]; exact fun n u hn => absurd hn (hnoNew n u)) e1
        exact ⟨m1, m2, hweak _ m3⟩
      · obtain ⟨m1, m2, m3⟩ := hmain (by rw [e4]; simp)
          (by
            intro n u hn
            rw [e4]
            split
            · rename_i he; rw [he, e2] at hn; cases hn
            · exact hn)
          (by
            rintro n u ⟨h1, h2⟩
            rw [e4] at h2
            split at h2
            · rename_i he; cases h2; exact ⟨he, rfl⟩
            · rw [h1] at h2; cases h2) e1
        exact ⟨m1, m2, hweak _ m3⟩
    · have hv' : isValidTypename new true = false := by simpa using hv
      rw [hv'] at ho
      simp only [Bool.not_false, if_true] at ho
      rw [ho]
      exact ⟨⟨h, rfl, fun _ _ h => h, fun n u hn => absurd hn (hnoNew n u),
          fun n u hn => absurd hn (hnoNew n u)⟩, (fun h => by cases h), Or.inl ⟨rfl, Or.inl ⟨hv', rfl⟩⟩⟩

end Verif.Registry
