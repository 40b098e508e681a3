import Verif.MergeProps

/-! Property C30: what `Registry::minimal` does. -/

namespace Verif.Merge
open Verif Verif.Names Verif.Graph Verif.Registry Verif.TypeBuilder

set_option linter.unusedSimpArgs false
set_option linter.unusedVariables false

variable {key : Char → Int}

/-! ### Proof -/

theorem Source.sub {H : Heap} {S S' : TId → Prop} (hs : Source H S) (hsub : ∀ u, S' u → S u)
    (hcl : ∀ u d, S' u → d ∈ H.deps u → S' d) : Source H S' :=
  ⟨fun u hu => hs.alloc u (hsub u hu), fun u hu => hs.valid u (hsub u hu), fun u hu => hs.abs u (hsub u hu),
    fun u v hu hv => hs.inj u v (hsub u hu) (hsub v hv),
    hcl, fun u e hu => hs.noloop u e (hsub u hu),
    fun u d e hu => hs.arr u d e (hsub u hu), fun u e hu => hs.ptr u e (hsub u hu),
    fun u e hu => hs.vec u e (hsub u hu), fun u e hu => hs.str u e (hsub u hu)⟩

theorem DepStar.regd {H : Heap} {src : Reg} (hc : Copyable H src) {t u : TId} (h : DepStar H t u)
    (ht : Regd H src t) : Regd H src u := by
  induction h with
  | refl => exact ht
  | step _ hd ih => exact hc.deps _ _ ih hd

theorem desc_names {nm nm' : TId → Str} {k k' : Kind} (h : Kind.desc nm k = Kind.desc nm' k') :
    k.deps.map nm = k'.deps.map nm' := by
  cases k <;> cases k' <;> simp only [Kind.desc] at h <;> try (cases h; done)
  case null.null => rfl
  case opaque.opaque => rfl
  case num.num => rfl
  case enum.enum => rfl
  case arr.arr => simp only [Kind.deps, Kind.elem?, Option.toList, List.map_cons, List.map_nil]; simp_all
  case ptr.ptr => simp only [Kind.deps, Kind.elem?, Option.toList, List.map_cons, List.map_nil]; simp_all
  case vec.vec => simp only [Kind.deps, Kind.elem?, Option.toList, List.map_cons, List.map_nil]; simp_all
  case str.str => simp only [Kind.deps, Kind.elem?, Option.toList, List.map_cons, List.map_nil]; simp_all
  case comp.comp fs gs =>
    simp only [Desc.comp.injEq] at h
    simp only [Kind.deps, List.map_map]
    have := congrArg (List.map (fun x : Str × Nat × Str => x.2.2)) h
    simp only [List.map_map] at this
    exact this

/-- types of the same definition have components of the same names -/
theorem definition_deps {H : Heap} {t u : TId} (h : definition H t = definition H u) :
    (H.deps t).map H.name = (H.deps u).map H.name :=
  desc_names (by simpa only [definition] using congrArg (fun x : Str × Nat × Desc => x.2.2) h)

/-- what a registered copy is made of is registered -/
theorem J.closure {H0 : Heap} {R0 : Reg} {S base : TId → Prop} {s : MSt}
    (h : J key H0 R0 S base [] s) (hs : Source H0 S) {u : TId} (hu : S u) (ht : ∃ t, s.R.reg (H0.name u) = some t) {v : TId}
    (hv : DepStar H0 u v) : S v ∧ ∃ t, s.R.reg (H0.name v) = some t := by
  induction hv with
  | refl => exact ⟨hu, ht⟩
  | @step w d hw hd ih =>
    obtain ⟨hw, t, ht⟩ := ih
    have hSd := hs.deps w d hw hd
    refine ⟨hSd, ?_⟩
    have h1 := definition_deps (h.compat w t hw ht)
    have hd' : d ∈ s.H.deps w := by
      unfold Heap.deps
      rw [h.kind hs hw]
      exact hd
    have : s.H.name d ∈ (s.H.deps t).map s.H.name := by
      rw [h1]
      exact List.mem_map.mpr ⟨d, hd', rfl⟩
    obtain ⟨x, hx, hxn⟩ := List.mem_map.mp this
    have := h.restart.baseC t x (h.inv.reg_name ht).2.2.1 hx
    unfold Reg.regd at this
    rw [hxn, h.name hs hSd] at this
    exact ⟨x, this⟩

theorem minimalAliases_spec (hk : ∀ a b, key a = key b → a = b) {H : Heap} (hac : Acyclic H) {R1 : Reg} {P : Str → Prop}
    (hP : ∀ n k ind, P n → Kind.indirectName k = some ind → P (ind n)) :
    ∀ (l : List (Str × Entry)) (s : MSt), s.H = H → Aliased key H R1 P s.R →
      (∀ p ∈ l, isAbsoluteName p.1 = true ∧ isValidTypename p.1 true = true ∧
        (p.1 ≠ H.name p.2.ty → P p.1) ∧ isAbsoluteName (H.name p.2.ty) = true) →
    let o := minimalAliases key l s
    o.1.H = H ∧ (∀ n t, s.R.reg n = some t → o.1.R.reg n = some t) ∧ Aliased key H R1 P o.1.R ∧
    ((o.2 = .ok () ∧ ∀ p ∈ l, p.1 ≠ H.name p.2.ty → ∀ t, s.R.reg (H.name p.2.ty) = some t → o.1.R.reg p.1 = some t) ∨
      ((o.2 = .exn .badName ∨ o.2 = .exn .alreadyDefined) ∧ ∃ p ∈ l, p.1 ≠ H.name p.2.ty)) := by
  intro l
  induction l with
  | nil => intro s hH h _; exact ⟨hH, fun _ _ h => h, h, Or.inl ⟨rfl, by simp⟩⟩
  | cons p l ih =>
    intro s hH h hl
    obtain ⟨p1, p2, p4, p5⟩ := hl p (by simp)
    have hl' : ∀ q ∈ l, _ := fun q hq => hl q (by simp [hq])
    have hgo : ∀ s' : MSt, s'.H = H → Aliased key H R1 P s'.R → (∀ n t, s.R.reg n = some t → s'.R.reg n = some t) →
        (p.1 ≠ H.name p.2.ty → ∀ t, s.R.reg (H.name p.2.ty) = some t → s'.R.reg p.1 = some t) →
        (minimalAliases key l s').1.H = H ∧ (∀ n t, s.R.reg n = some t → (minimalAliases key l s').1.R.reg n = some t) ∧
        Aliased key H R1 P (minimalAliases key l s').1.R ∧
        (((minimalAliases key l s').2 = .ok () ∧ ∀ q ∈ p :: l, q.1 ≠ H.name q.2.ty → ∀ t, s.R.reg (H.name q.2.ty) = some t →
            (minimalAliases key l s').1.R.reg q.1 = some t) ∨
          (((minimalAliases key l s').2 = .exn .badName ∨ (minimalAliases key l s').2 = .exn .alreadyDefined) ∧
            ∃ q ∈ p :: l, q.1 ≠ H.name q.2.ty)) := by
      intro s' h1 h2 h3 h4
      obtain ⟨i1, i2, i3, i4⟩ := ih s' h1 h2 hl'
      refine ⟨i1, fun n t hn => i2 n t (h3 n t hn), i3, ?_⟩
      rcases i4 with ⟨j1, j2⟩ | ⟨j1, q, j2, j3⟩
      · refine Or.inl ⟨j1, ?_⟩
        intro q hq hqn t ht
        rcases List.mem_cons.mp hq with rfl | hq
        · exact i2 _ _ (h4 hqn t ht)
        · exact j2 q hq hqn t (h3 _ _ ht)
      · exact Or.inr ⟨j1, q, by simp [j2], j3⟩
    unfold minimalAliases
    by_cases ha : isAlias s.H p = true
    · have hne : p.1 ≠ H.name p.2.ty := by rw [isAlias_iff, hH] at ha; exact ha
      rw [ha]
      simp only [Bool.not_true, Bool.false_eq_true, if_false]
      cases hg : s.R.get (s.H.name p.2.ty) with
      | none =>
        have hnone : s.R.reg (H.name p.2.ty) = none := by
          rw [hH, h.inv.abs _ p5] at hg
          exact hg
        rw [if_neg (by rw [Registry.has_iff]; simp [hg])]
        refine hgo s hH h (fun _ _ h => h) ?_
        intro _ t ht
        rw [hnone] at ht; cases ht
      | some t0 =>
        rw [if_pos (by rw [Registry.has_iff]; exact ⟨t0, hg⟩)]
        have hr0 : s.R.reg (H.name p.2.ty) = some t0 := by
          rw [hH, h.inv.abs _ p5] at hg
          exact hg
        unfold aliasAuto
        rw [hg]
        simp only
        rw [hH] at hg ⊢
        obtain ⟨c1, c2, c3⟩ := alias_step hk hac hP h hg p1 p2 (p4 hne) (isPersistent H p.1 t0) []
        generalize alias key H s.R (H.name p.2.ty) p.1 (isPersistent H p.1 t0) [] = x at c1 c2 c3
        obtain ⟨R2, r2⟩ := x
        simp only at c1 c2 c3
        rcases c3 with ⟨rfl, e2⟩ | rfl | ⟨rfl, v, e2, _⟩
        · simp only [onReg, andThen_ok]
          refine hgo { s with R := R2 } hH c2 c1 ?_
          intro _ t ht
          rw [hr0] at ht; cases ht
          exact e2
        · simp only [onReg, andThen_exn]
          exact ⟨hH, c1, c2, Or.inr ⟨Or.inl trivial, p, by simp, hne⟩⟩
        · simp only [onReg, andThen_exn]
          exact ⟨hH, c1, c2, Or.inr ⟨Or.inr trivial, p, by simp, hne⟩⟩
    · have ha' : isAlias s.H p = false := by simpa using ha
      rw [ha']
      simp only [Bool.not_false, if_true]
      refine hgo s hH h (fun _ _ h => h) ?_
      intro hne
      rw [isAlias_iff, hH] at ha
      exact absurd hne ha

/-- Everything known of the result: `S` are the types that must have been copied, `R` the tables at the start. -/
structure Copied (key : Char → Int) (H : Heap) (R src : Reg) (S : TId → Prop) (w : World) : Prop where
  inv : Inv key w.1 w.2
  objects : ∀ t, t < H.next → w.1.get t = H.get t
  kept : ∀ n t, R.reg n = some t → w.2.reg n = some t
  types : ∀ u, S u → ∃ t, w.2.reg (H.name u) = some t ∧ definition w.1 t = definition H u
  closed : ∀ t d, w.2.regd w.1 t → d ∈ w.1.deps t → w.2.regd w.1 d
  only : ∀ t, w.2.regd w.1 t → R.regd H t ∨ ∃ u, S u ∧ w.1.name t = H.name u
  names : ∀ n t, w.2.reg n = some t → n = w.1.name t ∨ AliasName H R src n
  disjoint : ∀ u, S u → ¬ w.2.regd w.1 u

theorem Aliased.copied {H : Heap} {R src : Reg} {S base : TId → Prop} {s1 s2 : MSt}
    (hs : Source H S) (hwf : WF H) (hJ : J key H R S base [] s1) (ha1 : s2.H = s1.H)
    (ha : Aliased key s1.H s1.R (AliasName H R src) s2.R) (hall : ∀ u, S u → ∃ t, s1.R.reg (H.name u) = some t)
    (l : List (Str × Entry)) : Copied key H R src S (s2.H, copySourceIDs s2.H s2.R l) := by
  have ha' : Inv key s2.H s2.R := by rw [ha1]; exact ha.inv
  obtain ⟨c1, c2, c3⟩ := copySourceIDs_spec l s2.R ha'
  have hregd : ∀ t, (copySourceIDs s2.H s2.R l).regd s2.H t ↔ s1.R.regd s1.H t := by
    intro t
    unfold Reg.regd
    rw [c2, ha1]
    exact ⟨fun h => ha.regd t h, fun h => ha.ext _ _ h⟩
  refine ⟨c1, ?_, ?_, ?_, ?_, ?_, ?_, fun u hu h => hJ.disj u hu ((hregd u).mp h)⟩
  · intro t ht
    simp only [ha1]
    exact hJ.old t ht
  · intro n t hn
    simp only [c2]
    exact ha.ext _ _ (hJ.ext n t hn)
  · intro u hu
    obtain ⟨t, ht⟩ := hall u hu
    refine ⟨t, by simp only [c2]; exact ha.ext _ _ ht, ?_⟩
    simp only [ha1]
    rw [hJ.compat u t hu ht]
    have hlt := hs.alloc u hu
    exact definition_congr (hJ.old u hlt) (fun d hd => by
      unfold Heap.name
      rw [hJ.old d (hwf.deps u d hlt hd)])
  · intro t d ht hd
    simp only at ht hd ⊢
    rw [hregd] at ht ⊢
    rw [ha1] at hd
    exact hJ.restart.baseC t d ht hd
  · intro t ht
    simp only at ht
    rw [hregd] at ht
    simp only [ha1]
    rcases hJ.new t ht with h | ⟨u, h1, h2⟩
    · exact Or.inl h
    · exact Or.inr ⟨u, h1, h2.symm⟩
  · intro n t hn
    simp only [c2] at hn
    simp only [ha1]
    by_cases hne : n = s1.H.name t
    · exact Or.inl hne
    · exact Or.inr (ha.alia n t hn hne)

theorem minimal_spec (hk : ∀ a b, key a = key b → a = b) {H : Heap} {fresh src : Reg}
    (hi : Inv key H src) (hc : Copyable H src) {name : Str} {t : TId} (ht : src.get name = some t)
    (hd : Dest key H fresh (DepStar H t)) {fuel : Nat} (hf : (H.next + 1) * (H.next + 1) ≤ fuel) (aliases : Bool) :
    let o := minimal key fuel H src fresh name aliases
    (∀ t, t < H.next → o.1.1.get t = H.get t) ∧
    ((o.2 = .ok () ∧ Copied key H fresh src (DepStar H t) o.1 ∧
        (aliases = true → ∀ n u v, src.reg n = some u → n ≠ H.name u → o.1.2.regd o.1.1 v → o.1.1.name v = H.name u →
          o.1.2.reg n = some v)) ∨
     ((o.2 = .exn .badName ∨ o.2 = .exn .alreadyDefined) ∧
       ((∃ n, FromAlias H fresh n) ∨ (aliases = true ∧ ∃ n, FromAlias H src n)))) := by
  intro o
  have ho : o = minimal key fuel H src fresh name aliases := rfl
  unfold minimal at ho
  rw [ht] at ho
  simp only at ho
  have hrt : Regd H src t := (hi.regd_iff t).mpr (hi.get_regd ht)
  have hs : Source H (DepStar H t) := (hc.source hi).sub (fun u hu => hu.regd hc hrt) (fun u d hu hd => .step hu hd)
  have hJ := hd.start hs
  obtain ⟨hkept, hpost⟩ := mergeF_spec hk hs hd.aliases fuel [] ⟨H, fresh, []⟩ t hJ .refl (weight_start (hs.alloc _ .refl) hf)
    (fun _ _ h => by cases h)
  generalize mergeF key fuel ⟨H, fresh, []⟩ t = x at ho hkept hpost
  obtain ⟨s1, r1⟩ := x
  simp only at hkept hpost
  rcases hpost with ⟨t', rfl, hJ1, ht' | ht', _⟩ | ⟨rfl, n, hn⟩
  · simp only [andThen_ok] at ho
    have hall : ∀ u, DepStar H t u → ∃ t, s1.R.reg (H.name u) = some t := fun u hu => (hJ1.closure hs .refl ⟨t', ht'⟩ hu).2
    have hA : Aliased key s1.H s1.R (AliasName H fresh src) s1.R :=
      ⟨hJ1.inv, fun _ _ h => h, fun _ h => h, fun n t h1 h2 => Or.inl (hJ1.alia n t h1 h2)⟩
    cases aliases with
    | false =>
      simp only [Bool.false_eq_true, if_false] at ho
      rw [ho]
      exact ⟨fun t ht => hJ1.old t ht, Or.inl ⟨rfl, hA.copied hs hd.wf hJ1 rfl hall src.global, fun h => by cases h⟩⟩
    | true =>
      simp only [if_true] at ho
      have hnm : ∀ p ∈ src.global, s1.H.name p.2.ty = H.name p.2.ty := by
        intro p hp
        unfold Heap.name
        rw [hJ1.old _ (hi.reg_name (mem_reg hi.sorted hp)).2.2.2]
      obtain ⟨a1, a2, a3, a4⟩ := minimalAliases_spec hk hJ1.ac AliasName.step src.global s1 rfl hA (by
        intro p hp
        have hr := mem_reg hi.sorted hp
        have hpr := (hi.reg_name hr).2.2.1
        refine ⟨(hi.names p hp).2, (hi.names p hp).1, ?_, ?_⟩
        · intro hne
          rw [hnm p hp] at hne
          exact Or.inr (.alias hr hne)
        · rw [hnm p hp]
          exact (hi.reg_name hpr).2.1)
      generalize minimalAliases key src.global s1 = y at ho a1 a2 a3 a4
      obtain ⟨s2, r2⟩ := y
      simp only at a1 a2 a3 a4 ho
      rcases a4 with ⟨rfl, a5⟩ | ⟨a5, p, hp, hne⟩
      · simp only at ho
        rw [ho]
        refine ⟨fun t ht => by simp only [a1]; exact hJ1.old t ht,
          Or.inl ⟨rfl, a3.copied hs hd.wf hJ1 a1 hall src.global, ?_⟩⟩
        intro _ n u v hn hne hv hvn
        have a3' : Inv key s2.H s2.R := by rw [a1]; exact a3.inv
        obtain ⟨c1, c2, c3⟩ := copySourceIDs_spec src.global s2.R a3'
        simp only at hv hvn ⊢
        have hv1 : s1.R.regd s1.H v := by
          refine a3.regd v ?_
          unfold Reg.regd at hv ⊢
          rw [c2, a1] at hv
          exact hv
        obtain ⟨e, he, rfl⟩ := reg_mem hn
        rw [c2]
        refine a5 (n, e) he (by simp only; rw [hnm _ he]; exact hne) v ?_
        simp only
        rw [hnm _ he, ← hvn, a1]
        exact hv1
      · have hfin : o.1 = (s2.H, s2.R) ∧ o.2 = r2 := by
          rcases a5 with rfl | rfl <;> rw [ho] <;> exact ⟨rfl, rfl⟩
        rw [hfin.1, hfin.2]
        refine ⟨fun t ht => by simp only [a1]; exact hJ1.old t ht, Or.inr ⟨a5, Or.inr ⟨rfl, p.1, ?_⟩⟩⟩
        rw [hnm p hp] at hne
        exact .alias (mem_reg hi.sorted hp) hne
  · cases ht'
  · simp only [andThen_exn] at ho
    rw [ho]
    exact ⟨hkept.get, Or.inr ⟨Or.inl rfl, Or.inl ⟨n, hn⟩⟩⟩

theorem FromAlias.none {H : Heap} {Q : Reg} (hQ : Inv key H Q)
    (hno : ∀ n t, Q.get n = some t → isAbsoluteName n = true → n = H.name t) (m : Str) : ¬ FromAlias H Q m := by
  intro hfa
  induction hfa with
  | alias h1 h2 =>
    have := hQ.reg_name h1
    exact h2 (hno _ _ (by rw [hQ.abs _ this.2.1]; exact h1) this.2.1)
  | step _ _ ih => exact ih

/-- **C30**, `minimal(name)`: the types of the result are the ones `new Registry` provides and those the type is made of,
transitively; all of these are there, with their name and definition, and what registered types depend on is registered.
Names that are not the name of a type come from aliases. With aliases, each alias of the registry whose type is in the
result is in the result. Nothing existing changes. -/
theorem C30_minimal_partial (hk : ∀ a b, key a = key b → a = b) {H : Heap} {fresh src : Reg}
    (hsrc : Reachable key H src) (hc : Copyable H src) (name : Str) (t : TId) (ht : src.get name = some t)
    (hd : Dest key H fresh (DepStar H t)) (fuel : Nat) (hf : (H.next + 1) * (H.next + 1) ≤ fuel) (aliases : Bool) :
    let o := minimal key fuel H src fresh name aliases
    (∀ t, t < H.next → o.1.1.get t = H.get t) ∧
    (o.2 = .ok () →
      (∀ v, Regd o.1.1 o.1.2 v → Regd H fresh v ∨ ∃ u, DepStar H t u ∧ definition o.1.1 v = definition H u) ∧
      (∀ u, DepStar H t u → ∃ v, Regd o.1.1 o.1.2 v ∧ definition o.1.1 v = definition H u ∧ o.1.2.get (H.name u) = some v) ∧
      (∀ v d, Regd o.1.1 o.1.2 v → d ∈ o.1.1.deps v → Regd o.1.1 o.1.2 d) ∧
      (∀ v, Regd H fresh v → Regd o.1.1 o.1.2 v) ∧
      (∀ n v, isAbsoluteName n = true → o.1.2.get n = some v → n = o.1.1.name v ∨ AliasName H fresh src n) ∧
      (aliases = true → ∀ n u v, isAbsoluteName n = true → src.get n = some u → o.1.2.get (H.name u) = some v →
        Regd o.1.1 o.1.2 v → o.1.1.name v = H.name u → o.1.2.get n = some v)) := by
  intro o
  have hi := (reachable_inv hk hsrc).2
  obtain ⟨h1, h2⟩ := minimal_spec hk hi hc ht hd hf aliases
  refine ⟨h1, ?_⟩
  intro hok
  rcases h2 with ⟨_, h2, h3⟩ | ⟨h2 | h2, _⟩
  · have hC : Copied key H fresh src (DepStar H t) o.1 := h2
    have hregd : ∀ v, Regd o.1.1 o.1.2 v ↔ o.1.2.regd o.1.1 v := hC.inv.regd_iff
    have hrt : Regd H src t := (hi.regd_iff t).mpr (hi.get_regd ht)
    have hS := hc.source hi
    refine ⟨?_, ?_, ?_, ?_, ?_, ?_⟩
    · intro v hv
      rw [hregd] at hv
      rcases hC.only v hv with h | ⟨u, e1, e2⟩
      · exact Or.inl ((hd.inv.regd_iff v).mpr h)
      · refine Or.inr ⟨u, e1, ?_⟩
        obtain ⟨v', e3, e4⟩ := hC.types u e1
        unfold Reg.regd at hv
        rw [e2, e3] at hv
        cases hv
        exact e4
    · intro u hu
      obtain ⟨v, e3, e4⟩ := hC.types u hu
      refine ⟨v, (hregd v).mpr (hC.inv.reg_name e3).2.2.1, e4, ?_⟩
      rw [hC.inv.abs _ (hS.abs u (hu.regd hc hrt))]
      exact e3
    · intro v d hv hdd
      rw [hregd] at hv ⊢
      exact hC.closed v d hv hdd
    · intro v hv
      rw [hregd]
      have := (hd.inv.regd_iff v).mp hv
      have hlt := (hd.inv.reg_name this).2.2.2
      unfold Reg.regd
      rw [show o.1.1.name v = H.name v by unfold Heap.name; rw [show o.1.1.get v = _ from hC.objects v hlt]]
      exact hC.kept _ _ this
    · intro n v hn hv
      rw [hC.inv.abs n hn] at hv
      exact hC.names n v hv
    · intro ha n u v hn hu hv hrv hname
      rw [hC.inv.abs n hn]
      rw [hi.abs n hn] at hu
      by_cases hne : n = H.name u
      · rw [hne, ← hname]
        exact (hregd v).mp hrv
      · exact h3 ha n u v hu hne ((hregd v).mp hrv) hname
  · rw [show o.2 = _ from h2] at hok; cases hok
  · rw [show o.2 = _ from h2] at hok; cases hok

/-- **C30**: `minimal(name)` ends, and succeeds when no aliases are involved. -/
theorem C30_minimal_succeeds_partial (hk : ∀ a b, key a = key b → a = b) {H : Heap} {fresh src : Reg}
    (hsrc : Reachable key H src) (hc : Copyable H src) (name : Str) (t : TId) (ht : src.get name = some t)
    (hd : Dest key H fresh (DepStar H t)) (fuel : Nat) (hf : (H.next + 1) * (H.next + 1) ≤ fuel) (aliases : Bool) :
    let o := minimal key fuel H src fresh name aliases
    (o.2 = .ok () ∨ o.2 = .exn .badName ∨ o.2 = .exn .alreadyDefined) ∧
    ((∀ n t, fresh.get n = some t → isAbsoluteName n = true → n = H.name t) →
     (aliases = true → ∀ n t, src.get n = some t → isAbsoluteName n = true → n = H.name t) → o.2 = .ok ()) := by
  intro o
  have hi := (reachable_inv hk hsrc).2
  obtain ⟨_, h2⟩ := minimal_spec hk hi hc ht hd hf aliases
  refine ⟨?_, ?_⟩
  · rcases h2 with ⟨h2, _⟩ | ⟨h2, _⟩
    · exact Or.inl h2
    · exact Or.inr h2
  · intro hR hS
    rcases h2 with ⟨h2, _⟩ | ⟨_, ⟨n, hn⟩ | ⟨ha, n, hn⟩⟩
    · exact h2
    · exact absurd hn (FromAlias.none hd.inv hR n)
    · exact absurd hn (FromAlias.none hi (hS ha) n)

/-- **C30**: an unknown name is reported, and nothing changes. -/
theorem C30_minimal_unknown (fuel : Nat) (H : Heap) (src fresh : Reg) (name : Str) (h : src.get name = none) (aliases : Bool) :
    minimal key fuel H src fresh name aliases = ((H, fresh), .exn .runtime) := by
  unfold minimal
  rw [h]

/-! ### `minimal(auto_types)` -/

/-- the types `auto` does not know (nor can build), and what they are made of -/
def Needed (H : Heap) (src auto : Reg) (u : TId) : Prop :=
  ∃ t, Regd H src t ∧ TypeBuilder.has auto (H.name t) true = .ok false ∧ DepStar H t u

/-- `auto.has(n)` throws -/
def Unanswered (auto : Reg) (n : Str) : Prop := ∀ b, TypeBuilder.has auto n true ≠ .ok b

theorem andThen_fail {α β : Type} {s : MSt} {r : Res α} (f : MSt → α → MSt × Res β) (h : ∀ a, r ≠ .ok a) :
    (andThen (s, r) f).1 = s ∧ ∀ b, (andThen (s, r) f).2 ≠ .ok b := by
  cases r with
  | ok a => exact absurd rfl (h a)
  | exn e => exact ⟨rfl, fun b => by simp⟩
  | ub => exact ⟨rfl, fun b hb => by simp only [andThen] at hb; cases hb⟩
  | fuel => exact ⟨rfl, fun b hb => by simp only [andThen] at hb; cases hb⟩

theorem minimalTypes_spec (hk : ∀ a b, key a = key b → a = b) {H0 : Heap} {R0 auto : Reg} {S : TId → Prop}
    (hs : Source H0 S) (hna : ∀ u, S u → ¬ FromAlias H0 R0 (H0.name u)) {fuel : Nat} (hf : (H0.next + 1) * (H0.next + 1) ≤ fuel) :
    ∀ (l : List (Str × Entry)) (s : MSt), (∀ p ∈ l, p.2.ty < H0.next) →
      (∀ p ∈ l, p.1 = H0.name p.2.ty → TypeBuilder.has auto p.1 true = .ok false → S p.2.ty) →
      (∃ base, J key H0 R0 S base [] s) →
    let o := minimalTypes key fuel auto l s
    Kept s o.1 ∧ ((o.2 = .ok () ∧ (∃ base, J key H0 R0 S base [] o.1) ∧
        ∀ p ∈ l, p.1 = H0.name p.2.ty → TypeBuilder.has auto p.1 true = .ok false → ∃ t, o.1.R.reg p.1 = some t) ∨
      (o.2 = .exn .badName ∧ ∃ n, FromAlias H0 R0 n) ∨
      (o.2 ≠ .ok () ∧ ∃ p ∈ l, p.1 = H0.name p.2.ty ∧ Unanswered auto p.1)) := by
  intro l
  induction l with
  | nil => intro s _ _ h; exact ⟨Kept.refl s, Or.inl ⟨rfl, h, by simp⟩⟩
  | cons p l ih =>
    intro s hlt hl hex0
    obtain ⟨base, h⟩ := hex0
    have hnm : s.H.name p.2.ty = H0.name p.2.ty := by
      unfold Heap.name
      rw [h.old _ (hlt p (by simp))]
    have hgo : ∀ s1 : MSt, Kept s s1 → (∃ base, J key H0 R0 S base [] s1) →
        (p.1 = H0.name p.2.ty → TypeBuilder.has auto p.1 true = .ok false → ∃ t, s1.R.reg p.1 = some t) →
        Kept s (minimalTypes key fuel auto l s1).1 ∧
        (((minimalTypes key fuel auto l s1).2 = .ok () ∧ (∃ base, J key H0 R0 S base [] (minimalTypes key fuel auto l s1).1) ∧
          ∀ q ∈ p :: l, q.1 = H0.name q.2.ty → TypeBuilder.has auto q.1 true = .ok false →
            ∃ t, (minimalTypes key fuel auto l s1).1.R.reg q.1 = some t) ∨
        ((minimalTypes key fuel auto l s1).2 = .exn .badName ∧ ∃ n, FromAlias H0 R0 n) ∨
        ((minimalTypes key fuel auto l s1).2 ≠ .ok () ∧ ∃ q ∈ p :: l, q.1 = H0.name q.2.ty ∧ Unanswered auto q.1)) := by
      intro s1 k1 hJ1 hp
      obtain ⟨i1, i2⟩ := ih s1 (fun q hq => hlt q (by simp [hq])) (fun q hq => hl q (by simp [hq])) hJ1
      refine ⟨k1.trans i1, ?_⟩
      rcases i2 with ⟨j1, j2, j3⟩ | j | ⟨j1, q, j2, j3⟩
      · refine Or.inl ⟨j1, j2, ?_⟩
        intro q hq he hhas
        rcases List.mem_cons.mp hq with rfl | hq
        · obtain ⟨t, ht⟩ := hp he hhas
          exact ⟨t, i1.ext _ _ ht⟩
        · exact j3 q hq he hhas
      · exact Or.inr (Or.inl j)
      · exact Or.inr (Or.inr ⟨j1, q, by simp [j2], j3⟩)
    unfold minimalTypes
    by_cases ha : isAlias s.H p = true
    · rw [if_pos ha]
      refine hgo s (Kept.refl s) ⟨base, h⟩ ?_
      intro he
      rw [isAlias_iff, hnm] at ha
      exact absurd he ha
    · rw [if_neg ha]
      have he : p.1 = H0.name p.2.ty := by
        rw [isAlias_iff, hnm] at ha
        exact Classical.not_not.mp ha
      rw [hnm, ← he]
      by_cases hb : ∃ b, TypeBuilder.has auto p.1 true = .ok b
      · obtain ⟨b, hb⟩ := hb
        rw [hb]
        simp only [andThen_ok]
        cases b with
        | true =>
          rw [if_pos rfl]
          refine hgo s (Kept.refl s) ⟨base, h⟩ ?_
          intro _ hh
          rw [hb] at hh; cases hh
        | false =>
          rw [if_neg (by simp)]
          have hp : S p.2.ty := hl p (by simp) he hb
          have h0 := h.restart
          obtain ⟨hkept, hpost⟩ := mergeF_spec hk hs hna fuel [] { s with st := [] } p.2.ty h0 hp (weight_start (hs.alloc _ hp) hf)
            (fun _ _ hf => by cases hf)
          generalize mergeF key fuel { s with st := [] } p.2.ty = x at hkept hpost
          obtain ⟨s1, r1⟩ := x
          simp only at hkept hpost
          have hkept' : Kept s s1 := ⟨hkept.next, hkept.get, hkept.ext⟩
          rcases hpost with ⟨t, rfl, hJ1, ht | ht, _⟩ | ⟨rfl, hex⟩
          · simp only [andThen_ok]
            exact hgo s1 hkept' ⟨_, hJ1⟩ (fun _ _ => ⟨t, by rw [he]; exact ht⟩)
          · cases ht
          · simp only [andThen_exn]
            exact ⟨hkept', Or.inr (Or.inl ⟨trivial, hex⟩)⟩
      · have hun : Unanswered auto p.1 := fun b e => hb ⟨b, e⟩
        obtain ⟨e1, e2⟩ := andThen_fail (s := s) (fun s b =>
          if b then minimalTypes key fuel auto l s
          else andThen (mergeF key fuel { s with st := [] } p.2.ty) fun s _ => minimalTypes key fuel auto l s) hun
        dsimp only
        rw [e1]
        exact ⟨Kept.refl s, Or.inr (Or.inr ⟨e2 (), p, by simp, he, hun⟩)⟩

/-- whether the second loop copies the alias -/
def Wanted (auto : Reg) (keep : Bool) (n : Str) : Prop := keep = true ∨ TypeBuilder.has auto n true = .ok false

theorem minimalAutoAliases_spec (hk : ∀ a b, key a = key b → a = b) {H : Heap} (hac : Acyclic H) (hwf : WF H) {R1 auto : Reg}
    {keep : Bool} {P : Str → Prop} (hP : ∀ n k ind, P n → Kind.indirectName k = some ind → P (ind n)) :
    ∀ (l : List (Str × Entry)) (s : MSt), s.H = H → Aliased key H R1 P s.R →
      (∀ p ∈ l, isAbsoluteName p.1 = true ∧ isValidTypename p.1 true = true ∧ p.2.ty < H.next ∧
        (p.1 ≠ H.name p.2.ty → P p.1) ∧ isAbsoluteName (H.name p.2.ty) = true) →
    let o := minimalAutoAliases key auto keep l s
    o.1.H = H ∧ (∀ n t, s.R.reg n = some t → o.1.R.reg n = some t) ∧ Aliased key H R1 P o.1.R ∧
    ((o.2 = .ok () ∧ ∀ p ∈ l, p.1 ≠ H.name p.2.ty → Wanted auto keep p.1 → ∀ t, s.R.reg (H.name p.2.ty) = some t →
        ∃ v, o.1.R.reg p.1 = some v ∧ (v = t ∨ isSame H v p.2.ty = .ok true)) ∨
      ((o.2 = .exn .badName ∨ o.2 = .exn .mismatch) ∧ ∃ p ∈ l, p.1 ≠ H.name p.2.ty) ∨
      (o.2 ≠ .ok () ∧ keep = false ∧ ∃ p ∈ l, p.1 ≠ H.name p.2.ty ∧ Unanswered auto p.1)) := by
  intro l
  induction l with
  | nil => intro s hH h _; exact ⟨hH, fun _ _ h => h, h, Or.inl ⟨rfl, by simp⟩⟩
  | cons p l ih =>
    intro s hH h hl
    obtain ⟨p1, p2, p3, p4, p5⟩ := hl p (by simp)
    have hl' : ∀ q ∈ l, _ := fun q hq => hl q (by simp [hq])
    have hgo : ∀ s' : MSt, s'.H = H → Aliased key H R1 P s'.R → (∀ n t, s.R.reg n = some t → s'.R.reg n = some t) →
        (p.1 ≠ H.name p.2.ty → Wanted auto keep p.1 → ∀ t, s.R.reg (H.name p.2.ty) = some t →
          ∃ v, s'.R.reg p.1 = some v ∧ (v = t ∨ isSame H v p.2.ty = .ok true)) →
        (minimalAutoAliases key auto keep l s').1.H = H ∧
        (∀ n t, s.R.reg n = some t → (minimalAutoAliases key auto keep l s').1.R.reg n = some t) ∧
        Aliased key H R1 P (minimalAutoAliases key auto keep l s').1.R ∧
        (((minimalAutoAliases key auto keep l s').2 = .ok () ∧ ∀ q ∈ p :: l, q.1 ≠ H.name q.2.ty → Wanted auto keep q.1 →
            ∀ t, s.R.reg (H.name q.2.ty) = some t →
            ∃ v, (minimalAutoAliases key auto keep l s').1.R.reg q.1 = some v ∧ (v = t ∨ isSame H v q.2.ty = .ok true)) ∨
          (((minimalAutoAliases key auto keep l s').2 = .exn .badName ∨ (minimalAutoAliases key auto keep l s').2 = .exn .mismatch) ∧
            ∃ q ∈ p :: l, q.1 ≠ H.name q.2.ty) ∨
          ((minimalAutoAliases key auto keep l s').2 ≠ .ok () ∧ keep = false ∧
            ∃ q ∈ p :: l, q.1 ≠ H.name q.2.ty ∧ Unanswered auto q.1)) := by
      intro s' h1 h2 h3 h4
      obtain ⟨i1, i2, i3, i4⟩ := ih s' h1 h2 hl'
      refine ⟨i1, fun n t hn => i2 n t (h3 n t hn), i3, ?_⟩
      rcases i4 with ⟨j1, j2⟩ | ⟨j1, q, j2, j3⟩ | ⟨j1, j0, q, j2, j3⟩
      · refine Or.inl ⟨j1, ?_⟩
        intro q hq hqn hw t ht
        rcases List.mem_cons.mp hq with rfl | hq
        · obtain ⟨v, e1, e2⟩ := h4 hqn hw t ht
          exact ⟨v, i2 _ _ e1, e2⟩
        · exact j2 q hq hqn hw t (h3 _ _ ht)
      · exact Or.inr (Or.inl ⟨j1, q, by simp [j2], j3⟩)
      · exact Or.inr (Or.inr ⟨j1, j0, q, by simp [j2], j3⟩)
    unfold minimalAutoAliases
    by_cases ha : isAlias s.H p = true
    · have hne : p.1 ≠ H.name p.2.ty := by rw [isAlias_iff, hH] at ha; exact ha
      rw [ha]
      simp only [Bool.not_true, Bool.false_eq_true, if_false]
      have hskip : (∃ b, (if keep = true then (s, Res.ok false) else (s, TypeBuilder.has auto p.1 true)) = (s, .ok b) ∧
            (b = true → ¬ Wanted auto keep p.1)) ∨
          (keep = false ∧ (if keep = true then (s, Res.ok false) else (s, TypeBuilder.has auto p.1 true)) =
            (s, TypeBuilder.has auto p.1 true) ∧ Unanswered auto p.1) := by
        cases keep with
        | true => exact Or.inl ⟨false, rfl, by simp⟩
        | false =>
          by_cases hb : ∃ b, TypeBuilder.has auto p.1 true = .ok b
          · obtain ⟨b, hb⟩ := hb
            refine Or.inl ⟨b, by rw [hb]; rfl, ?_⟩
            rintro rfl (e | e)
            · cases e
            · rw [hb] at e; cases e
          · exact Or.inr ⟨rfl, rfl, fun b e => hb ⟨b, e⟩⟩
      rcases hskip with ⟨b, eb, hb⟩ | ⟨ek, eb, hun⟩
      · rw [eb]
        simp only [andThen_ok]
        cases b with
        | true =>
          rw [if_pos rfl]
          exact hgo s hH h (fun _ _ h => h) (fun _ hw => absurd hw (hb rfl))
        | false =>
          rw [if_neg (by simp)]
          cases hg : s.R.get (s.H.name p.2.ty) with
          | none =>
            have hnone : s.R.reg (H.name p.2.ty) = none := by
              rw [hH, h.inv.abs _ p5] at hg
              exact hg
            have hhas : s.R.has (s.H.name p.2.ty) = false := by
              cases hb : s.R.has (s.H.name p.2.ty) with
              | false => rfl
              | true =>
                obtain ⟨u, hu⟩ := (Registry.has_iff _ _).mp hb
                rw [hg] at hu; cases hu
            rw [hhas]
            simp only [Bool.not_false, if_true]
            refine hgo s hH h (fun _ _ h => h) ?_
            intro _ _ t ht
            rw [hnone] at ht; cases ht
          | some t0 =>
            have hhas : s.R.has (s.H.name p.2.ty) = true := (Registry.has_iff _ _).mpr ⟨t0, hg⟩
            rw [hhas]
            simp only [Bool.not_true, Bool.false_eq_true, if_false]
            have hr0 : s.R.reg (H.name p.2.ty) = some t0 := by
              rw [hH, h.inv.abs _ p5] at hg
              exact hg
            cases hg2 : s.R.get p.1 with
            | some old =>
              simp only
              have hr : s.R.reg p.1 = some old := by rw [← h.inv.abs _ p1]; exact hg2
              rw [hH]
              obtain ⟨⟨v, hv⟩, _⟩ := C26_compare_terminates H hwf old p.2.ty (h.inv.reg_name hr).2.2.2 p3
              rw [hv]
              cases v with
              | true => exact hgo s hH h (fun _ _ h => h) (fun _ _ _ _ => ⟨old, hr, Or.inr hv⟩)
              | false => exact ⟨hH, fun _ _ h => h, h, Or.inr (Or.inl ⟨Or.inr rfl, p, by simp, hne⟩)⟩
            | none =>
              simp only
              rw [hH] at hg ⊢
              obtain ⟨c1, c2, c3⟩ := alias_step hk hac hP h hg p1 p2 (p4 hne) p.2.persistent p.2.source
              generalize alias key H s.R (H.name p.2.ty) p.1 p.2.persistent p.2.source = x at c1 c2 c3
              obtain ⟨R2, r2⟩ := x
              simp only at c1 c2 c3
              have hrn : s.R.reg p.1 = none := by rw [← h.inv.abs _ p1]; exact hg2
              rcases c3 with ⟨rfl, e2⟩ | rfl | ⟨_, v, e2, _⟩
              · simp only [onReg, andThen_ok]
                refine hgo { s with R := R2 } hH c2 c1 ?_
                intro _ _ t ht
                rw [hr0] at ht; cases ht
                exact ⟨t0, e2, Or.inl rfl⟩
              · simp only [onReg, andThen_exn]
                exact ⟨hH, c1, c2, Or.inr (Or.inl ⟨Or.inl trivial, p, by simp, hne⟩)⟩
              · rw [hrn] at e2; cases e2
      · rw [eb]
        obtain ⟨e1, e2⟩ := andThen_fail (s := s) (β := Unit) _ hun
        rw [e1]
        exact ⟨hH, fun _ _ h => h, h, Or.inr (Or.inr ⟨e2 (), ek, p, by simp, hne, hun⟩)⟩
    · have ha' : isAlias s.H p = false := by simpa using ha
      rw [ha']
      simp only [Bool.not_false, if_true]
      refine hgo s hH h (fun _ _ h => h) ?_
      intro hne
      rw [isAlias_iff, hH] at ha
      exact absurd hne ha

theorem minimalAuto_spec (hk : ∀ a b, key a = key b → a = b) {H : Heap} {fresh src auto : Reg}
    (hi : Inv key H src) (hc : Copyable H src)
    (hd : Dest key H fresh (Needed H src auto)) {fuel : Nat} (hf : (H.next + 1) * (H.next + 1) ≤ fuel) (keep : Bool) :
    let o := minimalAuto key fuel H src fresh auto keep
    (∀ t, t < H.next → o.1.1.get t = H.get t) ∧
    ((o.2 = .ok () ∧ Copied key H fresh src (Needed H src auto) o.1 ∧
        (∀ n u v, src.reg n = some u → n ≠ H.name u → Wanted auto keep n → o.1.2.regd o.1.1 v → o.1.1.name v = H.name u →
          ∃ x, o.1.2.reg n = some x ∧ (x = v ∨ isSame o.1.1 x u = .ok true))) ∨
     ((o.2 = .exn .badName ∨ o.2 = .exn .mismatch) ∧ ∃ n, AliasName H fresh src n) ∨
     (o.2 ≠ .ok () ∧ ∃ n u, src.reg n = some u ∧ Unanswered auto n ∧ (n = H.name u ∨ keep = false))) := by
  intro o
  have ho : o = minimalAuto key fuel H src fresh auto keep := rfl
  unfold minimalAuto at ho
  simp only at ho
  have hs : Source H (Needed H src auto) := (hc.source hi).sub (fun u ⟨t, h1, _, h2⟩ => h2.regd hc h1)
    (fun u d ⟨t, h1, h2, h3⟩ hd => ⟨t, h1, h2, .step h3 hd⟩)
  have hJ := hd.start hs
  have hlt : ∀ p ∈ src.global, p.2.ty < H.next := fun p hp => (hi.reg_name (mem_reg hi.sorted hp)).2.2.2
  obtain ⟨hkept, hres⟩ := minimalTypes_spec (auto := auto) hk hs hd.aliases hf src.global ⟨H, fresh, []⟩ hlt (by
    intro p hp he hhas
    refine ⟨p.2.ty, (hi.regd_iff _).mpr (hi.prim p hp), ?_, .refl⟩
    rw [← he]; exact hhas) ⟨_, hJ⟩
  generalize minimalTypes key fuel auto src.global ⟨H, fresh, []⟩ = x at ho hkept hres
  obtain ⟨s1, r1⟩ := x
  simp only at hkept hres
  rcases hres with ⟨rfl, ⟨base, hJ1⟩, hall⟩ | ⟨rfl, n, hn⟩ | ⟨hr, p, hp, he, hun⟩
  · simp only [andThen_ok] at ho
    have hallS : ∀ u, Needed H src auto u → ∃ t, s1.R.reg (H.name u) = some t := by
      rintro u ⟨t, h1, h2, h3⟩
      obtain ⟨e, he, hte⟩ := reg_mem ((hi.regd_iff t).mp h1)
      refine (hJ1.closure hs ⟨t, h1, h2, .refl⟩ ?_ h3).2
      exact hall (H.name t, e) he (by simp only [hte]) h2
    have hA : Aliased key s1.H s1.R (AliasName H fresh src) s1.R :=
      ⟨hJ1.inv, fun _ _ h => h, fun _ h => h, fun n t h1 h2 => Or.inl (hJ1.alia n t h1 h2)⟩
    have hnm : ∀ p ∈ src.global, s1.H.name p.2.ty = H.name p.2.ty := by
      intro p hp
      unfold Heap.name
      rw [hJ1.old _ (hlt p hp)]
    obtain ⟨a1, a2, a3, a4⟩ := minimalAutoAliases_spec (auto := auto) (keep := keep) hk hJ1.ac hJ1.wf AliasName.step
      src.global s1 rfl hA (by
        intro p hp
        have hr := mem_reg hi.sorted hp
        have hpr := (hi.reg_name hr).2.2.1
        refine ⟨(hi.names p hp).2, (hi.names p hp).1, Nat.lt_of_lt_of_le (hlt p hp) hJ1.next, ?_, ?_⟩
        · intro hne
          rw [hnm p hp] at hne
          exact Or.inr (.alias hr hne)
        · rw [hnm p hp]
          exact (hi.reg_name hpr).2.1)
    generalize minimalAutoAliases key auto keep src.global s1 = y at ho a1 a2 a3 a4
    obtain ⟨s2, r2⟩ := y
    simp only at a1 a2 a3 a4 ho
    have hbad : r2 ≠ .ok () → o.1 = (s2.H, s2.R) ∧ o.2 = r2 := by
      intro hr
      rw [ho]
      cases r2 with
      | ok x => exact absurd rfl hr
      | exn e => exact ⟨rfl, rfl⟩
      | ub => exact ⟨rfl, rfl⟩
      | fuel => exact ⟨rfl, rfl⟩
    have hobj : ∀ t, t < H.next → s2.H.get t = H.get t := fun t ht => by rw [a1]; exact hJ1.old t ht
    rcases a4 with ⟨rfl, a5⟩ | ⟨a5, p, hp, hne⟩ | ⟨a5, ek, p, hp, hne, hun⟩
    · simp only at ho
      rw [ho]
      refine ⟨hobj, Or.inl ⟨rfl, a3.copied hs hd.wf hJ1 a1 hallS src.global, ?_⟩⟩
      intro n u v hn hne hw hv hvn
      have a3' : Inv key s2.H s2.R := by rw [a1]; exact a3.inv
      obtain ⟨c1, c2, c3⟩ := copySourceIDs_spec src.global s2.R a3'
      simp only at hv hvn ⊢
      have hv1 : s1.R.regd s1.H v := by
        refine a3.regd v ?_
        unfold Reg.regd at hv ⊢
        rw [c2, a1] at hv
        exact hv
      obtain ⟨e, he, rfl⟩ := reg_mem hn
      rw [c2, a1]
      refine a5 (n, e) he (by simp only; rw [hnm _ he]; exact hne) hw v ?_
      simp only
      rw [hnm _ he, ← hvn, a1]
      exact hv1
    · have hr : r2 ≠ .ok () := by rcases a5 with rfl | rfl <;> simp
      rw [(hbad hr).1, (hbad hr).2]
      refine ⟨hobj, Or.inr (Or.inl ⟨a5, p.1, Or.inr ?_⟩)⟩
      rw [hnm p hp] at hne
      exact .alias (mem_reg hi.sorted hp) hne
    · rw [(hbad a5).1, (hbad a5).2]
      exact ⟨hobj, Or.inr (Or.inr ⟨a5, p.1, p.2.ty, mem_reg hi.sorted hp, hun, Or.inr ek⟩)⟩
  · simp only [andThen_exn] at ho
    rw [ho]
    exact ⟨hkept.get, Or.inr (Or.inl ⟨Or.inl rfl, n, Or.inl hn⟩)⟩
  · have hfin : o.1 = (s1.H, s1.R) ∧ o.2 ≠ .ok () := by
      rw [ho]
      cases r1 with
      | ok x => exact absurd rfl hr
      | exn e => exact ⟨rfl, by simp⟩
      | ub => exact ⟨rfl, fun h => by simp only [andThen] at h; cases h⟩
      | fuel => exact ⟨rfl, fun h => by simp only [andThen] at h; cases h⟩
    rw [hfin.1]
    exact ⟨hkept.get, Or.inr (Or.inr ⟨hfin.2, p.1, p.2.ty, mem_reg hi.sorted hp, hun, Or.inl he⟩)⟩

/-- **C30**, `minimal(auto_types)`: the types of the result are the ones `new Registry` provides, and the types `auto_types`
does not know with all they are made of; all of these are there with their name and definition; what registered types
depend on is registered; other names come from aliases, and each alias that must be kept whose type is in the result names
this type, or a type that is the same. Nothing existing changes. -/
theorem C30_minimal_auto_partial (hk : ∀ a b, key a = key b → a = b) {H : Heap} {fresh src auto : Reg}
    (hsrc : Reachable key H src) (hc : Copyable H src) (hd : Dest key H fresh (Needed H src auto)) (fuel : Nat)
    (hf : (H.next + 1) * (H.next + 1) ≤ fuel) (keep : Bool) :
    let o := minimalAuto key fuel H src fresh auto keep
    (∀ t, t < H.next → o.1.1.get t = H.get t) ∧
    (o.2 = .ok () →
      (∀ v, Regd o.1.1 o.1.2 v → Regd H fresh v ∨ ∃ u, Needed H src auto u ∧ definition o.1.1 v = definition H u) ∧
      (∀ u, Needed H src auto u →
        ∃ v, Regd o.1.1 o.1.2 v ∧ definition o.1.1 v = definition H u ∧ o.1.2.get (H.name u) = some v) ∧
      (∀ v d, Regd o.1.1 o.1.2 v → d ∈ o.1.1.deps v → Regd o.1.1 o.1.2 d) ∧
      (∀ v, Regd H fresh v → Regd o.1.1 o.1.2 v) ∧
      (∀ n v, isAbsoluteName n = true → o.1.2.get n = some v → n = o.1.1.name v ∨ AliasName H fresh src n) ∧
      (∀ n u v, isAbsoluteName n = true → src.get n = some u → Wanted auto keep n → o.1.2.get (H.name u) = some v →
        Regd o.1.1 o.1.2 v → o.1.1.name v = H.name u →
        ∃ x, o.1.2.get n = some x ∧ (x = v ∨ isSame o.1.1 x u = .ok true))) := by
  intro o
  have hi := (reachable_inv hk hsrc).2
  obtain ⟨h1, h2⟩ := minimalAuto_spec hk hi hc hd hf keep
  refine ⟨h1, ?_⟩
  intro hok
  rcases h2 with ⟨_, h2, h3⟩ | ⟨h2 | h2, _⟩ | ⟨h2, _⟩
  · have hC : Copied key H fresh src (Needed H src auto) o.1 := h2
    have hregd : ∀ v, Regd o.1.1 o.1.2 v ↔ o.1.2.regd o.1.1 v := hC.inv.regd_iff
    have hS := hc.source hi
    refine ⟨?_, ?_, ?_, ?_, ?_, ?_⟩
    · intro v hv
      rw [hregd] at hv
      rcases hC.only v hv with h | ⟨u, e1, e2⟩
      · exact Or.inl ((hd.inv.regd_iff v).mpr h)
      · refine Or.inr ⟨u, e1, ?_⟩
        obtain ⟨v', e3, e4⟩ := hC.types u e1
        unfold Reg.regd at hv
        rw [e2, e3] at hv
        cases hv
        exact e4
    · rintro u hu
      obtain ⟨v, e3, e4⟩ := hC.types u hu
      refine ⟨v, (hregd v).mpr (hC.inv.reg_name e3).2.2.1, e4, ?_⟩
      obtain ⟨t, g1, _, g2⟩ := hu
      rw [hC.inv.abs _ (hS.abs u (g2.regd hc g1))]
      exact e3
    · intro v d hv hdd
      rw [hregd] at hv ⊢
      exact hC.closed v d hv hdd
    · intro v hv
      rw [hregd]
      have := (hd.inv.regd_iff v).mp hv
      have hlt := (hd.inv.reg_name this).2.2.2
      unfold Reg.regd
      rw [show o.1.1.name v = H.name v by unfold Heap.name; rw [show o.1.1.get v = _ from hC.objects v hlt]]
      exact hC.kept _ _ this
    · intro n v hn hv
      rw [hC.inv.abs n hn] at hv
      exact hC.names n v hv
    · intro n u v hn hu hw hv hrv hname
      rw [hC.inv.abs n hn]
      rw [hi.abs n hn] at hu
      by_cases hne : n = H.name u
      · refine ⟨v, ?_, Or.inl rfl⟩
        rw [hne, ← hname]
        exact (hregd v).mp hrv
      · exact h3 n u v hu hne hw ((hregd v).mp hrv) hname
  · rw [show o.2 = _ from h2] at hok; cases hok
  · rw [show o.2 = _ from h2] at hok; cases hok
  · exact absurd hok h2

/-- **C30**: `minimal(auto_types)` succeeds when no aliases are involved and `auto_types` answers for every type. -/
theorem C30_minimal_auto_succeeds_partial (hk : ∀ a b, key a = key b → a = b) {H : Heap} {fresh src auto : Reg}
    (hsrc : Reachable key H src) (hc : Copyable H src) (hd : Dest key H fresh (Needed H src auto)) (fuel : Nat)
    (hf : (H.next + 1) * (H.next + 1) ≤ fuel) (keep : Bool)
    (hans : ∀ u, Regd H src u → ∃ b, TypeBuilder.has auto (H.name u) true = .ok b)
    (hR : ∀ n t, fresh.get n = some t → isAbsoluteName n = true → n = H.name t)
    (hS : ∀ n t, src.get n = some t → isAbsoluteName n = true → n = H.name t) :
    (minimalAuto key fuel H src fresh auto keep).2 = .ok () := by
  have hi := (reachable_inv hk hsrc).2
  obtain ⟨_, h2⟩ := minimalAuto_spec hk hi hc hd hf keep
  rcases h2 with ⟨h2, _⟩ | ⟨_, n, hn | hn⟩ | ⟨_, n, u, e1, e2, e3⟩
  · exact h2
  · exact absurd hn (FromAlias.none hd.inv hR n)
  · exact absurd hn (FromAlias.none hi hS n)
  · exfalso
    have hr := hi.reg_name e1
    have hn : n = H.name u := hS n u (by rw [hi.abs n hr.2.1]; exact e1) hr.2.1
    obtain ⟨b, hb⟩ := hans u ((hi.regd_iff u).mpr hr.2.2.1)
    rw [← hn] at hb
    exact e2 b hb

/-! ### Without standard types -/

/-- When `new Registry` is empty (no plugin registers types), the conditions on the destination hold. -/
theorem Dest.empty (hk : ∀ a b, key a = key b → a = b) {H : Heap} {src : Reg} (hsrc : Reachable key H src) (hwf : WF H)
    (S : TId → Prop) : Dest key H Reg.empty S := by
  have hac := (reachable_inv hk hsrc).1
  have hno : ∀ n, Reg.empty.get n = none := fun n => rfl
  have hreg : ∀ n, Reg.empty.reg n = none := fun n => rfl
  refine ⟨(reachable_inv hk (.start hac)).2, hac, hwf, ?_, ?_, ?_, ?_⟩
  · intro t d ht
    unfold Regd at ht
    rw [hno] at ht; cases ht
  · intro u _ ht
    unfold Regd at ht
    rw [hno] at ht; cases ht
  · intro u t _ ht
    rw [hno] at ht; cases ht
  · intro u _ hfa
    generalize H.name u = n at hfa
    induction hfa with
    | alias h1 _ => rw [hreg] at h1; cases h1
    | step _ _ ih => exact ih

/-- **C30** without standard types: on success the registered types are exactly (copies of) those the type is made of, and
without the aliases it always succeeds. -/
theorem C30_minimal_alone_partial (hk : ∀ a b, key a = key b → a = b) {H : Heap} {src : Reg}
    (hsrc : Reachable key H src) (hwf : WF H) (hc : Copyable H src) (name : Str) (t : TId) (ht : src.get name = some t)
    (fuel : Nat) (hf : (H.next + 1) * (H.next + 1) ≤ fuel) (aliases : Bool) :
    let o := minimal key fuel H src Reg.empty name aliases
    (aliases = false → o.2 = .ok ()) ∧
    (o.2 = .ok () → ∀ d, (∃ v, Regd o.1.1 o.1.2 v ∧ definition o.1.1 v = d) ↔ ∃ u, DepStar H t u ∧ definition H u = d) := by
  intro o
  have hd := Dest.empty hk hsrc hwf (DepStar H t)
  refine ⟨?_, ?_⟩
  · rintro rfl
    refine (C30_minimal_succeeds_partial hk hsrc hc name t ht hd fuel hf false).2 ?_ (fun h => by cases h)
    intro n u hn
    exact absurd hn (by show none ≠ some u; simp)
  · intro hok d
    obtain ⟨h1, h2, _⟩ := (C30_minimal_partial hk hsrc hc name t ht hd fuel hf aliases).2 hok
    constructor
    · rintro ⟨v, hv, rfl⟩
      rcases h1 v hv with h | ⟨u, e1, e2⟩
      · exact absurd h (by show none ≠ some v; simp)
      · exact ⟨u, e1, e2.symm⟩
    · rintro ⟨u, hu, rfl⟩
      obtain ⟨v, e1, e2, _⟩ := h2 u hu
      exact ⟨v, e1, e2⟩

end Verif.Merge
