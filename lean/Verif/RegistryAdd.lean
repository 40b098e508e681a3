import Verif.LoadFilterProps
import Verif.MergeExamples

/-!
C92: `Registry#add` of the Ruby bindings (bindings/ruby/lib/typelib/registry.rb:504-507): a type of another registry, what it is made
of and the aliases of these are copied. `minimal` is called with a name, hence with the aliases (registry.rb:53-55).

As in `LoadFilter`, `Registry.new` is empty because no plugin of the repository defines types, the fuel of the recursive C++ functions
is a function of the number of existing types (proved to suffice), and metadata and the Ruby wrappers are not modelled here.
-/

namespace Verif.RegistryAdd
open Verif Verif.Names Verif.Graph Verif.Registry Verif.TypeBuilder Verif.Merge Verif.LoadFilter
open Verif.Tlb (definition_parts desc_same)

set_option linter.unusedSimpArgs false
set_option linter.unusedVariables false

variable {key : Char → Int}

/-- `registry.add(type)` (registry.rb:504-507): `src` is `type.registry`, `name` is `type.name`, `R` the registry. -/
def add (key : Char → Int) (H : Heap) (R src : Reg) (name : Str) : World × Res Unit :=
  match minimal key (fuelFor H) H src Reg.empty name true with
  | (m, .ok ()) => merge key (fuelFor m.1) (m.1, R) m.2
  | (m, r) => ((m.1, R), r)

/-! ### The minimal registry with and without the aliases -/

theorem minimal_aliased (hk : ∀ a b, key a = key b → a = b) {H : Heap} {src : Reg} (hac : Acyclic H) (hwf : WF H)
    (hi : Inv key H src) (hc : Copyable H src) {u : TId} (hu : src.regd H u) :
    let a := minimal key (fuelFor H) H src Reg.empty (H.name u) false
    let b := minimal key (fuelFor H) H src Reg.empty (H.name u) true
    b.1.1 = a.1.1 ∧
    (b.2 = .ok () ∨ ((b.2 = .exn .badName ∨ b.2 = .exn .alreadyDefined) ∧ ∃ n, FromAlias H src n)) ∧
    (b.2 = .ok () → Inv key b.1.1 b.1.2 ∧ (∀ t, b.1.2.regd b.1.1 t ↔ a.1.2.regd a.1.1 t) ∧
      (∀ n t, b.1.2.reg n = some t → n ≠ b.1.1.name t → FromAlias H src n) ∧
      (∀ n t, a.1.2.reg n = some t → b.1.2.reg n = some t) ∧
      (∀ n x v, src.reg n = some x → n ≠ H.name x → a.1.2.reg (H.name x) = some v → b.1.2.reg n = some v)) := by
  intro a b
  have ha : a = minimal key (fuelFor H) H src Reg.empty (H.name u) false := rfl
  have hb : b = minimal key (fuelFor H) H src Reg.empty (H.name u) true := rfl
  have hru : Regd H src u := (hi.regd_iff u).mpr hu
  have hs : Source H (DepStar H u) := (hc.source hi).sub (fun v hv => hv.regd hc hru) (fun v d hv hd => .step hv hd)
  have hie : Inv key H Reg.empty := (reachable_inv hk (.start hac)).2
  have hd : Dest key H Reg.empty (DepStar H u) :=
    ⟨hie, hac, hwf, (fun t d ht => by cases ht), (fun v _ ht => by cases ht), (fun v t _ ht => by cases ht),
      fun v _ => empty_noalias⟩
  have hJ := hd.start hs
  obtain ⟨hkept, hpost⟩ := mergeF_spec hk hs hd.aliases (fuelFor H) [] ⟨H, Reg.empty, []⟩ u hJ .refl
    (weight_start (hs.alloc _ .refl) (Nat.le_refl _)) (fun _ _ h => by cases h)
  unfold minimal at ha hb
  have hget : src.get (H.name u) = some u := hru
  rw [hget] at ha hb
  simp only at ha hb
  generalize mergeF key (fuelFor H) ⟨H, Reg.empty, []⟩ u = x at ha hb hkept hpost
  obtain ⟨s1, r1⟩ := x
  simp only at hkept hpost
  rcases hpost with ⟨t', rfl, hJ1, ht' | ht', _⟩ | ⟨rfl, n, hn⟩
  · simp only [andThen_ok, Bool.false_eq_true, if_false, if_true] at ha hb
    have hA : Aliased key s1.H s1.R (FromAlias H src) s1.R :=
      ⟨hJ1.inv, fun _ _ h => h, fun _ h => h, fun n t h1 h2 => absurd (hJ1.alia n t h1 h2) empty_noalias⟩
    have hnm : ∀ p ∈ src.global, s1.H.name p.2.ty = H.name p.2.ty := by
      intro p hp
      unfold Heap.name
      rw [hJ1.old _ (hi.reg_name (mem_reg hi.sorted hp)).2.2.2]
    obtain ⟨a1, a2, a3, a4⟩ := minimalAliases_spec hk hJ1.ac (fun n k ind h h' => FromAlias.step h h') src.global s1 rfl hA (by
      intro p hp
      have hr := mem_reg hi.sorted hp
      have hpr := (hi.reg_name hr).2.2.1
      refine ⟨(hi.names p hp).2, (hi.names p hp).1, ?_, ?_⟩
      · intro hne
        rw [hnm p hp] at hne
        exact .alias hr hne
      · rw [hnm p hp]
        exact (hi.reg_name hpr).2.1)
    generalize minimalAliases key src.global s1 = y at hb a1 a2 a3 a4
    obtain ⟨s2, r2⟩ := y
    simp only at a1 a2 a3 a4 hb
    obtain ⟨_, e2, _⟩ := copySourceIDs_spec src.global s1.R hJ1.inv
    rcases a4 with ⟨rfl, a5⟩ | ⟨a5, p, hp, hne⟩
    · simp only at hb
      have a3' : Inv key s2.H s2.R := by rw [a1]; exact a3.inv
      obtain ⟨c1, c2, _⟩ := copySourceIDs_spec src.global s2.R a3'
      rw [ha, hb]
      refine ⟨a1, Or.inl rfl, fun _ => ⟨c1, ?_, ?_, ?_, ?_⟩⟩
      · intro t
        unfold Reg.regd
        simp only [c2, e2]
        rw [a1]
        exact ⟨fun h => a3.regd t h, fun h => a2 _ _ h⟩
      · intro n t hn hne
        simp only [c2] at hn hne
        rw [a1] at hne
        exact a3.alia n t hn hne
      · intro n t hn
        simp only [c2, e2] at hn ⊢
        exact a2 n t hn
      · intro n x v hn hne hv
        simp only [c2, e2] at hv ⊢
        obtain ⟨e, he, rfl⟩ := reg_mem hn
        refine a5 (n, e) he (by simp only; rw [hnm _ he]; exact hne) v ?_
        simp only
        rw [hnm _ he]
        exact hv
    · have hfin : b.1 = (s2.H, s2.R) ∧ b.2 = r2 := by
        rcases a5 with rfl | rfl <;> rw [hb] <;> exact ⟨rfl, rfl⟩
      rw [hfin.1, hfin.2, ha]
      refine ⟨a1, Or.inr ⟨a5, p.1, ?_⟩, ?_⟩
      · rw [hnm p hp] at hne
        exact .alias (mem_reg hi.sorted hp) hne
      · intro h
        rcases a5 with rfl | rfl <;> cases h
  · cases ht'
  · exact absurd hn empty_noalias

/-! ### C92 -/

/-- The conditions on the registry that receives the type `u`: it is closed under `dependsOn`, and what it knows under the names of
the types that will be copied are types with the same definition, and no aliases. -/
structure Receives (H : Heap) (R : Reg) (u : TId) : Prop where
  closed : ∀ t d, Regd H R t → d ∈ H.deps t → Regd H R d
  agree : ∀ v t, DepStar H u v → R.get (H.name v) = some t → definition H t = definition H v
  aliases : ∀ v, DepStar H u v → ¬ FromAlias H R (H.name v)

theorem add_dest (hk : ∀ a b, key a = key b → a = b) {H : Heap} {R src : Reg} (hac : Acyclic H) (hwf : WF H) (hiR : Inv key H R)
    (hi : Inv key H src) (hc : Copyable H src) {u : TId} (hu : src.regd H u) (hr : Receives H R u) {w w0 : World}
    (h0 : Mini key H u w0) (hH : w.1 = w0.1) (hiw : Inv key w.1 w.2) (hreg : ∀ t, w.2.regd w.1 t ↔ w0.2.regd w0.1 t) :
    Copyable w.1 w.2 ∧ Dest key w.1 R (Regd w.1 w.2) := by
  have hcw0 := h0.copyable hwf hi hc hu
  have hRegd : ∀ t, Regd w.1 w.2 t ↔ Regd w0.1 w0.2 t := fun t => by
    rw [hiw.regd_iff, h0.inv.regd_iff, hreg]
  have hov : Over H w.1 := by rw [hH]; exact h0.over
  have hiF := hov.inv hiR
  refine ⟨?_, hiF, by rw [hH]; exact h0.ac, by rw [hH]; exact h0.wf, ?_, ?_, ?_, ?_⟩
  · refine ⟨?_, ?_, ?_, ?_, ?_, ?_⟩ <;> simp only [hRegd]
    all_goals rw [hH]
    · exact hcw0.deps
    · exact hcw0.noloop
    · exact hcw0.arr
    · exact hcw0.ptr
    · exact hcw0.vec
    · exact hcw0.str
  · intro t d ht hd
    have h1 := (hov.regd hiR t).mp ((hiF.regd_iff t).mp ht)
    rw [hov.deps (hiR.reg_name h1).2.2.2] at hd
    exact (hiF.regd_iff d).mpr ((hov.regd hiR d).mpr ((hiR.regd_iff d).mp (hr.closed t d ((hiR.regd_iff t).mpr h1) hd)))
  · intro t ht hf
    have h1 := (h0.only _ t ((hreg t).mp ((hiw.regd_iff t).mp ht))).2.1
    have h2 := (hiR.reg_name ((hov.regd hiR t).mp ((hiF.regd_iff t).mp hf))).2.2.2
    exact absurd h2 (Nat.not_lt.mpr h1)
  · intro t s ht hs
    obtain ⟨_, _, v, h1, h2⟩ := h0.only _ t ((hreg t).mp ((hiw.regd_iff t).mp ht))
    have hn : w.1.name t = H.name v := by rw [hH]; exact (definition_parts h2).1
    have habs := (hiw.reg_name ((hiw.regd_iff t).mp ht)).2.1
    rw [hn] at hs
    have hsl : s < H.next := by
      rw [hn] at habs
      rw [hiR.abs _ habs] at hs
      exact (hiR.reg_name hs).2.2.2
    rw [hov.definition hwf hsl, hr.agree v s h1 hs, hH, h2]
  · intro t ht hfa
    obtain ⟨_, _, v, h1, h2⟩ := h0.only _ t ((hreg t).mp ((hiw.regd_iff t).mp ht))
    have hn : w.1.name t = H.name v := by rw [hH]; exact (definition_parts h2).1
    rw [hn] at hfa
    refine hr.aliases v h1 ?_
    generalize H.name v = n at hfa
    induction hfa with
    | alias h3 h4 =>
      rw [hov.name (hiR.reg_name h3).2.2.2] at h4
      exact .alias h3 h4
    | step _ h5 ih => exact .step ih h5

/-- **C92**, `registry.add(type)`: on success the registry knows the type and all the types it is made of, under their names and with
their definitions, every alias these have in the registry of the type names the same type, what registered types depend on is
registered, no other type was added, and no other names besides those of aliases. Whatever happens, the existing types are not
modified and every name of the table of the registry keeps its type. -/
theorem C92_add_partial (hk : ∀ a b, key a = key b → a = b) {H : Heap} {R src : Reg} (hR : Reachable key H R)
    (hsrc : Reachable key H src) (hwf : WF H) (hc : Copyable H src) {u : TId} (hu : Regd H src u) (hr : Receives H R u) :
    let o := add key H R src (H.name u)
    (∀ t, t < H.next → o.1.1.get t = H.get t) ∧
    (∀ n t, R.reg n = some t → o.1.2.reg n = some t) ∧
    (o.2 = .ok () ∨ o.2 = .exn .badName ∨ o.2 = .exn .alreadyDefined ∨ o.2 = .exn .mismatch) ∧
    (o.2 = .ok () →
      (∀ n t, isAbsoluteName n = true → R.get n = some t → o.1.2.get n = some t) ∧
      (∀ v, DepStar H u v → ∃ t, o.1.2.get (H.name v) = some t ∧ definition o.1.1 t = definition H v) ∧
      (∀ n v, DepStar H u v → isAbsoluteName n = true → src.get n = some v →
        ∃ t x, o.1.2.get n = some t ∧ isSame o.1.1 t x = .ok true ∧ definition o.1.1 x = definition H v) ∧
      (∀ t d, Regd o.1.1 o.1.2 t → d ∈ o.1.1.deps t → Regd o.1.1 o.1.2 d) ∧
      (∀ t, Regd o.1.1 o.1.2 t → Regd H R t ∨ ∃ v, DepStar H u v ∧ definition o.1.1 t = definition H v) ∧
      (∀ n t, isAbsoluteName n = true → o.1.2.get n = some t → R.get n = none →
        n = o.1.1.name t ∨ FromAlias H R n ∨ FromAlias H src n)) := by
  intro o
  obtain ⟨hac, hiR⟩ := reachable_inv hk hR
  have hi := (reachable_inv hk hsrc).2
  have hu' := (hi.regd_iff u).mp hu
  obtain ⟨-, h0⟩ := minimal_plain hk hac hwf hi hc hu'
  have hb := minimal_aliased hk hac hwf hi hc hu'
  simp only at hb
  have ho : o = add key H R src (H.name u) := rfl
  unfold add at ho
  generalize minimal key (fuelFor H) H src Reg.empty (H.name u) false = a at h0 hb
  generalize minimal key (fuelFor H) H src Reg.empty (H.name u) true = b at ho hb
  obtain ⟨⟨Ha, Ra⟩, ra⟩ := a
  obtain ⟨⟨Hb, Rb⟩, rb⟩ := b
  simp only at h0 hb ho
  obtain ⟨hH, hout, hok⟩ := hb
  subst hH
  rcases hout with rfl | ⟨hex, -⟩
  · obtain ⟨b1, b2, b3, b4, b5⟩ := hok rfl
    obtain ⟨hcw, hdw⟩ := add_dest hk hac hwf hiR hi hc hu' hr (w := (Hb, Rb)) h0 rfl b1 b2
    simp only at hcw hdw ho
    obtain ⟨m1, m2, m3⟩ := merge_spec hk b1 hcw hdw (fuel := fuelFor Hb) (Nat.le_refl _)
    rw [← ho] at m1 m2 m3
    have hov := h0.over
    simp only at hov
    refine ⟨fun t ht => (m1 t (Nat.lt_of_lt_of_le ht hov.next)).trans (hov.get t ht), m2, ?_, ?_⟩
    · rcases m3 with ⟨h, _⟩ | ⟨h | h, _⟩
      · exact Or.inl h
      · exact Or.inr (Or.inl h)
      · exact Or.inr (Or.inr (Or.inr h))
    · intro hoko
      rcases m3 with ⟨_, hM⟩ | ⟨h | h, _⟩
      · have hov2 : Over Hb o.1.1 := ⟨hM.next, hM.objects⟩
        have hsub : ∀ v, DepStar H u v → isAbsoluteName (H.name v) = true ∧ ∃ x, Regd Hb Rb x ∧ Hb.name x = H.name v ∧
            x < Hb.next ∧ definition Hb x = definition H v ∧ Ra.reg (H.name v) = some x := by
          intro v hv
          obtain ⟨x, hx, hdx⟩ := h0.types v hv
          simp only at hx hdx
          have e1 := (h0.inv.reg_name hx)
          have e2 : Ra.regd Hb x := e1.2.2.1
          exact ⟨e1.2.1, x, (b1.regd_iff x).mpr ((b2 x).mpr e2), (definition_parts hdx).1, e1.2.2.2, hdx, hx⟩
        refine ⟨?_, ?_, ?_, ?_, ?_, ?_⟩
        · intro n t hn hg
          rw [hM.inv.abs n hn]
          rw [hiR.abs n hn] at hg
          exact m2 n t hg
        · intro v hv
          obtain ⟨habs, x, h1, h2, h3, h4, _⟩ := hsub v hv
          obtain ⟨t, ht, hdt⟩ := hM.types x h1
          rw [h2] at ht
          refine ⟨t, by rw [hM.inv.abs _ habs]; exact ht, ?_⟩
          rw [hdt, hov2.definition h0.wf h3, h4]
        · intro n v hv hn hg
          rw [hi.abs n hn] at hg
          obtain ⟨habs, x, h1, h2, h3, h4, h5⟩ := hsub v hv
          have hnx : Rb.reg n = some x := by
            by_cases hne : n = H.name v
            · rw [hne]; exact b4 _ _ h5
            · exact b5 n v x hg hne h5
          obtain ⟨t, ht, hsame⟩ := hM.aliases n x hnx
          refine ⟨t, x, by rw [hM.inv.abs n hn]; exact ht, hsame, ?_⟩
          rw [hov2.definition h0.wf h3, h4]
        · intro t d ht hdd
          exact (hM.inv.regd_iff d).mpr (hM.closed t d ((hM.inv.regd_iff t).mp ht) hdd)
        · intro t ht
          have ht' : o.1.2.reg (o.1.1.name t) = some t := (hM.inv.regd_iff t).mp ht
          rcases hM.only _ t ht' with e | ⟨_, x, e1, e2⟩ | ⟨e, _⟩
          · left
            rw [hiR.regd_iff]
            exact (hiR.reg_name e).2.2.1
          · obtain ⟨t', h1, h2⟩ := hM.types x e1
            rw [← e2, ht'] at h1
            cases h1
            have hx := (b2 x).mp ((b1.regd_iff x).mp e1)
            obtain ⟨_, _, v, h3, h4⟩ := h0.only _ x hx
            refine Or.inr ⟨v, h3, ?_⟩
            rw [h2, hov2.definition h0.wf (h0.inv.reg_name hx).2.2.2]
            exact h4
          · exact absurd rfl e
        · intro n t hn hg hnone
          rw [hM.inv.abs n hn] at hg
          rw [hiR.abs n hn] at hnone
          rcases hM.only n t hg with e | ⟨e, _⟩ | ⟨e0, e⟩
          · rw [e] at hnone; cases hnone
          · exact Or.inl e
          · right
            clear e0
            rcases e with e | e
            · left
              clear hg hnone hn
              induction e with
              | alias h3 h4 =>
                rw [hov.name (hiR.reg_name h3).2.2.2] at h4
                exact .alias h3 h4
              | step _ h5 ih => exact .step ih h5
            · right
              clear hg hnone hn
              induction e with
              | alias h3 h4 => exact b3 _ _ h3 h4
              | step _ h5 ih => exact .step ih h5
      · rw [h] at hoko; cases hoko
      · rw [h] at hoko; cases hoko
  · have hfin : o = ((Hb, R), rb) := by
      rcases hex with rfl | rfl <;> exact ho
    rw [hfin]
    have hov := h0.over
    simp only at hov
    refine ⟨hov.get, fun n t hg => hg, ?_, ?_⟩
    · rcases hex with h | h
      · exact Or.inr (Or.inl h)
      · exact Or.inr (Or.inr (Or.inl h))
    · intro h
      rcases hex with rfl | rfl <;> cases h

/-- **C92**: without aliases, `registry.add(type)` succeeds. -/
theorem C92_add_succeeds_partial (hk : ∀ a b, key a = key b → a = b) {H : Heap} {R src : Reg} (hR : Reachable key H R)
    (hsrc : Reachable key H src) (hwf : WF H) (hc : Copyable H src) {u : TId} (hu : Regd H src u) (hr : Receives H R u)
    (hRa : ∀ n t, R.get n = some t → isAbsoluteName n = true → n = H.name t)
    (hSa : ∀ n t, src.get n = some t → isAbsoluteName n = true → n = H.name t) :
    (add key H R src (H.name u)).2 = .ok () := by
  obtain ⟨hac, hiR⟩ := reachable_inv hk hR
  have hi := (reachable_inv hk hsrc).2
  have hu' := (hi.regd_iff u).mp hu
  obtain ⟨-, h0⟩ := minimal_plain hk hac hwf hi hc hu'
  have hb := minimal_aliased hk hac hwf hi hc hu'
  simp only at hb
  unfold add
  generalize minimal key (fuelFor H) H src Reg.empty (H.name u) false = a at h0 hb
  generalize minimal key (fuelFor H) H src Reg.empty (H.name u) true = b at hb
  obtain ⟨⟨Ha, Ra⟩, ra⟩ := a
  obtain ⟨⟨Hb, Rb⟩, rb⟩ := b
  simp only at h0 hb
  obtain ⟨hH, hout, hok⟩ := hb
  subst hH
  rcases hout with rfl | ⟨hex, n, hn⟩
  · obtain ⟨b1, b2, b3, b4, b5⟩ := hok rfl
    obtain ⟨hcw, hdw⟩ := add_dest hk hac hwf hiR hi hc hu' hr (w := (Hb, Rb)) h0 rfl b1 b2
    simp only at hcw hdw
    obtain ⟨m1, m2, m3⟩ := merge_spec hk b1 hcw hdw (fuel := fuelFor Hb) (Nat.le_refl _)
    rcases m3 with ⟨h, _⟩ | ⟨_, n, hn | hn⟩
    · exact h
    · refine absurd hn (noalias_none ?_)
      intro n t h
      have := hiR.reg_name h
      rw [h0.over.name this.2.2.2]
      exact hRa n t (by rw [hiR.abs n this.2.1]; exact h) this.2.1
    · exfalso
      have : FromAlias H src n := by
        induction hn with
        | alias h3 h4 => exact b3 _ _ h3 h4
        | step _ h5 ih => exact .step ih h5
      exact FromAlias.none hi hSa n this
  · exact absurd hn (FromAlias.none hi hSa n)

/-- **C92**: adding a type to the registry that has it already, when this registry has no aliases, succeeds and changes neither its
types nor its names. -/
theorem C92_add_self_partial (hk : ∀ a b, key a = key b → a = b) {H : Heap} {R : Reg} (hR : Reachable key H R)
    (hwf : WF H) (hc : Copyable H R) {u : TId} (hu : Regd H R u)
    (hRa : ∀ n t, R.get n = some t → isAbsoluteName n = true → n = H.name t) :
    let o := add key H R R (H.name u)
    o.2 = .ok () ∧ (∀ t, Regd o.1.1 o.1.2 t ↔ Regd H R t) ∧ ∀ n, isAbsoluteName n = true → o.1.2.get n = R.get n := by
  intro o
  have hi := (reachable_inv hk hR).2
  have hdep : ∀ v, DepStar H u v → Regd H R v := fun v hv => hv.regd hc hu
  have hr : Receives H R u := by
    refine ⟨hc.deps, fun v t hv ht => ?_, fun v _ => FromAlias.none hi hRa _⟩
    rw [show R.get (H.name v) = some v from hdep v hv] at ht
    cases ht; rfl
  have hok := C92_add_succeeds_partial hk hR hR hwf hc hu hr hRa hRa
  obtain ⟨h1, h2, _, h3⟩ := C92_add_partial hk hR hR hwf hc hu hr
  obtain ⟨h4, _, _, _, h5, h6⟩ := h3 hok
  have habs : ∀ v, Regd H R v → isAbsoluteName (H.name v) = true ∧ v < H.next := fun v hv =>
    have := hi.reg_name ((hi.regd_iff v).mp hv)
    ⟨this.2.1, this.2.2.2⟩
  have hname : ∀ v, Regd H R v → o.1.1.name v = H.name v := fun v hv => by
    unfold Heap.name
    rw [show o.1.1.get v = _ from h1 v (habs v hv).2]
  have hback : ∀ t, Regd o.1.1 o.1.2 t → Regd H R t := by
    intro t ht
    rcases h5 t ht with h | ⟨v, hv, hdef⟩
    · exact h
    · have hg := h4 _ v (habs v (hdep v hv)).1 (hdep v hv)
      have ht' : o.1.2.get (o.1.1.name t) = some t := ht
      have hn : o.1.1.name t = H.name v := (definition_parts hdef).1
      rw [hn] at ht'
      rw [show o.1.2.get (H.name v) = some v from hg] at ht'
      cases ht'
      exact hdep _ hv
  refine ⟨hok, fun t => ⟨hback t, fun ht => ?_⟩, ?_⟩
  · show o.1.2.get (o.1.1.name t) = some t
    rw [hname t ht]
    exact h4 _ t (habs t ht).1 ht
  · intro n hn
    cases hg : R.get n with
    | some t => exact h4 n t hn hg
    | none =>
      cases hg' : o.1.2.get n with
      | none => rfl
      | some t =>
        rcases h6 n t hn hg' hg with e | e | e
        · have : Regd o.1.1 o.1.2 t := by show o.1.2.get (o.1.1.name t) = some t; rw [← e]; exact hg'
          have h7 := hback t this
          rw [e, hname t h7, show R.get (H.name t) = some t from h7] at hg
          cases hg
        · exact absurd e (FromAlias.none hi hRa n)
        · exact absurd e (FromAlias.none hi hRa n)

/-- **C92**: a type that its registry does not have by its name (it was removed) is reported, and nothing changes. -/
theorem C92_add_unknown (H : Heap) (R src : Reg) (name : Str) (h : src.get name = none) :
    add key H R src name = ((H, R), .exn .runtime) := by
  unfold add
  rw [C30_minimal_unknown _ _ _ _ _ h]

/-! ### Examples -/

theorem mgReceives (u : TId) (hu : u ∈ [0, 1, 2, 3, 4, 5, 6]) : Receives mgHeap mgDst u := by
  have hd := mgDest (S := DepStar mgHeap u) (fun v hv => mgSrc_types (hv.regd mgCopyable (mgSrc_regd u hu)))
  exact ⟨hd.closed, hd.agree, hd.aliases⟩

example := C92_add_partial ascii_inj mgDst_reachable mgSrc_reachable mgWF mgCopyable (mgSrc_regd 3 (by decide))
  (mgReceives 3 (by decide))

/-- The recursive `/N/S` is added with `/N/S*`, `/A*` and the alias `/B` of `/A`, whereas `/N/S[3]`, which it does not use, is not. -/
example :
    let o := add ascii mgHeap mgDst mgSrc "/N/S".toList
    o.2 = .ok () ∧ (o.1.2.get "/N/S*".toList).isSome ∧ o.1.2.get "/A".toList = some 7 ∧ o.1.2.get "/B".toList = some 7 ∧
    o.1.2.get "/N/S[3]".toList = none ∧ (o.1.2.get "/U".toList) = some 8 := by decide +kernel

/-- `/int` and `/S { a: /int }`, and the `/Count` of the destination -/
def acGet : TId → TypeDef
  | 0 => ⟨"/int".toList, 4, .num .sint⟩
  | 1 => ⟨"/S".toList, 4, .comp [⟨"a".toList, 0, 0⟩]⟩
  | 2 => ⟨"/Count".toList, 8, .num .uint⟩
  | _ => ⟨[], 0, .null⟩
def acHeap : Heap := ⟨3, acGet⟩
def acSrc : Reg := run ascii acHeap Reg.empty [.addAuto 0 [], .addAuto 1 [], .alias "/int".toList "/Count".toList true []]
def acDst : Reg := run ascii acHeap Reg.empty [.addAuto 2 []]
def acPlain : Reg := run ascii acHeap Reg.empty [.addAuto 0 [], .addAuto 1 []]

/-- **Adding is not atomic**: the registry of `/S` has the alias `/Count` of `/int`, which `/S` does not mention, and the destination
has another type `/Count`. `add` raises an exception, after it has added `/S` and `/int`. -/
theorem C92_not_atomic_counterexample :
    let o := add ascii acHeap acDst acSrc "/S".toList
    o.2 = .exn .mismatch ∧ acDst.get "/S".toList = none ∧ (o.1.2.get "/S".toList).isSome = true ∧
    (o.1.2.get "/int".toList).isSome = true := by decide +kernel

/-- the registry without aliases, in which `/S` is added to itself: types and names stay, although the copies that were made still exist -/
example :
    let o := add ascii acHeap acPlain acPlain "/S".toList
    o.2 = .ok () ∧ o.1.2.get "/S".toList = some 1 ∧ o.1.2.get "/int".toList = some 0 ∧ acHeap.next < o.1.1.next := by decide +kernel

theorem acAcyclic : Acyclic acHeap := by
  intro u x h
  match u with
  | 0 | 1 | 2 => cases h
  | n + 3 => cases h

theorem acWF : WF acHeap := by
  refine ⟨?_, ?_⟩
  · intro t d ht hd
    have : ∀ t ∈ List.range 3, ∀ d ∈ acHeap.deps t, d < 3 := by decide +kernel
    exact this t (List.mem_range.mpr ht) d hd
  · intro t s h
    have h' : (acGet t).kind = .enum s := h
    match t with
    | 0 | 1 | 2 => cases h'
    | n + 3 => cases h'

theorem acPlain_reachable : Reachable ascii acHeap acPlain := by
  refine reachable_ops acAcyclic [.addAuto 0 [], .addAuto 1 []] ?_
  intro o ho
  simp only [List.mem_cons, List.mem_nil_iff, or_false] at ho
  rcases ho with rfl | rfl
  all_goals exact ⟨by decide, by decide⟩

theorem acPlain_types {u : TId} (hu : Regd acHeap acPlain u) : u ∈ [0, 1] := by
  obtain ⟨p, hp, rfl⟩ := regd_entry (reachable_inv ascii_inj acPlain_reachable).2 hu
  have : ∀ p ∈ acPlain.global, p.2.ty ∈ [0, 1] := by decide +kernel
  exact this p hp

theorem acPlain_regd : ∀ u ∈ [0, 1], Regd acHeap acPlain u := by
  unfold Regd
  decide +kernel

theorem acCopyable : Copyable acHeap acPlain := by
  have hk : ∀ u, Regd acHeap acPlain u → (acHeap.kind u = .num .sint ∨ acHeap.kind u = .comp [⟨"a".toList, 0, 0⟩]) := by
    intro u hu
    have := acPlain_types hu
    simp only [List.mem_cons, List.mem_nil_iff, or_false] at this
    rcases this with rfl | rfl
    · exact Or.inl rfl
    · exact Or.inr rfl
  refine ⟨?_, ?_, ?_, ?_, ?_, ?_⟩
  · intro u d hu hd
    have : ∀ u ∈ [0, 1], ∀ d ∈ acHeap.deps u, d ∈ [0, 1] := by decide +kernel
    exact acPlain_regd d (this u (acPlain_types hu) d hd)
  · rintro u e hu (⟨d, h⟩ | h) <;> rcases hk u hu with h' | h' <;> rw [h'] at h <;> cases h
  · intro u d e hu h; rcases hk u hu with h' | h' <;> rw [h'] at h <;> cases h
  · intro u e hu h; rcases hk u hu with h' | h' <;> rw [h'] at h <;> cases h
  · intro u e hu h; rcases hk u hu with h' | h' <;> rw [h'] at h <;> cases h
  · intro u e hu h; rcases hk u hu with h' | h' <;> rw [h'] at h <;> cases h

example := C92_add_self_partial ascii_inj acPlain_reachable acWF acCopyable (acPlain_regd 1 (by decide)) (by
  intro n t hn ha
  have hinv := (reachable_inv ascii_inj acPlain_reachable).2
  rw [hinv.abs n ha] at hn
  obtain ⟨e, he, rfl⟩ := reg_mem hn
  have : ∀ p ∈ acPlain.global, p.1 = acHeap.name p.2.ty := by decide +kernel
  exact this _ he)

end Verif.RegistryAdd
