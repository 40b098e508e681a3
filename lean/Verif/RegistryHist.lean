import Verif.RegistryAlias
import Verif.RegistryRev

/-! Histories of operations on a registry. -/

namespace Verif.Registry
open Verif Verif.Names Verif.Graph

variable {key : Char → Int} {H : Heap}

/-- The public operations on the name tables. -/
inductive Op where
  | add (t : TId) (persistent : Bool) (source : Str)
  | addAuto (t : TId) (source : Str)
  | alias (base newname : Str) (persistent : Bool) (source : Str)
  | aliasAuto (base newname source : Str)
  | removeAlias (name : Str)
  | clearAliases
  | remove (t : TId)
  | setDefaultNamespace (space : Str)
  | importNamespace (name : Str) (erase : Bool)
  | setSourceID (t : TId) (source : Str)

/-- One call; the second component tells whether (and how) it failed. -/
def step (key : Char → Int) (H : Heap) (R : Reg) : Op → Reg × Res Unit
  | .add t p s => add key H R t p s
  | .addAuto t s => addAuto key H R t s
  | .alias b n p s => alias key H R b n p s
  | .aliasAuto b n s => aliasAuto key H R b n s
  | .removeAlias n => removeAlias key H R n
  | .clearAliases => (clearAliases key H R, .ok ())
  | .remove t => ((remove H R t).1, (remove H R t).2 >>= fun _ => .ok ())
  | .setDefaultNamespace s => ((setDefaultNamespace key R s).1, .ok ())
  | .importNamespace n e => (importNamespace key R n e, .ok ())
  | .setSourceID t s => (setSourceID H R t s, .ok ())

/-- The calls considered: types exist and have absolute names, aliases are absolute names, namespaces
contain no template, array or pointer characters. (`isValidTypename(name, true)` also accepts names
like `3>`, and namespaces may contain `<` and `>`: see `C21_side_conditions_needed`.) -/
def OkOp (H : Heap) : Op → Prop
  | .add t _ _ => t < H.next ∧ isAbsoluteName (H.name t) = true
  | .addAuto t _ => t < H.next ∧ isAbsoluteName (H.name t) = true
  | .alias _ n _ _ => isAbsoluteName n = true
  | .aliasAuto _ n _ => isAbsoluteName n = true
  | .setDefaultNamespace s => ∀ c ∈ s, c ≠ '<' ∧ c ≠ '>'
  | .importNamespace n _ => PlainPath (getNormalizedNamespace n)
  | _ => True

/-- The registry after a sequence of calls. -/
def run (key : Char → Int) (H : Heap) (R : Reg) : List Op → Reg
  | [] => R
  | o :: os => run key H (step key H R o).1 os

/-- The heaps and registries that histories produce: from an empty registry, any sequence of calls on the
registry, creations of type objects, and modifications of type objects (sizes, fields, symbols, metadata, ...:
anything but the name of a registered type: "never use [setName] once the type has been added to a registry",
typemodel.hh:111-113), as long as an array, pointer or container is created after its
element (the constructors take the element). -/
inductive Reachable (key : Char → Int) : Heap → Reg → Prop
  | start {H : Heap} : Acyclic H → Reachable key H Reg.empty
  | op {H : Heap} {R : Reg} (o : Op) : Reachable key H R → OkOp H o → Reachable key H (step key H R o).1
  | alloc {H : Heap} {R : Reg} (d : TypeDef) : Reachable key H R → (∀ x, d.kind.elem? = some x → x < H.next) →
      Reachable key (H.alloc d) R
  | mutate {H : Heap} {R : Reg} (H' : Heap) : Reachable key H R → H'.next = H.next →
      (∀ t, R.regd H t → H'.name t = H.name t) → Acyclic H' → Reachable key H' R

theorem run_append (R : Reg) (a b : List Op) : run key H R (a ++ b) = run key H (run key H R a) b := by
  induction a generalizing R with
  | nil => rfl
  | cons o a ih => exact ih _

/-! ### `add` -/

theorem alSpec_alias (hk : ∀ a b, key a = key b → a = b) (hac : Acyclic H) :
    AlSpec key H (fun R b n => alias key H R b n false []) (fun _ => True) := by
  intro R' u n hi hu hd hn
  have hab : isAbsoluteName n = true := by
    obtain ⟨ind, x, a, e1, e2, e3, e4, e5, e6⟩ := hd
    rw [e3]; exact indirect_abs e1 (hi.reg_name e4).2.1
  have hgu : R'.get (H.name u) = some u := by
    rw [hi.abs _ (hi.reg_name hu).2.1]; exact hu
  obtain ⟨⟨i1, i2, i3, i4, i5⟩, i6, i7⟩ :=
    aliasF_spec hk hac (H.next + 1) R' (H.name u) n false [] u hi hab hgu hu
  have hgrow : Grow key H R' (alias key H R' (H.name u) n false []).1 := by
    refine ⟨i1, i2, i3, ?_, i5⟩
    intro m v hm
    rcases i4 m v hm with ⟨rfl, rfl⟩ | hm
    · exact hd.mono i3
    · exact hm
  refine ⟨hgrow, fun hok => ?_, ?_⟩
  · obtain ⟨j1, j2⟩ := i6 hok
    exact ⟨⟨hgrow, fun m v hm => j2 m v (Or.inl hm)⟩, j1⟩
  · simp only [alias]
    generalize (aliasF key H (H.next + 1) R' (H.name u) n false []).2 = r at i7
    cases r with
    | ok v => trivial
    | exn e =>
      simp only at i7
      rcases i7 with ⟨e1, e2⟩ | ⟨_, _, v, hv2, _⟩
      · refine ⟨e1, ?_⟩
        rcases e2 with ⟨e2, e3⟩ | e2
        · exact ⟨n, u, hd.mono i3, e2⟩
        · exact e2
      · rw [hn] at hv2; cases hv2
    | ub => exact i7
    | fuel => exact fun _ => i7 (by show @LT.lt Nat _ _ _; omega)

/-- `Registry::add`: full specification -/
theorem add_spec (hk : ∀ a b, key a = key b → a = b) (hac : Acyclic H) {R : Reg} (h : Inv key H R) (t : TId)
    (hal : t < H.next) (habs : isAbsoluteName (H.name t) = true) (p : Bool) (src : Str) :
    let o := add key H R t p src
    (Inv key H o.1 ∧ o.1.ns = R.ns ∧ (∀ n u, R.reg n = some u → o.1.reg n = some u) ∧
      (∀ n u, New R o.1 n u → (n = H.name t ∧ u = t) ∨ Derived H o.1 n u) ∧
      (∀ n u, New R o.1 n u → u = t ∨ R.reg (H.name u) = some u)) ∧
    (o.2 = .ok () → o.1.reg (H.name t) = some t ∧
      (∀ n u, New R o.1 n u → n ≠ H.name t → ClosedAt H o.1 n u) ∧
      (∀ ind x a, (H.kind t).indirectName = some ind → (H.kind t).elem? = some x →
        R.reg a = some x → a ≠ H.name x → ∃ v, o.1.reg (ind a) = some v)) ∧
    (o.2 = .ok () ∨
     (o.2 = .exn .badName ∧ o.1 = R ∧ isValidTypename (H.name t) true = false) ∨
     (o.2 = .exn .alreadyDefined ∧ o.1 = R ∧ ∃ u, R.reg (H.name t) = some u ∧ u ≠ t) ∨
     (o.2 = .exn .badName ∧ o.1.reg (H.name t) = some t ∧ BadDerived H o.1)) := by
  intro o
  have ho : o = add key H R t p src := rfl
  unfold add at ho
  have hnoNew : ∀ n u, ¬ New R R n u := by
    rintro n u ⟨h1, h2⟩; rw [h1] at h2; cases h2
  obtain ⟨hinv1, hns1, hcases⟩ := addName_spec hk h (H.name t) t p src habs (Or.inl rfl) hal
  generalize addName key H R (H.name t) t p src = a at ho hinv1 hns1 hcases
  obtain ⟨R1, r1⟩ := a
  simp only at ho hinv1 hns1 hcases
  have hmain : R1.reg (H.name t) = some t → r1 = .ok () →
      Grow key H R1 o.1 ∧ (o.2 = .ok () → GrowOk key H R1 o.1 ∧
        ∀ ind x a, (H.kind t).indirectName = some ind → (H.kind t).elem? = some x →
        R1.reg a = some x → a ≠ H.name x → ∃ v, o.1.reg (ind a) = some v) ∧ PropOut H o.1 True o.2 := by
    intro hR1 hr1
    rw [hr1] at ho
    simp only at ho
    have hspec := modDep_spec (F := True) (alSpec_alias hk hac) t (fun _ _ h => h) R1 hinv1 hR1
    by_cases hany : (H.deps t).any (fun d => !(getAliasesOf H R1 d).isEmpty) = true
    · rw [if_pos hany] at ho
      rw [ho]; exact hspec
    · rw [if_neg hany] at ho
      rw [ho]
      refine ⟨(Grow.refl hinv1).toGrow, fun _ => ⟨Grow.refl hinv1, ?_⟩, trivial⟩
      intro ind x a e1 e2 e3 e4
      exfalso
      apply hany
      rw [List.any_eq_true]
      obtain ⟨x', hx1, hx2⟩ := indirect_deps e1
      rw [e2] at hx1; cases hx1
      refine ⟨x, by simp [Heap.deps, hx2], ?_⟩
      have := (mem_getAliasesOf hinv1.toGInv x a).mpr ⟨e3, e4⟩
      cases hl : getAliasesOf H R1 x with
      | nil => rw [hl] at this; cases this
      | cons _ _ => rfl
  have hfin : R1.reg (H.name t) = some t → (∀ n u, R.reg n = some u → R1.reg n = some u) →
      (∀ n u, New R R1 n u → n = H.name t ∧ u = t) → r1 = .ok () →
      (Inv key H o.1 ∧ o.1.ns = R.ns ∧ (∀ n u, R.reg n = some u → o.1.reg n = some u) ∧
        (∀ n u, New R o.1 n u → (n = H.name t ∧ u = t) ∨ Derived H o.1 n u) ∧
        (∀ n u, New R o.1 n u → u = t ∨ R.reg (H.name u) = some u)) ∧
      (o.2 = .ok () → o.1.reg (H.name t) = some t ∧
        (∀ n u, New R o.1 n u → n ≠ H.name t → ClosedAt H o.1 n u) ∧
        (∀ ind x a, (H.kind t).indirectName = some ind → (H.kind t).elem? = some x →
          R.reg a = some x → a ≠ H.name x → ∃ v, o.1.reg (ind a) = some v)) ∧
      (o.2 = .ok () ∨
       (o.2 = .exn .badName ∧ o.1 = R ∧ isValidTypename (H.name t) true = false) ∨
       (o.2 = .exn .alreadyDefined ∧ o.1 = R ∧ ∃ u, R.reg (H.name t) = some u ∧ u ≠ t) ∨
       (o.2 = .exn .badName ∧ o.1.reg (H.name t) = some t ∧ BadDerived H o.1)) := by
    intro hR1 hext hnew hr1
    obtain ⟨g1, g2, g3⟩ := hmain hR1 hr1
    refine ⟨⟨g1.inv, g1.ns.trans hns1, fun n u hn => g1.ext n u (hext n u hn), ?_, ?_⟩, ?_, ?_⟩
    · intro n u hn
      rcases new_cases g1.ext hn with hn | hn
      · exact Or.inl (hnew n u hn)
      · exact Or.inr (g1.der n u hn)
    · intro n u hn
      rcases new_cases g1.ext hn with hn | hn
      · exact Or.inl (hnew n u hn).2
      · have := g1.prim n u hn
        cases hr : R.reg (H.name u) with
        | none => exact Or.inl (hnew _ _ ⟨hr, this⟩).2
        | some v =>
          have h2 := hext _ _ hr
          rw [this] at h2
          exact Or.inr h2.symm
    · intro hok
      obtain ⟨j1, j2⟩ := g2 hok
      refine ⟨g1.ext _ _ hR1, ?_, ?_⟩
      · intro n u hn hne
        rcases new_cases g1.ext hn with hn | hn
        · exact absurd (hnew n u hn).1 hne
        · exact j1.clo n u hn
      · intro ind x a e1 e2 e3 e4
        exact j2 ind x a e1 e2 (hext _ _ e3) e4
    · generalize hr : o.2 = r at g3
      cases r with
      | ok v => exact Or.inl rfl
      | exn e =>
        obtain ⟨rfl, hb⟩ := g3
        exact Or.inr (Or.inr (Or.inr ⟨rfl, g1.ext _ _ hR1, hb⟩))
      | ub => exact absurd g3 id
      | fuel => exact absurd trivial g3
  rcases hcases with ⟨e1, e2, e3⟩ | ⟨e1, e2, e3⟩ | ⟨e1, e2, e3⟩ | ⟨e1, e2, e3, e4⟩
  · rw [e1, e3] at ho
    simp only at ho
    rw [ho]
    exact ⟨⟨h, rfl, fun _ _ h => h, fun n u hn => absurd hn (hnoNew n u),
          fun n u hn => absurd hn (hnoNew n u)⟩, (fun h => by cases h), Or.inr (Or.inl ⟨rfl, rfl, e2⟩)⟩
  · rw [e1, e2] at ho
    simp only at ho
    rw [ho]
    exact ⟨⟨h, rfl, fun _ _ h => h, fun n u hn => absurd hn (hnoNew n u),
          fun n u hn => absurd hn (hnoNew n u)⟩, (fun h => by cases h), Or.inr (Or.inr (Or.inl ⟨rfl, rfl, e3⟩))⟩
  · exact hfin (by rw [e2]; exact e3) (by rw [e2]; exact fun _ _ h => h)
          (by rw [e2]; exact fun n u hn => absurd hn (hnoNew n u)) e1
  · exact hfin (by rw [e4]; simp)
      (by
        intro n u hn
        rw [e4]
        split
        · rename_i he; rw [he, e2] at hn; cases hn
        · exact hn)
      (by
        rintro n u ⟨h1, h2⟩
        rw [e4] at h2
        split at h2
        · rename_i he; cases h2; exact ⟨he, rfl⟩
        · rw [h1] at h2; cases h2) e1

/-- a type found by any name is registered under its own name -/
theorem Inv.get_regd {R : Reg} (h : Inv key H R) {b : Str} {t : TId} (hg : R.get b = some t) :
    R.reg (H.name t) = some t := by
  cases hb : isAbsoluteName b with
  | true => rw [h.abs b hb] at hg; exact (h.reg_name hg).2.2.1
  | false =>
    obtain ⟨p, _, hr⟩ := h.rel b t hb hg
    exact (h.reg_name hr).2.2.1

/-! ### `setSourceID` -/

theorem glookup_setSource (n0 src : Str) (l : List (Str × Entry)) (n : Str) :
    (glookup (l.map (fun p => if p.1 = n0 then (p.1, { p.2 with source := src }) else p)) n).map (·.ty) =
      (glookup l n).map (·.ty) := by
  induction l with
  | nil => rfl
  | cons p l ih =>
    obtain ⟨m, e⟩ := p
    rw [List.map_cons]
    by_cases hm : m = n0
    · simp only [hm, if_true]
      rw [glookup_cons, glookup_cons]
      by_cases hn : n0 = n
      · simp [hn]
      · simp only [hn, if_false]; exact ih
    · simp only [hm, if_false]
      rw [glookup_cons, glookup_cons]
      by_cases hn : m = n
      · simp [hn]
      · simp only [hn, if_false]; exact ih

theorem setSourceID_reg (R : Reg) (t : TId) (src n : Str) : (setSourceID H R t src).reg n = R.reg n :=
  glookup_setSource _ _ _ _

theorem inv_setSourceID {R : Reg} (h : Inv key H R) (t : TId) (src : Str) :
    Inv key H (setSourceID H R t src) := by
  have hmem : ∀ p ∈ (setSourceID H R t src).global, ∃ q ∈ R.global, p.1 = q.1 ∧ p.2.ty = q.2.ty := by
    intro p hp
    unfold setSourceID at hp
    obtain ⟨q, hq, rfl⟩ := List.mem_map.mp hp
    refine ⟨q, hq, ?_⟩
    split <;> exact ⟨rfl, rfl⟩
  refine ⟨⟨?_, ?_, ?_, ?_, h.ns⟩, ?_, ?_⟩
  · unfold setSourceID Sorted
    rw [List.pairwise_map]
    refine List.Pairwise.imp ?_ h.sorted
    intro a b hab
    split <;> split <;> exact hab
  · intro p hp
    obtain ⟨q, hq, e1, e2⟩ := hmem p hp
    rw [e1]; exact h.names q hq
  · intro p hp
    obtain ⟨q, hq, e1, e2⟩ := hmem p hp
    rw [e2, setSourceID_reg]; exact h.prim q hq
  · intro p hp
    obtain ⟨q, hq, e1, e2⟩ := hmem p hp
    rw [e2]; exact h.alloc q hq
  · intro n hn
    rw [setSourceID_reg]; exact h.abs n hn
  · intro n u hn hg
    obtain ⟨p, h1, h2⟩ := h.rel n u hn hg
    exact ⟨p, h1, by rw [setSourceID_reg]; exact h2⟩

/-! ### every reachable registry satisfies the invariant -/

theorem inv_step (hk : ∀ a b, key a = key b → a = b) (hac : Acyclic H) {R : Reg} (h : Inv key H R) (o : Op)
    (ho : OkOp H o) : Inv key H (step key H R o).1 := by
  cases o with
  | add t p s => exact (add_spec hk hac h t ho.1 ho.2 p s).1.1
  | addAuto t s => exact (add_spec hk hac h t ho.1 ho.2 _ s).1.1
  | alias b n p s =>
    simp only [step, alias]
    cases hg : R.get b with
    | none =>
      unfold aliasF
      rw [hg]
      split <;> exact h
    | some t => exact (aliasF_spec hk hac _ R b n p s t h ho hg (h.get_regd hg)).1.1
  | aliasAuto b n s =>
    simp only [step, aliasAuto]
    cases hg : R.get b with
    | none => exact h
    | some t => exact (aliasF_spec hk hac _ R b n _ s t h ho hg (h.get_regd hg)).1.1
  | removeAlias n => exact inv_removeAlias hk h n
  | clearAliases => exact inv_clearAliases hk h
  | remove t => exact inv_remove h t
  | setDefaultNamespace s => exact inv_setDefaultNamespace hk h s ho
  | importNamespace n e => exact inv_importNamespace hk h n ho e
  | setSourceID t s => exact inv_setSourceID h t s

theorem inv_run (hk : ∀ a b, key a = key b → a = b) (hac : Acyclic H) {R : Reg} (h : Inv key H R)
    (ops : List Op) (ho : ∀ o ∈ ops, OkOp H o) : Inv key H (run key H R ops) := by
  induction ops generalizing R with
  | nil => exact h
  | cons o os ih =>
    exact ih (inv_step hk hac h o (ho o (by simp))) (fun x hx => ho x (by simp [hx]))

/-- the invariant only depends on the names of the objects that exist -/
theorem Inv.heap {H' : Heap} {R : Reg} (h : Inv key H R) (hn : H.next ≤ H'.next)
    (hname : ∀ t, t < H.next → R.regd H t → H'.name t = H.name t) : Inv key H' R := by
  refine ⟨⟨h.sorted, h.names, ?_, ?_, h.ns⟩, h.abs, h.rel⟩
  · intro p hp
    rw [hname _ (h.alloc p hp) (h.prim p hp)]
    exact h.prim p hp
  · intro p hp
    exact Nat.lt_of_lt_of_le (h.alloc p hp) hn

theorem alloc_get_old (H : Heap) (d : TypeDef) {t : TId} (h : t < H.next) : (H.alloc d).get t = H.get t := by
  unfold Heap.alloc
  simp only
  rw [if_neg (Nat.ne_of_lt h)]

theorem alloc_get_new (H : Heap) (d : TypeDef) : (H.alloc d).get H.next = d := by
  unfold Heap.alloc
  simp

theorem acyclic_alloc (hac : Acyclic H) {d : TypeDef} (hd : ∀ x, d.kind.elem? = some x → x < H.next) :
    Acyclic (H.alloc d) := by
  intro u x h
  by_cases hu : u = H.next
  · subst hu
    rw [Heap.kind, alloc_get_new] at h
    exact hd x h
  · have : (H.alloc d).kind u = H.kind u := by
      unfold Heap.kind Heap.alloc
      simp only
      rw [if_neg hu]
    rw [this] at h
    exact hac u x h

theorem reachable_inv (hk : ∀ a b, key a = key b → a = b) {R : Reg} (h : Reachable key H R) :
    Acyclic H ∧ Inv key H R := by
  induction h with
  | start hac => exact ⟨hac, inv_empty⟩
  | op o _ ho ih => exact ⟨ih.1, inv_step hk ih.1 ih.2 o ho⟩
  | @alloc H R d _ hd ih =>
    refine ⟨acyclic_alloc ih.1 hd, ih.2.heap (Nat.le_succ _) ?_⟩
    intro t ht _
    unfold Heap.name
    rw [alloc_get_old H d ht]
  | mutate H' _ hn hname hac ih =>
    exact ⟨hac, ih.2.heap (Nat.le_of_eq hn.symm) (fun t _ => hname t)⟩

theorem inv_reachable (hk : ∀ a b, key a = key b → a = b) (_hac : Acyclic H) {R : Reg}
    (h : Reachable key H R) : Inv key H R := (reachable_inv hk h).2

theorem reachable_run {R : Reg} (h : Reachable key H R) (ops : List Op) (ho : ∀ o ∈ ops, OkOp H o) :
    Reachable key H (run key H R ops) := by
  induction ops generalizing R with
  | nil => exact h
  | cons o os ih => exact ih (.op o h (ho o (by simp))) (fun x hx => ho x (by simp [hx]))

/-- a sequence of calls on types that all exist from the start -/
theorem reachable_ops (hac : Acyclic H) (ops : List Op) (ho : ∀ o ∈ ops, OkOp H o) :
    Reachable key H (run key H Reg.empty ops) := reachable_run (.start hac) ops ho

end Verif.Registry
