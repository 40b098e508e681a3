import Verif.RegistryProps
import Verif.RegistryExamples

/-!
C59: who deletes the type objects: `Registry::clear` and the destructor (registry.cc:60, 467-483), and the Ruby wrapper of a
registry, which keeps a Ruby class for each type it has shown and takes over the types that `remove` takes out
(bindings/ruby/ext/registry.cc:30-104, bindings/ruby/ext/value.cc: type_wrap, bindings/ruby/ext/typelib.hh:40-60).

Type objects and Ruby classes are numbers. The classes live as long as the registry object (`registry_mark`), which they keep alive
themselves (`@__typelib_registry`); the rest of the Ruby VM is not modelled. Deleting an object twice, or reading a deleted one, is
undefined.
-/

namespace Verif.RubyRegistry
open Verif Verif.Names Verif.Graph Verif.Registry

/-! ### Model -/

/-- a sequence of `delete`; `d` is the list of the objects deleted before, in the order of their deletion -/
def deleteAll : List TId → List TId → Res (List TId)
  | [], d => .ok d
  | t :: ts, d => if d.contains t then .ub else deleteAll ts (d ++ [t])

/-- first loop of `Registry::clear` (registry.cc:470-474): the pointers of the aliases are set to null -/
def nullAliases (H : Heap) (d : List TId) : List (Str × Entry) → Res (List (Option TId))
  | [] => .ok []
  | p :: ps =>
    if d.contains p.2.ty then .ub
    else match nullAliases H d ps with
      | .ok r => .ok ((if p.1 ≠ H.name p.2.ty then none else some p.2.ty) :: r)
      | e => e

/-- `Registry::clear` and `Registry::~Registry` (registry.cc:60, 467-483): the objects deleted, after those of `d`; `delete` of a null
pointer does nothing -/
def clear (H : Heap) (R : Reg) (d : List TId) : Res (List TId) :=
  match nullAliases H d R.global with
  | .ok r => deleteAll (r.filterMap id) d
  | .exn x => .exn x
  | .ub => .ub
  | .fuel => .fuel

/-- an element of the `WrapperMap` (typelib.hh:40): the type, whether the wrapper owns it, and its class -/
structure Wrapper where
  ty : TId
  owned : Bool
  klass : Nat

/-- `RbRegistry` (typelib.hh:42-60); `nextClass` is the next new class, and `out` (not part of the program) lists the types that were
taken out by `remove` so far -/
structure RbReg where
  R : Reg
  wrappers : List Wrapper
  nextClass : Nat
  out : List TId

/-- `registry_alloc` (registry.cc:60-64) -/
def new : RbReg := ⟨Reg.empty, [], 0, []⟩

/-- `cxx2rb::type_wrap` (bindings/ruby/ext/value.cc:107-132) -/
def typeWrap (s : RbReg) (t : TId) : RbReg × Nat :=
  match s.wrappers.find? (fun w => w.ty == t) with
  | some w => (s, w.klass)
  | none => ({ s with wrappers := ⟨t, false, s.nextClass⟩ :: s.wrappers, nextClass := s.nextClass + 1 }, s.nextClass)

/-- `wrapper_it->second.first = true` (registry.cc:100-101) -/
def setOwned (s : RbReg) (t : TId) : RbReg :=
  { s with wrappers := s.wrappers.map fun w => if w.ty = t then { w with owned := true } else w }

/-- the loop of `registry_remove` (registry.cc:96-102) -/
def takeOver : List TId → RbReg → RbReg
  | [], s => s
  | t :: ts, s => takeOver ts (setOwned (typeWrap s t).1 t)

/-- `registry_remove` (registry.cc:87-104) -/
def rbRemove (H : Heap) (s : RbReg) (t : TId) : RbReg :=
  match (remove H s.R t).2 with
  | .ok types => takeOver types { s with R := (remove H s.R t).1, out := types ++ s.out }
  | _ => s

/-- `registry_free` (registry.cc:30-43): the objects deleted -/
def registryFree (H : Heap) (s : RbReg) : Res (List TId) :=
  match deleteAll ((s.wrappers.filter (·.owned)).map (·.ty)) [] with
  | .ok d => clear H s.R d
  | e => e

/-! ### Specification: histories -/

/-- the type that an operation adds -/
def Op.adds : Op → Option TId
  | .add t _ _ => some t
  | .addAuto t _ => some t
  | _ => none

/-- One step of a history: a call on the C++ registry other than `remove` (types that were taken out are not added again: no
function of the bindings does), a call that shows a type to Ruby, a call of `remove` with a type that is in the registry or was
taken out of it; creation and modification of type objects as in `Reachable`. -/
inductive Step (key : Char → Int) : Heap × RbReg → Heap × RbReg → Prop
  | cxx {H : Heap} {s : RbReg} (o : Op) : OkOp H o → (∀ t, o ≠ .remove t) → (∀ t, Op.adds o = some t → t ∉ s.out) →
      Step key (H, s) (H, { s with R := (step key H s.R o).1 })
  | wrap {H : Heap} {s : RbReg} (t : TId) : Step key (H, s) (H, (typeWrap s t).1)
  | remove {H : Heap} {s : RbReg} (t : TId) : Regd H s.R t ∨ t ∈ s.out → Step key (H, s) (H, rbRemove H s t)
  | alloc {H : Heap} {s : RbReg} (d : TypeDef) : (∀ x, d.kind.elem? = some x → x < H.next) → Step key (H, s) (H.alloc d, s)
  | mutate {H : Heap} {s : RbReg} (H' : Heap) : H'.next = H.next → (∀ t, Regd H s.R t → H'.name t = H.name t) → Acyclic H' →
      Step key (H, s) (H', s)

/-- any number of steps -/
inductive Steps (key : Char → Int) : Heap × RbReg → Heap × RbReg → Prop
  | refl (x : Heap × RbReg) : Steps key x x
  | step {x y z : Heap × RbReg} : Steps key x y → Step key y z → Steps key x z

/-- what can be reached from an empty registry -/
def Hist (key : Char → Int) (H : Heap) (s : RbReg) : Prop := ∃ H0, Acyclic H0 ∧ Steps key (H0, new) (H, s)

/-! ### Proofs -/

variable {key : Char → Int} {H : Heap}

theorem deleteAll_ok : ∀ (l d : List TId), (d ++ l).Nodup → deleteAll l d = .ok (d ++ l) := by
  intro l
  induction l with
  | nil => intro d _; simp [deleteAll]
  | cons t l ih =>
    intro d h
    unfold deleteAll
    have hn : t ∉ d := by
      intro ht
      have := List.nodup_append.mp h
      exact this.2.2 t ht t (by simp) rfl
    have hc : d.contains t = false := by simpa using hn
    rw [hc]
    simp only [Bool.false_eq_true, if_false]
    rw [ih (d ++ [t]) (by rw [List.append_assoc]; exact h)]
    simp

theorem nullAliases_ok (d : List TId) : ∀ l : List (Str × Entry), (∀ p ∈ l, p.2.ty ∉ d) →
    nullAliases H d l = .ok (l.map fun p => if p.1 ≠ H.name p.2.ty then none else some p.2.ty) := by
  intro l
  induction l with
  | nil => intro _; rfl
  | cons p l ih =>
    intro h
    unfold nullAliases
    have hc : d.contains p.2.ty = false := by simpa using h p (by simp)
    rw [hc, ih (fun q hq => h q (by simp [hq]))]
    rfl

theorem own_eq (l : List (Str × Entry)) :
    (l.map fun p => if p.1 ≠ H.name p.2.ty then none else some p.2.ty).filterMap id =
      (l.filter fun p => !isAlias H p).map (·.2.ty) := by
  induction l with
  | nil => rfl
  | cons p l ih =>
    rw [List.map_cons, List.filterMap_cons, List.filter_cons]
    by_cases hp : p.1 = H.name p.2.ty
    · have : isAlias H p = false := by simp [isAlias, hp]
      rw [if_neg (by simpa using hp)]
      simp only [id, this, Bool.not_false, if_true, List.map_cons]
      rw [ih]
    · have : isAlias H p = true := by simp [isAlias, hp]
      rw [if_pos hp]
      simp only [id, this, Bool.not_true, Bool.false_eq_true, if_false]
      rw [ih]

theorem own_spec {R : Reg} (h : Inv key H R) :
    ((R.global.filter fun p => !isAlias H p).map (·.2.ty)).Nodup ∧
    ∀ t, t ∈ (R.global.filter fun p => !isAlias H p).map (·.2.ty) ↔ Regd H R t := by
  refine ⟨?_, fun t => ?_⟩
  · unfold List.Nodup
    rw [List.pairwise_map]
    refine List.Pairwise.imp_of_mem ?_ (List.Pairwise.filter (fun p => !isAlias H p) h.sorted)
    intro a b ha hb hab e
    have h1 := (List.mem_filter.mp ha).2
    have h2 := (List.mem_filter.mp hb).2
    simp only [isAlias, Bool.not_eq_true', bne_eq_false_iff_eq] at h1 h2
    rw [h1, h2, e, nameSort_irrefl] at hab
    cases hab
  · simp only [List.mem_map, List.mem_filter, isAlias, Bool.not_eq_true', bne_eq_false_iff_eq]
    rw [h.regd_iff]
    constructor
    · rintro ⟨p, ⟨h1, h2⟩, rfl⟩; exact h.prim p h1
    · intro hr
      obtain ⟨e, hm, he⟩ := reg_mem hr
      exact ⟨(H.name t, e), ⟨hm, by rw [he]⟩, he⟩

theorem clear_ok {R : Reg} (h : Inv key H R) {d : List TId} (hd : d.Nodup) (hr : ∀ t, t ∈ d → ¬ Regd H R t) :
    clear H R d = .ok (d ++ (R.global.filter fun p => !isAlias H p).map (·.2.ty)) := by
  unfold clear
  rw [nullAliases_ok d R.global (fun p hp hc => hr _ hc ((h.regd_iff _).mpr (h.prim p hp)))]
  dsimp only
  rw [own_eq]
  obtain ⟨h1, h2⟩ := own_spec h
  refine deleteAll_ok _ _ (List.nodup_append.mpr ⟨hd, h1, ?_⟩)
  rintro a ha b hb rfl
  exact hr a ha ((h2 a).mp hb)

/-- **C59, C++**: the destructor of a registry (and `clear`) deletes each registered type exactly once, however many names it has, and
reads nothing that was deleted. -/
theorem C59_clear (hk : ∀ a b, key a = key b → a = b) {R : Reg} (hR : Reachable key H R) :
    ∃ l, clear H R [] = .ok l ∧ l.Nodup ∧ ∀ t, t ∈ l ↔ Regd H R t := by
  have hi := (reachable_inv hk hR).2
  obtain ⟨h1, h2⟩ := own_spec hi
  exact ⟨_, clear_ok hi List.nodup_nil (fun t ht => (by cases ht)), h1, h2⟩

/-! ### Which types an operation registers -/

theorem regd_new {R R' : Reg} (hext : ∀ n u, R.reg n = some u → R'.reg n = some u) {u : TId}
    (hu : R'.regd H u) : R.regd H u ∨ New R R' (H.name u) u := by
  unfold Reg.regd at hu ⊢
  cases hg : R.reg (H.name u) with
  | none => exact .inr ⟨hg, hu⟩
  | some v => have := hext _ _ hg; rw [hu] at this; rw [← Option.some.inj this]; exact .inl rfl

theorem step_gain (hk : ∀ a b, key a = key b → a = b) {R : Reg} (hR : Reachable key H R) (o : Op) (ho : OkOp H o) {u : TId}
    (hu : Regd H (step key H R o).1 u) : Regd H R u ∨ Op.adds o = some u := by
  obtain ⟨hac, h⟩ := reachable_inv hk hR
  have h' := inv_step hk hac h o ho
  have habs : isAbsoluteName (H.name u) = true := (h'.reg_name ((h'.regd_iff u).mp hu)).2.1
  have hadd : ∀ t p s, OkOp H (.add t p s) → Regd H (add key H R t p s).1 u → Regd H R u ∨ t = u := by
    intro t p s ho hu
    obtain ⟨⟨i1, i2, i3, i4, i5⟩, _⟩ := add_spec hk hac h t ho.1 ho.2 p s
    rcases regd_new i3 ((i1.regd_iff u).mp hu) with e | e
    · exact .inl ((h.regd_iff u).mpr e)
    · rcases i5 _ _ e with e | e
      · exact .inr e.symm
      · exact .inl ((h.regd_iff u).mpr e)
  have hali : ∀ b n p s, OkOp H (.alias b n p s) → Regd H (alias key H R b n p s).1 u → Regd H R u := by
    intro b n p s ho hu
    obtain ⟨_, _, e3, _⟩ := C21_alias hk hac hR b n ho p s
    cases hg : R.get (H.name u) with
    | none =>
      rcases e3 (H.name u) u habs hg hu with ⟨_, e⟩ | e
      · exact (h.regd_iff u).mpr (h.get_regd e)
      · exfalso
        have hi' : Inv key H (alias key H R b n p s).1 := inv_step hk hac h (.alias b n p s) ho
        cases hb : R.get b with
        | none =>
          unfold alias at hu
          unfold aliasF at hu
          rw [hb] at hu
          unfold Regd at hu
          simp only at hu
          split at hu <;> (simp only at hu; rw [hg] at hu; cases hu)
        | some t =>
          obtain ⟨⟨i1, i2, i3, i4, i5⟩, _⟩ := aliasF_spec hk hac (H.next + 1) R b n p s t h ho hb (h.get_regd hb)
          have hr := (hi'.regd_iff u).mp hu
          have : R.reg (H.name u) = some u := i5 _ _ ⟨by rw [← h.abs _ habs]; exact hg, hr⟩
          rw [← h.abs _ habs, hg] at this
          cases this
    | some v =>
      have hx := (C21_alias hk hac hR b n ho p s).2.1 _ _ habs hg
      unfold Regd at hu
      rw [hu] at hx
      rw [← Option.some.inj hx] at hg
      exact hg
  cases o with
  | add t p s =>
    rcases hadd t p s ho hu with e | e
    · exact .inl e
    · exact .inr (by rw [← e]; rfl)
  | addAuto t s =>
    rcases hadd t _ s ho hu with e | e
    · exact .inl e
    · exact .inr (by rw [← e]; rfl)
  | alias b n p s => exact .inl (hali b n p s ho hu)
  | aliasAuto b n s =>
    left
    simp only [step, aliasAuto] at hu
    cases hg : R.get b with
    | none => rw [hg] at hu; exact hu
    | some t => rw [hg] at hu; exact hali b n _ s ho hu
  | removeAlias n =>
    left
    unfold step at hu
    have hsub : ∀ m v, (removeAlias key H R n).1.reg m = some v → R.reg m = some v := by
      intro m v hm
      unfold removeAlias at hm
      split at hm
      · exact hm
      · split at hm
        · exact hm
        · rw [updateCurrent_reg, reg_filter h.sorted] at hm
          unfold Reg.reg
          cases hx : glookup R.global m with
          | none => rw [hx] at hm; cases hm
          | some e =>
            rw [hx] at hm
            simp only [Option.bind_some] at hm
            split at hm
            · exact hm
            · cases hm
    exact (h.regd_iff u).mpr (hsub _ _ ((h'.regd_iff u).mp hu))
  | clearAliases =>
    left
    have := C21_clearAliases hk hac hR (H.name u) habs
    unfold Regd step at hu
    rw [this] at hu
    simp only [Option.filter_eq_some_iff] at hu
    exact hu.1
  | remove t =>
    left
    obtain ⟨types, _, _, h3, _⟩ := C23_remove hk hac hR t
    exact ((h3 _ _).mp hu).1
  | setDefaultNamespace s =>
    left
    have := (C21_namespaces_keep hk hac hR (H.name u) habs).1 s ho
    unfold Regd
    rw [← this]
    exact hu
  | importNamespace n e =>
    left
    have := (C21_namespaces_keep hk hac hR (H.name u) habs).2.1 n e ho
    unfold Regd
    rw [← this]
    exact hu
  | setSourceID t s => exact .inl hu

/-! ### The invariant -/

structure Good (key : Char → Int) (H : Heap) (s : RbReg) : Prop where
  reach : Reachable key H s.R
  tys : (s.wrappers.map (·.ty)).Nodup
  classes : (s.wrappers.map (·.klass)).Nodup
  fresh : ∀ w ∈ s.wrappers, w.klass < s.nextClass
  owned : ∀ t, (∃ w ∈ s.wrappers, w.ty = t ∧ w.owned = true) ↔ t ∈ s.out
  gone : ∀ t ∈ s.out, ¬ Regd H s.R t

/-- the part of the invariant about the table of wrappers -/
structure Tab (s : RbReg) (out : List TId) : Prop where
  tys : (s.wrappers.map (·.ty)).Nodup
  classes : (s.wrappers.map (·.klass)).Nodup
  fresh : ∀ w ∈ s.wrappers, w.klass < s.nextClass
  owned : ∀ t, (∃ w ∈ s.wrappers, w.ty = t ∧ w.owned = true) ↔ t ∈ out

/-- the classes known before are kept -/
def Keeps (s s' : RbReg) : Prop := ∀ w ∈ s.wrappers, ∃ w' ∈ s'.wrappers, w'.ty = w.ty ∧ w'.klass = w.klass

theorem Keeps.refl (s : RbReg) : Keeps s s := fun w h => ⟨w, h, rfl, rfl⟩

theorem Keeps.trans {a b c : RbReg} (h1 : Keeps a b) (h2 : Keeps b c) : Keeps a c := by
  intro w hw
  obtain ⟨w1, e1, e2, e3⟩ := h1 w hw
  obtain ⟨w2, f1, f2, f3⟩ := h2 w1 e1
  exact ⟨w2, f1, f2.trans e2, f3.trans e3⟩

theorem typeWrap_spec {s : RbReg} {out : List TId} (h : Tab s out) (t : TId) :
    Tab (typeWrap s t).1 out ∧ Keeps s (typeWrap s t).1 ∧ (typeWrap s t).1.R = s.R ∧ (typeWrap s t).1.out = s.out ∧
    ∃ w ∈ (typeWrap s t).1.wrappers, w.ty = t ∧ w.klass = (typeWrap s t).2 := by
  unfold typeWrap
  cases hf : s.wrappers.find? (fun w => w.ty == t) with
  | some w =>
    dsimp only
    have hm := List.mem_of_find?_eq_some hf
    have ht : w.ty = t := by simpa using List.find?_some hf
    exact ⟨h, .refl s, rfl, rfl, w, hm, ht, rfl⟩
  | none =>
    dsimp only
    have hn : ∀ w ∈ s.wrappers, w.ty ≠ t := by
      intro w hw e
      have := List.find?_eq_none.mp hf w hw
      simp [e] at this
    refine ⟨⟨?_, ?_, ?_, ?_⟩, fun w hw => ⟨w, List.mem_cons_of_mem _ hw, rfl, rfl⟩, rfl, rfl, _, List.mem_cons_self, rfl, rfl⟩
    · simp only [List.map_cons, List.nodup_cons]
      refine ⟨?_, h.tys⟩
      intro hm
      obtain ⟨w, hw, e⟩ := List.mem_map.mp hm
      exact hn w hw e
    · simp only [List.map_cons, List.nodup_cons]
      refine ⟨?_, h.classes⟩
      intro hm
      obtain ⟨w, hw, e⟩ := List.mem_map.mp hm
      exact Nat.ne_of_lt (h.fresh w hw) e
    · intro w hw
      simp only at hw ⊢
      rcases List.mem_cons.mp hw with rfl | hw
      · exact Nat.lt_succ_self _
      · exact Nat.lt_succ_of_lt (h.fresh w hw)
    · intro u
      rw [← h.owned u]
      simp only [List.mem_cons]
      constructor
      · rintro ⟨w, rfl | hw, e1, e2⟩
        · cases e2
        · exact ⟨w, hw, e1, e2⟩
      · rintro ⟨w, hw, e⟩; exact ⟨w, .inr hw, e⟩

theorem setOwned_spec {s : RbReg} {out : List TId} (h : Tab s out) (t : TId) (ht : ∃ w ∈ s.wrappers, w.ty = t) :
    Tab (setOwned s t) (t :: out) ∧ Keeps s (setOwned s t) := by
  have hmap : ∀ {α : Type} (f : Wrapper → α), (∀ w : Wrapper, f { w with owned := true } = f w) →
      (setOwned s t).wrappers.map f = s.wrappers.map f := by
    intro α f hf
    unfold setOwned
    rw [List.map_map]
    refine List.map_congr_left (fun w _ => ?_)
    simp only [Function.comp_apply]
    split
    · exact hf w
    · rfl
  refine ⟨⟨?_, ?_, ?_, ?_⟩, ?_⟩
  · rw [hmap _ (fun _ => rfl)]; exact h.tys
  · rw [hmap _ (fun _ => rfl)]; exact h.classes
  · intro w hw
    unfold setOwned at hw
    obtain ⟨v, hv, rfl⟩ := List.mem_map.mp hw
    split <;> exact h.fresh v hv
  · intro u
    rw [List.mem_cons]
    unfold setOwned
    simp only [List.mem_map]
    constructor
    · rintro ⟨w, ⟨v, hv, rfl⟩, e1, e2⟩
      split at e1
      · rename_i e; exact .inl (e1.symm.trans e)
      · rename_i e
        rw [if_neg e] at e2
        exact .inr ((h.owned u).mp ⟨v, hv, e1, e2⟩)
    · rintro (rfl | hu)
      · obtain ⟨w, hw, e⟩ := ht
        exact ⟨_, ⟨w, hw, rfl⟩, by rw [if_pos e]; exact e, by rw [if_pos e]⟩
      · obtain ⟨w, hw, e1, e2⟩ := (h.owned u).mpr hu
        refine ⟨_, ⟨w, hw, rfl⟩, ?_, ?_⟩
        · split <;> exact e1
        · split
          · rfl
          · exact e2
  · intro w hw
    refine ⟨_, List.mem_map.mpr ⟨w, hw, rfl⟩, ?_, ?_⟩
    · split <;> rfl
    · split <;> rfl

theorem takeOver_spec : ∀ (ts : List TId) {s : RbReg} {out : List TId}, Tab s out →
    Tab (takeOver ts s) (ts.reverse ++ out) ∧ Keeps s (takeOver ts s) ∧ (takeOver ts s).R = s.R ∧ (takeOver ts s).out = s.out := by
  intro ts
  induction ts with
  | nil => intro s out h; exact ⟨h, .refl s, rfl, rfl⟩
  | cons t ts ih =>
    intro s out h
    obtain ⟨i1, i2, i3, i4, w, hw, e, _⟩ := typeWrap_spec h t
    obtain ⟨j1, j2⟩ := setOwned_spec i1 t ⟨w, hw, e⟩
    obtain ⟨k1, k2, k3, k4⟩ := ih j1
    refine ⟨?_, (i2.trans j2).trans k2, k3.trans i3, k4.trans i4⟩
    have e : (t :: ts).reverse ++ out = ts.reverse ++ (t :: out) := by simp
    rw [e]
    exact k1

theorem Good.tab {s : RbReg} (h : Good key H s) : Tab s s.out := ⟨h.tys, h.classes, h.fresh, h.owned⟩

theorem Good.step (hk : ∀ a b, key a = key b → a = b) {x y : Heap × RbReg} (h : Good key x.1 x.2) (hs : Step key x y) :
    Good key y.1 y.2 ∧ Keeps x.2 y.2 := by
  cases hs with
  | @cxx H s o ho hr ha =>
    refine ⟨⟨.op o h.reach ho, h.tys, h.classes, h.fresh, h.owned, ?_⟩, .refl _⟩
    intro t ht hc
    rcases step_gain hk h.reach o ho hc with e | e
    · exact h.gone t ht e
    · exact ha t e ht
  | @wrap H s t =>
    obtain ⟨i1, i2, i3, i4, _⟩ := typeWrap_spec h.tab t
    refine ⟨⟨by rw [i3]; exact h.reach, i1.tys, i1.classes, i1.fresh, by rw [i4]; exact i1.owned, ?_⟩, i2⟩
    rw [i3, i4]
    exact h.gone
  | @remove H s t ht =>
    obtain ⟨hac, hi⟩ := reachable_inv hk h.reach
    obtain ⟨types, h1, h2, h3, h4⟩ := C23_remove hk hac h.reach t
    simp only at h1
    unfold rbRemove
    dsimp only at h ⊢
    rw [h1]
    dsimp only
    have ht0 : Tab ({ s with R := (Registry.remove H s.R t).1, out := types ++ s.out } : RbReg) s.out :=
      ⟨h.tys, h.classes, h.fresh, h.owned⟩
    obtain ⟨k1, k2, k3, k4⟩ := takeOver_spec types ht0
    refine ⟨⟨?_, k1.tys, k1.classes, k1.fresh, ?_, ?_⟩, k2⟩
    · rw [k3]; exact .op (.remove t) h.reach trivial
    · intro u
      rw [k4, k1.owned u]
      simp
    · rw [k3, k4]
      intro u hu hr
      obtain ⟨e1, e2⟩ := (h3 _ _).mp hr
      rcases List.mem_append.mp hu with hu | hu
      · exact e2 ((h2 u).mp hu)
      · exact h.gone u hu e1
  | @alloc H s d hd =>
    have hi := (reachable_inv hk h.reach).2
    refine ⟨⟨.alloc d h.reach hd, h.tys, h.classes, h.fresh, h.owned, ?_⟩, .refl _⟩
    intro t ht hr
    have hr2 : s.R.get ((H.alloc d).name t) = some t := hr
    exact h.gone t ht ((hi.regd_iff t).mpr (hi.get_regd hr2))
  | @mutate H s H' hn hname hac =>
    have hi := (reachable_inv hk h.reach).2
    refine ⟨⟨.mutate H' h.reach hn (fun t ht => hname t ((hi.regd_iff t).mpr ht)) hac, h.tys, h.classes, h.fresh, h.owned, ?_⟩, .refl _⟩
    intro t ht hr
    have hr2 : s.R.get (H'.name t) = some t := hr
    exact h.gone t ht ((hi.regd_iff t).mpr (hi.get_regd hr2))

theorem Good.steps (hk : ∀ a b, key a = key b → a = b) {x y : Heap × RbReg} (h : Good key x.1 x.2) (hs : Steps key x y) :
    Good key y.1 y.2 ∧ Keeps x.2 y.2 := by
  induction hs with
  | refl => exact ⟨h, .refl _⟩
  | step _ h1 ih =>
    obtain ⟨i1, i2⟩ := ih
    obtain ⟨j1, j2⟩ := i1.step hk h1
    exact ⟨j1, i2.trans j2⟩

theorem good_hist (hk : ∀ a b, key a = key b → a = b) {s : RbReg} (h : Hist key H s) : Good key H s := by
  obtain ⟨H0, hac, hs⟩ := h
  refine (Good.steps hk (x := (H0, new)) (y := (H, s)) ?_ hs).1
  refine ⟨.start hac, List.nodup_nil, List.nodup_nil, fun w hw => (by cases hw), fun t => ⟨?_, fun ht => (by cases ht)⟩, fun t ht => (by cases ht)⟩
  rintro ⟨w, hw, _⟩
  cases hw

theorem wrapper_unique {α : Type} {f : Wrapper → α} : ∀ {l : List Wrapper}, (l.map f).Nodup → ∀ {a b : Wrapper}, a ∈ l → b ∈ l →
    f a = f b → a = b := by
  intro l
  induction l with
  | nil => intro _ a b ha; cases ha
  | cons w l ih =>
    intro h a b ha hb e
    rw [List.map_cons, List.nodup_cons] at h
    rcases List.mem_cons.mp ha with ea | ha <;> rcases List.mem_cons.mp hb with eb | hb
    · rw [ea, eb]
    · exact absurd (List.mem_map.mpr ⟨b, hb, by rw [← e, ea]⟩) h.1
    · exact absurd (List.mem_map.mpr ⟨a, ha, by rw [e, eb]⟩) h.1
    · exact ih h.2 ha hb e

/-- **C59, Ruby**: when a Ruby registry is freed, after any history, each type that is registered and each type that was taken out by
`remove` is deleted exactly once, nothing else is deleted, and nothing deleted is read. -/
theorem C59_free (hk : ∀ a b, key a = key b → a = b) {s : RbReg} (h : Hist key H s) :
    ∃ l, registryFree H s = .ok l ∧ l.Nodup ∧ ∀ t, t ∈ l ↔ Regd H s.R t ∨ t ∈ s.out := by
  have hg := good_hist hk h
  have hi := (reachable_inv hk hg.reach).2
  have hn : ((s.wrappers.filter (·.owned)).map (·.ty)).Nodup :=
    List.Nodup.sublist (List.Sublist.map _ List.filter_sublist) hg.tys
  have hm : ∀ t, t ∈ (s.wrappers.filter (·.owned)).map (·.ty) ↔ t ∈ s.out := by
    intro t
    rw [← hg.owned t]
    simp only [List.mem_map, List.mem_filter]
    constructor
    · rintro ⟨w, ⟨h1, h2⟩, h3⟩; exact ⟨w, h1, h3, h2⟩
    · rintro ⟨w, h1, h3, h2⟩; exact ⟨w, ⟨h1, h2⟩, h3⟩
  have hgone : ∀ t, t ∈ (s.wrappers.filter (·.owned)).map (·.ty) → ¬ Regd H s.R t := fun t ht => hg.gone t ((hm t).mp ht)
  unfold registryFree
  rw [deleteAll_ok _ [] (by simpa using hn)]
  dsimp only
  rw [List.nil_append, clear_ok hi hn hgone]
  obtain ⟨o1, o2⟩ := own_spec hi
  refine ⟨_, rfl, List.nodup_append.mpr ⟨hn, o1, ?_⟩, fun t => ?_⟩
  · rintro a ha b hb rfl
    exact hgone a ha ((o2 a).mp hb)
  · rw [List.mem_append, hm t, o2 t]
    exact or_comm

/-- **C59, removed types**: a type that was taken out is not registered any more, and is alive until the registry is freed (nothing else
deletes). -/
theorem C59_removed (hk : ∀ a b, key a = key b → a = b) {s : RbReg} (h : Hist key H s) (t : TId) :
    (t ∈ s.out → ¬ Regd H s.R t) ∧ (Regd H s.R t → t ∈ (rbRemove H s t).out ∧ ¬ Regd H (rbRemove H s t).R t) := by
  have hg := good_hist hk h
  refine ⟨hg.gone t, fun ht => ?_⟩
  obtain ⟨hac, hi⟩ := reachable_inv hk hg.reach
  have hs : Hist key H (rbRemove H s t) := by
    obtain ⟨H0, e, hh⟩ := h
    exact ⟨H0, e, .step hh (.remove t (.inl ht))⟩
  have hin : t ∈ (rbRemove H s t).out := by
    obtain ⟨types, h1, h2, _⟩ := C23_remove hk hac hg.reach t
    unfold rbRemove
    rw [h1]
    dsimp only
    have ht0 : Tab ({ s with R := (Registry.remove H s.R t).1, out := types ++ s.out } : RbReg) s.out :=
      ⟨hg.tys, hg.classes, hg.fresh, hg.owned⟩
    rw [(takeOver_spec types ht0).2.2.2]
    exact List.mem_append_left _ ((h2 t).mpr .self)
  exact ⟨hin, (good_hist hk hs).gone t hin⟩

/-- **C59, classes**: a type is shown to Ruby as the same class each time, and different types are different classes, whatever happens
in between. -/
theorem C59_class (hk : ∀ a b, key a = key b → a = b) {s : RbReg} (h : Hist key H s) (t u : TId) {H' : Heap} {s' : RbReg}
    (hs : Steps key (H, (typeWrap s t).1) (H', s')) : (typeWrap s' u).2 = (typeWrap s t).2 ↔ u = t := by
  have hg := good_hist hk h
  obtain ⟨g1, _⟩ := Good.step hk (x := (H, s)) (y := (H, (typeWrap s t).1)) hg (.wrap t)
  obtain ⟨_, _, _, _, w, hw, e1, e2⟩ := typeWrap_spec hg.tab t
  obtain ⟨g2, k2⟩ := Good.steps hk g1 hs
  obtain ⟨w', hw', f1, f2⟩ := k2 w hw
  obtain ⟨i1, i2, _, _, v, hv, v1, v2⟩ := typeWrap_spec g2.tab u
  obtain ⟨w2, hw2, f3, f4⟩ := i2 w' hw'
  rw [← e2, ← f2, ← f4, ← v2]
  constructor
  · intro e
    have := wrapper_unique i1.classes hv hw2 e
    rw [← v1, this, f3, f1, e1]
  · rintro rfl
    have := wrapper_unique i1.tys hv hw2 (by rw [v1, f3, f1, e1])
    rw [this]

/-! ### Examples -/

/-- `/A`, `/A*`, `/A*[2]` with an alias; `/A*` is taken out, then shown again -/
theorem exHist : Hist ascii exHeap
    (typeWrap (rbRemove exHeap { (typeWrap new 0).1 with R := run ascii exHeap Reg.empty exOps } 1) 1).1 := by
  have hops : ∀ o ∈ exOps, OkOp exHeap o := by
    intro o ho
    simp only [exOps, List.mem_cons, List.mem_nil_iff, or_false] at ho
    rcases ho with rfl | rfl | rfl | rfl | rfl | rfl | rfl
    all_goals first | exact ⟨by decide, by decide⟩ | (show isAbsoluteName _ = true; decide) |
      (show ∀ c ∈ "/N".toList, c ≠ '<' ∧ c ≠ '>'; decide)
  have hrun : ∀ (ops : List Op) (s : RbReg), (∀ o ∈ ops, OkOp exHeap o ∧ ∀ t, o ≠ .remove t) → s.out = [] → ∀ x, Steps ascii x (exHeap, s) →
      Steps ascii x (exHeap, { s with R := run ascii exHeap s.R ops }) := by
    intro ops
    induction ops with
    | nil => intro s _ _ x hx; exact hx
    | cons o ops ih =>
      intro s h he x hx
      exact ih { s with R := (step ascii exHeap s.R o).1 } (fun p hp => h p (by simp [hp])) he x
        (.step hx (.cxx o (h o (by simp)).1 (h o (by simp)).2 (by rw [he]; intro t _ ht; cases ht)))
  refine ⟨exHeap, exAcyclic, .step (.step (hrun exOps (typeWrap new 0).1 (fun o ho => ⟨hops o ho, ?_⟩) rfl _ (.step (.refl _) (.wrap 0))) (.remove 1 (.inl ?_))) (.wrap 1)⟩
  · intro t e
    subst e
    simp [exOps] at ho
  · unfold Regd
    decide +kernel

example : registryFree exHeap
    (typeWrap (rbRemove exHeap { (typeWrap new 0).1 with R := run ascii exHeap Reg.empty exOps } 1) 1).1 = .ok [4, 2, 1, 0, 3] := by
  decide +kernel

example := C59_free ascii_inj exHist
example := C59_clear ascii_inj exReachable
example := C59_removed ascii_inj exHist 0
example := C59_class ascii_inj exHist 1 2 (.refl _)

/-- **A type of another registry**: `remove` is given a type that this registry does not have. It takes it over all the same: both
registries delete it. -/
theorem C59_foreign_counterexample :
    let other : RbReg := { new with R := run ascii exHeap Reg.empty [.addAuto 5 []] }
    let s := rbRemove exHeap { new with R := run ascii exHeap Reg.empty [.addAuto 0 []] } 5
    Hist ascii exHeap other ∧ registryFree exHeap s = .ok [5, 0] ∧ registryFree exHeap other = .ok [5] := by
  refine ⟨⟨exHeap, exAcyclic, .step (.refl _) (.cxx (.addAuto 5 []) ⟨by decide, by decide⟩ (fun t e => by cases e) (fun t _ ht => by cases ht))⟩, ?_⟩
  decide +kernel

end Verif.RubyRegistry
