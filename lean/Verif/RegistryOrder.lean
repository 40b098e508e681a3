import Verif.RegistryMore

/-! Property C22: does the meaning of a relative name depend on the order of registration? -/

namespace Verif.Registry
open Verif Verif.Names Verif.Graph

variable {key : Char → Int} {H : Heap}

/-! ### properties preserved by the private `add` are preserved by `alias` and `add` -/

theorem forEach_pres {α : Type} {Q : Reg → Prop} {f : Reg → α → Reg × Res Unit} (l : List α)
    (hf : ∀ a ∈ l, ∀ R, Q R → Q (f R a).1) : ∀ R, Q R → Q (forEach f R l).1 := by
  induction l with
  | nil => intro R h; exact h
  | cons a l ih =>
    intro R h
    unfold forEach
    have h1 := hf a (by simp) R h
    have ih' := ih (fun x hx => hf x (by simp [hx]))
    generalize f R a = r at h1
    obtain ⟨R', r⟩ := r
    cases r with
    | ok v => exact ih' R' h1
    | exn e => exact h1
    | ub => exact h1
    | fuel => exact h1

theorem modDep_pres {Q : Reg → Prop} {al : Reg → Str → Str → Reg × Res Unit}
    (hal : ∀ R b n, Inv key H R → isAbsoluteName n = true → Q R → Inv key H (al R b n).1 ∧ Q (al R b n).1)
    (u : TId) (R : Reg) (h : Inv key H R ∧ Q R) :
    Inv key H (modDep al H R u).1 ∧ Q (modDep al H R u).1 := by
  unfold modDep
  split
  · rename_i ind x hi he
    refine forEach_pres (Q := fun R => Inv key H R ∧ Q R) _ ?_ R h
    intro a ha R' h'
    have habs : isAbsoluteName (ind a) = true :=
      indirect_abs hi (h.1.reg_name ((mem_getAliasesOf h.1.toGInv x a).mp ha).1).2.1
    split
    · exact h'
    · exact hal R' _ _ h'.1 habs h'.2
  · exact h

theorem aliasF_pres (hk : ∀ a b, key a = key b → a = b) (hac : Acyclic H) {Q : Reg → Prop}
    (hQ : ∀ R n t p s, Inv key H R → Q R → isAbsoluteName n = true → Q (addName key H R n t p s).1) :
    ∀ f R base new p src, Inv key H R → isAbsoluteName new = true → Q R →
      Inv key H (aliasF key H f R base new p src).1 ∧ Q (aliasF key H f R base new p src).1 := by
  intro f
  induction f with
  | zero => intro R base new p src h _ hq; exact ⟨h, hq⟩
  | succ f ih =>
    intro R base new p src h habs hq
    refine ⟨?_, ?_⟩
    · cases hg : R.get base with
      | none =>
        unfold aliasF
        rw [hg]
        split <;> exact h
      | some t => exact (aliasF_spec hk hac _ R base new p src t h habs hg (h.get_regd hg)).1.1
    · unfold aliasF
      split
      · exact hq
      · cases hg : R.get base with
        | none => exact hq
        | some t =>
          simp only
          have h1 := hQ R new t p src h hq habs
          have hal := (h.reg_name (h.get_regd hg))
          have h2 := (addName_spec hk h new t p src habs (Or.inr (h.get_regd hg)) hal.2.2.2).1
          generalize addName key H R new t p src = r at h1 h2
          obtain ⟨R', r⟩ := r
          cases r with
          | ok v =>
            simp only
            exact (forEach_pres (Q := fun R => Inv key H R ∧ Q R) _
              (fun u _ R hR => modDep_pres (fun R b n hi hn hq => ih R b n false [] hi hn hq) u R hR) R'
              ⟨h2, h1⟩).2
          | exn e => exact h1
          | ub => exact h1
          | fuel => exact h1

theorem add_pres (hk : ∀ a b, key a = key b → a = b) (hac : Acyclic H) {Q : Reg → Prop}
    (hQ : ∀ R n t p s, Inv key H R → Q R → isAbsoluteName n = true → Q (addName key H R n t p s).1)
    (R : Reg) (t : TId) (hal : t < H.next) (habs : isAbsoluteName (H.name t) = true) (p : Bool) (src : Str)
    (h : Inv key H R) (hq : Q R) : Q (add key H R t p src).1 := by
  unfold add
  have h1 := hQ R (H.name t) t p src h hq habs
  have h2 := (addName_spec hk h (H.name t) t p src habs (Or.inl rfl) hal).1
  generalize addName key H R (H.name t) t p src = r at h1 h2
  obtain ⟨R', r⟩ := r
  cases r with
  | ok v =>
    simp only
    split
    · exact (modDep_pres (fun R b n hi hn hq => aliasF_pres hk hac hQ _ R b n false [] hi hn hq) t R'
        ⟨h2, h1⟩).2
    · exact h1
  | exn e => exact h1
  | ub => exact h1
  | fuel => exact h1

/-! ### the root namespace -/

/-- relative names are looked up in the root namespace only -/
def RootOnly (R : Reg) : Prop :=
  tokens R.ns = [] ∧ ∀ m, isAbsoluteName m = false → R.get m = R.reg ('/' :: m)

theorem rootOnly_addName (R : Reg) (n : Str) (t : TId) (p : Bool) (s : Str) (h : Inv key H R)
    (hr : RootOnly R) (hn : isAbsoluteName n = true) : RootOnly (addName key H R n t p s).1 := by
  unfold addName
  split
  · exact hr
  · rename_i hv
    cases hg : R.get n with
    | some t' => simp only; split <;> exact hr
    | none =>
      simp only
      refine ⟨hr.1, ?_⟩
      intro m hm
      have hgl : glookup R.global n = none := by
        have := h.abs n hn
        rw [hg] at this
        unfold Reg.reg at this
        cases hx : glookup R.global n with
        | none => rfl
        | some e => rw [hx] at this; simp at this
      obtain ⟨rel, rfl⟩ : ∃ rel, n = '/' :: rel := by
        cases n with
        | nil => cases hn
        | cons c n => simp [isAbsoluteName] at hn; exact ⟨n, by rw [hn]⟩
      have hrel := plain_rel plainPath_root (m := rel) (by simpa using hv)
      have hrc : R.current rel = none := by
        have := hr.2 rel hrel.2
        rw [show R.reg ('/' :: rel) = none by unfold Reg.reg; rw [hgl]; rfl, get_eq] at this
        cases hx : R.current rel with
        | none => rfl
        | some e => rw [hx] at this; simp at this
      have hne : rel ≠ '/' :: rel := by
        intro e; have := congrArg List.length e; simp at this
      rw [hr.1, addRel]
      rw [if_neg (by
        have : rel ≠ [] := hrel.1
        have hl : 0 < rel.length := List.length_pos_iff.mpr this
        simp only [List.length_cons, List.length_nil, List.take_succ_cons, List.take_zero]
        rintro (h | h)
        · omega
        · exact h rfl)]
      simp only [List.length_cons, List.length_nil, List.drop_succ_cons, List.drop_zero]
      have hc1 : cinsert R.current ('/' :: rel) ⟨t, p, s⟩ rel = none := by
        simp only [cinsert, if_neg hne]; exact hrc
      simp only [get_eq, Reg.reg]
      rw [glookup_ginsert key _ _ _ hgl]
      simp only [relUpdate, hc1]
      by_cases hm2 : m = rel
      · subst hm2; simp [cinsert, cerase]
      · have hm3 : m ≠ '/' :: rel := by
          rintro rfl; simp [isAbsoluteName] at hm
        have := hr.2 m hm
        simp only [get_eq, Reg.reg] at this
        simp only [cinsert, cerase, if_neg hm2, if_neg hm3]
        rw [this]
        simp [Ne.symm hm2]

/-- the operations that leave the default namespace at the root -/
def RootOp : Op → Prop
  | .setDefaultNamespace s => tokens s = []
  | .importNamespace _ _ => False
  | _ => True

theorem rootOnly_update (hk : ∀ a b, key a = key b → a = b) {R : Reg} (h : GInv key H R)
    (hns : tokens R.ns = []) : RootOnly (updateCurrent key R) := by
  refine ⟨by rw [(updateCurrent_global key R).2]; exact hns, ?_⟩
  intro m hm
  rw [get_eq, updateCurrent_current key hk R h.sorted, hns]
  unfold Reg.reg
  rw [(updateCurrent_global key R).1]
  have : glookup R.global m = none := by
    cases hx : glookup R.global m with
    | none => rfl
    | some e =>
      have := (h.names _ (glookup_mem hx)).2
      simp only at this
      rw [hm] at this; cases this
  simp [deepPaths, this]

theorem rootOnly_step (hk : ∀ a b, key a = key b → a = b) (hac : Acyclic H) {R : Reg} (h : Inv key H R)
    (hr : RootOnly R) (o : Op) (ho : OkOp H o) (hro : RootOp o) : RootOnly (step key H R o).1 := by
  have hQ := fun R n t p s (h : Inv key H R) (hr : RootOnly R) hn => rootOnly_addName R n t p s h hr hn
  cases o with
  | add t p s => exact add_pres hk hac hQ R t ho.1 ho.2 p s h hr
  | addAuto t s => exact add_pres hk hac hQ R t ho.1 ho.2 _ s h hr
  | alias b n p s => exact (aliasF_pres hk hac hQ _ R b n p s h ho hr).2
  | aliasAuto b n s =>
    simp only [step, aliasAuto]
    split
    · exact hr
    · exact (aliasF_pres hk hac hQ _ R b n _ s h ho hr).2
  | removeAlias n =>
    simp only [step, removeAlias]
    split
    · exact hr
    · rename_i e he
      split
      · exact hr
      · rename_i hne
        refine rootOnly_update hk (ginv_filter h.toGInv _ _ ?_) hr.1
        intro p hp q hq hp2 hqn hqt
        simp only [bne_iff_ne, ne_eq]
        intro e2
        have hg := mem_reg h.sorted hq
        unfold Reg.reg at hg
        rw [e2, he] at hg
        simp only [Option.map_some, Option.some.injEq] at hg
        exact hne (by rw [hg, hqt, ← hqn, e2])
  | clearAliases =>
    simp only [step, clearAliases]
    refine rootOnly_update hk (ginv_filter h.toGInv _ _ ?_) hr.1
    intro p hp q hq hp2 hqn hqt
    simp only [isAlias, Bool.not_eq_true', bne_eq_false_iff_eq]
    rw [hqn, hqt]
  | remove t =>
    simp only [step, remove]
    cases hrd : reverseDepends H R t with
    | exn e => exact hr
    | ub => exact hr
    | fuel => exact hr
    | ok types =>
      simp only
      refine ⟨hr.1, ?_⟩
      intro m hm
      rw [reg_filter h.sorted, get_eq]
      have := hr.2 m hm
      unfold Reg.reg at this
      rw [get_eq] at this
      cases hc : R.current m with
      | none =>
        rw [hc] at this
        cases hgl : glookup R.global ('/' :: m) with
        | none => simp [hc]
        | some e => rw [hgl] at this; simp at this
      | some e1 =>
        rw [hc] at this
        cases hgl : glookup R.global ('/' :: m) with
        | none => rw [hgl] at this; simp at this
        | some e2 =>
          rw [hgl] at this
          have hty : e1.ty = e2.ty := by simpa using this
          simp only [Option.bind_some, hc]
          rw [hty]
          by_cases hcon : e2.ty ∈ types
          · simp [hcon]
          · simp [hcon, hty]
  | setDefaultNamespace s =>
    simp only [step, setDefaultNamespace]
    split
    · refine rootOnly_update (H := H) hk (R := { R with ns := getNormalizedNamespace s })
        ⟨h.sorted, h.names, h.prim, h.alloc, ?_⟩ ?_
      · intro t ht
        simp only [tokens_normalized] at ht
        rw [show tokens s = [] from hro] at ht
        cases ht
      · simp only [tokens_normalized]; exact hro
    · exact hr
  | importNamespace n e => exact absurd hro id
  | setSourceID t s =>
    refine ⟨hr.1, ?_⟩
    intro m hm
    rw [show (step key H R (.setSourceID t s)).1 = setSourceID H R t s from rfl, setSourceID_reg]
    exact hr.2 m hm

/-- **C22**, in the root namespace. As long as the default namespace is the root one and no other
namespace is imported, a relative name designates the type registered under `/` followed by that name,
whatever the history of registrations, aliases and removals. -/
theorem C22_root_namespace_partial (hk : ∀ a b, key a = key b → a = b) (hac : Acyclic H) (ops : List Op)
    (ho : ∀ o ∈ ops, OkOp H o) (hro : ∀ o ∈ ops, RootOp o) (rel : Str) (hrel : isAbsoluteName rel = false) :
    (run key H Reg.empty ops).get rel = (run key H Reg.empty ops).get ('/' :: rel) := by
  have main : ∀ (ops : List Op) (R : Reg), Inv key H R → RootOnly R → (∀ o ∈ ops, OkOp H o) →
      (∀ o ∈ ops, RootOp o) → Inv key H (run key H R ops) ∧ RootOnly (run key H R ops) := by
    intro ops
    induction ops with
    | nil => intro R h hr _ _; exact ⟨h, hr⟩
    | cons o os ih =>
      intro R h hr ho hro
      exact ih _ (inv_step hk hac h o (ho o (by simp)))
        (rootOnly_step hk hac h hr o (ho o (by simp)) (hro o (by simp)))
        (fun x hx => ho x (by simp [hx])) (fun x hx => hro x (by simp [hx]))
  obtain ⟨h1, h2⟩ := main ops Reg.empty inv_empty ⟨by decide, fun m _ => rfl⟩ ho hro
  rw [h2.2 rel hrel, h1.abs _ (by simp [isAbsoluteName])]

/-- **C22**, after a refresh. Two registries that know the same absolute names resolve every name alike
after `setDefaultNamespace`, whatever their histories were. -/
theorem C22_refreshed_partial (hk : ∀ a b, key a = key b → a = b) (hac : Acyclic H) {R1 R2 : Reg}
    (h1 : Reachable key H R1) (h2 : Reachable key H R2)
    (heq : ∀ n, isAbsoluteName n = true → R1.get n = R2.get n) (space : Str)
    (hv : isValidNamespace space true = true) (n : Str) :
    (setDefaultNamespace key R1 space).1.get n = (setDefaultNamespace key R2 space).1.get n := by
  have i1 := inv_reachable hk hac h1
  have i2 := inv_reachable hk hac h2
  have hreg : ∀ n, R1.reg n = R2.reg n := by
    intro n
    cases hn : isAbsoluteName n with
    | true => rw [← i1.abs n hn, ← i2.abs n hn]; exact heq n hn
    | false => rw [i1.reg_rel hn, i2.reg_rel hn]
  unfold Reg.reg at hreg
  unfold setDefaultNamespace
  rw [if_pos hv, if_pos hv]
  simp only [get_eq]
  rw [updateCurrent_current key hk { R1 with ns := getNormalizedNamespace space } i1.sorted,
    updateCurrent_current key hk { R2 with ns := getNormalizedNamespace space } i2.sorted]
  simp only
  have horm : ∀ a b : Option Entry, (a.or b).map (·.ty) = (a.map (·.ty)).or (b.map (·.ty)) := by
    intro a b; cases a <;> rfl
  have hfs : ∀ (g : Str → Option Entry) (l : List Str),
      (l.findSome? g).map (·.ty) = l.findSome? (fun p => (g p).map (·.ty)) := by
    intro g l
    induction l with
    | nil => rfl
    | cons a l ih =>
      rw [List.findSome?_cons, List.findSome?_cons]
      cases hga : g a with
      | none => simpa using ih
      | some e => simp
  rw [horm, horm, horm, horm, hfs, hfs, hreg, hreg]
  congr 2
  funext p
  exact hreg _

/-! ### registrations only, in a fixed namespace -/

/-- what the namespace loop of `add` does to each name -/
theorem addRel_exact (name : Str) (e : Entry) :
    ∀ (toks : List Str) (space : Str) (c : Str → Option Entry) (m : Str), m ≠ [] →
    addRel key H name e space toks c m =
      if name = space ++ m ∨ ∃ p ∈ deepPaths space toks, name = p ++ m then
        (match c m with
          | none => some e
          | some f => if nameSort key (H.name f.ty) name then some f else some e)
      else c m := by
  have hdeep : ∀ (toks : List Str) (space p : Str), p ∈ deepPaths space toks →
      ∃ q, q ≠ [] ∧ p = space ++ q := by
    intro toks
    induction toks with
    | nil => intro space p hp; cases hp
    | cons t ts ih =>
      intro space p hp
      unfold deepPaths at hp
      rcases List.mem_append.mp hp with hp | hp
      · obtain ⟨q, hq, rfl⟩ := ih _ p hp
        exact ⟨t ++ ['/'] ++ q, by simp, by simp⟩
      · rw [List.mem_singleton.mp hp]; exact ⟨t ++ ['/'], by simp, by simp⟩
  have hfalse : ∀ (toks : List Str) (space m : Str), m ≠ [] →
      (name.length ≤ space.length ∨ name.take space.length ≠ space) →
      ¬ (name = space ++ m ∨ ∃ p ∈ deepPaths space toks, name = p ++ m) := by
    intro toks space m hm hc hex
    have : ∃ q, q ≠ [] ∧ name = space ++ q := by
      rcases hex with h | ⟨p, hp, h⟩
      · exact ⟨m, hm, h⟩
      · obtain ⟨q, hq, rfl⟩ := hdeep toks space p hp
        exact ⟨q ++ m, by simp [hq], by rw [h, List.append_assoc]⟩
    obtain ⟨q, hq, rfl⟩ := this
    have hl : 0 < q.length := List.length_pos_iff.mpr hq
    rcases hc with hc | hc
    · simp only [List.length_append] at hc; omega
    · exact hc (by simp)
  have hupd : ∀ (c : Str → Option Entry) (rel m : Str),
      relUpdate key H name e c rel m =
      if m = rel then (match c m with
          | none => some e
          | some f => if nameSort key (H.name f.ty) name then some f else some e) else c m := by
    intro c rel m
    unfold relUpdate
    by_cases hm : m = rel
    · subst hm
      rw [if_pos rfl]
      cases hc : c m with
      | none => simp [cinsert, cerase]
      | some f =>
        simp only
        cases nameSort key (H.name f.ty) name with
        | true => simp [hc]
        | false => simp [cinsert, cerase]
    · rw [if_neg hm]
      cases c rel with
      | none => simp [cinsert, cerase, hm]
      | some f =>
        simp only
        split
        · simp [cinsert, cerase, hm]
        · rfl
  intro toks
  induction toks with
  | nil =>
    intro space c m hm
    rw [addRel]
    split
    · rename_i hc
      rw [if_neg (hfalse [] space m hm hc)]
    · rename_i hc
      simp only
      rw [hupd]
      have htake : name.take space.length = space := by
        by_cases h : name.take space.length = space
        · exact h
        · exact absurd (Or.inr h) hc
      have hname : name = space ++ name.drop space.length := by
        conv => lhs; rw [← List.take_append_drop space.length name, htake]
      have : (m = name.drop space.length) ↔ (name = space ++ m ∨ ∃ p ∈ deepPaths space [], name = p ++ m) := by
        constructor
        · rintro rfl; exact Or.inl hname
        · rintro (h | ⟨p, hp, _⟩)
          · rw [h]; simp
          · cases hp
      simp only [this]
  | cons t ts ih =>
    intro space c m hm
    rw [addRel]
    split
    · rename_i hc
      rw [if_neg (hfalse (t :: ts) space m hm hc)]
    · rename_i hc
      simp only
      have htake : name.take space.length = space := by
        by_cases h : name.take space.length = space
        · exact h
        · exact absurd (Or.inr h) hc
      have hname : name = space ++ name.drop space.length := by
        conv => lhs; rw [← List.take_append_drop space.length name, htake]
      rw [ih _ _ _ hm, hupd]
      by_cases hmr : m = name.drop space.length
      · have hnot : ¬ (name = space ++ t ++ ['/'] ++ m ∨
            ∃ p ∈ deepPaths (space ++ t ++ ['/']) ts, name = p ++ m) := by
          have hlen : name.length = space.length + m.length := by
            rw [hname, List.length_append, ← hmr]
          rintro (h | ⟨p, hp, h⟩)
          · have := congrArg List.length h
            simp at this; omega
          · obtain ⟨q, hq, rfl⟩ := hdeep _ _ _ hp
            have := congrArg List.length h
            simp at this; omega
        rw [if_neg hnot, if_pos hmr, if_pos (Or.inl (by rw [hmr]; exact hname))]
      · rw [if_neg hmr]
        have : (name = space ++ t ++ ['/'] ++ m ∨ ∃ p ∈ deepPaths (space ++ t ++ ['/']) ts, name = p ++ m) ↔
            (name = space ++ m ∨ ∃ p ∈ deepPaths space (t :: ts), name = p ++ m) := by
          constructor
          · rintro (h | ⟨p, hp, h⟩)
            · exact Or.inr ⟨_, by unfold deepPaths; simp, h⟩
            · exact Or.inr ⟨p, by unfold deepPaths; exact List.mem_append_left _ hp, h⟩
          · rintro (h | ⟨p, hp, h⟩)
            · exact absurd (by rw [h]; simp) hmr
            · unfold deepPaths at hp
              rcases List.mem_append.mp hp with hp | hp
              · exact Or.inr ⟨p, hp, h⟩
              · rw [List.mem_singleton.mp hp] at h; exact Or.inl h
        simp only [this]

/-- the namespaces in which relative names are looked up -/
def visiblePaths (ns : Str) : List Str := ['/'] :: deepPaths ['/'] (tokens ns)

/-- no aliases, and every relative name designates the visible type with the smallest name -/
structure Least (key : Char → Int) (H : Heap) (R : Reg) : Prop where
  noAlias : ∀ n u, R.reg n = some u → n = H.name u
  some : ∀ m u, isAbsoluteName m = false → R.get m = some u →
    ∃ p ∈ visiblePaths R.ns, R.reg (p ++ m) = some u ∧
      ∀ q ∈ visiblePaths R.ns, ∀ v, R.reg (q ++ m) = some v → nameSort key (q ++ m) (p ++ m) = false
  none : ∀ m, isAbsoluteName m = false → R.get m = none → ∀ p ∈ visiblePaths R.ns, R.reg (p ++ m) = none

theorem plain_visible {R : Reg} (h : GInv key H R) : ∀ p ∈ visiblePaths R.ns, PlainPath p := by
  intro p hp
  rcases List.mem_cons.mp hp with rfl | hp
  · exact plainPath_root
  · exact plain_deepPaths plainPath_root h.ns p hp

theorem least_addName (hk : ∀ a b, key a = key b → a = b) {R : Reg} (h : Inv key H R) (hl : Least key H R)
    (t : TId) (hal : t < H.next) (p : Bool) (s : Str) (hn : isAbsoluteName (H.name t) = true) :
    Least key H (addName key H R (H.name t) t p s).1 := by
  obtain ⟨hinv', hns', hcases⟩ := addName_spec hk h (H.name t) t p s hn (Or.inl rfl) hal
  rcases hcases with ⟨_, _, e⟩ | ⟨_, e, _⟩ | ⟨_, e, _⟩ | ⟨hok, hnone, hv, hreg⟩
  · rw [e]; exact hl
  · rw [e]; exact hl
  · rw [e]; exact hl
  · have hgn : R.get (H.name t) = none := by rw [h.abs _ hn]; exact hnone
    have ho : (addName key H R (H.name t) t p s).1 =
        { R with global := ginsert key (H.name t) ⟨t, p, s⟩ R.global,
                 current := addRel key H (H.name t) ⟨t, p, s⟩ ['/'] (tokens R.ns)
                   (cinsert R.current (H.name t) ⟨t, p, s⟩) } := by
      unfold addName
      rw [hv, hgn]
      rfl
    generalize addName key H R (H.name t) t p s = o at *
    obtain ⟨R', r⟩ := o
    simp only at *
    have hvis : ∀ m, ((H.name t = ['/'] ++ m ∨ ∃ q ∈ deepPaths ['/'] (tokens R.ns), H.name t = q ++ m) ↔
        ∃ q ∈ visiblePaths R.ns, H.name t = q ++ m) := by
      intro m; unfold visiblePaths; simp
    have hcur : ∀ m, m ≠ [] → isAbsoluteName m = false → R'.get m =
        if (∃ q ∈ visiblePaths R.ns, H.name t = q ++ m) then
          (match R.get m with
            | Option.none => Option.some t
            | Option.some f => if nameSort key (H.name f) (H.name t) then Option.some f else Option.some t)
        else R.get m := by
      intro m hm0 hm
      have hmn : m ≠ H.name t := by rintro rfl; rw [hn] at hm; cases hm
      rw [get_eq, ho]
      simp only
      rw [addRel_exact _ _ _ _ _ _ hm0]
      simp only [hvis]
      have hcm : cinsert R.current (H.name t) ⟨t, p, s⟩ m = R.current m := by
        simp [cinsert, hmn]
      rw [hcm, get_eq]
      split
      · cases R.current m with
        | none => rfl
        | some f => simp only [Option.map_some]; split <;> rfl
      · rfl
    have hne : ∀ m u, (∃ q, PlainPath q ∧ R'.reg (q ++ m) = Option.some u) → m ≠ [] := by
      rintro m u ⟨q, hq, hr⟩
      exact (plain_rel hq (hinv'.reg_name hr).1).1
    have hplain := plain_visible h.toGInv
    refine ⟨?_, ?_, ?_⟩
    · intro n u hr
      rw [hreg] at hr
      split at hr
      · rename_i e; cases hr; exact e
      · exact hl.noAlias n u hr
    · intro m u hm hgm
      rw [hns']
      have hm0 : m ≠ [] := by
        obtain ⟨q, hq, hr⟩ := hinv'.rel m u hm hgm
        exact hne m u ⟨q, hq, hr⟩
      rw [hcur m hm0 hm] at hgm
      by_cases hex : ∃ q ∈ visiblePaths R.ns, H.name t = q ++ m
      · rw [if_pos hex] at hgm
        obtain ⟨q0, hq0, hq0n⟩ := hex
        cases hgR : R.get m with
        | none =>
          rw [hgR] at hgm
          cases hgm
          refine ⟨q0, hq0, by rw [hreg, if_pos hq0n.symm], ?_⟩
          intro q hq v hrv
          rw [hreg] at hrv
          split at hrv
          · rename_i e; rw [e, ← hq0n]; exact nameSort_irrefl _ _
          · rw [hl.none m hm hgR q hq] at hrv; cases hrv
        | some f =>
          rw [hgR] at hgm
          obtain ⟨p1, hp1, hp1r, hp1l⟩ := hl.some m f hm hgR
          have hfn := hl.noAlias _ _ hp1r
          by_cases hlt : nameSort key (H.name f) (H.name t) = true
          · simp only [hlt, if_true] at hgm
            cases hgm
            refine ⟨p1, hp1, ?_, ?_⟩
            · rw [hreg, if_neg]
              · exact hp1r
              · intro e; rw [e] at hp1r; rw [hnone] at hp1r; cases hp1r
            · intro q hq v hrv
              rw [hreg] at hrv
              split at hrv
              · rename_i e
                rw [e, hfn]
                cases hx : nameSort key (H.name t) (H.name u) with
                | false => rfl
                | true => have := nameSort_asymm key _ _ hx; rw [hlt] at this; cases this
              · exact hp1l q hq v hrv
          · simp only [hlt] at hgm
            cases hgm
            refine ⟨q0, hq0, by rw [hreg, if_pos hq0n.symm], ?_⟩
            intro q hq v hrv
            rw [hreg] at hrv
            split at hrv
            · rename_i e; rw [e, ← hq0n]; exact nameSort_irrefl _ _
            · cases hx : nameSort key (q ++ m) (q0 ++ m) with
              | false => rfl
              | true =>
                exfalso
                rw [← hq0n] at hx
                rcases nameSort_total key hk (q ++ m) (p1 ++ m) with e | e | e
                · rw [hp1l q hq v hrv] at e; cases e
                · rw [e, hfn] at hx; exact hlt hx
                · exact hlt (by rw [← hfn]; exact nameSort_trans key _ _ _ e hx)
      · rw [if_neg hex] at hgm
        obtain ⟨p1, hp1, hp1r, hp1l⟩ := hl.some m u hm hgm
        refine ⟨p1, hp1, ?_, ?_⟩
        · rw [hreg, if_neg]
          · exact hp1r
          · intro e; exact hex ⟨p1, hp1, e.symm⟩
        · intro q hq v hrv
          rw [hreg] at hrv
          split at hrv
          · rename_i e; exact absurd ⟨q, hq, e.symm⟩ hex
          · exact hp1l q hq v hrv
    · intro m hm hgm
      rw [hns']
      intro q hq
      cases hrq : R'.reg (q ++ m) with
      | none => rfl
      | some v =>
        exfalso
        have hm0 := hne m v ⟨q, hplain q hq, hrq⟩
        rw [hcur m hm0 hm] at hgm
        split at hgm
        · split at hgm
          · cases hgm
          · split at hgm <;> cases hgm
        · rename_i hex
          rw [hreg, if_neg (fun e => hex ⟨q, hq, e.symm⟩)] at hrq
          rw [hl.none m hm hgm q hq] at hrq
          cases hrq

theorem least_add (hk : ∀ a b, key a = key b → a = b) {R : Reg} (h : Inv key H R) (hl : Least key H R)
    (t : TId) (hal : t < H.next) (hn : isAbsoluteName (H.name t) = true) (p : Bool) (s : Str) :
    Least key H (add key H R t p s).1 := by
  unfold add
  have h1 := least_addName hk h hl t hal p s hn
  have h2 := (addName_spec hk h (H.name t) t p s hn (Or.inl rfl) hal).1
  generalize addName key H R (H.name t) t p s = r at h1 h2
  obtain ⟨R', r⟩ := r
  cases r with
  | ok v =>
    simp only
    rw [if_neg]
    · exact h1
    · intro hany
      rw [List.any_eq_true] at hany
      obtain ⟨d, _, hd⟩ := hany
      cases hx : getAliasesOf H R' d with
      | nil => rw [hx] at hd; simp at hd
      | cons a l =>
        have := (mem_getAliasesOf h2.toGInv d a).mp (by rw [hx]; simp)
        exact this.2 (h1.noAlias _ _ this.1)
  | exn e => exact h1
  | ub => exact h1
  | fuel => exact h1

/-- a registration -/
def AddOp : Op → Prop
  | .add _ _ _ => True
  | .addAuto _ _ => True
  | _ => False

theorem least_run (hk : ∀ a b, key a = key b → a = b) (hac : Acyclic H) (ops : List Op) :
    ∀ R, Inv key H R → Least key H R → (∀ o ∈ ops, OkOp H o) → (∀ o ∈ ops, AddOp o) →
      Inv key H (run key H R ops) ∧ Least key H (run key H R ops) ∧ (run key H R ops).ns = R.ns := by
  induction ops with
  | nil => intro R h hl _ _; exact ⟨h, hl, rfl⟩
  | cons o os ih =>
    intro R h hl ho ha
    have hi := inv_step hk hac h o (ho o (by simp))
    have ho1 := ho o (by simp)
    have ha1 := ha o (by simp)
    have : Least key H (step key H R o).1 ∧ (step key H R o).1.ns = R.ns := by
      cases o with
      | add t p s => exact ⟨least_add hk h hl t ho1.1 ho1.2 p s, (add_spec hk hac h t ho1.1 ho1.2 p s).1.2.1⟩
      | addAuto t s => exact ⟨least_add hk h hl t ho1.1 ho1.2 _ s, (add_spec hk hac h t ho1.1 ho1.2 _ s).1.2.1⟩
      | alias => exact absurd ha1 id
      | aliasAuto => exact absurd ha1 id
      | removeAlias => exact absurd ha1 id
      | clearAliases => exact absurd ha1 id
      | remove => exact absurd ha1 id
      | setDefaultNamespace => exact absurd ha1 id
      | importNamespace => exact absurd ha1 id
      | setSourceID => exact absurd ha1 id
    obtain ⟨i1, i2, i3⟩ := ih _ hi this.1 (fun x hx => ho x (by simp [hx])) (fun x hx => ha x (by simp [hx]))
    exact ⟨i1, i2, i3.trans this.2⟩

/-- **C22**, for registrations alone. When the default namespace is chosen once, first, and types are
then only registered (no aliases, no removals), the meaning of every name depends only on which types
are registered: two orders of registration that leave the same absolute names agree on all names. -/
theorem C22_registrations_partial (hk : ∀ a b, key a = key b → a = b) (hac : Acyclic H) (space : Str)
    (hsp : OkOp H (.setDefaultNamespace space)) (ops1 ops2 : List Op)
    (ho1 : ∀ o ∈ ops1, OkOp H o ∧ AddOp o) (ho2 : ∀ o ∈ ops2, OkOp H o ∧ AddOp o)
    (heq : ∀ n, isAbsoluteName n = true →
      (run key H Reg.empty (.setDefaultNamespace space :: ops1)).get n =
      (run key H Reg.empty (.setDefaultNamespace space :: ops2)).get n) (n : Str) :
    (run key H Reg.empty (.setDefaultNamespace space :: ops1)).get n =
    (run key H Reg.empty (.setDefaultNamespace space :: ops2)).get n := by
  have h0 : Inv key H (setDefaultNamespace key Reg.empty space).1 :=
    inv_setDefaultNamespace hk inv_empty space hsp
  have hglob : (setDefaultNamespace key Reg.empty space).1.global = [] := by
    unfold setDefaultNamespace
    split
    · exact (updateCurrent_global key _).1
    · rfl
  have hregE : ∀ n, (setDefaultNamespace key Reg.empty space).1.reg n = none := by
    intro n; unfold Reg.reg; rw [hglob]; rfl
  have hl0 : Least key H (setDefaultNamespace key Reg.empty space).1 := by
    refine ⟨?_, ?_, ?_⟩
    · intro n u hu; rw [hregE] at hu; cases hu
    · intro m u hm hu
      obtain ⟨p, _, hp⟩ := h0.rel m u hm hu
      rw [hregE] at hp; cases hp
    · intro m _ _ p _; exact hregE _
  have e1 := least_run hk hac ops1 _ h0 hl0 (fun o h => (ho1 o h).1) (fun o h => (ho1 o h).2)
  have e2 := least_run hk hac ops2 _ h0 hl0 (fun o h => (ho2 o h).1) (fun o h => (ho2 o h).2)
  change ∀ n, _ → (run key H (setDefaultNamespace key Reg.empty space).1 ops1).get n =
    (run key H (setDefaultNamespace key Reg.empty space).1 ops2).get n at heq
  change (run key H (setDefaultNamespace key Reg.empty space).1 ops1).get n =
    (run key H (setDefaultNamespace key Reg.empty space).1 ops2).get n
  generalize (setDefaultNamespace key Reg.empty space).1 = R0 at *
  generalize run key H R0 ops1 = R1 at *
  generalize run key H R0 ops2 = R2 at *
  obtain ⟨i1, l1, n1⟩ := e1
  obtain ⟨i2, l2, n2⟩ := e2
  cases hn : isAbsoluteName n with
  | true => exact heq n hn
  | false =>
    have hreg : ∀ n, R1.reg n = R2.reg n := by
      intro n
      cases hn : isAbsoluteName n with
      | true => rw [← i1.abs n hn, ← i2.abs n hn]; exact heq n hn
      | false => rw [i1.reg_rel hn, i2.reg_rel hn]
    have hns : R1.ns = R2.ns := by rw [n1, n2]
    cases g1 : R1.get n with
    | none =>
      cases g2 : R2.get n with
      | none => rfl
      | some u =>
        obtain ⟨p, hp, hr, _⟩ := l2.some n u hn g2
        rw [← hreg, l1.none n hn g1 p (by rw [hns]; exact hp)] at hr
        cases hr
    | some u1 =>
      obtain ⟨p1, hp1, hr1, hm1⟩ := l1.some n u1 hn g1
      cases g2 : R2.get n with
      | none =>
        rw [hreg, l2.none n hn g2 p1 (by rw [← hns]; exact hp1)] at hr1
        cases hr1
      | some u2 =>
        obtain ⟨p2, hp2, hr2, hm2⟩ := l2.some n u2 hn g2
        have a1 := hm1 p2 (by rw [hns]; exact hp2) u2 (by rw [hreg]; exact hr2)
        have a2 := hm2 p1 (by rw [← hns]; exact hp1) u1 (by rw [← hreg]; exact hr1)
        rcases nameSort_total key hk (p2 ++ n) (p1 ++ n) with e | e | e
        · rw [a1] at e; cases e
        · rw [e, ← hreg, hr1] at hr2; exact hr2
        · rw [a2] at e; cases e

end Verif.Registry
