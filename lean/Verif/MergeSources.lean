import Verif.MergeProps
import Verif.RegistryEntry

/-! C51: the sources of the entries of a registry when another registry is merged into it
(`Registry::copySourceIDs`, registry.cc:181-192, and its use in `Registry::merge`). -/

namespace Verif.Merge
open Verif Verif.Names Verif.Graph Verif.Registry Verif.TypeBuilder

variable {key : Char → Int}

/-- specification: what `RegistryIterator::getSource` says for a registered name, the empty text for others -/
def sourceOf (R : Reg) (n : Str) : Str :=
  match R.global.lookup n with
  | some e => e.source
  | none => []

/-- specification: `src` gives no source to a name that is in `R` an alias without source -/
def NoBareAlias (H : Heap) (R src : Reg) : Prop :=
  ∀ n p e, (n, p) ∈ src.global → p.source ≠ [] → (n, e) ∈ R.global → n = H.name e.ty ∨ e.source ≠ []

theorem glookup_lookup (g : List (Str × Entry)) (n : Str) : glookup g n = g.lookup n := by
  induction g with
  | nil => rfl
  | cons p g ih =>
    rw [show glookup (p :: g) n = if p.1 = n then some p.2 else glookup g n by
      unfold glookup
      rw [List.find?_cons]
      cases h : (p.1 == n) with
      | true => rw [if_pos (by simpa using h)]; rfl
      | false => rw [if_neg (by simpa using h)], ih]
    obtain ⟨m, e⟩ := p
    rw [List.lookup_cons]
    by_cases h : m = n
    · simp [h]
    · rw [if_neg h]
      have : (n == m) = false := by simpa using fun e => h e.symm
      rw [this]

theorem glookup_setSource (H : Heap) (R : Reg) (t : TId) (s n : Str) :
    glookup (setSourceID H R t s).global n =
      (glookup R.global n).map (fun e => if n = H.name t then ⟨e.ty, e.persistent, s⟩ else e) := by
  unfold setSourceID
  simp only [glookup_lookup]
  induction R.global with
  | nil => rfl
  | cons p g ih =>
    obtain ⟨m, e⟩ := p
    rw [List.map_cons]
    by_cases hm : m = H.name t
    · simp only [hm, if_true]
      rw [List.lookup_cons, List.lookup_cons]
      by_cases hn : n = H.name t
      · simp [hn]
      · have : (n == H.name t) = false := by simpa using hn
        rw [this]
        exact ih
    · simp only [hm, if_false]
      rw [List.lookup_cons, List.lookup_cons]
      by_cases hn : n = m
      · subst hn; simp [hm]
      · have : (n == m) = false := by simpa using hn
        rw [this]
        exact ih

/-- what one entry of the other registry does to the source of the entry `n` -/
def upd (H : Heap) (R : Reg) (n : Str) (cur : Str) (p : Str × Entry) : Str :=
  match glookup R.global p.1 with
  | none => cur
  | some f =>
    if p.2.source ≠ [] ∧ H.name f.ty = n ∧ (if p.1 = n then cur = [] else f.source = []) then p.2.source else cur

theorem copySource_lookup (H : Heap) (R : Reg) (p : Str × Entry) (n : Str) :
    glookup (copySource H R p).global n =
      (glookup R.global n).map (fun e => ⟨e.ty, e.persistent, upd H R n e.source p⟩) := by
  have hid : ∀ o : Option Entry, o = o.map (fun e => ⟨e.ty, e.persistent, e.source⟩) := by
    intro o; cases o <;> rfl
  unfold copySource upd
  cases hl : glookup R.global p.1 with
  | none => exact hid _
  | some f =>
    simp only
    by_cases hc : p.2.source ≠ [] ∧ f.source = []
    · rw [if_pos hc, glookup_setSource]
      cases hn : glookup R.global n with
      | none => rfl
      | some e =>
        simp only [Option.map_some, Option.some.injEq]
        by_cases hx : n = H.name f.ty
        · rw [if_pos hx, if_pos]
          refine ⟨hc.1, hx.symm, ?_⟩
          by_cases hp : p.1 = n
          · rw [if_pos hp]
            rw [hp, hn] at hl
            cases hl
            exact hc.2
          · rw [if_neg hp]; exact hc.2
        · rw [if_neg hx, if_neg]
          rintro ⟨_, h2, _⟩
          exact hx h2.symm
    · rw [if_neg hc]
      cases hn : glookup R.global n with
      | none => rfl
      | some e =>
        simp only [Option.map_some, Option.some.injEq]
        rw [if_neg]
        rintro ⟨h1, _, h3⟩
        apply hc
        refine ⟨h1, ?_⟩
        by_cases hp : p.1 = n
        · rw [if_pos hp] at h3
          rw [hp, hn] at hl
          cases hl
          exact h3
        · rw [if_neg hp] at h3; exact h3

/-- a type is registered under its own name -/
def Own (H : Heap) (R : Reg) : Prop :=
  ∀ n e, glookup R.global n = some e → ∃ e', glookup R.global (H.name e.ty) = some e' ∧ e'.ty = e.ty

theorem _root_.Verif.Registry.Inv.own {H : Heap} {R : Reg} (h : Inv key H R) : Own H R := by
  intro n e hn
  have h1 : R.reg n = some e.ty := by unfold Reg.reg; rw [hn]; rfl
  have h2 := (h.reg_name h1).2.2.1
  unfold Reg.regd Reg.reg at h2
  cases hx : glookup R.global (H.name e.ty) with
  | none => rw [hx] at h2; cases h2
  | some e' => rw [hx] at h2; exact ⟨e', rfl, by simpa using h2⟩

theorem Own.copySource {H : Heap} {R : Reg} (h : Own H R) (p : Str × Entry) : Own H (copySource H R p) := by
  intro n e hn
  rw [copySource_lookup] at hn
  cases hx : glookup R.global n with
  | none => rw [hx] at hn; cases hn
  | some f =>
    rw [hx] at hn
    cases hn
    obtain ⟨e', h1, h2⟩ := h n f hx
    refine ⟨⟨e'.ty, e'.persistent, upd H R (H.name f.ty) e'.source p⟩, ?_, h2⟩
    simp only [copySource_lookup, h1]
    rfl

theorem upd_copySource {H : Heap} {R : Reg} (ho : Own H R) (q : Str × Entry) (n : Str) :
    upd H (copySource H R q) n = upd H R n := by
  funext cur p
  unfold upd
  rw [copySource_lookup]
  cases hl : glookup R.global p.1 with
  | none => rfl
  | some f =>
    simp only [Option.map_some]
    by_cases hn : H.name f.ty = n
    · by_cases hp : p.1 = n
      · simp only [hp, if_true]
      · have : upd H R p.1 f.source q = f.source := by
          unfold upd
          split
          · rfl
          · rename_i g hg
            rw [if_neg]
            rintro ⟨_, h2, h3⟩
            obtain ⟨e', h4, h5⟩ := ho _ g hg
            rw [h2, hl] at h4
            cases h4
            rw [← h5, hn] at h2
            exact hp h2.symm
        rw [this]
    · rw [if_neg (fun h => hn h.2.1), if_neg (fun h => hn h.2.1)]

theorem copySourceIDs_lookup {H : Heap} (l : List (Str × Entry)) : ∀ R : Reg, Own H R → ∀ n,
    glookup (copySourceIDs H R l).global n =
      (glookup R.global n).map (fun e => ⟨e.ty, e.persistent, l.foldl (upd H R n) e.source⟩) := by
  induction l with
  | nil =>
    intro R _ n
    unfold copySourceIDs
    rw [List.foldl_nil]
    cases glookup R.global n <;> rfl
  | cons p l ih =>
    intro R ho n
    have e : copySourceIDs H R (p :: l) = copySourceIDs H (copySource H R p) l := rfl
    rw [e, ih _ (ho.copySource p) n, copySource_lookup, upd_copySource ho, Option.map_map]
    rfl

/-- an alias keeps its source -/
theorem fold_alias {H : Heap} {R : Reg} (ho : Own H R) {n : Str} {e : Entry} (he : glookup R.global n = some e)
    (hne : n ≠ H.name e.ty) (l : List (Str × Entry)) : ∀ cur, l.foldl (upd H R n) cur = cur := by
  induction l with
  | nil => intro cur; rfl
  | cons p l ih =>
    intro cur
    rw [List.foldl_cons, ih]
    unfold upd
    split
    · rfl
    · rename_i f hf
      rw [if_neg]
      rintro ⟨_, h2, _⟩
      obtain ⟨e', h4, h5⟩ := ho _ f hf
      rw [h2, he] at h4
      cases h4
      exact hne (by rw [h5, h2])

theorem fold_own {H : Heap} {R : Reg} {n : Str} {e : Entry} (he : glookup R.global n = some e)
    (hn : n = H.name e.ty) (l : List (Str × Entry))
    (hb : ∀ p ∈ l, ∀ f, p.2.source ≠ [] → glookup R.global p.1 = some f → p.1 = H.name f.ty ∨ f.source ≠ [])
    (hnd : (l.map Prod.fst).Nodup) : ∀ cur,
    l.foldl (upd H R n) cur = if cur = [] then (match l.lookup n with | some p => p.source | none => []) else cur := by
  induction l with
  | nil =>
    intro cur
    by_cases h : cur = []
    · simp [h]
    · simp [h]
  | cons p l ih =>
    intro cur
    obtain ⟨m, p⟩ := p
    rw [List.foldl_cons, ih (fun q hq => hb q (by simp [hq])) (by simp at hnd; exact hnd.2)]
    rw [List.lookup_cons]
    by_cases hm : m = n
    · subst hm
      have hl : l.lookup m = none := by
        rw [List.lookup_eq_none_iff]
        intro q hq
        simp only [List.map_cons, List.nodup_cons, List.mem_map, not_exists, not_and] at hnd
        simpa using fun e => hnd.1 q hq e.symm
      have hu : upd H R m cur (m, p) = if cur = [] then p.source else cur := by
        unfold upd
        simp only [he, if_true]
        by_cases hs : p.source = []
        · rw [if_neg (fun h => h.1 hs)]
          by_cases hc : cur = []
          · rw [if_pos hc, hc, hs]
          · rw [if_neg hc]
        · by_cases hc : cur = []
          · rw [if_pos ⟨hs, hn.symm, hc⟩, if_pos hc]
          · rw [if_neg (fun h => hc h.2.2), if_neg hc]
      rw [hu, hl]
      simp only [beq_self_eq_true]
      by_cases hc : cur = []
      · simp only [hc, if_true]
        by_cases hs : p.source = []
        · rw [if_pos hs, hs]
        · rw [if_neg hs]
      · simp only [hc, if_false]
    · have hb1 : (n == m) = false := by simpa using fun e => hm e.symm
      rw [hb1]
      have hu : upd H R n cur (m, p) = cur := by
        unfold upd
        split
        · rfl
        · rename_i f hf
          rw [if_neg]
          rintro ⟨h1, h2, h3⟩
          simp only [hm, if_false] at h3
          rcases hb (m, p) (by simp) f h1 hf with h4 | h4
          · exact hm (h4.trans h2)
          · exact h4 h3
      rw [hu]

/-! ### the entries during a merge -/

/-- the tables keep their entries, and the new ones satisfy `P` -/
def Grows (P : Str → Entry → Prop) (R R' : Reg) : Prop := Cov R → Ents P R R'

theorem Grows.refl {P : Str → Entry → Prop} (R : Reg) : Grows P R R := fun h => .refl h

theorem Grows.trans {P : Str → Entry → Prop} {R R1 R2 : Reg} (h1 : Grows P R R1) (h2 : Grows P R1 R2) :
    Grows P R R2 := fun h => ((h1 h).trans (h2 (h1 h).cov)).mono (fun _ _ h => h.elim id id)

/-- no source -/
def Bare (_ : Str) (e : Entry) : Prop := e.source = []

theorem grows_addAuto {P : Str → Entry → Prop} (H : Heap) (R : Reg) (t : TId) (hP : ∀ n e, Bare n e → P n e) :
    Grows P R (addAuto key H R t []).1 := by
  intro hc
  refine (add_ents (key := key) (H := H) hc t _ []).1.mono ?_
  rintro n e (⟨_, rfl⟩ | h)
  · exact hP _ _ rfl
  · exact hP _ _ h.2

theorem grows_andThen {α β : Type} {P : Str → Entry → Prop} {R : Reg} {x : MSt × Res α} {f : MSt → α → MSt × Res β}
    (h1 : Grows P R x.1.R) (h2 : ∀ s a, Grows P s.R (f s a).1.R) : Grows P R (andThen x f).1.R := by
  obtain ⟨s, r⟩ := x
  cases r with
  | ok a => exact h1.trans (h2 s a)
  | exn e => exact h1
  | ub => exact h1
  | fuel => exact h1

theorem grows_tryMerge {P : Str → Entry → Prop} (s : MSt) (u : TId) : Grows P s.R (tryMerge s u).1.R := by
  unfold tryMerge
  repeat' split
  all_goals exact .refl _

theorem grows_vectorFactory (s : MSt) (e : TId) : Grows Bare s.R (vectorFactory key s e).1.R := by
  unfold vectorFactory
  refine grows_andThen (.refl _) ?_
  intro s b
  split
  · exact grows_andThen (grows_addAuto _ _ _ (fun _ _ h => h)) (fun _ _ => .refl _)
  · repeat' split
    all_goals exact .refl _

theorem grows_stringElement (s : MSt) : Grows Bare s.R (stringElement key s).1.R := by
  unfold stringElement
  refine grows_andThen (.refl _) ?_
  intro s b
  split
  · exact grows_andThen (grows_addAuto _ _ _ (fun _ _ h => h)) (fun _ _ => .refl _)
  · repeat' split
    all_goals exact .refl _

theorem grows_stringFactory (s : MSt) : Grows Bare s.R (stringFactory key s).1.R := by
  unfold stringFactory
  refine grows_andThen (.refl _) ?_
  intro s b
  split
  · repeat' split
    all_goals exact .refl _
  · exact grows_andThen (grows_stringElement s) (fun s e =>
      grows_andThen (grows_addAuto _ _ _ (fun _ _ h => h)) (fun _ _ => .refl _))

theorem addField_R (s : MSt) (p : TId) (n : Str) (t : TId) (o : Nat) : (s.addField p n t o).R = s.R := by
  unfold MSt.addField
  split <;> rfl

theorem grows_mergeFields {P : Str → Entry → Prop} {rec : MSt → TId → MSt × Res TId}
    (hr : ∀ s u, Grows P s.R (rec s u).1.R) (p : TId) (fs : List FieldD) :
    ∀ s, Grows P s.R (mergeFields rec p fs s).1.R := by
  induction fs with
  | nil => intro s; exact .refl _
  | cons f fs ih =>
    intro s
    unfold mergeFields
    refine grows_andThen (hr s f.ty) ?_
    intro s t
    have := ih (s.addField p f.name t f.offset)
    rw [addField_R] at this
    exact this

theorem eraseOnExn_R {α : Type} (u : TId) (x : MSt × Res α) : (eraseOnExn u x).1.R = x.1.R := by
  unfold eraseOnExn
  split <;> rfl

theorem grows_doMerge {rec : MSt → TId → MSt × Res TId} (hr : ∀ s u, Grows Bare s.R (rec s u).1.R) (s : MSt) (u : TId) :
    Grows Bare s.R (doMerge key rec s u).1.R := by
  unfold doMerge
  split
  · exact grows_andThen (hr s _) (fun _ _ => .refl _)
  · exact grows_andThen (hr s _) (fun _ _ => .refl _)
  · exact grows_andThen (hr s _) (fun s e => grows_andThen (grows_vectorFactory s e) (fun _ _ => .refl _))
  · exact grows_andThen (hr s _) (fun s e => grows_andThen (grows_stringFactory s) (fun _ _ => .refl _))
  · dsimp only
    refine grows_andThen ?_ (fun _ _ => .refl _)
    rw [eraseOnExn_R]
    exact grows_mergeFields hr _ _ { s.new ⟨s.H.name u, 0, .comp []⟩ with st := _ }
  · exact .refl _

theorem grows_typeMerge {rec : MSt → TId → MSt × Res TId} (hr : ∀ s u, Grows Bare s.R (rec s u).1.R) (s : MSt)
    (u : TId) : Grows Bare s.R (typeMerge key rec s u).1.R := by
  unfold typeMerge
  refine grows_andThen (grows_tryMerge s u) ?_
  intro s old
  split
  · exact .refl _
  · exact grows_andThen (grows_doMerge hr s u) (fun s n =>
      grows_andThen (grows_addAuto _ _ _ (fun _ _ h => h)) (fun _ _ => .refl _))

theorem grows_mergeF (f : Nat) : ∀ (s : MSt) (u : TId), Grows Bare s.R (mergeF key f s u).1.R := by
  induction f with
  | zero => intro s u; exact .refl _
  | succ f ih =>
    intro s u
    unfold mergeF
    split
    · exact grows_typeMerge ih s u
    · refine grows_andThen (grows_tryMerge s u) ?_
      intro s old
      split
      · exact .refl _
      · exact grows_andThen (ih s _) (fun s _ => grows_typeMerge ih s u)

theorem grows_mergeTypes (fuel : Nat) (l : List (Str × Entry)) : ∀ s, Grows Bare s.R (mergeTypes key fuel l s).1.R := by
  induction l with
  | nil => intro s; exact .refl _
  | cons p l ih =>
    intro s
    unfold mergeTypes
    split
    · exact ih s
    · exact grows_andThen (grows_mergeF fuel s _) (fun s _ => ih s)

/-- the entries made for the aliases of the list `l`, or by propagation -/
def FromList (H : Heap) (l : List (Str × Entry)) (n : Str) (e : Entry) : Prop :=
  e.source = [] ∨ ∃ p, (n, p) ∈ l ∧ n ≠ H.name p.ty ∧ e.persistent = p.persistent ∧ e.source = p.source

theorem grows_mergeAliases (l : List (Str × Entry)) : ∀ s : MSt,
    (mergeAliases key l s).1.H = s.H ∧ Grows (FromList s.H l) s.R (mergeAliases key l s).1.R := by
  induction l with
  | nil => intro s; exact ⟨rfl, .refl _⟩
  | cons p l ih =>
    intro s
    have up : ∀ {R R' : Reg}, Grows (FromList s.H l) R R' → Grows (FromList s.H (p :: l)) R R' := by
      intro R R' h hc
      refine (h hc).mono ?_
      rintro n e (h | ⟨q, h1, h2⟩)
      · exact Or.inl h
      · exact Or.inr ⟨q, by simp [h1], h2⟩
    unfold mergeAliases
    by_cases ha : isAlias s.H p = true
    · have hne := (isAlias_iff s.H p).mp ha
      rw [ha]
      simp only [Bool.not_true, Bool.false_eq_true, if_false]
      split
      · split
        · exact ⟨(ih s).1, up (ih s).2⟩
        all_goals exact ⟨rfl, .refl _⟩
      · have hstep : Grows (FromList s.H (p :: l)) s.R
            (alias key s.H s.R (s.H.name p.2.ty) p.1 p.2.persistent p.2.source).1 := by
          intro hc
          refine (aliasF_ents (key := key) (H := s.H) _ s.R _ _ _ _ hc).mono ?_
          rintro n e (⟨t, _, rfl, rfl⟩ | h)
          · exact Or.inr ⟨p.2, by simp, hne, rfl, rfl⟩
          · exact Or.inl h.2
        generalize alias key s.H s.R (s.H.name p.2.ty) p.1 p.2.persistent p.2.source = x at hstep
        obtain ⟨R2, r2⟩ := x
        cases r2 with
        | ok a =>
          simp only [onReg, andThen_ok]
          have := ih { s with R := R2 }
          exact ⟨this.1, hstep.trans (up this.2)⟩
        | exn e => exact ⟨rfl, hstep⟩
        | ub => exact ⟨rfl, hstep⟩
        | fuel => exact ⟨rfl, hstep⟩
    · rw [show isAlias s.H p = false by simpa using ha]
      simp only [Bool.not_false, if_true]
      exact ⟨(ih s).1, up (ih s).2⟩

theorem sourceOf_eq (R : Reg) (n : Str) :
    sourceOf R n = match glookup R.global n with | some e => e.source | none => [] := by
  unfold sourceOf
  rw [glookup_lookup]

theorem sorted_nodup {l : List (Str × Entry)} (h : Sorted key l) : (l.map Prod.fst).Nodup := by
  unfold Sorted at h
  rw [List.nodup_iff_pairwise_ne, List.pairwise_map]
  refine h.imp ?_
  intro a b hab e
  rw [e, nameSort_irrefl] at hab
  cases hab

theorem copySourceIDs_ty {H : Heap} (l : List (Str × Entry)) : ∀ (R : Reg) (n : Str),
    (glookup (copySourceIDs H R l).global n).map (·.ty) = (glookup R.global n).map (·.ty) := by
  induction l with
  | nil => intro R n; rfl
  | cons p l ih =>
    intro R n
    have e : copySourceIDs H R (p :: l) = copySourceIDs H (copySource H R p) l := rfl
    rw [e, ih, copySource_lookup, Option.map_map]
    rfl

theorem own_of_copy {H : Heap} {R : Reg} {l : List (Str × Entry)} (h : Own H (copySourceIDs H R l)) : Own H R := by
  intro n e hn
  have h1 := copySourceIDs_ty (H := H) l R n
  rw [hn] at h1
  cases hx : glookup (copySourceIDs H R l).global n with
  | none => rw [hx] at h1; cases h1
  | some e1 =>
    rw [hx] at h1
    have h2 : e1.ty = e.ty := by simpa using h1
    obtain ⟨e2, h3, h4⟩ := h n e1 hx
    rw [h2] at h3 h4
    have h5 := copySourceIDs_ty (H := H) l R (H.name e.ty)
    rw [h3] at h5
    cases hy : glookup R.global (H.name e.ty) with
    | none => rw [hy] at h5; cases h5
    | some e3 =>
      rw [hy] at h5
      have h6 : e2.ty = e3.ty := by simpa using h5
      exact ⟨e3, rfl, by rw [← h6, h4]⟩

/-! ### C51 -/

/-- **C51**, `copySourceIDs`: the names, types and persistence flags stay; aliases keep their source; the entry under the
own name of a type that has no source gets the one of the other registry, and one that has a source keeps it. -/
theorem C51_copySourceIDs (hk : ∀ a b, key a = key b → a = b) {H : Heap} {R src : Reg} (hR : Reachable key H R)
    (hsrc : Reachable key H src) :
    let R' := copySourceIDs H R src.global
    (∀ n, R'.get n = R.get n) ∧
    (∀ n e', (n, e') ∈ R'.global → ∃ e, (n, e) ∈ R.global) ∧
    (∀ n e, (n, e) ∈ R.global → ∃ e', (n, e') ∈ R'.global ∧ e'.ty = e.ty ∧ e'.persistent = e.persistent ∧
      (n ≠ H.name e.ty → e'.source = e.source) ∧
      (n = H.name e.ty → NoBareAlias H R src → e'.source = if e.source = [] then sourceOf src n else e.source)) := by
  intro R'
  have hi := (reachable_inv hk hR).2
  have his := (reachable_inv hk hsrc).2
  have hl := copySourceIDs_lookup src.global R hi.own
  obtain ⟨c1, c2, c3⟩ := copySourceIDs_spec src.global R hi
  refine ⟨c3, ?_, ?_⟩
  · intro n e' he
    rw [c1.mem_iff, hl] at he
    cases hx : glookup R.global n with
    | none => rw [hx] at he; cases he
    | some e => exact ⟨e, (hi.mem_iff _ _).mpr hx⟩
  · intro n e he
    have hx := (hi.mem_iff _ _).mp he
    refine ⟨⟨e.ty, e.persistent, src.global.foldl (upd H R n) e.source⟩, ?_, rfl, rfl, ?_, ?_⟩
    · rw [c1.mem_iff, hl, hx]; rfl
    · intro hne
      exact fold_alias hi.own hx hne _ _
    · intro hn hb
      rw [sourceOf]
      exact fold_own hx hn src.global (fun p hp f h1 h2 => hb p.1 p.2 f hp h1 ((hi.mem_iff _ _).mpr h2))
        (sorted_nodup his.sorted) e.source

/-- **C51**, `merge`: what was registered keeps its type, its persistence and (for aliases) its source. The entry under the
own name of a type has the source it had, or else the one it has in the merged registry. A new alias has the source it has in the
merged registry, or none. -/
theorem C51_merge_partial (hk : ∀ a b, key a = key b → a = b) {H : Heap} {R src : Reg}
    (hsrc : Reachable key H src) (hc : Copyable H src) (hd : Dest key H R (Regd H src)) (fuel : Nat)
    (hf : (H.next + 1) * (H.next + 1) ≤ fuel) (hok : (merge key fuel (H, R) src).2 = .ok ()) :
    let w := (merge key fuel (H, R) src).1
    (∀ n e, (n, e) ∈ R.global → ∃ e', (n, e') ∈ w.2.global ∧ e'.ty = e.ty ∧ e'.persistent = e.persistent ∧
      (n ≠ H.name e.ty → e'.source = e.source)) ∧
    (NoBareAlias w.1 w.2 src → ∀ n e', (n, e') ∈ w.2.global → n = w.1.name e'.ty →
      e'.source = if sourceOf R n = [] then sourceOf src n else sourceOf R n) ∧
    (∀ n e', (n, e') ∈ w.2.global → n ≠ w.1.name e'.ty → (∀ e, (n, e) ∉ R.global) →
      e'.source = [] ∨ ∃ p, (n, p) ∈ src.global ∧ e'.source = p.source ∧ e'.persistent = p.persistent) := by
  intro w
  have hi := (reachable_inv hk hsrc).2
  obtain ⟨_, _, h3⟩ := merge_spec hk hi hc hd hf
  have hM : Merged key H R src w := by
    rcases h3 with ⟨_, h3⟩ | ⟨h3 | h3, _⟩
    · exact h3
    · rw [h3] at hok; cases hok
    · rw [h3] at hok; cases hok
  have hw : w = (merge key fuel (H, R) src).1 := rfl
  clear_value w
  have hg1 := grows_mergeTypes (key := key) fuel src.global ⟨H, R, []⟩ hd.inv.cov
  unfold merge at hw hok
  simp only at hw hok
  generalize mergeTypes key fuel src.global ⟨H, R, []⟩ = x at hw hok hg1
  obtain ⟨s1, r1⟩ := x
  cases r1 with
  | exn e => simp at hok
  | ub => simp [andThen] at hok
  | fuel => simp [andThen] at hok
  | ok a =>
  simp only [andThen_ok] at hw hok hg1
  have hg2 := grows_mergeAliases (key := key) src.global s1
  generalize mergeAliases key src.global s1 = y at hw hok hg2
  obtain ⟨s2, r2⟩ := y
  cases r2 with
  | exn e => simp at hok
  | ub => simp at hok
  | fuel => simp at hok
  | ok b =>
  simp only at hw hg2
  subst hw
  have hH := hg2.1
  have hg2 := hg2.2 hg1.cov
  have hown : Own s2.H s2.R := own_of_copy (l := src.global) hM.inv.own
  have hl := copySourceIDs_lookup src.global s2.R hown
  have hin : ∀ n e', (n, e') ∈ (copySourceIDs s2.H s2.R src.global).global →
      ∃ e2, glookup s2.R.global n = some e2 ∧
        e' = ⟨e2.ty, e2.persistent, src.global.foldl (upd s2.H s2.R n) e2.source⟩ := by
    intro n e' he
    have := (hM.inv.mem_iff n e').mp he
    simp only at this
    rw [hl] at this
    cases hx : glookup s2.R.global n with
    | none => rw [hx] at this; cases this
    | some e2 =>
      rw [hx] at this
      exact ⟨e2, rfl, (Option.some.inj this).symm⟩
  have hout : ∀ n e2, glookup s2.R.global n = some e2 →
      (n, (⟨e2.ty, e2.persistent, src.global.foldl (upd s2.H s2.R n) e2.source⟩ : Entry)) ∈
        (copySourceIDs s2.H s2.R src.global).global := by
    intro n e2 he
    refine (hM.inv.mem_iff n _).mpr ?_
    simp only
    rw [hl, he]
    rfl
  refine ⟨?_, ?_, ?_⟩
  · intro n e he
    have hx := (hd.inv.mem_iff _ _).mp he
    have hx2 := hg2.keep n e (hg1.keep n e hx)
    refine ⟨_, hout n e hx2, rfl, rfl, ?_⟩
    intro hne
    refine fold_alias hown hx2 ?_ _ _
    have hlt : e.ty < H.next := (hd.inv.reg_name (mem_reg hd.inv.sorted he)).2.2.2
    have : s2.H.name e.ty = H.name e.ty := by
      unfold Heap.name
      rw [hM.objects _ hlt]
    rw [this]
    exact hne
  · intro hb n e' he hn
    obtain ⟨e2, hx2, rfl⟩ := hin n e' he
    simp only at hn ⊢
    have hfold := fold_own hx2 hn src.global (by
      intro p hp f h1 h2
      rcases hb p.1 p.2 _ hp h1 (hout p.1 f h2) with h | h
      · exact Or.inl h
      · by_cases hne : p.1 = s2.H.name f.ty
        · exact Or.inl hne
        · simp only [fold_alias hown h2 hne] at h
          exact Or.inr h) (sorted_nodup hi.sorted) e2.source
    rw [hfold]
    show (if e2.source = [] then sourceOf src n else e2.source) = _
    have hR : e2.source = sourceOf R n := by
      rw [sourceOf_eq]
      cases hx : glookup R.global n with
      | some e =>
        have := hg2.keep n e (hg1.keep n e hx)
        rw [hx2] at this
        cases this
        rfl
      | none =>
        simp only
        cases hx1 : glookup s1.R.global n with
        | some e1 =>
          have := hg2.keep n e1 hx1
          rw [hx2] at this
          cases this
          exact hg1.fresh n e2 hx hx1
        | none =>
          rcases hg2.fresh n e2 hx1 hx2 with h | ⟨p, h1, h2, _, _⟩
          · exact h
          · exfalso
            have hreg : (copySourceIDs s2.H s2.R src.global).reg n = some e2.ty :=
              mem_reg hM.inv.sorted (hout n e2 hx2)
            have hps := mem_reg hi.sorted h1
            simp only at hps
            have hplt : p.ty < H.next := (hi.reg_name hps).2.2.2
            have hpn : s1.H.name p.ty = H.name p.ty := by
              rw [← hH]
              unfold Heap.name
              rw [hM.objects _ hplt]
            rcases hM.only n e2.ty hreg with h | ⟨_, u, hu, hnu⟩ | ⟨h, _⟩
            · unfold Reg.reg at h
              rw [hx] at h
              cases h
            · have := (hi.regd_iff u).mp hu
              unfold Reg.regd at this
              rw [← hnu, hps] at this
              cases this
              exact h2 (by rw [hpn]; exact hnu)
            · exact h hn
    rw [hR]
  · intro n e' he hn hR
    obtain ⟨e2, hx2, rfl⟩ := hin n e' he
    simp only at hn ⊢
    rw [fold_alias hown hx2 hn]
    cases hx : glookup R.global n with
    | some e => exact absurd ((hd.inv.mem_iff _ _).mpr hx) (hR e)
    | none =>
      cases hx1 : glookup s1.R.global n with
      | some e1 =>
        have := hg2.keep n e1 hx1
        rw [hx2] at this
        cases this
        exact Or.inl (hg1.fresh n e2 hx hx1)
      | none =>
        rcases hg2.fresh n e2 hx1 hx2 with h | ⟨p, h1, _, h3, h4⟩
        · exact Or.inl h
        · exact Or.inr ⟨p, h1, h4, h3⟩

end Verif.Merge
