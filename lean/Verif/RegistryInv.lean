import Verif.RegistryMap
import Verif.RegistryNames

/-! The invariant of the name tables, and its preservation by every operation. -/

namespace Verif.Registry
open Verif Verif.Names Verif.Graph

/-- What the registry's public iterator `Registry::find(name)` gives: the type registered under a full
name (registry.cc:304-309). -/
def Reg.reg (R : Reg) (n : Str) : Option TId := (glookup R.global n).map (·.ty)

/-- A namespace path `…/` without template, array or pointer characters. -/
def PlainPath (p : Str) : Prop :=
  ∃ q, p = q ++ ['/'] ∧ (∀ c ∈ q, special c = false) ∧ (q.head? = some '/' ∨ q = [])

/-- A namespace component without template, array or pointer characters. -/
def PlainTok (t : Str) : Prop := t ≠ [] ∧ ∀ c ∈ t, c ≠ '/' ∧ special c = false

theorem plainPath_root : PlainPath ['/'] := ⟨[], rfl, by simp, Or.inr rfl⟩

theorem plainPath_snoc {p t : Str} (hp : PlainPath p) (ht : PlainTok t) : PlainPath (p ++ t ++ ['/']) := by
  obtain ⟨q, rfl, hq, hh⟩ := hp
  refine ⟨q ++ ['/'] ++ t, rfl, ?_, ?_⟩
  · intro c hc
    simp only [List.mem_append, List.mem_singleton] at hc
    rcases hc with (hc | hc) | hc
    · exact hq c hc
    · subst hc; decide
    · exact (ht.2 c hc).2
  · left
    rcases hh with hh | hh
    · cases q with
      | nil => simp at hh
      | cons a q => simpa using hh
    · subst hh; simp

theorem plain_deepPaths {space : Str} (hs : PlainPath space) {toks : List Str} (ht : ∀ t ∈ toks, PlainTok t) :
    ∀ p ∈ deepPaths space toks, PlainPath p := by
  induction toks generalizing space with
  | nil => intro p hp; cases hp
  | cons t ts ih =>
    intro p hp
    unfold deepPaths at hp
    have h1 := plainPath_snoc hs (ht t (by simp))
    rcases List.mem_append.mp hp with hp | hp
    · exact ih h1 (fun x hx => ht x (by simp [hx])) p hp
    · rw [List.mem_singleton.mp hp]; exact h1

/-- the part of a registered name after a plain namespace is a relative name -/
theorem plain_rel {p m : Str} (hp : PlainPath p) (h : isValidTypename (p ++ m) true = true) :
    m ≠ [] ∧ isAbsoluteName m = false := by
  obtain ⟨q, rfl, hq, hh⟩ := hp
  rw [List.append_assoc] at h
  obtain ⟨h1, h2⟩ := valid_after q m hq hh h
  refine ⟨h1, ?_⟩
  cases m with
  | nil => rfl
  | cons c m => simpa [isAbsoluteName] using h2

/-- The invariant on `m_global` and the default namespace. -/
structure GInv (key : Char → Int) (H : Heap) (R : Reg) : Prop where
  sorted : Sorted key R.global
  names : ∀ p ∈ R.global, isValidTypename p.1 true = true ∧ isAbsoluteName p.1 = true
  prim : ∀ p ∈ R.global, R.reg (H.name p.2.ty) = some p.2.ty
  alloc : ∀ p ∈ R.global, p.2.ty < H.next
  ns : ∀ t ∈ tokens R.ns, PlainTok t

/-- The invariant of the name tables. -/
structure Inv (key : Char → Int) (H : Heap) (R : Reg) : Prop extends GInv key H R where
  abs : ∀ n, isAbsoluteName n = true → R.get n = R.reg n
  rel : ∀ n u, isAbsoluteName n = false → R.get n = some u → ∃ p, PlainPath p ∧ R.reg (p ++ n) = some u

variable {key : Char → Int} {H : Heap}

theorem reg_mem {R : Reg} {n : Str} {u : TId} (h : R.reg n = some u) : ∃ e, (n, e) ∈ R.global ∧ e.ty = u := by
  unfold Reg.reg at h
  cases hg : glookup R.global n with
  | none => simp [hg] at h
  | some e => rw [hg] at h; exact ⟨e, glookup_mem hg, by simpa using h⟩

theorem mem_reg {R : Reg} (hs : Sorted key R.global) {p : Str × Entry} (h : p ∈ R.global) :
    R.reg p.1 = some p.2.ty := by
  unfold Reg.reg
  rw [mem_glookup hs h]; rfl

theorem GInv.reg_name {R : Reg} (h : GInv key H R) {n : Str} {u : TId} (hr : R.reg n = some u) :
    isValidTypename n true = true ∧ isAbsoluteName n = true ∧ R.reg (H.name u) = some u ∧ u < H.next := by
  obtain ⟨e, hm, rfl⟩ := reg_mem hr
  exact ⟨(h.names _ hm).1, (h.names _ hm).2, h.prim _ hm, h.alloc _ hm⟩

theorem GInv.path_none {R : Reg} (h : GInv key H R) {p m : Str} (hp : PlainPath p)
    (hm : isAbsoluteName m = true) : glookup R.global (p ++ m) = none := by
  cases hg : glookup R.global (p ++ m) with
  | none => rfl
  | some e =>
    have := (plain_rel hp (h.names _ (glookup_mem hg)).1).2
    rw [hm] at this; cases this

theorem get_eq (R : Reg) (n : Str) : R.get n = (R.current n).map (·.ty) := rfl

/-- recomputing `m_current` establishes the invariant -/
theorem inv_update (hk : ∀ a b, key a = key b → a = b) {R : Reg} (h : GInv key H R) :
    Inv key H (updateCurrent key R) := by
  obtain ⟨hg, hn⟩ := updateCurrent_global key R
  have hr : ∀ n, (updateCurrent key R).reg n = R.reg n := by intro n; unfold Reg.reg; rw [hg]
  have hcur := updateCurrent_current key hk R h.sorted
  have hpl := plain_deepPaths plainPath_root h.ns
  refine ⟨⟨?_, ?_, ?_, ?_, ?_⟩, ?_, ?_⟩
  · rw [hg]; exact h.sorted
  · rw [hg]; exact h.names
  · intro p hp; rw [hg] at hp; rw [hr]; exact h.prim p hp
  · rw [hg]; exact h.alloc
  · rw [hn]; exact h.ns
  · intro n hna
    rw [hr, get_eq, hcur]
    have h1 : (deepPaths ['/'] (tokens R.ns)).findSome? (fun p => glookup R.global (p ++ n)) = none := by
      rw [List.findSome?_eq_none_iff]
      intro p hp
      exact h.path_none (hpl p hp) hna
    have h2 : glookup R.global ('/' :: n) = none := h.path_none plainPath_root hna
    rw [h1, h2]
    simp [Reg.reg]
  · intro n u hna hgn
    rw [get_eq, hcur] at hgn
    have h0 : glookup R.global n = none := by
      cases hx : glookup R.global n with
      | none => rfl
      | some e =>
        have := (h.names _ (glookup_mem hx)).2
        simp only at this
        rw [hna] at this; cases this
    rw [h0] at hgn
    cases h1 : (deepPaths ['/'] (tokens R.ns)).findSome? (fun p => glookup R.global (p ++ n)) with
    | some e =>
      obtain ⟨p, hp, hpe⟩ := List.exists_of_findSome?_eq_some h1
      rw [h1] at hgn
      refine ⟨p, hpl p hp, ?_⟩
      rw [hr]; unfold Reg.reg; rw [hpe]; simpa using hgn
    | none =>
      rw [h1] at hgn
      refine ⟨['/'], plainPath_root, ?_⟩
      rw [hr]; unfold Reg.reg
      simpa using hgn

theorem tokens_snoc (s : Str) : tokens (s ++ ['/']) = tokens s := by
  have : ∀ (s cur : Str), tokensGo cur (s ++ ['/']) = tokensGo cur s := by
    intro s
    induction s with
    | nil => intro cur; simp [tokensGo]
    | cons c r ih => intro cur; simp only [List.cons_append, tokensGo, ih]
  exact this s []

theorem tokens_normalized (s : Str) : tokens (getNormalizedNamespace s) = tokens s := by
  unfold getNormalizedNamespace
  split
  · rename_i h; rw [List.isEmpty_iff.mp h]; decide
  · split
    · exact tokens_snoc s
    · rfl

/-- a namespace accepted by `setDefaultNamespace` and without template brackets has plain components -/
theorem plain_tokens {s : Str} (hv : isValidNamespace s true = true) (hs : ∀ c ∈ s, c ≠ '<' ∧ c ≠ '>') :
    ∀ t ∈ tokens s, PlainTok t := by
  intro t ht
  obtain ⟨h1, h2⟩ := tokens_mem ht
  refine ⟨h1, fun c hc => ⟨(h2 c hc).1, ?_⟩⟩
  have hid : isValidIdentifier t = true := by
    unfold isValidNamespace at hv
    split at hv
    · cases hv
    · split at hv
      · cases hv
      · rw [List.all_eq_true] at hv
        exact hv t ht
  simp only [isValidIdentifier, Bool.and_eq_true, List.all_eq_true] at hid
  have hci := hid.2 c hc
  obtain ⟨hlt, hgt⟩ := hs c (h2 c hc).2
  simp only [identChar, Bool.or_eq_true, beq_iff_eq] at hci
  simp only [special, Bool.or_eq_false_iff, beq_eq_false_iff_ne]
  have key : ∀ d : Char, d.isAlphanum = false → d ≠ '_' → d ≠ ' ' → d ≠ '<' → d ≠ '>' → c ≠ d := by
    intro d h3 h4 h5 h6 h7 e
    subst e
    rcases hci with (((h | h) | h) | h) | h
    · exact h4 h
    · exact h5 h
    · rw [h3] at h; cases h
    · exact h6 h
    · exact h7 h
  exact ⟨⟨⟨⟨⟨hlt, hgt⟩, key '[' (by decide) (by decide) (by decide) (by decide) (by decide)⟩,
    key ']' (by decide) (by decide) (by decide) (by decide) (by decide)⟩,
    key ',' (by decide) (by decide) (by decide) (by decide) (by decide)⟩,
    key '*' (by decide) (by decide) (by decide) (by decide) (by decide)⟩

theorem inv_setDefaultNamespace (hk : ∀ a b, key a = key b → a = b) {R : Reg} (h : Inv key H R) (space : Str)
    (hs : ∀ c ∈ space, c ≠ '<' ∧ c ≠ '>') : Inv key H (setDefaultNamespace key R space).1 := by
  unfold setDefaultNamespace
  split
  · rename_i hv
    refine inv_update hk ⟨h.sorted, h.names, h.prim, h.alloc, ?_⟩
    intro t ht
    simp only [tokens_normalized] at ht
    exact plain_tokens hv hs t ht
  · exact h

theorem inv_importNamespace (hk : ∀ a b, key a = key b → a = b) {R : Reg} (h : Inv key H R) (name : Str)
    (hp : PlainPath (getNormalizedNamespace name)) (erase : Bool) :
    Inv key H (importNamespace key R name erase) := by
  have hcur := importNamespace_current key hk R h.sorted name erase
  refine ⟨⟨h.sorted, h.names, h.prim, h.alloc, h.ns⟩, ?_, ?_⟩
  · intro n hn
    have hnone := h.path_none hp hn
    have : (importNamespace key R name erase).get n = R.get n := by
      rw [get_eq, hcur, hnone, get_eq]; cases erase <;> simp
    rw [this]; exact h.abs n hn
  · intro n u hn hg
    rw [get_eq, hcur] at hg
    have hcase : R.get n = some u ∨ R.reg (getNormalizedNamespace name ++ n) = some u := by
      unfold Reg.reg
      rw [get_eq]
      cases h1 : R.current n with
      | none =>
        right
        cases h2 : glookup R.global (getNormalizedNamespace name ++ n) with
        | none => rw [h1, h2] at hg; cases erase <;> simp at hg
        | some e => rw [h1, h2] at hg; cases erase <;> simpa using hg
      | some e1 =>
        cases h2 : glookup R.global (getNormalizedNamespace name ++ n) with
        | none => rw [h1, h2] at hg; left; cases erase <;> simpa using hg
        | some e2 =>
          rw [h1, h2] at hg
          cases erase with
          | true => right; simpa using hg
          | false => left; simpa using hg
    rcases hcase with hc | hc
    · obtain ⟨p, h1, h2⟩ := h.rel n u hn hc
      exact ⟨p, h1, h2⟩
    · exact ⟨_, hp, hc⟩

/-- what the namespace loop of `add` changes -/
theorem relUpdate_spec (H : Heap) (name : Str) (e : Entry) (c : Str → Option Entry) (rel m : Str) :
    relUpdate key H name e c rel m = c m ∨ (relUpdate key H name e c rel m = some e ∧ m = rel) := by
  have hstep : cinsert (cerase c rel) rel e m = c m ∨ (cinsert (cerase c rel) rel e m = some e ∧ m = rel) := by
    by_cases hm : m = rel
    · right; subst hm; simp [cinsert, cerase]
    · left; simp [cinsert, cerase, hm]
  unfold relUpdate
  cases c rel with
  | none => exact hstep
  | some f =>
    simp only
    split
    · exact hstep
    · exact Or.inl rfl

theorem addRel_spec (H : Heap) (name : Str) (e : Entry) :
    ∀ (toks : List Str) (space : Str) (c : Str → Option Entry), PlainPath space →
    (∀ t ∈ toks, PlainTok t) → ∀ m,
    addRel key H name e space toks c m = c m ∨
    (addRel key H name e space toks c m = some e ∧ ∃ p, PlainPath p ∧ name = p ++ m) := by
  intro toks
  induction toks with
  | nil =>
    intro space c hp _ m
    rw [addRel]
    split
    · exact Or.inl rfl
    · rename_i hc
      have htake : name.take space.length = space := by
        by_cases h : name.take space.length = space
        · exact h
        · exact absurd (Or.inr h) hc
      have hname : name = space ++ name.drop space.length := by
        conv => lhs; rw [← List.take_append_drop space.length name, htake]
      simp only
      rcases relUpdate_spec (key := key) H name e c (name.drop space.length) m with h | ⟨h, hm⟩
      · exact Or.inl h
      · exact Or.inr ⟨h, space, hp, by rw [hm]; exact hname⟩
  | cons t ts ih =>
    intro space c hp ht m
    rw [addRel]
    split
    · exact Or.inl rfl
    · rename_i hc
      have htake : name.take space.length = space := by
        by_cases h : name.take space.length = space
        · exact h
        · exact absurd (Or.inr h) hc
      have hname : name = space ++ name.drop space.length := by
        conv => lhs; rw [← List.take_append_drop space.length name, htake]
      have hp' := plainPath_snoc hp (ht t (by simp))
      simp only
      rcases ih (space ++ t ++ ['/']) (relUpdate key H name e c (name.drop space.length)) hp'
        (fun x hx => ht x (by simp [hx])) m with h | h
      · rcases relUpdate_spec (key := key) H name e c (name.drop space.length) m with h2 | ⟨h2, hm⟩
        · exact Or.inl (h.trans h2)
        · exact Or.inr ⟨h.trans h2, space, hp, by rw [hm]; exact hname⟩
      · exact Or.inr h

/-- the private `add` -/
theorem addName_spec (hk : ∀ a b, key a = key b → a = b) {R : Reg} (h : Inv key H R) (name : Str) (t : TId)
    (persistent : Bool) (source : Str) (habs : isAbsoluteName name = true)
    (ht : name = H.name t ∨ R.reg (H.name t) = some t) (hal : t < H.next) :
    let o := addName key H R name t persistent source
    Inv key H o.1 ∧ o.1.ns = R.ns ∧
    ((o.2 = .exn .badName ∧ isValidTypename name true = false ∧ o.1 = R) ∨
     (o.2 = .exn .alreadyDefined ∧ o.1 = R ∧ ∃ u, R.reg name = some u ∧ u ≠ t) ∨
     (o.2 = .ok () ∧ o.1 = R ∧ R.reg name = some t) ∨
     (o.2 = .ok () ∧ R.reg name = none ∧ isValidTypename name true = true ∧
        ∀ n, o.1.reg n = if n = name then some t else R.reg n)) := by
  intro o
  have ho : o = addName key H R name t persistent source := rfl
  unfold addName at ho
  by_cases hv : isValidTypename name true = true
  · rw [hv] at ho
    simp only [Bool.not_true, Bool.false_eq_true, if_false] at ho
    have hga := h.abs name habs
    cases hg : R.get name with
    | some u =>
      rw [hg] at ho hga
      simp only at ho
      by_cases hu : u = t
      · rw [if_pos hu] at ho
        rw [ho]
        refine ⟨h, rfl, Or.inr (Or.inr (Or.inl ⟨rfl, rfl, ?_⟩))⟩
        rw [← hga, hu]
      · rw [if_neg hu] at ho
        rw [ho]
        exact ⟨h, rfl, Or.inr (Or.inl ⟨rfl, rfl, u, hga.symm, hu⟩)⟩
    | none =>
      rw [hg] at ho hga
      simp only at ho
      have hgl : glookup R.global name = none := by
        unfold Reg.reg at hga
        cases hx : glookup R.global name with
        | none => rfl
        | some e => rw [hx] at hga; simp at hga
      have hcn : R.current name = none := by
        rw [get_eq] at hg
        cases hx : R.current name with
        | none => rfl
        | some e => rw [hx] at hg; simp at hg
      have hreg : ∀ n, o.1.reg n = if n = name then some t else R.reg n := by
        intro n
        rw [ho]
        unfold Reg.reg
        simp only
        rw [glookup_ginsert key name _ _ hgl]
        by_cases hn : n = name
        · subst hn; simp
        · rw [if_neg hn, if_neg (fun e => hn e.symm)]
      have hcur : ∀ m, o.1.current m = (cinsert R.current name ⟨t, persistent, source⟩) m ∨
          (o.1.current m = some ⟨t, persistent, source⟩ ∧ ∃ p, PlainPath p ∧ name = p ++ m) := by
        intro m
        rw [ho]
        exact addRel_spec H name _ _ _ _ plainPath_root h.ns m
      have hmem : ∀ p ∈ o.1.global, p = (name, ⟨t, persistent, source⟩) ∨ p ∈ R.global := by
        intro p hp
        rw [ho] at hp
        exact mem_ginsert hp
      refine ⟨⟨⟨?_, ?_, ?_, ?_, ?_⟩, ?_, ?_⟩, ?_, Or.inr (Or.inr (Or.inr ⟨by rw [ho], hga.symm, hv, hreg⟩))⟩
      · rw [ho]; exact sorted_ginsert hk _ _ h.sorted
      · intro p hp
        rcases hmem p hp with rfl | hp
        · exact ⟨hv, habs⟩
        · exact h.names p hp
      · intro p hp
        rw [hreg]
        rcases hmem p hp with rfl | hp
        · simp only
          split
          · rfl
          · rename_i hne
            rcases ht with ht | ht
            · exact absurd ht.symm hne
            · exact ht
        · have := h.prim p hp
          split
          · rename_i hne
            rw [hne, ← hga] at this; cases this
          · exact this
      · intro p hp
        rcases hmem p hp with rfl | hp
        · exact hal
        · exact h.alloc p hp
      · rw [ho]; exact h.ns
      · intro n hn
        rw [hreg, get_eq]
        have hc : o.1.current n = (cinsert R.current name ⟨t, persistent, source⟩) n := by
          rcases hcur n with hc | ⟨_, p, hp, hpn⟩
          · exact hc
          · have := (plain_rel hp (by rw [← hpn]; exact hv)).2
            rw [hn] at this; cases this
        rw [hc]
        by_cases hnn : n = name
        · rw [hnn, if_pos rfl]; simp [cinsert, hcn]
        · rw [if_neg hnn]
          simp only [cinsert, hnn, if_false]
          exact h.abs n hn
      · intro n u hn hg2
        rw [get_eq] at hg2
        rcases hcur n with hc | ⟨hc, p, hp, hpn⟩
        · have hnn : n ≠ name := by rintro rfl; rw [hn] at habs; cases habs
          rw [hc] at hg2
          simp only [cinsert, hnn, if_false] at hg2
          obtain ⟨p, h1, h2⟩ := h.rel n u hn hg2
          refine ⟨p, h1, ?_⟩
          rw [hreg]
          split
          · rename_i he
            rw [he, ← hga] at h2; cases h2
          · exact h2
        · rw [hc] at hg2
          refine ⟨p, hp, ?_⟩
          rw [hreg, if_pos hpn.symm]
          simpa using hg2
      · rw [ho]
  · have hv' : isValidTypename name true = false := by simpa using hv
    rw [hv'] at ho
    simp only [Bool.not_false, if_true] at ho
    rw [ho]
    exact ⟨h, rfl, Or.inl ⟨rfl, hv', rfl⟩⟩

/-! ### removals -/

theorem reg_filter {R : Reg} (hs : Sorted key R.global) (f : Str × Entry → Bool) (c : Str → Option Entry)
    (ns n : Str) :
    Reg.reg ⟨R.global.filter f, c, ns⟩ n =
      ((glookup R.global n).bind (fun e => if f (n, e) then some e.ty else none)) := by
  unfold Reg.reg
  simp only
  rw [glookup_filter hs]
  cases glookup R.global n with
  | none => rfl
  | some e => simp only [Option.bind_some]; split <;> rfl

theorem ginv_filter {R : Reg} (h : GInv key H R) (f : Str × Entry → Bool) (c : Str → Option Entry)
    (hf : ∀ p ∈ R.global, ∀ q ∈ R.global, f p = true → q.1 = H.name p.2.ty → q.2.ty = p.2.ty → f q = true) :
    GInv key H ⟨R.global.filter f, c, R.ns⟩ := by
  refine ⟨sorted_filter h.sorted f, ?_, ?_, ?_, h.ns⟩
  · intro p hp; exact h.names p (List.mem_filter.mp hp).1
  · intro p hp
    obtain ⟨hp1, hp2⟩ := List.mem_filter.mp hp
    have := h.prim p hp1
    rw [reg_filter h.sorted]
    unfold Reg.reg at this
    cases hg : glookup R.global (H.name p.2.ty) with
    | none => rw [hg] at this; cases this
    | some e =>
      rw [hg] at this
      have hty : e.ty = p.2.ty := by simpa using this
      simp only [Option.bind_some]
      rw [if_pos (hf p hp1 (H.name p.2.ty, e) (glookup_mem hg) hp2 rfl hty), hty]
  · intro p hp; exact h.alloc p (List.mem_filter.mp hp).1

theorem inv_removeAlias (hk : ∀ a b, key a = key b → a = b) {R : Reg} (h : Inv key H R) (name : Str) :
    Inv key H (removeAlias key H R name).1 := by
  unfold removeAlias
  cases hg : glookup R.global name with
  | none => exact h
  | some e =>
    simp only
    split
    · exact h
    · rename_i hne
      refine inv_update hk (ginv_filter h.toGInv _ _ ?_)
      intro p hp q hq _ hqn hqt
      simp only [bne_iff_ne, ne_eq]
      intro hq1
      apply hne
      have h1 := mem_glookup h.sorted (n := q.1) (e := q.2) hq
      rw [hq1, hg] at h1
      cases h1
      rw [hqt, ← hqn, hq1]

theorem inv_clearAliases (hk : ∀ a b, key a = key b → a = b) {R : Reg} (h : Inv key H R) :
    Inv key H (clearAliases key H R) := by
  refine inv_update hk (ginv_filter h.toGInv _ _ ?_)
  intro p hp q hq _ hqn hqt
  simp [isAlias, hqn, hqt]

theorem inv_remove {R : Reg} (h : Inv key H R) (t : TId) : Inv key H (remove H R t).1 := by
  unfold remove
  cases hr : reverseDepends H R t with
  | exn e => exact h
  | ub => exact h
  | fuel => exact h
  | ok types =>
    simp only
    have hg := ginv_filter h.toGInv (fun p => !types.contains p.2.ty)
      (fun n => match R.current n with
                | some e => if types.contains e.ty then none else some e
                | none => none) (by
      intro p hp q hq hp2 hqn hqt
      rw [hqt]; exact hp2)
    refine ⟨hg, ?_, ?_⟩
    · intro n hn
      rw [reg_filter h.sorted, get_eq]
      have := h.abs n hn
      unfold Reg.reg at this
      rw [get_eq] at this
      cases hc : R.current n with
      | none =>
        rw [hc] at this
        cases hgl : glookup R.global n with
        | none => simp [hc]
        | some e => rw [hgl] at this; simp at this
      | some e1 =>
        rw [hc] at this
        cases hgl : glookup R.global n with
        | none => rw [hgl] at this; simp at this
        | some e2 =>
          rw [hgl] at this
          have hty : e1.ty = e2.ty := by simpa using this
          simp only [Option.bind_some, hc]
          rw [hty]
          by_cases hcon : e2.ty ∈ types
          · simp [hcon]
          · simp [hcon, hty]
    · intro n u hn hgn
      rw [get_eq] at hgn
      simp only at hgn
      cases hc : R.current n with
      | none => rw [hc] at hgn; simp at hgn
      | some e =>
        rw [hc] at hgn
        simp only at hgn
        by_cases hcon : types.contains e.ty = true
        · rw [if_pos hcon] at hgn; simp at hgn
        · rw [if_neg hcon] at hgn
          have hu : e.ty = u := by simpa using hgn
          obtain ⟨p, hp, hpr⟩ := h.rel n u hn (by rw [get_eq, hc]; simpa using hu)
          refine ⟨p, hp, ?_⟩
          rw [reg_filter h.sorted]
          unfold Reg.reg at hpr
          cases hgl : glookup R.global (p ++ n) with
          | none => rw [hgl] at hpr; simp at hpr
          | some e2 =>
            rw [hgl] at hpr
            have hu2 : e2.ty = u := by simpa using hpr
            simp only [Option.bind_some]
            rw [if_pos (by rw [hu2, ← hu]; simpa using hcon), hu2]

theorem inv_empty : Inv key H Reg.empty := by
  refine ⟨⟨List.Pairwise.nil, ?_, ?_, ?_, ?_⟩, ?_, ?_⟩
  · intro p hp; cases hp
  · intro p hp; cases hp
  · intro p hp; cases hp
  · intro t ht
    have : tokens Reg.empty.ns = [] := by decide
    rw [this] at ht; cases ht
  · intro n _; rfl
  · intro n u _ h; cases h

end Verif.Registry
