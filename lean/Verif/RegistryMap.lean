import Verif.Registry
import Verif.NameProps

/-! Lemmas on the tables of the registry: sorted lists, import of namespaces. -/

namespace Verif.Registry
open Verif Verif.Names Verif.Graph

/-- the keys of `m_global` are strictly increasing -/
def Sorted (key : Char → Int) (l : List (Str × Entry)) : Prop :=
  l.Pairwise (fun a b => nameSort key a.1 b.1 = true)

theorem glookup_nil (n : Str) : glookup [] n = none := rfl

theorem glookup_cons (m : Str) (e : Entry) (l : List (Str × Entry)) (n : Str) :
    glookup ((m, e) :: l) n = if m = n then some e else glookup l n := by
  unfold glookup
  by_cases h : m = n
  · simp [h]
  · simp [h]

theorem glookup_mem {l : List (Str × Entry)} {n : Str} {e : Entry} (h : glookup l n = some e) :
    (n, e) ∈ l := by
  induction l with
  | nil => simp [glookup_nil] at h
  | cons p l ih =>
    obtain ⟨m, f⟩ := p
    rw [glookup_cons] at h
    by_cases hm : m = n
    · rw [if_pos hm] at h; cases h; subst hm; simp
    · rw [if_neg hm] at h; exact List.mem_cons_of_mem _ (ih h)

theorem glookup_none {l : List (Str × Entry)} {n : Str} :
    glookup l n = none ↔ ∀ p ∈ l, p.1 ≠ n := by
  induction l with
  | nil => simp [glookup_nil]
  | cons p l ih =>
    obtain ⟨m, f⟩ := p
    rw [glookup_cons]
    by_cases hm : m = n
    · simp [hm]
    · simp [hm, ih]

theorem sorted_ne {key : Char → Int} {m : Str} {f : Entry} {l : List (Str × Entry)}
    (hs : Sorted key ((m, f) :: l)) : ∀ p ∈ l, p.1 ≠ m := by
  intro p hp he
  have := (List.pairwise_cons.mp hs).1 p hp
  rw [he] at this
  simp [nameSort_irrefl] at this

theorem mem_glookup {key : Char → Int} {l : List (Str × Entry)} (hs : Sorted key l) {n : Str}
    {e : Entry} (h : (n, e) ∈ l) : glookup l n = some e := by
  induction l with
  | nil => cases h
  | cons p l ih =>
    obtain ⟨m, f⟩ := p
    rw [glookup_cons]
    rcases List.mem_cons.mp h with h | h
    · cases h; simp
    · have := sorted_ne hs _ h
      rw [if_neg (fun e => this e.symm)]
      exact ih (List.pairwise_cons.mp hs).2 h

theorem glookup_iff {key : Char → Int} {l : List (Str × Entry)} (hs : Sorted key l) {n : Str}
    {e : Entry} : glookup l n = some e ↔ (n, e) ∈ l :=
  ⟨glookup_mem, mem_glookup hs⟩

theorem glookup_ginsert (key : Char → Int) (n : Str) (e : Entry) (l : List (Str × Entry))
    (h : glookup l n = none) (m : Str) :
    glookup (ginsert key n e l) m = if n = m then some e else glookup l m := by
  induction l with
  | nil => simp [ginsert, glookup_cons]
  | cons p l ih =>
    obtain ⟨k, f⟩ := p
    rw [glookup_cons] at h
    by_cases hk : k = n
    · simp [hk] at h
    · rw [if_neg hk] at h
      unfold ginsert
      rw [if_neg (fun e => hk e.symm)]
      split
      · rw [glookup_cons]
      · rw [glookup_cons, ih h, glookup_cons]
        by_cases hm : k = m
        · subst hm
          have : n ≠ k := fun e => hk e.symm
          simp [this]
        · simp [hm]

theorem mem_ginsert {key : Char → Int} {n : Str} {e : Entry} {l : List (Str × Entry)} {p : Str × Entry}
    (h : p ∈ ginsert key n e l) : p = (n, e) ∨ p ∈ l := by
  induction l with
  | nil => simpa [ginsert] using h
  | cons q l ih =>
    obtain ⟨k, f⟩ := q
    unfold ginsert at h
    split at h
    · exact Or.inr h
    · split at h
      · rcases List.mem_cons.mp h with h | h
        · exact Or.inl h
        · exact Or.inr h
      · rcases List.mem_cons.mp h with h | h
        · exact Or.inr (by simp [h])
        · rcases ih h with h | h
          · exact Or.inl h
          · exact Or.inr (by simp [h])

theorem sorted_ginsert {key : Char → Int} (hk : ∀ a b, key a = key b → a = b) (n : Str) (e : Entry)
    {l : List (Str × Entry)} (hs : Sorted key l) : Sorted key (ginsert key n e l) := by
  induction l with
  | nil => simp [ginsert, Sorted]
  | cons q l ih =>
    obtain ⟨k, f⟩ := q
    obtain ⟨h1, h2⟩ := List.pairwise_cons.mp hs
    unfold ginsert
    by_cases hn : n = k
    · rw [if_pos hn]; exact hs
    · rw [if_neg hn]
      by_cases hlt : nameSort key n k = true
      · rw [if_pos hlt]
        refine List.pairwise_cons.mpr ⟨?_, hs⟩
        intro p hp
        rcases List.mem_cons.mp hp with rfl | hp
        · exact hlt
        · exact nameSort_trans key _ _ _ hlt (h1 p hp)
      · rw [if_neg hlt]
        refine List.pairwise_cons.mpr ⟨?_, ih h2⟩
        intro p hp
        rcases mem_ginsert hp with rfl | hp
        · rcases nameSort_total key hk k n with h | h | h
          · exact h
          · exact absurd h.symm hn
          · exact absurd h hlt
        · exact h1 p hp

theorem sorted_filter {key : Char → Int} {l : List (Str × Entry)} (hs : Sorted key l)
    (f : Str × Entry → Bool) : Sorted key (l.filter f) := List.Pairwise.filter _ hs

theorem glookup_filter {key : Char → Int} {l : List (Str × Entry)} (hs : Sorted key l)
    (f : Str × Entry → Bool) (n : Str) :
    glookup (l.filter f) n = (glookup l n).bind (fun e => if f (n, e) then some e else none) := by
  cases h : glookup l n with
  | none =>
    rw [glookup_none] at h
    simp only [Option.bind_none]
    rw [glookup_none]
    intro p hp
    exact h p (List.mem_filter.mp hp).1
  | some e =>
    have hm := glookup_mem h
    simp only [Option.bind_some]
    by_cases hf : f (n, e) = true
    · rw [if_pos hf]
      exact mem_glookup (sorted_filter hs f) (List.mem_filter.mpr ⟨hm, hf⟩)
    · rw [if_neg hf, glookup_none]
      intro p hp he
      obtain ⟨h1, h2⟩ := List.mem_filter.mp hp
      obtain ⟨m, f'⟩ := p
      simp only at he
      subst he
      have := mem_glookup hs h1
      rw [h] at this
      cases this
      exact hf h2

/-! ### importing a namespace -/

theorem importFold_erase (plen : Nat) (l : List (Str × Entry)) (c : Str → Option Entry)
    (hd : l.Pairwise (fun a b => a.1.drop plen ≠ b.1.drop plen)) (m : Str) :
    (l.foldl (importStep plen true) c) m =
      ((l.find? (fun p => p.1.drop plen == m)).map (·.2)).or (c m) := by
  induction l generalizing c with
  | nil => simp
  | cons p l ih =>
    obtain ⟨h1, h2⟩ := List.pairwise_cons.mp hd
    rw [List.foldl_cons, ih _ h2]
    by_cases hm : p.1.drop plen = m
    · have : l.find? (fun p => p.1.drop plen == m) = none := by
        rw [List.find?_eq_none]
        intro x hx
        simp only [beq_iff_eq]
        intro he
        exact h1 x hx (by rw [hm, he])
      rw [this]
      simp [hm, importStep, cinsert, cerase]
    · rw [List.find?_cons_of_neg (by simpa using hm)]
      have hm' : m ≠ p.1.drop plen := fun e => hm e.symm
      simp [importStep, cinsert, cerase, hm']

theorem importFold_keep (plen : Nat) (l : List (Str × Entry)) (c : Str → Option Entry)
    (hd : l.Pairwise (fun a b => a.1.drop plen ≠ b.1.drop plen)) (m : Str) :
    (l.foldl (importStep plen false) c) m =
      (c m).or ((l.find? (fun p => p.1.drop plen == m)).map (·.2)) := by
  induction l generalizing c with
  | nil => simp
  | cons p l ih =>
    obtain ⟨h1, h2⟩ := List.pairwise_cons.mp hd
    rw [List.foldl_cons, ih _ h2]
    by_cases hm : p.1.drop plen = m
    · rw [List.find?_cons_of_pos (by simpa using hm)]
      simp only [importStep, cinsert, hm]
      cases h : c m with
      | some f => simp [h]
      | none => simp [h]
    · rw [List.find?_cons_of_neg (by simpa using hm)]
      have hm' : m ≠ p.1.drop plen := fun e => hm e.symm
      simp [importStep, cinsert, hm']

theorem importBlock (key : Char → Int) (hk : ∀ a b, key a = key b → a = b) {l : List (Str × Entry)}
    (hs : Sorted key l) (norm : Str) (hn : getNormalizedNamespace norm = norm) :
    (l.dropWhile (fun p => nameSort key p.1 norm)).takeWhile (fun p => isInNamespace p.1 norm true) =
      l.filter (fun p => norm.isPrefixOf p.1) := by
  have h1 : (fun p : Str × Entry => isInNamespace p.1 norm true) = (fun p => norm.isPrefixOf p.1) := by
    funext p
    rw [Bool.eq_iff_iff, C04_isInNamespace_recursive, hn, List.isPrefixOf_iff_prefix]
    constructor
    · rintro ⟨r, h⟩; exact ⟨r, h.symm⟩
    · rintro ⟨r, h⟩; exact ⟨r, h.symm⟩
  rw [h1]
  exact scan_eq_filter key hk norm (fun p : Str × Entry => p.1) l hs

theorem block_find {key : Char → Int} {l : List (Str × Entry)} (hs : Sorted key l) (norm m : Str) :
    ((l.filter (fun p => norm.isPrefixOf p.1)).find? (fun p => p.1.drop norm.length == m)).map (·.2) =
      glookup l (norm ++ m) := by
  induction l with
  | nil => rfl
  | cons p l ih =>
    obtain ⟨k, e⟩ := p
    have ih' := ih (List.pairwise_cons.mp hs).2
    rw [glookup_cons]
    by_cases hp : norm.isPrefixOf k = true
    · rw [List.filter_cons_of_pos (by simpa using hp)]
      obtain ⟨r, rfl⟩ := List.isPrefixOf_iff_prefix.mp hp
      by_cases hr : r = m
      · subst hr; simp
      · rw [List.find?_cons_of_neg (by simpa using hr), ih', if_neg (by simpa using hr)]
    · rw [List.filter_cons_of_neg (by simpa using hp), ih', if_neg]
      intro he
      apply hp
      rw [he, List.isPrefixOf_iff_prefix]
      exact List.prefix_append _ _

theorem block_distinct {key : Char → Int} {l : List (Str × Entry)} (hs : Sorted key l) (norm : Str) :
    (l.filter (fun p => norm.isPrefixOf p.1)).Pairwise
      (fun a b => a.1.drop norm.length ≠ b.1.drop norm.length) := by
  have h := sorted_filter hs (fun p => norm.isPrefixOf p.1)
  refine List.Pairwise.imp_of_mem ?_ h
  intro a b ha hb hab he
  obtain ⟨ra, hra⟩ := List.isPrefixOf_iff_prefix.mp (List.mem_filter.mp ha).2
  obtain ⟨rb, hrb⟩ := List.isPrefixOf_iff_prefix.mp (List.mem_filter.mp hb).2
  rw [← hra, ← hrb] at hab he
  simp only [List.drop_left] at he
  rw [he, nameSort_irrefl] at hab
  cases hab

/-- what `importNamespace` does to each name -/
theorem importNamespace_current (key : Char → Int) (hk : ∀ a b, key a = key b → a = b) (R : Reg)
    (hs : Sorted key R.global) (name : Str) (erase : Bool) (m : Str) :
    (importNamespace key R name erase).current m =
      if erase then (glookup R.global (getNormalizedNamespace name ++ m)).or (R.current m)
      else (R.current m).or (glookup R.global (getNormalizedNamespace name ++ m)) := by
  have hn := (C04_normalized name).2.2
  unfold importNamespace
  simp only
  rw [importBlock key hk hs _ hn]
  cases erase with
  | true =>
    rw [importFold_erase _ _ _ (block_distinct hs _), block_find hs]; rfl
  | false =>
    rw [importFold_keep _ _ _ (block_distinct hs _), block_find hs]; rfl

theorem normalized_slash (s : Str) : getNormalizedNamespace (s ++ ['/']) = s ++ ['/'] := by
  unfold getNormalizedNamespace
  simp

@[simp] theorem importNamespace_global (key : Char → Int) (R : Reg) (name : Str) (erase : Bool) :
    (importNamespace key R name erase).global = R.global := rfl
@[simp] theorem importNamespace_ns (key : Char → Int) (R : Reg) (name : Str) (erase : Bool) :
    (importNamespace key R name erase).ns = R.ns := rfl

theorem importTokens_global (key : Char → Int) (R : Reg) (space : Str) (toks : List Str) :
    (importTokens key R space toks).global = R.global ∧ (importTokens key R space toks).ns = R.ns := by
  induction toks generalizing R space with
  | nil => exact ⟨rfl, rfl⟩
  | cons t ts ih =>
    obtain ⟨h1, h2⟩ := ih (importNamespace key R (space ++ t ++ ['/']) true) (space ++ t ++ ['/'])
    exact ⟨h1, h2⟩

/-- the namespaces tried, deepest first: `space/t1/…/tk/`, ..., `space/t1/` -/
def deepPaths (space : Str) : List Str → List Str
  | [] => []
  | t :: ts => deepPaths (space ++ t ++ ['/']) ts ++ [space ++ t ++ ['/']]

theorem importTokens_current (key : Char → Int) (hk : ∀ a b, key a = key b → a = b) (R : Reg)
    (hs : Sorted key R.global) (space : Str) (toks : List Str) (m : Str) :
    (importTokens key R space toks).current m =
      ((deepPaths space toks).findSome? (fun p => glookup R.global (p ++ m))).or (R.current m) := by
  induction toks generalizing R space with
  | nil => simp [importTokens, deepPaths]
  | cons t ts ih =>
    unfold importTokens deepPaths
    rw [ih (importNamespace key R (space ++ t ++ ['/']) true) hs, importNamespace_current key hk R hs]
    rw [normalized_slash, List.findSome?_append]
    simp only [importNamespace_global, if_true, List.findSome?_cons, List.findSome?_nil]
    cases h : (deepPaths (space ++ t ++ ['/']) ts).findSome? (fun p => glookup R.global (p ++ m)) with
    | some e => simp
    | none =>
      cases h2 : glookup R.global (space ++ t ++ ['/'] ++ m) with
      | some e => simp
      | none => simp

theorem foldl_cinsert {key : Char → Int} {l : List (Str × Entry)} (hs : Sorted key l)
    (c : Str → Option Entry) (m : Str) :
    (l.foldl (fun c p => cinsert c p.1 p.2) c) m = (c m).or (glookup l m) := by
  induction l generalizing c with
  | nil => simp [glookup_nil]
  | cons p l ih =>
    obtain ⟨k, e⟩ := p
    rw [List.foldl_cons, ih (List.pairwise_cons.mp hs).2, glookup_cons]
    by_cases hm : k = m
    · subst hm
      simp only [cinsert, if_true]
      cases h : c k with
      | some f => simp
      | none => simp
    · have : m ≠ k := fun e => hm e.symm
      simp [cinsert, this, hm]

/-- what `updateCurrentNameMap` makes of each name: the deepest enclosing namespace first, then the
root, a full name before all -/
theorem updateCurrent_current (key : Char → Int) (hk : ∀ a b, key a = key b → a = b) (R : Reg)
    (hs : Sorted key R.global) (m : Str) :
    (updateCurrent key R).current m =
      ((deepPaths ['/'] (tokens R.ns)).findSome? (fun p => glookup R.global (p ++ m))).or
        ((glookup R.global m).or (glookup R.global ('/' :: m))) := by
  unfold updateCurrent
  simp only
  rw [importTokens_current key hk]
  · rw [importNamespace_current key hk]
    · simp only [Bool.false_eq_true, if_false, importNamespace_global]
      rw [foldl_cinsert hs]
      rfl
    · exact hs
  · exact hs

theorem updateCurrent_global (key : Char → Int) (R : Reg) :
    (updateCurrent key R).global = R.global ∧ (updateCurrent key R).ns = R.ns := by
  unfold updateCurrent
  simp only
  exact importTokens_global key _ _ _

end Verif.Registry
