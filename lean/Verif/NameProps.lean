import Verif.NameSound

/-!
Property theorems about names (C01, C03, C04, C05, C06). Specifications used in the statements:
* `joinAbs [c1, …, cn] = "/c1/…/cn"` (NameLemmas), the canonical absolute name;
* `Comp c`: `c` has no '/' outside balanced template brackets (NameLemmas);
* `NTail`/`NArgs`: the grammar of type names (NameValid);
* `<+:`, `<:+`, `<:+:`: prefix, suffix, infix of lists.
-/

namespace Verif.Names
open Verif

/-! ### C01 -/

/-- C01, first half: the name order is a strict total order on all strings, whatever the (injective)
numeric values of characters. -/
theorem C01_nameSort_strict_total (key : Char → Int) (hk : ∀ a b, key a = key b → a = b) :
    (∀ a, nameSort key a a = false) ∧
    (∀ a b c, nameSort key a b = true → nameSort key b c = true → nameSort key a c = true) ∧
    (∀ a b, nameSort key a b = true ∨ a = b ∨ nameSort key b a = true) ∧
    (∀ a b, nameSort key a b = true → nameSort key b a = false) :=
  ⟨nameSort_irrefl key, nameSort_trans key, nameSort_total key hk, nameSort_asymm key⟩

theorem getLast?_append_ne {α : Type} (a : List α) {b : List α} (h : b ≠ []) :
    (a ++ b).getLast? = b.getLast? := by
  rw [List.getLast?_append, List.getLast?_eq_some_getLast h]; rfl

/-- C01, second half: in any sequence sorted by the name order, the names starting with a given text (hence the
names inside any namespace) form one contiguous block, and that block is what a `lower_bound` followed by a
scan while the prefix matches produces. -/
theorem C01_namespace_contiguous (key : Char → Int) (hk : ∀ a b, key a = key b → a = b) (l : List Str)
    (hl : l.Pairwise (fun a b => nameSort key a b = true)) (p : Str) :
    ∃ before block after, l = before ++ block ++ after ∧
      block = (l.dropWhile (fun a => nameSort key a p)).takeWhile (fun a => p.isPrefixOf a) ∧
      (∀ x ∈ block, p <+: x) ∧ (∀ x ∈ before, ¬ p <+: x) ∧ (∀ x ∈ after, ¬ p <+: x) := by
  have hs := scan_eq_filter key hk p (fun a : Str => a) l hl
  refine ⟨l.takeWhile (fun a => nameSort key a p), _,
    (l.dropWhile (fun a => nameSort key a p)).dropWhile (fun a => p.isPrefixOf a), ?_, rfl, ?_, ?_, ?_⟩
  · rw [List.append_assoc, List.takeWhile_append_dropWhile, List.takeWhile_append_dropWhile]
  · intro x hx
    rw [hs] at hx
    exact List.isPrefixOf_iff_prefix.mp (List.mem_filter.mp hx).2
  · intro x hx hp
    have h1 : nameSort key x p = true := by
      have := List.all_takeWhile (l := l) (p := fun a => nameSort key a p)
      exact List.all_eq_true.mp this x hx
    obtain ⟨t, ht⟩ := hp
    rw [← ht, nameSort_prefix] at h1
    simp at h1
  · intro x hx hp
    have hsplit : l = l.takeWhile (fun a => nameSort key a p) ++
        ((l.dropWhile (fun a => nameSort key a p)).takeWhile (fun a => p.isPrefixOf a) ++
         (l.dropWhile (fun a => nameSort key a p)).dropWhile (fun a => p.isPrefixOf a)) := by
      rw [List.takeWhile_append_dropWhile, List.takeWhile_append_dropWhile]
    have gen : ∀ A B C : List Str, l = A ++ (B ++ C) → B = l.filter (fun a => p.isPrefixOf a) →
        x ∈ C → False := by
      intro A B C h1 h2 h3
      have h4 := congrArg List.length h2
      have h5 : B.filter (fun a => p.isPrefixOf a) = B := by
        rw [h2, List.filter_filter]; simp
      rw [h1, List.filter_append, List.filter_append, h5, List.length_append, List.length_append] at h4
      have : 0 < (C.filter (fun a => p.isPrefixOf a)).length :=
        List.length_pos_of_mem (List.mem_filter.mpr ⟨h3, List.isPrefixOf_iff_prefix.mpr hp⟩)
      omega
    exact gen _ _ _ hsplit hs hx

/-- non-vacuity: ASCII codes, a sorted list with a namespace in the middle -/
example : (["/A".toList, "/A/x".toList, "/A/y".toList, "/A b".toList, "/B".toList] : List Str).Pairwise
    (fun a b => nameSort (fun c => (c.toNat : Int)) a b = true) ∧
    (∀ a b : Char, ((a.toNat : Int)) = b.toNat → a = b) := by
  refine ⟨by decide, fun a b h => ?_⟩
  have : a.toNat = b.toNat := by omega
  exact Char.toNat_inj.mp this

/-! ### C03 -/

/-- C03: the canonical name built from non-empty, template-balanced components is split back into exactly those
components, its basename is the last one, its namespace the others. -/
theorem C03_split_join (l : List Str) (hne : l ≠ []) (hl : ∀ x ∈ l, Comp x ∧ x ≠ []) :
    splitTypename (joinAbs l) = l ∧
    getTypename (joinAbs l) = l.getLast hne ∧
    getNamespace (joinAbs l) = joinAbs l.dropLast ++ ['/'] ∧
    getNamespace (joinAbs l) ++ getTypename (joinAbs l) = joinAbs l := by
  have hs := split_name l hne hl
  have h1 : getTypename (joinAbs l) = l.getLast hne := by
    simp [getTypename, hs, List.getLast?_eq_some_getLast hne]
  have h2 : getNamespace (joinAbs l) = joinAbs l.dropLast ++ ['/'] := by
    unfold getNamespace
    rw [hs]
    cases l with
    | nil => exact absurd rfl hne
    | cons a b => rfl
  refine ⟨hs, h1, h2, ?_⟩
  rw [h1, h2]
  conv => rhs; rw [← List.dropLast_concat_getLast hne]
  simp [joinAbs]

/-- C03 for every absolute name, well-formed or not: namespace and basename rebuild the name, up to one
trailing '/'. -/
theorem C03_join_any (r : Str) :
    getNamespace ('/' :: r) ++ getTypename ('/' :: r) = '/' :: r ∨
    getNamespace ('/' :: r) ++ getTypename ('/' :: r) ++ ['/'] = '/' :: r := by
  have h := splitGo_join 0 [] r
  have key : getNamespace ('/' :: r) ++ getTypename ('/' :: r) = joinAbs (splitGo 0 [] r) ∨
      (splitGo 0 [] r = [] ∧ getNamespace ('/' :: r) ++ getTypename ('/' :: r) = ['/']) := by
    unfold getNamespace getTypename
    simp only [splitTypename]
    cases hs : splitGo 0 [] r with
    | nil => right; simp
    | cons a b =>
      left
      have hne : a :: b ≠ [] := by simp
      conv => rhs; rw [← List.dropLast_concat_getLast hne]
      simp [joinAbs, List.getLast?_eq_some_getLast hne]
  rcases key with k | ⟨k1, k2⟩
  · rw [k]; simpa using h
  · left
    rw [k2]
    rw [k1] at h
    simp [joinAbs] at h
    simp [h]

theorem comp_plain {s : Str} (h : ∀ c ∈ s, c ≠ '<' ∧ c ≠ '>' ∧ c ≠ '/') : Comp s := by
  induction s with
  | nil => exact .nil
  | cons c r ih =>
    exact .char (h c (by simp)).1 (h c (by simp)).2.1 (h c (by simp)).2.2 (ih (fun x hx => h x (by simp [hx])))

theorem inner_plain {s : Str} (h : ∀ c ∈ s, c ≠ '<' ∧ c ≠ '>') : Inner s := by
  induction s with
  | nil => exact .nil
  | cons c r ih =>
    exact .char (h c (by simp)).1 (h c (by simp)).2 (ih (fun x hx => h x (by simp [hx])))

/-- non-vacuity: `/std/vector</a/B,/c/D>` has two components -/
example : (∀ x ∈ ["std".toList, "vector</a/B,/c/D>".toList], Comp x ∧ x ≠ []) ∧
    joinAbs ["std".toList, "vector</a/B,/c/D>".toList] = "/std/vector</a/B,/c/D>".toList := by
  refine ⟨?_, by decide⟩
  intro x hx
  simp only [List.mem_cons, List.not_mem_nil, or_false] at hx
  rcases hx with rfl | rfl
  · exact ⟨comp_plain (by decide), by decide⟩
  · refine ⟨?_, by decide⟩
    have : Comp ("vector".toList ++ ('<' :: "/a/B,/c/D".toList ++ '>' :: [])) := by
      refine .char (by decide) (by decide) (by decide) (.char (by decide) (by decide) (by decide)
        (.char (by decide) (by decide) (by decide) (.char (by decide) (by decide) (by decide)
        (.char (by decide) (by decide) (by decide) (.char (by decide) (by decide) (by decide) ?_)))))
      exact .tmpl (inner_plain (by decide)) .nil
    exact this

/-! ### C04 -/

/-- normalising a namespace makes it end with '/', only ever appends a '/', and is idempotent. -/
theorem C04_normalized (ns : Str) :
    (getNormalizedNamespace ns).getLast? = some '/' ∧
    (getNormalizedNamespace ns = ns ∨ getNormalizedNamespace ns = ns ++ ['/']) ∧
    getNormalizedNamespace (getNormalizedNamespace ns) = getNormalizedNamespace ns := by
  have h1 : (getNormalizedNamespace ns).getLast? = some '/' := by
    unfold getNormalizedNamespace
    split
    · rfl
    · split
      · simp
      · rename_i h; simpa using h
  refine ⟨h1, ?_, ?_⟩
  · unfold getNormalizedNamespace
    split
    · rename_i h; right; simp at h; simp [h]
    · split
      · right; rfl
      · left; rfl
  · rw [getNormalizedNamespace]
    have hne : getNormalizedNamespace ns ≠ [] := by
      intro h; rw [h] at h1; simp at h1
    simp [hne, h1]

theorem take_eq_iff_prefix (n t : Str) : (t.take n.length = n) ↔ n <+: t := by
  constructor
  · intro h; rw [← h]; exact List.take_prefix _ _
  · rintro ⟨r, rfl⟩; simp

/-- C04: recursive membership is exactly "the name starts with the normalised namespace". -/
theorem C04_isInNamespace_recursive (type ns : Str) :
    isInNamespace type ns true = true ↔ ∃ rest, type = getNormalizedNamespace ns ++ rest := by
  unfold isInNamespace
  have := take_eq_iff_prefix (getNormalizedNamespace ns) type
  by_cases h : List.take (getNormalizedNamespace ns).length type = getNormalizedNamespace ns
  · simp [h]
    obtain ⟨r, hr⟩ := this.mp h
    exact ⟨r, hr.symm⟩
  · simp [h]
    intro r hr
    exact h (this.mpr ⟨r, hr.symm⟩)

/-- C04: direct membership implies recursive membership. -/
theorem C04_direct_imp_recursive (type ns : Str) (h : isInNamespace type ns false = true) :
    isInNamespace type ns true = true := by
  unfold isInNamespace at h ⊢
  by_cases hh : List.take (getNormalizedNamespace ns).length type = getNormalizedNamespace ns
  · simp [hh]
  · simp [hh] at h

/-- C04: a member's relative name appended to the normalised namespace is the full name (for a non-empty
namespace: with an empty one `getRelativeName` is undefined, see `C04_relative_empty_ub`). -/
theorem C04_relative_name (type ns : Str) (hns : ns ≠ []) (h : isInNamespace type ns true = true) :
    ∃ r, getRelativeName type ns = .ok r ∧ getNormalizedNamespace ns ++ r = type := by
  obtain ⟨r, rfl⟩ := (C04_isInNamespace_recursive type ns).mp h
  refine ⟨r, ?_, rfl⟩
  unfold getRelativeName getNormalizedNamespace
  simp only [List.isEmpty_iff, hns, if_false]
  split
  · have : ¬ (ns.length + 1 > (ns ++ ['/'] ++ r).length) := by simp
    rw [if_neg this]
    congr 1
    rw [List.append_assoc, ← List.drop_drop]
    simp
  · have : ¬ (ns.length > (ns ++ r).length) := by simp
    rw [if_neg this]
    simp

/-- finding: `getRelativeName` reads before the beginning of an empty namespace string. -/
theorem C04_relative_empty_ub (type : Str) : getRelativeName type [] = .ub := rfl

theorem splitGo_join_app (c : Str) (l : List Str) (hc : Comp c) (hl : ∀ x ∈ l, Comp x) (rest : Str) :
    splitGo 0 [] (c ++ joinAbs l ++ '/' :: rest) = c :: l ++ splitGo 0 [] rest := by
  induction l generalizing c with
  | nil =>
    have e : c ++ joinAbs [] ++ '/' :: rest = c ++ ('/' :: rest) := by simp [joinAbs]
    rw [e, splitGo_comp hc]
    simp [splitGo]
  | cons d l ih =>
    have e : c ++ joinAbs (d :: l) ++ '/' :: rest = c ++ ('/' :: (d ++ joinAbs l ++ '/' :: rest)) := by
      simp [joinAbs]
    rw [e, splitGo_comp hc]
    simp only [splitGo, if_true, List.nil_append]
    rw [ih d (hl d (by simp)) (fun x hx => hl x (by simp [hx]))]
    rfl

theorem split_app (l : List Str) (hl : ∀ x ∈ l, Comp x) (rest : Str) :
    splitTypename (joinAbs l ++ '/' :: rest) = l ++ splitGo 0 [] rest := by
  cases l with
  | nil => simp [joinAbs, splitTypename]
  | cons c l =>
    have e : joinAbs (c :: l) ++ '/' :: rest = '/' :: (c ++ joinAbs l ++ '/' :: rest) := by simp [joinAbs]
    rw [e, splitTypename]
    exact splitGo_join_app c l (hl c (by simp)) (fun x hx => hl x (by simp [hx])) rest

theorem splitGo_nil_iff (lvl : Int) (cur s : Str) : splitGo lvl cur s = [] ↔ cur = [] ∧ s = [] := by
  induction s generalizing lvl cur with
  | nil => by_cases h : cur = [] <;> simp [splitGo, h]
  | cons c r ih =>
    simp only [splitGo]
    split
    · split
      · simp
      · simp [ih]
    · split
      · simp [ih]
      · split <;> simp [ih]

/-- string prefix of canonical names = prefix of the component lists -/
theorem prefix_iff (l m : List Str) (hl : ∀ x ∈ l, Comp x) (hm : ∀ x ∈ m, Comp x ∧ x ≠ []) :
    (joinAbs l ++ ['/'] <+: joinAbs m) ↔ ∃ k, k ≠ [] ∧ m = l ++ k := by
  constructor
  · rintro ⟨rest, h⟩
    have hmne : m ≠ [] := by
      rintro rfl
      simp [joinAbs] at h
    have h1 := split_app l hl rest
    have e : joinAbs l ++ '/' :: rest = joinAbs m := by rw [← h]; simp
    rw [e, split_name m hmne hm] at h1
    refine ⟨splitGo 0 [] rest, ?_, h1⟩
    intro hn
    obtain ⟨_, rfl⟩ := (splitGo_nil_iff _ _ _).mp hn
    rw [hn] at h1
    simp at h1
    subst h1
    have := congrArg List.length h
    simp at this
  · rintro ⟨k, hk, rfl⟩
    cases k with
    | nil => exact absurd rfl hk
    | cons d k => exact ⟨d ++ joinAbs k, by simp [joinAbs]⟩

/-- an absolute namespace, written with or without a trailing '/' -/
def NsOf (l : List Str) (ns : Str) : Prop := ns = joinAbs l ++ ['/'] ∨ (ns = joinAbs l ∧ l ≠ [])

theorem norm_nsOf {l : List Str} {ns : Str} (h : NsOf l ns) (hl : ∀ x ∈ l, Comp x ∧ x ≠ [])
    (hls : ∀ x ∈ l, x.getLast? ≠ some '/') :
    getNormalizedNamespace ns = joinAbs l ++ ['/'] := by
  rcases h with rfl | ⟨rfl, hne⟩
  · simp [getNormalizedNamespace]
  · have : (joinAbs l).getLast? ≠ some '/' := by
      rw [← List.dropLast_concat_getLast hne]
      have hm := List.getLast_mem hne
      have := hls _ hm
      have h2 := (hl _ hm).2
      simp only [joinAbs, List.flatMap_append, List.flatMap_cons, List.flatMap_nil, List.append_nil]
      rw [getLast?_append_ne _ (by simp), List.getLast?_cons_of_ne_nil h2]
      exact this
    have hne' : joinAbs l ≠ [] := by cases l <;> simp_all [joinAbs]
    simp [getNormalizedNamespace, hne', this]

theorem comp_last {c : Str} (h : Comp c) : c.getLast? ≠ some '/' := by
  induction h with
  | nil => simp
  | @char c s h1 h2 h3 _ ih =>
    cases s with
    | nil => simpa using h3
    | cons d s => rw [List.getLast?_cons_of_ne_nil (by simp)]; exact ih
  | @tmpl a b _ _ ih =>
    rw [getLast?_append_ne _ (by simp)]
    cases b with
    | nil => simp
    | cons d b => rw [List.getLast?_cons_of_ne_nil (by simp)]; exact ih

/-- C04 on canonical names: recursive membership is "the components of the namespace are a proper prefix of the
components of the name"; direct membership, "… all but the last". -/
theorem C04_isInNamespace_components (m l : List Str) (ns : Str) (hns : NsOf l ns)
    (hm : ∀ x ∈ m, Comp x ∧ x ≠ []) (hl : ∀ x ∈ l, Comp x ∧ x ≠ []) :
    (isInNamespace (joinAbs m) ns true = true ↔ ∃ k, k ≠ [] ∧ m = l ++ k) ∧
    (isInNamespace (joinAbs m) ns false = true ↔ ∃ b, m = l ++ [b]) := by
  have hn := norm_nsOf hns hl (fun x hx => comp_last (hl x hx).1)
  have hp := prefix_iff l m (fun x hx => (hl x hx).1) hm
  have hrec : isInNamespace (joinAbs m) ns true = true ↔ ∃ k, k ≠ [] ∧ m = l ++ k := by
    rw [C04_isInNamespace_recursive, hn, ← hp]
    constructor
    · rintro ⟨r, h⟩; exact ⟨r, h.symm⟩
    · rintro ⟨r, h⟩; exact ⟨r, h.symm⟩
  have hcount : ∀ d k, m = l ++ d :: k →
      (splitTypename ((joinAbs m).drop (joinAbs l ++ ['/']).length)).length = (d :: k).length := by
    intro d k e
    have hd := hm d (by rw [e]; simp)
    have e2 : (joinAbs m).drop (joinAbs l ++ ['/']).length = d ++ joinAbs k := by
      rw [e]
      have : joinAbs (l ++ d :: k) = (joinAbs l ++ ['/']) ++ (d ++ joinAbs k) := by simp [joinAbs]
      rw [this, List.drop_left]
    rw [e2]
    have e3 : splitTypename (d ++ joinAbs k) = splitGo 0 [] (d ++ joinAbs k) := by
      cases d with
      | nil => exact absurd rfl hd.2
      | cons x d =>
        have : x ≠ '/' := by
          rcases hd.1 with _ | ⟨_, _, h, _⟩
          · exact h
          · decide
        simp only [List.cons_append]
        unfold splitTypename
        split
        · rename_i hh; simp at hh; exact absurd hh.1 this
        · rfl
    rw [e3, splitGo_join_comps d k hd.1 (fun x hx => (hm x (by rw [e]; simp [hx])).1)
      (fun x hx => (hm x (by rw [e]; simp at hx ⊢; exact Or.inr hx)).2)]
  refine ⟨hrec, ?_⟩
  constructor
  · intro h
    obtain ⟨k, hk, e⟩ := hrec.mp (C04_direct_imp_recursive _ _ h)
    cases k with
    | nil => exact absurd rfl hk
    | cons d k =>
      have hc := hcount d k e
      unfold isInNamespace at h
      rw [hn] at h
      by_cases hh : List.take (joinAbs l ++ ['/']).length (joinAbs m) = joinAbs l ++ ['/']
      · simp only [ne_eq, hh, not_true_eq_false, Bool.false_eq_true, if_false, hc, beq_iff_eq, List.length_cons] at h
        have : k = [] := by
          cases k with
          | nil => rfl
          | cons _ _ => simp at h
        subst this
        exact ⟨d, e⟩
      · simp only [ne_eq, hh, not_false_eq_true, if_true] at h
        simp at h
  · rintro ⟨b, e⟩
    have hr := hrec.mpr ⟨[b], by simp, e⟩
    have hc := hcount b [] e
    unfold isInNamespace at hr ⊢
    rw [hn] at hr ⊢
    by_cases hh : List.take (joinAbs l ++ ['/']).length (joinAbs m) = joinAbs l ++ ['/']
    · simp only [ne_eq, hh, not_true_eq_false, Bool.false_eq_true, if_false, hc]
      rfl
    · simp only [ne_eq, hh, not_false_eq_true, if_true] at hr
      simp at hr

/-- non-vacuity -/
example : NsOf ["base".toList] "/base/".toList ∧ NsOf ["base".toList] "/base".toList ∧
    (∀ x ∈ ["base".toList, "Time".toList], Comp x ∧ x ≠ []) ∧
    isInNamespace "/base/Time".toList "/base".toList false = true := by
  refine ⟨Or.inl (by decide), Or.inr ⟨by decide, by decide⟩, ?_, by decide⟩
  intro x hx
  simp only [List.mem_cons, List.not_mem_nil, or_false] at hx
  rcases hx with rfl | rfl <;> exact ⟨comp_plain (by decide), by decide⟩

/-! ### C05 -/

/-- C05, termination: the validity check always finishes (the fuel given by `isValidTypename` suffices). -/
theorem C05_validity_check_terminates (name : Str) (absolute : Bool) :
    ∃ ok pos, validTn (nameFuel name) name 0 absolute false = some (ok, pos) ∧ pos ≤ name.length := by
  obtain ⟨ok, j, h, _, h2⟩ := (valid_total name (nameFuel name)).1 0 absolute false (by omega)
    (by simp [nameFuel]; omega)
  exact ⟨ok, j, h, h2⟩

theorem isValidTypename_of {name : Str} (hne : name ≠ []) {absolute : Bool} {f j : Nat} {ok : Bool}
    (h : validTn f name 0 absolute false = some (ok, j)) : isValidTypename name absolute = ok := by
  unfold isValidTypename
  obtain ⟨ok', j', h', _⟩ := C05_validity_check_terminates name absolute
  have e1 := validTn_mono (Nat.le_max_left f (nameFuel name)) h
  have e2 := validTn_mono (Nat.le_max_right f (nameFuel name)) h'
  rw [e1] at e2
  simp only [Option.some.injEq, Prod.mk.injEq] at e2
  simp [hne, h', e2.1]

/-- C05, completeness: every name of the grammar — non-empty identifiers introduced by '/', with pointer
stars, nested template argument lists and array suffixes — is accepted. -/
theorem C05_wellformed_accepted (ident : Str) (stars : Nat) (t : NTail) (absolute : Bool)
    (hid : Ident ident) (ht : t.WF .ident) :
    isValidTypename ('/' :: (ident ++ List.replicate stars '*') ++ t.render) absolute = true := by
  have hw : IdStars (ident ++ List.replicate stars '*') := ⟨ident, stars, hid, rfl⟩
  obtain ⟨f, hf⟩ := tailA t [] _ [] absolute false ht hw (Or.inl rfl)
  simp only [List.nil_append, List.append_nil, List.length_nil] at hf
  have hpl := validLoop_plain (ident ++ List.replicate stars '*') hw.plain f ['/'] t.render 0 absolute false
  have hf' : validLoop f ('/' :: (ident ++ List.replicate stars '*') ++ t.render)
      ('/' :: (ident ++ List.replicate stars '*')).length 0 absolute false = some (true, _) := hf
  have e : ['/'] ++ (ident ++ List.replicate stars '*') = '/' :: (ident ++ List.replicate stars '*') := rfl
  rw [e, hf'] at hpl
  apply isValidTypename_of (f := f + (ident ++ List.replicate stars '*').length + 1)
    (j := ('/' :: (ident ++ List.replicate stars '*') ++ t.render).length) (by simp)
  rw [validTn]
  have : charAt ('/' :: (ident ++ List.replicate stars '*') ++ t.render) 0 = '/' := by simp [charAt]
  rw [if_pos this]
  exact hpl

/-- C05, soundness on names without template, array or pointer characters: an accepted absolute name is exactly a
sequence of non-empty identifiers, each introduced by one '/'. -/
theorem C05_accepted_wellformed (name : Str) (h : isValidTypename name true = true)
    (hs : ∀ c ∈ name, special c = false) :
    ∃ comps : List Str, comps ≠ [] ∧ (∀ x ∈ comps, Ident x) ∧ name = joinAbs comps := by
  unfold isValidTypename at h
  cases name with
  | nil => simp at h
  | cons c r =>
    simp only [List.isEmpty_cons, Bool.false_eq_true, if_false] at h
    split at h
    · rename_i b j hv
      subst h
      rw [show nameFuel (c :: r) = (4 * r.length + 11) + 1 by simp [nameFuel]; omega, validTn] at hv
      by_cases hc : c = '/'
      · subst hc
        have : charAt ('/' :: r) 0 = '/' := by simp [charAt]
        rw [if_pos this] at hv
        have := validLoop_sound r _ [] [] j (by simp) (fun x hx => hs x (by simp [hx])) hv (by simp)
        simpa using this
      · have : charAt (c :: r) 0 ≠ '/' := by simpa [charAt] using hc
        rw [if_neg this] at hv
        have hsp := hs c (by simp)
        have hpl : plain c = true := by
          simp [special] at hsp
          simp [plain, hc, hsp]
        rw [show 4 * r.length + 11 = (4 * r.length + 10) + 1 by omega,
          validLoop_plain_step _ _ _ _ _ _ (by simp) (by simpa [charAt] using hpl)] at hv
        exact absurd hv (validLoop_rel r _ [c] j (by simpa using hc) (by simp) (fun x hx => hs x (by simp [hx])))
    · simp at h

/-- the full soundness claim of C05 is false of the code: text after a top-level `>`, `,` or `*` is not checked. -/
theorem C05_soundness_fails :
    isValidTypename "/A>garbage!!".toList true = true ∧
    isValidTypename "/A,x".toList true = true ∧
    isValidTypename "/A*junk!!".toList true = true := by decide +kernel

/-- and two families of meaningful names are rejected: pointers to arrays, and arrays as a template argument
other than the last one. -/
theorem C05_completeness_limits :
    isValidTypename "/A[3]*".toList true = false ∧
    isValidTypename "/A</B[3],/C>".toList true = false := by decide +kernel

/-- non-vacuity of completeness: `/std/vector</a/B*[3]>/it[2][5]` -/
example : ∃ t : NTail, t.WF .ident ∧ Ident "std".toList ∧
    '/' :: ("std".toList ++ List.replicate 0 '*') ++ t.render = "/std/vector</a/B*[3]>/it[2][5]".toList := by
  refine ⟨.seg "vector".toList 0 (.tmpl (.one "a".toList 0 (.seg "B".toList 1 (.arr "3".toList .done)))
    (.seg "it".toList 0 (.arr "2".toList (.arr "5".toList .done)))), ?_, ?_, by decide⟩
  · simp only [NTail.WF, NArgs.WF]
    simp [Ident, Digits]
  · simp [Ident]
/-- non-vacuity of soundness -/
example : isValidTypename "/base/Time_2".toList true = true ∧ ∀ c ∈ "/base/Time_2".toList, special c = false := by
  decide +kernel

/-! ### C06 -/

/-- `"a/b/"`, or the empty path -/
def relPath : List Str → Str
  | [] => []
  | k => joinRel k ++ ['/']

theorem relPath_eq (k : List Str) : (joinAbs k ++ ['/']).drop 1 = relPath k := by
  cases k with
  | nil => rfl
  | cons a k => simp [relPath, joinRel, joinAbs]

/-- C06: for a type `/m1/…/mn/b` and an absolute namespace `/l1/…/lk` (with or without trailing '/'), the minimal
path is computed without undefined behaviour and is either the absolute namespace of the type, or a path `k`
relative to a namespace `c` that encloses `ns`, such that `c` followed by `k` is the type's namespace. Unless the
type is inside `ns`, a relative path does not occur in `ns` (so it cannot be mistaken for part of it). -/
theorem C06_minimal_path (m l : List Str) (b ns : Str) (hns : NsOf l ns)
    (hm : ∀ x ∈ m ++ [b], Comp x ∧ x ≠ []) (hl : ∀ x ∈ l, Comp x ∧ x ≠ []) :
    ∃ r, getMinimalPathTo (joinAbs (m ++ [b])) ns = .ok r ∧
      (r = joinAbs m ++ ['/'] ∨
       ∃ c k, r = relPath k ∧ m = c ++ k ∧ c <+: l ∧ (c = l ∨ ¬ joinRel k <:+: ns)) := by
  have hmem : ∀ x ∈ m, Comp x ∧ x ≠ [] := fun x hx => hm x (by simp [hx])
  have hgn : getNamespace (joinAbs (m ++ [b])) = joinAbs m ++ ['/'] := by
    have := (C03_split_join (m ++ [b]) (by simp) hm).2.2.1
    simpa using this
  have hin := (C04_isInNamespace_components (m ++ [b]) l ns hns hm hl).1
  have hn := norm_nsOf hns hl (fun x hx => comp_last (hl x hx).1)
  have hnsne : ns ≠ [] := by
    rcases hns with rfl | ⟨rfl, h⟩
    · simp
    · cases l <;> simp_all [joinAbs]
  unfold getMinimalPathTo
  simp only [hgn]
  by_cases h1 : isInNamespace (joinAbs (m ++ [b])) ns true = true
  · rw [if_pos h1]
    obtain ⟨k, hk, e⟩ := hin.mp h1
    -- k = k' ++ [b]
    obtain ⟨k', rfl, e'⟩ : ∃ k', k = k' ++ [b] ∧ m = l ++ k' := by
      have h3 : k = k.dropLast ++ [k.getLast hk] := (List.dropLast_concat_getLast hk).symm
      rw [h3, ← List.append_assoc] at e
      have := List.append_inj' e rfl
      refine ⟨k.dropLast, ?_, this.1⟩
      have h4 : b = k.getLast hk := by simpa using this.2
      rw [h4]; exact h3
    have hin2 : isInNamespace (joinAbs m ++ ['/']) ns true = true := by
      rw [C04_isInNamespace_recursive, hn, e']
      cases k' with
      | nil => exact ⟨[], by simp⟩
      | cons d k' => exact ⟨d ++ joinAbs k' ++ ['/'], by simp [joinAbs]⟩
    obtain ⟨r, hr, er⟩ := C04_relative_name _ ns hnsne hin2
    refine ⟨r, hr, Or.inr ⟨l, k', ?_, e', List.prefix_refl _, Or.inl rfl⟩⟩
    rw [hn, e'] at er
    have e5 : joinAbs (l ++ k') ++ ['/'] = joinAbs l ++ (joinAbs k' ++ ['/']) := by simp [joinAbs]
    rw [e5, List.append_assoc] at er
    have e6 := List.append_cancel_left er
    rw [← relPath_eq, ← e6]; rfl
  · rw [if_neg h1]
    by_cases h2 : (strFind ns (joinAbs m ++ ['/']) || strFind ns (joinAbs (m ++ [b]))) = true
    · rw [if_pos h2]
      exact ⟨_, rfl, Or.inl rfl⟩
    · rw [if_neg h2]
      rw [split_ns m (fun x hx => (hmem x hx).1)]
      have hsn : splitTypename ns = l := by
        rcases hns with rfl | ⟨rfl, h⟩
        · exact split_ns l (fun x hx => (hl x hx).1)
        · exact split_name l h hl
      rw [hsn]
      have hct := commonTokens_spec m l
      rcases hcr : commonTokens m l with ⟨common, rest⟩
      rw [hcr] at hct
      simp only at hct ⊢
      by_cases h3 : common.isEmpty = true
      · rw [if_pos h3]; exact ⟨_, rfl, Or.inl rfl⟩
      · rw [if_neg h3]
        cases rest with
        | nil =>
          exfalso
          simp only [List.append_nil] at hct
          obtain ⟨e, k, hk⟩ := hct
          subst e
          cases k with
          | nil =>
            apply h1
            rw [hin]
            exact ⟨[b], by simp, by simp at hk; rw [hk]⟩
          | cons d k =>
            apply h2
            rw [Bool.or_eq_true]
            left
            rw [strFind_iff]
            have e7 : joinAbs l = joinAbs m ++ ['/'] ++ (d ++ joinAbs k) := by
              rw [← hk]; simp [joinAbs]
            rcases hns with rfl | ⟨rfl, h⟩
            · rw [e7, List.append_assoc (joinAbs m ++ ['/'])]; exact (List.prefix_append _ _).isInfix
            · rw [e7]; exact (List.prefix_append _ _).isInfix
        | cons x xs =>
          simp only
          obtain ⟨k, c', hd1, hd2, hd3⟩ := disambiguate_spec ns common.reverse (x :: xs) (by simp)
          have e8 : x ++ List.flatMap (fun t => '/' :: t) xs = joinRel (x :: xs) := rfl
          rw [e8, hd1]
          simp only
          by_cases h4 : c'.isEmpty = true
          · rw [if_pos h4]; exact ⟨_, rfl, Or.inl rfl⟩
          · rw [if_neg h4]
            have hc' : c' ≠ [] := by simpa using h4
            have hk : common = c'.reverse ++ k := by simpa using hd2
            have hne : joinRel (k ++ x :: xs) ≠ [] := by
              have hx := (hmem x (by rw [hct.1]; simp)).2
              cases k with
              | nil => simp [joinRel, hx]
              | cons a k =>
                have := (hmem a (by rw [hct.1, hk]; simp)).2
                simp [joinRel, this]
            rw [if_neg (by simpa using hne)]
            refine ⟨_, rfl, Or.inr ⟨c'.reverse, k ++ x :: xs, ?_, ?_, ?_, ?_⟩⟩
            · cases hh : k ++ x :: xs with
              | nil => simp at hh
              | cons _ _ => rfl
            · rw [hct.1, hk]; simp
            · exact List.IsPrefix.trans ⟨k, hk.symm⟩ hct.2
            · right
              rw [← strFind_iff, hd3 hc']
              simp

/-- consequence: the returned path ends the type's namespace. -/
theorem C06_minimal_path_suffix (m l : List Str) (b ns : Str) (hns : NsOf l ns)
    (hm : ∀ x ∈ m ++ [b], Comp x ∧ x ≠ []) (hl : ∀ x ∈ l, Comp x ∧ x ≠ []) :
    ∃ r, getMinimalPathTo (joinAbs (m ++ [b])) ns = .ok r ∧ r ++ b <:+ joinAbs (m ++ [b]) := by
  obtain ⟨r, h, hr⟩ := C06_minimal_path m l b ns hns hm hl
  refine ⟨r, h, ?_⟩
  have e : joinAbs (m ++ [b]) = joinAbs m ++ ['/'] ++ b := by simp [joinAbs]
  rw [e]
  rcases hr with rfl | ⟨c, k, rfl, rfl, _⟩
  · exact List.suffix_refl _
  · rw [← relPath_eq]
    refine ⟨joinAbs c ++ ((joinAbs k ++ ['/']).take 1), ?_⟩
    have e2 := List.take_append_drop 1 (joinAbs k ++ ['/'])
    have : joinAbs (c ++ k) ++ ['/'] = joinAbs c ++ (joinAbs k ++ ['/']) := by simp [joinAbs]
    rw [this, ← List.append_assoc, List.append_assoc (joinAbs c), e2]

/-- findings: an empty namespace, and a relative one, are undefined behaviour; a "namespace" that cuts
through a template argument list throws. -/
theorem C06_failures :
    getMinimalPathTo "/A/B".toList "".toList = .ub ∧
    getMinimalPathTo "/A/T".toList "A/B".toList = .ub ∧
    getMinimalPathTo "/A</B/C>".toList "/A</B".toList = .exn .outOfRange := by decide +kernel

/-- non-vacuity: all three outcomes occur -/
example : getMinimalPathTo "/A/B/T".toList "/A".toList = .ok "B/".toList ∧
    getMinimalPathTo "/A/B/T".toList "/A/C".toList = .ok "B/".toList ∧
    getMinimalPathTo "/A/B/T".toList "/A/C/B".toList = .ok "/A/B/".toList ∧
    getMinimalPathTo "/A/B/T".toList "/Z".toList = .ok "/A/B/".toList := by decide +kernel

end Verif.Names
