import Verif.NameModel

/-! Helper lemmas about names (order, splitting, validity). -/

namespace Verif.Names
open Verif

/-! ### nameSort -/

theorem nameSort_irrefl (key : Char → Int) (a : Str) : nameSort key a a = false := by
  induction a with
  | nil => rfl
  | cons c r ih => simp [nameSort, ih]

theorem nameSort_trans (key : Char → Int) (a b c : Str)
    (h1 : nameSort key a b = true) (h2 : nameSort key b c = true) : nameSort key a c = true := by
  induction a generalizing b c with
  | nil =>
    cases b with
    | nil => simp [nameSort] at h1
    | cons y ys =>
      cases c with
      | nil => simp [nameSort] at h2
      | cons z zs => rfl
  | cons x xs ih =>
    cases b with
    | nil => simp [nameSort] at h1
    | cons y ys =>
      cases c with
      | nil => simp [nameSort] at h2
      | cons z zs =>
        simp only [nameSort] at h1 h2 ⊢
        by_cases hxy : x = y
        · subst hxy
          by_cases hxz : x = z
          · subst hxz
            simp only [ne_eq, not_true_eq_false, ↓reduceIte] at h1 h2 ⊢
            exact ih _ _ h1 h2
          · simpa [hxz] using h2
        · by_cases hyz : y = z
          · subst hyz
            simpa [hxy] using h1
          · by_cases hxz : x = z
            · subst hxz
              simp only [ne_eq, hxy, hyz, not_false_eq_true, ↓reduceIte] at h1 h2
              by_cases hx : x = '/' <;> by_cases hy : y = '/' <;> simp_all
              omega
            · simp only [ne_eq, hxy, hyz, hxz, not_false_eq_true, ↓reduceIte] at h1 h2 ⊢
              by_cases hx : x = '/' <;> by_cases hy : y = '/' <;> by_cases hz : z = '/' <;> simp_all
              omega

theorem nameSort_total (key : Char → Int) (hk : ∀ a b, key a = key b → a = b) (a b : Str) :
    nameSort key a b = true ∨ a = b ∨ nameSort key b a = true := by
  induction a generalizing b with
  | nil => cases b <;> simp [nameSort]
  | cons x xs ih =>
    cases b with
    | nil => simp [nameSort]
    | cons y ys =>
      simp only [nameSort]
      by_cases hxy : x = y
      · subst hxy
        rcases ih ys with h | h | h <;> simp [h]
      · have hyx : ¬ y = x := fun h => hxy h.symm
        simp only [ne_eq, hxy, hyx, not_false_eq_true, ↓reduceIte]
        by_cases hx : x = '/'
        · simp [hx]
        · by_cases hy : y = '/'
          · simp [hy]
          · have : key x ≠ key y := fun h => hxy (hk _ _ h)
            simp [hx, hy]
            omega

theorem nameSort_asymm (key : Char → Int) (a b : Str) (h : nameSort key a b = true) :
    nameSort key b a = false := by
  cases hb : nameSort key b a with
  | false => rfl
  | true => have := nameSort_trans key a b a h hb; simp [nameSort_irrefl] at this

theorem nameSort_append (key : Char → Int) (p a b : Str) :
    nameSort key (p ++ a) (p ++ b) = nameSort key a b := by
  induction p with
  | nil => rfl
  | cons c r ih => simp [nameSort, ih]

/-- a prefix never sorts after its extension. -/
theorem nameSort_prefix (key : Char → Int) (p x : Str) : nameSort key (p ++ x) p = false := by
  have h := nameSort_append key p x []
  simp only [List.append_nil] at h
  rw [h]; cases x <;> rfl

/-- names that share a prefix are contiguous. -/
theorem nameSort_convex (key : Char → Int) (hk : ∀ a b, key a = key b → a = b) (p x z b : Str)
    (h1 : nameSort key b (p ++ x) = false) (h2 : nameSort key (p ++ z) b = false) :
    p <+: b := by
  induction p generalizing b with
  | nil => exact List.nil_prefix
  | cons c r ih =>
    cases b with
    | nil => simp [nameSort] at h1
    | cons y ys =>
      simp only [List.cons_append, nameSort] at h1 h2
      by_cases hcy : c = y
      · subst hcy
        simp only [ne_eq, not_true_eq_false, ↓reduceIte] at h1 h2
        obtain ⟨t, ht⟩ := ih ys h1 h2
        exact ⟨t, by simp [ht]⟩
      · have hyc : ¬ y = c := fun h => hcy h.symm
        simp only [ne_eq, hcy, hyc, not_false_eq_true, ↓reduceIte] at h1 h2
        have : key c ≠ key y := fun h => hcy (hk _ _ h)
        by_cases hc : c = '/' <;> by_cases hy : y = '/' <;> simp_all
        omega

/-- in a sorted list, `lower_bound(p)` followed by a scan while `p` is a prefix finds exactly the
names that start with `p`. -/
theorem scan_eq_filter (key : Char → Int) (hk : ∀ a b, key a = key b → a = b) (p : Str)
    {α : Type} (f : α → Str) (l : List α)
    (hl : l.Pairwise (fun a b => nameSort key (f a) (f b) = true)) :
    (l.dropWhile (fun a => nameSort key (f a) p)).takeWhile (fun a => p.isPrefixOf (f a))
      = l.filter (fun a => p.isPrefixOf (f a)) := by
  induction l with
  | nil => rfl
  | cons a l ih =>
    have hl' := List.pairwise_cons.mp hl
    by_cases ha : nameSort key (f a) p = true
    · rw [List.dropWhile_cons_of_pos (by exact ha), ih hl'.2]
      have : ¬ p.isPrefixOf (f a) = true := by
        intro hp
        obtain ⟨t, ht⟩ := List.isPrefixOf_iff_prefix.mp hp
        rw [← ht, nameSort_prefix] at ha
        simp at ha
      rw [List.filter_cons_of_neg (by exact this)]
    · rw [List.dropWhile_cons_of_neg (by exact ha)]
      by_cases hp : p.isPrefixOf (f a) = true
      · rw [List.takeWhile_cons_of_pos (by exact hp), List.filter_cons_of_pos (by exact hp)]
        congr 1
        -- the rest: everything prefixed comes first
        clear ih
        have hall : ∀ x ∈ l, nameSort key (f x) p = false := by
          intro x hx
          cases h : nameSort key (f x) p with
          | false => rfl
          | true => exact absurd (nameSort_trans key _ _ _ (hl'.1 x hx) h) ha
        have hl2 := hl'.2
        clear hl hl'
        induction l with
        | nil => rfl
        | cons b l ih2 =>
          have hl2' := List.pairwise_cons.mp hl2
          by_cases hb : p.isPrefixOf (f b) = true
          · rw [List.takeWhile_cons_of_pos (by exact hb), List.filter_cons_of_pos (by exact hb)]
            congr 1
            exact ih2 (fun x hx => hall x (List.mem_cons_of_mem _ hx)) hl2'.2
          · rw [List.takeWhile_cons_of_neg (by exact hb), List.filter_cons_of_neg (by exact hb)]
            symm
            rw [List.filter_eq_nil_iff]
            intro x hx hpx
            obtain ⟨t, ht⟩ := List.isPrefixOf_iff_prefix.mp hpx
            apply hb
            apply List.isPrefixOf_iff_prefix.mpr
            apply nameSort_convex key hk p [] t (f b)
            · simpa using hall b (List.mem_cons_self)
            · rw [ht]; exact nameSort_asymm key _ _ (hl2'.1 x hx)
      · rw [List.takeWhile_cons_of_neg (by exact hp), List.filter_cons_of_neg (by exact hp)]
        symm
        rw [List.filter_eq_nil_iff]
        intro x hx hpx
        obtain ⟨t, ht⟩ := List.isPrefixOf_iff_prefix.mp hpx
        apply hp
        apply List.isPrefixOf_iff_prefix.mpr
        apply nameSort_convex key hk p [] t (f a)
        · simpa using ha
        · rw [ht]; exact nameSort_asymm key _ _ (hl'.1 x hx)

/-! ### splitting -/

/-- `"/c1/c2/…"` -/
def joinAbs (l : List Str) : Str := l.flatMap (fun c => '/' :: c)

theorem splitGo_join (lvl : Int) (cur s : Str) :
    joinAbs (splitGo lvl cur s) = '/' :: cur ++ s ∨
    joinAbs (splitGo lvl cur s) ++ ['/'] = '/' :: cur ++ s := by
  induction s generalizing lvl cur with
  | nil =>
    by_cases h : cur = []
    · subst h; right; simp [splitGo, joinAbs]
    · left; simp [splitGo, h, joinAbs]
  | cons c r ih =>
    simp only [splitGo]
    split
    · rename_i hc; subst hc
      split
      · rcases ih lvl [] with h | h
        · left; simp [joinAbs] at h ⊢; exact h
        · right; simp [joinAbs] at h ⊢; exact h
      · rcases ih lvl (cur ++ ['/']) with h | h
        · left; simpa using h
        · right; simpa using h
    · split
      · rcases ih (lvl + 1) (cur ++ [c]) with h | h
        · left; simpa using h
        · right; simpa using h
      · split
        · rcases ih (lvl - 1) (cur ++ [c]) with h | h
          · left; simpa using h
          · right; simpa using h
        · rcases ih lvl (cur ++ [c]) with h | h
          · left; simpa using h
          · right; simpa using h

/-- Text in which `<` and `>` are balanced: what may stand between template brackets. -/
inductive Inner : Str → Prop
  | nil : Inner []
  | char {c s} : c ≠ '<' → c ≠ '>' → Inner s → Inner (c :: s)
  | tmpl {a b} : Inner a → Inner b → Inner ('<' :: a ++ '>' :: b)

/-- One component of a type name: no separator outside balanced template brackets. -/
inductive Comp : Str → Prop
  | nil : Comp []
  | char {c s} : c ≠ '<' → c ≠ '>' → c ≠ '/' → Comp s → Comp (c :: s)
  | tmpl {a b} : Inner a → Comp b → Comp ('<' :: a ++ '>' :: b)

theorem splitGo_inner {a : Str} (ha : Inner a) (lvl : Int) (hl : 0 < lvl) (cur r : Str) :
    splitGo lvl cur (a ++ r) = splitGo lvl (cur ++ a) r := by
  induction ha generalizing lvl cur r with
  | nil => simp
  | @char c s h1 h2 _ ih =>
    have : lvl ≠ 0 := by omega
    simp only [List.cons_append, splitGo, h1, h2, this, if_false]
    by_cases hc : c = '/' <;> simp [hc, ih lvl hl]
  | @tmpl a b _ _ iha ihb =>
    have e : ('<' :: a ++ '>' :: b) ++ r = '<' :: (a ++ ('>' :: (b ++ r))) := by simp
    rw [e]
    simp only [splitGo, show ('<' : Char) ≠ '/' by decide, if_false, if_true]
    rw [iha (lvl + 1) (by omega)]
    simp only [splitGo, show ('>' : Char) ≠ '/' by decide, show ('>' : Char) ≠ '<' by decide, if_false, if_true]
    rw [show lvl + 1 - 1 = lvl by omega, ihb lvl hl]
    simp

theorem splitGo_comp {a : Str} (ha : Comp a) (cur r : Str) :
    splitGo 0 cur (a ++ r) = splitGo 0 (cur ++ a) r := by
  induction ha generalizing cur r with
  | nil => simp
  | @char c s h1 h2 h3 _ ih =>
    simp only [List.cons_append, splitGo, h1, h2, h3, if_false, ih]
    simp
  | @tmpl a b hi _ ihb =>
    have e : ('<' :: a ++ '>' :: b) ++ r = '<' :: (a ++ ('>' :: (b ++ r))) := by simp
    rw [e]
    simp only [splitGo, show ('<' : Char) ≠ '/' by decide, if_false, if_true]
    rw [splitGo_inner hi (0 + 1) (by omega)]
    simp only [splitGo, show ('>' : Char) ≠ '/' by decide, show ('>' : Char) ≠ '<' by decide, if_false, if_true]
    rw [show (0 : Int) + 1 - 1 = 0 by omega, ihb]
    simp

theorem splitGo_join_comps (c : Str) (l : List Str) (hc : Comp c) (hl : ∀ x ∈ l, Comp x)
    (hne : ∀ x ∈ c :: l, x ≠ []) :
    splitGo 0 [] (c ++ joinAbs l) = c :: l := by
  induction l generalizing c with
  | nil =>
    rw [splitGo_comp hc]
    have : c ≠ [] := hne c (by simp)
    simp [joinAbs, splitGo, this]
  | cons d l ih =>
    have e : c ++ joinAbs (d :: l) = c ++ ('/' :: (d ++ joinAbs l)) := by simp [joinAbs]
    rw [e, splitGo_comp hc]
    simp only [splitGo, if_true, List.nil_append]
    rw [ih d (hl d (by simp)) (fun x hx => hl x (by simp [hx])) (fun x hx => hne x (by simp at hx ⊢; exact Or.inr hx))]

end Verif.Names
