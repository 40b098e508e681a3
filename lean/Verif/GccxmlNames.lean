import Verif.GccxmlTheorems
import Verif.TypeBuilderProps

/-!
Property C71: there are meanings of names that follow the rules of `Meaning`, for any meaning `T` of the names that are not derived
ones. Used for the examples.
-/

namespace Verif.Gccxml.Example
open Verif Verif.Names Verif.Graph Verif.Registry Verif.TypeBuilder Verif.Merge Verif.Gccxml

/-- the dimension in the text of an array -/
def dim (t : Str) : Nat :=
  if 0 ≤ atoiVal (t ++ [']']) then (atoiVal (t ++ [']'])).toNat else toSizeT (atoiVal (t ++ [']']))

def vecPre : Str := "/std/vector<".toList

/-- the meaning of a name, given in reverse -/
def denR (T : Str → Option CCT) : Nat → Str → Option CCT
  | 0, _ => none
  | f + 1, s =>
    match s with
    | [] => T []
    | c :: r =>
      if c = ']' then
        match r.dropWhile (fun x => x != '[') with
        | [] => none
        | _ :: rest => (denR T f rest).map (.arr (dim (r.takeWhile (fun x => x != '[')).reverse))
      else if c = '*' then (denR T f r).map .ptr
      else if c = ' ' then denR T f r
      else if c = 't' ∧ "snoc ".toList.isPrefixOf r = true then denR T f (r.drop 5)
      else if c = 'e' ∧ "litalov ".toList.isPrefixOf r = true then denR T f (r.drop 8)
      else if c = '>' ∧ vecPre.isPrefixOf r.reverse = true then (denR T f (r.reverse.drop 12).reverse).map .vec
      else T (c :: r).reverse

theorem denR_fuel (T : Str → Option CCT) : ∀ (f g : Nat) (s : Str), s.length < f → s.length < g → denR T f s = denR T g s := by
  intro f
  induction f with
  | zero => intro g s h; omega
  | succ f ih =>
    intro g s hf hg
    cases g with
    | zero => omega
    | succ g =>
      cases s with
      | nil => rfl
      | cons c r =>
        rw [List.length_cons] at hf hg
        have key : ∀ r' : Str, r'.length ≤ r.length → denR T f r' = denR T g r' := fun r' h => ih g r' (by omega) (by omega)
        rw [denR, denR]
        have hd : ∀ (x : Char) (rest : Str), r.dropWhile (fun x => x != '[') = x :: rest → rest.length ≤ r.length := by
          intro x rest h
          have := (List.dropWhile_suffix (l := r) (fun x => x != '[')).length_le
          rw [h, List.length_cons] at this
          omega
        split
        · split
          · rfl
          next x rest h => rw [key rest (hd x rest h)]
        · split
          · rw [key r (Nat.le_refl _)]
          · split
            · exact key r (Nat.le_refl _)
            · split
              · exact key _ (by rw [List.length_drop]; omega)
              · split
                · exact key _ (by rw [List.length_drop]; omega)
                · split
                  · rw [key _ (by rw [List.length_reverse, List.length_drop, List.length_reverse]; omega)]
                  · rfl

/-- the meaning of a name -/
def denF (T : Str → Option CCT) (n : Str) : Option CCT := denR T (n.length + 1) n.reverse

variable {T : Str → Option CCT}

theorem denR_denF {f : Nat} {s : Str} (h : s.length < f) : denR T f s = denF T s.reverse := by
  unfold denF
  rw [List.length_reverse, List.reverse_reverse]
  exact denR_fuel T _ _ s h (by omega)

theorem ptrName (n : Str) : denF T (n ++ ['*']) = (denF T n).map .ptr := by
  show denR T _ _ = _
  rw [List.reverse_append]
  show denR T ((n ++ ['*']).length + 1) ('*' :: n.reverse) = _
  rw [denR, if_neg (by decide), if_pos rfl, denR_denF (by simp), List.reverse_reverse]

theorem spaceName (n : Str) : denF T (n ++ [' ']) = denF T n := by
  show denR T _ _ = _
  rw [List.reverse_append]
  show denR T ((n ++ [' ']).length + 1) (' ' :: n.reverse) = _
  rw [denR, if_neg (by decide), if_neg (by decide), if_pos rfl, denR_denF (by simp), List.reverse_reverse]

theorem constName (n : Str) : denF T (n ++ " const".toList) = denF T n := by
  show denR T _ _ = _
  rw [List.reverse_append]
  show denR T ((n ++ " const".toList).length + 1) ('t' :: ("snoc ".toList ++ n.reverse)) = _
  have hp : "snoc ".toList.isPrefixOf ("snoc ".toList ++ n.reverse) = true := by
    rw [List.isPrefixOf_iff_prefix]; exact List.prefix_append _ _
  rw [denR, if_neg (by decide), if_neg (by decide), if_neg (by decide), if_pos ⟨rfl, hp⟩]
  show denR T _ n.reverse = _
  rw [denR_denF (by simp), List.reverse_reverse]

theorem volatileName (n : Str) : denF T (n ++ " volatile".toList) = denF T n := by
  show denR T _ _ = _
  rw [List.reverse_append]
  show denR T ((n ++ " volatile".toList).length + 1) ('e' :: ("litalov ".toList ++ n.reverse)) = _
  have hp : "litalov ".toList.isPrefixOf ("litalov ".toList ++ n.reverse) = true := by
    rw [List.isPrefixOf_iff_prefix]; exact List.prefix_append _ _
  rw [denR, if_neg (by decide), if_neg (by decide), if_neg (by decide), if_neg (fun h => absurd h.1 (by decide)), if_pos ⟨rfl, hp⟩]
  show denR T _ n.reverse = _
  rw [denR_denF (by simp), List.reverse_reverse]

theorem cvName (n : Str) (c v : Bool) : denF T (n ++ cvText c v) = denF T n := by
  cases c <;> cases v
  · exact spaceName n
  · exact volatileName n
  · exact constName n
  · have : n ++ cvText true true = (n ++ " const".toList) ++ " volatile".toList := by rw [List.append_assoc]; rfl
    rw [this, volatileName, constName]

theorem vecName (n : Str) : denF T (Merge.vecName n) = (denF T n).map .vec := by
  have hr : (Merge.vecName n).reverse = '>' :: (vecPre ++ n).reverse := by
    unfold Merge.vecName
    rw [List.reverse_append]; rfl
  have hl : (Merge.vecName n).length = n.length + 13 := by
    unfold Merge.vecName
    rw [List.length_append, List.length_append]
    show 12 + n.length + 1 = _
    omega
  have hp : vecPre.isPrefixOf (vecPre ++ n).reverse.reverse = true := by
    rw [List.isPrefixOf_iff_prefix, List.reverse_reverse]; exact List.prefix_append _ _
  unfold denF
  rw [hr, denR, if_neg (by decide), if_neg (by decide), if_neg (by decide), if_neg (fun h => absurd h.1 (by decide)),
    if_neg (fun h => absurd h.1 (by decide)), if_pos ⟨rfl, hp⟩, List.reverse_reverse]
  have : (vecPre ++ n).drop 12 = n := rfl
  rw [this, denR_denF (by rw [List.length_reverse, hl]; omega), List.reverse_reverse]
  rfl

theorem atoi_nat (k : Nat) : atoiVal (natStr k ++ [']']) = k := by
  have hdig := natStr_digits k
  have hne : natStr k ≠ [] := by
    unfold natStr
    rw [show toString k = k.repr from rfl, Nat.toList_repr]
    exact Nat.toDigits_ne_nil
  have hval : Nat.ofDigitChars 10 (natStr k) 0 = k := by
    unfold natStr
    rw [show toString k = k.repr from rfl, Nat.toList_repr]
    exact Nat.ofDigitChars_toDigits (by decide) (by decide)
  generalize natStr k = l at hdig hne hval
  cases l with
  | nil => exact absurd rfl hne
  | cons c l =>
    have hc := hdig c (List.mem_cons_self ..)
    have h1 : isSpaceC c = false := by
      cases h : isSpaceC c with
      | false => rfl
      | true =>
        unfold isSpaceC at h
        simp only [Bool.or_eq_true, beq_iff_eq] at h
        rcases h with ((((h | h) | h) | h) | h) | h <;> rw [h] at hc <;> exact absurd hc (by decide)
    have h2 : c ≠ '-' := by rintro rfl; exact absurd hc (by decide)
    have h3 : c ≠ '+' := by rintro rfl; exact absurd hc (by decide)
    have ht : (c :: l ++ [']']).takeWhile Char.isDigit = c :: l := by
      rw [List.takeWhile_append_of_pos (fun a ha => hdig a ha)]
      have : List.takeWhile Char.isDigit [']'] = [] := by decide
      rw [this, List.append_nil]
    have hdw : (c :: l ++ [']']).dropWhile isSpaceC = c :: l ++ [']'] := by
      rw [List.cons_append, List.dropWhile_cons_of_neg (by rw [h1]; decide)]
    unfold atoiVal
    simp only [hdw]
    have hh : (c :: l ++ [']']).head? = some c := rfl
    rw [hh]
    have e1 : (some c == some '-') = false := by simpa using h2
    have e2 : (some c == some '+') = false := by simpa using h3
    simp only [e1, e2, Bool.or_self, Bool.false_eq_true, if_false, ht, hval]

theorem natStr_no (k : Nat) : ∀ x ∈ (natStr k).reverse, (x != '[') = true := by
  intro x hx
  have := natStr_digits k x (List.mem_reverse.mp hx)
  simp only [bne_iff_ne, ne_eq]
  rintro rfl
  exact absurd this (by decide)

theorem arrName (n : Str) (k : Nat) : denF T (n ++ arrSuffix k) = (denF T n).map (.arr k) := by
  have hr : (n ++ arrSuffix k).reverse = ']' :: ((natStr k).reverse ++ '[' :: n.reverse) := by
    unfold arrSuffix
    simp
  show denR T _ _ = _
  rw [hr, denR, if_pos rfl]
  have h1 : ((natStr k).reverse ++ '[' :: n.reverse).dropWhile (fun x => x != '[') = '[' :: n.reverse := by
    rw [List.dropWhile_append_of_pos (natStr_no k), List.dropWhile_cons_of_neg (by decide)]
  have h2 : ((natStr k).reverse ++ '[' :: n.reverse).takeWhile (fun x => x != '[') = (natStr k).reverse := by
    rw [List.takeWhile_append_of_pos (natStr_no k), List.takeWhile_cons_of_neg (by decide), List.append_nil]
  simp only [h1, h2, List.reverse_reverse]
  have hd : dim (natStr k) = k := by
    unfold dim
    rw [atoi_nat, if_pos (by omega)]
    omega
  rw [hd, denR_denF (by simp [arrSuffix]), List.reverse_reverse]

theorem applied_append (a b : List Modifier) (c : CCT) : applied (a ++ b) c = applied b (applied a c) := by
  induction a generalizing c with
  | nil => rfl
  | cons m a ih => cases m <;> exact ih _

theorem map_applied (o : Option CCT) : o.map (applied []) = o := by cases o <;> rfl

theorem readLoop : ∀ (f : Nat) (s : Str) (mods : List Modifier) (b : Str) (ms : List Modifier), parseLoop f s mods = .ok (b, ms) →
    ∃ pre, ms = pre ++ mods ∧ denF T s.reverse = (denF T b).map (applied pre) := by
  intro f
  induction f with
  | zero => intro s m b ms h; cases h
  | succ f ih =>
    intro s mods b ms h
    match s with
    | [] => cases h
    | [_] => cases h
    | c :: c2 :: r =>
      rw [parseLoop.eq_def] at h
      simp only at h
      have step : ∀ (m : Modifier) (rest : Str) (op : CCT → CCT), (∀ x, op x = applied [m] x) →
          denF T (c :: c2 :: r).reverse = (denF T rest.reverse).map op → parseLoop f rest (m :: mods) = .ok (b, ms) →
          ∃ pre, ms = pre ++ mods ∧ denF T (c :: c2 :: r).reverse = (denF T b).map (applied pre) := by
        intro m rest op hop hd hp
        obtain ⟨pre, h1, h2⟩ := ih _ _ _ _ hp
        refine ⟨pre ++ [m], by rw [h1, List.append_assoc]; rfl, ?_⟩
        rw [hd, h2, Option.map_map]
        congr 1
        funext x
        rw [applied_append, Function.comp, hop]
      have hu : denF T (c :: c2 :: r).reverse = denR T ((c :: c2 :: r).length + 1) (c :: c2 :: r) := by
        unfold denF; rw [List.length_reverse, List.reverse_reverse]
      split at h
      next hc =>
        split at h
        · cases h
        next x rest hd =>
          split at h
          next d hat =>
            have hlen : rest.length < (c :: c2 :: r).length := by
              have := (List.dropWhile_suffix (l := c2 :: r) (fun x => x != '[')).length_le
              rw [hd, List.length_cons] at this
              rw [List.length_cons]
              omega
            refine step (.arr d) rest (.arr (toSizeT d)) (fun _ => rfl) ?_ h
            rw [hu, denR, if_pos hc, hd]
            simp only
            unfold atoi at hat
            split at hat
            next hrange =>
              injection hat with hat
              have hdim : dim ((c2 :: r).takeWhile (fun x => x != '[')).reverse = toSizeT d := by
                unfold dim
                rw [hat]
                split
                next h0 =>
                  obtain ⟨k, rfl⟩ : ∃ k : Nat, d = k := ⟨d.toNat, by omega⟩
                  rw [RubyBuilder.toSizeT_nat (by omega)]
                  rfl
                · rfl
              rw [hdim, denR_denF hlen]
            · cases hat
          all_goals cases h
      next hc =>
        split at h
        next hc2 =>
          refine step (.ptr 1) (c2 :: r) .ptr (fun _ => rfl) ?_ h
          rw [hu, denR, if_neg hc, if_pos hc2, denR_denF (by simp)]
        next hc2 =>
          split at h
          next hc3 =>
            obtain ⟨pre, h1, h2⟩ := ih _ _ _ _ h
            refine ⟨pre, h1, ?_⟩
            rw [← h2, hu, denR, if_neg hc, if_neg hc2, if_pos hc3, denR_denF (by simp)]
          next hc3 =>
            injection h with h
            injection h with h1 h2
            refine ⟨[], h2.symm, ?_⟩
            rw [← h1, map_applied]

theorem read (n b : Str) (ms : List Modifier) (h : parseTypename n = .ok (b, ms)) : denF T n = (denF T b).map (applied ms) := by
  obtain ⟨pre, h1, h2⟩ := readLoop (T := T) _ _ _ _ _ h
  rw [List.append_nil] at h1
  rw [List.reverse_reverse] at h2
  rw [h1]
  exact h2

end Verif.Gccxml.Example
