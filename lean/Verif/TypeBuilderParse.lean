import Verif.TypeBuilder
import Verif.EnumModel

/-! Property C37: reading array and pointer names. -/

namespace Verif.TypeBuilder
open Verif Verif.Names Verif.Graph Verif.Registry

/-! ### Specification -/

/-- one step of a declaration: "pointer to" or "array of" -/
inductive Decl where
  | ptr
  | arr (d : Nat)
  deriving DecidableEq, Repr

/-- how it is written -/
def Decl.text : Decl → Str
  | .ptr => ['*']
  | .arr d => '[' :: natStr d ++ [']']

/-- how a list of steps is written, innermost first -/
def declText (l : List Decl) : Str := l.flatMap Decl.text

/-- the same with any number of spaces before each step and at the end -/
def spacedText (l : List (Nat × Decl)) (k : Nat) : Str :=
  l.flatMap (fun p => List.replicate p.1 ' ' ++ p.2.text) ++ List.replicate k ' '

/-- what the parser has to give -/
def Decl.modifier : Decl → Modifier
  | .ptr => .ptr 1
  | .arr d => .arr d

/-- `d` fits an `int` -/
def Decl.Fits : Decl → Prop
  | .ptr => True
  | .arr d => d < 2 ^ 31

/-- names that do not end with a modifier or a space, and have at least two characters (every absolute
name of a type does) -/
def BaseName (b : Str) : Prop := ∃ pre c, b = pre ++ [c] ∧ pre ≠ [] ∧ c ≠ ']' ∧ c ≠ '*' ∧ c ≠ ' '

/-! ### Proof -/

theorem atoi_cases (s : Str) : (∃ d, atoi s = .ok d) ∨ atoi s = .ub := by
  unfold atoi
  split
  · exact Or.inl ⟨_, rfl⟩
  · exact Or.inr rfl

theorem dropWhile_shorter {α : Type} {p : α → Bool} {l : List α} {y : α} {rest : List α}
    (h : l.dropWhile p = y :: rest) : rest.length < l.length := by
  have := congrArg List.length (List.takeWhile_append_dropWhile (p := p) (l := l))
  rw [h, List.length_append, List.length_cons] at this
  omega

theorem atoi_natStr (d : Nat) (hd : d < 2 ^ 31) : atoi (natStr d ++ [']']) = .ok d := by
  have hdig := natStr_digits d
  have hval : Nat.ofDigitChars 10 (natStr d) 0 = d := by
    unfold natStr
    rw [show toString d = d.repr from rfl, Nat.toList_repr]
    exact Nat.ofDigitChars_toDigits (by decide) (by decide)
  have hne : natStr d ≠ [] := by
    unfold natStr
    rw [show toString d = d.repr from rfl, Nat.toList_repr]
    exact Nat.toDigits_ne_nil
  generalize natStr d = s at hdig hval hne
  cases s with
  | nil => exact absurd rfl hne
  | cons c r =>
    have hc := hdig c (by simp)
    have h1 : isSpaceC c = false := by
      cases h : isSpaceC c with
      | false => rfl
      | true =>
        unfold isSpaceC at h
        simp only [Bool.or_eq_true, beq_iff_eq] at h
        rcases h with ((((h | h) | h) | h) | h) | h <;> subst h <;> revert hc <;> decide
    have h2 : c ≠ '-' := by intro h; subst h; revert hc; decide
    have h3 : c ≠ '+' := by intro h; subst h; revert hc; decide
    have h4 : ((c :: r) ++ [']']).takeWhile Char.isDigit = c :: r := by
      rw [List.takeWhile_append_of_pos (fun x hx => hdig x hx)]
      simp [show Char.isDigit ']' = false by decide]
    have h5 : ((c :: r) ++ [']']).dropWhile isSpaceC = (c :: r) ++ [']'] := by
      simp [h1]
    have hv : atoiVal ((c :: r) ++ [']']) = d := by
      unfold atoiVal
      simp only [h5]
      have h6 : ((c :: r) ++ [']']).head? = some c := rfl
      rw [h6]
      have h7 : (some c == some '-') = false := by simpa using h2
      have h8 : (some c == some '+') = false := by simpa using h3
      simp only [h7, h8, Bool.or_self, Bool.false_eq_true, if_false, h4, hval]
    unfold atoi
    rw [hv, if_pos]
    constructor <;> omega

theorem parse_fuel : ∀ (f : Nat) (s : Str) (m : List Modifier), s.length < f → parseLoop f s m ≠ .fuel := by
  intro f
  induction f with
  | zero => intro s m h; omega
  | succ f ih =>
    intro s m h
    match s with
    | [] => simp [parseLoop]
    | [_] => simp [parseLoop]
    | c :: x :: r =>
      unfold parseLoop
      split
      · split
        · simp
        · rename_i rest heq
          have hl := dropWhile_shorter heq
          split
          · exact ih _ _ (by simp only [List.length_cons] at *; omega)
          · simp
          · simp
          · rename_i hh
            rcases atoi_cases (((x :: r).takeWhile (fun x => x != '[')).reverse ++ [']']) with ⟨d, e⟩ | e <;>
              rw [e] at hh <;> cases hh
      · split
        · exact ih _ _ (by simp only [List.length_cons] at *; omega)
        · split
          · exact ih _ _ (by simp only [List.length_cons] at *; omega)
          · simp

theorem parse_mono : ∀ (f : Nat) (s : Str) (m : List Modifier), parseLoop f s m ≠ .fuel →
    parseLoop (f + 1) s m = parseLoop f s m := by
  intro f
  induction f with
  | zero => intro s m h; exact absurd rfl h
  | succ f ih =>
    intro s m h
    match s with
    | [] => rfl
    | [_] => rfl
    | c :: x :: r =>
      unfold parseLoop at h ⊢
      by_cases h1 : c = ']'
      · rw [if_pos h1] at h ⊢
        rw [if_pos h1]
        cases hd : (x :: r).dropWhile (fun x => x != '[') with
        | nil => rfl
        | cons y rest =>
          rw [hd] at h
          simp only at h ⊢
          cases ha : atoi (((x :: r).takeWhile (fun x => x != '[')).reverse ++ [']']) with
          | ok d =>
            rw [ha] at h
            exact ih _ _ h
          | exn e => rfl
          | ub => rfl
          | fuel => rfl
      · rw [if_neg h1] at h ⊢
        rw [if_neg h1]
        by_cases h2 : c = '*'
        · rw [if_pos h2] at h ⊢
          rw [if_pos h2]
          exact ih _ _ h
        · rw [if_neg h2] at h ⊢
          rw [if_neg h2]
          by_cases h3 : c = ' '
          · rw [if_pos h3] at h ⊢
            rw [if_pos h3]
            exact ih _ _ h
          · rw [if_neg h3] at h ⊢
            rw [if_neg h3]

/-- any sufficient fuel gives the same result -/
theorem parse_any (s : Str) (m : List Modifier) : ∀ (f : Nat), s.length < f →
    parseLoop f s m = parseLoop (s.length + 1) s m := by
  intro f hf
  obtain ⟨k, rfl⟩ : ∃ k, f = s.length + 1 + k := ⟨f - (s.length + 1), by omega⟩
  clear hf
  induction k with
  | zero => rfl
  | succ k ih =>
    rw [← Nat.add_assoc, parse_mono _ _ _ (parse_fuel _ _ _ (by omega)), ih]

/-- the parser with enough fuel -/
def parseR (s : Str) (m : List Modifier) : Res (Str × List Modifier) := parseLoop (s.length + 1) s m

theorem parseR_space (s : Str) (m : List Modifier) (hs : s ≠ []) : parseR (' ' :: s) m = parseR s m := by
  unfold parseR
  match s, hs with
  | x :: r, _ =>
    show parseLoop ((x :: r).length + 1 + 1) (' ' :: x :: r) m = _
    rw [parseLoop]
    · simp
    · simp

theorem parseR_spaces (k : Nat) (s : Str) (m : List Modifier) (hs : s ≠ []) :
    parseR (List.replicate k ' ' ++ s) m = parseR s m := by
  induction k with
  | zero => rfl
  | succ k ih =>
    rw [List.replicate_succ, List.cons_append, parseR_space _ _ (by simp [hs]), ih]

theorem parseR_ptr (s : Str) (m : List Modifier) (hs : s ≠ []) : parseR ('*' :: s) m = parseR s (.ptr 1 :: m) := by
  unfold parseR
  match s, hs with
  | x :: r, _ =>
    show parseLoop ((x :: r).length + 1 + 1) ('*' :: x :: r) m = _
    rw [parseLoop]
    · simp
    · simp

theorem parseR_arr (d : Nat) (hd : d < 2 ^ 31) (s : Str) (m : List Modifier) :
    parseR (']' :: ((natStr d).reverse ++ '[' :: s)) m = parseR s (.arr d :: m) := by
  unfold parseR
  have hno : ∀ c ∈ (natStr d).reverse, (c != '[') = true := by
    intro c hc
    have := natStr_digits d c (List.mem_reverse.mp hc)
    rw [bne_iff_ne]
    intro e
    rw [e] at this
    revert this; decide
  generalize hw : (natStr d).reverse ++ '[' :: s = w
  have h1 : w.dropWhile (fun x => x != '[') = '[' :: s := by
    rw [← hw, List.dropWhile_append_of_pos hno]
    simp [List.dropWhile]
  have h2 : w.takeWhile (fun x => x != '[') = (natStr d).reverse := by
    rw [← hw, List.takeWhile_append_of_pos hno]
    simp [List.takeWhile]
  have hlen : s.length < w.length := by rw [← hw]; simp; omega
  match w, h1, h2, hlen with
  | x :: r, h1, h2, hlen =>
    show parseLoop ((x :: r).length + 1 + 1) (']' :: x :: r) m = _
    rw [parseLoop]
    · rw [if_pos rfl, h1]
      simp only
      rw [h2, List.reverse_reverse, atoi_natStr d hd]
      simp only
      exact parse_any s _ _ (by omega)
    · simp

theorem parseR_base (b : Str) (hb : BaseName b) (m : List Modifier) : parseR b.reverse m = .ok (b, m) := by
  obtain ⟨pre, c, rfl, hp, h1, h2, h3⟩ := hb
  unfold parseR
  rw [List.reverse_append]
  have : pre.reverse ≠ [] := by simpa using hp
  match hpr : pre.reverse, this with
  | x :: r, _ =>
    show parseLoop ((x :: r).length + 1 + 1) (c :: x :: r) m = _
    rw [parseLoop]
    · rw [if_neg h1, if_neg h2, if_neg h3, ← hpr]
      simp
    · simp

theorem parse_spaced (b : Str) (hb : BaseName b) (l : List (Nat × Decl)) : ∀ (k : Nat) (m : List Modifier),
    (∀ p ∈ l, p.2.Fits) →
    parseR (b ++ spacedText l k).reverse m = .ok (b, l.map (fun p => p.2.modifier) ++ m) := by
  have hbne : b.reverse ≠ [] := by
    obtain ⟨pre, c, rfl, _⟩ := hb
    simp
  induction l using EnumModel.snoc_induction with
  | nil =>
    intro k m _
    unfold spacedText
    simp only [List.flatMap_nil, List.nil_append, List.reverse_append, List.reverse_replicate, List.map_nil]
    rw [parseR_spaces _ _ _ hbne]
    exact parseR_base b hb m
  | snoc l p ih =>
    intro k m hf
    obtain ⟨n, d⟩ := p
    have hfd := hf (n, d) (by simp)
    have hih := fun m => ih n m (fun p hp => hf p (by simp [hp]))
    have hne : (b ++ spacedText l n).reverse ≠ [] := by
      rw [List.reverse_append]
      simp only [ne_eq, List.append_eq_nil_iff, not_and]
      exact fun _ => hbne
    have e : (b ++ spacedText (l ++ [(n, d)]) k).reverse =
        List.replicate k ' ' ++ (d.text.reverse ++ (b ++ spacedText l n).reverse) := by
      unfold spacedText
      simp [List.flatMap_append, List.reverse_append, List.append_assoc]
    rw [e, parseR_spaces _ _ _ (by simp only [ne_eq, List.append_eq_nil_iff, not_and]; exact fun _ => hne)]
    cases d with
    | ptr =>
      show parseR ('*' :: (b ++ spacedText l n).reverse) m = _
      rw [parseR_ptr _ _ hne, hih]
      simp [Decl.modifier]
    | arr d =>
      have e2 : (Decl.arr d).text.reverse ++ (b ++ spacedText l n).reverse =
          ']' :: ((natStr d).reverse ++ '[' :: (b ++ spacedText l n).reverse) := by
        simp [Decl.text]
      rw [e2, parseR_arr d hfd, hih]
      simp [Decl.modifier]

/-- **C37**, parsing: the text `base` followed by any list of array and pointer modifiers, with any spacing, is read
back as that base and those modifiers, in the same order. -/
theorem C37_parse (b : Str) (hb : BaseName b) (l : List (Nat × Decl)) (k : Nat) (hf : ∀ p ∈ l, p.2.Fits) :
    parseTypename (b ++ spacedText l k) = .ok (b, l.map (fun p => p.2.modifier)) := by
  have := parse_spaced b hb l k [] hf
  unfold parseR at this
  unfold parseTypename
  rw [List.length_reverse] at this
  rw [this, List.append_nil]

/-- `/ns/A *[3] [2]* ` -/
example : parseTypename "/ns/A *[3] [2]* ".toList = .ok ("/ns/A".toList, [.ptr 1, .arr 3, .arr 2, .ptr 1]) :=
  C37_parse "/ns/A".toList ⟨"/ns/".toList, 'A', rfl, by decide, by decide, by decide, by decide⟩
    [(1, .ptr), (0, .arr 3), (1, .arr 2), (0, .ptr)] 1 (by simp [Decl.Fits])

/-- the parser terminates on every text: the result is a base and modifiers, an exception, or the undefined
behaviour of `atoi` on a number that does not fit an `int`; the base is a prefix of the text that carries no modifier. -/
theorem C37_parse_total (n : Str) :
    (∃ b ms, parseTypename n = .ok (b, ms) ∧ BaseName b ∧ ∃ rest, n = b ++ rest) ∨
    parseTypename n = .exn .runtime ∨ parseTypename n = .ub := by
  have main : ∀ (f : Nat) (s : Str) (m : List Modifier), s.length < f →
      (∃ b ms, parseLoop f s m = .ok (b, ms) ∧ BaseName b ∧ ∃ rest, s.reverse = b ++ rest) ∨
      parseLoop f s m = .exn .runtime ∨ parseLoop f s m = .ub := by
    intro f
    induction f with
    | zero => intro s m h; omega
    | succ f ih =>
      intro s m h
      match s with
      | [] => exact Or.inr (Or.inl rfl)
      | [_] => exact Or.inr (Or.inl rfl)
      | c :: x :: r =>
        have step : ∀ (s' : Str) (m' : List Modifier), (∃ pre, c :: x :: r = pre ++ s') → s'.length < f →
            (∃ b ms, parseLoop f s' m' = .ok (b, ms) ∧ BaseName b ∧ ∃ rest, (c :: x :: r).reverse = b ++ rest) ∨
            parseLoop f s' m' = .exn .runtime ∨ parseLoop f s' m' = .ub := by
          intro s' m' ⟨pre, hpre⟩ hl
          rcases ih s' m' hl with ⟨b, ms, h1, h2, rest, h3⟩ | h
          · left
            refine ⟨b, ms, h1, h2, rest ++ pre.reverse, ?_⟩
            rw [hpre, List.reverse_append, h3, List.append_assoc]
          · exact Or.inr h
        rw [parseLoop]
        · by_cases h1 : c = ']'
          · rw [if_pos h1]
            cases hd : (x :: r).dropWhile (fun x => x != '[') with
            | nil => exact Or.inr (Or.inl rfl)
            | cons y rest =>
              simp only
              have hl := dropWhile_shorter hd
              have hat : (∃ d, atoi (((x :: r).takeWhile (fun x => x != '[')).reverse ++ [']']) = .ok d) ∨
                  atoi (((x :: r).takeWhile (fun x => x != '[')).reverse ++ [']']) = .ub := atoi_cases _
              rcases hat with ⟨d, hat⟩ | hat
              · rw [hat]
                refine step _ _ ?_ (by simp only [List.length_cons] at *; omega)
                refine ⟨c :: (x :: r).takeWhile (fun x => x != '[') ++ [y], ?_⟩
                rw [List.append_assoc, List.singleton_append, ← hd, List.cons_append,
                  List.takeWhile_append_dropWhile]
              · rw [hat]; exact Or.inr (Or.inr rfl)
          · rw [if_neg h1]
            by_cases h2 : c = '*'
            · rw [if_pos h2]
              exact step _ _ ⟨[c], rfl⟩ (by simp only [List.length_cons] at *; omega)
            · rw [if_neg h2]
              by_cases h3 : c = ' '
              · rw [if_pos h3]
                exact step _ _ ⟨[c], rfl⟩ (by simp only [List.length_cons] at *; omega)
              · rw [if_neg h3]
                left
                refine ⟨_, _, rfl, ⟨(x :: r).reverse, c, by simp, by simp, h1, h2, h3⟩, [], by simp⟩
        · simp
  have := main (n.length + 1) n.reverse [] (by simp)
  rw [List.reverse_reverse] at this
  exact this

/-- the parser does not check what is between the brackets: `/A[x]` and `/A[]` are read as an array of dimension 0,
`/A[-1]` as one of dimension -1, and `/A[2147483648]` is undefined behaviour -/
theorem C37_parse_unchecked :
    parseTypename "/A[x]".toList = .ok ("/A".toList, [.arr 0]) ∧
    parseTypename "/A[-1]".toList = .ok ("/A".toList, [.arr (-1)]) ∧
    parseTypename "/A[2147483648]".toList = .ub := by decide +kernel

end Verif.TypeBuilder
