import Verif.CxxNames

/-!
C45: names converted between C++ and typelib notation.
-/

namespace Verif.CxxNames
open Verif

/-! ### Specification: C++ names as clang prints them -/

/-- Lexical elements of a C++ type name: an identifier, builtin type or number, `::`, `<`, `, `, `>` (printed with a
space before it when it follows another one), an array dimension (printed with or without a space before it). -/
inductive Tok where
  | word (w : Str)
  | scope
  | opn
  | sep
  | cls (sp : Bool)
  | arr (sp : Bool) (dim : Str)
  deriving DecidableEq

/-- a word contains none of the delimiters, and spaces only inside (`unsigned int`) -/
def WordOk (w : Str) : Prop :=
  (∀ c ∈ w, c ≠ ':' ∧ c ≠ '<' ∧ c ≠ '>' ∧ c ≠ ',' ∧ c ≠ '/' ∧ c ≠ '[') ∧ w ≠ [] ∧ w.head? ≠ some ' ' ∧
  w.getLast? ≠ some ' '

/-- the word is a number: it starts with a digit or a minus sign -/
def numeric (w : Str) : Bool := w.head?.any (fun c => "0123456789-".toList.contains c)

def DimOk (d : Str) : Prop := ∀ c ∈ d, c ≠ ':' ∧ c ≠ '<' ∧ c ≠ '>' ∧ c ≠ ',' ∧ c ≠ '/' ∧ c ≠ '[' ∧ c ≠ ' '

def Tok.Ok : Tok → Prop
  | .word w => WordOk w
  | .arr _ d => DimOk d
  | _ => True

/-- what may come after an element -/
def follows : Tok → Tok → Bool
  | .word _, .scope => true
  | .word _, .opn => true
  | .word _, .sep => true
  | .word _, .cls sp => !sp
  | .word _, .arr _ _ => true
  | .scope, .word w => !numeric w
  | .opn, .word _ => true
  | .sep, .word _ => true
  | .cls _, .scope => true
  | .cls _, .sep => true
  | .cls _, .cls _ => true
  | .cls _, .arr _ _ => true
  | .arr _ _, .sep => true
  | .arr _ _, .cls sp => !sp
  | .arr _ _, .arr _ _ => true
  | _, _ => false

/-- may a name end here -/
def Tok.final : Tok → Bool
  | .word _ => true
  | .cls _ => true
  | .arr _ _ => true
  | _ => false

/-- the elements after `p` -/
def Chain : Tok → List Tok → Prop
  | p, [] => p.final = true
  | p, t :: ts => follows p t = true ∧ t.Ok ∧ Chain t ts

/-- a C++ name: it starts with a word that is no number -/
def IsName (w : Str) (ts : List Tok) : Prop := WordOk w ∧ numeric w = false ∧ Chain (.word w) ts

/-- the name in C++ -/
def Tok.cxx : Tok → Str
  | .word w => w
  | .scope => "::".toList
  | .opn => "<".toList
  | .sep => ", ".toList
  | .cls sp => if sp then " >".toList else ">".toList
  | .arr sp d => (if sp then " [".toList else "[".toList) ++ d ++ "]".toList

def cxx (w : Str) (ts : List Tok) : Str := w ++ ts.flatMap Tok.cxx

/-- the name in C++, without the optional spaces -/
def Tok.compact : Tok → Str
  | .sep => ",".toList
  | .cls _ => ">".toList
  | .arr _ d => "[".toList ++ d ++ "]".toList
  | t => t.cxx

def compact (w : Str) (ts : List Tok) : Str := w ++ ts.flatMap Tok.compact

/-- the name in typelib's notation: every namespace component starts with a slash, also in the arguments of the
templates; numbers do not -/
def Tok.typelib : Tok → Str
  | .word w => if numeric w then w else '/' :: w
  | .scope => []
  | t => t.compact

def typelib (w : Str) (ts : List Tok) : Str := '/' :: w ++ ts.flatMap Tok.typelib

/-! ### Scanning -/

/-- text without the first character of the pattern is copied -/
theorem rep_pass {c : Char} {l to : Str} {a : Str} (h : c ∉ a) (b : Str) :
    rep (c :: l) to 0 (a ++ b) = a ++ rep (c :: l) to 0 b := by
  induction a with
  | nil => rfl
  | cons x a ih =>
    simp only [List.mem_cons, not_or] at h
    have hb : (c == x) = false := beq_eq_false_iff_ne.mpr h.1
    simp only [List.cons_append, rep, List.isPrefixOf, hb, Bool.false_and, Bool.false_eq_true, if_false]
    rw [ih h.2]

theorem rep_pass1 {c x : Char} {l to : Str} (h : x ≠ c) (b : Str) :
    rep (c :: l) to 0 (x :: b) = x :: rep (c :: l) to 0 b :=
  rep_pass (a := [x]) (by simp [Ne.symm h]) b

/-- a match of two characters -/
theorem rep_hit (c d : Char) (to b : Str) : rep [c, d] to 0 (c :: d :: b) = to ++ rep [c, d] to 0 b := by
  simp [rep, List.isPrefixOf]

/-- a first character without the second one -/
theorem rep_miss {c d : Char} {to b : Str} (h : b.head? ≠ some d) :
    rep [c, d] to 0 (c :: b) = c :: rep [c, d] to 0 b := by
  cases b with
  | nil => simp [rep, List.isPrefixOf]
  | cons x b =>
    have : (d == x) = false := beq_eq_false_iff_ne.mpr (fun e => h (by simp [e]))
    rw [rep]
    simp [List.isPrefixOf, this]

/-- text without the second character, and not ending with the first, is copied -/
theorem rep_pair {c d : Char} {to : Str} : ∀ {a : Str}, d ∉ a → a.getLast? ≠ some c → ∀ b,
    rep [c, d] to 0 (a ++ b) = a ++ rep [c, d] to 0 b := by
  intro a
  induction a with
  | nil => intro _ _ b; rfl
  | cons x a ih =>
    intro hd hl b
    simp only [List.mem_cons, not_or] at hd
    cases a with
    | nil =>
      have : x ≠ c := by simpa using hl
      simpa using rep_pass1 this b
    | cons y a =>
      have hl' : (y :: a).getLast? ≠ some c := by simpa [List.getLast?_cons_cons] using hl
      have hih := ih hd.2 hl' b
      have hdy : (d == y) = false := by
        have := hd.2
        simp only [List.mem_cons, not_or] at this
        exact beq_eq_false_iff_ne.mpr this.1
      simp only [List.cons_append] at hih ⊢
      rw [rep]
      simp only [List.isPrefixOf, hdy, Bool.false_and, Bool.and_false, Bool.false_eq_true, if_false]
      rw [hih]

theorem WordOk.no {w : Str} (h : WordOk w) : ':' ∉ w ∧ '<' ∉ w ∧ '>' ∉ w ∧ ',' ∉ w ∧ '/' ∉ w ∧ '[' ∉ w := by
  refine ⟨?_, ?_, ?_, ?_, ?_, ?_⟩ <;> intro hm <;> have := h.1 _ hm <;> simp at this

theorem DimOk.no {w : Str} (h : DimOk w) :
    ':' ∉ w ∧ '<' ∉ w ∧ '>' ∉ w ∧ ',' ∉ w ∧ '/' ∉ w ∧ '[' ∉ w ∧ ' ' ∉ w := by
  refine ⟨?_, ?_, ?_, ?_, ?_, ?_, ?_⟩ <;> intro hm <;> have := h _ hm <;> simp at this

/-- a word is a first character and the rest -/
theorem WordOk.cons {w : Str} (h : WordOk w) : ∃ x r, w = x :: r ∧ x ≠ ':' ∧ x ≠ '<' ∧ x ≠ '>' ∧ x ≠ ',' ∧ x ≠ '/' ∧
    x ≠ '[' ∧ x ≠ ' ' := by
  obtain ⟨h1, h2, h3, _⟩ := h
  cases w with
  | nil => exact absurd rfl h2
  | cons x r =>
    obtain ⟨a, b, c, d, e, f⟩ := h1 x (by simp)
    exact ⟨x, r, rfl, a, b, c, d, e, f, by simpa using h3⟩

/-! ### The passes of `cxxToTypelibName` -/

/-- after `::` -/
def Tok.g1 : Tok → Str
  | .scope => ['/']
  | t => t.cxx

/-- after ` [` -/
def Tok.g2 : Tok → Str
  | .arr _ d => '[' :: d ++ [']']
  | t => t.g1

/-- after `> ` -/
def Tok.g3 : Tok → Str
  | .cls _ => ['>']
  | t => t.g2

/-- after `, ` -/
def Tok.g5 : Tok → Str
  | .sep => [',', '/']
  | t => t.g3

/-- after the insertion of slashes -/
def Tok.g6 : Tok → Str
  | .opn => ['<', '/']
  | t => t.g5

theorem pass1 : ∀ {p : Tok} {ts : List Tok}, Chain p ts →
    rep [':', ':'] ['/'] 0 (ts.flatMap Tok.cxx) = ts.flatMap Tok.g1 := by
  intro p ts
  induction ts generalizing p with
  | nil => intro _; rfl
  | cons t ts ih =>
    rintro ⟨hf, ho, hc⟩
    simp only [List.flatMap_cons]
    cases t with
    | scope => simp only [Tok.cxx, Tok.g1, String.reduceToList, List.cons_append, List.nil_append]; rw [rep_hit, ih hc]; rfl
    | word w => rw [show Tok.cxx (.word w) = w from rfl, rep_pass ho.no.1, ih hc]; rfl
    | opn => rw [rep_pass (by simp [Tok.cxx]), ih hc]; rfl
    | sep => rw [rep_pass (by simp [Tok.cxx]), ih hc]; rfl
    | cls sp => rw [rep_pass (by cases sp <;> simp [Tok.cxx]), ih hc]; rfl
    | arr sp d =>
      have := ho.no
      rw [rep_pass (by cases sp <;> simp [Tok.cxx, this]), ih hc]; rfl

/-- the text after a separator starts with a word -/
theorem Chain.word_next {p : Tok} {ts : List Tok} (h : Chain p ts) (hp : p = .scope ∨ p = .opn ∨ p = .sep) :
    ∃ w r, ts = .word w :: r ∧ WordOk w ∧ Chain (.word w) r ∧ (p = .scope → numeric w = false) := by
  cases ts with
  | nil => rcases hp with rfl | rfl | rfl <;> simp [Chain, Tok.final] at h
  | cons t ts =>
    obtain ⟨hf, ho, hc⟩ := h
    cases t with
    | word w => exact ⟨w, ts, rfl, ho, hc, by rintro rfl; simpa [follows] using hf⟩
    | scope => rcases hp with rfl | rfl | rfl <;> simp [follows] at hf
    | opn => rcases hp with rfl | rfl | rfl <;> simp [follows] at hf
    | sep => rcases hp with rfl | rfl | rfl <;> simp [follows] at hf
    | cls sp => rcases hp with rfl | rfl | rfl <;> simp [follows] at hf
    | arr sp d => rcases hp with rfl | rfl | rfl <;> simp [follows] at hf

theorem pass2 : ∀ {p : Tok} {ts : List Tok}, Chain p ts →
    rep [' ', '['] ['['] 0 (ts.flatMap Tok.g1) = ts.flatMap Tok.g2 := by
  intro p ts
  induction ts generalizing p with
  | nil => intro _; rfl
  | cons t ts ih =>
    rintro ⟨hf, ho, hc⟩
    simp only [List.flatMap_cons]
    cases t with
    | scope => rw [rep_pass (by simp [Tok.g1]), ih hc]; rfl
    | word w =>
      have : w.getLast? ≠ some ' ' := ho.2.2.2
      rw [show Tok.g1 (.word w) = w from rfl, rep_pair ho.no.2.2.2.2.2 this, ih hc]; rfl
    | opn => rw [rep_pass (by simp [Tok.g1, Tok.cxx]), ih hc]; rfl
    | sep =>
      obtain ⟨w, r, rfl, hw, _, _⟩ := hc.word_next (by simp)
      have hh : ((Tok.word w :: r).flatMap Tok.g1).head? ≠ some '[' := by
        obtain ⟨x, r', rfl, _, _, _, _, _, h, _⟩ := hw.cons
        simpa [Tok.g1, Tok.cxx] using h
      have := ih hc
      rw [show Tok.g1 .sep = [',', ' '] from rfl, List.cons_append, List.cons_append, List.nil_append,
        rep_pass1 (by decide), rep_miss hh, this]
      rfl
    | cls sp =>
      cases sp with
      | false => rw [rep_pass (by simp [Tok.g1, Tok.cxx]), ih hc]; rfl
      | true =>
        rw [show Tok.g1 (.cls true) = [' ', '>'] from rfl, List.cons_append, rep_miss (by simp), List.cons_append,
          rep_pass1 (by decide), List.nil_append, ih hc]
        rfl
    | arr sp d =>
      have hd : ' ' ∉ d := ho.no.2.2.2.2.2.2
      cases sp with
      | false => rw [rep_pass (by simp [Tok.g1, Tok.cxx, hd]), ih hc]; rfl
      | true =>
        rw [show Tok.g1 (.arr true d) = ' ' :: '[' :: (d ++ [']']) from rfl, List.cons_append, List.cons_append,
          rep_hit, rep_pass (by simp [hd]), ih hc]
        simp [Tok.g2]

/-- text of the elements without the space in front of the first one -/
def strip3 : List Tok → Str
  | .cls _ :: r => '>' :: r.flatMap Tok.g2
  | ts => ts.flatMap Tok.g2

theorem strip3_gt {p : Tok} {ts : List Tok} (h : Chain p ts) :
    rep ['>', ' '] ['>'] 0 ('>' :: ts.flatMap Tok.g2) = '>' :: rep ['>', ' '] ['>'] 0 (strip3 ts) := by
  cases ts with
  | nil => rfl
  | cons t ts =>
    obtain ⟨_, ho, _⟩ := h
    cases t with
    | cls sp =>
      cases sp with
      | false => exact rep_miss (by simp [Tok.g2, Tok.g1, Tok.cxx])
      | true =>
        simp only [strip3, List.flatMap_cons, Tok.g2, Tok.g1, Tok.cxx, if_true, String.reduceToList, List.cons_append]
        rw [rep_hit]; rfl
    | word w =>
      obtain ⟨x, r', rfl, _, _, _, _, _, _, h⟩ := WordOk.cons ho
      exact rep_miss (by simpa [Tok.g2, Tok.g1, Tok.cxx] using h)
    | scope => exact rep_miss (by simp [Tok.g2, Tok.g1])
    | opn => exact rep_miss (by simp [Tok.g2, Tok.g1, Tok.cxx])
    | sep => exact rep_miss (by simp [Tok.g2, Tok.g1, Tok.cxx])
    | arr sp d => exact rep_miss (by simp [Tok.g2])

theorem pass3 : ∀ {p : Tok} {ts : List Tok}, Chain p ts →
    rep ['>', ' '] ['>'] 0 (strip3 ts) = ts.flatMap Tok.g3 := by
  intro p ts
  induction ts generalizing p with
  | nil => intro _; rfl
  | cons t ts ih =>
    rintro ⟨hf, ho, hc⟩
    -- the elements after anything else than `>` have no space in front
    have hs : (∀ sp, t ≠ .cls sp) → strip3 ts = ts.flatMap Tok.g2 := by
      intro ht
      cases ts with
      | nil => rfl
      | cons t' ts =>
        cases t' with
        | cls sp =>
          obtain ⟨hf', _⟩ := hc
          cases sp with
          | false => rfl
          | true => cases t <;> simp [follows] at hf' ht
        | _ => rfl
    cases t with
    | cls sp =>
      rw [strip3, strip3_gt hc, ih hc]
      rfl
    | scope =>
      have := ih hc; rw [hs (by simp)] at this
      rw [strip3, List.flatMap_cons, rep_pass (by simp [Tok.g2, Tok.g1]), this]; · rfl
      · simp
    | opn =>
      have := ih hc; rw [hs (by simp)] at this
      rw [strip3, List.flatMap_cons, rep_pass (by simp [Tok.g2, Tok.g1, Tok.cxx]), this]; · rfl
      · simp
    | sep =>
      have := ih hc; rw [hs (by simp)] at this
      rw [strip3, List.flatMap_cons, rep_pass (by simp [Tok.g2, Tok.g1, Tok.cxx]), this]; · rfl
      · simp
    | word w =>
      have := ih hc; rw [hs (by simp)] at this
      have h1 : '>' ∉ w := WordOk.no ho |>.2.2.1
      rw [strip3, List.flatMap_cons, rep_pass (by simpa [Tok.g2, Tok.g1, Tok.cxx] using h1), this]; · rfl
      · simp
    | arr sp d =>
      have := ih hc; rw [hs (by simp)] at this
      have h1 : '>' ∉ d := DimOk.no ho |>.2.2.1
      rw [strip3, List.flatMap_cons, rep_pass (by simp [Tok.g2, h1]), this]; · rfl
      · simp

theorem pass4 : ∀ {p : Tok} {ts : List Tok}, Chain p ts →
    rep ['<', ' '] ['<'] 0 (ts.flatMap Tok.g3) = ts.flatMap Tok.g3 := by
  intro p ts
  induction ts generalizing p with
  | nil => intro _; rfl
  | cons t ts ih =>
    rintro ⟨hf, ho, hc⟩
    simp only [List.flatMap_cons]
    cases t with
    | scope => rw [rep_pass (by simp [Tok.g3, Tok.g2, Tok.g1]), ih hc]
    | word w =>
      have h1 : '<' ∉ w := WordOk.no ho |>.2.1
      rw [rep_pass (by simpa [Tok.g3, Tok.g2, Tok.g1, Tok.cxx] using h1), ih hc]
    | opn =>
      obtain ⟨w, r, rfl, hw, _, _⟩ := hc.word_next (by simp)
      have hh : ((Tok.word w :: r).flatMap Tok.g3).head? ≠ some ' ' := by
        obtain ⟨x, r', rfl, _, _, _, _, _, _, h⟩ := hw.cons
        simpa [Tok.g3, Tok.g2, Tok.g1, Tok.cxx] using h
      have := ih hc
      rw [show Tok.g3 .opn = ['<'] from rfl, List.cons_append, List.nil_append, rep_miss hh, this]
    | sep => rw [rep_pass (by simp [Tok.g3, Tok.g2, Tok.g1, Tok.cxx]), ih hc]
    | cls sp => rw [rep_pass (by simp [Tok.g3]), ih hc]
    | arr sp d =>
      have h1 : '<' ∉ d := DimOk.no ho |>.2.1
      rw [rep_pass (by simp [Tok.g3, Tok.g2, h1]), ih hc]

theorem pass5 : ∀ {p : Tok} {ts : List Tok}, Chain p ts →
    rep [',', ' '] [',', '/'] 0 (ts.flatMap Tok.g3) = ts.flatMap Tok.g5 := by
  intro p ts
  induction ts generalizing p with
  | nil => intro _; rfl
  | cons t ts ih =>
    rintro ⟨hf, ho, hc⟩
    simp only [List.flatMap_cons]
    cases t with
    | scope => rw [rep_pass (by simp [Tok.g3, Tok.g2, Tok.g1]), ih hc]; rfl
    | word w =>
      have h1 : ',' ∉ w := WordOk.no ho |>.2.2.2.1
      rw [rep_pass (by simpa [Tok.g3, Tok.g2, Tok.g1, Tok.cxx] using h1), ih hc]; rfl
    | opn => rw [rep_pass (by simp [Tok.g3, Tok.g2, Tok.g1, Tok.cxx]), ih hc]; rfl
    | sep =>
      rw [show Tok.g3 .sep = [',', ' '] from rfl, List.cons_append, List.cons_append, List.nil_append, rep_hit, ih hc]
      rfl
    | cls sp => rw [rep_pass (by simp [Tok.g3]), ih hc]; rfl
    | arr sp d =>
      have h1 : ',' ∉ d := DimOk.no ho |>.2.2.2.1
      rw [rep_pass (by simp [Tok.g3, Tok.g2, h1]), ih hc]; rfl

theorem pass6 : ∀ {p : Tok} {ts : List Tok}, Chain p ts →
    slash (ts.flatMap Tok.g5) = .ok (ts.flatMap Tok.g6) := by
  intro p ts
  induction ts generalizing p with
  | nil => intro _; rfl
  | cons t ts ih =>
    rintro ⟨hf, ho, hc⟩
    simp only [List.flatMap_cons]
    cases t with
    | scope => rw [slash_pass (by simp [Tok.g5, Tok.g3, Tok.g2, Tok.g1]), ih hc]; rfl
    | word w =>
      have h1 : '<' ∉ w := WordOk.no ho |>.2.1
      rw [slash_pass (by simpa [Tok.g5, Tok.g3, Tok.g2, Tok.g1, Tok.cxx] using h1), ih hc]; rfl
    | opn =>
      obtain ⟨w, r, rfl, hw, _, _⟩ := hc.word_next (by simp)
      obtain ⟨x, r', rfl, _, _, _, _, h, _, _⟩ := hw.cons
      have hi := ih hc
      rw [show Tok.g5 .opn = ['<'] from rfl, List.cons_append, List.nil_append]
      rw [show (Tok.word (x :: r') :: r).flatMap Tok.g5 = x :: (r' ++ r.flatMap Tok.g5) by
        simp [Tok.g5, Tok.g3, Tok.g2, Tok.g1, Tok.cxx]] at hi ⊢
      rw [slash, if_pos rfl]
      rw [hi]
      simp [h, Tok.g6]
    | sep => rw [slash_pass (by simp [Tok.g5]), ih hc]; rfl
    | cls sp => rw [slash_pass (by simp [Tok.g5, Tok.g3]), ih hc]; rfl
    | arr sp d =>
      have h1 : '<' ∉ d := DimOk.no ho |>.2.1
      rw [slash_pass (by simp [Tok.g5, Tok.g3, Tok.g2, h1]), ih hc]; rfl

/-- the slash a separator leaves in front of the next word -/
def pend : Tok → Str
  | .scope => ['/']
  | .opn => ['/']
  | .sep => ['/']
  | _ => []

theorem numStart_eq (c : Char) : "0123456789-".toList.contains c = numStart c := by
  rw [Bool.eq_iff_iff]
  simp only [numStart, List.contains_eq_mem, decide_eq_true_eq, Bool.or_eq_true, Bool.and_eq_true, beq_iff_eq]
  have hc : ∀ d : Char, c = d ↔ c.toNat = d.toNat := fun d => ⟨fun h => by rw [h], fun h => Char.toNat_inj.mp h⟩
  have hl : ∀ a b : Char, a ≤ b ↔ a.toNat ≤ b.toNat := fun a b => by
    rw [Char.le_def]; exact UInt32.le_iff_toNat_le
  rw [show "0123456789-".toList = ['0', '1', '2', '3', '4', '5', '6', '7', '8', '9', '-'] by rfl]
  simp only [List.mem_cons, List.not_mem_nil, or_false, hl, hc]
  simp only [show ('0' : Char).toNat = 48 from rfl, show ('1' : Char).toNat = 49 from rfl, show ('2' : Char).toNat = 50 from rfl,
    show ('3' : Char).toNat = 51 from rfl, show ('4' : Char).toNat = 52 from rfl, show ('5' : Char).toNat = 53 from rfl,
    show ('6' : Char).toNat = 54 from rfl, show ('7' : Char).toNat = 55 from rfl, show ('8' : Char).toNat = 56 from rfl,
    show ('9' : Char).toNat = 57 from rfl, show ('-' : Char).toNat = 45 from rfl]
  omega

theorem num_word {w : Str} (h : WordOk w) (b : Str) :
    num ('/' :: (w ++ b)) = (if numeric w then w else '/' :: w) ++ num b := by
  obtain ⟨x, r, rfl, _⟩ := h.cons
  have hn : '/' ∉ x :: r := h.no.2.2.2.2.1
  have hr : '/' ∉ r := fun hm => hn (by simp [hm])
  rw [List.cons_append, num, if_pos rfl]
  by_cases e : numStart x = true
  · simp only [e, if_true, numeric, List.head?_cons, Option.any_some, numStart_eq, num_pass hr]; rfl
  · have hp := num_pass hn b
    simp only [e, if_false, numeric, List.head?_cons, Option.any_some, numStart_eq, Bool.false_eq_true]
    rw [List.cons_append] at hp
    rw [hp]; rfl

theorem pass7 : ∀ {p : Tok} {ts : List Tok}, Chain p ts →
    num (pend p ++ ts.flatMap Tok.g6) = ts.flatMap Tok.typelib := by
  intro p ts
  induction ts generalizing p with
  | nil => intro h; cases p <;> simp [Chain, Tok.final] at h <;> rfl
  | cons t ts ih =>
    rintro ⟨hf, ho, hc⟩
    have hi := ih hc
    simp only [List.flatMap_cons]
    have hp : (∀ w, t ≠ .word w) → pend p = [] := by
      intro ht
      cases p <;> cases t <;> simp [follows] at hf ht <;> rfl
    cases t with
    | word w =>
      have hpp : pend p = ['/'] := by cases p <;> simp [follows] at hf <;> rfl
      rw [hpp, show Tok.g6 (.word w) = w from rfl]
      rw [show (['/'] ++ (w ++ ts.flatMap Tok.g6)) = '/' :: (w ++ ts.flatMap Tok.g6) from rfl, num_word ho]
      rw [show pend (.word w) = [] from rfl, List.nil_append] at hi
      rw [hi]; rfl
    | scope => rw [hp (by simp)]; exact hi
    | opn =>
      rw [hp (by simp), show Tok.g6 .opn = ['<'] ++ pend .opn from rfl, List.nil_append, List.append_assoc,
        num_pass (by simp), hi]
      rfl
    | sep =>
      rw [hp (by simp), show Tok.g6 .sep = [','] ++ pend .sep from rfl, List.nil_append, List.append_assoc,
        num_pass (by simp), hi]
      rfl
    | cls sp =>
      rw [show pend (.cls sp) = [] from rfl, List.nil_append] at hi
      rw [hp (by simp), List.nil_append, num_pass (by simp [Tok.g6, Tok.g5, Tok.g3]), hi]; rfl
    | arr sp d =>
      have h1 : '/' ∉ d := DimOk.no ho |>.2.2.2.2.1
      rw [show pend (.arr sp d) = [] from rfl, List.nil_append] at hi
      rw [hp (by simp), List.nil_append, num_pass (by simp [Tok.g6, Tok.g5, Tok.g3, Tok.g2, h1]), hi]; rfl

theorem strip3_word {w : Str} {ts : List Tok} (h : Chain (.word w) ts) : strip3 ts = ts.flatMap Tok.g2 := by
  cases ts with
  | nil => rfl
  | cons t ts =>
    cases t with
    | cls sp =>
      cases sp with
      | false => rfl
      | true => simp [Chain, follows] at h
    | _ => rfl

/-- before the leading slash is added -/
theorem passes {w : Str} {ts : List Tok} (h : IsName w ts) :
    plainName (cxx w ts) = (if w.length + (ts.flatMap Tok.typelib).length > 1 then .ok (typelib w ts)
      else .ok (w ++ ts.flatMap Tok.typelib)) := by
  obtain ⟨hw, hn, hc⟩ := h
  obtain ⟨x, r, hx, _, _, _, _, hxs, _, _⟩ := hw.cons
  have hne : cxx w ts ≠ [] := by simp [cxx, hx]
  obtain ⟨n1, n2, n3, n4, n5, n6⟩ := hw.no
  unfold plainName
  rw [if_neg hne]
  simp only [replaceAll_eq (List.cons_ne_nil _ _)]
  rw [cxx, rep_pass n1, pass1 hc, rep_pair n6 hw.2.2.2, pass2 hc, rep_pass n3, ← strip3_word hc, pass3 hc,
    rep_pass n2, pass4 hc, rep_pass n4, pass5 hc, slashLoop_all, slash_pass n2, pass6 hc]
  simp only [Res.bind_ok, numLoop_all]
  have h7 := pass7 hc
  rw [show pend (.word w) = [] from rfl, List.nil_append] at h7
  rw [num_pass n5, h7]
  subst hx
  simp only [List.cons_append, List.length_cons, List.length_append, typelib, ne_eq, hxs, not_false_eq_true,
    decide_true, Bool.true_and, decide_eq_true_eq]
  have : r.length + (ts.flatMap Tok.typelib).length + 1 = r.length + 1 + (ts.flatMap Tok.typelib).length := by omega
  rw [this]

theorem typelib_pos {p t : Tok} {ts : List Tok} (h : Chain p (t :: ts)) : 0 < ((t :: ts).flatMap Tok.typelib).length := by
  obtain ⟨hf, ho, hc⟩ := h
  cases t with
  | word w =>
    obtain ⟨x, r, rfl, _⟩ := WordOk.cons ho
    simp only [List.flatMap_cons, Tok.typelib, List.length_append]
    split <;> simp <;> omega
  | scope =>
    obtain ⟨w, r, rfl, hw, _, _⟩ := hc.word_next (by simp)
    obtain ⟨x, r', rfl, _⟩ := hw.cons
    simp only [List.flatMap_cons, Tok.typelib, List.length_append]
    split <;> simp <;> omega
  | opn => simp [List.flatMap_cons, Tok.typelib, Tok.compact, Tok.cxx]
  | sep => simp [List.flatMap_cons, Tok.typelib, Tok.compact]
  | cls sp => simp [List.flatMap_cons, Tok.typelib, Tok.compact]
  | arr sp d => simp [List.flatMap_cons, Tok.typelib, Tok.compact]

/-! ### `typelibToCxxName` -/

/-- text of the words after `typelibToCxxName` replaced the slashes, and dropped those after `<` (`x`) and `,` (`y`) -/
def wp (x y : Bool) (p : Tok) (w : Str) : Str :=
  if numeric w then w else
    match p with
    | .opn => if x then w else ':' :: ':' :: w
    | .sep => if y then w else ':' :: ':' :: w
    | _ => ':' :: ':' :: w

def flatW (x y : Bool) : Tok → List Tok → Str
  | _, [] => []
  | p, .word w :: r => wp x y p w ++ flatW x y (.word w) r
  | _, .scope :: r => flatW x y .scope r
  | _, t :: r => t.compact ++ flatW x y t r

theorem rep_char (c : Char) (to b : Str) : rep [c] to 0 (c :: b) = to ++ rep [c] to 0 b := by
  simp [rep, List.isPrefixOf]

theorem back1 : ∀ {p : Tok} {ts : List Tok}, Chain p ts →
    rep ['/'] [':', ':'] 0 (ts.flatMap Tok.typelib) = flatW false false p ts := by
  intro p ts
  induction ts generalizing p with
  | nil => intro _; rfl
  | cons t ts ih =>
    rintro ⟨hf, ho, hc⟩
    simp only [List.flatMap_cons]
    cases t with
    | word w =>
      have h1 : '/' ∉ w := WordOk.no ho |>.2.2.2.2.1
      simp only [Tok.typelib, flatW]
      by_cases hn : numeric w = true
      · rw [if_pos hn, rep_pass h1, ih hc]
        simp [wp, hn]
      · rw [if_neg hn, List.cons_append, rep_char, rep_pass h1, ih hc]
        have : wp false false p w = ':' :: ':' :: w := by
          unfold wp; rw [if_neg hn]; cases p <;> rfl
        rw [this]; rfl
    | scope => simp only [Tok.typelib, flatW, List.nil_append]; exact ih hc
    | opn => rw [rep_pass (by simp [Tok.typelib, Tok.compact, Tok.cxx]), ih hc]; rfl
    | sep => rw [rep_pass (by simp [Tok.typelib, Tok.compact]), ih hc]; rfl
    | cls sp => rw [rep_pass (by simp [Tok.typelib, Tok.compact]), ih hc]; rfl
    | arr sp d =>
      have h1 : '/' ∉ d := DimOk.no ho |>.2.2.2.2.1
      rw [rep_pass (by simp [Tok.typelib, Tok.compact, h1]), ih hc]; rfl

/-- a match of three characters -/
theorem rep_hit3 (c : Char) (b : Str) : rep [c, ':', ':'] [c] 0 (c :: ':' :: ':' :: b) = c :: rep [c, ':', ':'] [c] 0 b := by
  simp [rep, List.isPrefixOf]

theorem rep_miss3 {c : Char} {b : Str} (h : b.head? ≠ some ':') :
    rep [c, ':', ':'] [c] 0 (c :: b) = c :: rep [c, ':', ':'] [c] 0 b := by
  cases b with
  | nil => simp [rep, List.isPrefixOf]
  | cons x b =>
    have : (':' == x) = false := beq_eq_false_iff_ne.mpr (fun e => h (by simp [← e]))
    rw [rep]
    simp [List.isPrefixOf, this]

theorem wp_no (x y : Bool) (p : Tok) {w : Str} (h : WordOk w) : '<' ∉ wp x y p w ∧ ',' ∉ wp x y p w := by
  obtain ⟨n1, n2, n3, n4, n5, n6⟩ := h.no
  unfold wp
  split
  · exact ⟨n2, n4⟩
  · cases p <;> cases x <;> cases y <;> simp [n2, n4]

theorem back2 : ∀ {p : Tok} {ts : List Tok}, Chain p ts → 
    (p ≠ .opn → rep ['<', ':', ':'] ['<'] 0 (flatW false false p ts) = flatW true false p ts) ∧
    (p = .opn → rep ['<', ':', ':'] ['<'] 0 ('<' :: flatW false false p ts) = '<' :: flatW true false p ts) := by
  intro p ts
  induction ts generalizing p with
  | nil => intro h; exact ⟨fun _ => rfl, by rintro rfl; simp [Chain, Tok.final] at h⟩
  | cons t ts ih =>
    rintro ⟨hf, ho, hc⟩
    obtain ⟨ih1, ih2⟩ := ih hc
    refine ⟨fun hp => ?_, ?_⟩
    · cases t with
      | word w =>
        simp only [flatW]
        have hwp : wp true false p w = wp false false p w := by
          unfold wp; cases p <;> simp at hp ⊢
        rw [rep_pass (wp_no _ _ _ ho).1, ih1 (by simp), hwp]
      | scope => simp only [flatW]; exact ih1 (by simp)
      | opn => exact ih2 rfl
      | sep => simp only [flatW]; rw [rep_pass (by simp [Tok.compact]), ih1 (by simp)]
      | cls sp => simp only [flatW]; rw [rep_pass (by simp [Tok.compact]), ih1 (by simp)]
      | arr sp d =>
        have h1 : '<' ∉ d := DimOk.no ho |>.2.1
        simp only [flatW]; rw [rep_pass (by simp [Tok.compact, h1]), ih1 (by simp)]
    · rintro rfl
      cases t with
      | word w =>
        obtain ⟨n1, n2, n3, n4, n5, n6⟩ := WordOk.no ho
        simp only [flatW, wp]
        by_cases hn : numeric w = true
        · simp only [hn, if_true]
          obtain ⟨x, r, rfl, hx, _⟩ := WordOk.cons ho
          rw [rep_miss3 (by simpa using hx), rep_pass n2, ih1 (by simp)]
        · simp only [hn, if_false, Bool.false_eq_true, if_true, List.cons_append]
          rw [rep_hit3, rep_pass n2, ih1 (by simp)]
      | scope => simp [follows] at hf
      | opn => simp [follows] at hf
      | sep => simp [follows] at hf
      | cls sp => simp [follows] at hf
      | arr sp d => simp [follows] at hf

theorem back3 : ∀ {p : Tok} {ts : List Tok}, Chain p ts → 
    (p ≠ .sep → rep [',', ':', ':'] [','] 0 (flatW true false p ts) = flatW true true p ts) ∧
    (p = .sep → rep [',', ':', ':'] [','] 0 (',' :: flatW true false p ts) = ',' :: flatW true true p ts) := by
  intro p ts
  induction ts generalizing p with
  | nil => intro h; exact ⟨fun _ => rfl, by rintro rfl; simp [Chain, Tok.final] at h⟩
  | cons t ts ih =>
    rintro ⟨hf, ho, hc⟩
    obtain ⟨ih1, ih2⟩ := ih hc
    refine ⟨fun hp => ?_, ?_⟩
    · cases t with
      | word w =>
        simp only [flatW]
        have hwp : wp true true p w = wp true false p w := by
          unfold wp; cases p <;> simp at hp ⊢
        rw [rep_pass (wp_no _ _ _ ho).2, ih1 (by simp), hwp]
      | scope => simp only [flatW]; exact ih1 (by simp)
      | sep => exact ih2 rfl
      | opn => simp only [flatW]; rw [rep_pass (by simp [Tok.compact, Tok.cxx]), ih1 (by simp)]
      | cls sp => simp only [flatW]; rw [rep_pass (by simp [Tok.compact]), ih1 (by simp)]
      | arr sp d =>
        have h1 : ',' ∉ d := DimOk.no ho |>.2.2.2.1
        simp only [flatW]; rw [rep_pass (by simp [Tok.compact, h1]), ih1 (by simp)]
    · rintro rfl
      cases t with
      | word w =>
        obtain ⟨n1, n2, n3, n4, n5, n6⟩ := WordOk.no ho
        simp only [flatW, wp]
        by_cases hn : numeric w = true
        · simp only [hn, if_true]
          obtain ⟨x, r, rfl, hx, _⟩ := WordOk.cons ho
          rw [rep_miss3 (by simpa using hx), rep_pass n4, ih1 (by simp)]
        · simp only [hn, if_false, Bool.false_eq_true, if_true, List.cons_append]
          rw [rep_hit3, rep_pass n4, ih1 (by simp)]
      | scope => simp [follows] at hf
      | opn => simp [follows] at hf
      | sep => simp [follows] at hf
      | cls sp => simp [follows] at hf
      | arr sp d => simp [follows] at hf

theorem back4 : ∀ {p : Tok} {ts : List Tok}, Chain p ts →
    flatW true true p ts = if p = .scope then "::".toList ++ ts.flatMap Tok.compact else ts.flatMap Tok.compact := by
  intro p ts
  induction ts generalizing p with
  | nil => intro h; cases p <;> simp [Chain, Tok.final, flatW] at h ⊢
  | cons t ts ih =>
    rintro ⟨hf, ho, hc⟩
    have hi := ih hc
    have hp : (∀ w, t ≠ .word w) → p ≠ .scope := by
      intro ht e
      subst e
      cases t <;> simp [follows] at hf ht
    cases t with
    | word w =>
      simp only [reduceCtorEq, if_false] at hi
      simp only [flatW, hi, List.flatMap_cons]
      cases p with
      | scope =>
        have hn : numeric w = false := by simpa [follows] using hf
        simp [wp, hn, Tok.compact, Tok.cxx]
      | opn => simp [wp, Tok.compact, Tok.cxx]
      | sep => simp [wp, Tok.compact, Tok.cxx]
      | word _ => simp [follows] at hf
      | cls _ => simp [follows] at hf
      | arr _ _ => simp [follows] at hf
    | scope =>
      rw [if_neg (hp (by simp))]
      simp only [if_true] at hi
      simp only [flatW, hi, List.flatMap_cons]
      rfl
    | opn => rw [if_neg (hp (by simp))]; simp only [reduceCtorEq, if_false] at hi; simp [flatW, hi]
    | sep => rw [if_neg (hp (by simp))]; simp only [reduceCtorEq, if_false] at hi; simp [flatW, hi]
    | cls _ => rw [if_neg (hp (by simp))]; simp only [reduceCtorEq, if_false] at hi; simp [flatW, hi]
    | arr _ _ => rw [if_neg (hp (by simp))]; simp only [reduceCtorEq, if_false] at hi; simp [flatW, hi]

/-! ### Theorems -/

/-- Every C++ name becomes the typelib name of the same components: all namespaces absolute, also in template
arguments, numbers and dimensions as they are. (Single letters: see `C45_one_letter`; the table of renamed types: see
`C45_renamed`.) -/
theorem C45_to_typelib {w : Str} {ts : List Tok} (h : IsName w ts) (hl : ts ≠ [] ∨ 1 < w.length) :
    plainName (cxx w ts) = .ok (typelib w ts) := by
  rw [passes h]
  have : w.length + (ts.flatMap Tok.typelib).length > 1 := by
    have hw : 0 < w.length := List.length_pos_iff.mpr h.1.2.1
    cases ts with
    | nil => rcases hl with hl | hl
             · exact absurd rfl hl
             · simpa using hl
    | cons t ts => have := typelib_pos h.2.2; omega
  rw [if_pos this]

/-- The typelib name becomes the C++ name again, without the optional spaces. -/
theorem C45_to_cxx {w : Str} {ts : List Tok} (h : IsName w ts) :
    typelibToCxxName (typelib w ts) = compact w ts := by
  obtain ⟨hw, hn, hc⟩ := h
  obtain ⟨n1, n2, n3, n4, n5, n6⟩ := hw.no
  obtain ⟨x, r, hx, _⟩ := hw.cons
  unfold typelibToCxxName typelib
  simp only [replaceAll_eq (List.cons_ne_nil _ _)]
  rw [List.cons_append, rep_char, rep_pass n5, back1 hc]
  rw [rep_pass (a := [':', ':']) (by simp), rep_pass n2, (back2 hc).1 (by simp)]
  rw [rep_pass (a := [':', ':']) (by simp), rep_pass n4, (back3 hc).1 (by simp), back4 hc]
  subst hx
  simp [compact]

/-- A C++ name written without optional spaces survives the conversion to typelib and back. -/
theorem C45_round_trip_partial {w : Str} {ts : List Tok} (h : IsName w ts) (hl : ts ≠ [] ∨ 1 < w.length)
    (hs : cxx w ts = compact w ts) : (plainName (cxx w ts)).bind (fun t => .ok (typelibToCxxName t)) = .ok (cxx w ts) := by
  rw [C45_to_typelib h hl]
  show Res.ok (typelibToCxxName (typelib w ts)) = _
  rw [C45_to_cxx h, hs]

/-- the element without its optional space -/
def Tok.tight : Tok → Tok
  | .cls _ => .cls false
  | .arr _ d => .arr false d
  | t => t

theorem chain_tight : ∀ {p : Tok} {ts : List Tok}, Chain p ts → Chain p.tight (ts.map Tok.tight) := by
  intro p ts
  induction ts generalizing p with
  | nil => intro h; cases p <;> exact h
  | cons t ts ih =>
    rintro ⟨hf, ho, hc⟩
    refine ⟨?_, ?_, ih hc⟩
    · cases p <;> cases t <;> simp_all [follows, Tok.tight]
    · cases t <;> exact ho

theorem tight_texts {ts : List Tok} (h : Tok.sep ∉ ts) :
    (ts.map Tok.tight).flatMap Tok.cxx = ts.flatMap Tok.compact ∧
    (ts.map Tok.tight).flatMap Tok.typelib = ts.flatMap Tok.typelib := by
  induction ts with
  | nil => exact ⟨rfl, rfl⟩
  | cons t ts ih =>
    simp only [List.mem_cons, not_or] at h
    obtain ⟨h1, h2⟩ := ih h.2
    simp only [List.map_cons, List.flatMap_cons, h1, h2]
    cases t <;> simp at h <;> exact ⟨rfl, rfl⟩

/-- The name of a type that is no template with several arguments survives the conversion to C++ and back. -/
theorem C45_reverse_partial {w : Str} {ts : List Tok} (h : IsName w ts) (hl : ts ≠ [] ∨ 1 < w.length)
    (hs : Tok.sep ∉ ts) : plainName (typelibToCxxName (typelib w ts)) = .ok (typelib w ts) := by
  obtain ⟨h1, h2⟩ := tight_texts hs
  rw [C45_to_cxx h]
  have hn : IsName w (ts.map Tok.tight) := ⟨h.1, h.2.1, chain_tight h.2.2⟩
  have := C45_to_typelib hn (by
    rcases hl with hl | hl
    · left; simpa using hl
    · exact .inr hl)
  rw [cxx, typelib, h1, h2] at this
  exact this

/-- Two C++ names with the same typelib name are the same up to optional spaces. -/
theorem C45_injective {w w' : Str} {ts ts' : List Tok} (h : IsName w ts) (h' : IsName w' ts')
    (hl : ts ≠ [] ∨ 1 < w.length) (hl' : ts' ≠ [] ∨ 1 < w'.length)
    (he : plainName (cxx w ts) = plainName (cxx w' ts')) : compact w ts = compact w' ts' := by
  rw [C45_to_typelib h hl, C45_to_typelib h' hl'] at he
  rw [← C45_to_cxx h, ← C45_to_cxx h', Res.ok.inj he]

/-- A type in the global namespace whose name has one letter is not made absolute. -/
theorem C45_one_letter {c : Char} (h : IsName [c] []) : plainName [c] = .ok [c] := by
  have := passes h
  simpa [cxx] using this

theorem isTypeRenamed_true (t : List (Str × Str)) (s : Str) :
    t.foldl (fun (r : Bool × Str) e =>
      if r.1 then r else ((find e.1 r.2).isSome, replaceAll e.1 e.2 r.2)) (true, s) = (true, s) := by
  induction t with
  | nil => rfl
  | cons e t ih => simpa using ih

/-- The first entry of the table of renamed types that occurs in the name, and no other one, is replaced, at all its
occurrences. -/
theorem C45_renamed {t : List (Str × Str)} (ht : ∀ e ∈ t, e.1 ≠ []) (s : Str) :
    isTypeRenamed t s = match t.find? (fun e => (find e.1 s).isSome) with
      | none => (false, s)
      | some e => (true, replaceAll e.1 e.2 s) := by
  unfold isTypeRenamed
  induction t with
  | nil => rfl
  | cons e t ih =>
    have hne : e.1 ≠ [] := ht e (by simp)
    simp only [List.foldl_cons, Bool.false_eq_true, if_false, List.find?_cons]
    cases hf : find e.1 s with
    | none =>
      have : replaceAll e.1 e.2 s = s := by rw [replaceAll_eq hne, rep_find hne, hf]
      simp only [Option.isSome_none, this]
      exact ih (fun e' he' => ht e' (by simp [he']))
    | some i => exact isTypeRenamed_true t _

/-- and a name in which none occurs is kept -/
theorem C45_not_renamed {s t : Str} (h : plainName s = .ok t) (hn : ∀ e ∈ renames, find e.1 t = none) :
    cxxToTypelibName s = .ok t := by
  unfold cxxToTypelibName
  rw [h, Res.bind_ok, C45_renamed (by decide)]
  have : renames.find? (fun e => (find e.1 t).isSome) = none := by
    rw [List.find?_eq_none]
    intro e he
    rw [hn e he]; simp
  rw [this]

/-! ### Concrete names -/

/-- `std::map<unsigned int, foo::array<double [2], 3> >` -/
def exToks : List Tok := [.scope, .word "map".toList, .opn, .word "unsigned int".toList, .sep, .word "foo".toList, .scope,
  .word "array".toList, .opn, .word "double".toList, .arr true "2".toList, .sep,
  .word "3".toList, .cls false, .cls true]

theorem exName : IsName "std".toList exToks := by
  unfold IsName exToks
  refine ⟨?_, by decide, ?_⟩
  · unfold WordOk; decide
  · simp only [Chain, Tok.Ok]
    unfold WordOk DimOk
    simp [follows, numeric, Tok.final]

example : String.ofList (cxx "std".toList exToks) = "std::map<unsigned int, foo::array<double [2], 3> >" := by decide
example : plainName "std::map<unsigned int, foo::array<double [2], 3> >".toList
    = .ok "/std/map</unsigned int,/foo/array</double[2],3>>".toList := C45_to_typelib exName (by simp [exToks])

/-- Names with several template arguments do not survive: the space after the comma is lost, and without it the second
argument is not made absolute when the name is converted again. -/
theorem C45_comma_counterexample :
    plainName "A<B, C>".toList = .ok "/A</B,/C>".toList ∧
    typelibToCxxName "/A</B,/C>".toList = "A<B,C>".toList ∧
    plainName "A<B,C>".toList = .ok "/A</B,C>".toList := by decide +kernel

/-- Only one of the entries of the renaming table applies: with libstdc++ `std::string` keeps its template name. -/
theorem C45_rename_counterexample :
    cxxToTypelibName "std::basic_string<char>".toList = .ok "/std/string</char>".toList ∧
    cxxToTypelibName "std::__cxx11::basic_string<char>".toList = .ok "/std/basic_string</char>".toList := by decide +kernel

/-- A name ending with `<` throws. -/
theorem C45_less_counterexample : plainName "operator<".toList = .exn .outOfRange := by decide +kernel

/-! ### The theorems on concrete cases -/

example := C45_to_cxx exName

/-- `std::vector<double>` -/
theorem exName2 : IsName "std".toList [.scope, .word "vector".toList, .opn, .word "double".toList, .cls false] := by
  unfold IsName
  refine ⟨?_, by decide, ?_⟩
  · unfold WordOk; decide
  · simp only [Chain, Tok.Ok]
    unfold WordOk
    simp [follows, numeric, Tok.final]

example := C45_round_trip_partial exName2 (by simp) (by decide)

example := C45_reverse_partial exName2 (by simp) (by simp)

example := C45_injective exName2 exName2 (by simp) (by simp) rfl

example := C45_one_letter (c := 'T') (by unfold IsName WordOk; simp only [Chain]; decide)

example := C45_renamed (t := renames) (by decide) "/foo/A".toList

example := C45_not_renamed (s := "std::vector<double>".toList) (C45_to_typelib exName2 (by simp)) (by decide +kernel)

end Verif.CxxNames
