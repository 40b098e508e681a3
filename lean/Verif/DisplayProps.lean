import Verif.Display
import Verif.TypeBuilderProps

/-! C80: what is displayed tells everything that is to be told. -/

namespace Verif.Display
open Verif Verif.Graph Verif.Registry

mutual
/-- the text of what is told -/
def text (ind : Str) : Shown → Str
  | .null => ['n', 'u', 'l', 'l', '\n']
  | .opaque n => ['o', 'p', 'a', 'q', 'u', 'e', ' '] ++ n ++ ['\n']
  | .num c k n => catName c ++ ['('] ++ natStr k ++ [')', ' ', '('] ++ n ++ [')']
  | .enum n s => ['e', 'n', 'u', 'm', ' '] ++ n ++ s.flatMap symTxt
  | .ptr n => ['p', 'o', 'i', 'n', 't', 'e', 'r', ' ', 'o', 'n', ' '] ++ n ++ ['\n']
  | .arr k d => ['a', 'r', 'r', 'a', 'y', '['] ++ natStr k ++ [']', ' ', 'o', 'f', '\n'] ++ (ind ++ [' ', ' ']) ++
      text (ind ++ [' ', ' ']) d
  | .cont k n => ['c', 'o', 'n', 't', 'a', 'i', 'n', 'e', 'r', ' '] ++ k ++ ['<'] ++ n ++ ['>']
  | .comp n k ds => ['c', 'o', 'm', 'p', 'o', 'u', 'n', 'd', ' '] ++ n ++ [' ', '['] ++ natStr k ++ [']', ' ', '{', '\n'] ++
      textF (ind ++ [' ', ' ']) ds ++ ind ++ ['}', ';']
def textF (ind : Str) : ShownFields → Str
  | .nil => []
  | .cons o d n r => ind ++ ['(', '+'] ++ natStr o ++ [')', ' '] ++ text ind d ++ [' '] ++ n ++ ['\n'] ++ textF ind r
end

/-! ### the visitor writes the text of what is to be told -/

theorem fields_text {H : Heap} {f : Nat}
    (ih : ∀ ind t s, disp H f ind t = .ok s → ∃ d, Shows H t d ∧ s = text ind d) (ind : Str) (fs : List FieldD) :
    ∀ s, fieldsTxt (disp H f) ind fs = .ok s → ∃ ds, ShowsAll H fs ds ∧ s = textF ind ds := by
  induction fs with
  | nil => intro s h; cases h; exact ⟨.nil, .nil, rfl⟩
  | cons g fs ihf =>
    intro s h
    simp only [fieldsTxt] at h
    cases h1 : disp H f ind g.ty with
    | ok a =>
      rw [h1] at h
      simp only at h
      cases h2 : fieldsTxt (disp H f) ind fs with
      | ok r =>
        rw [h2] at h
        simp only at h
        obtain ⟨d, e1, e2⟩ := ih ind g.ty a h1
        obtain ⟨ds, e3, e4⟩ := ihf r h2
        refine ⟨.cons g.offset d g.name ds, .cons e1 e3, ?_⟩
        injection h with h
        rw [← h, e2, e4]
        rfl
      | exn e => rw [h2] at h; cases h
      | ub => rw [h2] at h; cases h
      | fuel => rw [h2] at h; cases h
    | exn e => rw [h1] at h; cases h
    | ub => rw [h1] at h; cases h
    | fuel => rw [h1] at h; cases h

theorem disp_text {H : Heap} : ∀ (f : Nat) (ind : Str) (t : TId) (s : Str), disp H f ind t = .ok s →
    ∃ d, Shows H t d ∧ s = text ind d := by
  intro f
  induction f with
  | zero => intro ind t s h; cases h
  | succ f ih =>
    intro ind t s h
    simp only [disp] at h
    cases hk : H.kind t with
    | null => rw [hk] at h; injection h with h; exact ⟨_, .null hk, h.symm⟩
    | «opaque» => rw [hk] at h; injection h with h; exact ⟨_, .opaque hk, h.symm⟩
    | num c => rw [hk] at h; injection h with h; exact ⟨_, .num hk, h.symm⟩
    | «enum» l => rw [hk] at h; injection h with h; exact ⟨_, .enum hk, h.symm⟩
    | ptr e => rw [hk] at h; injection h with h; exact ⟨_, .ptr hk, h.symm⟩
    | vec e => rw [hk] at h; injection h with h; exact ⟨_, .vec hk, h.symm⟩
    | str e => rw [hk] at h; injection h with h; exact ⟨_, .str hk, h.symm⟩
    | arr d e =>
      rw [hk] at h
      simp only at h
      cases h1 : disp H f (ind ++ [' ', ' ']) e with
      | ok a =>
        rw [h1] at h
        obtain ⟨x, e1, e2⟩ := ih _ _ _ h1
        injection h with h
        refine ⟨_, .arr hk e1, ?_⟩
        rw [← h, e2]; rfl
      | exn e => rw [h1] at h; cases h
      | ub => rw [h1] at h; cases h
      | fuel => rw [h1] at h; cases h
    | comp fs =>
      rw [hk] at h
      simp only at h
      cases h1 : fieldsTxt (disp H f) (ind ++ [' ', ' ']) fs with
      | ok a =>
        rw [h1] at h
        obtain ⟨x, e1, e2⟩ := fields_text ih _ _ _ h1
        injection h with h
        refine ⟨_, .comp hk e1, ?_⟩
        rw [← h, e2]; rfl
      | exn e => rw [h1] at h; cases h
      | ub => rw [h1] at h; cases h
      | fuel => rw [h1] at h; cases h

/-! ### reading a text -/

/-- two words that satisfy `P`, followed by something that does not -/
theorem cut {P : Char → Prop} {a b r r' : Str} (ha : ∀ c ∈ a, P c) (hb : ∀ c ∈ b, P c)
    (hr : ∀ c x, r = c :: x → ¬ P c) (hr' : ∀ c x, r' = c :: x → ¬ P c) (h : a ++ r = b ++ r') : a = b ∧ r = r' := by
  induction a generalizing b with
  | nil =>
    cases b with
    | nil => exact ⟨rfl, h⟩
    | cons c b => exact absurd (hb c List.mem_cons_self) (hr c (b ++ r') h)
  | cons c a ih =>
    cases b with
    | nil => exact absurd (ha c List.mem_cons_self) (hr' c (a ++ r) h.symm)
    | cons c' b =>
      have h0 : c = c' ∧ a ++ r = b ++ r' := by
        simpa using h
      obtain ⟨h1, h2⟩ := ih (fun x hx => ha x (List.mem_cons_of_mem _ hx)) (fun x hx => hb x (List.mem_cons_of_mem _ hx)) h0.2
      exact ⟨by rw [h0.1, h1], h2⟩

/-- what may follow the text of a type -/
def Rest (r : Str) : Prop := r = [] ∨ (∃ x, r = ' ' :: x) ∨ ∃ x, r = '\n' :: x ∧ ∀ y, x ≠ ' ' :: y

theorem rest_word {r : Str} (h : Rest r) : ∀ c x, r = c :: x → ¬ (c ≠ ' ' ∧ c ≠ '\n') := by
  rintro c x rfl ⟨h1, h2⟩
  rcases h with h | ⟨y, h⟩ | ⟨y, h, _⟩
  · cases h
  · injection h with h _; exact h1 h
  · injection h with h _; exact h2 h

theorem natStr_word (n : Nat) : ∀ c ∈ natStr n, c.isDigit = true := natStr_digits n

theorem num_cut {a b : Nat} {c : Char} {r r' : Str} (hc : c.isDigit = false) (h : natStr a ++ c :: r = natStr b ++ c :: r') :
    a = b ∧ r = r' := by
  obtain ⟨h1, h2⟩ := cut (P := fun c => c.isDigit = true) (natStr_digits a) (natStr_digits b)
    (fun d x e => by injection e with e _; rw [← e, hc]; simp)
    (fun d x e => by injection e with e _; rw [← e, hc]; simp) h
  exact ⟨TypeBuilder.natStr_inj h1, (List.cons.inj h2).2⟩

theorem intStr_chars (i : Int) : ∀ c ∈ Tlb.intStr i, c.isDigit = true ∨ c = '-' := by
  intro c hc
  rw [Tlb.intStr_eq] at hc
  split at hc
  · rcases List.mem_cons.mp hc with h | h
    · exact Or.inr h
    · exact Or.inl (natStr_digits _ _ h)
  · exact Or.inl (natStr_digits _ _ hc)

theorem intStr_inj {a b : Int} (h : Tlb.intStr a = Tlb.intStr b) : a = b := by
  rw [Tlb.intStr_eq, Tlb.intStr_eq] at h
  have hd : ∀ n x, natStr n ≠ '-' :: x := by
    intro n x e
    have := natStr_digits n '-' (by rw [e]; exact List.mem_cons_self)
    revert this; decide
  split at h <;> split at h
  · have := TypeBuilder.natStr_inj (List.cons.inj h).2
    omega
  · exact absurd h.symm (hd _ _)
  · exact absurd h (hd _ _)
  · have := TypeBuilder.natStr_inj h
    omega

theorem int_cut {a b : Int} {r r' : Str} (hr : ∀ c x, r = c :: x → c = ' ' ∨ c = '\n')
    (hr' : ∀ c x, r' = c :: x → c = ' ' ∨ c = '\n') (h : Tlb.intStr a ++ r = Tlb.intStr b ++ r') : a = b ∧ r = r' := by
  have hn : ∀ c, c = ' ' ∨ c = '\n' → ¬ (c.isDigit = true ∨ c = '-') := by
    rintro c (rfl | rfl) <;> decide
  obtain ⟨h1, h2⟩ := cut (P := fun c => c.isDigit = true ∨ c = '-') (intStr_chars a) (intStr_chars b)
    (fun c x e => hn c (hr c x e)) (fun c x e => hn c (hr' c x e)) h
  exact ⟨intStr_inj h1, h2⟩

theorem rest_blank {r : Str} (h : Rest r) : ∀ c x, r = c :: x → c = ' ' ∨ c = '\n' := by
  rintro c x rfl
  rcases h with h | ⟨y, h⟩ | ⟨y, h, _⟩
  · cases h
  · injection h with h _; exact Or.inl h
  · injection h with h _; exact Or.inr h

theorem syms_blank {s : List (Str × Int)} {r : Str} (h : Rest r) : ∀ c x, s.flatMap symTxt ++ r = c :: x → c = ' ' ∨ c = '\n' := by
  intro c x e
  cases s with
  | nil => exact rest_blank h c x e
  | cons p s =>
    have : '\n' = c := by
      simp only [List.flatMap_cons, symTxt, List.cons_append, List.append_assoc] at e
      injection e
    exact Or.inr this.symm

theorem syms_cut {s : List (Str × Int)} (hs : ∀ p ∈ s, Word p.1) : ∀ {s' : List (Str × Int)}, (∀ p ∈ s', Word p.1) →
    ∀ {r r' : Str}, Rest r → Rest r' → s.flatMap symTxt ++ r = s'.flatMap symTxt ++ r' → s = s' ∧ r = r' := by
  have hno : ∀ (p : Str × Int) (l : List (Str × Int)) (r r' : Str), Rest r → r ≠ (p :: l).flatMap symTxt ++ r' := by
    intro p l r r' hr e
    simp only [List.flatMap_cons, symTxt, List.cons_append, List.nil_append, List.append_assoc] at e
    rcases hr with h | ⟨x, h⟩ | ⟨x, h, h'⟩
    · rw [h] at e; cases e
    · rw [h] at e; injection e with e _; revert e; decide
    · rw [h] at e
      injection e with _ e
      exact h' _ e
  induction s with
  | nil =>
    intro s' _ r r' hr _ e
    cases s' with
    | nil => exact ⟨rfl, e⟩
    | cons p s' => exact absurd e (hno p s' r r' hr)
  | cons p s ih =>
    intro s' hs' r r' hr hr' e
    cases s' with
    | nil => exact absurd e.symm (hno p s r' r hr')
    | cons p' s' =>
      have e' : p.1 ++ (' ' :: '-' :: '>' :: ' ' :: (Tlb.intStr p.2 ++ (s.flatMap symTxt ++ r))) =
          p'.1 ++ (' ' :: '-' :: '>' :: ' ' :: (Tlb.intStr p'.2 ++ (s'.flatMap symTxt ++ r'))) := by
        simp only [List.flatMap_cons, symTxt, List.append_assoc] at e
        have := List.append_cancel_left e
        simpa using this
      obtain ⟨e1, e2⟩ := cut (P := fun c => c ≠ ' ' ∧ c ≠ '\n') (hs p List.mem_cons_self) (hs' p' List.mem_cons_self)
        (fun c x h => by injection h with h _; rw [← h]; simp)
        (fun c x h => by injection h with h _; rw [← h]; simp) e'
      have e3 : Tlb.intStr p.2 ++ (s.flatMap symTxt ++ r) = Tlb.intStr p'.2 ++ (s'.flatMap symTxt ++ r') := by
        simpa using e2
      obtain ⟨e4, e5⟩ := int_cut (syms_blank hr) (syms_blank hr') e3
      obtain ⟨e6, e7⟩ := ih (fun q hq => hs q (List.mem_cons_of_mem _ hq)) (fun q hq => hs' q (List.mem_cons_of_mem _ hq)) hr hr' e5
      exact ⟨by rw [e6, Prod.ext e1 e4], e7⟩

mutual
/-- the names in what is told have no blanks -/
def Good : Shown → Prop
  | .null => True
  | .opaque n => Word n
  | .num _ _ n => Word n
  | .enum n s => Word n ∧ ∀ p ∈ s, Word p.1
  | .ptr n => Word n
  | .arr _ d => Good d
  | .cont k n => Word k ∧ '<' ∉ k ∧ Word n
  | .comp n _ ds => Word n ∧ GoodF ds
def GoodF : ShownFields → Prop
  | .nil => True
  | .cons _ d n r => Good d ∧ Line n ∧ GoodF r
end

def code : Shown → Nat
  | .null => 0
  | .opaque _ => 1
  | .num .sint _ _ => 2
  | .num .uint _ _ => 3
  | .num .float _ _ => 4
  | .enum _ _ => 5
  | .ptr _ => 6
  | .arr _ _ => 7
  | .cont _ _ => 8
  | .comp _ _ _ => 9

/-- the class of a type, read from the beginning of its text -/
def tag : Str → Nat
  | 'n' :: _ => 0
  | 'o' :: _ => 1
  | 's' :: _ => 2
  | 'u' :: _ => 3
  | 'f' :: _ => 4
  | 'e' :: _ => 5
  | 'p' :: _ => 6
  | 'a' :: _ => 7
  | _ :: _ :: _ :: 't' :: _ => 8
  | _ :: _ :: _ :: 'p' :: _ => 9
  | _ => 10

theorem tag_text (ind : Str) (d : Shown) (r : Str) : tag (text ind d ++ r) = code d := by
  cases d with
  | num c k n => cases c <;> rfl
  | _ => rfl

theorem word_rest {r : Str} (h : Rest r) {w w' r' : Str} (h' : Rest r') (hw : Word w) (hw' : Word w')
    (e : w ++ r = w' ++ r') : w = w' ∧ r = r' := cut hw hw' (rest_word h) (rest_word h') e

theorem word_append {a b : Str} (ha : Word a) (hb : Word b) : Word (a ++ b) := by
  intro c hc
  rcases List.mem_append.mp hc with h | h
  · exact ha c h
  · exact hb c h

mutual
theorem text_cut (ind : Str) : ∀ (d d' : Shown), Good d → Good d' → ∀ r r', Rest r → Rest r' →
    text ind d ++ r = text ind d' ++ r' → d = d' ∧ r = r'
  | d, d', hd, hd', r, r', hr, hr', e => by
    have hcode : code d = code d' := by rw [← tag_text ind d r, ← tag_text ind d' r', e]
    cases d with
    | null =>
      cases d' <;> first | (simp only [text] at e; exact ⟨rfl, List.append_cancel_left e⟩) | (exfalso; revert hcode; simp [code]; done) | skip
      rename_i c _ _; cases c <;> cases hcode
    | «opaque» n =>
      cases d' with
      | «opaque» n' =>
        simp only [text, List.append_assoc] at e
        have e := List.append_cancel_left e
        obtain ⟨e1, e2⟩ := cut (P := fun c => c ≠ ' ' ∧ c ≠ '\n') hd hd'
          (fun c x h => by injection h with h _; rw [← h]; simp)
          (fun c x h => by injection h with h _; rw [← h]; simp) e
        exact ⟨by rw [e1], List.append_cancel_left e2⟩
      | num c _ _ => cases c <;> cases hcode
      | _ => cases hcode
    | ptr n =>
      cases d' with
      | ptr n' =>
        simp only [text, List.append_assoc] at e
        have e := List.append_cancel_left e
        obtain ⟨e1, e2⟩ := cut (P := fun c => c ≠ ' ' ∧ c ≠ '\n') hd hd'
          (fun c x h => by injection h with h _; rw [← h]; simp)
          (fun c x h => by injection h with h _; rw [← h]; simp) e
        exact ⟨by rw [e1], List.append_cancel_left e2⟩
      | num c _ _ => cases c <;> cases hcode
      | _ => cases hcode
    | num c k n =>
      cases d' with
      | num c' k' n' =>
        have hc : c = c' := by cases c <;> cases c' <;> first | rfl | cases hcode
        subst hc
        simp only [text, List.append_assoc] at e
        have e := List.append_cancel_left (List.append_cancel_left e)
        obtain ⟨e1, e2⟩ := num_cut (by decide) e
        have e3 : (n ++ [')']) ++ r = (n' ++ [')']) ++ r' := by simpa using e2
        have hp : Word [')'] := by intro c hc; rw [List.mem_singleton.mp hc]; decide
        obtain ⟨e4, e5⟩ := word_rest hr hr' (word_append hd hp) (word_append hd' hp) e3
        exact ⟨by rw [e1, List.append_cancel_right e4], e5⟩
      | _ => cases c <;> cases hcode
    | «enum» n s =>
      cases d' with
      | «enum» n' s' =>
        simp only [text, List.append_assoc] at e
        have e := List.append_cancel_left e
        obtain ⟨e1, e2⟩ := cut (P := fun c => c ≠ ' ' ∧ c ≠ '\n') hd.1 hd'.1
          (fun c x h => by rcases syms_blank hr c x h with rfl | rfl <;> simp)
          (fun c x h => by rcases syms_blank hr' c x h with rfl | rfl <;> simp) e
        obtain ⟨e3, e4⟩ := syms_cut hd.2 hd'.2 hr hr' e2
        exact ⟨by rw [e1, e3], e4⟩
      | num c _ _ => cases c <;> cases hcode
      | _ => cases hcode
    | cont k n =>
      cases d' with
      | cont k' n' =>
        simp only [text, List.append_assoc] at e
        have e := List.append_cancel_left e
        have e1 : (k ++ ['<'] ++ n ++ ['>']) ++ r = (k' ++ ['<'] ++ n' ++ ['>']) ++ r' := by simpa using e
        have hp : Word ['>'] := by intro c hc; rw [List.mem_singleton.mp hc]; decide
        have hl : Word ['<'] := by intro c hc; rw [List.mem_singleton.mp hc]; decide
        obtain ⟨e2, e3⟩ := word_rest hr hr' (word_append (word_append (word_append hd.1 hl) hd.2.2) hp)
          (word_append (word_append (word_append hd'.1 hl) hd'.2.2) hp) e1
        have e4 := List.append_cancel_right e2
        rw [List.append_assoc, List.append_assoc] at e4
        obtain ⟨e5, e6⟩ := cut (P := fun c => c ≠ '<') (fun c hc h => hd.2.1 (h ▸ hc)) (fun c hc h => hd'.2.1 (h ▸ hc))
          (fun c x h => by injection h with h _; rw [← h]; simp)
          (fun c x h => by injection h with h _; rw [← h]; simp) e4
        exact ⟨by rw [e5, List.append_cancel_left e6], e3⟩
      | num c _ _ => cases c <;> cases hcode
      | _ => cases hcode
    | arr k x =>
      cases d' with
      | arr k' x' =>
        simp only [text, List.append_assoc] at e
        have e := List.append_cancel_left e
        obtain ⟨e1, e2⟩ := num_cut (by decide) e
        have e3 : text (ind ++ [' ', ' ']) x ++ r = text (ind ++ [' ', ' ']) x' ++ r' := by simpa using e2
        obtain ⟨e4, e5⟩ := text_cut (ind ++ [' ', ' ']) x x' hd hd' r r' hr hr' e3
        exact ⟨by rw [e1, e4], e5⟩
      | num c _ _ => cases c <;> cases hcode
      | _ => cases hcode
    | comp n k ds =>
      cases d' with
      | comp n' k' ds' =>
        simp only [text, List.append_assoc] at e
        have e := List.append_cancel_left e
        obtain ⟨e1, e2⟩ := cut (P := fun c => c ≠ ' ' ∧ c ≠ '\n') hd.1 hd'.1
          (fun c x h => by injection h with h _; rw [← h]; simp)
          (fun c x h => by injection h with h _; rw [← h]; simp) e
        have e2 := List.append_cancel_left e2
        obtain ⟨e3, e4⟩ := num_cut (by decide) e2
        have e5 : textF (ind ++ [' ', ' ']) ds ++ (ind ++ '}' :: ';' :: r) =
            textF (ind ++ [' ', ' ']) ds' ++ (ind ++ '}' :: ';' :: r') := by simpa using e4
        obtain ⟨e6, e7⟩ := textF_cut ind ds ds' hd.2 hd'.2 r r' e5
        exact ⟨by rw [e1, e3, e6], e7⟩
      | num c _ _ => cases c <;> cases hcode
      | _ => cases hcode
theorem textF_cut (ind : Str) : ∀ (ds ds' : ShownFields), GoodF ds → GoodF ds' → ∀ r r',
    textF (ind ++ [' ', ' ']) ds ++ (ind ++ '}' :: ';' :: r) = textF (ind ++ [' ', ' ']) ds' ++ (ind ++ '}' :: ';' :: r') →
    ds = ds' ∧ r = r'
  | .nil, .nil, _, _, r, r', e => by
    simp only [textF, List.nil_append] at e
    have := List.append_cancel_left e
    exact ⟨rfl, by simpa using this⟩
  | .nil, .cons o d n ds, _, _, r, r', e => by
    simp only [textF, List.nil_append, List.append_assoc] at e
    have := List.append_cancel_left e
    exfalso
    simp at this
  | .cons o d n ds, .nil, _, _, r, r', e => by
    simp only [textF, List.nil_append, List.append_assoc] at e
    have := List.append_cancel_left e
    exfalso
    simp at this
  | .cons o d n ds, .cons o' d' n' ds', hd, hd', r, r', e => by
    simp only [textF] at e
    have e1 : natStr o ++ (')' :: (' ' :: (text (ind ++ [' ', ' ']) d ++
        (' ' :: (n ++ ('\n' :: (textF (ind ++ [' ', ' ']) ds ++ (ind ++ '}' :: ';' :: r)))))))) =
        natStr o' ++ (')' :: (' ' :: (text (ind ++ [' ', ' ']) d' ++
        (' ' :: (n' ++ ('\n' :: (textF (ind ++ [' ', ' ']) ds' ++ (ind ++ '}' :: ';' :: r')))))))) := by
      simpa [List.append_assoc] using e
    obtain ⟨e2, e3⟩ := num_cut (by decide) e1
    have e4 := (List.cons.inj e3).2
    obtain ⟨e5, e6⟩ := text_cut (ind ++ [' ', ' ']) d d' hd.1 hd'.1 _ _ (Or.inr (Or.inl ⟨_, rfl⟩)) (Or.inr (Or.inl ⟨_, rfl⟩)) e4
    have e7 := (List.cons.inj e6).2
    obtain ⟨e8, e9⟩ := cut (P := fun c => c ≠ '\n') hd.2.1 hd'.2.1
      (fun c x h => by injection h with h _; rw [← h]; simp)
      (fun c x h => by injection h with h _; rw [← h]; simp) e7
    have e10 := (List.cons.inj e9).2
    obtain ⟨e11, e12⟩ := textF_cut ind ds ds' hd.2.2 hd'.2.2 r r' e10
    exact ⟨by rw [e2, e5, e8, e11], e12⟩
end

end Verif.Display
