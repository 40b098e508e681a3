import Verif.Docs

/-!
Proofs about the documentation of C++ declarations (C76).
-/

namespace Verif.Docs
open Verif

theorem blank_iff {l : Str} : isBlank l = true ↔ Blank l := by simp [isBlank, Blank, List.all_eq_true]

theorem isSp_strip {c : Char} (h : isSp c = true) : isStrip c = true := by simp [isStrip, h]

theorem dropWhile_app {α : Type} {p : α → Bool} {a : List α} (ha : ∀ x ∈ a, p x = true) (b : List α) :
    (a ++ b).dropWhile p = b.dropWhile p := by
  induction a with
  | nil => rfl
  | cons x a ih =>
    rw [List.cons_append, List.dropWhile_cons_of_pos (ha x (by simp))]
    exact ih fun y hy => ha y (List.mem_cons_of_mem _ hy)

theorem dropWhile_head {α : Type} {p : α → Bool} {b : List α} (h : ∀ c, b.head? = some c → p c = false) :
    b.dropWhile p = b := by
  cases b with
  | nil => rfl
  | cons c b => rw [List.dropWhile_cons_of_neg (by simp [h c rfl])]

/-- removing from both ends -/
theorem both {α : Type} {p : α → Bool} {a m e : List α} (ha : ∀ x ∈ a, p x = true) (he : ∀ x ∈ e, p x = true)
    (h1 : ∀ c, m.head? = some c → p c = false) (h2 : ∀ c, m.getLast? = some c → p c = false) :
    (((a ++ (m ++ e)).dropWhile p).reverse.dropWhile p).reverse = m := by
  rw [dropWhile_app ha]
  by_cases hm : m = []
  · subst hm
    simp only [List.nil_append]
    have : e.dropWhile p = [] := by
      have := dropWhile_app he []
      simpa using this
    rw [this]
    rfl
  · have hh : (m ++ e).dropWhile p = m ++ e := by
      apply dropWhile_head
      cases m with
      | nil => exact absurd rfl hm
      | cons c m => intro d hd; exact h1 d (by simpa using hd)
    rw [hh, List.reverse_append, dropWhile_app (fun x hx => he x (List.mem_reverse.mp hx)), dropWhile_head, List.reverse_reverse]
    intro c hc
    exact h2 c (by rw [List.head?_reverse] at hc; exact hc)

theorem strip_core {a m e : Str} (ha : ∀ x ∈ a, isStrip x = true) (he : ∀ x ∈ e, isStrip x = true)
    (h1 : ∀ c, m.head? = some c → isStrip c = false) (h2 : ∀ c, m.getLast? = some c → isStrip c = false) :
    strip (a ++ (m ++ e)) = m := both ha he h1 h2

theorem trim_core {a m e : List Str} (ha : ∀ x ∈ a, isEmptyS x = true) (he : ∀ x ∈ e, isEmptyS x = true)
    (h1 : ∀ c, m.head? = some c → isEmptyS c = false) (h2 : ∀ c, m.getLast? = some c → isEmptyS c = false) :
    trim (a ++ (m ++ e)) = m := both ha he h1 h2

/-! ### Lines -/

theorem code_bool {l : Str} (h : Code l) : isBlank l = false ∧ isComment l = false := by
  obtain ⟨ind, c, r, hi, rfl, hc, hs, hsl⟩ := h
  constructor
  · cases hb : isBlank (ind ++ c :: r) with
    | false => rfl
    | true =>
      have := blank_iff.mp hb c (by simp)
      rw [hc] at this; cases this
  · unfold isComment
    rw [dropWhile_app hi, List.dropWhile_cons_of_neg (by simp [hc])]
    by_cases h1 : c = '/'
    · subst h1
      cases r with
      | nil => rfl
      | cons d r =>
        have := hsl rfl r
        by_cases h2 : d = '/'
        · subst h2; exact absurd rfl this.1
        · by_cases h3 : d = '*'
          · subst h3; exact absurd rfl this.2
          · simp_all
    · simp_all

/-- the first characters of a mark -/
theorem mark_start {m : Str} (h : Mark m) : (∃ r, m = '*' :: r) ∨ (∃ r, m = '/' :: '/' :: r) ∨ ∃ r, m = '/' :: '*' :: r := by
  cases h with
  | line n => exact .inr (.inl ⟨List.replicate n '/', by simp [List.replicate_succ]⟩)
  | opening n => exact .inr (.inr ⟨List.replicate n '*', by simp [List.replicate_succ]⟩)
  | middle n => exact .inl ⟨List.replicate n '*', by simp [List.replicate_succ]⟩
  | closing n => exact .inl ⟨List.replicate n '*' ++ ['/'], by simp [List.replicate_succ]⟩

theorem mark_last {m : Str} (h : Mark m) : ∃ r c, m = r ++ [c] ∧ (c = '*' ∨ c = '/') := by
  cases h with
  | line n => exact ⟨List.replicate (n + 1) '/', '/', by rw [List.replicate_succ'], .inr rfl⟩
  | opening n => exact ⟨'/' :: List.replicate n '*', '*', by rw [List.replicate_succ']; rfl, .inl rfl⟩
  | middle n => exact ⟨List.replicate n '*', '*', by rw [List.replicate_succ'], .inl rfl⟩
  | closing n => exact ⟨_, '/', rfl, .inr rfl⟩

theorem marked_bool {ind m r : Str} (hi : Blank ind) (hm : Mark m) :
    isBlank (ind ++ (m ++ r)) = false ∧ isComment (ind ++ (m ++ r)) = true := by
  have key : ∀ c s, m = c :: s → isSp c = false → isBlank (ind ++ (m ++ r)) = false := by
    intro c s e hc
    cases hb : isBlank (ind ++ (m ++ r)) with
    | false => rfl
    | true =>
      have := blank_iff.mp hb c (by simp [e])
      rw [hc] at this; cases this
  unfold isComment
  rw [dropWhile_app hi]
  rcases mark_start hm with ⟨s, rfl⟩ | ⟨s, rfl⟩ | ⟨s, rfl⟩
  · exact ⟨key _ _ rfl rfl, by rw [List.cons_append, List.dropWhile_cons_of_neg (by decide)]; rfl⟩
  · exact ⟨key _ _ rfl rfl, by rw [List.cons_append, List.dropWhile_cons_of_neg (by decide)]; rfl⟩
  · exact ⟨key _ _ rfl rfl, by rw [List.cons_append, List.dropWhile_cons_of_neg (by decide)]; rfl⟩

theorem dropStars (n : Nat) (c : Char) (x : Str) (h : x.head? ≠ some c) :
    (List.replicate n c ++ x).dropWhile (· == c) = x := by
  rw [dropWhile_app (by simp +contextual [List.mem_replicate])]
  apply dropWhile_head
  intro d hd
  simp only [beq_eq_false_iff_ne]
  rintro rfl
  exact h hd

theorem unmark_mark {m x : Str} (hm : Mark m) (h1 : x.head? ≠ some '*') (h2 : x.head? ≠ some '/') : unmark (m ++ x) = x := by
  cases hm with
  | line n =>
    rw [show List.replicate (n + 2) '/' ++ x = '/' :: (List.replicate (n + 1) '/' ++ x) by simp [List.replicate_succ]]
    simp only [unmark]
    rw [dropStars _ _ _ h2]
    exact dropStars 0 _ _ h1
  | opening n =>
    rw [show ('/' :: List.replicate (n + 1) '*') ++ x = '/' :: (List.replicate (n + 1) '*' ++ x) by simp]
    simp only [unmark]
    have : (List.replicate (n + 1) '*' ++ x).dropWhile (· == '/') = List.replicate (n + 1) '*' ++ x := by
      rw [List.replicate_succ, List.cons_append, List.dropWhile_cons_of_neg (by decide)]
    rw [this, dropStars _ _ _ h1]
  | middle n =>
    rw [show List.replicate (n + 1) '*' ++ x = '*' :: (List.replicate n '*' ++ x) by simp [List.replicate_succ]]
    simp only [unmark]
    rw [dropStars _ _ _ h1]
    cases x with
    | nil => rfl
    | cons c x =>
      by_cases hc : c = '/'
      · subst hc; exact absurd rfl h2
      · split
        · rename_i e; injection e with e _; exact absurd e hc
        · rfl
  | closing n =>
    rw [show (List.replicate (n + 1) '*' ++ ['/']) ++ x = '*' :: (List.replicate n '*' ++ ('/' :: x)) by simp [List.replicate_succ]]
    simp only [unmark]
    rw [dropStars _ _ _ (by simp)]
    rfl

/-- what the first pass makes of a line -/
def padded (p : Str × Str) : Str := if p.2 = [] then [] else p.1 ++ p.2

def PadOk (k : Nat) (p : Str × Str) : Prop := Blank p.1 ∧ p.1.length = k ∧ Text p.2

theorem strip_mark {ind m x e : Str} (hi : Blank ind) (he : Blank e) (hm : Mark m)
    (hx : ∀ c, x.getLast? = some c → isStrip c = false) : strip (ind ++ (m ++ x ++ e)) = m ++ x := by
  apply strip_core (fun c hc => isSp_strip (hi c hc)) (fun c hc => isSp_strip (he c hc))
  · intro c hc
    rcases mark_start hm with ⟨s, rfl⟩ | ⟨s, rfl⟩ | ⟨s, rfl⟩ <;> (simp at hc; subst hc; rfl)
  · intro c hc
    by_cases h : x = []
    · subst h
      obtain ⟨r, d, rfl, hd⟩ := mark_last hm
      simp at hc
      subst hc
      rcases hd with rfl | rfl <;> rfl
    · refine hx c ?_
      rw [List.getLast?_append] at hc
      cases hx' : x.getLast? with
      | none => exact absurd (List.getLast?_eq_none_iff.mp hx') h
      | some d => rw [hx'] at hc; simpa using hc

theorem text_last {t : Str} (ht : Text t) : ∀ c, t.getLast? = some c → isStrip c = false := by
  intro c hc
  rcases ht with rfl | ⟨r, d, rfl, hd⟩
  · simp at hc
  · simp at hc; subst hc; exact hd

theorem clean_shows {k : Nat} {t l : Str} (h : Shows k t l) :
    ∃ p, p.2 = t ∧ PadOk k p ∧ unmark (strip l) = padded p ∧ isBlank l = false ∧ isComment l = true := by
  cases h with
  | @empty ind m e hi hm he =>
    refine ⟨(List.replicate k ' ', []), rfl, ⟨?_, by simp, .inl rfl⟩, ?_, ?_⟩
    · intro c hc
      rw [(List.mem_replicate.mp hc).2]; rfl
    · have := strip_mark (x := []) hi he hm (by simp)
      rw [List.append_nil] at this
      rw [List.append_assoc, this]
      have := unmark_mark (x := []) hm (by simp) (by simp)
      rw [List.append_nil] at this
      rw [this]; rfl
    · rw [List.append_assoc]; exact marked_bool hi hm
  | @text ind m pad t e hi hm hp hl hne ht h0 he =>
    refine ⟨(pad, t), rfl, ⟨hp, hl, ht⟩, ?_, ?_⟩
    · have e1 : ind ++ m ++ pad ++ t ++ e = ind ++ (m ++ (pad ++ t) ++ e) := by simp
      have hlast : ∀ c, (pad ++ t).getLast? = some c → isStrip c = false := by
        intro c hc
        apply text_last ht
        rw [List.getLast?_append] at hc
        cases hx' : t.getLast? with
        | none => exact absurd (List.getLast?_eq_none_iff.mp hx') hne
        | some d => rw [hx'] at hc; simpa using hc
      rw [e1, strip_mark hi he hm hlast, unmark_mark hm]
      · simp [padded, hne]
      · intro hh
        cases pad with
        | nil =>
          cases t with
          | nil => exact hne rfl
          | cons c t => simp at hh; subst hh; exact (h0 (by simpa using hl.symm) t).1 rfl
        | cons c pad =>
          simp at hh; subst hh
          have := hp '*' (by simp)
          exact absurd this (by decide)
      · intro hh
        cases pad with
        | nil =>
          cases t with
          | nil => exact hne rfl
          | cons c t => simp at hh; subst hh; exact (h0 (by simpa using hl.symm) t).2 rfl
        | cons c pad =>
          simp at hh; subst hh
          have := hp '/' (by simp)
          exact absurd this (by decide)
    · rw [List.append_assoc, List.append_assoc, List.append_assoc]; exact marked_bool hi hm

theorem clean_all {k : Nat} {ts ls : List Str} (h : ShowsAll k ts ls) :
    ∃ ps : List (Str × Str), ps.map Prod.snd = ts ∧ (∀ p ∈ ps, PadOk k p) ∧
      ls.map (fun l => unmark (strip l)) = ps.map padded ∧ ∀ l ∈ ls, isBlank l = false ∧ isComment l = true := by
  induction h with
  | nil => exact ⟨[], rfl, nofun, rfl, nofun⟩
  | cons h _ ih =>
    obtain ⟨p, h1, h2, h3, h4⟩ := clean_shows h
    obtain ⟨ps, g1, g2, g3, g4⟩ := ih
    refine ⟨p :: ps, by simp [h1, g1], ?_, by simp [h3, g3], ?_⟩
    · intro q hq
      rcases List.mem_cons.mp hq with rfl | hq
      · exact h2
      · exact g2 q hq
    · intro q hq
      rcases List.mem_cons.mp hq with rfl | hq
      · exact h4
      · exact g4 q hq

/-! ### The end of the comment -/

theorem rmEnd_eq : ∀ (r : Str) (n : Nat), NoEnd (List.replicate n '*' ++ r) → rmEnd n r = List.replicate n '*' ++ r := by
  intro r
  induction r with
  | nil => intro n _; simp [rmEnd]
  | cons c r ih =>
    intro n h
    unfold rmEnd
    by_cases h1 : c = '*'
    · subst h1
      rw [if_pos rfl]
      have e : List.replicate n '*' ++ '*' :: r = List.replicate (n + 1) '*' ++ r := by
        rw [List.replicate_succ']; simp
      rw [e] at h ⊢
      exact ih (n + 1) h
    · rw [if_neg h1]
      by_cases h2 : c = '/' ∧ 0 < n
      · obtain ⟨rfl, hn⟩ := h2
        exfalso
        obtain ⟨n, rfl⟩ : ∃ k, n = k + 1 := ⟨n - 1, by omega⟩
        exact h (List.replicate n '*') r (by rw [List.replicate_succ']; simp)
      · rw [if_neg h2]
        have := ih 0 (by
          intro a b e
          exact h (List.replicate n '*' ++ c :: a) b (by simp at e; simp [e]))
        simp at this
        rw [this]

/-! ### Formatting -/

theorem margin_pad {k : Nat} {p : Str × Str} (h : PadOk k p) : margin (p.1 ++ p.2) = k + margin p.2 := by
  unfold margin
  rw [← h.2.1]
  have := h.1
  generalize p.1 = a at this
  induction a with
  | nil => simp
  | cons c a ih =>
    have hc := this c (by simp)
    simp only [List.cons_append, List.takeWhile_cons, hc, if_true, List.length_cons]
    rw [ih fun x hx => this x (List.mem_cons_of_mem _ hx)]
    omega

theorem margin_lt {t : Str} (hne : t ≠ []) (ht : Text t) : margin t ≠ t.length := by
  rcases ht with h | ⟨r, c, rfl, hc⟩
  · exact absurd h hne
  · intro h
    unfold margin at h
    have h2 : (r ++ [c]).takeWhile isSp = r ++ [c] := by
      have hp := List.takeWhile_prefix isSp (l := r ++ [c])
      exact hp.eq_of_length h
    have h3 : ∀ x ∈ r ++ [c], isSp x = true := by
      intro x hx
      rw [← h2] at hx
      exact List.all_eq_true.mp List.all_takeWhile x hx
    have := h3 c (by simp)
    rw [isStrip, this] at hc
    simp at hc

theorem padded_empty {k : Nat} {p : Str × Str} (h : PadOk k p) : isEmptyS (padded p) = true ↔ p.2 = [] := by
  unfold padded
  by_cases he : p.2 = []
  · simp [he, isEmptyS]
  · rw [if_neg he]
    simp only [he, iff_false]
    intro hc
    rcases h.2.2 with h2 | ⟨r, c, h2, hc2⟩
    · exact he h2
    · have := List.all_eq_true.mp hc c (by rw [h2]; simp)
      rw [hc2] at this; cases this

theorem padded_drop {k : Nat} {p : Str × Str} (h : PadOk k p) : (padded p).drop k = p.2 := by
  unfold padded
  by_cases he : p.2 = []
  · simp [he]
  · rw [if_neg he, ← h.2.1]; simp

theorem mem_margins {k : Nat} {ps : List (Str × Str)} (h : ∀ p ∈ ps, PadOk k p) (n : Nat) :
    n ∈ margins (ps.map padded) ↔ ∃ p ∈ ps, p.2 ≠ [] ∧ n = k + margin p.2 := by
  unfold margins
  simp only [List.mem_filterMap, List.mem_map]
  constructor
  · rintro ⟨_, ⟨p, hp, rfl⟩, hn⟩
    have hok := h p hp
    by_cases he : p.2 = []
    · simp [padded, he, margin] at hn
    · refine ⟨p, hp, he, ?_⟩
      have hm := margin_lt he hok.2.2
      simp only [padded, if_neg he, margin_pad hok] at hn
      rw [if_pos (by rw [List.length_append, hok.2.1]; omega)] at hn
      injection hn with hn
      exact hn.symm
  · rintro ⟨p, hp, he, rfl⟩
    have hok := h p hp
    have hm := margin_lt he hok.2.2
    refine ⟨padded p, ⟨p, hp, rfl⟩, ?_⟩
    simp only [padded, if_neg he, margin_pad hok]
    rw [if_pos (by rw [List.length_append, hok.2.1]; omega)]

theorem format_ok {k a b : Nat} {ts comment : List Str} (hs : ShowsAll k (List.replicate a [] ++ ts ++ List.replicate b []) comment)
    (hd : Doc ts) : format comment.reverse = .ok (some (joinNl ts)) := by
  obtain ⟨ps, h1, h2, h3, _⟩ := clean_all hs
  rw [List.append_assoc] at h1
  obtain ⟨pa, pr, rfl, ha, hr⟩ := List.map_eq_append_iff.mp h1
  obtain ⟨pt, pb, rfl, ht, hb⟩ := List.map_eq_append_iff.mp hr
  have hpa : ∀ p ∈ pa, p.2 = [] := by
    intro p hp
    have : p.2 ∈ List.replicate a ([] : Str) := by rw [← ha]; exact List.mem_map_of_mem hp
    exact (List.mem_replicate.mp this).2
  have hpb : ∀ p ∈ pb, p.2 = [] := by
    intro p hp
    have : p.2 ∈ List.replicate b ([] : Str) := by rw [← hb]; exact List.mem_map_of_mem hp
    exact (List.mem_replicate.mp this).2
  have h2a : ∀ p ∈ pa, PadOk k p := fun p hp => h2 p (by simp [hp])
  have h2t : ∀ p ∈ pt, PadOk k p := fun p hp => h2 p (by simp [hp])
  have h2b : ∀ p ∈ pb, PadOk k p := fun p hp => h2 p (by simp [hp])
  have hne : pt ≠ [] := by
    rintro rfl
    obtain ⟨t, ht', _⟩ := hd.left
    rw [← ht] at ht'; cases ht'
  -- trimming
  have htrim : trim (comment.reverse.map fun l => unmark (strip l)) = (pt.map padded).reverse := by
    rw [List.map_reverse, h3]
    rw [show (List.map padded (pa ++ (pt ++ pb))).reverse =
      (pb.map padded).reverse ++ ((pt.map padded).reverse ++ (pa.map padded).reverse) by simp]
    refine trim_core ?_ ?_ ?_ ?_
    · intro x hx
      obtain ⟨p, hp, rfl⟩ := List.mem_map.mp (List.mem_reverse.mp hx)
      exact (padded_empty (h2b p hp)).mpr (hpb p hp)
    · intro x hx
      obtain ⟨p, hp, rfl⟩ := List.mem_map.mp (List.mem_reverse.mp hx)
      exact (padded_empty (h2a p hp)).mpr (hpa p hp)
    · intro c hc
      rw [List.head?_reverse, List.getLast?_map] at hc
      obtain ⟨p, hp, rfl⟩ := Option.map_eq_some_iff.mp hc
      have hmem := List.mem_of_getLast? hp
      cases hx : isEmptyS (padded p) with
      | false => rfl
      | true =>
        refine absurd ?_ hd.last
        rw [← ht, List.getLast?_map, hp, Option.map_some, (padded_empty (h2t p hmem)).mp hx]
    · intro c hc
      rw [List.getLast?_reverse, List.head?_map] at hc
      obtain ⟨p, hp, rfl⟩ := Option.map_eq_some_iff.mp hc
      have hmem := List.mem_of_head? hp
      cases hx : isEmptyS (padded p) with
      | false => rfl
      | true =>
        refine absurd ?_ hd.first
        rw [← ht, List.head?_map, hp, Option.map_some, (padded_empty (h2t p hmem)).mp hx]
  -- the margin
  have hmin : (margins (pt.map padded).reverse).min? = some k := by
    rw [← List.map_reverse]
    have hm := mem_margins (k := k) (ps := pt.reverse) (fun p hp => h2t p (List.mem_reverse.mp hp))
    rw [List.min?_eq_some_iff]
    refine ⟨(hm k).mpr ?_, ?_⟩
    · obtain ⟨t, ht', c, r, rfl, hc⟩ := hd.left
      rw [← ht] at ht'
      obtain ⟨p, hp, hpe⟩ := List.mem_map.mp ht'
      refine ⟨p, List.mem_reverse.mpr hp, by rw [hpe]; simp, ?_⟩
      rw [hpe]
      simp [margin, hc]
    · intro n hn
      obtain ⟨p, _, _, rfl⟩ := (hm n).mp hn
      omega
  unfold format
  rw [htrim]
  cases hpr : (pt.map padded).reverse with
  | nil => simp at hpr; exact absurd hpr hne
  | cons x xs =>
    rw [hpr] at hmin
    simp only [hmin]
    have hdrop : (x :: xs).map (·.drop k) = ts.reverse := by
      rw [← hpr, ← ht, List.map_reverse, List.map_map]
      congr 1
      apply List.map_congr_left
      intro p hp
      exact padded_drop (h2t p hp)
    have hlast : ts.getLast? = some (x.drop k) := by
      rw [← List.head?_reverse, ← hdrop]; rfl
    have hrm : rmEnd 0 (x.drop k) = x.drop k := by
      have := rmEnd_eq (x.drop k) 0 (by simpa using hd.noEnd _ hlast)
      simpa using this
    rw [hrm]
    have : x.drop k :: xs.map (·.drop k) = ts.reverse := hdrop
    rw [this, List.reverse_reverse]

/-! ### Finding the comment -/

theorem rbAt_nat (l : List Str) (n : Nat) : rbAt l (n : Int) = l[n]? := by
  unfold rbAt
  rw [if_pos (by omega)]
  simp

theorem scan_window {before : List Str} {code : Str} {win rest : List Str} (hc : isBlank code = false ∧ isComment code = false)
    (hw : ∀ l ∈ win, isBlank l = true ∨ isComment l = true) :
    ∀ (k : Nat), k ≤ win.length → ∀ f, k < f → ∀ i : Int, i = (before.length + k : Nat) →
      scan (before ++ code :: (win ++ rest)) f i = .ok ((win.take k).reverse.filter (!isBlank ·)) := by
  intro k
  induction k with
  | zero =>
    intro _ f hf i hi
    obtain ⟨f, rfl⟩ : ∃ g, f = g + 1 := ⟨f - 1, by omega⟩
    unfold scan
    rw [hi, rbAt_nat]
    simp [hc.1, hc.2]
  | succ k ih =>
    intro hk f hf i hi
    obtain ⟨f, rfl⟩ : ∃ g, f = g + 1 := ⟨f - 1, by omega⟩
    have hkl : k < win.length := by omega
    have hat : (before ++ code :: (win ++ rest))[before.length + (k + 1)]? = some win[k] := by
      rw [List.getElem?_append_right (by omega)]
      rw [show before.length + (k + 1) - before.length = k + 1 by omega]
      simp [List.getElem?_append_left hkl]
    have hrec := ih (by omega) f (by omega) (i - 1) (by omega)
    have htake : win.take (k + 1) = win.take k ++ [win[k]] := by rw [List.take_succ_eq_append_getElem hkl]
    unfold scan
    rw [hi, rbAt_nat, hat]
    rw [← hi]
    simp only [hrec, htake, List.reverse_append, List.reverse_cons, List.reverse_nil, List.nil_append, List.singleton_append]
    cases hb : isBlank win[k] with
    | true => simp [hb]
    | false =>
      rcases hw win[k] (List.getElem_mem hkl) with h | h
      · rw [hb] at h; cases h
      · simp [hb, h, Res.bind]

theorem filter_none {α : Type} {p : α → Bool} {l : List α} (h : ∀ x ∈ l, p x = false) : l.filter p = [] := by
  rw [List.filter_eq_nil_iff]
  intro x hx
  simp [h x hx]

theorem filter_self' {α : Type} {p : α → Bool} {l : List α} (h : ∀ x ∈ l, p x = true) : l.filter p = l :=
  List.filter_eq_self.mpr h

/-- the whole window -/
theorem docBefore_window {before : List Str} {code : Str} {win rest : List Str} (hc : Code code)
    (hw : ∀ l ∈ win, isBlank l = true ∨ isComment l = true) {f : Nat} (hf : win.length < f) :
    docBefore f (before ++ code :: (win ++ rest)) (before.length + 1 + win.length + 1 : Nat) =
      format (win.reverse.filter (!isBlank ·)) := by
  unfold docBefore
  rw [scan_window (code_bool hc) hw win.length (Nat.le_refl _) f hf _ (by omega)]
  simp [Res.bind]

theorem opener_iff {l : Str} : isOpener l = true ↔ Opener l := by
  unfold isOpener Opener
  constructor
  · intro h
    have hsplit := List.takeWhile_append_dropWhile (p := isSp) (l := l)
    have hbl : Blank (l.takeWhile isSp) := fun x hx => List.all_eq_true.mp List.all_takeWhile x hx
    split at h
    · rename_i r e
      refine .inr ⟨l.takeWhile isSp, r, hbl, fun x hx => List.all_eq_true.mp h x hx, ?_⟩
      rw [← e]; exact hsplit.symm
    · left
      intro x hx
      rw [← hsplit] at hx
      rcases List.mem_append.mp hx with hx | hx
      · exact hbl x hx
      · exact List.all_eq_true.mp h x hx
  · rintro (h | ⟨a, b, ha, hb, rfl⟩)
    · have : l.dropWhile isSp = [] := by
        have := dropWhile_app h []
        simpa using this
      rw [this]; rfl
    · rw [dropWhile_app ha, List.dropWhile_cons_of_neg (by decide)]
      exact List.all_eq_true.mpr hb

theorem startLine_ok {front : List Str} {d : Str} {openers after : List Str} (hd : ¬ Opener d) (ho : ∀ l ∈ openers, Opener l) :
    ∀ (k : Nat), k ≤ openers.length → ∀ f, k < f → ∀ i : Int, i = (front.length + 1 + k : Nat) →
      startLine (front ++ d :: (openers ++ after)) f i = .ok (front.length + 1 : Nat) := by
  intro k
  induction k with
  | zero =>
    intro _ f hf i hi
    obtain ⟨f, rfl⟩ : ∃ g, f = g + 1 := ⟨f - 1, by omega⟩
    unfold startLine
    have e : i - 1 = (front.length : Nat) := by omega
    rw [if_pos (by omega), e, rbAt_nat]
    have hb : isOpener d = false := by
      cases h : isOpener d with
      | false => rfl
      | true => exact absurd (opener_iff.mp h) hd
    simp [hb, hi]
  | succ k ih =>
    intro hk f hf i hi
    obtain ⟨f, rfl⟩ : ∃ g, f = g + 1 := ⟨f - 1, by omega⟩
    have hkl : k < openers.length := by omega
    have hat : (front ++ d :: (openers ++ after))[front.length + (k + 1)]? = some openers[k] := by
      rw [List.getElem?_append_right (by omega)]
      rw [show front.length + (k + 1) - front.length = k + 1 by omega]
      simp [List.getElem?_append_left hkl]
    have hrec := ih (by omega) f (by omega) (i - 1) (by omega)
    unfold startLine
    have e : i - 1 = (front.length + (k + 1) : Nat) := by omega
    rw [if_pos (by omega)]
    rw [show rbAt (front ++ d :: (openers ++ after)) (i - 1) = some openers[k] by rw [e, rbAt_nat, hat]]
    simp only [opener_iff.mpr (ho _ (List.getElem_mem hkl)), if_true]
    exact hrec

/-! ### The theorems -/

/-- C76: a comment before a declaration becomes its documentation, whatever its
style, its indentation and the rest of the file, and wherever the compiler says
the declaration is. -/
theorem C76_comment_partial {lines : List Str} {reported decl : Nat} {ts : List Str}
    (h : Documented lines reported decl ts) (hd : Doc ts) {fuel : Nat} (hf : lines.length < fuel) :
    startLine lines fuel reported = .ok (decl : Int) ∧ docBefore fuel lines decl = .ok (some (joinNl ts)) := by
  obtain ⟨before, code, lead, comment, gap, d, openers, after, k, a, b, rfl, hc, hl, hs, hg, hno, hop, rfl, rfl⟩ := h.parts
  obtain ⟨_, _, _, _, hcm⟩ := clean_all hs
  have hlen : before.length + (1 + (lead.length + (comment.length + (gap.length + (1 + (openers.length + after.length)))))) < fuel := by
    simp only [List.length_append, List.length_cons] at hf; omega
  constructor
  · have := startLine_ok (front := before ++ code :: (lead ++ (comment ++ gap))) (after := after) hno hop openers.length
      (Nat.le_refl _) fuel (by omega) (before.length + 1 + lead.length + comment.length + gap.length + 1 + openers.length : Nat)
      (by simp only [List.length_append, List.length_cons]; omega)
    rw [show before ++ code :: (lead ++ (comment ++ (gap ++ d :: (openers ++ after)))) =
      (before ++ code :: (lead ++ (comment ++ gap))) ++ d :: (openers ++ after) by simp, this]
    congr 1
    simp only [List.length_append, List.length_cons]
    omega
  · have hw : ∀ l ∈ lead ++ (comment ++ gap), isBlank l = true ∨ isComment l = true := by
      intro l hx
      rcases List.mem_append.mp hx with hx | hx
      · exact .inl (blank_iff.mpr (hl l hx))
      rcases List.mem_append.mp hx with hx | hx
      · exact .inr (hcm l hx).2
      · exact .inl (blank_iff.mpr (hg l hx))
    have := docBefore_window (before := before) (win := lead ++ (comment ++ gap)) (rest := d :: (openers ++ after)) hc hw (f := fuel)
      (by simp only [List.length_append]; omega)
    rw [show before ++ code :: (lead ++ (comment ++ (gap ++ d :: (openers ++ after)))) =
      before ++ code :: ((lead ++ (comment ++ gap)) ++ d :: (openers ++ after)) by simp]
    rw [show before.length + 1 + lead.length + comment.length + gap.length + 1 =
      before.length + 1 + (lead ++ (comment ++ gap)).length + 1 by simp only [List.length_append]; omega, this]
    rw [List.reverse_append, List.reverse_append, List.filter_append, List.filter_append, filter_none (l := gap.reverse),
      filter_self' (l := comment.reverse), filter_none (l := lead.reverse), List.nil_append, List.append_nil]
    · exact format_ok hs hd
    · intro x hx
      simp [blank_iff.mpr (hl x (List.mem_reverse.mp hx))]
    · intro x hx
      simp [(hcm x (List.mem_reverse.mp hx)).1]
    · intro x hx
      simp [blank_iff.mpr (hg x (List.mem_reverse.mp hx))]

/-- C76: a declaration without a comment has no documentation, as long as there is
some code before it. -/
theorem C76_none_partial {before : List Str} {code : Str} {gap rest : List Str} (hc : Code code) (hg : ∀ l ∈ gap, Blank l)
    {fuel : Nat} (hf : gap.length < fuel) :
    docBefore fuel (before ++ code :: (gap ++ rest)) (before.length + 1 + gap.length + 1 : Nat) = .ok none := by
  rw [docBefore_window hc (fun l hl => .inl (blank_iff.mpr (hg l hl))) hf, filter_none]
  · rfl
  · intro x hx
    simp [blank_iff.mpr (hg x (List.mem_reverse.mp hx))]

theorem code_iff {l : Str} : Code l ↔ isBlank l = false ∧ isComment l = false := by
  refine ⟨code_bool, fun ⟨h1, h2⟩ => ?_⟩
  have hsplit := List.takeWhile_append_dropWhile (p := isSp) (l := l)
  have hbl : Blank (l.takeWhile isSp) := fun x hx => List.all_eq_true.mp List.all_takeWhile x hx
  cases hd : l.dropWhile isSp with
  | nil =>
    rw [hd, List.append_nil] at hsplit
    rw [hsplit] at hbl
    rw [blank_iff.mpr hbl] at h1; cases h1
  | cons c r =>
    have hc : isSp c = false := by
      have := List.head?_dropWhile_not isSp l
      rw [hd] at this
      simpa using this
    refine ⟨_, c, r, hbl, by rw [← hd]; exact hsplit.symm, hc, ?_, ?_⟩
    · rintro rfl
      rw [isComment, hd] at h2; cases h2
    · rintro rfl s
      constructor
      · rintro rfl; rw [isComment, hd] at h2; cases h2
      · rintro rfl; rw [isComment, hd] at h2; cases h2

theorem not_code {l : Str} (h : ¬ Code l) : isBlank l = true ∨ isComment l = true := by
  rw [code_iff] at h
  cases h1 : isBlank l <;> cases h2 : isComment l <;> simp_all

/-- C76: nothing that comes before the line of code in front of the comment matters,
nor anything after the declaration. -/
theorem C76_local_partial {before before' : List Str} {code code' : Str} {win rest rest' : List Str} (hc : Code code)
    (hc' : Code code') (hw : ∀ l ∈ win, ¬ Code l) {fuel : Nat} (hf : win.length < fuel) :
    docBefore fuel (before ++ code :: (win ++ rest)) (before.length + 1 + win.length + 1 : Nat) =
    docBefore fuel (before' ++ code' :: (win ++ rest')) (before'.length + 1 + win.length + 1 : Nat) := by
  rw [docBefore_window hc (fun l hl => not_code (hw l hl)) hf, docBefore_window hc' (fun l hl => not_code (hw l hl)) hf]

/-! ### It always ends -/

theorem rbAt_none {l : List Str} {i : Int} (h : i + l.length + 1 ≤ 0) : rbAt l i = none := by
  unfold rbAt
  rw [if_neg (by omega), if_neg (by omega)]

theorem scan_ends (lines : List Str) : ∀ (f : Nat) (i : Int), (i + lines.length + 1).toNat < f → ∃ b, scan lines f i = .ok b := by
  intro f
  induction f with
  | zero => intro i h; omega
  | succ f ih =>
    intro i h
    unfold scan
    by_cases h0 : i + lines.length + 1 ≤ 0
    · rw [rbAt_none h0]; exact ⟨_, rfl⟩
    · obtain ⟨b, hb⟩ := ih (i - 1) (by omega)
      cases rbAt lines i with
      | none => exact ⟨_, rfl⟩
      | some l =>
        simp only [hb]
        split
        · exact ⟨_, rfl⟩
        · split
          · exact ⟨_, rfl⟩
          · exact ⟨_, rfl⟩

theorem trim_some {b : List Str} (h : trim b ≠ []) : ∃ l ∈ trim b, isEmptyS l = false := by
  unfold trim at h ⊢
  have h1 : ((b.dropWhile isEmptyS).reverse.dropWhile isEmptyS) ≠ [] := by
    intro e; rw [e] at h; exact h rfl
  cases hd : (b.dropWhile isEmptyS).reverse.dropWhile isEmptyS with
  | nil => exact absurd hd h1
  | cons c r =>
    have := List.head?_dropWhile_not isEmptyS (b.dropWhile isEmptyS).reverse
    rw [hd] at this
    exact ⟨c, by simp, by simpa using this⟩

theorem format_ends (b : List Str) : ∃ d, format b = .ok d := by
  unfold format
  cases ht : trim (b.map fun l => unmark (strip l)) with
  | nil => exact ⟨_, rfl⟩
  | cons x xs =>
    obtain ⟨l, hl, hne⟩ := trim_some (b := b.map fun l => unmark (strip l)) (by rw [ht]; simp)
    rw [ht] at hl
    have hm : margin l ≠ l.length := by
      intro h
      have hp : l.takeWhile isSp = l := (List.takeWhile_prefix isSp (l := l)).eq_of_length h
      have : isEmptyS l = true := by
        apply List.all_eq_true.mpr
        intro c hc
        rw [← hp] at hc
        exact isSp_strip (List.all_eq_true.mp List.all_takeWhile c hc)
      rw [this] at hne; cases hne
    have : margin l ∈ margins (x :: xs) := by
      unfold margins
      rw [List.mem_filterMap]
      exact ⟨l, hl, by rw [if_pos hm]⟩
    simp only []
    cases hmin : (margins (x :: xs)).min? with
    | none => rw [List.min?_eq_none_iff] at hmin; rw [hmin] at this; cases this
    | some n => exact ⟨_, rfl⟩

theorem startLine_ends (lines : List Str) : ∀ (f : Nat) (i : Int), (i + 1).toNat < f → ∃ j, startLine lines f i = .ok j := by
  intro f
  induction f with
  | zero => intro i h; omega
  | succ f ih =>
    intro i h
    unfold startLine
    by_cases h0 : 0 ≤ i
    · rw [if_pos h0]
      obtain ⟨j, hj⟩ := ih (i - 1) (by omega)
      cases rbAt lines (i - 1) with
      | none => exact ⟨_, rfl⟩
      | some l =>
        simp only [hj]
        split <;> exact ⟨_, rfl⟩
    · rw [if_neg h0]; exact ⟨_, rfl⟩

/-- C76: for every file and every line number, both searches end without an
exception. -/
theorem C76_ends (lines : List Str) (line : Int) : ∃ n, ∀ fuel, n ≤ fuel →
    (∃ j, startLine lines fuel line = .ok j) ∧ ∃ d, docBefore fuel lines line = .ok d := by
  refine ⟨(line + lines.length + 2).toNat + 1, fun fuel hf => ⟨startLine_ends _ _ _ (by omega), ?_⟩⟩
  obtain ⟨b, hb⟩ := scan_ends lines fuel (line - 2) (by omega)
  unfold docBefore
  rw [hb]
  exact format_ends b

/-! ### Metadata -/

theorem strip_split (l : Str) : ∃ x e, l = x ++ (strip l ++ e) ∧ (∀ c ∈ x, isStrip c = true) ∧ (∀ c ∈ e, isStrip c = true) ∧
    (∀ c, (strip l).head? = some c → isStrip c = false) ∧ ∀ c, (strip l).getLast? = some c → isStrip c = false := by
  have h1 := List.takeWhile_append_dropWhile (p := isStrip) (l := l)
  have h2 := List.takeWhile_append_dropWhile (p := isStrip) (l := (l.dropWhile isStrip).reverse)
  have h3 : l.dropWhile isStrip = strip l ++ ((l.dropWhile isStrip).reverse.takeWhile isStrip).reverse := by
    have := congrArg List.reverse h2
    rw [List.reverse_reverse, List.reverse_append] at this
    exact this.symm
  refine ⟨l.takeWhile isStrip, ((l.dropWhile isStrip).reverse.takeWhile isStrip).reverse, by rw [← h3]; exact h1.symm,
    fun c hc => List.all_eq_true.mp List.all_takeWhile c hc,
    fun c hc => List.all_eq_true.mp List.all_takeWhile c (List.mem_reverse.mp hc), ?_, ?_⟩
  · intro c hc
    have h4 := List.head?_dropWhile_not isStrip l
    rw [h3] at h4
    cases hs : strip l with
    | nil => rw [hs] at hc; cases hc
    | cons d r =>
      rw [hs] at hc h4
      simp at hc h4
      rw [← hc]; exact h4
  · intro c hc
    have h4 := List.head?_dropWhile_not isStrip (l.dropWhile isStrip).reverse
    unfold strip at hc
    rw [List.getLast?_reverse] at hc
    rw [hc] at h4
    simpa using h4

theorem isSp_word {c : Char} (h : isSp c = true) : isWord c = false := by
  simp only [isSp, Bool.or_eq_true, beq_iff_eq] at h
  rcases h with ((((rfl | rfl) | rfl) | rfl) | rfl) | rfl <;> decide

theorem dropWhile_sub {l : Str} : (l.dropWhile isSp).dropWhile isStrip = l.dropWhile isStrip := by
  have h := List.takeWhile_append_dropWhile (p := isSp) (l := l)
  have h2 := dropWhile_app (p := isStrip) (a := l.takeWhile isSp)
    (fun c hc => isSp_strip (List.all_eq_true.mp List.all_takeWhile c hc)) (l.dropWhile isSp)
  rw [h] at h2
  exact h2.symm

theorem takeWhile_app {p : Char → Bool} {a b : Str} (ha : ∀ x ∈ a, p x = true) (hb : ∀ c, b.head? = some c → p c = false) :
    (a ++ b).takeWhile p = a := by
  induction a with
  | nil =>
    cases b with
    | nil => rfl
    | cons c b => simp [hb c rfl]
  | cons x a ih =>
    rw [List.cons_append, List.takeWhile_cons_of_pos (ha x (by simp)), ih fun y hy => ha y (List.mem_cons_of_mem _ hy)]

theorem metaOf_iff {l k v : Str} : metaOf l = some (k, v) ↔ IsMeta l k v := by
  constructor
  · intro h
    unfold metaOf at h
    have h1 := List.takeWhile_append_dropWhile (p := isSp) (l := l)
    split at h
    · rename_i r e
      simp only [] at h
      split at h
      · rename_i hc
        injection h with h
        injection h with hk hv
        have h2 := List.takeWhile_append_dropWhile (p := isWord) (l := r)
        have h3 := List.takeWhile_append_dropWhile (p := isSp) (l := r.dropWhile isWord)
        have hall : ∀ c ∈ (r.dropWhile isWord).takeWhile isSp, isSp c = true :=
          fun c hc => List.all_eq_true.mp List.all_takeWhile c hc
        cases hsp : (r.dropWhile isWord).takeWhile isSp with
        | nil => exact absurd hsp hc.2
        | cons c sp =>
          rw [hsp] at hall h3
          obtain ⟨x, e', s1, s2, s3, s4, s5⟩ := strip_split ((r.dropWhile isWord).dropWhile isSp)
          rw [hv] at s1 s4 s5
          refine ⟨l.takeWhile isSp, c, sp ++ x, e', fun y hy => List.all_eq_true.mp List.all_takeWhile y hy, ?_, ?_,
            hall c (by simp), ?_, s3, s4, s5, ?_⟩
          · rw [← hk]; exact hc.1
          · rw [← hk]; exact fun y hy => List.all_eq_true.mp List.all_takeWhile y hy
          · intro y hy
            rcases List.mem_append.mp hy with hy | hy
            · exact isSp_strip (hall y (List.mem_cons_of_mem _ hy))
            · exact s2 y hy
          · have e1 : l = l.takeWhile isSp ++ '@' :: 'm' :: 'e' :: 't' :: 'a' :: ' ' :: r := by rw [← e]; exact h1.symm
            have e2 : r = k ++ (c :: sp ++ (x ++ (v ++ e'))) := by rw [← s1, h3, ← hk]; exact h2.symm
            rw [e2] at e1
            refine e1.trans ?_
            simp
      · cases h
    · cases h
  · rintro ⟨a, c, sp, e, ha, hk, hkw, hc, hsp, he, h1, h2, rfl⟩
    unfold metaOf
    rw [dropWhile_app ha]
    rw [show ("@meta ".toList ++ (k ++ c :: (sp ++ (v ++ e))) : Str).dropWhile isSp =
      '@' :: 'm' :: 'e' :: 't' :: 'a' :: ' ' :: (k ++ c :: (sp ++ (v ++ e))) from rfl]
    have hcw : ∀ d, (c :: (sp ++ (v ++ e))).head? = some d → isWord d = false := by
      intro d hd
      simp at hd; subst hd
      exact isSp_word hc
    have e1 : (k ++ c :: (sp ++ (v ++ e))).takeWhile isWord = k := takeWhile_app hkw hcw
    have e2 : (k ++ c :: (sp ++ (v ++ e))).dropWhile isWord = c :: (sp ++ (v ++ e)) := by
      rw [dropWhile_app hkw]; exact dropWhile_head hcw
    have e3 : (c :: (sp ++ (v ++ e))).takeWhile isSp ≠ [] := by
      rw [List.takeWhile_cons_of_pos hc]; simp
    have e4 : strip ((c :: (sp ++ (v ++ e))).dropWhile isSp) = v := by
      unfold strip
      rw [dropWhile_sub]
      exact strip_core (a := c :: sp) (by
        intro y hy
        rcases List.mem_cons.mp hy with rfl | hy
        · exact isSp_strip hc
        · exact hsp y hy) he h1 h2
    simp only [e1, e2, e4]
    rw [if_pos ⟨hk, e3⟩]

theorem splitNl_plain {t : Str} (h : '\n' ∉ t) : splitNl t = [t] := by
  induction t with
  | nil => rfl
  | cons c t ih =>
    have hc : c ≠ '\n' := fun e => h (by simp [e])
    unfold splitNl
    rw [if_neg hc, ih (fun hm => h (List.mem_cons_of_mem _ hm))]

theorem splitNl_app {t : Str} (h : '\n' ∉ t) (r : Str) : splitNl (t ++ '\n' :: r) = t :: splitNl r := by
  induction t with
  | nil => simp [splitNl]
  | cons c t ih =>
    have hc : c ≠ '\n' := fun e => h (by simp [e])
    rw [List.cons_append, splitNl, if_neg hc, ih (fun hm => h (List.mem_cons_of_mem _ hm))]

theorem split_join {ts : List Str} (h : ∀ t ∈ ts, '\n' ∉ t) (hne : ts ≠ []) : splitNl (joinNl ts) = ts := by
  induction ts with
  | nil => exact absurd rfl hne
  | cons t ts ih =>
    cases ts with
    | nil => exact splitNl_plain (h t (by simp))
    | cons u us =>
      show splitNl (t ++ '\n' :: joinNl (u :: us)) = _
      rw [splitNl_app (h t (by simp)), ih (fun x hx => h x (List.mem_cons_of_mem _ hx)) (by simp)]

theorem get_add {m : Meta.MetaData} (h : Meta.Ok m) (k v j w : Str) :
    w ∈ Meta.get (Meta.add m k v) j ↔ (k = j ∧ w = v) ∨ w ∈ Meta.get m j := by
  unfold Meta.get
  rw [Meta.find_add h]
  by_cases e : k = j
  · subst e
    rw [if_pos rfl]
    simp only [StdMap.mem_sinsert']
    cases StdMap.find m k <;> simp
  · rw [if_neg e]; simp [e]

theorem get_adds : ∀ (ps : List (Str × Str)) {m : Meta.MetaData}, Meta.Ok m → ∀ (j w : Str),
    w ∈ Meta.get (ps.foldl (fun m p => Meta.add m p.1 p.2) m) j ↔ (j, w) ∈ ps ∨ w ∈ Meta.get m j := by
  intro ps
  induction ps with
  | nil => intro m h j w; simp
  | cons p ps ih =>
    intro m h j w
    rw [List.foldl_cons, ih (Meta.ok_add h _ _), get_add h]
    obtain ⟨k, v⟩ := p
    simp only [List.mem_cons, Prod.mk.injEq]
    constructor
    · rintro (h | ⟨rfl, rfl⟩ | h)
      · exact .inl (.inr h)
      · exact .inl (.inl ⟨rfl, rfl⟩)
      · exact .inr h
    · rintro ((⟨rfl, rfl⟩ | h) | h)
      · exact .inr (.inl ⟨rfl, rfl⟩)
      · exact .inl h
      · exact .inr (.inr h)

/-- C76: the documentation of a declaration is recorded as its metadata `doc`, and
each line `@meta key value` of it as one more value of that key; nothing else
changes. -/
theorem C76_metadata_partial {lines : List Str} {reported decl : Nat} {ts : List Str} {md : Meta.MetaData} {spec : Meta.Spec}
    (hm : Meta.Hist md spec) (h : Documented lines reported decl ts) (hd : Doc ts) {fuel : Nat} (hf : lines.length < fuel) :
    ∃ md', describe fuel md lines decl = .ok md' ∧
      (∀ v, v ∈ Meta.get md' "doc".toList ↔ v = joinNl ts ∨ ∃ t ∈ ts, IsMeta t "doc".toList v) ∧
      (∀ k, k ≠ "doc".toList → ∀ v, v ∈ Meta.get md' k ↔ v ∈ Meta.get md k ∨ ∃ t ∈ ts, IsMeta t k v) := by
  have h1 := (C76_comment_partial h hd hf).2
  unfold describe
  rw [h1]
  refine ⟨_, rfl, ?_⟩
  have hne : ts ≠ [] := by
    rintro rfl
    obtain ⟨t, ht, _⟩ := hd.left
    cases ht
  have hok : Meta.Ok (Meta.set md "doc".toList (joinNl ts)) := Meta.hist_ok (.set _ _ hm)
  have hset := Meta.C34_set_replaces hm "doc".toList (joinNl ts)
  have hget : ∀ k v, v ∈ Meta.get (addMetas (Meta.set md "doc".toList (joinNl ts)) (joinNl ts)) k ↔
      (∃ t ∈ ts, IsMeta t k v) ∨ v ∈ Meta.get (Meta.set md "doc".toList (joinNl ts)) k := by
    intro k v
    unfold addMetas
    rw [get_adds _ hok, split_join (fun t ht => (hd.texts t ht).2) hne, List.mem_filterMap]
    simp only [metaOf_iff]
  constructor
  · intro v
    rw [hget, hset.1]
    simp only [List.mem_singleton]
    exact Or.comm
  · intro k hk v
    rw [hget, (hset.2 k hk).2]
    exact Or.comm

end Verif.Docs
