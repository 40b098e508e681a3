import Verif.Tlb

/-! Property C38, first part: the text of an exported registry is a document made of the exported elements. -/

namespace Verif.Xml
open Verif

/-- reading `txt` leads from `a` to `b` -/
def Runs (txt : Str) (a b : St) : Prop := txt.foldl step (some a) = some b

theorem Runs.nil (a : St) : Runs [] a a := rfl

theorem Runs.trans {x y : Str} {a b c : St} (h : Runs x a b) (h' : Runs y b c) : Runs (x ++ y) a c := by
  unfold Runs at *
  rw [List.foldl_append, h, h']

theorem Runs.cons {ch : Char} {y : Str} {a b c : St} (hx : xmlChar ch = true) (h : step1 a ch = some b) (h' : Runs y b c) :
    Runs (ch :: y) a c := by
  unfold Runs at *
  rw [List.foldl_cons]
  simp only [step, hx, if_true]
  rw [h]
  exact h'

theorem Runs.one {ch : Char} {a b : St} (hx : xmlChar ch = true) (h : step1 a ch = some b) : Runs [ch] a b :=
  Runs.cons hx h (Runs.nil b)

theorem char_le_iff (a b : Char) : a ≤ b ↔ a.toNat ≤ b.toNat := by
  show a.val ≤ b.val ↔ _
  rw [UInt32.le_iff_toNat_le]
  rfl

theorem xmlChar_of_range {c : Char} (h1 : 0x20 ≤ c.toNat) (h2 : c.toNat < 0xFFFE) : xmlChar c = true := by
  unfold xmlChar
  have : (decide (0x20 ≤ c.toNat) && c.toNat != 0xFFFE && c.toNat != 0xFFFF) = true := by
    simp only [Bool.and_eq_true, decide_eq_true_eq, bne_iff_ne]
    omega
  rw [this, Bool.or_true]

theorem nameChar_range {c : Char} (h : nameChar c = true) : 45 ≤ c.toNat ∧ c.toNat ≤ 122 := by
  unfold nameChar at h
  simp only [Char.isAlphanum, Char.isAlpha, Char.isUpper, Char.isLower, Char.isDigit, Bool.or_eq_true, Bool.and_eq_true,
    decide_eq_true_eq, beq_iff_eq, ge_iff_le, UInt32.le_iff_toNat_le] at h
  have e : c.val.toNat = c.toNat := rfl
  rw [e] at h
  rcases h with ((((((h | h) | h) | h) | h) | h) | h)
  all_goals first
    | (subst h; decide)
    | (obtain ⟨h1, h2⟩ := h
       have h1' : _ ≤ c.toNat := h1
       have h2' : c.toNat ≤ _ := h2
       revert h1' h2'
       simp
       omega)

theorem nameChar_xml {c : Char} (h : nameChar c = true) : xmlChar c = true := by
  obtain ⟨h1, h2⟩ := nameChar_range h
  exact xmlChar_of_range (by omega) (by omega)

theorem nameChar_facts {c : Char} (h : nameChar c = true) : c ≠ '/' ∧ c ≠ '!' ∧ c ≠ '?' ∧ ws c = false ∧ c ≠ '>' ∧ c ≠ '\r' := by
  refine ⟨?_, ?_, ?_, ?_, ?_, ?_⟩
  · rintro rfl; revert h; decide
  · rintro rfl; revert h; decide
  · rintro rfl; revert h; decide
  · cases hw : ws c with
    | false => rfl
    | true =>
      exfalso
      unfold ws at hw
      simp only [Bool.or_eq_true, beq_iff_eq] at hw
      rcases hw with ((hw | hw) | hw) | hw <;> subst hw <;> revert h <;> decide
  · rintro rfl; revert h; decide
  · rintro rfl; revert h; decide

theorem ws_xml {c : Char} (h : ws c = true) : xmlChar c = true := by
  unfold ws at h
  simp only [Bool.or_eq_true, beq_iff_eq] at h
  rcases h with ((h | h) | h) | h <;> subst h <;> decide

theorem ws_facts {c : Char} (h : ws c = true) : c ≠ '<' ∧ c ≠ '&' ∧ c ≠ '>' ∧ c ≠ '/' ∧ nameChar c = false := by
  unfold ws at h
  simp only [Bool.or_eq_true, beq_iff_eq] at h
  rcases h with ((h | h) | h) | h <;> subst h <;> decide

/-- a name of an element or attribute -/
def IsName (n : Str) : Prop := n ≠ [] ∧ ∀ c ∈ n, nameChar c = true

theorem runs_tag_more (stack : List Open) (n m : Str) (h : ∀ c ∈ m, nameChar c = true) :
    Runs m ⟨stack, .tag n⟩ ⟨stack, .tag (n ++ m)⟩ := by
  induction m generalizing n with
  | nil => rw [List.append_nil]; exact Runs.nil _
  | cons c r ih =>
    have hc := h c (by simp)
    have := ih (n ++ [c]) (fun x hx => h x (by simp [hx]))
    rw [List.append_assoc] at this
    refine Runs.cons (nameChar_xml hc) ?_ this
    simp [step1, hc]

theorem runs_open_name (stack : List Open) {n : Str} (h : IsName n) : Runs ('<' :: n) ⟨stack, .content⟩ ⟨stack, .tag n⟩ := by
  obtain ⟨hne, hc⟩ := h
  cases n with
  | nil => exact absurd rfl hne
  | cons c r =>
    refine Runs.cons (by decide) (b := ⟨stack, .lt⟩) (by simp [step1]) ?_
    have h0 := hc c (by simp)
    obtain ⟨h1, h2, h3, _⟩ := nameChar_facts h0
    refine Runs.cons (nameChar_xml h0) (b := ⟨stack, .tag [c]⟩) ?_ (runs_tag_more stack [c] r (fun x hx => hc x (by simp [hx])))
    simp [step1, h0, h1, h2, h3]

theorem runs_close_more (stack : List Open) (n m : Str) (h : ∀ c ∈ m, nameChar c = true) :
    Runs m ⟨stack, .close n⟩ ⟨stack, .close (n ++ m)⟩ := by
  induction m generalizing n with
  | nil => rw [List.append_nil]; exact Runs.nil _
  | cons c r ih =>
    have hc := h c (by simp)
    have := ih (n ++ [c]) (fun x hx => h x (by simp [hx]))
    rw [List.append_assoc] at this
    refine Runs.cons (nameChar_xml hc) ?_ this
    simp [step1, hc]

theorem runs_close (stack : List Open) {n : Str} (h : IsName n) {b : St} (hb : closeTag stack n = some b) :
    Runs ("</".toList ++ n ++ ['>']) ⟨stack, .content⟩ b := by
  have h1 : Runs "</".toList ⟨stack, .content⟩ ⟨stack, .close []⟩ := by
    rw [show "</".toList = ['<', '/'] from rfl]
    exact Runs.cons (by decide) (b := ⟨stack, .lt⟩) (by simp [step1]) (Runs.one (by decide) (by simp [step1]))
  have h2 := runs_close_more stack [] n h.2
  rw [List.nil_append] at h2
  refine (h1.trans h2).trans (Runs.one (by decide) ?_)
  have : nameChar '>' = false := by decide
  have hw : ws '>' = false := by decide
  simp [step1, this, hw, hb]

/-- white space between the parts of a tag -/
def IsWs (w : Str) : Prop := w ≠ [] ∧ ∀ c ∈ w, ws c = true

theorem runs_gap_ws (stack : List Open) (n : Str) (as : List (Str × Str)) (w : Str) (h : ∀ c ∈ w, ws c = true) :
    Runs w ⟨stack, .gap n as⟩ ⟨stack, .gap n as⟩ := by
  induction w with
  | nil => exact Runs.nil _
  | cons c r ih =>
    have hc := h c (by simp)
    refine Runs.cons (ws_xml hc) ?_ (ih (fun x hx => h x (by simp [hx])))
    simp [step1, hc]

theorem runs_tag_ws (stack : List Open) (n : Str) {w : Str} (h : IsWs w) :
    Runs w ⟨stack, .tag n⟩ ⟨stack, .gap n []⟩ := by
  obtain ⟨hne, hc⟩ := h
  cases w with
  | nil => exact absurd rfl hne
  | cons c r =>
    have h0 := hc c (by simp)
    refine Runs.cons (ws_xml h0) ?_ (runs_gap_ws stack n [] r (fun x hx => hc x (by simp [hx])))
    simp [step1, h0, (ws_facts h0).2.2.2.2]

theorem runs_sep_ws (stack : List Open) (n : Str) (as : List (Str × Str)) {w : Str} (h : IsWs w) :
    Runs w ⟨stack, .sep n as⟩ ⟨stack, .gap n as⟩ := by
  obtain ⟨hne, hc⟩ := h
  cases w with
  | nil => exact absurd rfl hne
  | cons c r =>
    have h0 := hc c (by simp)
    refine Runs.cons (ws_xml h0) ?_ (runs_gap_ws stack n as r (fun x hx => hc x (by simp [hx])))
    simp [step1, h0]

theorem runs_aname_more (stack : List Open) (n : Str) (as : List (Str × Str)) (a m : Str) (h : ∀ c ∈ m, nameChar c = true) :
    Runs m ⟨stack, .aname n as a⟩ ⟨stack, .aname n as (a ++ m)⟩ := by
  induction m generalizing a with
  | nil => rw [List.append_nil]; exact Runs.nil _
  | cons c r ih =>
    have hc := h c (by simp)
    have := ih (a ++ [c]) (fun x hx => h x (by simp [hx]))
    rw [List.append_assoc] at this
    refine Runs.cons (nameChar_xml hc) ?_ this
    simp [step1, hc]

/-- `txt`, between double quotes, is read as `v` -/
def Reads (txt v : Str) : Prop :=
  '\r' ∉ txt ∧ ∀ stack n as a acc, Runs txt ⟨stack, .aval n as a '"' acc⟩ ⟨stack, .aval n as a '"' (acc ++ v)⟩

theorem Reads.nil : Reads [] [] := ⟨by simp, fun _ _ _ _ acc => by rw [List.append_nil]; exact Runs.nil _⟩

theorem Reads.append {x y v w : Str} (h : Reads x v) (h' : Reads y w) : Reads (x ++ y) (v ++ w) :=
  ⟨by simp [h.1, h'.1], fun st n as a acc => by
    have := h'.2 st n as a (acc ++ v)
    rw [List.append_assoc] at this
    exact (h.2 st n as a acc).trans this⟩

/-- characters that stand for themselves in an attribute value -/
def plainChar (c : Char) : Bool := xmlChar c && c != '"' && c != '<' && c != '&' && !ws c || c == ' '

theorem plainChar_facts {c : Char} (h : plainChar c = true) : xmlChar c = true ∧ c ≠ '"' ∧ c ≠ '<' ∧ c ≠ '&' ∧
    (ws c = true → c = ' ') ∧ c ≠ '\r' := by
  unfold plainChar at h
  simp only [Bool.or_eq_true, Bool.and_eq_true, bne_iff_ne, beq_iff_eq, Bool.not_eq_true'] at h
  rcases h with ⟨⟨⟨⟨h1, h2⟩, h3⟩, h4⟩, h5⟩ | h
  · refine ⟨h1, h2, h3, h4, fun h => ?_, ?_⟩
    · rw [h5] at h; cases h
    · rintro rfl; revert h5; decide
  · subst h; decide

theorem Reads.plain {v : Str} (h : ∀ c ∈ v, plainChar c = true) : Reads v v := by
  induction v with
  | nil => exact Reads.nil
  | cons c r ih =>
    obtain ⟨h1, h2, h3, h4, h5, h6⟩ := plainChar_facts (h c (by simp))
    refine Reads.append (x := [c]) (v := [c]) ⟨?_, ?_⟩ (ih (fun x hx => h x (by simp [hx])))
    · simp only [List.mem_singleton]; exact fun e => h6 e.symm
    · intro st n as a acc
      refine Runs.one h1 ?_
      cases hw : ws c with
      | false => simp [step1, h2, h3, h4, hw]
      | true => rw [h5 hw]; simp [step1, ws]

theorem Reads.entity {e : Str} {c : Char} (he : entity e = some c) (hx : ∀ d ∈ e, xmlChar d = true ∧ d ≠ ';' ∧ d ≠ '\r') :
    Reads ('&' :: e ++ [';']) [c] := by
  refine ⟨?_, ?_⟩
  · simp only [List.cons_append, List.mem_cons, List.mem_append, List.not_mem_nil, or_false, not_or]
    exact ⟨by decide, fun h => (hx _ h).2.2 rfl, by decide⟩
  · intro st n as a acc
    have hmore : ∀ (m pre : Str), (∀ d ∈ m, xmlChar d = true ∧ d ≠ ';' ∧ d ≠ '\r') →
        Runs m ⟨st, .aent n as a '"' acc pre⟩ ⟨st, .aent n as a '"' acc (pre ++ m)⟩ := by
      intro m
      induction m with
      | nil => intro pre _; rw [List.append_nil]; exact Runs.nil _
      | cons d r ih =>
        intro pre hd
        obtain ⟨d1, d2, _⟩ := hd d (by simp)
        have := ih (pre ++ [d]) (fun x hx => hd x (by simp [hx]))
        rw [List.append_assoc] at this
        exact Runs.cons d1 (by simp [step1, d2]) this
    have h1 := hmore e [] hx
    rw [List.nil_append] at h1
    refine Runs.cons (by decide) (b := ⟨st, .aent n as a '"' acc []⟩) (by simp [step1]) ?_
    exact h1.trans (Runs.one (by decide) (by simp [step1, he]))

/-- an attribute -/
theorem runs_attr (stack : List Open) (n : Str) (as : List (Str × Str)) {a txt v : Str} (ha : IsName a)
    (hfresh : as.lookup a = none) (hv : Reads txt v) :
    Runs (a ++ "=\"".toList ++ txt ++ ['"']) ⟨stack, .gap n as⟩ ⟨stack, .sep n (as ++ [(a, v)])⟩ := by
  obtain ⟨hne, hc⟩ := ha
  cases a with
  | nil => exact absurd rfl hne
  | cons c r =>
    have h0 := hc c (by simp)
    obtain ⟨h1, h2, h3, h4, h5, _⟩ := nameChar_facts h0
    have ha : Runs (c :: r) ⟨stack, .gap n as⟩ ⟨stack, .aname n as (c :: r)⟩ := by
      refine Runs.cons (nameChar_xml h0) (b := ⟨stack, .aname n as [c]⟩) ?_
        (runs_aname_more stack n as [c] r (fun x hx => hc x (by simp [hx])))
      simp [step1, h4, h5, h1, h0]
    have hq : Runs "=\"".toList ⟨stack, .aname n as (c :: r)⟩ ⟨stack, .aval n as (c :: r) '"' []⟩ := by
      rw [show "=\"".toList = ['=', '"'] from rfl]
      refine Runs.cons (by decide) (b := ⟨stack, .aeq n as (c :: r)⟩) ?_ (Runs.one (by decide) (by simp [step1]))
      have : nameChar '=' = false := by decide
      simp [step1, this]
    have hv' := hv.2 stack n as (c :: r) []
    rw [List.nil_append] at hv'
    refine ((ha.trans hq).trans hv').trans (Runs.one (by decide) ?_)
    simp [step1, addAttr, hfresh]

/-! ### Sequences of elements -/

/-- add children, in order, to the innermost open element -/
def addChildren (l : List Node) : List Open → List Open
  | [] => []
  | o :: r => { o with children := o.children ++ l } :: r

theorem addChildren_nil (s : List Open) : addChildren [] s = s := by cases s <;> simp [addChildren]

theorem addChildren_append (a b : List Node) (s : List Open) : addChildren (a ++ b) s = addChildren b (addChildren a s) := by
  cases s <;> simp [addChildren]

theorem addChildren_length (a : List Node) (s : List Open) : (addChildren a s).length = s.length := by
  cases s <;> simp [addChildren]

/-- inside an element, `txt` is read as the elements and CDATA sections `l` -/
def Emits (txt : Str) (l : List Node) : Prop :=
  '\r' ∉ txt ∧ ∀ stack : List Open, 2 ≤ stack.length → Runs txt ⟨stack, .content⟩ ⟨addChildren l stack, .content⟩

theorem Emits.nil : Emits [] [] := ⟨by simp, fun s _ => by rw [addChildren_nil]; exact Runs.nil _⟩

theorem Emits.append {x y : Str} {l m : List Node} (h : Emits x l) (h' : Emits y m) : Emits (x ++ y) (l ++ m) :=
  ⟨by simp [h.1, h'.1], fun s hs => by
    rw [addChildren_append]
    exact (h.2 s hs).trans (h'.2 _ (by rw [addChildren_length]; exact hs))⟩

theorem Emits.flatMap {α : Type} (f : α → Str) (g : α → List Node) (l : List α) (h : ∀ x ∈ l, Emits (f x) (g x)) :
    Emits (l.flatMap f) (l.flatMap g) := by
  induction l with
  | nil => exact Emits.nil
  | cons a r ih =>
    rw [List.flatMap_cons, List.flatMap_cons]
    exact (h a (by simp)).append (ih (fun x hx => h x (by simp [hx])))

theorem runs_ws (stack : List Open) (w : Str) (h : ∀ c ∈ w, ws c = true) :
    Runs w ⟨stack, .content⟩ ⟨stack, .content⟩ := by
  induction w with
  | nil => exact Runs.nil _
  | cons c r ih =>
    have hc := h c (by simp)
    obtain ⟨h1, h2, _⟩ := ws_facts hc
    refine Runs.cons (ws_xml hc) ?_ (ih (fun x hx => h x (by simp [hx])))
    simp [step1, h1, h2, hc]

theorem Emits.ws {w : Str} (h : ∀ c ∈ w, Xml.ws c = true) (hr : '\r' ∉ w) : Emits w [] :=
  ⟨hr, fun s _ => by rw [addChildren_nil]; exact runs_ws s w h⟩

/-- the text of a CDATA section -/
def CDataText (v : Str) : Prop := (∀ c ∈ v, xmlChar c = true) ∧ '\r' ∉ v ∧ ∀ a b, v ≠ a ++ "]]>".toList ++ b

theorem runs_cdata (stack : List Open) (v : Str) (h : CDataText v) :
    ∀ (pre rest : Str), v = pre ++ rest → Runs rest ⟨stack, .cdata pre.reverse⟩ ⟨stack, .cdata v.reverse⟩ := by
  intro pre rest
  induction rest generalizing pre with
  | nil => intro e; rw [e, List.append_nil]; exact Runs.nil _
  | cons c r ih =>
    intro e
    have hx : xmlChar c = true := h.1 c (by rw [e]; simp)
    have := ih (pre ++ [c]) (by rw [e]; simp)
    rw [List.reverse_append, List.reverse_singleton, List.singleton_append] at this
    refine Runs.cons hx ?_ this
    unfold step1
    simp only
    split
    · rename_i r' hp
      exfalso
      refine h.2.2 r'.reverse r (e.trans ?_)
      have := congrArg List.reverse hp
      rw [List.reverse_reverse] at this
      rw [this]
      simp
    · rfl

theorem Emits.cdata {v : Str} (h : CDataText v) : Emits ("<![CDATA[".toList ++ v ++ "]]>".toList) [.cdata v] := by
  refine ⟨?_, ?_⟩
  · simp only [List.mem_append, not_or]
    exact ⟨⟨by decide, h.2.1⟩, by decide⟩
  · intro s hs
    have h1 : Runs "<![CDATA[".toList ⟨s, .content⟩ ⟨s, .cdata []⟩ := by
      rw [show "<![CDATA[".toList = ['<', '!', '[', 'C', 'D', 'A', 'T', 'A', '['] from rfl]
      refine Runs.cons (by decide) (b := ⟨s, .lt⟩) (by simp [step1]) ?_
      refine Runs.cons (by decide) (b := ⟨s, .bang []⟩) (by simp [step1]) ?_
      refine Runs.cons (by decide) (b := ⟨s, .bang ['[']⟩) (by simp [step1]) ?_
      refine Runs.cons (by decide) (b := ⟨s, .bang ['[', 'C']⟩) (by simp [step1]) ?_
      refine Runs.cons (by decide) (b := ⟨s, .bang ['[', 'C', 'D']⟩) (by simp [step1]) ?_
      refine Runs.cons (by decide) (b := ⟨s, .bang ['[', 'C', 'D', 'A']⟩) (by simp [step1]) ?_
      refine Runs.cons (by decide) (b := ⟨s, .bang ['[', 'C', 'D', 'A', 'T']⟩) (by simp [step1]) ?_
      refine Runs.cons (by decide) (b := ⟨s, .bang ['[', 'C', 'D', 'A', 'T', 'A']⟩) (by simp [step1]) ?_
      refine Runs.one (by decide) ?_
      have : ¬ s.length ≤ 1 := by omega
      simp [step1, this]
    have h2 := runs_cdata s v h [] v rfl
    rw [List.reverse_nil] at h2
    refine (h1.trans h2).trans ?_
    rw [show "]]>".toList = [']', ']', '>'] from rfl]
    refine Runs.cons (by decide) (b := ⟨s, .cdata (']' :: v.reverse)⟩) ?_ ?_
    · simp [step1]
    refine Runs.cons (by decide) (b := ⟨s, .cdata (']' :: ']' :: v.reverse)⟩) ?_ ?_
    · simp [step1]
    refine Runs.one (by decide) ?_
    simp only [step1, List.reverse_reverse]
    cases s with
    | nil => rfl
    | cons o r => rfl

end Verif.Xml

namespace Verif.Tlb
open Verif Verif.Names Verif.Graph Verif.Registry Verif.TypeBuilder Verif.StdMap Verif.Merge Verif.Xml

/-- the attributes `as` are read as `vs` -/
inductive AttrsOk : List At → List (Str × Str) → Prop
  | nil : AttrsOk [] []
  | cons {a : At} {v : Str} {as : List At} {vs : List (Str × Str)} : IsWs a.ws → IsName a.name → Reads a.text v →
      '\r' ∉ a.ws → AttrsOk as vs → AttrsOk (a :: as) ((a.name, v) :: vs)

theorem AttrsOk.append {a b : List At} {v w : List (Str × Str)} (h : AttrsOk a v) (h' : AttrsOk b w) : AttrsOk (a ++ b) (v ++ w) := by
  induction h with
  | nil => exact h'
  | cons h1 h2 h3 h4 _ ih => exact .cons h1 h2 h3 h4 ih

/-- the reader is in the start tag of `n`, whose attributes so far are `vs` -/
def Ready (n : Str) (vs : List (Str × Str)) (m : Mode) : Prop := (m = .tag n ∧ vs = []) ∨ m = .sep n vs ∨ m = .gap n vs

theorem Ready.space {n : Str} {vs : List (Str × Str)} {m : Mode} (h : Ready n vs m) (stack : List Open) {w : Str} (hw : IsWs w) :
    Runs w ⟨stack, m⟩ ⟨stack, .gap n vs⟩ := by
  rcases h with ⟨rfl, rfl⟩ | rfl | rfl
  · exact runs_tag_ws stack n hw
  · exact runs_sep_ws stack n vs hw
  · exact runs_gap_ws stack n vs w hw.2

theorem Ready.gt {n : Str} {vs : List (Str × Str)} {m : Mode} (h : Ready n vs m) (stack : List Open) :
    step1 ⟨stack, m⟩ '>' = openTag stack n vs := by
  have h1 : nameChar '>' = false := by decide
  have h2 : Xml.ws '>' = false := by decide
  rcases h with ⟨rfl, rfl⟩ | rfl | rfl <;> simp [step1, h1, h2]

theorem Ready.slash {n : Str} {vs : List (Str × Str)} {m : Mode} (h : Ready n vs m) (stack : List Open) :
    step1 ⟨stack, m⟩ '/' = some ⟨stack, .slash n vs⟩ := by
  have h1 : nameChar '/' = false := by decide
  have h2 : Xml.ws '/' = false := by decide
  rcases h with ⟨rfl, rfl⟩ | rfl | rfl <;> simp [step1, h1, h2]

theorem lookup_none_of {l : List (Str × Str)} {a : Str} (h : a ∉ l.map (·.1)) : l.lookup a = none := by
  induction l with
  | nil => rfl
  | cons p r ih =>
    obtain ⟨b, v⟩ := p
    simp only [List.map_cons, List.mem_cons, not_or] at h
    rw [List.lookup_cons, beq_false_of_ne h.1]
    exact ih h.2

theorem runs_attrs (stack : List Open) (n : Str) {as : List At} {vs : List (Str × Str)} (h : AttrsOk as vs) :
    ∀ (pre : List (Str × Str)) (m : Mode), Ready n pre m → ((pre ++ vs).map (·.1)).Nodup →
    ∃ m', Runs (as.flatMap At.txt) ⟨stack, m⟩ ⟨stack, m'⟩ ∧ Ready n (pre ++ vs) m' := by
  induction h with
  | nil => intro pre m hr _; exact ⟨m, Runs.nil _, by rw [List.append_nil]; exact hr⟩
  | @cons a v as vs h1 h2 h3 h4 _ ih =>
    intro pre m hr hnd
    have hfresh : pre.lookup a.name = none := by
      apply lookup_none_of
      intro hm
      rw [List.map_append, List.map_cons] at hnd
      have := (List.nodup_append.mp hnd).2.2 _ hm a.name (by simp)
      exact this rfl
    have h5 := (hr.space stack h1).trans (runs_attr stack n pre h2 hfresh h3)
    obtain ⟨m', h6, h7⟩ := ih (pre ++ [(a.name, v)]) (.sep n (pre ++ [(a.name, v)])) (Or.inr (Or.inl rfl)) (by
      rw [List.append_assoc]; exact hnd)
    refine ⟨m', ?_, by rw [List.append_assoc] at h7; exact h7⟩
    rw [List.flatMap_cons]
    refine Runs.trans ?_ h6
    have e : At.txt a = a.ws ++ (a.name ++ "=\"".toList ++ a.text ++ ['"']) := by simp [At.txt]
    rw [e]
    exact h5

theorem attrs_cr {as : List At} {vs : List (Str × Str)} (h : AttrsOk as vs) : '\r' ∉ as.flatMap At.txt := by
  induction h with
  | nil => simp
  | @cons a v as vs h1 h2 h3 h4 _ ih =>
    rw [List.flatMap_cons, List.mem_append]
    rintro (hm | hm)
    · unfold At.txt at hm
      simp only [List.mem_append] at hm
      rcases hm with (((hm | hm) | hm) | hm) | hm
      · exact h4 hm
      · exact (nameChar_facts (h2.2 _ hm)).2.2.2.2.2 rfl
      · revert hm; decide
      · exact h3.1 hm
      · revert hm; decide
    · exact ih hm

theorem runs_tagTxt (stack : List Open) {name : String} (hn : IsName name.toList) {as : List At} {vs : List (Str × Str)}
    (h : AttrsOk as vs) (hnd : (vs.map (·.1)).Nodup) {trail : Str} (ht : ∀ c ∈ trail, ws c = true) :
    ∃ m, Runs (tagTxt name as trail) ⟨stack, .content⟩ ⟨stack, m⟩ ∧ Ready name.toList vs m := by
  obtain ⟨m, h1, h2⟩ := runs_attrs stack name.toList h [] (.tag name.toList) (Or.inl ⟨rfl, rfl⟩) hnd
  have h0 := (runs_open_name stack hn).trans h1
  cases trail with
  | nil => exact ⟨m, by unfold tagTxt; rw [List.append_nil]; exact h0, h2⟩
  | cons c r =>
    exact ⟨_, h0.trans (h2.space stack ⟨by simp, ht⟩), Or.inr (Or.inr rfl)⟩

theorem tagTxt_cr {name : String} (hn : IsName name.toList) {as : List At} {vs : List (Str × Str)} (h : AttrsOk as vs)
    {trail : Str} (ht : '\r' ∉ trail) : '\r' ∉ tagTxt name as trail := by
  unfold tagTxt
  simp only [List.mem_append, List.mem_cons]
  rintro (((hm | hm) | hm) | hm)
  · revert hm; decide
  · exact (nameChar_facts (hn.2 _ hm)).2.2.2.2.2 rfl
  · exact attrs_cr h hm
  · exact ht hm

theorem closeTxt_cr {name : String} (hn : IsName name.toList) : '\r' ∉ closeTxt name := by
  unfold closeTxt
  simp only [List.mem_append]
  rintro ((hm | hm) | hm)
  · revert hm; decide
  · exact (nameChar_facts (hn.2 _ hm)).2.2.2.2.2 rfl
  · revert hm; decide

/-- an element with content -/
theorem Emits.elem {name : String} (hn : IsName name.toList) {as : List At} {vs : List (Str × Str)}
    (h : AttrsOk as vs) (hnd : (vs.map (·.1)).Nodup) {trail : Str} (ht : ∀ c ∈ trail, ws c = true) (htr : '\r' ∉ trail)
    {inner : Str} {kids : List Node} (hin : Emits inner kids) :
    Emits (tagTxt name as trail ++ ['>'] ++ inner ++ closeTxt name) [.elem name.toList vs kids] := by
  refine ⟨?_, ?_⟩
  · simp only [List.mem_append]
    rintro (((hm | hm) | hm) | hm)
    · exact tagTxt_cr hn h htr hm
    · revert hm; decide
    · exact hin.1 hm
    · exact closeTxt_cr hn hm
  · intro stack hs
    obtain ⟨m, h1, h2⟩ := runs_tagTxt stack hn h hnd ht
    obtain ⟨o, p, r, rfl⟩ : ∃ o p r, stack = o :: p :: r := by
      match stack, hs with
      | o :: p :: r, _ => exact ⟨o, p, r, rfl⟩
    have hopen : step1 ⟨o :: p :: r, m⟩ '>' = some ⟨⟨name.toList, vs, []⟩ :: o :: p :: r, .content⟩ := by
      rw [h2.gt]; rfl
    have h3 := h1.trans (Runs.one (by decide) hopen)
    have h4 := hin.2 (⟨name.toList, vs, []⟩ :: o :: p :: r) (by simp)
    refine (h3.trans h4).trans (runs_close _ hn ?_)
    simp [closeTag, addChildren, addChild]

/-- an empty element -/
theorem Emits.empty {name : String} (hn : IsName name.toList) {as : List At} {vs : List (Str × Str)}
    (h : AttrsOk as vs) (hnd : (vs.map (·.1)).Nodup) {trail : Str} (ht : ∀ c ∈ trail, ws c = true) (htr : '\r' ∉ trail) :
    Emits (tagTxt name as trail ++ "/>".toList) [.elem name.toList vs []] := by
  refine ⟨?_, ?_⟩
  · simp only [List.mem_append]
    rintro (hm | hm)
    · exact tagTxt_cr hn h htr hm
    · revert hm; decide
  · intro stack hs
    obtain ⟨m, h1, h2⟩ := runs_tagTxt stack hn h hnd ht
    obtain ⟨o, p, r, rfl⟩ : ∃ o p r, stack = o :: p :: r := by
      match stack, hs with
      | o :: p :: r, _ => exact ⟨o, p, r, rfl⟩
    refine h1.trans ?_
    rw [show "/>".toList = ['/', '>'] from rfl]
    refine Runs.cons (by decide) (h2.slash _) (Runs.one (by decide) ?_)
    simp [step1, emptyTag, openTag, closeTag, addChildren, addChild]

theorem normEol_id {s : Str} (h : '\r' ∉ s) : normEol s = s := by
  induction s with
  | nil => rfl
  | cons c r ih =>
    simp only [List.mem_cons, not_or] at h
    unfold normEol
    split
    · rename_i e; injection e with e1; exact absurd e1.symm h.1
    · rename_i e; injection e with e1; exact absurd e1.symm h.1
    · rename_i e; injection e with e1 e2; subst e1; subst e2; rw [ih h.2]
    · rename_i e; cases e

/-- a document -/
theorem parseDoc_doc {name : String} (hn : IsName name.toList) {inner : Str} {kids : List Node} (hin : Emits inner kids) :
    parseDoc ("<?xml version=\"1.0\"?>\n".toList ++ (tagTxt name [] [] ++ ['>'] ++ inner ++ closeTxt name ++ ['\n'])) =
      some (.elem name.toList [] kids) := by
  have hcr : '\r' ∉ "<?xml version=\"1.0\"?>\n".toList ++ (tagTxt name [] [] ++ ['>'] ++ inner ++ closeTxt name ++ ['\n']) := by
    simp only [List.mem_append]
    rintro (hm | ((((hm | hm) | hm) | hm) | hm))
    · revert hm; decide
    · exact tagTxt_cr hn AttrsOk.nil (by simp) hm
    · revert hm; decide
    · exact hin.1 hm
    · exact closeTxt_cr hn hm
    · revert hm; decide
  have h0 : Runs "<?xml version=\"1.0\"?>\n".toList start start := by rfl
  obtain ⟨m, h1, h2⟩ := runs_tagTxt [⟨[], [], []⟩] hn AttrsOk.nil (by simp) (trail := []) (by simp)
  have hopen : step1 ⟨[⟨[], [], []⟩], m⟩ '>' = some ⟨[⟨name.toList, [], []⟩, ⟨[], [], []⟩], .content⟩ := by
    rw [h2.gt]; rfl
  have h3 := h1.trans (Runs.one (by decide) hopen)
  have h4 := hin.2 [⟨name.toList, [], []⟩, ⟨[], [], []⟩] (by simp)
  have h5 : closeTag (addChildren kids [⟨name.toList, [], []⟩, ⟨[], [], []⟩]) name.toList =
      some ⟨[⟨[], [], [.elem name.toList [] kids]⟩], .content⟩ := by
    simp [closeTag, addChildren, addChild]
  have h6 := (h3.trans h4).trans (runs_close _ hn h5)
  have h7 := h0.trans (h6.trans (runs_ws _ ['\n'] (by decide)))
  unfold parseDoc
  rw [normEol_id hcr]
  unfold Runs at h7
  rw [show (closeTxt name) = "</".toList ++ name.toList ++ ['>'] from rfl, h7]

end Verif.Tlb
