import Verif.Idl

/-!
C40: modules of the IDL output.
-/

namespace Verif.Idl
open Verif Verif.Names Verif.Graph Verif.StdMap

/-! ### Specification -/

/-- Reads the output: the modules open at the start, then for each definition the modules it is in, and the modules
left open. `none`: a module is closed that is not open, or a module or typedef line is not indented by its depth. -/
def scan : List Str → List Ev → Option (List (List Str × Str) × List Str)
  | st, [] => some ([], st)
  | st, .openM i n :: r => if i = 4 * st.length then scan (st ++ [n]) r else none
  | st, .close i :: r => if st ≠ [] ∧ i + 4 = 4 * st.length then scan st.dropLast r else none
  | st, .text s :: r => (scan st r).map (fun x => ((st, s) :: x.1, x.2))
  | st, .typedef i s :: r => if i = 4 * st.length then (scan st r).map (fun x => ((st, s) :: x.1, x.2)) else none

/-- no module is closed, or left, without anything in it -/
def noEmpty : List Ev → Bool
  | [] => true
  | [.openM _ _] => false
  | .openM _ _ :: .close _ :: _ => false
  | _ :: r => noEmpty r

/-- the modules of a namespace -/
def path (ns : Str) : List Str := (nameSplit ns).map normalizeIDLName

/-- the definitions written by the calls, with their namespaces, in order -/
def defs : List Act → List (Str × Str)
  | [] => []
  | .def_ ns s _ :: r => (ns, s) :: defs r
  | _ :: r => defs r

/-- the typedefs requested by the calls, with their namespaces, in order -/
def tdefs : List Act → List (Str × Str)
  | [] => []
  | .typedef ns s :: r => (ns, s) :: tdefs r
  | _ :: r => tdefs r

/-! ### Proofs -/

theorem scan_append (a b : List Ev) : ∀ st, scan st (a ++ b) =
    (scan st a).bind (fun x => (scan x.2 b).map (fun y => (x.1 ++ y.1, y.2))) := by
  induction a with
  | nil => intro st; simp [scan]
  | cons e a ih =>
    intro st
    cases e with
    | openM i n => simp only [List.cons_append, scan]; split <;> simp [ih]
    | close i => simp only [List.cons_append, scan]; split <;> simp [ih]
    | text s =>
      simp only [List.cons_append, scan, ih]
      cases scan st a with
      | none => rfl
      | some x => cases hb : scan x.2 b <;> simp [hb]
    | typedef i s =>
      simp only [List.cons_append, scan]
      split
      · rw [ih]
        cases scan st a with
        | none => rfl
        | some x => cases hb : scan x.2 b <;> simp [hb]
      · rfl

theorem scan_then {st : List Str} {a b : List Ev} {l st' l' st''} (h : scan st a = some (l, st'))
    (h' : scan st' b = some (l', st'')) : scan st (a ++ b) = some (l ++ l', st'') := by
  rw [scan_append, h]
  simp [h']

/-- an event that ends a non-empty module prefix -/
def isOpen : Ev → Bool
  | .openM _ _ => true
  | _ => false

theorem noEmpty_append {a b : List Ev} (ha : noEmpty a = true) (hb : noEmpty b = true) : noEmpty (a ++ b) = true := by
  induction a using noEmpty.induct with
  | case1 => simpa using hb
  | case2 i n => simp [noEmpty] at ha
  | case3 i n j r => simp [noEmpty] at ha
  | case4 e r h1 h2 ih =>
    have hr : noEmpty r = true := by
      rw [noEmpty] at ha
      · exact ha
      · exact h1
      · exact h2
    cases e with
    | openM i n =>
      cases r with
      | nil => exact absurd rfl (h1 i n rfl)
      | cons e' r =>
        cases e' with
        | close j => exact absurd rfl (h2 i n j r rfl)
        | openM j m => have := ih hr; simpa [noEmpty] using this
        | text s => have := ih hr; simpa [noEmpty] using this
        | typedef j s => have := ih hr; simpa [noEmpty] using this
    | close i => have := ih hr; simpa [noEmpty] using this
    | text s => have := ih hr; simpa [noEmpty] using this
    | typedef i s => have := ih hr; simpa [noEmpty] using this

theorem noEmpty_snoc {a : List Ev} {e : Ev} (ha : noEmpty a = true) (he : isOpen e = false) :
    noEmpty (a ++ [e]) = true := by
  apply noEmpty_append ha
  cases e <;> simp [isOpen] at he <;> rfl

theorem dropCommon_spec : ∀ (a b : List Str), ∃ c, a = c ++ (dropCommon a b).1 ∧ b = c ++ (dropCommon a b).2 := by
  intro a
  induction a with
  | nil => intro b; exact ⟨[], by simp [dropCommon], by simp [dropCommon]⟩
  | cons x a ih =>
    intro b
    cases b with
    | nil => exact ⟨[], by simp [dropCommon], by simp [dropCommon]⟩
    | cons y b =>
      by_cases e : x = y
      · subst e
        obtain ⟨c, h1, h2⟩ := ih b
        refine ⟨x :: c, ?_, ?_⟩
        · simp only [dropCommon, if_true, List.cons_append, ← h1]
        · simp only [dropCommon, if_true, List.cons_append, ← h2]
      · exact ⟨[], by simp [dropCommon, e], by simp [dropCommon, e]⟩

/-- closing modules: the rest of the state, the events, the indentation -/
theorem close_spec : ∀ (n : Nat) (s : St) (st : List Str), s.indent = 4 * st.length → n ≤ st.length →
    ∃ evs, (closeNamespaces n s).out = s.out ++ evs ∧ (closeNamespaces n s).ns = s.ns ∧
      (closeNamespaces n s).typedefs = s.typedefs ∧ (closeNamespaces n s).exported = s.exported ∧
      (closeNamespaces n s).indent = 4 * (st.length - n) ∧
      scan st evs = some ([], st.take (st.length - n)) ∧ (∀ e ∈ evs, isOpen e = false) := by
  intro n
  induction n with
  | zero =>
    intro s st hi _
    exact ⟨[], by simp [closeNamespaces], rfl, rfl, rfl, by simpa [closeNamespaces] using hi, by simp [scan], by simp⟩
  | succ n ih =>
    intro s st hi hn
    have hne : st ≠ [] := by intro e; subst e; simp at hn
    have hun : unindent s.indent = 4 * (st.length - 1) := by unfold unindent; split <;> omega
    obtain ⟨evs, h1, h2, h3, h4, h5, h6, h7⟩ := ih
      { s with indent := unindent s.indent, out := s.out ++ [.close (unindent s.indent)] } st.dropLast
      (by simpa using hun) (by simp; omega)
    refine ⟨.close (unindent s.indent) :: evs, ?_, h2, h3, h4, ?_, ?_, ?_⟩
    · rw [closeNamespaces, h1]; simp
    · rw [closeNamespaces, h5]; simp; omega
    · rw [scan, if_pos ⟨hne, by rw [hun]; omega⟩, h6]
      congr 2
      rw [List.length_dropLast, List.dropLast_eq_take, List.take_take]
      congr 1; omega
    · intro e he
      rcases List.mem_cons.mp he with rfl | he
      · rfl
      · exact h7 e he

theorem open_spec : ∀ (l : List Str) (s : St) (st : List Str), s.indent = 4 * st.length →
    ∃ evs, (openNamespaces l s).out = s.out ++ evs ∧ (openNamespaces l s).ns = s.ns ∧
      (openNamespaces l s).typedefs = s.typedefs ∧ (openNamespaces l s).exported = s.exported ∧
      (openNamespaces l s).indent = 4 * (st.length + l.length) ∧
      scan st evs = some ([], st ++ l.map normalizeIDLName) ∧ (∀ e ∈ evs, isOpen e = true) := by
  intro l
  induction l with
  | nil =>
    intro s st hi
    exact ⟨[], by simp [openNamespaces], rfl, rfl, rfl, by simpa [openNamespaces] using hi, by simp [scan], by simp⟩
  | cons n l ih =>
    intro s st hi
    obtain ⟨evs, h1, h2, h3, h4, h5, h6, h7⟩ := ih
      { s with indent := s.indent + 4, out := s.out ++ [.openM s.indent (normalizeIDLName n)] }
      (st ++ [normalizeIDLName n]) (by simp; omega)
    refine ⟨.openM s.indent (normalizeIDLName n) :: evs, ?_, h2, h3, h4, ?_, ?_, ?_⟩
    · rw [openNamespaces, h1]; simp
    · rw [openNamespaces, h5]; simp; omega
    · rw [scan, if_pos hi, h6]; simp
    · intro e he
      rcases List.mem_cons.mp he with rfl | he
      · rfl
      · exact h7 e he

/-- what `adaptNamespace` writes -/
theorem adapt_spec (s : St) (ns : Str) (hi : s.indent = 4 * (path s.ns).length) :
    ∃ c o, (adaptNamespace s ns).out = s.out ++ (c ++ o) ∧ (adaptNamespace s ns).ns = ns ∧
      (adaptNamespace s ns).typedefs = s.typedefs ∧ (adaptNamespace s ns).exported = s.exported ∧
      (adaptNamespace s ns).indent = 4 * (path ns).length ∧
      scan (path s.ns) (c ++ o) = some ([], path ns) ∧ (∀ e ∈ c, isOpen e = false) ∧ (∀ e ∈ o, isOpen e = true) := by
  unfold adaptNamespace
  by_cases h : s.ns = ns
  · simp only [ne_eq, h, not_true_eq_false, if_false]
    exact ⟨[], [], by simp, trivial, trivial, trivial, by rw [← h]; exact hi, by simp [scan], by simp, by simp⟩
  · simp only [ne_eq, h, not_false_eq_true, if_true]
    obtain ⟨cm, h1, h2⟩ := dropCommon_spec (nameSplit s.ns) (nameSplit ns)
    generalize hd : dropCommon (nameSplit s.ns) (nameSplit ns) = d at h1 h2
    have hp : path s.ns = (cm ++ d.1).map normalizeIDLName := by unfold path; rw [← h1]
    have hp' : path ns = (cm ++ d.2).map normalizeIDLName := by unfold path; rw [← h2]
    have hl : (path s.ns).length = cm.length + d.1.length := by rw [hp]; simp
    obtain ⟨c, c1, c2, c3, c4, c5, c6, c7⟩ := close_spec d.1.length s (path s.ns) hi (by omega)
    have hst : (path s.ns).take ((path s.ns).length - d.1.length) = cm.map normalizeIDLName := by
      rw [hl, hp, List.map_append]
      have : cm.length + d.1.length - d.1.length = (cm.map normalizeIDLName).length := by simp
      rw [this, List.take_left]
    rw [hst] at c6
    obtain ⟨o, o1, o2, o3, o4, o5, o6, o7⟩ := open_spec d.2 (closeNamespaces d.1.length s) (cm.map normalizeIDLName)
      (by rw [c5, hl]; simp)
    refine ⟨c, o, ?_, trivial, o3.trans c3, o4.trans c4, ?_, ?_, c7, o7⟩
    · show (openNamespaces d.2 _).out = _
      rw [o1, c1, List.append_assoc]
    · show (openNamespaces d.2 _).indent = _
      rw [o5, hp']; simp
    · have := scan_then c6 o6
      rw [hp', List.map_append]
      simpa using this

theorem noEmpty_block {c o : List Ev} {e : Ev} (hc : ∀ x ∈ c, isOpen x = false) (ho : ∀ x ∈ o, isOpen x = true)
    (he : isOpen e = false) (hcl : ∀ i, e ≠ .close i) : noEmpty (c ++ (o ++ [e])) = true := by
  apply noEmpty_append
  · clear ho he hcl
    induction c with
    | nil => rfl
    | cons x c ih =>
      have hx := hc x (by simp)
      have := ih (fun y hy => hc y (by simp [hy]))
      cases x <;> simp [isOpen] at hx <;> simpa [noEmpty] using this
  · clear hc
    induction o with
    | nil => cases e <;> simp [isOpen] at he hcl <;> rfl
    | cons x o ih =>
      have hx := ho x (by simp)
      have hi := ih (fun y hy => ho y (by simp [hy]))
      cases x with
      | openM i n =>
        cases o with
        | nil => cases e <;> simp [isOpen] at he hcl <;> rfl
        | cons y o =>
          have hy := ho y (by simp)
          cases y <;> simp [isOpen] at hy
          simpa [noEmpty] using hi
      | _ => simp [isOpen] at hx

/-- the invariant between calls -/
structure Good (s : St) (log : List (List Str × Str)) : Prop where
  indent : s.indent = 4 * (path s.ns).length
  scan : scan [] s.out = some (log, path s.ns)
  full : noEmpty s.out = true

theorem good_new : Good St.new [] := ⟨rfl, rfl, rfl⟩

/-- writing a line in a namespace -/
theorem good_line {s : St} {log} (h : Good s log) (ns : Str) (e : Ev) (text : Str)
    (he : scan (path ns) [e] = some ([(path ns, text)], path ns)) (ho : isOpen e = false) (hc : ∀ i, e ≠ .close i) :
    Good { adaptNamespace s ns with out := (adaptNamespace s ns).out ++ [e] } (log ++ [(path ns, text)]) := by
  obtain ⟨c, o, h1, h2, h3, h4, h5, h6, h7, h8⟩ := adapt_spec s ns h.indent
  refine ⟨?_, ?_, ?_⟩
  · simp only [h2, h5]
  · simp only [h2, h1]
    have := scan_then (scan_then h.scan h6) he
    simpa using this
  · simp only [h1, List.append_assoc]
    exact noEmpty_append h.full (noEmpty_block h7 h8 ho hc)

theorem good_perform {s : St} {log} (h : Good s log) (a : Act) :
    Good (perform s a) (log ++ (defs [a]).map (fun d => (path d.1, d.2))) ∧
    (perform s a).typedefs = (tdefs [a]).foldl (fun m d => upsert d.1 (fun old => old.getD [] ++ [d.2]) m) s.typedefs := by
  cases a with
  | skip => exact ⟨by simpa [defs, perform] using h, rfl⟩
  | nothing => exact ⟨by simpa [defs, perform] using h, rfl⟩
  | typedef ns d => exact ⟨⟨h.indent, by simpa [defs, perform] using h.scan, h.full⟩, rfl⟩
  | def_ ns text r =>
    cases r with
    | none =>
      refine ⟨good_line h ns (.text text) text (by simp [scan]) rfl (by simp), ?_⟩
      obtain ⟨c, o, _, _, h3, _⟩ := adapt_spec s ns h.indent
      exact h3
    | some r =>
      have h' : Good { s with exported := upsert r.1 (fun old => old.getD r.2) s.exported } log :=
        ⟨h.indent, h.scan, h.full⟩
      refine ⟨good_line h' ns (.text text) text (by simp [scan]) rfl (by simp), ?_⟩
      obtain ⟨c, o, _, _, h3, _⟩ := adapt_spec _ ns h'.indent
      exact h3

theorem defs_append (a b : List Act) : defs (a ++ b) = defs a ++ defs b := by
  induction a with
  | nil => rfl
  | cons x a ih => cases x <;> simp [defs, ih]

theorem tdefs_append (a b : List Act) : tdefs (a ++ b) = tdefs a ++ tdefs b := by
  induction a with
  | nil => rfl
  | cons x a ih => cases x <;> simp [tdefs, ih]

/-- the decisions taken in a sequence of calls -/
inductive Acts (H : Heap) (o : Opts) (f : Nat) : St → List Item → List Act → St → Prop
  | nil (s) : Acts H o f s [] [] s
  | cons (s it a r as s') (ha : act H o f s it = .ok a) (h : Acts H o f (perform s a) r as s') :
      Acts H o f s (it :: r) (a :: as) s'

theorem saveAll_acts {H : Heap} {o : Opts} {f : Nat} : ∀ {items : List Item} {s s' : St},
    saveAll H o f s items = .ok s' → ∃ as, Acts H o f s items as s' := by
  intro items
  induction items with
  | nil => intro s s' h; cases h; exact ⟨[], .nil s⟩
  | cons it r ih =>
    intro s s' h
    rw [saveAll] at h
    obtain ⟨s1, h1, h2⟩ := Res.bind_eq_ok.mp h
    rw [save] at h1
    obtain ⟨a, ha, hp⟩ := Res.bind_eq_ok.mp h1
    cases hp
    obtain ⟨as, has⟩ := ih h2
    exact ⟨a :: as, .cons s it a r as s' ha has⟩

theorem good_acts {H : Heap} {o : Opts} {f : Nat} {s : St} {items as s'} (ha : Acts H o f s items as s') :
    ∀ {log}, Good s log →
    Good s' (log ++ (defs as).map (fun d => (path d.1, d.2))) ∧
    s'.typedefs = (tdefs as).foldl (fun m d => upsert d.1 (fun old => old.getD [] ++ [d.2]) m) s.typedefs := by
  induction ha with
  | nil s => intro log h; exact ⟨by simpa [defs] using h, rfl⟩
  | cons s it a r as s' _ _ ih =>
    intro log h
    obtain ⟨h1, h2⟩ := good_perform h a
    obtain ⟨h3, h4⟩ := ih h1
    rw [show a :: as = [a] ++ as from rfl, defs_append, tdefs_append]
    refine ⟨by simpa using h3, ?_⟩
    rw [h4, h2, List.foldl_append]

/-- lines of a map of typedefs, in order -/
def lines (m : SMap (List Str)) : List (List Str × Str) := m.flatMap (fun e => e.2.map (fun d => (path e.1, d)))

theorem good_typedefLines : ∀ (l : List Str) {s : St} {log}, Good s log →
    Good (typedefLines l s) (log ++ l.map (fun d => (path s.ns, d))) ∧ (typedefLines l s).ns = s.ns := by
  intro l
  induction l with
  | nil => intro s log h; exact ⟨by simpa [typedefLines] using h, rfl⟩
  | cons d l ih =>
    intro s log h
    have h1 : Good { s with out := s.out ++ [.typedef s.indent d] } (log ++ [(path s.ns, d)]) := by
      refine ⟨h.indent, ?_, noEmpty_snoc h.full rfl⟩
      refine scan_then h.scan ?_
      simp [scan, h.indent]
    obtain ⟨h2, h3⟩ := ih h1
    exact ⟨by simpa [typedefLines] using h2, h3⟩

theorem good_typedefs : ∀ (m : SMap (List Str)), (∀ e ∈ m, e.2 ≠ []) → ∀ {s : St} {log}, Good s log →
    Good (generateTypedefs m s) (log ++ lines m) := by
  intro m
  induction m with
  | nil => intro _ s log h; simpa [generateTypedefs, lines] using h
  | cons e m ih =>
    intro hne s log h
    obtain ⟨ns, l⟩ := e
    cases l with
    | nil => exact absurd rfl (hne (ns, []) (by simp))
    | cons d l =>
      obtain ⟨c, o, h1, h2, h3, h4, h5, h6, h7, h8⟩ := adapt_spec s ns h.indent
      have hg := good_line h ns (.typedef (adaptNamespace s ns).indent d) d (by simp [scan, h5]) rfl (by simp)
      obtain ⟨h9, h10⟩ := good_typedefLines l hg
      have := ih (fun e he => hne e (by simp [he])) h9
      rw [generateTypedefs, typedefLines]
      have e : ∀ (x : St), x.ns = (adaptNamespace s ns).ns → path x.ns = path ns := by
        intro x hx; rw [hx, h2]
      simp only [e _ rfl] at this
      simpa [lines] using this

/-- the typedefs of a namespace: in the order of the requests -/
theorem typedefs_spec (l : List (Str × Str)) :
    let m := l.foldl (fun m d => upsert d.1 (fun old => old.getD [] ++ [d.2]) m) ([] : SMap (List Str))
    MSorted m ∧ (∀ e ∈ m, e.2 ≠ []) ∧
    ∀ ns, (find m ns).getD [] = (l.filter (fun d => d.1 == ns)).map (·.2) := by
  have gen : ∀ (l : List (Str × Str)) (m : SMap (List Str)), MSorted m → (∀ e ∈ m, e.2 ≠ []) →
      MSorted (l.foldl (fun m d => upsert d.1 (fun old => old.getD [] ++ [d.2]) m) m) ∧
      (∀ e ∈ l.foldl (fun m d => upsert d.1 (fun old => old.getD [] ++ [d.2]) m) m, e.2 ≠ []) ∧
      ∀ ns, (find (l.foldl (fun m d => upsert d.1 (fun old => old.getD [] ++ [d.2]) m) m) ns).getD [] =
        (find m ns).getD [] ++ (l.filter (fun d => d.1 == ns)).map (·.2) := by
    intro l
    induction l with
    | nil => intro m hs hm; exact ⟨hs, hm, by simp⟩
    | cons d l ih =>
      intro m hs hm
      have hs' := sorted_upsert d.1 (fun old => old.getD [] ++ [d.2]) hs
      have hm' : ∀ e ∈ upsert d.1 (fun old => old.getD [] ++ [d.2]) m, e.2 ≠ [] := by
        intro e he
        have h1 := (mem_iff_find hs').mp he
        rw [find_upsert _ _ hs] at h1
        by_cases hk : d.1 = e.1
        · rw [if_pos hk] at h1
          have := Option.some.inj h1
          rw [← this]; simp
        · rw [if_neg hk] at h1
          exact hm e ((mem_iff_find hs).mpr h1)
      obtain ⟨g1, g2, g3⟩ := ih _ hs' hm'
      refine ⟨g1, g2, fun ns => ?_⟩
      rw [List.foldl_cons, g3, find_upsert _ _ hs]
      by_cases hk : d.1 = ns
      · subst hk; simp
      · simp [hk]
  obtain ⟨g1, g2, g3⟩ := gen l [] (by simp [MSorted]) (by simp)
  exact ⟨g1, g2, fun ns => by simpa [find] using g3 ns⟩

/-! ### Theorems -/

/-- An export with a new exporter object, of any types in any order, that does not fail, writes balanced modules:
every module that is opened is closed and contains something; each definition is inside exactly the modules of its
namespace, in the order of the calls; then come the typedefs, grouped by namespace, each inside the modules of its
namespace; module and typedef lines are indented by their depth. -/
theorem C40_balanced {H : Heap} {o : Opts} {f : Nat} {items : List Item} {s : St}
    (h : export_ H o f St.new items = .ok s) : ∃ (as : List Act) (s1 : St) (m : SMap (List Str)),
    Acts H o f St.new items as s1 ∧
    scan [] s.out = some ((defs as).map (fun d => (path d.1, d.2)) ++ lines m, []) ∧
    noEmpty s.out = true ∧
    MSorted m ∧ ∀ ns, (find m ns).getD [] = ((tdefs as).filter (fun d => d.1 == ns)).map (·.2) := by
  obtain ⟨s1, h1, h2⟩ := Res.bind_eq_ok.mp h
  obtain ⟨as, ha⟩ := saveAll_acts h1
  obtain ⟨hg, ht⟩ := good_acts ha good_new
  obtain ⟨t1, t2, t3⟩ := typedefs_spec (tdefs as)
  rw [show St.new.typedefs = [] from rfl] at ht
  rw [← ht] at t1 t2 t3
  have hg2 := good_typedefs s1.typedefs t2 hg
  cases h2
  have hn : namespaceIndentLevel (generateTypedefs s1.typedefs s1).ns = (path (generateTypedefs s1.typedefs s1).ns).length := by
    simp [namespaceIndentLevel, path]
  obtain ⟨evs, c1, _, _, _, _, c6, c7⟩ := close_spec (namespaceIndentLevel (generateTypedefs s1.typedefs s1).ns)
    (generateTypedefs s1.typedefs s1) _ hg2.indent (by omega)
  refine ⟨as, s1, s1.typedefs, ha, ?_, ?_, t1, t3⟩
  · unfold finish
    simp only [c1]
    have := scan_then hg2.scan c6
    rw [hn] at this
    simpa using this
  · unfold finish
    simp only [c1]
    apply noEmpty_append hg2.full
    clear c1 c6
    induction evs with
    | nil => rfl
    | cons x c ih =>
      have hx := c7 x (by simp)
      have := ih (fun y hy => c7 y (by simp [hy]))
      cases x <;> simp [isOpen] at hx <;> simpa [noEmpty] using this

end Verif.Idl
