import Verif.ParallelLoadClean

/-!
# C74: loading with several threads

For every number of threads, every interleaving and every outcome of the
external tools: if `load` returns, each required file was given to the tool
once and the registry made from it was merged once; a failing tool makes `load`
raise, with the caller's registry untouched; `load` never deadlocks; and the
job server's tokens are respected and returned.
-/

namespace Verif.PLoad

open Classical

variable {F X R G E : Type}

/-- One required file with the document the tool made of it and the registry
this document was converted to. -/
structure Job (F X R : Type) where
  file : F
  xml : X
  reg : R

/-- The history contains this work. -/
def Job.Done (tr : List (Event F X R E)) (j : Job F X R) : Prop :=
  .parsed j.file (.ok j.xml) ∈ tr ∧ .converted j.xml (.ok j.reg) ∈ tr

theorem start_facts (files : List F) (k : Nat) (pool : Option Nat) (g : G) :
    let s : St F X R G E := start files k pool g
    exns s.ps s.r = [] ∧ tokens s.ps s.r = 0 ∧ (∀ p ∈ s.ps, p = .start) ∧
      s.ps.flatMap PState.file = [] := by
  dsimp only [start]
  have hp : ∀ p ∈ List.replicate k (PState.start : PState F X E), p = .start :=
    fun p h => (List.mem_replicate.mp h).2
  refine ⟨?_, ?_, hp, List.flatMap_eq_nil_iff.mpr fun p h => by rw [hp p h]; rfl⟩
  · simp only [exns, RState.exn, List.append_nil]
    exact List.flatMap_eq_nil_iff.mpr fun p h => by rw [hp p h]; rfl
  · simp [tokens, RState.tok, PState.tok]

theorem ended_failures {T : Tools F X R G E} {s0 s : St F X R G E} {tr : List (Event F X R E)}
    (hx : exns s0.ps s0.r = []) (h : Run T s0 tr s) (ha : AllEnded s) (hr : s.r = .ended) :
    failures tr = [] := by
  refine List.eq_nil_iff_forall_not_mem.mpr fun e he => ?_
  rw [← exns_iff hx h e, exns, hr] at he
  simp only [RState.exn, List.append_nil, List.mem_flatMap] at he
  obtain ⟨p, hp, he⟩ := he
  rw [ha p hp] at he
  cases he

/-- The tool calls of a history which succeeded, with their documents. -/
def parsePairs : List (Event F X R E) → List (F × X)
  | [] => []
  | .parsed f (.ok x) :: tr => (f, x) :: parsePairs tr
  | _ :: tr => parsePairs tr

def convPairs : List (Event F X R E) → List (X × R)
  | [] => []
  | .converted x (.ok r) :: tr => (x, r) :: convPairs tr
  | _ :: tr => convPairs tr

theorem pairs_spec (tr : List (Event F X R E)) (h1 : failures tr = []) (h2 : swallowed tr = 0) :
    (parsePairs tr).map (·.1) = parsedFiles tr ∧ (parsePairs tr).map (·.2) = produced tr ∧
    (convPairs tr).map (·.1) = convertedXml tr ∧ (convPairs tr).map (·.2) = results tr ∧
    (∀ p ∈ parsePairs tr, .parsed p.1 (.ok p.2) ∈ tr) ∧
    (∀ p ∈ convPairs tr, .converted p.1 (.ok p.2) ∈ tr) := by
  induction tr with
  | nil => exact ⟨rfl, rfl, rfl, rfl, nofun, nofun⟩
  | cons ev tr ih =>
    cases ev with
    | parsed f o =>
      cases o with
      | ok x =>
        obtain ⟨a, b, c, d, e, g⟩ := ih h1 h2
        refine ⟨by simp [parsePairs, parsedFiles, a], by simp [parsePairs, produced, b], c, d, ?_,
          fun p hp => List.mem_cons_of_mem _ (g p hp)⟩
        intro p hp
        rcases List.mem_cons.mp hp with rfl | hp
        · exact List.mem_cons_self
        · exact List.mem_cons_of_mem _ (e p hp)
      | err e => cases h1
      | quiet => cases h2
    | converted x o =>
      cases o with
      | ok r =>
        obtain ⟨a, b, c, d, e, g⟩ := ih h1 h2
        refine ⟨a, b, by simp [convPairs, convertedXml, c], by simp [convPairs, results, d],
          fun p hp => List.mem_cons_of_mem _ (e p hp), ?_⟩
        intro p hp
        rcases List.mem_cons.mp hp with rfl | hp
        · exact List.mem_cons_self
        · exact List.mem_cons_of_mem _ (g p hp)
      | err e => cases h1
      | quiet => cases h2
    | _ =>
      obtain ⟨a, b, c, d, e, g⟩ := ih h1 h2
      exact ⟨a, b, c, d, fun p hp => List.mem_cons_of_mem _ (e p hp),
        fun p hp => List.mem_cons_of_mem _ (g p hp)⟩

theorem join_pairs (P : List (F × X)) : ∀ (C : List (X × R)),
    (∀ x, (P.map (·.2)).count x = (C.map (·.1)).count x) →
    ∃ js : List (Job F X R), js.map (·.file) = P.map (·.1) ∧
      (∀ j ∈ js, (j.file, j.xml) ∈ P ∧ (j.xml, j.reg) ∈ C) ∧
      (js.map (·.reg)).Perm (C.map (·.2)) := by
  induction P with
  | nil =>
    intro C h
    cases C with
    | nil => exact ⟨[], rfl, nofun, .nil⟩
    | cons c C => have := h c.1; simp at this
  | cons p P ih =>
    intro C h
    have hm : p.2 ∈ C.map (·.1) := by
      have := h p.2
      simp only [List.map_cons, List.count_cons_self] at this
      exact List.count_pos_iff.mp (by omega)
    obtain ⟨⟨x, r⟩, hc, hx⟩ := List.mem_map.mp hm
    dsimp only at hx
    obtain ⟨C1, C2, rfl⟩ := List.append_of_mem hc
    obtain ⟨js, h1, h2, h3⟩ := ih (C1 ++ C2) fun y => by
      have := h y
      simp [List.count_cons, hx] at this ⊢
      omega
    refine ⟨⟨p.1, p.2, r⟩ :: js, by simp [h1], ?_, ?_⟩
    · intro j hj
      rcases List.mem_cons.mp hj with rfl | hj
      · exact ⟨by simp, by rw [← hx]; simp⟩
      · obtain ⟨a, b⟩ := h2 j hj
        refine ⟨List.mem_cons_of_mem _ a, ?_⟩
        rcases List.mem_append.mp b with b | b
        · exact List.mem_append_left _ b
        · exact List.mem_append_right _ (List.mem_cons_of_mem _ b)
    · simp only [List.map_cons, List.map_append] at h3 ⊢
      exact (h3.cons r).trans List.perm_middle.symm

/-- C74: when `load` returns, the tool was run on the required files, once for
each; every document it produced was converted once; and the caller's registry
is the result of merging, one after the other and each successfully, exactly
the registries so obtained.  No exception was raised on the way.  The order of
the merges is left open, and so is what happens when a tool raises one of the
exceptions that end a thread silently (`C74_cex_swallowed`). -/
theorem C74_return_partial {T : Tools F X R G E} {files : List F} {k : Nat} {pool : Option Nat}
    {g : G} {tr : List (Event F X R E)} {s : St F X R G E} (hk : 0 < k)
    (h : Run T (start files k pool g) tr s) (hd : s.m = .done) (hq : swallowed tr = 0) :
    failures tr = [] ∧ (parsedFiles tr).Perm files ∧
    ∃ js : List (Job F X R), (js.map (·.file)).Perm files ∧ (∀ j ∈ js, j.Done tr) ∧
      (mergedRegs tr).Perm (js.map (·.reg)) ∧ MergeAll T g (mergedRegs tr) s.reg := by
  obtain ⟨hx, ht, hp, hfl⟩ := start_facts (F := F) (X := X) (R := R) (E := E) files k pool g
  have hat := at_main hx rfl rfl h
  rw [hd] at hat
  obtain ⟨ha, hr, hm, hrq⟩ := hat
  have hf := ended_failures hx h ha hr
  obtain ⟨c1, c2, c3, c4, c5⟩ := clean_run hx rfl rfl rfl rfl rfl hp h hf hq
  have hlen := length_eq h
  have hne : ∃ p, p ∈ s.ps := by
    cases hps : s.ps with
    | nil => rw [hps] at hlen; simp [start] at hlen; omega
    | cons p ps => exact ⟨p, by simp⟩
  obtain ⟨p, hp1⟩ := hne
  have hfq := c4 (by rw [← ha p hp1]; exact hp1)
  have hff : s.ps.flatMap PState.file = [] :=
    List.flatMap_eq_nil_iff.mpr fun p h => by rw [ha p h]; rfl
  have hfx : s.ps.flatMap PState.xml = [] :=
    List.flatMap_eq_nil_iff.mpr fun p h => by rw [ha p h]; rfl
  have hxq : s.xmlQ = [] := by
    rw [hd] at c5
    rcases c5 with h | h
    · exact absurd hr h.1
    · exact h.2
  have hperm : (parsedFiles tr).Perm files := List.perm_iff_count.mpr fun f => by
    have := c1 f
    rw [hfq, hff] at this
    simpa [start] using this
  obtain ⟨p1, p2, p3, p4, p5, p6⟩ := pairs_spec tr hf hq
  obtain ⟨js, j1, j2, j3⟩ := join_pairs (parsePairs tr) (convPairs tr) fun x => by
    rw [p2, p3]
    have := c2 x
    rw [hfx, hxq, hr] at this
    simpa [RState.xml] using this.symm
  refine ⟨hf, hperm, js, by rw [j1, p1]; exact hperm,
    fun j hj => ⟨p5 _ (j2 j hj).1, p6 _ (j2 j hj).2⟩, ?_, hm⟩
  refine List.Perm.trans ?_ j3.symm
  rw [p4]
  refine List.perm_iff_count.mpr fun r => ?_
  have := c3 r
  rw [hr, hrq] at this
  simpa [RState.res] using this

/-- C74: when `load` raises, either a tool or a conversion has raised that very
exception, and the caller's registry has not been touched; or everything went
well up to the merges and one of them has raised it, the registry being what
the earlier merges and the failed one have made of it. -/
theorem C74_raise_partial {T : Tools F X R G E} {files : List F} {k : Nat} {pool : Option Nat}
    {g : G} {tr : List (Event F X R E)} {s : St F X R G E} {e : E}
    (h : Run T (start files k pool g) tr s) (hd : s.m = .raised e) :
    (e ∈ failures tr ∧ mergedRegs tr = [] ∧ s.reg = g) ∨
    (failures tr = [] ∧ ∃ rs r g1, mergedRegs tr = rs ++ [r] ∧ MergeAll T g rs g1 ∧
      T.merge g1 r = (s.reg, some e)) := by
  obtain ⟨hx, ht, hp, hfl⟩ := start_facts (F := F) (X := X) (R := R) (E := E) files k pool g
  have hat := at_main hx rfl rfl h
  rw [hd] at hat
  rcases hat with ⟨⟨h1, h2⟩, h3⟩ | ⟨rs, r, g1, h1, h2, h3, h4, h5⟩
  · exact .inl ⟨h3, h1, h2⟩
  · exact .inr ⟨ended_failures hx h h4 h5, rs, r, g1, h1, h2, h3⟩

/-- C74: a tool call or a conversion that raises is never lost: `load` then does
not return, and until it raises nothing is merged. -/
theorem C74_error_not_lost {T : Tools F X R G E} {files : List F} {k : Nat} {pool : Option Nat}
    {g : G} {tr : List (Event F X R E)} {s : St F X R G E}
    (h : Run T (start files k pool g) tr s) (hf : failures tr ≠ []) :
    s.m ≠ .done ∧ mergedRegs tr = [] ∧ s.reg = g := by
  obtain ⟨hx, ht, hp, hfl⟩ := start_facts (F := F) (X := X) (R := R) (E := E) files k pool g
  have hat := at_main hx rfl rfl h
  have no : ∀ {P : Prop}, AllEnded s → s.r = .ended → P :=
    fun ha hr => absurd (ended_failures hx h ha hr) hf
  generalize hm : s.m = m at hat
  cases m with
  | put => exact ⟨nofun, hat.1, hat.2⟩
  | join i => exact ⟨nofun, hat.1.1, hat.1.2⟩
  | nil => exact ⟨nofun, hat.1.1, hat.1.2⟩
  | nilE e => exact ⟨nofun, hat.1.1, hat.1.2⟩
  | joinR => exact ⟨nofun, hat.1.1, hat.1.2⟩
  | get => exact ⟨nofun, hat.1.1, hat.1.2⟩
  | getE e => exact ⟨nofun, hat.1.1, hat.1.2⟩
  | merge => exact no hat.1 hat.2.1
  | done => exact no hat.1 hat.2.1
  | raised e =>
    rcases hat with ⟨⟨h1, h2⟩, h3⟩ | ⟨rs, r, g1, h1, h2, h3, h4, h5⟩
    · exact ⟨nofun, h1, h2⟩
    · exact no h4 h5

/-- C74: in every execution, failing ones included, no file is given to the tool
more often than it was required. -/
theorem C74_at_most_once {T : Tools F X R G E} {files : List F} {k : Nat} {pool : Option Nat}
    {g : G} {tr : List (Event F X R E)} {s : St F X R G E}
    (h : Run T (start files k pool g) tr s) (f : F) :
    (parsedFiles tr).count f ≤ files.count f := by
  obtain ⟨hx, ht, hp, hfl⟩ := start_facts (F := F) (X := X) (R := R) (E := E) files k pool g
  have := atMost hfl h f
  simp only [start] at this
  omega

/-! ## `load` ends -/

def PState.weight : PState F X E → Nat
  | .start => 5
  | .want _ => 23
  | .run _ => 21
  | .push _ => 19
  | .clear1 _ => 4
  | .clear2 _ => 3
  | .ended => 0
  | .dead _ => 0

def RState.weight : RState X R E → Nat
  | .pop => 5
  | .want _ => 15
  | .run _ => 13
  | .push _ => 11
  | .clear1 _ => 4
  | .clear2 _ => 3
  | .ended => 0
  | .dead _ => 0

def xmlWeight : Option X → Nat
  | none => 1
  | some _ => 12

def MState.weight (k : Nat) : MState E → Nat
  | .put => 20 + k
  | .join i => 10 + (k - i)
  | .nil => 9
  | .nilE _ => 9
  | .joinR => 6
  | .get => 5
  | .getE _ => 5
  | .merge => 4
  | .done => 0
  | .raised _ => 0

/-- How many steps are left at most. -/
def weight (s : St F X R G E) : Nat :=
  20 * s.fileQ.length + (s.xmlQ.map xmlWeight).sum + 3 * s.regQ.length +
    (s.ps.map PState.weight).sum + s.r.weight + s.m.weight s.ps.length

theorem step_weight {T : Tools F X R G E} {s s' : St F X R G E} {ev : Event F X R E}
    (h : Step T s ev s') : weight s' < weight s := by
  cases h with
  | parser l r p p' ev fq xq k hps hp =>
    obtain ⟨_, _, _, _, sr, _, _, _⟩ := s
    dsimp only at hp hps ⊢
    subst hps
    cases hp <;> simp [weight, PState.weight, xmlWeight] <;> omega
  | registry r' ev xq rq k hr =>
    obtain ⟨_, _, _, _, sr, _, _, _⟩ := s
    dsimp only at hr ⊢
    cases hr <;> simp [weight, RState.weight, xmlWeight] <;> omega
  | mainJoin i hm hp =>
    have : i < s.ps.length := by
      rcases Nat.lt_or_ge i s.ps.length with h | h
      · exact h
      · rw [List.getElem?_eq_none h] at hp; cases hp
    simp [weight, hm, MState.weight]; omega
  | mainMerge r rq g hm hq hg => simp [weight, hm, hq, MState.weight]
  | mainMergeErr r rq g e hm hq hg => simp [weight, hm, hq, MState.weight]; omega
  | _ => simp_all [weight, MState.weight, xmlWeight] <;> omega

theorem run_weight {T : Tools F X R G E} {s0 s : St F X R G E} {tr : List (Event F X R E)}
    (h : Run T s0 tr s) : tr.length + weight s ≤ weight s0 := by
  induction h with
  | init => simp
  | step _ hs ih => have := step_weight hs; simp; omega
  | other _ ho ih => cases ho; exact ih

/-- C74: every execution is finite: `load` and its threads together make at most
20 steps per file, 6 per parsing thread and 25 more. -/
theorem C74_bounded {T : Tools F X R G E} {files : List F} {k : Nat} {pool : Option Nat}
    {g : G} {tr : List (Event F X R E)} {s : St F X R G E}
    (h : Run T (start files k pool g) tr s) :
    tr.length ≤ 20 * files.length + 6 * k + 25 := by
  have := run_weight h
  have h0 : weight (start files k pool g : St F X R G E) = 20 * files.length + 6 * k + 25 := by
    simp [weight, start, RState.weight, MState.weight, PState.weight]; omega
  omega

theorem take_ne {k : Option Nat} (h : k ≠ some 0) : ∃ k', take k = some k' := by
  match k with
  | none => exact ⟨none, rfl⟩
  | some 0 => exact absurd rfl h
  | some (n + 1) => exact ⟨some n, rfl⟩

/-- A parsing thread which has not ended can go on, unless it waits for a token. -/
theorem parser_step {T : Tools F X R G E} (hT : ∀ f, ∃ o, T.parse f o) {s : St F X R G E}
    {p : PState F X E} (hp : p ∈ s.ps) (h1 : p ≠ .ended) (h2 : ∀ e, p ≠ .dead e)
    (h3 : s.pool = some 0 → ∀ f, p ≠ .want f) : ∃ ev s', Step T s ev s' := by
  obtain ⟨l, r, hps⟩ := List.append_of_mem hp
  have : ∃ ev y, PStep T (s.fileQ, s.xmlQ, s.pool, p) ev y := by
    obtain ⟨sf, sx, srq, sps, sr, sm, sk, sg⟩ := s
    dsimp only at *
    cases p with
    | start =>
      cases sf with
      | nil => exact ⟨_, _, .empty _ _⟩
      | cons f fq => exact ⟨_, _, .pop _ _ _ _⟩
    | want f =>
      obtain ⟨k', hk⟩ := take_ne fun h => h3 h f rfl
      exact ⟨_, _, .acquire _ _ _ _ _ hk⟩
    | run f =>
      obtain ⟨o, ho⟩ := hT f
      cases o with
      | ok x => exact ⟨_, _, .ok _ _ _ _ _ ho⟩
      | err e => exact ⟨_, _, .err _ _ _ _ _ ho⟩
      | quiet => exact ⟨_, _, .quiet _ _ _ _ ho⟩
    | push x => exact ⟨_, _, .push _ _ _ _⟩
    | clear1 e => exact ⟨_, _, .clear1 _ _ _ _⟩
    | clear2 e => exact ⟨_, _, .clear2 _ _ _ _⟩
    | ended => exact absurd rfl h1
    | dead e => exact absurd rfl (h2 e)
  obtain ⟨ev, ⟨a, b, c, d⟩, hst⟩ := this
  exact ⟨ev, _, .parser s l r p d ev a b c hps hst⟩

/-- So can the registry thread, unless it waits for a token or a document. -/
theorem registry_step {T : Tools F X R G E} (hT : ∀ x, ∃ o, T.conv x o) {s : St F X R G E}
    (h1 : s.r ≠ .ended) (h2 : ∀ e, s.r ≠ .dead e) (h3 : s.pool = some 0 → ∀ x, s.r ≠ .want x)
    (h4 : s.r = .pop → s.xmlQ ≠ []) : ∃ ev s', Step T s ev s' := by
  have : ∃ ev y, RStep T (s.xmlQ, s.regQ, s.pool, s.r) ev y := by
    obtain ⟨sf, sx, srq, sps, sr, sm, sk, sg⟩ := s
    dsimp only at *
    cases sr with
    | pop =>
      cases sx with
      | nil => exact absurd rfl (h4 rfl)
      | cons x xq =>
        cases x with
        | none => exact ⟨_, _, .last _ _ _⟩
        | some x => exact ⟨_, _, .pop _ _ _ _⟩
    | want f =>
      obtain ⟨k', hk⟩ := take_ne fun h => h3 h f rfl
      exact ⟨_, _, .acquire _ _ _ _ _ hk⟩
    | run f =>
      obtain ⟨o, ho⟩ := hT f
      cases o with
      | ok x => exact ⟨_, _, .ok _ _ _ _ _ ho⟩
      | err e => exact ⟨_, _, .err _ _ _ _ _ ho⟩
      | quiet => exact ⟨_, _, .quiet _ _ _ _ ho⟩
    | push x => exact ⟨_, _, .push _ _ _ _⟩
    | clear1 e => exact ⟨_, _, .clear1 _ _ _ _⟩
    | clear2 e => exact ⟨_, _, .clear2 _ _ _ _⟩
    | ended => exact absurd rfl h1
    | dead e => exact absurd rfl (h2 e)
  obtain ⟨ev, ⟨a, b, c, d⟩, hst⟩ := this
  exact ⟨ev, _, .registry s d ev a b c hst⟩

/-- Whoever holds a token can go on. -/
theorem holder_step {T : Tools F X R G E} (h1 : ∀ f, ∃ o, T.parse f o) (h2 : ∀ x, ∃ o, T.conv x o)
    {s : St F X R G E} (h : 0 < tokens s.ps s.r) : ∃ ev s', Step T s ev s' := by
  rcases Nat.eq_zero_or_pos s.r.tok with hr | hr
  · have : ∃ p ∈ s.ps, p.tok ≠ 0 := by
      refine Classical.byContradiction fun hn => ?_
      have hz : (s.ps.map PState.tok).sum = 0 := by
        clear h
        generalize s.ps = l at hn
        induction l with
        | nil => rfl
        | cons p l ih =>
          have h1 : p.tok = 0 := Classical.byContradiction fun h => hn ⟨p, by simp, h⟩
          have h2 := ih fun ⟨q, hq, h⟩ => hn ⟨q, List.mem_cons_of_mem _ hq, h⟩
          simp [h1, h2]
      simp only [tokens] at h
      omega
    obtain ⟨p, hp, hpt⟩ := this
    cases p with
    | run f => exact parser_step h1 hp nofun nofun (fun _ => nofun)
    | _ => exact absurd rfl hpt
  · generalize hq : s.r = q at hr
    cases q with
    | run x =>
      refine registry_step h2 ?_ ?_ ?_ ?_
      · rw [hq]; nofun
      · rw [hq]; nofun
      · rw [hq]; exact fun _ => nofun
      · rw [hq]; nofun
    | _ => cases hr

theorem take_none {k : Option Nat} (h : take none = some k) : k = none := by
  injection h with h; exact h.symm

theorem pool_none {T : Tools F X R G E} {s0 s : St F X R G E} {tr : List (Event F X R E)}
    (hsh : T.shared = false) (h0 : s0.pool = none) (h : Run T s0 tr s) : s.pool = none := by
  induction h with
  | init => exact h0
  | @step tr s s' ev _ hs ih =>
    cases hs with
    | parser l r p p' ev fq xq k hps hp =>
      obtain ⟨_, _, _, _, sr, _, _, _⟩ := s
      dsimp only at ih hp ⊢
      subst ih
      cases hp <;> first | rfl | (rename_i ht; exact take_none ht)
    | registry r' ev xq rq k hr =>
      obtain ⟨_, _, _, _, sr, _, _, _⟩ := s
      dsimp only at ih hr ⊢
      subst ih
      cases hr <;> first | rfl | (rename_i ht; exact take_none ht)
    | mainGet k hm ht => rw [ih] at ht; exact take_none ht
    | mainGetErr e k hm ht => rw [ih] at ht; exact take_none ht
    | mainPut hm => simp [ih, give]
    | _ => exact ih
  | other _ ho ih => cases ho with | mk n n' h => rw [hsh] at h; cases h

/-- C74: `load` never waits for itself.  As long as it has neither returned nor
raised, it or one of its threads can make a step, whatever has happened before;
the one exception is a job server shared with other processes which has no
token left while `load` and its threads hold none. -/
theorem C74_no_deadlock {T : Tools F X R G E} {files : List F} {k : Nat} {pool : Option Nat}
    {g : G} {tr : List (Event F X R E)} {s : St F X R G E}
    (h1 : ∀ f, ∃ o, T.parse f o) (h2 : ∀ x, ∃ o, T.conv x o)
    (h : Run T (start files k pool g) tr s) (hn : ¬ Finished s.m) :
    (∃ ev s', Step T s ev s') ∨
      (T.shared = true ∧ s.pool = some 0 ∧ acquired tr + 1 = released tr) := by
  obtain ⟨hx, ht, hp, hfl⟩ := start_facts (F := F) (X := X) (R := R) (E := E) files k pool g
  have htok := tokens_eq ht rfl h
  have hat := at_main hx rfl rfl h
  -- either a token is there, or a thread of ours holds one, or the exception
  have key : s.m ≠ .put → s.m.taken = 0 → s.pool ≠ some 0 ∨ (∃ ev s', Step T s ev s') ∨
      (T.shared = true ∧ s.pool = some 0 ∧ acquired tr + 1 = released tr) := by
    intro hput ht
    rcases Classical.em (s.pool = some 0) with h0 | h0
    · right
      rcases Nat.eq_zero_or_pos (tokens s.ps s.r) with hz | hz
      · have hg : s.m.given = 1 := by
          generalize s.m = m at hput; cases m <;> first | rfl | exact absurd rfl hput
        cases hsh : T.shared with
        | true => exact .inr ⟨rfl, h0, by omega⟩
        | false =>
          cases pool with
          | some n0 =>
            obtain ⟨n, hn1, hn2⟩ := pool_eq hsh rfl h
            rw [h0] at hn1
            injection hn1 with hn1
            omega
          | none =>
            rw [pool_none hsh rfl h] at h0; cases h0
      · exact .inl (holder_step h1 h2 hz)
    · exact .inl h0
  generalize hm : s.m = m at *
  cases m with
  | put => exact .inl ⟨_, _, .mainPut s hm⟩
  | join i =>
    rcases key nofun rfl with hk | hk
    · left
      rcases Nat.lt_trichotomy i s.ps.length with hi | hi | hi
      · have hget := List.getElem?_eq_getElem hi
        rcases Classical.em (s.ps[i] = .ended) with he | he
        · exact ⟨_, _, .mainJoin s i hm (by rw [hget, he])⟩
        rcases Classical.em (∃ e, s.ps[i] = .dead e) with ⟨e, he'⟩ | he'
        · exact ⟨_, _, .mainJoinErr s i e hm (by rw [hget, he'])⟩
        · exact parser_step h1 (List.getElem_mem hi) he (fun e hh => he' ⟨e, hh⟩)
            (fun hh => absurd hh hk)
      · exact ⟨_, _, .mainJoined s (by rw [hm, hi])⟩
      · have := hat.2 s.ps.length hi
        simp at this
    · exact hk
  | nil => exact .inl ⟨_, _, .mainNil s hm⟩
  | nilE e => exact .inl ⟨_, _, .mainNilErr s e hm⟩
  | joinR =>
    rcases key nofun rfl with hk | hk
    · left
      rcases Classical.em (s.r = .ended) with he | he
      · exact ⟨_, _, .mainJoinR s hm he⟩
      rcases Classical.em (∃ e, s.r = .dead e) with ⟨e, he'⟩ | he'
      · exact ⟨_, _, .mainJoinRErr s e hm he'⟩
      · refine registry_step h2 he (fun e hh => he' ⟨e, hh⟩) (fun hh => absurd hh hk) ?_
        intro hpop hq
        rcases hat.2.2 with hh | hh | hh
        · exact he hh
        · rw [hpop] at hh; exact hh rfl
        · rw [hq] at hh; cases hh
    · exact hk
  | get =>
    rcases key nofun rfl with hk | hk
    · obtain ⟨k', hk'⟩ := take_ne hk
      exact .inl ⟨_, _, .mainGet s k' hm hk'⟩
    · exact hk
  | getE e =>
    rcases key nofun rfl with hk | hk
    · obtain ⟨k', hk'⟩ := take_ne hk
      exact .inl ⟨_, _, .mainGetErr s e k' hm hk'⟩
    · exact hk
  | merge =>
    left
    cases hq : s.regQ with
    | nil => exact ⟨_, _, .mainDone s hm hq⟩
    | cons r rq =>
      rcases hmg : T.merge s.reg r with ⟨g', oe⟩
      cases oe with
      | none => exact ⟨_, _, .mainMerge s r rq g' hm hq hmg⟩
      | some e => exact ⟨_, _, .mainMergeErr s r rq g' e hm hq hmg⟩
  | done => exact absurd trivial hn
  | raised e => exact absurd trivial hn

/-- C74: without other processes on the job server, an execution that cannot go
on is one in which `load` has returned or raised. -/
theorem C74_ends {T : Tools F X R G E} {files : List F} {k : Nat} {pool : Option Nat}
    {g : G} {tr : List (Event F X R E)} {s : St F X R G E}
    (h1 : ∀ f, ∃ o, T.parse f o) (h2 : ∀ x, ∃ o, T.conv x o) (h3 : T.shared = false)
    (h : Run T (start files k pool g) tr s) (hn : ∀ ev s', ¬ Step T s ev s') :
    Finished s.m := by
  refine Classical.byContradiction fun hf => ?_
  rcases C74_no_deadlock h1 h2 h hf with ⟨ev, s', hs⟩ | ⟨hs, _⟩
  · exact hn ev s' hs
  · rw [h3] at hs; cases hs

/-! ## The job server -/

theorem tokens_le (ps : List (PState F X E)) (r : RState X R E) : tokens ps r ≤ ps.length + 1 := by
  have h1 : (ps.map PState.tok).sum ≤ ps.length := by
    induction ps with
    | nil => simp
    | cons p ps ih =>
      have : p.tok ≤ 1 := by cases p <;> simp [PState.tok]
      simp; omega
  have h2 : r.tok ≤ 1 := by cases r <;> simp [RState.tok]
  simp only [tokens]; omega

/-- C74: `load` called with `parallel_level = k + 1` never has more than that
many tool calls and conversions going on at a time; with a job server of its
own, which has `n` tokens, never more than `n + 1` (the caller's own token
counts, as it is lent to the threads). -/
theorem C74_parallelism {T : Tools F X R G E} {files : List F} {k : Nat} {pool : Option Nat}
    {g : G} {tr : List (Event F X R E)} {s : St F X R G E}
    (h : Run T (start files k pool g) tr s) :
    tokens s.ps s.r ≤ k + 1 ∧
    ∀ n, pool = some n → T.shared = false → tokens s.ps s.r ≤ n + 1 := by
  obtain ⟨hx, ht, hp, hfl⟩ := start_facts (F := F) (X := X) (R := R) (E := E) files k pool g
  refine ⟨?_, ?_⟩
  · have := length_eq h
    have := tokens_le s.ps s.r
    simp [start] at *; omega
  · rintro n rfl hs
    obtain ⟨n', h1, h2⟩ := pool_eq hs rfl h
    have htok := tokens_eq ht rfl h
    have hg : s.m.given ≤ 1 := by generalize s.m = m; cases m <;> simp [MState.given]
    omega

/-- C74: once `load` has returned, every token it or its threads took from the
job server has been given back, and as many have been taken as given; once it
has raised, the difference is the tokens of the threads it left running. -/
theorem C74_tokens {T : Tools F X R G E} {files : List F} {k : Nat} {pool : Option Nat}
    {g : G} {tr : List (Event F X R E)} {s : St F X R G E}
    (h : Run T (start files k pool g) tr s) :
    (s.m = .done → acquired tr = released tr) ∧
    (∀ e, s.m = .raised e → acquired tr = released tr + tokens s.ps s.r) := by
  obtain ⟨hx, ht, hp, hfl⟩ := start_facts (F := F) (X := X) (R := R) (E := E) files k pool g
  have htok := tokens_eq ht rfl h
  refine ⟨fun hd => ?_, fun e hd => ?_⟩
  · have hat := at_main hx rfl rfl h
    rw [hd] at hat htok
    have hz : tokens s.ps s.r = 0 := by
      have ha := hat.1
      unfold AllEnded at ha
      rw [hat.2.1]
      generalize s.ps = l at ha
      induction l with
      | nil => rfl
      | cons p l ih =>
        have h1 := ha p (by simp)
        have h2 := ih fun q hq => ha q (List.mem_cons_of_mem _ hq)
        subst h1
        simp only [tokens, List.map_cons, List.sum_cons, PState.tok] at h2 ⊢
        omega
    simp only [MState.given, MState.taken] at htok
    omega
  · rw [hd] at htok
    simp only [MState.given, MState.taken] at htok
    omega

/-! ## Without threads -/

/-- `parsing_thread` called directly (`parallel_level <= 1`, gccxml.rb:1058-1059):
the documents in the queue when it ends, and the exception if it raises. -/
inductive ParseAll (T : Tools F X R G E) : List F → List X → Option E → Prop where
  | nil : ParseAll T [] [] none
  | ok {f : F} {x : X} {fs : List F} {xs : List X} : T.parse f (.ok x) → ParseAll T fs xs none →
      ParseAll T (f :: fs) (x :: xs) none
  | later {f : F} {x : X} {fs : List F} {e : E} : T.parse f (.ok x) → ParseAll T fs [] (some e) →
      ParseAll T (f :: fs) [] (some e)
  | err {f : F} {fs : List F} {e : E} : T.parse f (.err e) → ParseAll T (f :: fs) [] (some e)
  | quiet {f : F} {fs : List F} : T.parse f .quiet → ParseAll T (f :: fs) [] none

/-- `registry_thread` called directly (gccxml.rb:1060-1063). -/
inductive ConvAll (T : Tools F X R G E) : List X → List R → Option E → Prop where
  | nil : ConvAll T [] [] none
  | ok {x : X} {r : R} {xs : List X} {rs : List R} : T.conv x (.ok r) → ConvAll T xs rs none →
      ConvAll T (x :: xs) (r :: rs) none
  | later {x : X} {r : R} {xs : List X} {e : E} : T.conv x (.ok r) → ConvAll T xs [] (some e) →
      ConvAll T (x :: xs) [] (some e)
  | err {x : X} {xs : List X} {e : E} : T.conv x (.err e) → ConvAll T (x :: xs) [] (some e)
  | quiet {x : X} {xs : List X} : T.conv x .quiet → ConvAll T (x :: xs) [] none

/-- The final loop of `load` (gccxml.rb:1098). -/
def mergeLoop (T : Tools F X R G E) (g : G) : List R → G × Option E
  | [] => (g, none)
  | r :: rs =>
    match T.merge g r with
    | (g', none) => mergeLoop T g' rs
    | (g', some e) => (g', some e)

/-- `load` with `parallel_level <= 1`: the registry afterwards and the exception
(gccxml.rb:1046-1063, 1098). -/
inductive Sequential (T : Tools F X R G E) (files : List F) (g : G) : G → Option E → Prop where
  | parse {xs : List X} {e : E} : ParseAll T files xs (some e) → Sequential T files g g (some e)
  | conv {xs : List X} {rs : List R} {e : E} : ParseAll T files xs none →
      ConvAll T xs rs (some e) → Sequential T files g g (some e)
  | merge {xs : List X} {rs : List R} {g' : G} {oe : Option E} : ParseAll T files xs none →
      ConvAll T xs rs none → mergeLoop T g rs = (g', oe) → Sequential T files g g' oe

theorem ParseAll.spec {T : Tools F X R G E} (hq : ∀ f, ¬ T.parse f .quiet) {fs : List F}
    {xs : List X} {oe : Option E} (h : ParseAll T fs xs oe) : oe = none →
    xs.length = fs.length ∧ ∀ p ∈ fs.zip xs, T.parse p.1 (.ok p.2) := by
  induction h with
  | nil => exact fun _ => ⟨rfl, nofun⟩
  | ok hp _ ih =>
    intro _
    obtain ⟨h1, h2⟩ := ih rfl
    refine ⟨by simp [h1], fun p hm => ?_⟩
    rcases List.mem_cons.mp hm with rfl | hm
    · exact hp
    · exact h2 p hm
  | later | err => nofun
  | quiet hp => exact absurd hp (hq _)

theorem ConvAll.spec {T : Tools F X R G E} (hq : ∀ x, ¬ T.conv x .quiet) {fs : List X}
    {xs : List R} {oe : Option E} (h : ConvAll T fs xs oe) : oe = none →
    xs.length = fs.length ∧ ∀ p ∈ fs.zip xs, T.conv p.1 (.ok p.2) := by
  induction h with
  | nil => exact fun _ => ⟨rfl, nofun⟩
  | ok hp _ ih =>
    intro _
    obtain ⟨h1, h2⟩ := ih rfl
    refine ⟨by simp [h1], fun p hm => ?_⟩
    rcases List.mem_cons.mp hm with rfl | hm
    · exact hp
    · exact h2 p hm
  | later | err => nofun
  | quiet hp => exact absurd hp (hq _)

theorem MergeAll.cons {T : Tools F X R G E} {g g1 g2 : G} {r : R} {rs : List R}
    (h : T.merge g r = (g1, none)) (hm : MergeAll T g1 rs g2) : MergeAll T g (r :: rs) g2 := by
  induction hm with
  | nil => exact .snoc (.nil _) h
  | snoc _ h2 ih => exact .snoc ih h2

theorem mergeLoop_spec (T : Tools F X R G E) : ∀ (rs : List R) (g g' : G),
    mergeLoop T g rs = (g', none) → MergeAll T g rs g' := by
  intro rs
  induction rs with
  | nil => intro g g' h; injection h with h _; subst h; exact .nil _
  | cons r rs ih =>
    intro g g' h
    unfold mergeLoop at h
    split at h
    · rename_i g1 hm; exact .cons hm (ih _ _ h)
    · injection h with _ h; cases h

/-- C74: without threads, when `load` returns the registries made from the
required files have been merged in the order of the files. -/
theorem C74_sequential_partial {T : Tools F X R G E} {files : List F} {g g' : G}
    (h1 : ∀ f, ¬ T.parse f .quiet) (h2 : ∀ x, ¬ T.conv x .quiet)
    (h : Sequential T files g g' none) :
    ∃ js : List (Job F X R), js.map (·.file) = files ∧
      (∀ j ∈ js, T.parse j.file (.ok j.xml) ∧ T.conv j.xml (.ok j.reg)) ∧
      MergeAll T g (js.map (·.reg)) g' := by
  cases h with
  | @merge xs rs _ _ hp hc hm =>
    obtain ⟨l1, p1⟩ := hp.spec h1 rfl
    obtain ⟨l2, p2⟩ := hc.spec h2 rfl
    have hm := mergeLoop_spec T _ _ _ hm
    suffices H : ∀ (files : List F) (xs : List X) (rs : List R), xs.length = files.length →
        rs.length = xs.length → (∀ p ∈ files.zip xs, T.parse p.1 (.ok p.2)) →
        (∀ p ∈ xs.zip rs, T.conv p.1 (.ok p.2)) →
        ∃ js : List (Job F X R), js.map (·.file) = files ∧
          (∀ j ∈ js, T.parse j.file (.ok j.xml) ∧ T.conv j.xml (.ok j.reg)) ∧
          js.map (·.reg) = rs by
      obtain ⟨js, a, b, c⟩ := H files xs rs l1 l2 p1 p2
      exact ⟨js, a, b, by rw [c]; exact hm⟩
    intro files
    induction files with
    | nil =>
      intro xs rs l1 l2 _ _
      cases xs with
      | nil => cases rs with
        | nil => exact ⟨[], rfl, nofun, rfl⟩
        | cons => simp at l2
      | cons => simp at l1
    | cons f fs ih =>
      intro xs rs l1 l2 p1 p2
      cases xs with
      | nil => simp at l1
      | cons x xs =>
        cases rs with
        | nil => simp at l2
        | cons r rs =>
          obtain ⟨js, a, b, c⟩ := ih xs rs (by simpa using l1) (by simpa using l2)
            (fun p hp => p1 p (List.mem_cons_of_mem _ hp))
            (fun p hp => p2 p (List.mem_cons_of_mem _ hp))
          refine ⟨⟨f, x, r⟩ :: js, by simp [a], ?_, by simp [c]⟩
          intro j hj
          rcases List.mem_cons.mp hj with rfl | hj
          · exact ⟨p1 (f, x) (by simp), p2 (x, r) (by simp)⟩
          · exact b j hj

end Verif.PLoad
