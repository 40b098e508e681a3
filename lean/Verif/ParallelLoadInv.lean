import Verif.ParallelLoad

/-! Invariants of the executions of `GCCXMLLoader.load` (see `ParallelLoad`). -/

namespace Verif.PLoad

variable {F X R G E : Type}

/-! ## Histories, one event at a time -/

theorem parsedFiles_app (a b : List (Event F X R E)) :
    parsedFiles (a ++ b) = parsedFiles a ++ parsedFiles b := by
  induction a with
  | nil => rfl
  | cons ev a ih => cases ev <;> simp [parsedFiles, ih]

theorem produced_app (a b : List (Event F X R E)) :
    produced (a ++ b) = produced a ++ produced b := by
  induction a with
  | nil => rfl
  | cons ev a ih =>
    cases ev with
    | parsed f o => cases o <;> simp [produced, ih]
    | _ => simp [produced, ih]

theorem convertedXml_app (a b : List (Event F X R E)) :
    convertedXml (a ++ b) = convertedXml a ++ convertedXml b := by
  induction a with
  | nil => rfl
  | cons ev a ih => cases ev <;> simp [convertedXml, ih]

theorem results_app (a b : List (Event F X R E)) :
    results (a ++ b) = results a ++ results b := by
  induction a with
  | nil => rfl
  | cons ev a ih =>
    cases ev with
    | converted f o => cases o <;> simp [results, ih]
    | _ => simp [results, ih]

theorem mergedRegs_app (a b : List (Event F X R E)) :
    mergedRegs (a ++ b) = mergedRegs a ++ mergedRegs b := by
  induction a with
  | nil => rfl
  | cons ev a ih => cases ev <;> simp [mergedRegs, ih]

theorem failures_app (a b : List (Event F X R E)) :
    failures (a ++ b) = failures a ++ failures b := by
  induction a with
  | nil => rfl
  | cons ev a ih =>
    cases ev with
    | parsed f o => cases o <;> simp [failures, ih]
    | converted f o => cases o <;> simp [failures, ih]
    | _ => simp [failures, ih]

theorem mergeFailures_app (a b : List (Event F X R E)) :
    mergeFailures (a ++ b) = mergeFailures a ++ mergeFailures b := by
  induction a with
  | nil => rfl
  | cons ev a ih =>
    cases ev with
    | merged r o => cases o <;> simp [mergeFailures, ih]
    | _ => simp [mergeFailures, ih]

theorem swallowed_app (a b : List (Event F X R E)) :
    swallowed (a ++ b) = swallowed a + swallowed b := by
  induction a with
  | nil => simp [swallowed]
  | cons ev a ih =>
    cases ev with
    | parsed f o => cases o <;> simp [swallowed, ih] <;> omega
    | converted f o => cases o <;> simp [swallowed, ih] <;> omega
    | _ => simp [swallowed, ih]

theorem acquired_app (a b : List (Event F X R E)) :
    acquired (a ++ b) = acquired a + acquired b := by
  induction a with
  | nil => simp [acquired]
  | cons ev a ih => cases ev <;> simp [acquired, ih] <;> omega

theorem released_app (a b : List (Event F X R E)) :
    released (a ++ b) = released a + released b := by
  induction a with
  | nil => simp [released]
  | cons ev a ih => cases ev <;> simp [released, ih] <;> omega

/-! ## What the threads hold -/

/-- The file a parsing thread has taken and not finished with. -/
def PState.file : PState F X E → List F
  | .want f => [f]
  | .run f => [f]
  | _ => []

/-- The XML document a parsing thread has and has not passed on. -/
def PState.xml : PState F X E → List X
  | .push x => [x]
  | _ => []

/-- The tokens a parsing thread holds. -/
def PState.tok : PState F X E → Nat
  | .run _ => 1
  | _ => 0

/-- The exception by which a parsing thread is ending or has ended. -/
def PState.exn : PState F X E → List E
  | .clear1 e => [e]
  | .clear2 e => [e]
  | .dead e => [e]
  | _ => []

def RState.xml : RState X R E → List X
  | .want x => [x]
  | .run x => [x]
  | _ => []

def RState.res : RState X R E → List R
  | .push r => [r]
  | _ => []

def RState.tok : RState X R E → Nat
  | .run _ => 1
  | _ => 0

def RState.exn : RState X R E → List E
  | .clear1 e => [e]
  | .clear2 e => [e]
  | .dead e => [e]
  | _ => []

/-- The number of tokens held by the threads. -/
def tokens (ps : List (PState F X E)) (r : RState X R E) : Nat :=
  (ps.map PState.tok).sum + r.tok

/-- Whether the calling thread has given its token to the job server. -/
def MState.given : MState E → Nat
  | .put => 0
  | _ => 1

/-- Whether the calling thread has taken it back. -/
def MState.taken : MState E → Nat
  | .merge => 1
  | .done => 1
  | .raised _ => 1
  | _ => 0

/-- The exceptions by which threads are ending or have ended. -/
def exns (ps : List (PState F X E)) (r : RState X R E) : List E :=
  ps.flatMap PState.exn ++ r.exn

/-! ## The threads' exceptions -/

theorem exns_iff {T : Tools F X R G E} {s0 s : St F X R G E} {tr : List (Event F X R E)}
    (h0 : exns s0.ps s0.r = []) (h : Run T s0 tr s) (e : E) :
    e ∈ exns s.ps s.r ↔ e ∈ failures tr := by
  induction h with
  | init => simp [h0, failures]
  | @step tr s s' ev _ hs ih =>
    rw [failures_app, List.mem_append, ← ih]
    cases hs with
    | parser l r p p' ev fq xq k hps hp =>
      obtain ⟨_, _, _, _, sr, _, _, _⟩ := s
      dsimp only at hp hps ⊢
      subst hps
      cases hp <;> simp [exns, PState.exn, failures] <;> grind
    | registry r' ev xq rq k hr =>
      obtain ⟨_, _, _, _, sr, _, _, _⟩ := s
      dsimp only at hr ⊢
      cases hr <;> simp [exns, RState.exn, failures] <;> grind
    | _ => simp [failures, exns]
  | other _ ho ih => cases ho; exact ih

/-! ## Tokens -/

theorem tokens_eq {T : Tools F X R G E} {s0 s : St F X R G E} {tr : List (Event F X R E)}
    (h0 : tokens s0.ps s0.r = 0) (hm : s0.m = .put) (h : Run T s0 tr s) :
    acquired tr + s.m.given = released tr + tokens s.ps s.r + s.m.taken := by
  induction h with
  | init => rw [h0, hm]; rfl
  | @step tr s s' ev _ hs ih =>
    rw [acquired_app, released_app]
    cases hs with
    | parser l r p p' ev fq xq k hps hp =>
      obtain ⟨_, _, _, _, sr, _, _, _⟩ := s
      dsimp only at hp hps ih ⊢
      subst hps
      cases hp <;> simp [tokens, PState.tok, acquired, released] at ih ⊢ <;> omega
    | registry r' ev xq rq k hr =>
      obtain ⟨_, _, _, _, sr, _, _, _⟩ := s
      dsimp only at hr ih ⊢
      cases hr <;> simp [tokens, RState.tok, acquired, released] at ih ⊢ <;> omega
    | _ => simp_all [acquired, released, MState.given, MState.taken] <;> omega
  | other _ ho ih => cases ho; exact ih

theorem take_some {k k' : Option Nat} (h : take k = some k') :
    (k = none ∧ k' = none) ∨ ∃ n, k = some (n + 1) ∧ k' = some n := by
  match k, h with
  | none, h => simp [take] at h; exact .inl ⟨rfl, h.symm⟩
  | some 0, h => simp [take] at h
  | some (n + 1), h => simp [take] at h; exact .inr ⟨n, rfl, h.symm⟩

theorem pool_eq {T : Tools F X R G E} {s0 s : St F X R G E} {tr : List (Event F X R E)}
    {n0 : Nat} (hsh : T.shared = false) (h0 : s0.pool = some n0) (h : Run T s0 tr s) :
    ∃ n, s.pool = some n ∧ n + acquired tr = n0 + released tr := by
  induction h with
  | init => exact ⟨n0, h0, rfl⟩
  | @step tr s s' ev _ hs ih =>
    obtain ⟨n, hn, ih⟩ := ih
    rw [acquired_app, released_app]
    cases hs with
    | parser l r p p' ev fq xq k hps hp =>
      obtain ⟨_, _, _, _, sr, _, _, _⟩ := s
      dsimp only at hn hp hps ih ⊢
      subst hps hn
      cases hp <;> simp [acquired, released, give] <;> try omega
      rename_i ht
      rcases take_some ht with ⟨h, _⟩ | ⟨n', h, h'⟩
      · cases h
      · cases h; exact ⟨n', h', by omega⟩
    | registry r' ev xq rq k hr =>
      obtain ⟨_, _, _, _, sr, _, _, _⟩ := s
      dsimp only at hn hr ih ⊢
      subst hn
      cases hr <;> simp [acquired, released, give] <;> try omega
      rename_i ht
      rcases take_some ht with ⟨h, _⟩ | ⟨n', h, h'⟩
      · cases h
      · cases h; exact ⟨n', h', by omega⟩
    | mainGet k hm ht =>
      rw [hn] at ht
      rcases take_some ht with ⟨h, _⟩ | ⟨n', h, h'⟩
      · cases h
      · cases h; exact ⟨n', h', by simp [acquired, released]; omega⟩
    | mainGetErr e k hm ht =>
      rw [hn] at ht
      rcases take_some ht with ⟨h, _⟩ | ⟨n', h, h'⟩
      · cases h
      · cases h; exact ⟨n', h', by simp [acquired, released]; omega⟩
    | mainPut hm => exact ⟨n + 1, by simp [hn, give], by simp [acquired, released]; omega⟩
    | _ => exact ⟨n, hn, by simp [acquired, released]; omega⟩
  | other _ ho ih => cases ho with | mk n n' h => rw [hsh] at h; cases h

/-! ## The number of threads -/

theorem length_eq {T : Tools F X R G E} {s0 s : St F X R G E} {tr : List (Event F X R E)}
    (h : Run T s0 tr s) : s.ps.length = s0.ps.length := by
  induction h with
  | init => rfl
  | @step tr s s' ev _ hs ih =>
    cases hs with
    | parser l r p p' ev fq xq k hps hp => rw [← ih, hps]; simp
    | _ => exact ih
  | other _ ho ih => cases ho; exact ih

/-! ## Where the calling thread is -/

def AllEnded (s : St F X R G E) : Prop := ∀ p ∈ s.ps, p = .ended

/-- Nothing has been merged yet. -/
def Fresh (g0 : G) (tr : List (Event F X R E)) (s : St F X R G E) : Prop :=
  mergedRegs tr = [] ∧ s.reg = g0

/-- What holds at each point of `load`. -/
def At (T : Tools F X R G E) (g0 : G) (tr : List (Event F X R E)) (s : St F X R G E) :
    MState E → Prop
  | .put => Fresh g0 tr s
  | .join i => Fresh g0 tr s ∧ ∀ j < i, s.ps[j]? = some .ended
  | .nil => Fresh g0 tr s ∧ AllEnded s
  | .nilE e => Fresh g0 tr s ∧ e ∈ failures tr
  | .joinR => Fresh g0 tr s ∧ AllEnded s ∧ (s.r = .ended ∨ s.r.exn ≠ [] ∨ none ∈ s.xmlQ)
  | .get => Fresh g0 tr s ∧ AllEnded s ∧ s.r = .ended
  | .getE e => Fresh g0 tr s ∧ e ∈ failures tr
  | .merge => AllEnded s ∧ s.r = .ended ∧ MergeAll T g0 (mergedRegs tr) s.reg
  | .done => AllEnded s ∧ s.r = .ended ∧ MergeAll T g0 (mergedRegs tr) s.reg ∧ s.regQ = []
  | .raised e => (Fresh g0 tr s ∧ e ∈ failures tr) ∨
      ∃ rs r g1, mergedRegs tr = rs ++ [r] ∧ MergeAll T g0 rs g1 ∧
        T.merge g1 r = (s.reg, some e) ∧ AllEnded s ∧ s.r = .ended

theorem AllEnded.no_step {T : Tools F X R G E} {s : St F X R G E} {l r : List (PState F X E)}
    {p : PState F X E} {ev : Event F X R E} {c d} (h : AllEnded s) (hps : s.ps = l ++ p :: r)
    (hp : PStep T (c, d, s.pool, p) ev x) : False := by
  have : p = .ended := h p (by rw [hps]; simp)
  subst this
  cases hp

theorem at_main {T : Tools F X R G E} {s0 s : St F X R G E} {tr : List (Event F X R E)} {g0 : G}
    (hx : exns s0.ps s0.r = []) (h0 : s0.m = .put) (hg : s0.reg = g0) (h : Run T s0 tr s) :
    At T g0 tr s s.m := by
  induction h with
  | init => rw [h0]; exact ⟨rfl, hg⟩
  | @step tr s s' ev hrun hs ih =>
    have hexn := exns_iff hx hrun
    cases hs with
    | parser l r p p' ev fq xq k hps hp =>
      obtain ⟨sf, sx, srq, sps, sr, sm, sk, sg⟩ := s
      dsimp only at *
      have hmr : mergedRegs (tr ++ [ev]) = mergedRegs tr := by
        rw [mergedRegs_app]; cases hp <;> simp [mergedRegs]
      have hf : ∀ e, e ∈ failures tr → e ∈ failures (tr ++ [ev]) := by
        intro e; rw [failures_app]; simp; intro h; exact .inl h
      have hne : p ≠ .ended := by rintro rfl; cases hp
      cases sm with
      | put => exact ⟨hmr.trans ih.1, ih.2⟩
      | join i =>
        refine ⟨⟨hmr.trans ih.1.1, ih.1.2⟩, fun j hj => ?_⟩
        have := ih.2 j hj
        dsimp only at this ⊢
        rw [hps] at this
        rcases Nat.lt_trichotomy j l.length with h | h | h
        · rw [List.getElem?_append_left h] at this ⊢; exact this
        · subst h; simp at this; exact absurd this hne
        · rw [List.getElem?_append_right (by omega)] at this ⊢
          obtain ⟨d, hd⟩ : ∃ d, j - l.length = d + 1 := ⟨j - l.length - 1, by omega⟩
          rw [hd] at this ⊢; simpa using this
      | nil => exact (AllEnded.no_step ih.2 hps hp).elim
      | nilE e => exact ⟨⟨hmr.trans ih.1.1, ih.1.2⟩, hf e ih.2⟩
      | joinR => exact (AllEnded.no_step ih.2.1 hps hp).elim
      | get => exact (AllEnded.no_step ih.2.1 hps hp).elim
      | getE e => exact ⟨⟨hmr.trans ih.1.1, ih.1.2⟩, hf e ih.2⟩
      | merge => exact (AllEnded.no_step ih.1 hps hp).elim
      | done => exact (AllEnded.no_step ih.1 hps hp).elim
      | raised e =>
        rcases ih with ih | ⟨rs, r1, g1, h1, h2, h3, h4, h5⟩
        · exact .inl ⟨⟨hmr.trans ih.1.1, ih.1.2⟩, hf e ih.2⟩
        · exact (AllEnded.no_step h4 hps hp).elim
    | registry r' ev xq rq k hr =>
      obtain ⟨sf, sx, srq, sps, sr, sm, sk, sg⟩ := s
      dsimp only at *
      have hmr : mergedRegs (tr ++ [ev]) = mergedRegs tr := by
        rw [mergedRegs_app]; cases hr <;> simp [mergedRegs]
      have hf : ∀ e, e ∈ failures tr → e ∈ failures (tr ++ [ev]) := by
        intro e; rw [failures_app]; simp; intro h; exact .inl h
      have hne : sr ≠ .ended := by intro h; rw [h] at hr; cases hr
      cases sm with
      | put => exact ⟨hmr.trans ih.1, ih.2⟩
      | join i => exact ⟨⟨hmr.trans ih.1.1, ih.1.2⟩, ih.2⟩
      | nil => exact ⟨⟨hmr.trans ih.1.1, ih.1.2⟩, ih.2⟩
      | nilE e => exact ⟨⟨hmr.trans ih.1.1, ih.1.2⟩, hf e ih.2⟩
      | joinR =>
        refine ⟨⟨hmr.trans ih.1.1, ih.1.2⟩, ih.2.1, ?_⟩
        have := ih.2.2
        dsimp only at this ⊢
        cases hr <;> simp [RState.exn] at this ⊢ <;> exact this
      | get => exact absurd ih.2.2 hne
      | getE e => exact ⟨⟨hmr.trans ih.1.1, ih.1.2⟩, hf e ih.2⟩
      | merge => exact absurd ih.2.1 hne
      | done => exact absurd ih.2.1 hne
      | raised e =>
        rcases ih with ih | ⟨rs, r1, g1, h1, h2, h3, h4, h5⟩
        · exact .inl ⟨⟨hmr.trans ih.1.1, ih.1.2⟩, hf e ih.2⟩
        · exact absurd h5 hne
    | mainPut hm =>
      rw [hm] at ih
      exact ⟨⟨by rw [mergedRegs_app, ih.1]; rfl, ih.2⟩, fun j hj => absurd hj (Nat.not_lt_zero _)⟩
    | mainJoin i hm hp =>
      rw [hm] at ih
      refine ⟨⟨by rw [mergedRegs_app, ih.1.1]; rfl, ih.1.2⟩, fun j hj => ?_⟩
      rcases Nat.lt_succ_iff_lt_or_eq.mp hj with h | h
      · exact ih.2 j h
      · subst h; exact hp
    | mainJoinErr i e hm hp =>
      rw [hm] at ih
      refine ⟨⟨by rw [mergedRegs_app, ih.1.1]; rfl, ih.1.2⟩, ?_⟩
      rw [failures_app]
      refine List.mem_append_left _ ((hexn e).mp ?_)
      refine List.mem_append_left _ (List.mem_flatMap.mpr ⟨_, List.mem_of_getElem? hp, ?_⟩)
      simp [PState.exn]
    | mainJoined hm =>
      rw [hm] at ih
      refine ⟨⟨by rw [mergedRegs_app, ih.1.1]; rfl, ih.1.2⟩, fun p hp => ?_⟩
      obtain ⟨j, hj, hjp⟩ := List.mem_iff_getElem.mp hp
      have := ih.2 j hj
      rw [List.getElem?_eq_getElem hj] at this
      injection this with this
      exact hjp.symm.trans this
    | mainNil hm =>
      rw [hm] at ih
      exact ⟨⟨by rw [mergedRegs_app, ih.1.1]; rfl, ih.1.2⟩, ih.2, .inr (.inr (by simp))⟩
    | mainNilErr e hm =>
      rw [hm] at ih
      exact ⟨⟨by rw [mergedRegs_app, ih.1.1]; rfl, ih.1.2⟩, by
        rw [failures_app]; exact List.mem_append_left _ ih.2⟩
    | mainJoinR hm hr =>
      rw [hm] at ih
      exact ⟨⟨by rw [mergedRegs_app, ih.1.1]; rfl, ih.1.2⟩, ih.2.1, hr⟩
    | mainJoinRErr e hm hr =>
      rw [hm] at ih
      refine ⟨⟨by rw [mergedRegs_app, ih.1.1]; rfl, ih.1.2⟩, ?_⟩
      rw [failures_app]
      refine List.mem_append_left _ ((hexn e).mp (List.mem_append_right _ ?_))
      rw [hr]; simp [RState.exn]
    | mainGet k hm ht =>
      rw [hm] at ih
      refine ⟨ih.2.1, ih.2.2, ?_⟩
      rw [mergedRegs_app, ih.1.1]
      show MergeAll T g0 [] s.reg
      rw [ih.1.2]; exact .nil _
    | mainGetErr e k hm ht =>
      rw [hm] at ih
      exact .inl ⟨⟨by rw [mergedRegs_app, ih.1.1]; rfl, ih.1.2⟩, by
        rw [failures_app]; exact List.mem_append_left _ ih.2⟩
    | mainMerge r rq g hm hq hg =>
      rw [hm] at ih
      dsimp only
      rw [hm]
      refine ⟨ih.1, ih.2.1, ?_⟩
      rw [mergedRegs_app]
      exact .snoc ih.2.2 hg
    | mainMergeErr r rq g e hm hq hg =>
      rw [hm] at ih
      exact .inr ⟨mergedRegs tr, r, s.reg, by rw [mergedRegs_app]; rfl, ih.2.2, hg, ih.1, ih.2.1⟩
    | mainDone hm hq =>
      rw [hm] at ih
      refine ⟨ih.1, ih.2.1, ?_, hq⟩
      rw [mergedRegs_app]
      simpa [mergedRegs] using ih.2.2
  | other _ ho ih =>
    cases ho
    rename_i s _ n n' h1 h2
    obtain ⟨sf, sx, srq, sps, sr, sm, sk, sg⟩ := s
    cases sm <;> exact ih

end Verif.PLoad
