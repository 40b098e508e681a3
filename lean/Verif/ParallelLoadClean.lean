import Verif.ParallelLoadInv

/-! Executions of `GCCXMLLoader.load` in which no tool fails: where every file,
document and registry is (see `ParallelLoad`). -/

namespace Verif.PLoad

open Classical

variable {F X R G E : Type}

theorem atMost {T : Tools F X R G E} {s0 s : St F X R G E} {tr : List (Event F X R E)}
    (h0 : s0.ps.flatMap PState.file = []) (h : Run T s0 tr s) (f : F) :
    s.fileQ.count f + (s.ps.flatMap PState.file).count f + (parsedFiles tr).count f ≤
      s0.fileQ.count f := by
  induction h with
  | init => rw [h0]; simp [parsedFiles]
  | @step tr s s' ev _ hs ih =>
    rw [parsedFiles_app, List.count_append]
    cases hs with
    | parser l r p p' ev fq xq k hps hp =>
      obtain ⟨_, _, _, _, sr, _, _, _⟩ := s
      dsimp only at hp hps ih ⊢
      subst hps
      cases hp <;> simp [PState.file, parsedFiles, List.count_cons, List.count_nil] at ih ⊢ <;> omega
    | registry r' ev xq rq k hr =>
      obtain ⟨_, _, _, _, sr, _, _, _⟩ := s
      dsimp only at hr ih ⊢
      cases hr <;> simp [parsedFiles] at ih ⊢ <;> omega
    | _ => simp [parsedFiles] at ih ⊢; omega
  | other _ ho ih => cases ho; exact ih

/-- The documents in a queue which may contain the end marker. -/
def somes : List (Option X) → List X := List.filterMap id

@[simp] theorem somes_nil : somes ([] : List (Option X)) = [] := rfl
@[simp] theorem somes_some (x : X) (q : List (Option X)) : somes (some x :: q) = x :: somes q := rfl
@[simp] theorem somes_none (q : List (Option X)) : somes (none :: q) = somes q := rfl
@[simp] theorem somes_app (p q : List (Option X)) : somes (p ++ q) = somes p ++ somes q := by
  simp [somes]

/-- The end marker's place, at each point of `load`. -/
def Marker (q : List (Option X)) (r : RState X R E) : MState E → Prop
  | .put | .join _ | .nil => none ∉ q ∧ r ≠ .ended
  | .nilE _ | .getE _ | .raised _ => True
  | .joinR | .get | .merge | .done =>
      (r ≠ .ended ∧ ∃ l : List X, q = l.map some ++ [none]) ∨ (r = .ended ∧ q = [])

/-- Nothing gets lost. -/
structure Clean (s0 : St F X R G E) (tr : List (Event F X R E)) (s : St F X R G E) : Prop where
  files : ∀ f, s.fileQ.count f + (s.ps.flatMap PState.file).count f + (parsedFiles tr).count f =
      s0.fileQ.count f
  xmls : ∀ x, (s.ps.flatMap PState.xml).count x + (somes s.xmlQ).count x + s.r.xml.count x +
      (convertedXml tr).count x = (produced tr).count x
  regs : ∀ r, s.r.res.count r + s.regQ.count r + (mergedRegs tr).count r = (results tr).count r
  ended : .ended ∈ s.ps → s.fileQ = []
  marker : Marker s.xmlQ s.r s.m

theorem noexn_of_clean {T : Tools F X R G E} {s0 s : St F X R G E} {tr : List (Event F X R E)}
    (hx : exns s0.ps s0.r = []) (h : Run T s0 tr s) (hf : failures tr = []) :
    (∀ p ∈ s.ps, p.exn = []) ∧ s.r.exn = [] := by
  have : exns s.ps s.r = [] := List.eq_nil_iff_forall_not_mem.mpr fun e he => by
    rw [exns_iff hx h e, hf] at he; cases he
  simp [exns] at this
  exact this

theorem clean_run {T : Tools F X R G E} {s0 s : St F X R G E} {tr : List (Event F X R E)} {g0 : G}
    (hx : exns s0.ps s0.r = []) (h0 : s0.m = .put) (hg : s0.reg = g0)
    (hq1 : s0.xmlQ = []) (hq2 : s0.regQ = []) (hr0 : s0.r = .pop)
    (hp0 : ∀ p ∈ s0.ps, p = .start)
    (h : Run T s0 tr s) : failures tr = [] → swallowed tr = 0 → Clean s0 tr s := by
  induction h with
  | init =>
    intro _ _
    have h1 : s0.ps.flatMap PState.file = [] :=
      List.flatMap_eq_nil_iff.mpr fun p hp => by rw [hp0 p hp]; rfl
    have h2 : s0.ps.flatMap PState.xml = [] :=
      List.flatMap_eq_nil_iff.mpr fun p hp => by rw [hp0 p hp]; rfl
    exact {
      files := fun f => by rw [h1]; simp [parsedFiles]
      xmls := fun x => by rw [h2, hq1, hr0]; rfl
      regs := fun x => by rw [hq2, hr0]; rfl
      ended := fun h => by cases hp0 _ h
      marker := by rw [hq1, hr0, h0]; exact ⟨by simp, nofun⟩ }
  | @step tr s s' ev hrun hs ih =>
    intro hf hq
    rw [failures_app, List.append_eq_nil_iff] at hf
    rw [swallowed_app] at hq
    have hc := ih hf.1 (by omega)
    have hq' : swallowed [ev] = 0 := by omega
    have hat := at_main hx h0 hg hrun
    obtain ⟨hpe, hre⟩ := noexn_of_clean hx hrun hf.1
    cases hs with
    | parser l r p p' ev fq xq k hps hp =>
      obtain ⟨sf, sx, srq, sps, sr, sm, sk, sg⟩ := s
      dsimp only at *
      subst hps
      have hpx : p.exn = [] := hpe p (by simp)
      obtain ⟨c1, c2, c3, c4, c5⟩ := hc
      dsimp only at *
      refine ⟨fun f => ?_, fun x => ?_, fun r => ?_, ?_, ?_⟩
      · have := c1 f
        cases hp <;>
          simp [PState.file, parsedFiles_app, parsedFiles, List.count_cons, PState.exn] at this hpx ⊢ <;>
          omega
      · have := c2 x
        cases hp <;>
          simp [PState.xml, convertedXml_app, produced_app, convertedXml, produced,
            List.count_cons, PState.exn] at this hpx ⊢ <;> omega
      · have := c3 r
        cases hp <;>
          simp [mergedRegs_app, results_app, mergedRegs, results] at this ⊢ <;> omega
      · cases hp <;> simp [PState.exn, swallowed] at c4 hpx hq' ⊢ <;> grind
      · have hne : p ≠ .ended := by rintro rfl; cases hp
        cases sm with
        | put | join i =>
          obtain ⟨h1, h2⟩ := c5
          cases hp <;> simp [PState.exn] at hpx <;> refine ⟨?_, h2⟩ <;> first | exact h1 | simpa using h1
        | nil => exact absurd (hat.2 p (by simp)) hne
        | joinR | get => exact absurd (hat.2.1 p (by simp)) hne
        | merge | done => exact absurd (hat.1 p (by simp)) hne
        | _ => trivial
    | registry r' ev xq rq k hr =>
      obtain ⟨sf, sx, srq, sps, sr, sm, sk, sg⟩ := s
      dsimp only at *
      obtain ⟨c1, c2, c3, c4, c5⟩ := hc
      dsimp only at *
      refine ⟨fun f => ?_, fun x => ?_, fun r => ?_, ?_, ?_⟩
      · have := c1 f
        cases hr <;> simp [parsedFiles_app, parsedFiles] at this ⊢ <;> omega
      · have := c2 x
        cases hr <;>
          simp [RState.xml, convertedXml_app, produced_app, convertedXml, produced,
            List.count_cons, RState.exn] at this hre ⊢ <;> omega
      · have := c3 r
        cases hr <;>
          simp [mergedRegs_app, results_app, mergedRegs, results, RState.res,
            List.count_cons, RState.exn] at this hre ⊢ <;> omega
      · exact c4
      · have hne : sr ≠ .ended := by rintro rfl; cases hr
        have hm : ∀ {m : MState E}, Marker sx sr m →
            (m = .joinR ∨ m = .get ∨ m = .merge ∨ m = .done) → Marker xq r' m := by
          intro m h5 hm
          have h5' : ∃ l : List X, sx = l.map some ++ [none] := by
            rcases hm with rfl | rfl | rfl | rfl <;>
            · rcases h5 with h | h
              · exact h.2
              · exact absurd h.1 hne
          obtain ⟨l, hl⟩ := h5'
          have : (r' ≠ .ended ∧ ∃ l : List X, xq = l.map some ++ [none]) ∨ (r' = .ended ∧ xq = []) := by
            cases hr with
            | pop x =>
              cases l with
              | nil => simp at hl
              | cons y l => simp at hl; exact .inl ⟨nofun, l, hl.2⟩
            | last =>
              cases l with
              | nil => simp at hl; exact .inr ⟨rfl, hl⟩
              | cons y l => simp at hl
            | acquire | ok | push => exact .inl ⟨nofun, l, hl⟩
            | quiet => simp [swallowed] at hq'
            | err => simp [failures] at hf
            | clear1 | clear2 => simp [RState.exn] at hre
          rcases hm with rfl | rfl | rfl | rfl <;> exact this
        cases sm with
        | put | join i | nil =>
          obtain ⟨h1, h2⟩ := c5
          cases hr <;> simp [RState.exn, swallowed] at hre hq' h1 <;> exact ⟨by simp_all, nofun⟩
        | joinR => exact hm c5 (.inl rfl)
        | get => exact hm c5 (.inr (.inl rfl))
        | merge => exact hm c5 (.inr (.inr (.inl rfl)))
        | done => exact hm c5 (.inr (.inr (.inr rfl)))
        | _ => trivial
    | mainPut hm =>
      obtain ⟨c1, c2, c3, c4, c5⟩ := hc
      exact ⟨by simpa [parsedFiles_app, parsedFiles] using c1,
        by simpa [convertedXml_app, produced_app, convertedXml, produced] using c2,
        by simpa [mergedRegs_app, results_app, mergedRegs, results] using c3, c4, by
          rw [hm] at c5; exact c5⟩
    | mainJoin i hm hp =>
      obtain ⟨c1, c2, c3, c4, c5⟩ := hc
      exact ⟨by simpa [parsedFiles_app, parsedFiles] using c1,
        by simpa [convertedXml_app, produced_app, convertedXml, produced] using c2,
        by simpa [mergedRegs_app, results_app, mergedRegs, results] using c3, c4, by
          rw [hm] at c5; exact c5⟩
    | mainJoinErr i e hm hp =>
      have := hpe _ (List.mem_of_getElem? hp)
      cases this
    | mainJoined hm =>
      obtain ⟨c1, c2, c3, c4, c5⟩ := hc
      exact ⟨by simpa [parsedFiles_app, parsedFiles] using c1,
        by simpa [convertedXml_app, produced_app, convertedXml, produced] using c2,
        by simpa [mergedRegs_app, results_app, mergedRegs, results] using c3, c4, by
          rw [hm] at c5; exact c5⟩
    | mainNil hm =>
      obtain ⟨c1, c2, c3, c4, c5⟩ := hc
      refine ⟨by simpa [parsedFiles_app, parsedFiles] using c1,
        by simpa [convertedXml_app, produced_app, convertedXml, produced] using c2,
        by simpa [mergedRegs_app, results_app, mergedRegs, results] using c3, c4, ?_⟩
      rw [hm] at c5
      refine .inl ⟨c5.2, somes s.xmlQ, ?_⟩
      dsimp only
      congr 1
      have h1 := c5.1
      generalize s.xmlQ = q at h1
      induction q with
      | nil => rfl
      | cons a q ihq =>
        cases a with
        | none => simp at h1
        | some x => simp at h1 ⊢; exact ihq h1
    | mainNilErr e hm => rw [hm] at hat; have h2 := hat.2; rw [hf.1] at h2; cases h2
    | mainJoinR hm hr =>
      obtain ⟨c1, c2, c3, c4, c5⟩ := hc
      exact ⟨by simpa [parsedFiles_app, parsedFiles] using c1,
        by simpa [convertedXml_app, produced_app, convertedXml, produced] using c2,
        by simpa [mergedRegs_app, results_app, mergedRegs, results] using c3, c4, by
          rw [hm] at c5; exact c5⟩
    | mainJoinRErr e hm hr => rw [hr] at hre; cases hre
    | mainGet k hm ht =>
      obtain ⟨c1, c2, c3, c4, c5⟩ := hc
      exact ⟨by simpa [parsedFiles_app, parsedFiles] using c1,
        by simpa [convertedXml_app, produced_app, convertedXml, produced] using c2,
        by simpa [mergedRegs_app, results_app, mergedRegs, results] using c3, c4, by
          rw [hm] at c5; exact c5⟩
    | mainGetErr e k hm ht => rw [hm] at hat; have h2 := hat.2; rw [hf.1] at h2; cases h2
    | mainMerge r rq g hm hrq hg =>
      obtain ⟨c1, c2, c3, c4, c5⟩ := hc
      refine ⟨by simpa [parsedFiles_app, parsedFiles] using c1,
        by simpa [convertedXml_app, produced_app, convertedXml, produced] using c2, fun r' => ?_, c4, c5⟩
      have := c3 r'
      rw [hrq] at this
      simp [mergedRegs_app, results_app, mergedRegs, results, List.count_cons] at this ⊢
      omega
    | mainMergeErr r rq g e hm hrq hg =>
      obtain ⟨c1, c2, c3, c4, c5⟩ := hc
      refine ⟨by simpa [parsedFiles_app, parsedFiles] using c1,
        by simpa [convertedXml_app, produced_app, convertedXml, produced] using c2, fun r' => ?_, c4, trivial⟩
      have := c3 r'
      rw [hrq] at this
      simp [mergedRegs_app, results_app, mergedRegs, results, List.count_cons] at this ⊢
      omega
    | mainDone hm hq =>
      obtain ⟨c1, c2, c3, c4, c5⟩ := hc
      exact ⟨by simpa [parsedFiles_app, parsedFiles] using c1,
        by simpa [convertedXml_app, produced_app, convertedXml, produced] using c2,
        by simpa [mergedRegs_app, results_app, mergedRegs, results] using c3, c4, by
          rw [hm] at c5; exact c5⟩
  | other _ ho ih =>
    intro h1 h2
    cases ho
    exact ⟨(ih h1 h2).files, (ih h1 h2).xmls, (ih h1 h2).regs, (ih h1 h2).ended, (ih h1 h2).marker⟩

end Verif.PLoad
