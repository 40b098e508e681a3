import Verif.ParallelLoadProps

/-! Concrete executions of `GCCXMLLoader.load`: one that satisfies the
hypotheses of the theorems of C74, and executions which show what does not hold. -/

namespace Verif.PLoad

/-- A scheduler's choice: which thread makes the next step. -/
inductive Who where
  | p (i : Nat)
  | r
  | m

/-- Deterministic tools, for running the program. -/
structure Det where
  pf : Nat → Outcome Nat Nat
  cf : Nat → Outcome Nat Nat
  mg : List Nat → Nat → List Nat × Option Nat

def Det.tools (d : Det) : Tools Nat Nat Nat (List Nat) Nat where
  parse := fun f o => o = d.pf f
  conv := fun x o => o = d.cf x
  merge := d.mg
  shared := false

abbrev S := St Nat Nat Nat (List Nat) Nat
abbrev Ev := Event Nat Nat Nat Nat

def simP (d : Det) : List Nat × List (Option Nat) × Option Nat × PState Nat Nat Nat →
    Option (Ev × (List Nat × List (Option Nat) × Option Nat × PState Nat Nat Nat))
  | (f :: fq, xq, k, .start) => some (.silent, (fq, xq, k, .want f))
  | ([], xq, k, .start) => some (.silent, ([], xq, k, .ended))
  | (fq, xq, k, .want f) =>
    match take k with
    | some k' => some (.acquire, (fq, xq, k', .run f))
    | none => none
  | (fq, xq, k, .run f) =>
    match d.pf f with
    | .ok x => some (.parsed f (.ok x), (fq, xq, give k, .push x))
    | .err e => some (.parsed f (.err e), (fq, xq, give k, .clear1 e))
    | .quiet => some (.parsed f .quiet, (fq, xq, give k, .ended))
  | (fq, xq, k, .push x) => some (.silent, (fq, xq ++ [some x], k, .start))
  | (_, xq, k, .clear1 e) => some (.silent, ([], xq, k, .clear2 e))
  | (fq, _, k, .clear2 e) => some (.silent, (fq, [], k, .dead e))
  | (_, _, _, .ended) => none
  | (_, _, _, .dead _) => none

theorem simP_sound (d : Det) {a b ev} (h : simP d a = some (ev, b)) : PStep d.tools a ev b := by
  unfold simP at h
  split at h
  · cases h; exact .pop _ _ _ _
  · cases h; exact .empty _ _
  · split at h
    · cases h; rename_i hk; exact .acquire _ _ _ _ _ hk
    · cases h
  · split at h
    · cases h; rename_i hk; exact .ok _ _ _ _ _ hk.symm
    · cases h; rename_i hk; exact .err _ _ _ _ _ hk.symm
    · cases h; rename_i hk; exact .quiet _ _ _ _ hk.symm
  · cases h; exact .push _ _ _ _
  · cases h; exact .clear1 _ _ _ _
  · cases h; exact .clear2 _ _ _ _
  · cases h
  · cases h

def simR (d : Det) : List (Option Nat) × List Nat × Option Nat × RState Nat Nat Nat →
    Option (Ev × (List (Option Nat) × List Nat × Option Nat × RState Nat Nat Nat))
  | (some x :: xq, rq, k, .pop) => some (.silent, (xq, rq, k, .want x))
  | (none :: xq, rq, k, .pop) => some (.silent, (xq, rq, k, .ended))
  | ([], _, _, .pop) => none
  | (xq, rq, k, .want f) =>
    match take k with
    | some k' => some (.acquire, (xq, rq, k', .run f))
    | none => none
  | (xq, rq, k, .run f) =>
    match d.cf f with
    | .ok x => some (.converted f (.ok x), (xq, rq, give k, .push x))
    | .err e => some (.converted f (.err e), (xq, rq, give k, .clear1 e))
    | .quiet => some (.converted f .quiet, (xq, rq, give k, .ended))
  | (xq, rq, k, .push x) => some (.silent, (xq, rq ++ [x], k, .pop))
  | (_, rq, k, .clear1 e) => some (.silent, ([], rq, k, .clear2 e))
  | (xq, _, k, .clear2 e) => some (.silent, (xq, [], k, .dead e))
  | (_, _, _, .ended) => none
  | (_, _, _, .dead _) => none

theorem simR_sound (d : Det) {a b ev} (h : simR d a = some (ev, b)) : RStep d.tools a ev b := by
  unfold simR at h
  split at h
  · cases h; exact .pop _ _ _ _
  · cases h; exact .last _ _ _
  · cases h
  · split at h
    · cases h; rename_i hk; exact .acquire _ _ _ _ _ hk
    · cases h
  · split at h
    · cases h; rename_i hk; exact .ok _ _ _ _ _ hk.symm
    · cases h; rename_i hk; exact .err _ _ _ _ _ hk.symm
    · cases h; rename_i hk; exact .quiet _ _ _ _ hk.symm
  · cases h; exact .push _ _ _ _
  · cases h; exact .clear1 _ _ _ _
  · cases h; exact .clear2 _ _ _ _
  · cases h
  · cases h

def simM (d : Det) (s : S) : Option (Ev × S) :=
  match hm : s.m with
  | .put => some (.release, { s with pool := give s.pool, m := .join 0 })
  | .join i =>
    match s.ps[i]? with
    | some .ended => some (.silent, { s with m := .join (i + 1) })
    | some (.dead e) => some (.silent, { s with m := .nilE e })
    | none => if i = s.ps.length then some (.silent, { s with m := .nil }) else none
    | _ => none
  | .nil => some (.silent, { s with xmlQ := s.xmlQ ++ [none], m := .joinR })
  | .nilE e => some (.silent, { s with xmlQ := s.xmlQ ++ [none], m := .getE e })
  | .joinR =>
    match s.r with
    | .ended => some (.silent, { s with m := .get })
    | .dead e => some (.silent, { s with m := .getE e })
    | _ => none
  | .get =>
    match take s.pool with
    | some k => some (.acquire, { s with pool := k, m := .merge })
    | none => none
  | .getE e =>
    match take s.pool with
    | some k => some (.acquire, { s with pool := k, m := .raised e })
    | none => none
  | .merge =>
    match s.regQ with
    | [] => some (.silent, { s with m := .done })
    | r :: rq =>
      match d.mg s.reg r with
      | (g, none) => some (.merged r none, { s with regQ := rq, reg := g })
      | (g, some e) => some (.merged r (some e), { s with regQ := rq, reg := g, m := .raised e })
  | .done => none
  | .raised _ => none

theorem simM_sound (d : Det) {s s' : S} {ev} (h : simM d s = some (ev, s')) :
    Step d.tools s ev s' := by
  unfold simM at h
  split at h
  · rename_i hm; cases h; exact .mainPut s hm
  · rename_i i hm
    split at h
    · rename_i hp; cases h; exact .mainJoin s _ hm hp
    · rename_i hp; cases h; exact .mainJoinErr s _ _ hm hp
    · split at h
      · rename_i hi; cases h; exact .mainJoined s (by rw [hm, hi])
      · cases h
    · cases h
  · rename_i hm; cases h; exact .mainNil s hm
  · rename_i hm; cases h; exact .mainNilErr s _ hm
  · rename_i hm
    split at h
    · rename_i hr; cases h; exact .mainJoinR s hm hr
    · rename_i hr; cases h; exact .mainJoinRErr s _ hm hr
    · cases h
  · rename_i hm
    split at h
    · rename_i hk; cases h; exact .mainGet s _ hm hk
    · cases h
  · rename_i hm
    split at h
    · rename_i hk; cases h; exact .mainGetErr s _ _ hm hk
    · cases h
  · rename_i hm
    split at h
    · rename_i hq; cases h; exact .mainDone s hm hq
    · rename_i hq
      split at h
      · rename_i hg; cases h; exact .mainMerge s _ _ _ hm hq hg
      · rename_i hg; cases h; exact .mainMergeErr s _ _ _ _ hm hq hg
  · cases h
  · cases h

def sim (d : Det) (s : S) : Who → Option (Ev × S)
  | .m => simM d s
  | .r =>
    match simR d (s.xmlQ, s.regQ, s.pool, s.r) with
    | some (ev, (xq, rq, k, r')) => some (ev, { s with xmlQ := xq, regQ := rq, pool := k, r := r' })
    | none => none
  | .p i =>
    match s.ps[i]? with
    | none => none
    | some p =>
      match simP d (s.fileQ, s.xmlQ, s.pool, p) with
      | some (ev, (fq, xq, k, p')) =>
        some (ev, { s with fileQ := fq, xmlQ := xq, pool := k, ps := s.ps.take i ++ p' :: s.ps.drop (i + 1) })
      | none => none

theorem sim_sound (d : Det) {s s' : S} {w : Who} {ev} (h : sim d s w = some (ev, s')) :
    Step d.tools s ev s' := by
  cases w with
  | m => exact simM_sound d h
  | r =>
    simp only [sim] at h
    split at h
    · rename_i hr; cases h; exact .registry s _ _ _ _ _ (simR_sound d hr)
    · cases h
  | p i =>
    simp only [sim] at h
    split at h
    · cases h
    · rename_i p hp
      split at h
      · rename_i hs
        cases h
        refine .parser s _ _ p _ _ _ _ _ ?_ (simP_sound d hs)
        obtain ⟨hi, rfl⟩ := List.getElem?_eq_some_iff.mp hp
        rw [List.getElem_cons_drop]
        exact (List.take_append_drop i s.ps).symm
      · cases h

/-- Runs a schedule. -/
def play (d : Det) : List Who → List Ev → S → Option (List Ev × S)
  | [], tr, s => some (tr, s)
  | w :: ws, tr, s =>
    match sim d s w with
    | some (ev, s') => play d ws (tr ++ [ev]) s'
    | none => none

theorem play_sound (d : Det) {s0 : S} : ∀ (ws : List Who) (tr : List Ev) (s : S)
    (tr' : List Ev) (s' : S), Run d.tools s0 tr s → play d ws tr s = some (tr', s') →
    Run d.tools s0 tr' s' := by
  intro ws
  induction ws with
  | nil => intro tr s tr' s' h hp; cases hp; exact h
  | cons w ws ih =>
    intro tr s tr' s' h hp
    simp only [play] at hp
    split at hp
    · rename_i hs; exact ih _ _ _ _ (.step h (sim_sound d hs)) hp
    · cases hp

/-- An execution made by a schedule. -/
def Played (d : Det) (files : List Nat) (k : Nat) (pool : Option Nat) (ws : List Who)
    (tr : List Ev) (s : S) : Prop :=
  play d ws [] (start files k pool []) = some (tr, s)

theorem Played.run {d : Det} {files : List Nat} {k : Nat} {pool : Option Nat} {ws : List Who}
    {tr : List Ev} {s : S} (h : Played d files k pool ws tr s) :
    Run d.tools (start files k pool []) tr s := play_sound d ws _ _ _ _ .init h

/-! ## An execution that goes well -/

/-- The tool makes the document `f + 10` of file `f`, the converter the registry
`x + 10` of `x`; merging collects them. -/
def good : Det := ⟨fun f => .ok (f + 10), fun x => .ok (x + 10), fun g r => (g ++ [r], none)⟩

/-- `load` of the files 1, 2 and 3 with two parsing threads and a job server
with no token but the caller's.  The second thread overtakes the first. -/
def goodWs : List Who :=
  [.p 0, .p 1, .m, .p 1, .p 1, .p 1, .r, .r, .p 1, .r, .r, .p 0, .p 0, .p 0, .p 1, .p 1, .p 1,
   .p 1, .p 0, .r, .r, .r, .r, .m, .m, .m, .m, .r, .r, .r, .r, .r, .m, .m, .m, .m, .m, .m]

def goodEnd : List Ev × S := (play good goodWs [] (start [1, 2, 3] 2 (some 0) [])).getD ([], start [] 0 none [])

theorem good_played : Played good [1, 2, 3] 2 (some 0) goodWs goodEnd.1 goodEnd.2 := rfl

theorem good_done : goodEnd.2.m = .done ∧ goodEnd.2.reg = [22, 21, 23] ∧
    parsedFiles goodEnd.1 = [2, 1, 3] ∧ swallowed goodEnd.1 = 0 ∧ acquired goodEnd.1 = 7 :=
  ⟨rfl, rfl, rfl, rfl, rfl⟩

example := C74_return_partial (by decide) good_played.run good_done.1 rfl
example := (C74_tokens good_played.run).1 good_done.1
example := C74_bounded good_played.run
example := (C74_parallelism good_played.run).2 0 rfl rfl
example := C74_at_most_once good_played.run 2

/-- A state in the middle of this execution, where no token is left. -/
def midEnd : List Ev × S :=
  (play good (goodWs.take 4) [] (start [1, 2, 3] 2 (some 0) [])).getD ([], start [] 0 none [])

theorem mid_played : Played good [1, 2, 3] 2 (some 0) (goodWs.take 4) midEnd.1 midEnd.2 := rfl

example : midEnd.2.pool = some 0 ∧ ∃ ev s', Step good.tools midEnd.2 ev s' := by
  refine ⟨rfl, ?_⟩
  rcases C74_no_deadlock (fun f => ⟨_, rfl⟩) (fun x => ⟨_, rfl⟩) mid_played.run (by
    show ¬ Finished (MState.join 0); exact id) with h | h
  · exact h
  · cases h.1

example : Finished goodEnd.2.m := C74_ends (T := good.tools) (fun f => ⟨_, rfl⟩) (fun x => ⟨_, rfl⟩) rfl
  good_played.run (by
    intro ev s' h
    have := step_weight h
    have h0 : weight goodEnd.2 = 0 := rfl
    omega)

example : ∃ js : List (Job Nat Nat Nat), js.map (·.file) = [1, 2] ∧
    MergeAll good.tools [] (js.map (·.reg)) [21, 22] := by
  obtain ⟨js, h1, _, h2⟩ := C74_sequential_partial (T := good.tools) (files := [1, 2]) (g := [])
    (g' := [21, 22]) (fun f h => by cases h) (fun x h => by cases h)
    (.merge (xs := [11, 12]) (rs := [21, 22]) (.ok rfl (.ok rfl .nil)) (.ok rfl (.ok rfl .nil)) rfl)
  exact ⟨js, h1, h2⟩

/-! ## A failing tool -/

/-- The tool fails on the files 1 and 2, with the exceptions 101 and 102. -/
def bad : Det :=
  ⟨fun f => if f ≤ 2 then .err (f + 100) else .ok (f + 10), fun x => .ok (x + 10),
   fun g r => (g ++ [r], none)⟩

/-- Both threads call the tool; the first fails, `load` raises; then the second
fails. -/
def badWs : List Who :=
  [.m, .p 0, .p 1, .p 0, .p 1, .p 0, .p 0, .p 0, .m, .m, .m, .p 1, .p 1, .p 1]

def badEnd : List Ev × S :=
  (play bad badWs [] (start [1, 2] 2 none [])).getD ([], start [] 0 none [])

theorem bad_played : Played bad [1, 2] 2 none badWs badEnd.1 badEnd.2 := rfl

example := C74_raise_partial (e := 101) bad_played.run rfl
example := C74_error_not_lost bad_played.run (by show [101, 102] ≠ []; decide)
example := (C74_tokens bad_played.run).2 101 rfl

/-- Not every thread that `load` starts ends, even if all tool calls do.  Here
`load` raises the first exception and puts the end marker into the queue; the
second failing thread then clears the queue; the registry thread waits for a
document for ever. -/
theorem C74_cex_thread_left : ∃ tr s, Run bad.tools (start [1, 2] 2 none []) tr s ∧
    s.m = .raised 101 ∧ s.r = .pop ∧ (∀ p ∈ s.ps, ∃ e, p = .dead e) ∧
    ∀ ev s', ¬ Step bad.tools s ev s' := by
  refine ⟨_, _, bad_played.run, rfl, rfl, ?_, ?_⟩
  · show ∀ p ∈ [PState.dead 101, PState.dead 102], _
    intro p hp
    simp only [List.mem_cons, List.not_mem_nil, or_false] at hp
    rcases hp with rfl | rfl <;> exact ⟨_, rfl⟩
  · intro ev s' h
    have hps : badEnd.2.ps = [.dead 101, .dead 102] := rfl
    generalize hs : badEnd.2 = s at h hps
    have hm : s.m = .raised 101 := by rw [← hs]; rfl
    have hr : s.r = .pop := by rw [← hs]; rfl
    have hx : s.xmlQ = [] := by rw [← hs]; rfl
    cases h with
    | parser l r p p' ev fq xq k hp hst =>
      have : p ∈ [PState.dead 101, PState.dead 102] := by rw [← hps, hp]; simp
      simp only [List.mem_cons, List.not_mem_nil, or_false] at this
      generalize s.fileQ = a at hst
      generalize s.xmlQ = b at hst
      generalize s.pool = c at hst
      rcases this with rfl | rfl <;> cases hst
    | registry r' ev xq rq k hst => rw [hr, hx] at hst; cases hst
    | _ => simp_all

/-! ## A swallowed exception -/

/-- The tool raises a `ThreadError` on file 1. -/
def mute : Det := ⟨fun f => if f = 1 then .quiet else .ok (f + 10), fun x => .ok (x + 10),
  fun g r => (g ++ [r], none)⟩

def muteWs : List Who := [.m, .p 0, .p 0, .p 0, .m, .m, .m, .r, .m, .m, .m]

def muteEnd : List Ev × S :=
  (play mute muteWs [] (start [1, 2] 1 none [])).getD ([], start [] 0 none [])

theorem mute_played : Played mute [1, 2] 1 none muteWs muteEnd.1 muteEnd.2 := rfl

/-- The parsing thread takes a `ThreadError` of the tool for the end of the
queue: `load` returns although the first file failed and the second, about
which nothing is wrong, was never given to the tool. -/
theorem C74_cex_swallowed : ∃ tr s, Run mute.tools (start [1, 2] 1 none []) tr s ∧
    s.m = .done ∧ s.reg = [] ∧ parsedFiles tr = [1] :=
  ⟨_, _, mute_played.run, rfl, rfl, rfl⟩

/-! ## A failing merge -/

/-- The second merge fails. -/
def clash : Det := ⟨fun f => .ok (f + 10), fun x => .ok (x + 10),
  fun g r => if g = [] then ([r], none) else (g, some 7)⟩

def clashWs : List Who :=
  [.m, .p 0, .p 0, .p 0, .p 0, .p 0, .p 0, .p 0, .p 0, .p 0, .m, .m, .m,
   .r, .r, .r, .r, .r, .r, .r, .r, .r, .m, .m, .m, .m]

def clashEnd : List Ev × S :=
  (play clash clashWs [] (start [1, 2] 1 none [])).getD ([], start [] 0 none [])

theorem clash_played : Played clash [1, 2] 1 none clashWs clashEnd.1 clashEnd.2 := rfl

/-- `load` is not all or nothing: when the registry of one file conflicts with
what is already there, those merged before it stay. -/
theorem C74_cex_half_merged : ∃ tr s, Run clash.tools (start [1, 2] 1 none []) tr s ∧
    s.m = .raised 7 ∧ s.reg = [21] :=
  ⟨_, _, clash_played.run, rfl, rfl⟩

example := C74_raise_partial (e := 7) clash_played.run rfl

/-- The order of the merges depends on the schedule, as the file order is kept by
the sequential version only: the same call may leave two different registries. -/
theorem C74_cex_order : ∃ tr s tr' s', Run good.tools (start [1, 2, 3] 2 (some 0) []) tr s ∧
    s.m = .done ∧ s.reg = [22, 21, 23] ∧
    Run good.tools (start [1, 2, 3] 2 (some 0) []) tr' s' ∧ s'.m = .done ∧ s'.reg = [21, 22, 23] := by
  refine ⟨_, _, _, _, good_played.run, rfl, rfl,
    (play_sound good ([.m] ++ List.replicate 13 (.p 0) ++ [.p 1, .m, .m, .m, .m] ++
      List.replicate 13 .r ++ [.m, .m, .m, .m, .m, .m]) _ _ _ _ .init rfl), rfl, rfl⟩

end Verif.PLoad
