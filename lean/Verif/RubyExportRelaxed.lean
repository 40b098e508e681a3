import Verif.RubyExportProps

/-! C70: what a relaxed lookup (`Types.x1.….xn::M`) can give: proofs. -/

namespace Verif.RubyExport
open Verif Verif.Names Verif.Graph Verif.Registry Verif.RegistryIter

variable {α : Type} [DecidableEq α]

/-- the names that `M` stands for in a relaxed lookup: `M`, `M` in snake or camel case, or a name with the same snake case -/
def StandsFor (E : Env α) (m b : Str) : Prop := b = m ∨ b = E.snake m ∨ b = E.camel m ∨ E.snake b = E.snake m

theorem splitGo_flat : ∀ (s : Str) (lvl : Int) (cur : Str), (∀ c ∈ s, c ≠ '/') → cur ++ s ≠ [] → splitGo lvl cur s = [cur ++ s]
  | [], lvl, cur, _, hne => by
    have hc : cur ≠ [] := by simpa using hne
    cases cur with
    | nil => exact absurd rfl hc
    | cons c l => simp [splitGo]
  | c :: r, lvl, cur, h, _ => by
    have hc : c ≠ '/' := h c (by simp)
    have hr : ∀ c ∈ r, c ≠ '/' := fun x hx => h x (by simp [hx])
    have e : cur ++ c :: r = (cur ++ [c]) ++ r := by simp
    have hn : (cur ++ [c]) ++ r ≠ [] := by simp
    simp only [splitGo, if_neg hc]
    rw [e]
    by_cases h1 : c = '<'
    · rw [if_pos h1]; exact splitGo_flat r _ _ hr hn
    · rw [if_neg h1]
      by_cases h2 : c = '>'
      · rw [if_pos h2]; exact splitGo_flat r _ _ hr hn
      · rw [if_neg h2]; exact splitGo_flat r _ _ hr hn

theorem preOk_flat {p : Str} (h : PreOk p) {b : Str} (hne : b ≠ []) (hb : ∀ c ∈ b, c ≠ '/') : getTypename (p ++ b) = b := by
  obtain ⟨l, hl, rfl⟩ := h
  have e : joinAbs l ++ ['/'] ++ b = joinAbs l ++ '/' :: b := by simp
  unfold getTypename
  rw [e, split_app l (fun x hx => (hl x hx).1) b, splitGo_flat b 0 [] hb (by simpa using hne)]
  simp

/-- the regular expression is not touched by the lookups by method -/
theorem store_once (w : World α) (o : Obj) (k : Str × List α) (x : Obj) : (w.store o k x).once = w.once := by
  unfold World.store
  cases w.node o <;> rfl

theorem strict_once (E : Env α) (w : World α) (o : Obj) (m : Str) (args : List α) : (methodMissing E w o m args).1.once = w.once := by
  unfold methodMissing resolve resolveBy
  cases w.node o with
  | none => rfl
  | some n =>
    simp only
    cases find n.cache (m, args) with
    | some x => rfl
    | none =>
      simp only [findType_strict]
      cases w.R.get (n.pre ++ element E (m, args)) with
      | some t =>
        simp only
        cases E.exported n.filt t with
        | none => rfl
        | some c =>
          simp only
          have h1 : (setup { w with once := w.once } n c (getTypename (w.H.name t))).1.once = w.once := by
            cases c <;> rfl
          generalize setup { w with once := w.once } n c (getTypename (w.H.name t)) = r at h1
          unfold World.remember
          split
          · exact h1
          · rw [store_once]; exact h1
      | none =>
        simp only
        cases findNs E (eachType E.key w.H w.R) w false n.pre m args with
        | ok b =>
          cases b with
          | none => rfl
          | some b =>
            simp only
            unfold World.storeNs
            split
            · rw [store_once]; rfl
            · rfl
        | exn e => rfl
        | ub => rfl
        | fuel => rfl

theorem hist_once {E : Env α} {w : World α} (h : Hist E w) : w.once = none := by
  obtain ⟨H, R, _, _, hs⟩ := h
  induction hs with
  | refl => rfl
  | step _ hs ih =>
    cases hs with
    | «export» r f => exact ih
    | call o m args _ => rw [strict_once]; exact ih
    | grow => exact ih

theorem walk_once (E : Env α) : ∀ (l : List (Str × List α)) (w : World α) (o : Obj), (walk E w o l).1.once = w.once := by
  intro l
  induction l with
  | nil => intro w o; rfl
  | cons a l ih =>
    intro w o
    obtain ⟨m, args⟩ := a
    have h1 := strict_once E w o m args
    unfold walk
    generalize methodMissing E w o m args = r at h1
    obtain ⟨w1, out⟩ := r
    cases out with
    | obj y => exact (ih w1 y).trans h1
    | notFound => exact h1
    | undefined => exact h1

theorem typeNamed_some {R : Reg} {pre : Str} : ∀ {cs : List Str} {t : TId}, typeNamed R pre cs = some t →
    ∃ c ∈ cs, R.get (pre ++ c) = some t
  | c :: cs, t, h => by
    simp only [typeNamed] at h
    cases hg : R.get (pre ++ c) with
    | some u =>
      rw [hg] at h
      injection h with h
      exact ⟨c, by simp, by rw [hg, h]⟩
    | none =>
      rw [hg] at h
      obtain ⟨d, h1, h2⟩ := typeNamed_some h
      exact ⟨d, by simp [h1], h2⟩

theorem typeNamed_none {R : Reg} {pre : Str} : ∀ {cs : List Str}, typeNamed R pre cs = none → ∀ c ∈ cs, R.get (pre ++ c) = none
  | [], _, _, hc => by cases hc
  | d :: cs, h, c, hc => by
    simp only [typeNamed] at h
    cases hg : R.get (pre ++ d) with
    | some u => rw [hg] at h; cases h
    | none =>
      rw [hg] at h
      rcases List.mem_cons.mp hc with e | e
      · rw [e]; exact hg
      · exact typeNamed_none h c e

theorem nsNamed_some {E : Env α} (hk : ∀ a b, E.key a = E.key b → a = b) {w : World α} (hr : Reachable E.key w.H w.R) {pre : Str} :
    ∀ {cs : List Str} {b : Str}, nsNamed (eachType E.key w.H w.R) pre cs = .ok (some b) →
      b ∈ cs ∧ ∃ t, Regd w.H w.R t ∧ pre ++ b ++ ['/'] <+: w.H.name t
  | c :: cs, b, h => by
    obtain ⟨l, h1, h2, _⟩ := C58_types hk hr (pre ++ c ++ ['/'])
    simp only [nsNamed, h1] at h
    cases l with
    | nil =>
      obtain ⟨g1, g2⟩ := nsNamed_some hk hr h
      exact ⟨by simp [g1], g2⟩
    | cons t l =>
      injection h with h
      injection h with h
      subst h
      exact ⟨by simp, t, (h2 t).mp (by simp)⟩

theorem harderNs_some {E : Env α} {H : Heap} {pre : List Str} {base : Str} : ∀ {l : List TId} {b : Str},
    harderNs E H pre base l = .ok (some b) → ∃ t ∈ l, (∃ s, splitTypename (H.name t) = pre ++ b :: s) ∧ E.snake b = base
  | t :: ts, b, h => by
    simp only [harderNs] at h
    by_cases h1 : (splitTypename (H.name t)).take pre.length ≠ pre
    · rw [if_pos h1] at h
      obtain ⟨u, g1, g2⟩ := harderNs_some h
      exact ⟨u, by simp [g1], g2⟩
    · rw [if_neg h1] at h
      have h1' : (splitTypename (H.name t)).take pre.length = pre := Decidable.not_not.mp h1
      cases h2 : (splitTypename (H.name t))[pre.length]? with
      | none => rw [h2] at h; cases h
      | some x =>
        rw [h2] at h
        simp only at h
        by_cases h3 : E.snake x = base
        · rw [if_pos h3] at h
          injection h with h
          injection h with h
          subst h
          refine ⟨t, by simp, ⟨(splitTypename (H.name t)).drop (pre.length + 1), ?_⟩, h3⟩
          obtain ⟨hlt, he⟩ := List.getElem?_eq_some_iff.mp h2
          have e1 := (List.take_append_drop pre.length (splitTypename (H.name t))).symm
          rw [h1', List.drop_eq_getElem_cons hlt, he] at e1
          exact e1
        · rw [if_neg h3] at h
          obtain ⟨u, g1, g2⟩ := harderNs_some h
          exact ⟨u, by simp [g1], g2⟩

theorem setup_for (w : World α) (n : Node α) (c : Cls) (base : Str) : For (setup w n c base).2 c := by
  cases c with
  | ty t => rfl
  | rb k => exact ⟨_, rfl⟩

/-- **C70, relaxed names, only these**: the first relaxed lookup `Types.x1.….xn::M` gives nothing but: a type named `/x1/…/xn/B` where `B`
is a name that `M` stands for; or a namespace `/x1/…/xn/B/`, for such a `B`, that some type is in (or whose name is that of a type). -/
theorem C70_relaxed_only_partial {E : Env α} (hk : ∀ a b, E.key a = E.key b → a = b) (hp : Plain E) {w w' : World α} (h : Hist E w)
    {r : Nat} (hr : w.node (.root r) ≠ none) {l : List (Str × List α)} (hl : ∀ q ∈ l, Usable E q) {x : Obj}
    (hx : walk E w (.root r) l = (w', .obj x)) {m : Str} (hm : Usable E (m, [])) {w'' : World α} {y : Obj}
    (hy : constMissing E w' x m = (w'', .obj y)) :
    (∃ b t c, StandsFor E m b ∧ w.R.get (pathName E l ++ '/' :: b) = some t ∧ E.exported 0 t = some c ∧ For y c) ∨
    (∃ b k, StandsFor E m b ∧ y = .ns k ∧ (∃ n, w''.node y = some n ∧ n.pre = pathName E l ++ '/' :: b ++ ['/']) ∧
      ∃ t, Regd w.H w.R t ∧ (pathName E l ++ '/' :: b ++ ['/'] <+: w.H.name t ∨
        ∃ s, splitTypename (w.H.name t) = splitTypename (pathName E l ++ ['/']) ++ b :: s)) := by
  have hg := Good.hist hk hp h
  cases hn : w.node (.root r) with
  | none => exact absurd hn hr
  | some n =>
    obtain ⟨g1, g2, g3, n', g4, g5⟩ := walk_node hk hp l hg hn [] (hg.roots r n hn) hl hx
    have honce : w'.once = none := by
      have := walk_once E l w (.root r)
      rw [hx] at this
      exact this.trans (hist_once h)
    have e1 : ∀ s, n'.pre ++ s = pathName E l ++ '/' :: s := fun s => by rw [g5]; simp
    have em : element E (m, []) = m := by simp [element]
    have e2 : candidates E true m [] = [m, E.snake m, E.camel m] := by simp [candidates, templateArgs]
    have hcand : ∀ b ∈ [m, E.snake m, E.camel m], StandsFor E m b := by
      intro b hb
      simp only [List.mem_cons, List.not_mem_nil, or_false] at hb
      rcases hb with e | e | e
      · exact .inl e
      · exact .inr (.inl e)
      · exact .inr (.inr (.inl e))
    have hpre := g1.pres x n' g4
    rw [← g3, ← g2]
    unfold constMissing resolve resolveBy at hy
    rw [g4] at hy
    simp only at hy
    cases hfi : find n'.cache (m, []) with
    | some z =>
      rw [hfi] at hy
      simp only [outOf, Prod.mk.injEq, Out.obj.injEq] at hy
      obtain ⟨_, e⟩ := hy
      subst e
      obtain ⟨t, c, f1, f2, f3, _⟩ := g1.cached x n' m [] z g4 hm hfi
      rw [em, e1] at f1
      exact .inl ⟨m, t, c, .inl rfl, f1, f2, f3⟩
    | none =>
      rw [hfi] at hy
      simp only at hy
      obtain ⟨each, h1, h2, _⟩ := C58_types hk g1.reach n'.pre
      have hty : ∀ t once, findType E (eachType E.key w'.H w'.R) w' true n'.pre m [] = .ok (some t, once) →
          ∃ b, StandsFor E m b ∧ w'.R.get (n'.pre ++ b) = some t := by
        intro t once ht
        unfold findType at ht
        rw [e2] at ht
        cases htn : typeNamed w'.R n'.pre [m, E.snake m, E.camel m] with
        | some u =>
          rw [htn] at ht
          simp only [Res.ok.injEq, Prod.mk.injEq, Option.some.injEq] at ht
          obtain ⟨b, k1, k2⟩ := typeNamed_some htn
          exact ⟨b, hcand b k1, by rw [k2, ht.1]⟩
        | none =>
          rw [htn, h1, honce] at ht
          simp only [if_true, Option.getD_none] at ht
          cases each with
          | nil => simp at ht
          | cons a as =>
            simp only [Res.ok.injEq, Prod.mk.injEq] at ht
            have hmem := List.mem_of_find?_eq_some ht.1
            have hpr := List.find?_some ht.1
            obtain ⟨k1, b, k2⟩ := (h2 t).mp hmem
            unfold harderType matchesOnce at hpr
            rw [← k2] at hpr
            simp only [Bool.and_eq_true, beq_iff_eq, List.drop_left, Bool.not_eq_true', List.isEmpty_eq_false_iff, List.all_eq_true,
              bne_iff_ne, templateArgs, List.append_nil] at hpr
            obtain ⟨⟨⟨_, k3⟩, k4⟩, k5⟩ := hpr
            rw [preOk_flat hpre k3 k4] at k5
            refine ⟨b, .inr (.inr (.inr k5)), ?_⟩
            unfold Regd at k1
            rw [← k2] at k1
            exact k1
      cases hft : findType E (eachType E.key w'.H w'.R) w' true n'.pre m [] with
      | ok p =>
        obtain ⟨ot, once⟩ := p
        rw [hft] at hy
        cases ot with
        | some t =>
          obtain ⟨b, k1, k2⟩ := hty t once hft
          simp only [hp.1 n'.filt t] at hy
          cases hex : E.exported 0 t with
          | none => rw [hex] at hy; simp [outOf] at hy
          | some c =>
            rw [hex] at hy
            simp only [outOf, Prod.mk.injEq, Out.obj.injEq] at hy
            refine .inl ⟨b, t, c, k1, by rw [← e1]; exact k2, hex, ?_⟩
            rw [← hy.2]
            exact setup_for _ _ _ _
        | none =>
          simp only at hy
          have hns : ∀ b, findNs E (eachType E.key w'.H w'.R) w' true n'.pre m [] = .ok (some b) → StandsFor E m b ∧
              ∃ t, Regd w'.H w'.R t ∧ (n'.pre ++ b ++ ['/'] <+: w'.H.name t ∨
                ∃ s, splitTypename (w'.H.name t) = splitTypename n'.pre ++ b :: s) := by
            intro b hb
            unfold findNs at hb
            rw [e2] at hb
            cases hnn : nsNamed (eachType E.key w'.H w'.R) n'.pre [m, E.snake m, E.camel m] with
            | ok ob =>
              rw [hnn] at hb
              cases ob with
              | some d =>
                simp only [Res.ok.injEq, Option.some.injEq] at hb
                subst hb
                obtain ⟨k1, t, k2, k3⟩ := nsNamed_some hk g1.reach hnn
                exact ⟨hcand _ k1, t, k2, .inl k3⟩
              | none =>
                simp only [if_true, h1] at hb
                obtain ⟨t, k1, k2, k3⟩ := harderNs_some hb
                refine ⟨.inr (.inr (.inr ?_)), t, ((h2 t).mp k1).1, .inr k2⟩
                simpa [templateArgs] using k3
            | exn e => rw [hnn] at hb; simp at hb
            | ub => rw [hnn] at hb; simp at hb
            | fuel => rw [hnn] at hb; simp at hb
          cases hfn : findNs E (eachType E.key w'.H w'.R) w' true n'.pre m [] with
          | ok ob =>
            rw [hfn] at hy
            cases ob with
            | none => simp [outOf] at hy
            | some b =>
              obtain ⟨k1, t, k2, k3⟩ := hns b hfn
              simp only [outOf, Prod.mk.injEq, Out.obj.injEq] at hy
              obtain ⟨y1, y2⟩ := hy
              refine .inr ⟨b, w'.fresh, k1, y2.symm, ?_, t, k2, ?_⟩
              · have hnone := g1.freshNs w'.fresh (Nat.le_refl _)
                have hne : Obj.ns w'.fresh ≠ x := by
                  intro e
                  rw [← e, hnone] at g4
                  cases g4
                refine ⟨⟨n'.pre ++ b ++ ['/'], n'.filt, []⟩, ?_, by rw [e1]⟩
                rw [← y1, ← y2]
                unfold World.storeNs
                split
                · unfold World.store
                  split
                  · rw [set_other _ _ hne]; exact set_same _ _ _
                  · exact set_same _ _ _
                · exact set_same _ _ _
              · rw [e1] at k3
                have e3 : n'.pre = pathName E l ++ ['/'] := by rw [g5]; simp
                rw [e3] at k3
                exact k3
          | exn e => rw [hfn] at hy; simp [outOf] at hy
          | ub => rw [hfn] at hy; simp [outOf] at hy
          | fuel => rw [hfn] at hy; simp [outOf] at hy
      | exn e => rw [hft] at hy; simp [outOf] at hy
      | ub => rw [hft] at hy; simp [outOf] at hy
      | fuel => rw [hft] at hy; simp [outOf] at hy

/-- **C70, relaxed names, all of these**: if `Types.x1.….xn::M` raises, and no type is filtered out, then there is no type `/x1/…/xn/B`
where `M` stands for `B`, and no type in the namespace `/x1/…/xn/B/` where `B` is `M` or its snake or camel case. -/
theorem C70_relaxed_all_partial {E : Env α} (hk : ∀ a b, E.key a = E.key b → a = b) (hp : Plain E) {w w' : World α} (h : Hist E w)
    {r : Nat} (hr : w.node (.root r) ≠ none) {l : List (Str × List α)} (hl : ∀ q ∈ l, Usable E q) {x : Obj}
    (hx : walk E w (.root r) l = (w', .obj x)) {m : Str} (hfil : ∀ t, E.exported 0 t ≠ none)
    (hy : (constMissing E w' x m).2 = .notFound) :
    (∀ b t, StandsFor E m b → b ≠ [] → (∀ c ∈ b, c ≠ '/') → w.R.get (pathName E l ++ '/' :: b) ≠ some t) ∧
    (∀ b t, b = m ∨ b = E.snake m ∨ b = E.camel m → Regd w.H w.R t → ¬ pathName E l ++ '/' :: b ++ ['/'] <+: w.H.name t) := by
  have hg := Good.hist hk hp h
  cases hn : w.node (.root r) with
  | none => exact absurd hn hr
  | some n =>
    obtain ⟨g1, g2, g3, n', g4, g5⟩ := walk_node hk hp l hg hn [] (hg.roots r n hn) hl hx
    have honce : w'.once = none := by
      have := walk_once E l w (.root r)
      rw [hx] at this
      exact this.trans (hist_once h)
    have e1 : ∀ s, n'.pre ++ s = pathName E l ++ '/' :: s := fun s => by rw [g5]; simp
    have e2 : candidates E true m [] = [m, E.snake m, E.camel m] := by simp [candidates, templateArgs]
    have hpre := g1.pres x n' g4
    rw [← g3, ← g2]
    unfold constMissing resolve resolveBy at hy
    rw [g4] at hy
    simp only at hy
    cases hfi : find n'.cache (m, []) with
    | some z => rw [hfi] at hy; simp [outOf] at hy
    | none =>
      rw [hfi] at hy
      simp only at hy
      obtain ⟨each, h1, h2, _⟩ := C58_types hk g1.reach n'.pre
      cases htn : typeNamed w'.R n'.pre [m, E.snake m, E.camel m] with
      | some u =>
        exfalso
        have : findType E (eachType E.key w'.H w'.R) w' true n'.pre m [] = .ok (some u, w'.once) := by
          unfold findType
          rw [e2, htn]
        rw [this] at hy
        simp only [hp.1 n'.filt u] at hy
        cases hex : E.exported 0 u with
        | none => exact hfil u hex
        | some c => rw [hex] at hy; simp [outOf] at hy
      | none =>
        have hno := typeNamed_none htn
        have hfind : each.find? (harderType E w'.H n'.pre m []) = none := by
          cases hf : each.find? (harderType E w'.H n'.pre m []) with
          | none => rfl
          | some u =>
            exfalso
            have : ∃ once, findType E (eachType E.key w'.H w'.R) w' true n'.pre m [] = .ok (some u, once) := by
              unfold findType
              rw [e2, htn, h1, honce]
              cases each with
              | nil => cases hf
              | cons a as => exact ⟨some n'.pre, by rw [← hf]; rfl⟩
            obtain ⟨once, this⟩ := this
            rw [this] at hy
            simp only [hp.1 n'.filt u] at hy
            cases hex : E.exported 0 u with
            | none => exact hfil u hex
            | some c => rw [hex] at hy; simp [outOf] at hy
        refine ⟨fun b t hb hne hsl ht => ?_, fun b t hb ht hpx => ?_⟩
        · rw [← e1] at ht
          have habs := preOk_abs hpre b
          have hnm := g1.noAlias _ t habs ht
          rcases hb with e | e | e | e
          · rw [e, hno m (by simp)] at ht; cases ht
          · rw [e, hno _ (by simp)] at ht; cases ht
          · rw [e, hno _ (by simp)] at ht; cases ht
          · have hmem : t ∈ each := (h2 t).mpr ⟨by unfold Regd; rw [hnm]; exact ht, by rw [hnm]; exact List.prefix_append _ _⟩
            have := List.find?_eq_none.mp hfind t hmem
            refine this ?_
            unfold harderType matchesOnce
            rw [hnm, preOk_flat hpre hne hsl, e]
            simp only [Bool.and_eq_true, beq_iff_eq, List.drop_left, Bool.not_eq_true', List.isEmpty_eq_false_iff, List.all_eq_true,
              bne_iff_ne, templateArgs, List.append_nil, List.isPrefixOf_iff_prefix, List.prefix_append]
            exact ⟨⟨⟨trivial, hne⟩, hsl⟩, trivial⟩
        · have hft : ∃ once, findType E (eachType E.key w'.H w'.R) w' true n'.pre m [] = .ok (none, once) := by
            unfold findType
            rw [e2, htn, h1, honce]
            cases each with
            | nil => exact ⟨_, rfl⟩
            | cons a as => exact ⟨some n'.pre, congrArg (fun z => Res.ok (z, some n'.pre)) hfind⟩
          obtain ⟨once, hft⟩ := hft
          rw [hft] at hy
          simp only at hy
          have hex : ∃ d, nsNamed (eachType E.key w'.H w'.R) n'.pre [m, E.snake m, E.camel m] = .ok (some d) := by
            have key : ∀ cs : List Str, b ∈ cs → ∃ d, nsNamed (eachType E.key w'.H w'.R) n'.pre cs = .ok (some d) := by
              intro cs
              induction cs with
              | nil => intro hb; cases hb
              | cons c cs ih =>
                intro hb
                obtain ⟨l2, k1, k2, _⟩ := C58_types hk g1.reach (n'.pre ++ c ++ ['/'])
                simp only [nsNamed, k1]
                cases l2 with
                | cons a as => exact ⟨c, rfl⟩
                | nil =>
                  rcases List.mem_cons.mp hb with e | e
                  · have := (k2 t).mpr ⟨ht, by rw [e1, ← e]; exact hpx⟩
                    cases this
                  · exact ih e
            refine key _ ?_
            rcases hb with e | e | e <;> simp [e]
          obtain ⟨d, hd⟩ := hex
          have : findNs E (eachType E.key w'.H w'.R) w' true n'.pre m [] = .ok (some d) := by
            unfold findNs
            rw [e2, hd]
          rw [this] at hy
          simp [outOf] at hy

end Verif.RubyExport
