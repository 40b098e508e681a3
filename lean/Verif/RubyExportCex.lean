import Verif.RubyExportRelaxed

/-! C70: examples and counterexamples. -/

namespace Verif.RubyExport
open Verif Verif.Names Verif.Graph Verif.Registry Verif.RegistryIter

variable {α : Type} [DecidableEq α]

/-- `recv.m(*args)`, or `recv::m` -/
structure Call (α : Type) where
  recv : Obj
  relaxed : Bool
  m : Str
  args : List α

/-- a sequence of calls and what they give -/
def script (E : Env α) (w : World α) : List (Call α) → World α × List Out
  | [] => (w, [])
  | c :: cs =>
    let r := if c.relaxed then constMissing E w c.recv c.m else methodMissing E w c.recv c.m c.args
    let s := script E r.1 cs
    (s.1, r.2 :: s.2)

/-- the types that `each` gives, without the iterators (see C58) -/
def fast (H : Heap) (R : Reg) (pre : Str) : Res (List TId) :=
  .ok ((((R.global.filter (fun p => pre.isPrefixOf p.1)).filter fun p => !isAlias H p).map fun p => p.2.ty))

def scriptF (E : Env α) (w : World α) : List (Call α) → World α × List Out
  | [] => (w, [])
  | c :: cs =>
    let r := resolveBy E (fast w.H w.R) w c.recv c.relaxed c.m (if c.relaxed then [] else c.args)
    let s := scriptF E r.1 cs
    (s.1, outOf r.2 :: s.2)

theorem store_HR (w : World α) (o : Obj) (k : Str × List α) (x : Obj) : (w.store o k x).H = w.H ∧ (w.store o k x).R = w.R := by
  unfold World.store
  split <;> exact ⟨rfl, rfl⟩

theorem remember_HR (w : World α) (o : Obj) (k : Str × List α) (x : Obj) :
    (w.remember o k x).H = w.H ∧ (w.remember o k x).R = w.R := by
  unfold World.remember
  split
  · exact ⟨rfl, rfl⟩
  · exact store_HR _ _ _ _

theorem resolve_HR (E : Env α) (each : Str → Res (List TId)) (w : World α) (o : Obj) (rel : Bool) (m : Str) (args : List α) :
    (resolveBy E each w o rel m args).1.H = w.H ∧ (resolveBy E each w o rel m args).1.R = w.R := by
  unfold resolveBy
  cases w.node o with
  | none => exact ⟨rfl, rfl⟩
  | some n =>
    simp only
    cases find n.cache (m, args) with
    | some x => exact ⟨rfl, rfl⟩
    | none =>
      simp only
      rcases findType E each w rel n.pre m args with ⟨t, once⟩ | e | _ | _
      · cases t with
        | some t =>
          simp only
          cases E.exported n.filt t with
          | none => exact ⟨rfl, rfl⟩
          | some c =>
            cases c with
            | ty u =>
              simp only [setup]
              exact remember_HR _ _ _ _
            | rb k =>
              simp only [setup]
              exact remember_HR _ _ _ _
        | none =>
          simp only
          rcases findNs E each w rel n.pre m args with b | e | _ | _
          · cases b with
            | none => exact ⟨rfl, rfl⟩
            | some b =>
              simp only [World.storeNs]
              split
              · exact store_HR _ _ _ _
              · exact ⟨rfl, rfl⟩
          · exact ⟨rfl, rfl⟩
          · exact ⟨rfl, rfl⟩
          · exact ⟨rfl, rfl⟩
      · exact ⟨rfl, rfl⟩
      · exact ⟨rfl, rfl⟩
      · exact ⟨rfl, rfl⟩

theorem script_eq {E : Env α} (hk : ∀ a b, E.key a = E.key b → a = b) : ∀ (cs : List (Call α)) {w : World α},
    Sorted E.key w.R.global → script E w cs = scriptF E w cs := by
  intro cs
  induction cs with
  | nil => intro w _; rfl
  | cons c cs ih =>
    intro w hs
    have he : eachType E.key w.H w.R = fast w.H w.R := by
      funext pre
      exact (walk_each E.key hk hs pre).2 w.H
    have h2 : (resolveBy E (fast w.H w.R) w c.recv c.relaxed c.m (if c.relaxed then [] else c.args)).1.R = w.R :=
      (resolve_HR _ _ _ _ _ _ _).2
    unfold script scriptF
    cases hc : c.relaxed with
    | true =>
      rw [hc] at h2
      simp only [constMissing, resolve, he, if_true]
      rw [ih (by rw [if_pos rfl] at h2; rw [h2]; exact hs)]
    | false =>
      rw [hc] at h2
      simp only [methodMissing, resolve, he, if_neg Bool.false_ne_true]
      rw [ih (by rw [if_neg Bool.false_ne_true] at h2; rw [h2]; exact hs)]

/-! ### A registry -/

def hGet : TId → TypeDef
  | 0 => ⟨"/a/B".toList, 4, .num .sint⟩
  | 1 => ⟨"/a/B/C".toList, 4, .num .sint⟩
  | 2 => ⟨"/b/R".toList, 4, .num .sint⟩
  | 3 => ⟨"/b/R/N".toList, 4, .num .sint⟩
  | 4 => ⟨"/b/foo_bar".toList, 4, .num .sint⟩
  | 5 => ⟨"/c/Custom_typeX".toList, 4, .num .sint⟩
  | 6 => ⟨"/c/V<-1,/a/B>".toList, 4, .num .sint⟩
  | _ => ⟨"/c/V<-1,/a/B>/M".toList, 4, .num .sint⟩

def heap0 : Heap := ⟨8, hGet⟩

def ops0 : List Op := [.addAuto 0 [], .addAuto 1 [], .addAuto 2 [], .addAuto 3 [], .addAuto 4 [], .addAuto 5 [], .addAuto 6 [], .addAuto 7 []]

def reg0 : Reg := run ascii heap0 Reg.empty ops0

theorem heap0_acyclic : Acyclic heap0 := by
  intro u x h
  match u with
  | 0 | 1 | 2 | 3 | 4 | 5 | 6 => cases h
  | n + 7 => cases h

theorem reg0_reachable : Reachable ascii heap0 reg0 := by
  refine reachable_ops heap0_acyclic ops0 ?_
  intro o ho
  simp only [ops0, List.mem_cons, List.mem_nil_iff, or_false] at ho
  rcases ho with rfl | rfl | rfl | rfl | rfl | rfl | rfl | rfl
  all_goals exact ⟨by decide, by decide⟩

/-- the same with the alias `/a/L` of `/b/R` -/
def regL : Reg := run ascii heap0 Reg.empty (ops0 ++ [.alias "/b/R".toList "/a/L".toList true []])

theorem regL_reachable : Reachable ascii heap0 regL := by
  refine reachable_ops heap0_acyclic _ ?_
  intro o ho
  simp only [ops0, List.mem_cons, List.mem_nil_iff, or_false, List.cons_append, List.nil_append] at ho
  rcases ho with rfl | rfl | rfl | rfl | rfl | rfl | rfl | rfl | rfl
  all_goals first | exact ⟨by decide, by decide⟩ | (show isAbsoluteName _ = true; decide)

/-- and after the removal of `/a/B/C` -/
def regD : Reg := run ascii heap0 Reg.empty (ops0 ++ [.remove 1])

theorem regD_reachable : Reachable ascii heap0 regD := by
  refine reachable_ops heap0_acyclic _ ?_
  intro o ho
  simp only [ops0, List.mem_cons, List.mem_nil_iff, or_false, List.cons_append, List.nil_append] at ho
  rcases ho with rfl | rfl | rfl | rfl | rfl | rfl | rfl | rfl | rfl
  all_goals first | exact ⟨by decide, by decide⟩ | trivial

/-- `FooBar` to `foo_bar` -/
def snake0 : Bool → Str → Str
  | _, [] => []
  | b, c :: s =>
    if c.isUpper then (if b then ['_', c.toLower] else [c.toLower]) ++ snake0 false s
    else c :: snake0 (c != '_') s

/-- root modules are called `Types`, types are exported as they are -/
def E0 : Env Str where
  text := fun s => s
  snake := snake0 false
  camel := fun s => s
  conv := fun _ => none
  filter := fun _ => none
  rootName := fun _ => some "Types".toList
  className := fun _ => none
  key := ascii

def w0 : World Str := exportTo (World.start heap0 reg0) 0 0
def wL : World Str := exportTo (World.start heap0 regL) 0 0

/-- `recv.m` -/
def dot (o : Obj) (m : String) : Call Str := ⟨o, false, m.toList, []⟩
/-- `recv::m` -/
def colon (o : Obj) (m : String) : Call Str := ⟨o, true, m.toList, []⟩

theorem run0 (E : Env Str) (hE : E.key = ascii) (cs : List (Call Str)) : script E w0 cs = scriptF E w0 cs := by
  refine script_eq (by rw [hE]; exact ascii_inj) cs ?_
  rw [hE]
  exact (reachable_inv ascii_inj reg0_reachable).2.sorted

theorem runL (cs : List (Call Str)) : script E0 wL cs = scriptF E0 wL cs :=
  script_eq ascii_inj cs (reachable_inv ascii_inj regL_reachable).2.sorted

/-- **C70, counterexample**: namespaces are remembered under the Ruby name of the module they were found from: once `Types.a` was called,
`Types.Types` is the namespace `/a`, although there is nothing of this name in the registry. -/
theorem C70_own_name_counterexample :
    (script E0 w0 [dot (.root 0) "Types"]).2 = [.notFound] ∧
    (script E0 w0 [dot (.root 0) "a", dot (.root 0) "Types"]).2 = [.obj (.ns 0), .obj (.ns 0)] ∧
    reg0.get "/Types".toList = none := by
  rw [run0 E0 rfl, run0 E0 rfl]
  decide +kernel

/-- **C70, counterexample**: an alias changes what a path means: the class of the type is shared, and its prefix is overwritten by the one
of the last path. `Types.b.R.N` is the type `/b/R/N`, until `Types.a.L` (an alias of `/b/R`) is called: then `Types.b.R.N`
does not exist. -/
theorem C70_alias_counterexample :
    (script E0 wL [dot (.root 0) "b", dot (.ns 0) "R", dot (.type 2) "N"]).2 = [.obj (.ns 0), .obj (.type 2), .obj (.type 3)] ∧
    (script E0 wL [dot (.root 0) "b", dot (.ns 0) "R", dot (.root 0) "a", dot (.ns 1) "L", dot (.ns 0) "R", dot (.type 2) "N"]).2 =
      [.obj (.ns 0), .obj (.type 2), .obj (.ns 1), .obj (.type 2), .obj (.type 2), .notFound] ∧
    regL.get "/b/R/N".toList = some 3 ∧ regL.get "/a/L".toList = some 2 := by
  rw [runL, runL]
  decide +kernel

/-- **C70, counterexample**: types that were found remain after they are removed from the registry: `Types.a.B.C`, on the same class
`Types.a.B`. -/
theorem C70_removed_counterexample :
    let w := (script E0 w0 [dot (.root 0) "a", dot (.ns 0) "B", dot (.type 0) "C"]).1
    (script E0 { w with R := regD } [dot (.type 0) "C"]).2 = [.obj (.type 1)] ∧ regD.get "/a/B/C".toList = none := by
  rw [run0 E0 rfl]
  simp only
  rw [script_eq ascii_inj _ (reachable_inv ascii_inj regD_reachable).2.sorted]
  decide +kernel

/-- **C70, counterexample**: the results of relaxed lookups are given to the strict ones: `Types.b.FooBar` does not exist, but once
`Types.b::FooBar` was written it is the type `/b/foo_bar`. -/
theorem C70_relaxed_counterexample :
    (script E0 w0 [dot (.root 0) "b", dot (.ns 0) "FooBar"]).2 = [.obj (.ns 0), .notFound] ∧
    (script E0 w0 [dot (.root 0) "b", colon (.ns 0) "FooBar", dot (.ns 0) "FooBar"]).2 =
      [.obj (.ns 0), .obj (.type 4), .obj (.type 4)] ∧
    reg0.get "/b/FooBar".toList = none := by
  rw [run0 E0 rfl, run0 E0 rfl]
  decide +kernel

/-- **C70, counterexample**: the regular expression of the relaxed lookups is built once per process. `Types.c::CustomTypeX` is the
type `/c/Custom_typeX` if this is the first such lookup; after a relaxed lookup at the root that does not succeed at once, it is an empty
namespace. -/
theorem C70_once_counterexample :
    (script E0 w0 [dot (.root 0) "c", colon (.ns 0) "CustomTypeX"]).2 = [.obj (.ns 0), .obj (.type 5)] ∧
    (script E0 w0 [colon (.root 0) "Nope", dot (.root 0) "c", colon (.ns 0) "CustomTypeX", dot (.ns 1) "x"]).2 =
      [.notFound, .obj (.ns 0), .obj (.ns 1), .notFound] := by
  rw [run0 E0 rfl, run0 E0 rfl]
  decide +kernel

/-- **C70, counterexample**: for the same reason a relaxed lookup can find a type of another namespace: after one in `/c/`,
`Types::CustomTypeX` is the type `/c/Custom_typeX`. -/
theorem C70_wrong_namespace_counterexample :
    (script E0 w0 [colon (.root 0) "CustomTypeX"]).2 = [.notFound] ∧
    (script E0 w0 [dot (.root 0) "c", colon (.ns 0) "CustomTypeX", colon (.root 0) "CustomTypeX"]).2 =
      [.obj (.ns 0), .obj (.type 5), .obj (.type 5)] ∧ heap0.name 5 = "/c/Custom_typeX".toList := by
  rw [run0 E0 rfl, run0 E0 rfl]
  decide +kernel

/-- `/a/B` is converted to the Ruby class 7 -/
def E1 : Env Str where
  text := fun s => s
  snake := snake0 false
  camel := fun s => s
  conv := fun t => if t = 0 then some (some (.rb 7)) else none
  filter := fun _ => none
  rootName := fun _ => some "Types".toList
  className := fun _ => some "Array".toList
  key := ascii

/-- **C70, counterexample**: a type that is converted to a Ruby class is a new delegate object every time `Types.a.B` is evaluated, because
`Types.a` is a new namespace every time: `Types.a.B` and `Types.a.B` are not the same object (and not equal, either). -/
theorem C70_identity_counterexample :
    (script E1 w0 [dot (.root 0) "a", dot (.ns 0) "B", dot (.root 0) "a", dot (.ns 2) "B"]).2 =
      [.obj (.ns 0), .obj (.deleg 1 7), .obj (.ns 2), .obj (.deleg 3 7)] := by
  rw [run0 E1 rfl]
  decide +kernel

/-- the second filter block removes `/a/B/C` -/
def E2 : Env Str where
  text := fun s => s
  snake := snake0 false
  camel := fun s => s
  conv := fun _ => none
  filter := fun f => if f = 1 then some (fun t c => if t = 1 then none else some c) else none
  rootName := fun _ => some "Types".toList
  className := fun _ => none
  key := ascii

def w2 : World Str := exportTo w0 1 1

/-- **C70, counterexample**: two modules that export the same registry share the classes of the types: with a filter block in the second
that removes `/a/B/C`, this type is found from the first module, until the second one is asked for `a.B`. -/
theorem C70_filter_counterexample :
    (script E2 w2 [dot (.root 0) "a", dot (.ns 0) "B", dot (.type 0) "C"]).2 = [.obj (.ns 0), .obj (.type 0), .obj (.type 1)] ∧
    (script E2 w2 [dot (.root 0) "a", dot (.ns 0) "B", dot (.root 1) "a", dot (.ns 1) "B", dot (.ns 0) "B", dot (.type 0) "C"]).2 =
      [.obj (.ns 0), .obj (.type 0), .obj (.ns 1), .obj (.type 0), .obj (.type 0), .notFound] := by
  rw [script_eq ascii_inj _ (reachable_inv ascii_inj reg0_reachable).2.sorted,
    script_eq ascii_inj _ (reachable_inv ascii_inj reg0_reachable).2.sorted]
  decide +kernel

/-! ### The hypotheses of the theorems are met -/

theorem plain0 : Plain E0 := ⟨fun _ _ => rfl, fun t u e => by cases e; rfl⟩
theorem plain1 : Plain E1 := by
  refine ⟨fun _ _ => rfl, fun t u e => ?_⟩
  by_cases h : t = 0
  · subst h; cases e
  · simp only [Env.exported, E1, Env.toRuby, if_neg h] at e
    cases e; rfl

theorem reg0_names : ∀ p ∈ reg0.global, heap0.name p.2.ty = p.1 := by decide +kernel

theorem reg0_noAlias : NoAlias heap0 reg0 := by
  intro n t ha hg
  have hi := (reachable_inv ascii_inj reg0_reachable).2
  rw [hi.abs n ha] at hg
  obtain ⟨e, hm, he⟩ := reg_mem hg
  rw [← he]
  exact reg0_names _ hm

theorem hist0 : Hist E0 w0 :=
  ⟨heap0, reg0, reg0_reachable, reg0_noAlias, .step (.refl _) (.export _ 0 0)⟩

theorem hist1 : Hist E1 w0 :=
  ⟨heap0, reg0, reg0_reachable, reg0_noAlias, .step (.refl _) (.export _ 0 0)⟩

theorem usable_plain {s : String} (h : ∀ c ∈ s.toList, c ≠ '<' ∧ c ≠ '>' ∧ c ≠ '/') (h1 : s.toList ≠ []) (h2 : s.toList ≠ "Types".toList) :
    Usable E0 (s.toList, []) := by
  have e : element E0 (s.toList, []) = s.toList := by simp [element, templateArgs]
  refine ⟨by rw [e]; exact comp_plain h, h1, fun c hc => (h c hc).2.2, fun r e => h2 (Option.some.inj e).symm, fun k e => by cases e⟩

theorem usable_V : Usable E0 ("V".toList, ["-1".toList, "/a/B".toList]) := by
  refine ⟨?_, by decide, by decide, fun r e => ?_, fun k e => by cases e⟩
  · have : Comp ("V".toList ++ ('<' :: "-1,/a/B".toList ++ '>' :: [])) :=
      .char (by decide) (by decide) (by decide) (.tmpl (by repeat' first | exact .nil | refine .char (by decide) (by decide) ?_) .nil)
    exact this
  · exact absurd (Option.some.inj e) (by decide)

/-- `Types.c.V(-1, '/a/B').M` -/
example : (∀ q ∈ [("c".toList, []), ("V".toList, ["-1".toList, "/a/B".toList]), ("M".toList, [])], Usable E0 q) ∧
    pathName E0 [("c".toList, []), ("V".toList, ["-1".toList, "/a/B".toList]), ("M".toList, [])] = "/c/V<-1,/a/B>/M".toList ∧
    reg0.get "/c/V<-1,/a/B>/M".toList = some 7 := by
  refine ⟨?_, by decide, by decide +kernel⟩
  intro q hq
  simp only [List.mem_cons, List.mem_nil_iff, or_false] at hq
  rcases hq with rfl | rfl | rfl
  · exact usable_plain (s := "c") (by decide) (by decide) (by decide)
  · exact usable_V
  · exact usable_plain (s := "M") (by decide) (by decide) (by decide)

theorem usable_path : ∀ q ∈ [("c".toList, []), ("V".toList, ["-1".toList, "/a/B".toList]), ("M".toList, [])], Usable E0 q := by
  intro q hq
  simp only [List.mem_cons, List.mem_nil_iff, or_false] at hq
  rcases hq with rfl | rfl | rfl
  · exact usable_plain (s := "c") (by decide) (by decide) (by decide)
  · exact usable_V
  · exact usable_plain (s := "M") (by decide) (by decide) (by decide)

/-- the theorem gives the type -/
example : (walk E0 w0 (.root 0) [("c".toList, []), ("V".toList, ["-1".toList, "/a/B".toList]), ("M".toList, [])]).2 = .obj (.type 7) := by
  have h := C70_path_partial ascii_inj plain0 hist0 (r := 0) (by intro e; cases e) (by simp) usable_path (fun _ _ _ _ _ t _ e => by cases e)
  obtain ⟨x, hx, hf⟩ := h.1 7 (.ty 7) (by decide +kernel) rfl
  rw [hx, show x = Obj.type 7 from hf]

/-- `Types::FooBar` in the namespace `/b` -/
example {w' : World Str} {x : Obj} (hx : walk E0 w0 (.root 0) [("b".toList, [])] = (w', .obj x)) :
    ∃ y, (constMissing E0 w' x "FooBar".toList).2 = .obj y ∧ For y (.ty 4) :=
  C70_relaxed_partial (t := 4) ascii_inj plain0 hist0 (r := 0) (by intro e; cases e)
    (fun q hq => by rw [List.mem_singleton.mp hq]; exact usable_plain (s := "b") (by decide) (by decide) (by decide)) hx
    (usable_plain (s := "FooBar") (by decide) (by decide) (by decide))
    (.inr (.inl ⟨by decide +kernel, by decide +kernel⟩)) rfl

/-- `Types.c` and `Types.c::CustomTypeX` give objects -/
theorem relaxed_run : ∃ w' w'', walk E0 w0 (.root 0) [("c".toList, [])] = (w', .obj (.ns 0)) ∧
    constMissing E0 w' (.ns 0) "CustomTypeX".toList = (w'', .obj (.type 5)) := by
  have h1 : (script E0 w0 [dot (.root 0) "c", colon (.ns 0) "CustomTypeX"]).2 = [.obj (.ns 0), .obj (.type 5)] := by
    rw [run0 E0 rfl]; decide +kernel
  have h2 : (script E0 w0 [dot (.root 0) "c", colon (.ns 0) "CustomTypeX"]).2 =
      [(methodMissing E0 w0 (.root 0) "c".toList []).2,
        (constMissing E0 (methodMissing E0 w0 (.root 0) "c".toList []).1 (.ns 0) "CustomTypeX".toList).2] := rfl
  rw [h2] at h1
  have h3 : ∀ (w : World Str) (o : Obj) (q : Str × List Str), walk E0 w o [q] =
      ((methodMissing E0 w o q.1 q.2).1, (methodMissing E0 w o q.1 q.2).2) := by
    intro w o q
    obtain ⟨m, args⟩ := q
    simp only [walk]
    generalize methodMissing E0 w o m args = r
    obtain ⟨w1, out⟩ := r
    cases out <;> rfl
  injection h1 with a b
  injection b with b _
  refine ⟨(methodMissing E0 w0 (.root 0) "c".toList []).1, _, by rw [h3, a], Prod.ext rfl b⟩

/-- the type with the same snake case -/
example : ∃ b t c, StandsFor E0 "CustomTypeX".toList b ∧ reg0.get ("/c".toList ++ '/' :: b) = some t ∧ E0.exported 0 t = some c ∧
    For (.type 5) c := by
  obtain ⟨w', w'', h1, h2⟩ := relaxed_run
  rcases C70_relaxed_only_partial ascii_inj plain0 hist0 (r := 0) (by intro e; cases e)
    (fun q hq => by rw [List.mem_singleton.mp hq]; exact usable_plain (s := "c") (by decide) (by decide) (by decide)) h1
    (usable_plain (s := "CustomTypeX") (by decide) (by decide) (by decide)) h2 with h | ⟨_, _, _, e, _⟩
  · exact h
  · cases e

/-- nothing is called `Nope` -/
example : (constMissing E0 w0 (.root 0) "Nope".toList).2 = .notFound ∧
    ∀ b t, StandsFor E0 "Nope".toList b → b ≠ [] → (∀ c ∈ b, c ≠ '/') → reg0.get ('/' :: b) ≠ some t := by
  have h1 : (script E0 w0 [colon (.root 0) "Nope"]).2 = [.notFound] := by rw [run0 E0 rfl]; decide +kernel
  injection h1 with a _
  exact ⟨a, (C70_relaxed_all_partial ascii_inj plain0 hist0 (r := 0) (by intro e; cases e) (l := []) (fun q hq => by cases hq) rfl
    (fun t e => by cases e) a).1⟩

end Verif.RubyExport
