import Verif.CxxLoadExamples

/-! C81: preprocessing with gccxml, options of a wrong kind, files without extension. -/

namespace Verif.CxxLoad
open Verif

/-- C81: preprocessing with `castxml: false`, which runs gccxml whatever importer of the two is the current one: one program, with all that was
asked for. -/
theorem C81_preprocess_gccxml_partial {E : Env} {o : Kw} {l : Loader} {incs paths defs raw : List Str} (hn : (o.map (·.1)).Nodup)
    (hc : Current E l) (hl : l = .castxml ∨ l = .gccxml) (ht : (Key.castxml, KVal.bool false) ∈ o)
    (hi : Gives o .incl incs) (hp : Gives o .includePaths paths) (hd : Gives o .define defs) (hr : Gives o .rawflags raw) :
    ∃ cmd, cmd = [E.gccName, "--preprocess".toList] ++ (incs ++ paths).map (fun s => "-I".toList ++ s) ++
        defs.map (fun s => "-D".toList ++ s) ++ raw ++ E.gccDefaults ++ [E.outPath] ∧
      (∀ out, E.exec cmd = some out → preprocess E o = ([cmd], .ok out)) ∧ (E.exec cmd = none → preprocess E o = ([cmd], .error .argument)) := by
  refine ⟨_, rfl, ?_⟩
  have key : ∀ o', (∀ k, kget o' k = kget o k) →
      (∀ out, E.exec ([E.gccName, "--preprocess".toList] ++ (incs ++ paths).map (fun s => "-I".toList ++ s) ++
        defs.map (fun s => "-D".toList ++ s) ++ raw ++ E.gccDefaults ++ [E.outPath]) = some out → gccPreprocess E o' = ([[E.gccName, "--preprocess".toList] ++ (incs ++ paths).map (fun s => "-I".toList ++ s) ++
        defs.map (fun s => "-D".toList ++ s) ++ raw ++ E.gccDefaults ++ [E.outPath]], .ok out)) ∧
      (E.exec ([E.gccName, "--preprocess".toList] ++ (incs ++ paths).map (fun s => "-I".toList ++ s) ++
        defs.map (fun s => "-D".toList ++ s) ++ raw ++ E.gccDefaults ++ [E.outPath]) = none → gccPreprocess E o' = ([[E.gccName, "--preprocess".toList] ++ (incs ++ paths).map (fun s => "-I".toList ++ s) ++
        defs.map (fun s => "-D".toList ++ s) ++ raw ++ E.gccDefaults ++ [E.outPath]], .error .argument)) := by
    intro o' hk
    have ht' : truth o' .castxml true = false := by
      unfold truth
      rw [hk, kget_mem hn ht]
    unfold gccPreprocess
    rw [gives_arg hn hi (hk _), gives_arg hn hp (hk _), gives_arg hn hd (hk _), gives_arg hn hr (hk _), ht']
    simp only [thenRun]
    have e1 : dashI = fun s => "-I".toList ++ s := rfl
    have e2 : dashD = fun s => "-D".toList ++ s := rfl
    rw [e1, e2, if_neg (by decide)]
    constructor
    · intro out h; rw [h]
    · intro h; rw [h]
  unfold preprocess
  rw [current_eq hc]
  simp only [thenRun]
  rcases hl with rfl | rfl
  · refine key _ (fun k => ?_)
    by_cases hk : k = .castxml
    · subst hk
      rw [kget_kput, kget_mem hn ht]
      rfl
    · exact kget_kput_ne hk
  · exact key _ (fun k => rfl)

/-- an option that must be an array of strings and is not -/
def NotStrings (v : KVal) : Prop := ∀ l, v ≠ .strs l

theorem strsArg_cases (o : Kw) (k : Key) (d : List Str) : strsArg o k d = .error .noMethod ∨ ∃ l, strsArg o k d = .ok l := by
  unfold strsArg
  split
  · exact .inr ⟨_, rfl⟩
  · exact .inr ⟨_, rfl⟩
  · exact .inl rfl

theorem strsArg_bad {o : Kw} {k : Key} {v : KVal} {d : List Str} (h : kget o k = some v) (hv : NotStrings v) :
    strsArg o k d = .error .noMethod := by
  unfold strsArg
  rw [h]
  cases v with
  | strs l => exact absurd rfl (hv l)
  | _ => rfl

theorem thenRun_bad {o : Kw} {k : Key} {d : List Str} {α : Type} {f : List Str → Run α} {P : Prop} (hP : P)
    (h : strsArg o k d = .error .noMethod ∨ (P → ∀ l, f l = ([], .error .noMethod))) : thenRun (strsArg o k d) f = ([], .error .noMethod) := by
  rcases h with h | h
  · rw [h]; rfl
  · rcases strsArg_cases o k d with h1 | ⟨l, h1⟩
    · rw [h1]; rfl
    · rw [h1]; exact h hP l

theorem one_bad {E : Env} {o : Kw} {k : Key} {v : KVal} (hk : k ∈ [Key.rawflags, .define, .incl, .includePaths]) (h : kget o k = some v)
    (hv : NotStrings v) (f : Str) : castxml E f o = ([], .error .noMethod) ∧ gccxml E f o = ([], .error .noMethod) := by
  have hb := fun d => strsArg_bad (d := d) h hv
  simp only [List.mem_cons, List.mem_nil_iff, or_false] at hk
  unfold castxml gccxml
  rcases hk with rfl | rfl | rfl | rfl
  · exact ⟨thenRun_bad trivial (.inl (hb _)), thenRun_bad trivial (.inl (hb _))⟩
  · exact ⟨thenRun_bad trivial (.inr fun _ _ => thenRun_bad trivial (.inl (hb _))),
      thenRun_bad trivial (.inr fun _ _ => thenRun_bad trivial (.inl (hb _)))⟩
  · exact ⟨thenRun_bad trivial (.inr fun _ _ => thenRun_bad trivial (.inr fun _ _ => thenRun_bad trivial (.inl (hb _)))),
      thenRun_bad trivial (.inr fun _ _ => thenRun_bad trivial (.inr fun _ _ => thenRun_bad trivial (.inl (hb _))))⟩
  · exact ⟨thenRun_bad trivial (.inr fun _ _ => thenRun_bad trivial (.inr fun _ _ => thenRun_bad trivial (.inr fun _ _ =>
      thenRun_bad trivial (.inl (hb _))))), thenRun_bad trivial (.inr fun _ _ => thenRun_bad trivial (.inr fun _ _ =>
      thenRun_bad trivial (.inr fun _ _ => thenRun_bad trivial (.inl (hb _)))))⟩

/-- C81: an option that must be an array of strings and is something else (nil and a string too) is not ignored: there is an exception, and
no program is run. -/
theorem C81_bad_option {E : Env} {file : Str} {kind : Option Str} {o : Kw} {l : Loader} (hk : IsCxx E file kind) (hn : (o.map (·.1)).Nodup)
    (hc : Chooses E o l) (hl : l = .castxml ∨ l = .gccxml) (hf : ∀ v, (Key.requiredFiles, v) ∉ o) {k : Key} {v : KVal}
    (hk4 : k ∈ [Key.rawflags, .define, .incl, .includePaths]) (h : (k, v) ∈ o) (hv : NotStrings v) :
    importFile E file kind o = .cxx ([], .error .noMethod) := by
  have hks : k ∉ [Key.castxml] ∧ k ∉ [Key.requiredFiles, .opaques, .parallelLevel, .jobServer, .merge] ∧
      k ≠ .merge ∧ k ≠ .cxxImporter ∧ k ≠ .castxml := by
    have := hk4
    simp only [List.mem_cons, List.mem_nil_iff, or_false] at this
    rcases this with rfl | rfl | rfl | rfl <;> decide
  rw [import_cxx o hk]
  have hkg : ∀ k, k ≠ .merge → kget (kput .merge (.bool (truth o .merge true)) (krest [.merge] o)) k = kget o k := by
    intro k hk
    rw [kget_kput_ne hk, kget_krest (by simpa using hk)]
  have himp := chooses_eq (o' := kput .merge (.bool (truth o .merge true)) (krest [.merge] o)) hn hc (hkg _ (by decide))
  generalize kput .merge (.bool (truth o .merge true)) (krest [.merge] o) = o1 at hkg himp
  have key : ∀ o2 : Kw, (∀ k, k ≠ .merge → k ≠ .cxxImporter → k ≠ .castxml → kget o2 k = kget o k) →
      gccLoad E (E.expand file) o2 = ([], .error .noMethod) := by
    intro o2 h2
    unfold gccLoad
    have hr : strsArg o2 .requiredFiles [E.expand file] = .ok [E.expand file] := by
      unfold strsArg
      rw [h2 _ (by decide) (by decide) (by decide), kget_none hf]
    rw [hr]
    simp only [thenRun, List.map_cons, List.map_nil]
    have hb := one_bad (E := E) (o := krest [.castxml] (krest [.requiredFiles, .opaques, .parallelLevel, .jobServer, .merge] o2)) hk4
      (by rw [kget_krest hks.1, kget_krest hks.2.1, h2 k hks.2.2.1 hks.2.2.2.1 hks.2.2.2.2]; exact kget_mem hn h) hv (E.expand (E.expand file))
    unfold parseAll
    simp only [hb.1, hb.2, ite_self]
  have hrest : ∀ k, k ≠ .merge → k ≠ .cxxImporter → kget (krest [.cxxImporter] o1) k = kget o k := by
    intro k h1 h2
    rw [kget_krest (by simpa using h2), hkg k h1]
  refine congrArg Import.cxx ?_
  unfold cxxLoad
  rw [himp]
  simp only [thenRun]
  rcases hl with rfl | rfl
  · exact key _ fun k h1 h2 h3 => by rw [kget_kput_ne h3, hrest k h1 h2]
  · exact key _ fun k h1 h2 _ => hrest k h1 h2

/-- The name of a file that has no extension: no dot but at its beginning. -/
def NoExt (path : Str) : Prop := ∃ dir dots name, path = dir ++ '/' :: (dots ++ name) ∧ (∀ c ∈ dots, c = '.') ∧ '.' ∉ name ∧ '/' ∉ name

/-- C81: without a kind, a file without extension is refused with a `RuntimeError`, also if its name begins with dots and continues like an
extension (`.hh`). -/
theorem C81_no_extension {E : Env} {file : Str} {kind : Option Str} (o : Kw) (hk : kind = none ∨ kind = some "auto".toList)
    (h : NoExt (E.expand file)) : importFile E file kind o = .raised .runtime := by
  obtain ⟨dir, dots, name, hp, hd, h1, h2⟩ := h
  have hx : extname (E.expand file) = [] := by
    unfold extname
    rw [hp]
    have e1 : ((dir ++ '/' :: (dots ++ name)).reverse.takeWhile (· != '/')).reverse = dots ++ name := by
      have : (dir ++ '/' :: (dots ++ name)).reverse = (dots ++ name).reverse ++ '/' :: dir.reverse := by simp
      rw [this, takeWhile_stop (by
        intro x hx
        rcases List.mem_append.mp (List.mem_reverse.mp hx) with hx | hx
        · rw [hd x hx]; decide
        · simp only [bne_iff_ne, ne_eq]
          rintro rfl
          exact h2 hx) (by decide), List.reverse_reverse]
    have e2 : (dots ++ name).dropWhile (· == '.') = name := by
      clear hp e1
      induction dots with
      | nil =>
        cases name with
        | nil => rfl
        | cons c r =>
          simp only [List.nil_append]
          rw [List.dropWhile_cons, if_neg]
          simp only [beq_iff_eq]
          rintro rfl
          exact h1 (List.mem_cons_self ..)
      | cons c r ih =>
        have := hd c (List.mem_cons_self ..)
        subst this
        rw [List.cons_append, List.dropWhile_cons, if_pos (by decide)]
        exact ih (fun x hx => hd x (List.mem_cons_of_mem _ hx))
    simp only [e1, e2, if_neg h1]
  have hg : kindOf E (E.expand file) kind = .error .runtime := by
    have : kindOf E (E.expand file) kind = kindOf.guess E (E.expand file) := by rcases hk with rfl | rfl <;> rfl
    rw [this]
    unfold kindOf.guess
    rw [E.idem, hx]
    rfl
  unfold importFile
  rw [hg]

/-! ### cases -/

example : NoExt "/d.d/.hh".toList := ⟨"/d.d".toList, ['.'], "hh".toList, by decide, by decide, by decide, by decide⟩
example : NotStrings (.str "/usr/include".toList) ∧ NotStrings .nil := ⟨fun _ => nofun, fun _ => nofun⟩
example : importFile exEnv "/d/a.hh".toList (some "auto".toList) [(.define, .strs []), (.includePaths, .str "/usr/include".toList)] =
    .cxx ([], .error .noMethod) :=
  C81_bad_option (l := .castxml) exCxx (by decide) (.current (by simp) (.default rfl rfl)) (.inl rfl) (by simp) (k := .includePaths)
    (by decide) (List.mem_cons_of_mem _ (List.mem_cons_self ..)) (fun _ => nofun)
example : Current exEnv .castxml ∧ Gives [(.castxml, .bool false), (.define, .strs ["A".toList])] .define ["A".toList] :=
  ⟨.default rfl rfl, .inl (by decide)⟩

end Verif.CxxLoad
