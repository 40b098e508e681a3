import Verif.CxxLoadProps

/-! C81: preprocessing, unknown importers, examples, and what does not reach the importers. -/

namespace Verif.CxxLoad
open Verif

/-- Preprocessing with castxml (also when `gccxml` is the current importer): one program, with all that was asked for. -/
theorem C81_preprocess_partial {E : Env} {o : Kw} {l : Loader} {incs paths defs raw : List Str} (hn : (o.map (·.1)).Nodup)
    (hc : Current E l) (hl : l = .castxml ∨ l = .gccxml) (ht : ∀ v, (Key.castxml, v) ∉ o)
    (hi : Gives o .incl incs) (hp : Gives o .includePaths paths) (hd : Gives o .define defs) (hr : Gives o .rawflags raw) :
    preprocess E o =
      ([["castxml".toList, "--castxml-gccxml".toList, "-E".toList] ++ (incs ++ paths).map (fun s => "-I".toList ++ s) ++
        defs.map (fun s => "-D".toList ++ s) ++ raw ++ E.castDefaults ++ [E.outPath]],
       match E.exec (["castxml".toList, "--castxml-gccxml".toList, "-E".toList] ++ (incs ++ paths).map (fun s => "-I".toList ++ s) ++
        defs.map (fun s => "-D".toList ++ s) ++ raw ++ E.castDefaults ++ [E.outPath]) with
       | some out => .ok out
       | none => .error .argument) := by
  have key : ∀ o', (∀ k, k ≠ .castxml → kget o' k = kget o k) → truth o' .castxml true = true → gccPreprocess E o' =
      ([["castxml".toList, "--castxml-gccxml".toList, "-E".toList] ++ (incs ++ paths).map (fun s => "-I".toList ++ s) ++
        defs.map (fun s => "-D".toList ++ s) ++ raw ++ E.castDefaults ++ [E.outPath]],
       match E.exec (["castxml".toList, "--castxml-gccxml".toList, "-E".toList] ++ (incs ++ paths).map (fun s => "-I".toList ++ s) ++
        defs.map (fun s => "-D".toList ++ s) ++ raw ++ E.castDefaults ++ [E.outPath]) with
       | some out => .ok out
       | none => .error .argument) := by
    intro o' hk ht'
    unfold gccPreprocess
    rw [gives_arg hn hi (hk _ (by decide)), gives_arg hn hp (hk _ (by decide)), gives_arg hn hd (hk _ (by decide)),
      gives_arg hn hr (hk _ (by decide)), ht']
    simp only [thenRun, if_true]
    have e1 : dashI = fun s => "-I".toList ++ s := rfl
    have e2 : dashD = fun s => "-D".toList ++ s := rfl
    rw [e1, e2]
    cases E.exec (["castxml".toList, "--castxml-gccxml".toList, "-E".toList] ++ (incs ++ paths).map (fun s => "-I".toList ++ s) ++
        defs.map (fun s => "-D".toList ++ s) ++ raw ++ E.castDefaults ++ [E.outPath]) <;> rfl
  unfold preprocess
  rw [current_eq hc]
  simp only [thenRun]
  rcases hl with rfl | rfl
  · refine key _ (fun k hk => kget_kput_ne hk) ?_
    unfold truth
    rw [kget_kput, kget_none ht]
    rfl
  · refine key _ (fun k _ => rfl) ?_
    unfold truth
    rw [kget_none ht]

/-- An importer that does not exist is refused and no program is run: with an `ArgumentError` if it comes from the
environment, with a `NoMethodError` if it is given with the call. -/
theorem C81_unknown {E : Env} {file : Str} {kind : Option Str} {o : Kw} {s : Str} (hk : IsCxx E file kind)
    (hn : (o.map (·.1)).Nodup) (hs : ∀ l, ¬ Named s l) :
    ((Key.cxxImporter, KVal.str s) ∈ o → importFile E file kind o = .cxx ([], .error .noMethod)) ∧
    ((∀ v, (Key.cxxImporter, v) ∉ o) → E.chosen = none → E.envLoader = some s →
      importFile E file kind o = .cxx ([], .error .argument)) := by
  have hnone : loaderNamed s = none := by
    unfold loaderNamed
    rw [if_neg (fun e => hs _ (e ▸ Named.gccxml)), if_neg (fun e => hs _ (e ▸ Named.castxml)),
      if_neg (fun e => hs _ (e ▸ Named.clang))]
  have hkk : kget (kput .merge (.bool (truth o .merge true)) (krest [.merge] o)) .cxxImporter = kget o .cxxImporter := by
    rw [kget_kput_ne (by decide), kget_krest (by decide)]
  rw [import_cxx o hk]
  unfold cxxLoad importerOf
  rw [hkk]
  refine ⟨?_, ?_⟩
  · intro h
    rw [kget_mem hn h]
    simp only [hnone]
    rfl
  · intro h h1 h2
    rw [kget_none h]
    unfold currentLoader
    rw [h1, h2]
    simp only [hnone]
    rfl

/-! ### examples -/

/-- an environment: programs succeed unless their last argument is `bad`; names are taken as absolute -/
def exEnv : Env where
  exec := fun c => if c.getLast? = some "/bad.hh".toList then none else some "out".toList
  expand := fun s => s
  idem := fun _ => rfl
  castDefaults := ["-w".toList]
  gccDefaults := []
  gccName := "gccxml".toList
  clangName := some "clang".toList
  hasImporter := true
  opaquePath := "/tmp/o".toList
  outPath := "/tmp/t".toList
  archFlag := "-m64".toList
  osFlags := []
  osPreFlags := []
  chosen := none
  envLoader := none

def exOpts : Kw := [(.define, .strs ["A=1".toList, "B".toList]), (.includePaths, .strs ["/inc".toList]), (.merge, .bool false),
  (.other "debug".toList, .bool true)]

def exWish : Wish := ⟨["/d/a.hh".toList], ["A=1".toList, "B".toList], [], ["/inc".toList], []⟩

theorem exAsks : Asks exEnv "/d/a.hh".toList exOpts exWish := by
  refine ⟨by decide, Or.inr ⟨?_, rfl⟩, Or.inl (by decide), Or.inr ⟨?_, rfl⟩, Or.inl (by decide), Or.inr ⟨?_, rfl⟩⟩
  all_goals (intro v h; simp [exOpts] at h)

theorem exCxx : IsCxx exEnv "/d/a.hh".toList (some "auto".toList) :=
  Or.inr ⟨Or.inr rfl, ".hh".toList, by decide, "/d".toList, 'a', [], "hh".toList, by decide, by decide, by decide, by decide,
    by decide, by decide, by decide⟩

theorem exChooses : Chooses exEnv exOpts .castxml := .current (by intro v h; simp [exOpts] at h) (.default rfl rfl)

example : importFile exEnv "/d/a.hh".toList (some "auto".toList) exOpts =
    .cxx ([["castxml", "-w", "--castxml-gccxml", "-x", "c++", "-DA=1", "-DB", "-I/inc", "-o", "-", "/d/a.hh"].map String.toList],
      .ok ["out".toList]) := by
  obtain ⟨r, h1, h2, _⟩ := C81_castxml_partial exCxx exAsks exChooses (Or.inl rfl)
    (Or.inl (by intro v h; simp [exOpts] at h))
  rw [h1, h2 (fun _ => "out".toList) (by decide)]
  exact congrArg Import.cxx (Prod.ext (by decide) (by rfl))

/-- three files, the second one cannot be parsed -/
example : importFile exEnv "/d/a.hh".toList (some "c".toList)
    [(.requiredFiles, .strs ["/a.hh".toList, "/bad.hh".toList, "/c.hh".toList])] =
    .cxx ([["castxml", "-w", "--castxml-gccxml", "-x", "c++", "-o", "-", "/a.hh"].map String.toList,
      ["castxml", "-w", "--castxml-gccxml", "-x", "c++", "-o", "-", "/bad.hh"].map String.toList], .error .argument) := by
  obtain ⟨r, h1, _, h3⟩ := C81_castxml_partial (E := exEnv) (file := "/d/a.hh".toList) (kind := some "c".toList)
    (o := [(.requiredFiles, .strs ["/a.hh".toList, "/bad.hh".toList, "/c.hh".toList])])
    (w := ⟨["/a.hh".toList, "/bad.hh".toList, "/c.hh".toList], [], [], [], []⟩) (l := .castxml) (Or.inl rfl)
    ⟨by decide, Or.inl ⟨_, List.mem_cons_self, rfl⟩, Or.inr ⟨by simp, rfl⟩, Or.inr ⟨by simp, rfl⟩, Or.inr ⟨by simp, rfl⟩,
      Or.inr ⟨by simp, rfl⟩⟩ (.current (by simp) (.default rfl rfl)) (Or.inl rfl) (Or.inl (by simp))
  rw [h1, h3 ["/a.hh".toList] "/bad.hh".toList ["/c.hh".toList] rfl (by decide) (by decide)]
  exact congrArg Import.cxx (Prod.ext (by decide) (by rfl))

example : importFile exEnv "/d/a.hh".toList none [(.castxml, .bool false), (.define, .strs ["N".toList])] =
    .cxx ([["gccxml", "-DN", "-m64", "/d/a.hh", "-fxml=/tmp/t"].map String.toList], .ok ["out".toList]) := by
  rw [C81_gccxml_partial (w := ⟨["/d/a.hh".toList], ["N".toList], [], [], []⟩) (l := .castxml)
    (Or.inr ⟨Or.inl rfl, ".hh".toList, by decide, "/d".toList, 'a', [], "hh".toList, by decide, by decide, by decide, by decide,
      by decide, by decide, by decide⟩)
    ⟨by decide, Or.inr ⟨by simp, rfl⟩, Or.inl (by decide), Or.inr ⟨by simp, rfl⟩, Or.inr ⟨by simp, rfl⟩, Or.inr ⟨by simp, rfl⟩⟩
    (.current (by simp) (.default rfl rfl)) (Or.inl rfl) (by decide) (fun _ => "out".toList) (by decide)]
  exact congrArg Import.cxx (Prod.ext (by decide) (by rfl))

example : importFile exEnv "/d/a.hh".toList (some "c".toList)
    [(.cxxImporter, .str "clang".toList), (.define, .strs ["N".toList])] =
    .cxx ([["typelib-clang-tlb-importer", "-silent", "-opaquePath=/tmp/o", "-tlbSavePath=/tmp/t", "/d/a.hh", "--", "-x", "c++",
      "-DN"].map String.toList], .ok ["out".toList]) := by
  rw [C81_clang_partial (defs := ["N".toList]) (files := ["/d/a.hh".toList]) (out := "out".toList) (Or.inl rfl) (by decide)
    (.named (by decide) .clang) rfl (Or.inl (by decide)) (Or.inr ⟨by simp, rfl⟩) (by decide)]
  exact congrArg Import.cxx (Prod.ext (by decide) (by rfl))

example : (∃ r, importFile exEnv "/d/a.tlb".toList none exOpts = .plugin "tlb".toList "/d/a.tlb".toList false r) ∧
    importFile exEnv "/d/a.txt".toList none exOpts = .raised .runtime := by
  refine ⟨?_, ?_⟩
  · obtain ⟨r, h, _⟩ := (C81_dispatch (E := exEnv) (file := "/d/a.tlb".toList) exOpts).2.1 none (Or.inl rfl)
      ⟨"/d".toList, 'a', [], "tlb".toList, by decide, by decide, by decide, by decide, by decide, by decide, by decide⟩
    exact ⟨r, h⟩
  · exact (C81_dispatch (E := exEnv) (file := "/d/a.txt".toList) exOpts).2.2 none ".txt".toList (Or.inl rfl)
      ⟨"/d".toList, 'a', [], "txt".toList, by decide, by decide, by decide, by decide, by decide, by decide, by decide⟩
      (by decide) (by decide)

example : preprocess exEnv [(.incl, .strs ["/i".toList]), (.rawflags, .strs ["-g".toList])] =
    ([["castxml", "--castxml-gccxml", "-E", "-I/i", "-g", "-w", "/tmp/t"].map String.toList], .ok "out".toList) := by
  rw [C81_preprocess_partial (E := exEnv) (l := .castxml) (incs := ["/i".toList]) (paths := []) (defs := []) (raw := ["-g".toList])
    (by decide) (.default rfl rfl) (Or.inl rfl) (by simp) (Or.inl (by decide)) (Or.inr ⟨by simp, rfl⟩) (Or.inr ⟨by simp, rfl⟩)
    (Or.inl (by decide))]
  rfl

theorem exUnknown (l : Loader) : ¬ Named "gcc".toList l := by
  intro h
  have := named_eq h
  rw [show loaderNamed "gcc".toList = none by decide] at this
  cases this

example : importFile exEnv "/d/a.hh".toList (some "c".toList) [(.cxxImporter, .str "gcc".toList)] = .cxx ([], .error .noMethod) :=
  (C81_unknown (s := "gcc".toList) (Or.inl rfl) (by decide) exUnknown).1 (by decide)

/-! ### what does not reach the importers -/

/-- With the importer `clang`, include directories (`include` as well as `include_paths`) and raw flags are dropped: the import is
the same with and without them. -/
theorem C81_clang_counterexample (E : Env) {file : Str} {kind : Option Str} (hk : IsCxx E file kind)
    (incs paths raws : List Str) :
    importFile E file kind [(.cxxImporter, .str "clang".toList), (.incl, .strs incs), (.includePaths, .strs paths),
      (.rawflags, .strs raws)] = importFile E file kind [(.cxxImporter, .str "clang".toList)] := by
  rw [import_cxx _ hk, import_cxx _ hk]
  rfl

/-- Choosing the importer `gccxml` runs castxml. -/
theorem C81_gccxml_counterexample : ∃ (E : Env) (o : Kw) (c : List Str) (x : Str), Chooses E o .gccxml ∧
    importFile E "/d/a.hh".toList none o = .cxx ([c], .ok [x]) ∧ c.head? = some "castxml".toList := by
  refine ⟨exEnv, [(.cxxImporter, .str "gccxml".toList)],
    ["castxml", "-w", "--castxml-gccxml", "-x", "c++", "-o", "-", "/d/a.hh"].map String.toList, "out".toList,
    .named (by decide) .gccxml, ?_, by decide⟩
  obtain ⟨r, h1, h2, _⟩ := C81_castxml_partial (E := exEnv) (file := "/d/a.hh".toList) (kind := none)
    (o := [(.cxxImporter, .str "gccxml".toList)]) (w := ⟨["/d/a.hh".toList], [], [], [], []⟩) (l := .gccxml)
    (Or.inr ⟨Or.inl rfl, ".hh".toList, by decide, "/d".toList, 'a', [], "hh".toList, by decide, by decide, by decide, by decide,
      by decide, by decide, by decide⟩)
    ⟨by decide, Or.inr ⟨by simp, rfl⟩, Or.inr ⟨by simp, rfl⟩, Or.inr ⟨by simp, rfl⟩, Or.inr ⟨by simp, rfl⟩, Or.inr ⟨by simp, rfl⟩⟩
    (.named (by decide) .gccxml) (Or.inr rfl) (Or.inl (by simp))
  rw [h1, h2 (fun _ => "out".toList) (by decide)]
  exact congrArg Import.cxx (Prod.ext (by decide) (by rfl))

/-- When gccxml fails, the error is not an `ArgumentError` but a `NameError`: the message refers to a variable that does not
exist. -/
theorem C81_error_counterexample : ∃ (E : Env) (o : Kw) (c : List Str), E.exec c = none ∧
    importFile E "/d/a.hh".toList (some "c".toList) o = .cxx ([c], .error .noMethod) :=
  ⟨{ exEnv with exec := fun _ => none }, [(.castxml, .bool false)], ["gccxml", "-m64", "/d/a.hh", "-fxml=/tmp/t"].map String.toList,
    rfl, by rw [import_cxx _ (Or.inl rfl)]; rfl⟩

/-- Preprocessing with `clang` raises `NoMethodError` unless both `include` and `define` are given, and ignores
`include_paths` and `rawflags`. -/
theorem C81_preprocess_counterexample (E : Env) (hc : E.chosen = some .clang) (incs defs paths raws : List Str) :
    preprocess E [(.define, .strs defs)] = ([], .error .noMethod) ∧
    preprocess E [(.incl, .strs incs)] = ([], .error .noMethod) ∧
    preprocess E [(.incl, .strs incs), (.define, .strs defs), (.includePaths, .strs paths), (.rawflags, .strs raws)] =
      preprocess E [(.incl, .strs incs), (.define, .strs defs)] := by
  unfold preprocess currentLoader
  rw [hc]
  exact ⟨rfl, rfl, rfl⟩

example : IsCxx exEnv "/d/a.hh".toList (some "auto".toList) ∧ ({ exEnv with chosen := some .clang } : Env).chosen = some .clang :=
  ⟨exCxx, rfl⟩

end Verif.CxxLoad
