import Verif.CxxLoad

/-! C81: the options of an import reach the importers. -/

namespace Verif.CxxLoad
open Verif

/-! ### keyword arguments -/

theorem kget_mem {o : Kw} (h : (o.map (·.1)).Nodup) {k : Key} {v : KVal} (hm : (k, v) ∈ o) : kget o k = some v := by
  induction o with
  | nil => cases hm
  | cons p o ih =>
    simp only [List.map_cons, List.nodup_cons] at h
    unfold kget
    rcases List.mem_cons.mp hm with e | hm
    · subst e
      simp
    · have hne : p.1 ≠ k := fun e => h.1 (e ▸ List.mem_map.mpr ⟨_, hm, rfl⟩)
      rw [List.find?_cons_of_neg (by simpa using hne)]
      exact ih h.2 hm

theorem kget_none {o : Kw} {k : Key} (h : ∀ v, (k, v) ∉ o) : kget o k = none := by
  unfold kget
  rw [Option.map_eq_none_iff, List.find?_eq_none]
  intro p hp e
  have e : p.1 = k := by simpa using e
  exact h p.2 (e ▸ hp)

theorem kget_krest {o : Kw} {ks : List Key} {k : Key} (h : k ∉ ks) : kget (krest ks o) k = kget o k := by
  unfold kget krest
  rw [List.find?_filter]
  congr 2
  funext p
  by_cases e : p.1 = k
  · simp [e, h]
  · simp [e]

theorem kget_krest_none {o : Kw} {ks : List Key} {k : Key} (h : k ∈ ks) : kget (krest ks o) k = none := by
  apply kget_none
  intro v hv
  have := (List.mem_filter.mp hv).2
  simp at this
  exact this h

theorem kget_kput_ne {o : Kw} {k k' : Key} {v : KVal} (h : k' ≠ k) : kget (kput k v o) k' = kget o k' := by
  unfold kput
  split
  · rfl
  · unfold kget
    rw [List.find?_cons_of_neg (by simpa using fun e => h e.symm)]

theorem kget_kput {o : Kw} {k : Key} {v : KVal} : kget (kput k v o) k = some ((kget o k).getD v) := by
  unfold kput
  split
  · rename_i h
    obtain ⟨x, hx⟩ := Option.isSome_iff_exists.mp h
    rw [hx]; rfl
  · rename_i h
    have : kget o k = none := by simpa using h
    rw [this]
    simp [kget]

theorem gives_arg {o o' : Kw} {k : Key} {l : List Str} (hn : (o.map (·.1)).Nodup) (hg : Gives o k l)
    (he : kget o' k = kget o k) : strsArg o' k [] = .ok l := by
  unfold strsArg
  rw [he]
  rcases hg with h | ⟨h, rfl⟩
  · rw [kget_mem hn h]
  · rw [kget_none h]

/-! ### the importers -/

/-- what the programs of castxml and gccxml are given -/
structure Fits (o : Kw) (w : Wish) : Prop where
  raw : strsArg o .rawflags [] = .ok w.raw
  defines : strsArg o .define [] = .ok w.defines
  includes : strsArg o .incl [] = .ok w.includes
  includePaths : strsArg o .includePaths [] = .ok w.includePaths

/-- the command line for castxml -/
def castCmd (E : Env) (w : Wish) (file : Str) : List Str :=
  ["castxml".toList] ++ E.castDefaults ++ ["--castxml-gccxml".toList, "-x".toList, "c++".toList] ++ w.flags ++
    ["-o".toList, "-".toList, file]

/-- the command line for gccxml -/
def gccCmd (E : Env) (w : Wish) (file : Str) : List Str :=
  [E.gccName] ++ E.gccDefaults ++ w.flags ++ [E.archFlag, file, "-fxml=".toList ++ E.outPath]

/-- a program that is run on a file: the command line, the error if it fails -/
def runOn (E : Env) (cmd : Str → List Str) (err : RErr) (f : Str) : Run Str :=
  match E.exec (cmd f) with
  | some out => ([cmd f], .ok out)
  | none => ([cmd f], .error err)

theorem castxml_run {E : Env} {o : Kw} {w : Wish} (h : Fits o w) (f : Str) :
    castxml E f o = runOn E (castCmd E w) .argument f := by
  unfold castxml runOn
  rw [h.raw, h.defines, h.includes, h.includePaths]
  simp only [thenRun]
  have : ["castxml".toList] ++ E.castDefaults ++ ["--castxml-gccxml".toList, "-x".toList, "c++".toList] ++ w.raw ++
    w.defines.map dashD ++ w.includes.map dashI ++ w.includePaths.map dashI ++ ["-o".toList, "-".toList, f] = castCmd E w f := by
    unfold castCmd Wish.flags
    simp only [List.append_assoc]
    rfl
  rw [this]
  cases E.exec (castCmd E w f) <;> rfl

theorem gccxml_run {E : Env} {o : Kw} {w : Wish} (h : Fits o w) (f : Str) :
    gccxml E f o = runOn E (gccCmd E w) .noMethod f := by
  unfold gccxml runOn
  rw [h.raw, h.defines, h.includes, h.includePaths]
  simp only [thenRun]
  have : [E.gccName] ++ E.gccDefaults ++ w.raw ++
    w.defines.map dashD ++ w.includes.map dashI ++ w.includePaths.map dashI ++ [E.archFlag, f, "-fxml=".toList ++ E.outPath] =
      gccCmd E w f := by
    unfold gccCmd Wish.flags
    simp only [List.append_assoc]
    rfl
  rw [this]
  cases E.exec (gccCmd E w f) <;> rfl

/-- the program that is run for each file -/
def cmdFor (E : Env) (w : Wish) (cast : Bool) : Str → List Str := if cast then castCmd E w else gccCmd E w
def errFor (cast : Bool) : RErr := if cast then .argument else .noMethod

theorem parse_cons {E : Env} {o : Kw} {w : Wish} (h : Fits (krest [.castxml] o) w) (f : Str) (fs : List Str) :
    parseAll E o (f :: fs) =
      match E.exec (cmdFor E w (truth o .castxml true) f) with
      | none => ([cmdFor E w (truth o .castxml true) f], .error (errFor (truth o .castxml true)))
      | some x => (cmdFor E w (truth o .castxml true) f :: (parseAll E o fs).1,
          match (parseAll E o fs).2 with
          | .error e => .error e
          | .ok xs => .ok (x :: xs)) := by
  have e : (if truth o .castxml true then castxml E f (krest [.castxml] o) else gccxml E f (krest [.castxml] o)) =
      runOn E (cmdFor E w (truth o .castxml true)) (errFor (truth o .castxml true)) f := by
    unfold cmdFor errFor
    split
    · exact castxml_run h f
    · exact gccxml_run h f
  simp only [parseAll, e]
  unfold runOn
  cases E.exec (cmdFor E w (truth o .castxml true) f) <;> rfl

theorem parse_ok {E : Env} {o : Kw} {w : Wish} (h : Fits (krest [.castxml] o) w) {out : Str → Str} : ∀ (fs : List Str),
    (∀ f ∈ fs, E.exec (cmdFor E w (truth o .castxml true) f) = some (out f)) →
    parseAll E o fs = (fs.map (cmdFor E w (truth o .castxml true)), .ok (fs.map out))
  | [], _ => rfl
  | f :: fs, ho => by
    rw [parse_cons h, ho f List.mem_cons_self, parse_ok h fs (fun g hg => ho g (List.mem_cons_of_mem _ hg))]
    rfl

theorem parse_fail {E : Env} {o : Kw} {w : Wish} (h : Fits (krest [.castxml] o) w) {f : Str} {post : List Str}
    (hf : E.exec (cmdFor E w (truth o .castxml true) f) = none) : ∀ (pre : List Str),
    (∀ f ∈ pre, E.exec (cmdFor E w (truth o .castxml true) f) ≠ none) →
    parseAll E o (pre ++ f :: post) =
      ((pre ++ [f]).map (cmdFor E w (truth o .castxml true)), .error (errFor (truth o .castxml true)))
  | [], _ => by rw [List.nil_append, parse_cons h, hf]; rfl
  | g :: pre, ho => by
    rw [List.cons_append, parse_cons h]
    obtain ⟨x, hx⟩ := Option.ne_none_iff_exists'.mp (ho g List.mem_cons_self)
    rw [hx, parse_fail h hf pre (fun g hg => ho g (List.mem_cons_of_mem _ hg))]
    rfl

/-! ### the choice of the importer -/

theorem named_eq {s : Str} {l : Loader} (h : Named s l) : loaderNamed s = some l := by
  cases h <;> decide

theorem current_eq {E : Env} {l : Loader} (h : Current E l) : currentLoader E = .ok l := by
  unfold currentLoader
  cases h with
  | chosen h => rw [h]
  | env h1 h2 h3 => rw [h1, h2]; simp only [named_eq h3]
  | default h1 h2 => rw [h1, h2]

theorem chooses_eq {E : Env} {o o' : Kw} {l : Loader} (hn : (o.map (·.1)).Nodup) (h : Chooses E o l)
    (he : kget o' .cxxImporter = kget o .cxxImporter) : importerOf E o' = .ok l := by
  unfold importerOf
  rw [he]
  cases h with
  | given h => rw [kget_mem hn h]
  | named h h2 => rw [kget_mem hn h]; simp only [named_eq h2]
  | current h h2 => rw [kget_none h]; exact current_eq h2

/-- the option `castxml` of the import, true unless given -/
def castOf (o : Kw) : Bool := truth o .castxml true

/-- what the importers based on castxml do with the options of an import -/
theorem load_run {E : Env} {file : Str} {o : Kw} {w : Wish} {l : Loader} (ha : Asks E file o w) (hc : Chooses E o l)
    (hl : l = .castxml ∨ l = .gccxml) :
    ∃ o', Fits (krest [.castxml] o') w ∧ truth o' .castxml true = castOf o ∧
      cxxLoad E (E.expand file) (kput .merge (.bool (truth o .merge true)) (krest [.merge] o)) = parseAll E o' w.files := by
  have hk : ∀ k, k ≠ .merge → kget (kput .merge (.bool (truth o .merge true)) (krest [.merge] o)) k = kget o k := by
    intro k hk
    rw [kget_kput_ne hk, kget_krest (by simpa using hk)]
  have himp := chooses_eq (o' := kput .merge (.bool (truth o .merge true)) (krest [.merge] o)) ha.nodup hc (hk _ (by decide))
  generalize ho1 : kput .merge (.bool (truth o .merge true)) (krest [.merge] o) = o1 at hk himp
  -- the options given to `GCCXMLLoader.load`
  have key : ∀ o2 : Kw, (∀ k, k ≠ .merge → k ≠ .cxxImporter → k ≠ .castxml → kget o2 k = kget o k) →
      truth o2 .castxml true = castOf o →
      ∃ o', Fits (krest [.castxml] o') w ∧ truth o' .castxml true = castOf o ∧
        gccLoad E (E.expand file) o2 = parseAll E o' w.files := by
    intro o2 h2 hcast
    refine ⟨krest [.requiredFiles, .opaques, .parallelLevel, .jobServer, .merge] o2, ?_, ?_, ?_⟩
    · have hg : ∀ k l, k ∈ [Key.rawflags, Key.define, Key.incl, Key.includePaths] → Gives o k l →
          strsArg (krest [.castxml] (krest [.requiredFiles, .opaques, .parallelLevel, .jobServer, .merge] o2)) k [] = .ok l := by
        intro k l hk hg
        refine gives_arg ha.nodup hg ?_
        have hks : k ∉ [Key.castxml] ∧ k ∉ [Key.requiredFiles, .opaques, .parallelLevel, .jobServer, .merge] ∧
            k ≠ .merge ∧ k ≠ .cxxImporter ∧ k ≠ .castxml := by
          revert k
          intro k hk _
          simp only [List.mem_cons, List.mem_nil_iff, or_false] at hk
          rcases hk with rfl | rfl | rfl | rfl <;> decide
        rw [kget_krest hks.1, kget_krest hks.2.1, h2 k hks.2.2.1 hks.2.2.2.1 hks.2.2.2.2]
      exact ⟨hg _ _ (by decide) ha.raw, hg _ _ (by decide) ha.defines, hg _ _ (by decide) ha.includes,
        hg _ _ (by decide) ha.includePaths⟩
    · rw [← hcast]
      unfold truth
      rw [kget_krest (by decide)]
    · unfold gccLoad
      have hf : ∃ l, strsArg o2 .requiredFiles [E.expand file] = .ok l ∧ l.map E.expand = w.files := by
        unfold strsArg
        rw [h2 _ (by decide) (by decide) (by decide)]
        rcases ha.files with ⟨l, h, e⟩ | ⟨h, e⟩
        · rw [kget_mem ha.nodup h]; exact ⟨l, rfl, e.symm⟩
        · rw [kget_none h]; exact ⟨_, rfl, by rw [e]; simp [E.idem]⟩
      obtain ⟨l, h1, h3⟩ := hf
      rw [h1]
      simp only [thenRun]
      rw [h3]
  unfold cxxLoad
  rw [himp]
  simp only [thenRun]
  have hrest : ∀ k, k ≠ .merge → k ≠ .cxxImporter → kget (krest [.cxxImporter] o1) k = kget o k := by
    intro k h1 h2
    rw [kget_krest (by simpa using h2), hk k h1]
  rcases hl with rfl | rfl
  · simp only [loadWith, castLoad]
    refine key _ ?_ ?_
    · intro k h1 h2 h3
      rw [kget_kput_ne h3, hrest k h1 h2]
    · unfold castOf truth
      rw [kget_kput, hrest _ (by decide) (by decide)]
      cases kget o .castxml <;> rfl
  · simp only [loadWith]
    refine key _ ?_ ?_
    · intro k h1 h2 h3
      exact hrest k h1 h2
    · unfold castOf truth
      rw [hrest _ (by decide) (by decide)]

/-! ### extensions -/

theorem takeWhile_stop {P : Char → Bool} {a : Str} {c : Char} {r : Str} (ha : ∀ x ∈ a, P x = true) (hc : P c = false) :
    (a ++ c :: r).takeWhile P = a := by
  induction a with
  | nil => simp [hc]
  | cons x a ih =>
    rw [List.cons_append, List.takeWhile_cons, if_pos (ha x List.mem_cons_self), ih (fun y hy => ha y (List.mem_cons_of_mem _ hy))]

theorem ext_eq {path ext : Str} (h : HasExt path ext) : extname path = ext := by
  obtain ⟨dir, c, stem, e, rfl, h1, h2, h3, h4, h5, rfl⟩ := h
  have hb : ((dir ++ '/' :: c :: (stem ++ '.' :: e)).reverse.takeWhile (· != '/')).reverse = c :: (stem ++ '.' :: e) := by
    have : (dir ++ '/' :: c :: (stem ++ '.' :: e)).reverse = (c :: (stem ++ '.' :: e)).reverse ++ '/' :: dir.reverse := by simp
    rw [this, takeWhile_stop _ (by decide), List.reverse_reverse]
    intro x hx
    rw [List.mem_reverse] at hx
    have : x ≠ '/' := by
      rcases List.mem_cons.mp hx with rfl | hx
      · exact h2
      · rcases List.mem_append.mp hx with hx | hx
        · exact fun e => h3 (e ▸ hx)
        · rcases List.mem_cons.mp hx with rfl | hx
          · decide
          · exact fun e => h4 (e ▸ hx)
    simpa using this
  have hd : (c :: (stem ++ '.' :: e)).dropWhile (· == '.') = c :: (stem ++ '.' :: e) := by
    rw [List.dropWhile_cons, if_neg (by simpa using h1)]
  unfold extname
  simp only [hb, hd]
  have hm : '.' ∈ c :: (stem ++ '.' :: e) := by simp
  rw [if_pos hm]
  have : (c :: (stem ++ '.' :: e)).reverse = e.reverse ++ '.' :: (c :: stem).reverse := by simp
  rw [this, takeWhile_stop _ (by decide), List.reverse_reverse]
  intro x hx
  have : x ≠ '.' := fun e => h5 (e ▸ List.mem_reverse.mp hx)
  simpa using this

theorem typeByExt_cxx {e : Str} (h : e ∈ cxxExts) : typeByExt e = some "c".toList := by
  unfold typeByExt
  rw [if_pos (by simpa [cxxExts] using h)]

/-- A file is imported as C++: because it is said so, or because of its extension. -/
def IsCxx (E : Env) (file : Str) (kind : Option Str) : Prop :=
  kind = some "c".toList ∨ ((kind = none ∨ kind = some "auto".toList) ∧ ∃ e ∈ cxxExts, HasExt (E.expand file) e)

theorem kind_cxx {E : Env} {file : Str} {kind : Option Str} (h : IsCxx E file kind) : kindOf E (E.expand file) kind = .ok "c".toList := by
  rcases h with rfl | ⟨hk, e, he, hx⟩
  · rfl
  · have hg : kindOf.guess E (E.expand file) = .ok "c".toList := by
      unfold kindOf.guess
      rw [E.idem, ext_eq hx, typeByExt_cxx he]
    rcases hk with rfl | rfl
    · exact hg
    · exact hg

theorem import_cxx {E : Env} {file : Str} {kind : Option Str} (o : Kw) (h : IsCxx E file kind) :
    importFile E file kind o =
      .cxx (cxxLoad E (E.expand file) (kput .merge (.bool (truth o .merge true)) (krest [.merge] o))) := by
  unfold importFile
  rw [kind_cxx h]
  exact if_pos rfl

/-! ### C81 -/

/-- With the importers `castxml` and `gccxml`, one program is run for each required file, in their order and until one
fails, with all that was asked for: raw flags, defines, include directories of both options, each in the order given. If all
succeed, their outputs are imported in that order; if one fails there is an `ArgumentError` and nothing is imported. Other
options have no influence. -/
theorem C81_castxml_partial {E : Env} {file : Str} {kind : Option Str} {o : Kw} {w : Wish} {l : Loader} (hk : IsCxx E file kind)
    (ha : Asks E file o w) (hc : Chooses E o l) (hl : l = .castxml ∨ l = .gccxml)
    (ht : (∀ v, (Key.castxml, v) ∉ o) ∨ (Key.castxml, KVal.bool true) ∈ o) :
    ∃ r, importFile E file kind o = .cxx r ∧
      (∀ out : Str → Str,
        (∀ f ∈ w.files, E.exec (["castxml".toList] ++ E.castDefaults ++ ["--castxml-gccxml".toList, "-x".toList, "c++".toList] ++
          w.flags ++ ["-o".toList, "-".toList, f]) = some (out f)) →
        r = (w.files.map (fun f => ["castxml".toList] ++ E.castDefaults ++ ["--castxml-gccxml".toList, "-x".toList, "c++".toList] ++
          w.flags ++ ["-o".toList, "-".toList, f]), .ok (w.files.map out))) ∧
      (∀ pre f post, w.files = pre ++ f :: post →
        (∀ g ∈ pre, E.exec (["castxml".toList] ++ E.castDefaults ++ ["--castxml-gccxml".toList, "-x".toList, "c++".toList] ++
          w.flags ++ ["-o".toList, "-".toList, g]) ≠ none) →
        E.exec (["castxml".toList] ++ E.castDefaults ++ ["--castxml-gccxml".toList, "-x".toList, "c++".toList] ++
          w.flags ++ ["-o".toList, "-".toList, f]) = none →
        r = ((pre ++ [f]).map (fun f => ["castxml".toList] ++ E.castDefaults ++
          ["--castxml-gccxml".toList, "-x".toList, "c++".toList] ++ w.flags ++ ["-o".toList, "-".toList, f]),
          .error .argument)) := by
  obtain ⟨o', h1, h2, h3⟩ := load_run ha hc hl
  have hcast : castOf o = true := by
    unfold castOf truth
    rcases ht with h | h
    · rw [kget_none h]
    · rw [kget_mem ha.nodup h]
  rw [hcast] at h2
  refine ⟨_, import_cxx o hk, ?_, ?_⟩
  · intro out ho
    rw [h3]
    have := parse_ok h1 (out := out) w.files (by rw [h2]; exact ho)
    rw [this, h2]
    rfl
  · intro pre f post hw hp hf
    rw [h3, hw]
    have := parse_fail h1 (f := f) (post := post) (by rw [h2]; exact hf) pre (by rw [h2]; exact hp)
    rw [this, h2]
    rfl

/-- The same with `castxml: false`, which runs gccxml whatever importer of the two was chosen. -/
theorem C81_gccxml_partial {E : Env} {file : Str} {kind : Option Str} {o : Kw} {w : Wish} {l : Loader} (hk : IsCxx E file kind)
    (ha : Asks E file o w) (hc : Chooses E o l) (hl : l = .castxml ∨ l = .gccxml) (ht : (Key.castxml, KVal.bool false) ∈ o)
    (out : Str → Str)
    (ho : ∀ f ∈ w.files, E.exec ([E.gccName] ++ E.gccDefaults ++ w.flags ++ [E.archFlag, f, "-fxml=".toList ++ E.outPath]) =
      some (out f)) :
    importFile E file kind o = .cxx (w.files.map (fun f => [E.gccName] ++ E.gccDefaults ++ w.flags ++
      [E.archFlag, f, "-fxml=".toList ++ E.outPath]), .ok (w.files.map out)) := by
  obtain ⟨o', h1, h2, h3⟩ := load_run ha hc hl
  have hcast : castOf o = false := by
    unfold castOf truth
    rw [kget_mem ha.nodup ht]
  rw [hcast] at h2
  rw [import_cxx o hk, h3]
  have := parse_ok h1 (out := out) w.files (by rw [h2]; exact ho)
  rw [this, h2]
  rfl

/-- `clang`: one program is run for all the files, with the defines; its output is imported. -/
theorem C81_clang_partial {E : Env} {file : Str} {kind : Option Str} {o : Kw} (hk : IsCxx E file kind)
    (hn : (o.map (·.1)).Nodup) (hc : Chooses E o .clang) (hi : E.hasImporter = true) {defs files : List Str}
    (hd : Gives o .define defs)
    (hf : (Key.requiredFiles, KVal.strs files) ∈ o ∨ ((∀ v, (Key.requiredFiles, v) ∉ o) ∧ files = [E.expand file])) {out : Str}
    (ho : E.exec (["typelib-clang-tlb-importer".toList, "-silent".toList, "-opaquePath=".toList ++ E.opaquePath,
      "-tlbSavePath=".toList ++ E.outPath] ++ files ++ ["--".toList, "-x".toList, "c++".toList] ++
      defs.map (fun s => "-D".toList ++ s) ++ E.osFlags) = some out) :
    importFile E file kind o = .cxx ([["typelib-clang-tlb-importer".toList, "-silent".toList,
      "-opaquePath=".toList ++ E.opaquePath, "-tlbSavePath=".toList ++ E.outPath] ++ files ++
      ["--".toList, "-x".toList, "c++".toList] ++ defs.map (fun s => "-D".toList ++ s) ++ E.osFlags], .ok [out]) := by
  rw [import_cxx o hk]
  have hkk : ∀ k, k ≠ .merge → kget (kput .merge (.bool (truth o .merge true)) (krest [.merge] o)) k = kget o k := by
    intro k hk
    rw [kget_kput_ne hk, kget_krest (by simpa using hk)]
  have himp := chooses_eq (o' := kput .merge (.bool (truth o .merge true)) (krest [.merge] o)) hn hc (hkk _ (by decide))
  generalize kput .merge (.bool (truth o .merge true)) (krest [.merge] o) = o1 at hkk himp
  unfold cxxLoad
  rw [himp]
  simp only [thenRun, loadWith]
  unfold clangLoad
  rw [if_neg (by rw [hi]; decide)]
  have e1 : strsOr (krest [.includePaths] (krest [.cxxImporter] o1)) .includePaths [] = .ok [] := by
    unfold strsOr
    rw [kget_krest_none (by decide)]
  have e2 : strsOr (krest [.includePaths] (krest [.cxxImporter] o1)) .define [] = .ok defs := by
    unfold strsOr
    rw [kget_krest (by decide), kget_krest (by decide), hkk _ (by decide)]
    rcases hd with h | ⟨h, rfl⟩
    · rw [kget_mem hn h]
    · rw [kget_none h]
  have e3 : strsOr (krest [.includePaths] (krest [.cxxImporter] o1)) .requiredFiles [E.expand file] = .ok files := by
    unfold strsOr
    rw [kget_krest (by decide), kget_krest (by decide), hkk _ (by decide)]
    rcases hf with h | ⟨h, rfl⟩
    · rw [kget_mem hn h]
    · rw [kget_none h]
  simp only [e1, e2, e3, thenRun]
  have e : ["typelib-clang-tlb-importer".toList, "-silent".toList, "-opaquePath=".toList ++ E.opaquePath,
      "-tlbSavePath=".toList ++ E.outPath] ++ files ++ ["--".toList] ++ ([] : List Str).map dashI ++ ["-x".toList, "c++".toList] ++
      defs.map dashD ++ E.osFlags = ["typelib-clang-tlb-importer".toList, "-silent".toList, "-opaquePath=".toList ++ E.opaquePath,
      "-tlbSavePath=".toList ++ E.outPath] ++ files ++ ["--".toList, "-x".toList, "c++".toList] ++
      defs.map (fun s => "-D".toList ++ s) ++ E.osFlags := by
    simp only [List.append_assoc, List.map_nil, List.nil_append]
    rfl
  rw [e, ho]

/-- Files of other kinds: the importer of that kind gets the file and all options but `merge`. Without a kind it is found
from the extension; if the extension is not known either, there is a `RuntimeError`. -/
theorem C81_dispatch {E : Env} {file : Str} (o : Kw) :
    (∀ k, k ≠ "c".toList → k ≠ "auto".toList → ∃ r, importFile E file (some k) o = .plugin k (E.expand file) (truth o .merge true) r ∧
      ∀ p, p ∈ r ↔ p ∈ o ∧ p.1 ≠ .merge) ∧
    (∀ kind, kind = none ∨ kind = some "auto".toList → HasExt (E.expand file) ".tlb".toList →
      ∃ r, importFile E file kind o = .plugin "tlb".toList (E.expand file) (truth o .merge true) r ∧
        ∀ p, p ∈ r ↔ p ∈ o ∧ p.1 ≠ .merge) ∧
    (∀ kind ext, kind = none ∨ kind = some "auto".toList → HasExt (E.expand file) ext → ext ∉ cxxExts → ext ≠ ".tlb".toList →
      importFile E file kind o = .raised .runtime) := by
  have hrest : ∀ p, p ∈ krest [.merge] o ↔ p ∈ o ∧ p.1 ≠ .merge := by
    intro p
    simp [krest, List.mem_filter]
  have hauto : ∀ kind, kind = none ∨ kind = some "auto".toList → kindOf E (E.expand file) kind = kindOf.guess E (E.expand file) := by
    rintro kind (rfl | rfl) <;> rfl
  refine ⟨?_, ?_, ?_⟩
  · intro k h1 h2
    refine ⟨_, ?_, hrest⟩
    unfold importFile kindOf
    simp only [if_neg h2, if_neg h1]
  · intro kind h1 h2
    refine ⟨_, ?_, hrest⟩
    unfold importFile
    rw [hauto kind h1]
    unfold kindOf.guess
    rw [E.idem, ext_eq h2]
    rfl
  · intro kind ext h1 h2 h3 h4
    unfold importFile
    rw [hauto kind h1]
    unfold kindOf.guess
    have : typeByExt ext = none := by
      unfold typeByExt
      rw [if_neg (by simpa [cxxExts] using h3), if_neg h4]
    rw [E.idem, ext_eq h2, this]

end Verif.CxxLoad
