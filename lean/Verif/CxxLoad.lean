import Verif.Basic

/-!
How the options of `Registry#import` reach the C++ importers: `Registry#import`, `Registry.handler_for` and `Registry.guess_type`
(bindings/ruby/lib/typelib/registry.rb:15-27, 119-126, 169-178, 220-231), `CXX.loader`, `CXX.load` and `CXX.preprocess`
(cxx.rb:76-124), `GCCXMLLoader.load`, `.parsing_thread`, `.castxml`, `.gccxml`, `.preprocess` and `CastXMLLoader`
(gccxml.rb:944-1184), `CLangLoader.load` and `.preprocess` (clang.rb), with property C81.

The programs that are run are given by an oracle, which tells what each command line outputs, or that it fails. Files are
processed one after the other (`parallel_level <= 1`; C74 has the threads). What is done with the output is not modelled
here (C71, C76, C77 for castxml; C26 for the files that clang's importer writes).
-/

namespace Verif.CxxLoad
open Verif

/-- exceptions: `ArgumentError`, `RuntimeError`; `noMethod` stands for `NoMethodError`, `NameError` and `TypeError` -/
inductive RErr where
  | argument
  | runtime
  | noMethod
  deriving DecidableEq, Repr

/-- the importers of `CXX_LOADERS` (cxx.rb:76-80) -/
inductive Loader where
  | gccxml
  | castxml
  | clang
  deriving DecidableEq, Repr

/-- the value of an option -/
inductive KVal where
  | nil
  | bool (b : Bool)
  | str (s : Str)
  | strs (l : List Str)
  | loader (l : Loader)
  | other
  deriving DecidableEq, Repr

/-- the keywords the methods look at; any other one is `other s` -/
inductive Key where
  | merge
  | cxxImporter
  | requiredFiles
  | opaques
  | parallelLevel
  | jobServer
  | castxml
  | define
  | incl
  | includePaths
  | rawflags
  | other (s : Str)
  deriving DecidableEq, Repr

/-- keyword arguments: no key twice -/
abbrev Kw := List (Key × KVal)

def kget (o : Kw) (k : Key) : Option KVal := (o.find? (fun p => p.1 = k)).map (·.2)

/-- what `**rest` gets when the keys `ks` are parameters of their own -/
def krest (ks : List Key) (o : Kw) : Kw := o.filter (fun p => p.1 ∉ ks)

/-- `f(k: v, **o)`: the last one counts -/
def kput (k : Key) (v : KVal) (o : Kw) : Kw := if (kget o k).isSome then o else (k, v) :: o

/-- a parameter used as an array of strings, by `map` or `concat` (gccxml.rb:977-980, 1004-1007, 1144-1145) -/
def strsArg (o : Kw) (k : Key) (dflt : List Str) : Except RErr (List Str) :=
  match kget o k with
  | none => .ok dflt
  | some (.strs l) => .ok l
  | some _ => .error .noMethod

/-- Ruby's truth, of a parameter with a default value -/
def truth (o : Kw) (k : Key) (dflt : Bool) : Bool :=
  match kget o k with
  | none => dflt
  | some .nil => false
  | some (.bool b) => b
  | some _ => true

/-- `options[k] || []` used as an array (clang.rb:29, 31, 39) -/
def strsOr (o : Kw) (k : Key) (dflt : List Str) : Except RErr (List Str) :=
  match kget o k with
  | none => .ok dflt
  | some .nil => .ok dflt
  | some (.bool false) => .ok dflt
  | some (.strs l) => .ok l
  | some _ => .error .noMethod

/-- what surrounds the library -/
structure Env where
  /-- what a command line outputs, `none` if it fails -/
  exec : List Str → Option Str
  /-- `File.expand_path` -/
  expand : Str → Str
  idem : ∀ s, expand (expand s) = expand s
  /-- `castxml_default_options`, `gccxml_default_options` -/
  castDefaults : List Str
  gccDefaults : List Str
  /-- `gcc_binary_name` -/
  gccName : Str
  /-- `clang_binary_name`, if there is one -/
  clangName : Option Str
  /-- `typelib-clang-tlb-importer` is in the path -/
  hasImporter : Bool
  /-- the paths of temporary files -/
  opaquePath : Str
  outPath : Str
  /-- flags which depend on the architecture and on the operating system (gccxml.rb:1011-1015, clang.rb:77-82, 138-140) -/
  archFlag : Str
  osFlags : List Str
  osPreFlags : List Str
  /-- `@loader` and `ENV['TYPELIB_CXX_LOADER']` -/
  chosen : Option Loader
  envLoader : Option Str

/-- the commands that were run, and what is given to the rest of the import -/
abbrev Run (α : Type) := List (List Str) × Except RErr α

def fail {α : Type} (e : RErr) : Run α := ([], .error e)

/-- what follows something that was computed without running a command -/
def thenRun {α β : Type} (x : Except RErr α) (f : α → Run β) : Run β :=
  match x with
  | .ok a => f a
  | .error e => fail e

def dashD (s : Str) : Str := '-' :: 'D' :: s
def dashI (s : Str) : Str := '-' :: 'I' :: s

/-- `GCCXMLLoader.castxml` on one file (gccxml.rb:970-993), `required_files` being `[file]` (gccxml.rb:1103) -/
def castxml (E : Env) (file : Str) (o : Kw) : Run Str :=
  thenRun (strsArg o .rawflags []) fun raw =>
  thenRun (strsArg o .define []) fun defs =>
  thenRun (strsArg o .incl []) fun incs =>
  thenRun (strsArg o .includePaths []) fun paths =>
  let cmd := ["castxml".toList] ++ E.castDefaults ++ ["--castxml-gccxml".toList, "-x".toList, "c++".toList] ++ raw ++
    defs.map dashD ++ incs.map dashI ++ paths.map dashI ++ ["-o".toList, "-".toList, file]
  match E.exec cmd with
  | some out => ([cmd], .ok out)
  | none => ([cmd], .error .argument)

/-- `GCCXMLLoader.gccxml` (gccxml.rb:999-1026). On a failure, the message refers to a variable `file` that does not exist. -/
def gccxml (E : Env) (file : Str) (o : Kw) : Run Str :=
  thenRun (strsArg o .rawflags []) fun raw =>
  thenRun (strsArg o .define []) fun defs =>
  thenRun (strsArg o .incl []) fun incs =>
  thenRun (strsArg o .includePaths []) fun paths =>
  let cmd := [E.gccName] ++ E.gccDefaults ++ raw ++ defs.map dashD ++ incs.map dashI ++ paths.map dashI ++
    [E.archFlag, file, "-fxml=".toList ++ E.outPath]
  match E.exec cmd with
  | some out => ([cmd], .ok out)
  | none => ([cmd], .error .noMethod)

/-- the loop of `parsing_thread` (gccxml.rb:1096-1110): the outputs in the order of the files -/
def parseAll (E : Env) (o : Kw) : List Str → Run (List Str)
  | [] => ([], .ok [])
  | f :: fs =>
    let one := if truth o .castxml true then castxml E f (krest [.castxml] o) else gccxml E f (krest [.castxml] o)
    match one.2 with
    | .error e => (one.1, .error e)
    | .ok x =>
      let r := parseAll E o fs
      (one.1 ++ r.1,
        match r.2 with
        | .error e => .error e
        | .ok xs => .ok (x :: xs))

/-- `GCCXMLLoader.load` (gccxml.rb:1040-1094) up to the outputs to be converted and merged -/
def gccLoad (E : Env) (file : Str) (o : Kw) : Run (List Str) :=
  thenRun (strsArg o .requiredFiles [file]) fun files =>
  parseAll E (krest [.requiredFiles, .opaques, .parallelLevel, .jobServer, .merge] o) (files.map E.expand)

/-- `CastXMLLoader.load` (gccxml.rb:1176-1178) -/
def castLoad (E : Env) (file : Str) (o : Kw) : Run (List Str) := gccLoad E file (kput .castxml (.bool true) o)

/-- `CLangLoader.load` (clang.rb:13-97). `include_paths` is a parameter of its own, hence never in `options`. -/
def clangLoad (E : Env) (file : Str) (o : Kw) : Run (List Str) :=
  if E.hasImporter = false then fail .runtime
  else
    let options := krest [.includePaths] o
    thenRun (strsOr options .includePaths []) fun dirs =>
    thenRun (strsOr options .define []) fun defs =>
    thenRun (strsOr options .requiredFiles [file]) fun files =>
    let cmd := ["typelib-clang-tlb-importer".toList, "-silent".toList, "-opaquePath=".toList ++ E.opaquePath,
      "-tlbSavePath=".toList ++ E.outPath] ++ files ++ ["--".toList] ++ dirs.map dashI ++ ["-x".toList, "c++".toList] ++
      defs.map dashD ++ E.osFlags
    match E.exec cmd with
    | some out => ([cmd], .ok [out])
    | none => ([cmd], .error .runtime)

def loadWith (E : Env) (l : Loader) (file : Str) (o : Kw) : Run (List Str) :=
  match l with
  | .gccxml => gccLoad E file o
  | .castxml => castLoad E file o
  | .clang => clangLoad E file o

/-- `CXX_LOADERS` (cxx.rb:76-80) -/
def loaderNamed (s : Str) : Option Loader :=
  if s = "gccxml".toList then some .gccxml
  else if s = "castxml".toList then some .castxml
  else if s = "clang".toList then some .clang
  else none

/-- `CXX.loader` (cxx.rb:97-109) -/
def currentLoader (E : Env) : Except RErr Loader :=
  match E.chosen with
  | some l => .ok l
  | none =>
    match E.envLoader with
    | some s =>
      (match loaderNamed s with
       | some l => .ok l
       | none => .error .argument)
    | none => .ok .castxml

/-- the importer of a call: the value of `cxx_importer`, or `CXX.loader` -/
def importerOf (E : Env) (o : Kw) : Except RErr Loader :=
  match kget o .cxxImporter with
  | none => currentLoader E
  | some (.loader l) => .ok l
  | some (.str s) =>
    (match loaderNamed s with
     | some l => .ok l
     | none => .error .noMethod)
  | some _ => .error .noMethod

/-- `CXX.load` (cxx.rb:113-118) -/
def cxxLoad (E : Env) (file : Str) (o : Kw) : Run (List Str) :=
  thenRun (importerOf E o) fun l => loadWith E l file (krest [.cxxImporter] o)

/-! ### the choice of the importer -/

/-- `File.extname` of a path that does not end with a slash: from the last dot of the last component, dots in front of it not
counting -/
def extname (path : Str) : Str :=
  let base := ((path.reverse.takeWhile (· != '/')).reverse).dropWhile (· == '.')
  if '.' ∈ base then '.' :: (base.reverse.takeWhile (· != '.')).reverse else []

/-- `TYPE_BY_EXT` (registry.rb:15-25) -/
def typeByExt (e : Str) : Option Str :=
  if e ∈ [".c".toList, ".cc".toList, ".cxx".toList, ".cpp".toList, ".h".toList, ".hh".toList, ".hxx".toList, ".hpp".toList] then
    some "c".toList
  else if e = ".tlb".toList then some "tlb".toList
  else none

/-- what `import` does: the C++ importers, or the importer of a plugin with what is given to `do_import` (options apart from
`merge`; C62 has their format) -/
inductive Import where
  | cxx (r : Run (List Str))
  | plugin (kind file : Str) (merge : Bool) (o : Kw)
  | raised (e : RErr)

/-- `handler_for` (registry.rb:169-178): `kind` is `nil`, `auto`, or a format -/
def kindOf (E : Env) (file : Str) (kind : Option Str) : Except RErr Str :=
  match kind with
  | some k => if k = "auto".toList then guess else .ok k
  | none => guess
where
  /-- `guess_type` (registry.rb:119-126) -/
  guess : Except RErr Str :=
    match typeByExt (extname (E.expand file)) with
    | some t => .ok t
    | none => .error .runtime

/-- `Registry#import` (registry.rb:220-231). The only entry of `TYPE_HANDLERS` is that of C++ (cxx.rb:124). -/
def importFile (E : Env) (file : Str) (kind : Option Str) (o : Kw) : Import :=
  match kindOf E (E.expand file) kind with
  | .error e => .raised e
  | .ok k =>
    if k = "c".toList then .cxx (cxxLoad E (E.expand file) (kput .merge (.bool (truth o .merge true)) (krest [.merge] o)))
    else .plugin k (E.expand file) (truth o .merge true) (krest [.merge] o)

/-! ### preprocessing -/

/-- `GCCXMLLoader.preprocess` (gccxml.rb:1140-1171) and `CastXMLLoader.preprocess` (1180-1182); `E.outPath` is the file with the
lines `#include <...>` -/
def gccPreprocess (E : Env) (o : Kw) : Run Str :=
  thenRun (strsArg o .incl []) fun incs =>
  thenRun (strsArg o .includePaths []) fun paths =>
  thenRun (strsArg o .define []) fun defs =>
  thenRun (strsArg o .rawflags []) fun raw =>
  let cmd := if truth o .castxml true then
      ["castxml".toList, "--castxml-gccxml".toList, "-E".toList] ++ (incs ++ paths).map dashI ++ defs.map dashD ++ raw ++
        E.castDefaults ++ [E.outPath]
    else
      [E.gccName, "--preprocess".toList] ++ (incs ++ paths).map dashI ++ defs.map dashD ++ raw ++ E.gccDefaults ++ [E.outPath]
  match E.exec cmd with
  | some out => ([cmd], .ok out)
  | none => ([cmd], .error .argument)

/-- an option that must be there: `options[k].map` (clang.rb:117-118) -/
def strsMust (o : Kw) (k : Key) : Except RErr (List Str) :=
  match kget o k with
  | some (.strs l) => .ok l
  | _ => .error .noMethod

/-- `CLangLoader.preprocess` (clang.rb:116-152) -/
def clangPreprocess (E : Env) (o : Kw) : Run Str :=
  if o = [] then fail .argument
  else
    thenRun (strsMust o .incl) fun incs =>
    thenRun (strsMust o .define) fun defs =>
    match E.clangName with
    | none => fail .runtime
    | some n =>
      let cmd := [n] ++ E.osPreFlags ++ ["-E".toList] ++ incs.map dashI ++ defs.map dashD ++ [E.outPath]
      match E.exec cmd with
      | some out => ([cmd], .ok out)
      | none => ([cmd], .error .argument)

/-- `CXX.preprocess` (cxx.rb:120-122) -/
def preprocess (E : Env) (o : Kw) : Run Str :=
  thenRun (currentLoader E) fun l =>
  match l with
  | .gccxml => gccPreprocess E o
  | .castxml => gccPreprocess E (kput .castxml (.bool true) o)
  | .clang => clangPreprocess E o

/-! ### Specification -/

/-- What the user asks for. -/
structure Wish where
  files : List Str
  defines : List Str
  includes : List Str
  includePaths : List Str
  raw : List Str

/-- A list of strings given with an option, empty if the option is not used. -/
def Gives (o : Kw) (k : Key) (l : List Str) : Prop := (k, KVal.strs l) ∈ o ∨ ((∀ v, (k, v) ∉ o) ∧ l = [])

/-- The keyword arguments `o` of an import of `file` express the wish `w`. -/
structure Asks (E : Env) (file : Str) (o : Kw) (w : Wish) : Prop where
  /-- no keyword is used twice -/
  nodup : (o.map (·.1)).Nodup
  files : (∃ l, (Key.requiredFiles, KVal.strs l) ∈ o ∧ w.files = l.map E.expand) ∨
    ((∀ v, (Key.requiredFiles, v) ∉ o) ∧ w.files = [E.expand file])
  defines : Gives o .define w.defines
  includes : Gives o .incl w.includes
  includePaths : Gives o .includePaths w.includePaths
  raw : Gives o .rawflags w.raw

/-- The flags of a command line that come from the wish. -/
def Wish.flags (w : Wish) : List Str :=
  w.raw ++ w.defines.map (fun s => "-D".toList ++ s) ++ w.includes.map (fun s => "-I".toList ++ s) ++
    w.includePaths.map (fun s => "-I".toList ++ s)

/-- The names of the importers. -/
inductive Named : Str → Loader → Prop
  | gccxml : Named "gccxml".toList .gccxml
  | castxml : Named "castxml".toList .castxml
  | clang : Named "clang".toList .clang

/-- The importer to be used when none is given: the one that was set, else the one of the environment, else castxml. -/
inductive Current (E : Env) : Loader → Prop
  | chosen {l : Loader} : E.chosen = some l → Current E l
  | env {s : Str} {l : Loader} : E.chosen = none → E.envLoader = some s → Named s l → Current E l
  | default : E.chosen = none → E.envLoader = none → Current E .castxml

/-- The importer of a call. -/
inductive Chooses (E : Env) (o : Kw) : Loader → Prop
  | given {l : Loader} : (Key.cxxImporter, KVal.loader l) ∈ o → Chooses E o l
  | named {s : Str} {l : Loader} : (Key.cxxImporter, KVal.str s) ∈ o → Named s l → Chooses E o l
  | current {l : Loader} : (∀ v, (Key.cxxImporter, v) ∉ o) → Current E l → Chooses E o l

/-- The extension of a file: what follows the last dot, which is not at the beginning of the name of the file. -/
def HasExt (path ext : Str) : Prop := ∃ dir c stem e, path = dir ++ '/' :: c :: (stem ++ '.' :: e) ∧ c ≠ '.' ∧ c ≠ '/' ∧
  '/' ∉ stem ∧ '/' ∉ e ∧ '.' ∉ e ∧ ext = '.' :: e

/-- The extensions of C and C++ files. -/
def cxxExts : List Str :=
  [".c", ".cc", ".cxx", ".cpp", ".h", ".hh", ".hxx", ".hpp"].map String.toList

end Verif.CxxLoad
