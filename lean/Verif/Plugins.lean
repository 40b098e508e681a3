import Verif.StdMap

/-!
C56: the plugin manager (typelib/pluginmanager.cc): which plugin a name gives, the search path, who is deleted.

Shared libraries are known by what their `registerPlugins` adds; the file system by the files of each directory, in the order
`directory_iterator` gives them. Plugins are known by their address.
-/

namespace Verif.Plugins
open Verif Verif.StdMap

/-! ### Model -/

/-- a call of `PluginManager::add` -/
inductive Add where
  | exporter (name : Str) (id : Nat)
  | importer (name : Str) (id : Nat)
  | definition (id : Nat)
  deriving DecidableEq, Repr

/-- `PluginManager` (pluginmanager.hh:50-53); the handles of the libraries are never used -/
structure PM where
  exporters : SMap Nat
  importers : SMap Nat
  defs : List Nat
  deriving DecidableEq, Repr

def PM.empty : PM := ⟨[], [], []⟩

/-- `add_plugin` (pluginmanager.cc:18-20): `map::insert` keeps what is there -/
def addPlugin (m : SMap Nat) (name : Str) (id : Nat) : SMap Nat × Bool :=
  match find m name with
  | some _ => (m, false)
  | none => (upsert name (fun _ => id) m, true)

/-- `PluginManager::add` (pluginmanager.cc:132-137); definitions return nothing -/
def add (pm : PM) : Add → PM × Bool
  | .exporter n id => let r := addPlugin pm.exporters n id; ({ pm with exporters := r.1 }, r.2)
  | .importer n id => let r := addPlugin pm.importers n id; ({ pm with importers := r.1 }, r.2)
  | .definition id => ({ pm with defs := pm.defs ++ [id] }, true)

/-- a sequence of calls -/
def addAll (pm : PM) : List Add → PM
  | [] => pm
  | a :: as => addAll (add pm a).1 as

/-- `get_plugin` (pluginmanager.cc:22-29) -/
def getPlugin (m : SMap Nat) (name : Str) : Res Nat :=
  match find m name with
  | none => .exn .pluginNotFound
  | some id => .ok id

/-- `PluginManager::importer`, `exporter` (pluginmanager.cc:149-152): the plugin that makes the object -/
def importer (pm : PM) (name : Str) : Res Nat := getPlugin pm.importers name
def exporter (pm : PM) (name : Str) : Res Nat := getPlugin pm.exporters name

/-- `registerPluginTypes` (pluginmanager.cc:139-147); `reg id` is what plugin `id` does with the registry -/
def registerTypes {α : Type} (reg : Nat → α → α × Res Unit) : List Nat → α → α × Res Unit
  | [], r => (r, .ok ())
  | id :: ids, r =>
    match reg id r with
    | (r', .ok ()) => registerTypes reg ids r'
    | x => x

/-- deleting objects one after the other; deleting one twice is undefined -/
def deleteAll : List Nat → List Nat → Res (List Nat)
  | _, [] => .ok []
  | gone, id :: ids => if id ∈ gone then .ub else deleteAll (id :: gone) ids >>= fun r => .ok (id :: r)

/-- `~PluginManager` (pluginmanager.cc:71-81): the plugins that are deleted, in order -/
def destroy (pm : PM) : Res (List Nat) := deleteAll [] (pm.importers.map (·.2) ++ pm.exporters.map (·.2) ++ pm.defs)

/-- a file of a directory: its extension, and what `loadPlugin` finds (pluginmanager.cc:112-130): `none` if `dlopen` or `dlsym`
fails, or else what `registerPlugins` adds -/
structure File where
  ext : Str
  entry : Option (List Add)

/-- the directories; `none`: not a directory -/
abbrev Fs := Str → Option (List File)

/-- the loop of `loadPluginFromDirectory` (pluginmanager.cc:97-105) -/
def loadFiles : List File → PM → PM
  | [], pm => pm
  | f :: fs, pm =>
    if f.ext = ".so".toList ∨ f.ext = ".dylib".toList then
      match f.entry with
      | some as => loadFiles fs (addAll pm as)
      | none => loadFiles fs pm
    else loadFiles fs pm

/-- `loadPluginFromDirectory` (pluginmanager.cc:91-110): `directory_iterator` throws `filesystem_error` -/
def loadDir (fs : Fs) (pm : PM) (d : Str) : PM × Res Unit :=
  match fs d with
  | none => (pm, .exn .exception)
  | some files => (loadFiles files pm, .ok ())

/-- `s.find(":")` -/
def findColon (s : Str) : Option Nat := s.findIdx? (· == ':')

/-- the `do ... while` loop of the constructor (pluginmanager.cc:51-59); at most `fuel` turns. Without a colon, `substr(0, npos)`
is the whole string, `erase(0, npos + 1)` erases nothing, and the loop stops. -/
def pathLoop (fs : Fs) : Nat → Str → PM → PM × Res Unit
  | 0, _, pm => (pm, .fuel)
  | f + 1, s, pm =>
    match findColon s with
    | none => loadDir fs pm s
    | some pos =>
      match loadDir fs pm (s.take pos) with
      | (pm', .ok ()) =>
        match findColon (s.drop (pos + 1)) with
        | none => (pm', .ok ())
        | some _ => pathLoop fs f (s.drop (pos + 1)) pm'
      | x => x

/-- `s.find_last_of(":") != s.length()`: the position of the last colon, or `npos`; never the length -/
def needsColon (s : Str) : Bool :=
  match s.reverse.findIdx? (· == ':') with
  | none => true -- npos
  | some i => decide (s.length - 1 - i ≠ s.length)

/-- the constructor (pluginmanager.cc:40-69): `env` is the value of `TYPELIB_PLUGIN_PATH`, `hardcoded` the compiled-in directory -/
def construct (fs : Fs) (exist : Str → Bool) (env : Option Str) (hardcoded : Str) : PM × Res Unit :=
  match env with
  | some s =>
    let s := if needsColon s then s ++ [':'] else s
    pathLoop fs (s.length + 1) s PM.empty
  | none => if exist hardcoded then loadDir fs PM.empty hardcoded else (PM.empty, .ok ())

/-! ### Specification -/

/-- `id` is the first exporter that was added under that name -/
def FirstExporter (hist : List Add) (name : Str) (id : Nat) : Prop :=
  ∃ a b, hist = a ++ .exporter name id :: b ∧ ∀ k, .exporter name k ∉ a

def FirstImporter (hist : List Add) (name : Str) (id : Nat) : Prop :=
  ∃ a b, hist = a ++ .importer name id :: b ∧ ∀ k, .importer name k ∉ a

/-- the object that is added -/
def Add.id : Add → Nat
  | .exporter _ id => id
  | .importer _ id => id
  | .definition id => id

/-- the entries of a search path: what is between the colons -/
def Entries (s : Str) (ds : List Str) : Prop := ds ≠ [] ∧ (∀ d ∈ ds, ':' ∉ d) ∧ List.intercalate [':'] ds = s

/-- what the plugins of a directory add, in order -/
def additions (fs : Fs) (d : Str) : List Add :=
  ((fs d).getD []).flatMap fun f => if f.ext = ".so".toList ∨ f.ext = ".dylib".toList then f.entry.getD [] else []

/-! ### Lemmas -/

theorem addAll_append (pm : PM) (a b : List Add) : addAll pm (a ++ b) = addAll (addAll pm a) b := by
  induction a generalizing pm with
  | nil => rfl
  | cons x a ih => exact ih _

theorem addPlugin_sorted {m : SMap Nat} (h : MSorted m) (n : Str) (id : Nat) : MSorted (addPlugin m n id).1 := by
  unfold addPlugin
  split
  · exact h
  · exact sorted_upsert n _ h

theorem find_addPlugin {m : SMap Nat} (h : MSorted m) (n : Str) (id : Nat) (k : Str) :
    find (addPlugin m n id).1 k = if n = k ∧ find m n = none then some id else find m k := by
  unfold addPlugin
  split
  · rename_i x hx
    rw [if_neg (by rw [hx]; simp)]
  · rename_i hx
    simp only [hx, and_true]
    rw [find_upsert n _ h k]

/-- both tables are maps -/
def Good (pm : PM) : Prop := MSorted pm.exporters ∧ MSorted pm.importers

theorem good_empty : Good PM.empty := ⟨List.Pairwise.nil, List.Pairwise.nil⟩

theorem good_add {pm : PM} (h : Good pm) (a : Add) : Good (add pm a).1 := by
  cases a with
  | exporter n id => exact ⟨addPlugin_sorted h.1 n id, h.2⟩
  | importer n id => exact ⟨h.1, addPlugin_sorted h.2 n id⟩
  | definition id => exact h

theorem good_addAll {pm : PM} (h : Good pm) (l : List Add) : Good (addAll pm l) := by
  induction l generalizing pm with
  | nil => exact h
  | cons a l ih => exact ih (good_add h a)

theorem snoc_first {α : Type} {P : α → Prop} {hist : List α} {x y : α} :
    (∃ a b, hist ++ [y] = a ++ x :: b ∧ ∀ k, P k → k ∉ a) ↔
      (∃ a b, hist = a ++ x :: b ∧ ∀ k, P k → k ∉ a) ∨ (x = y ∧ ∀ k, P k → k ∉ hist) := by
  constructor
  · rintro ⟨a, b, h, hp⟩
    rcases List.eq_nil_or_concat b with rfl | ⟨b', z, rfl⟩
    · obtain ⟨h1, h2⟩ := List.append_inj' h rfl
      exact .inr ⟨by simpa using h2.symm, h1 ▸ hp⟩
    · left
      have : hist ++ [y] = (a ++ x :: b') ++ [z] := by rw [h]; simp
      obtain ⟨h1, _⟩ := List.append_inj' this rfl
      exact ⟨a, b', h1, hp⟩
  · rintro (⟨a, b, rfl, hp⟩ | ⟨rfl, hp⟩)
    · exact ⟨a, b ++ [y], by simp, hp⟩
    · exact ⟨hist, [], rfl, hp⟩

theorem first_iff {hist : List Add} {name : Str} {id : Nat} :
    FirstExporter hist name id ↔ ∃ a b, hist = a ++ .exporter name id :: b ∧ ∀ k, (∃ i, k = Add.exporter name i) → k ∉ a := by
  unfold FirstExporter
  constructor
  · rintro ⟨a, b, h, hp⟩; exact ⟨a, b, h, by rintro _ ⟨i, rfl⟩; exact hp i⟩
  · rintro ⟨a, b, h, hp⟩; exact ⟨a, b, h, fun i => hp _ ⟨i, rfl⟩⟩

theorem firstI_iff {hist : List Add} {name : Str} {id : Nat} :
    FirstImporter hist name id ↔ ∃ a b, hist = a ++ .importer name id :: b ∧ ∀ k, (∃ i, k = Add.importer name i) → k ∉ a := by
  unfold FirstImporter
  constructor
  · rintro ⟨a, b, h, hp⟩; exact ⟨a, b, h, by rintro _ ⟨i, rfl⟩; exact hp i⟩
  · rintro ⟨a, b, h, hp⟩; exact ⟨a, b, h, fun i => hp _ ⟨i, rfl⟩⟩

theorem snoc_induction {α : Type} {P : List α → Prop} (h0 : P []) (h1 : ∀ l x, P l → P (l ++ [x])) (l : List α) : P l := by
  have key : ∀ n (l : List α), l.length = n → P l := by
    intro n
    induction n with
    | zero => intro l hl; rw [List.length_eq_zero_iff.mp hl]; exact h0
    | succ n ih =>
      intro l hl
      rcases List.eq_nil_or_concat l with rfl | ⟨r, x, rfl⟩
      · exact h0
      · rw [List.concat_eq_append] at *
        exact h1 r x (ih r (by simpa using hl))
  exact key _ l rfl

theorem inj_of_nodup {α β : Type} {f : α → β} : ∀ {l : List α}, (l.map f).Nodup → ∀ {x y : α}, x ∈ l → y ∈ l → f x = f y → x = y := by
  intro l
  induction l with
  | nil => intro _ x y hx; simp at hx
  | cons a l ih =>
    intro hd x y hx hy he
    obtain ⟨h1, h2⟩ := List.nodup_cons.mp (show (f a :: l.map f).Nodup from hd)
    rcases List.mem_cons.mp hx with rfl | hx' <;> rcases List.mem_cons.mp hy with rfl | hy'
    · rfl
    · exact absurd (by rw [he]; exact List.mem_map_of_mem hy') h1
    · exact absurd (by rw [← he]; exact List.mem_map_of_mem hx') h1
    · exact ih h2 hx' hy' he

/-- the definition plugins that were added, in order -/
def definitions (hist : List Add) : List Nat := hist.filterMap fun a => match a with | .definition id => some id | _ => none

theorem definitions_sublist (hist : List Add) : (definitions hist).Sublist (hist.map Add.id) := by
  induction hist with
  | nil => exact List.Sublist.slnil
  | cons a l ih =>
    cases a with
    | exporter n i => exact ih.cons _
    | importer n i => exact ih.cons _
    | definition i => exact ih.cons_cons _

/-- the tables after a sequence of calls -/
theorem tables (hist : List Add) :
    (∀ n id, find (addAll PM.empty hist).exporters n = some id ↔ FirstExporter hist n id) ∧
    (∀ n id, find (addAll PM.empty hist).importers n = some id ↔ FirstImporter hist n id) ∧
    (∀ n, find (addAll PM.empty hist).exporters n = none ↔ ∀ k, .exporter n k ∉ hist) ∧
    (∀ n, find (addAll PM.empty hist).importers n = none ↔ ∀ k, .importer n k ∉ hist) ∧
    (addAll PM.empty hist).defs = definitions hist := by
  induction hist using snoc_induction with
  | h0 =>
    refine ⟨fun n id => ?_, fun n id => ?_, fun n => ?_, fun n => ?_, rfl⟩
    · exact ⟨fun h => (by cases h), fun ⟨a, b, h, _⟩ => (by simp at h)⟩
    · exact ⟨fun h => (by cases h), fun ⟨a, b, h, _⟩ => (by simp at h)⟩
    · simp [addAll, PM.empty, find]
    · simp [addAll, PM.empty, find]
  | h1 hist x ih =>
    obtain ⟨i1, i2, i3, i4, i5⟩ := ih
    have hg := good_addAll good_empty hist
    rw [addAll_append]
    simp only [addAll]
    generalize addAll PM.empty hist = pm at *
    have e1 : ∀ {n id}, FirstExporter (hist ++ [x]) n id ↔
        FirstExporter hist n id ∨ (.exporter n id = x ∧ ∀ k, .exporter n k ∉ hist) := by
      intro n id
      rw [first_iff, first_iff, snoc_first]
      refine or_congr_right (and_congr_right fun _ => ⟨fun h k => h _ ⟨k, rfl⟩, fun h => ?_⟩)
      rintro _ ⟨k, rfl⟩; exact h k
    have e2 : ∀ {n id}, FirstImporter (hist ++ [x]) n id ↔
        FirstImporter hist n id ∨ (.importer n id = x ∧ ∀ k, .importer n k ∉ hist) := by
      intro n id
      rw [firstI_iff, firstI_iff, snoc_first]
      refine or_congr_right (and_congr_right fun _ => ⟨fun h k => h _ ⟨k, rfl⟩, fun h => ?_⟩)
      rintro _ ⟨k, rfl⟩; exact h k
    cases x with
    | exporter n' id' =>
      refine ⟨fun n id => ?_, fun n id => ?_, fun n => ?_, fun n => ?_, ?_⟩
      · rw [e1, ← i1, ← i3]
        show find (addPlugin pm.exporters n' id').1 n = some id ↔ _
        rw [find_addPlugin hg.1]
        by_cases hn : n' = n
        · subst hn
          cases hf : find pm.exporters n' with
          | none => simp [eq_comm]
          | some y => simp
        · have hn' : ¬ n = n' := fun e => hn e.symm
          simp [hn, hn']
      · rw [e2, ← i2]
        show find pm.importers n = some id ↔ _
        simp
      · show find (addPlugin pm.exporters n' id').1 n = none ↔ _
        rw [find_addPlugin hg.1]
        have := i3 n
        by_cases hn : n' = n
        · subst hn
          have hne : ¬ ∀ k, Add.exporter n' k ∉ hist ++ [.exporter n' id'] := fun h => h id' (by simp)
          cases hf : find pm.exporters n' with
          | none => rw [if_pos ⟨rfl, rfl⟩]; exact ⟨fun h => (by cases h), fun h => absurd h hne⟩
          | some y => rw [if_neg (by simp)]; exact ⟨fun h => (by cases h), fun h => absurd h hne⟩
        · have hn' : ¬ n = n' := fun e => hn e.symm
          simp [hn, hn', this]
      · show find pm.importers n = none ↔ _
        simp [i4 n]
      · show pm.defs = _
        rw [i5]; simp [definitions]
    | importer n' id' =>
      refine ⟨fun n id => ?_, fun n id => ?_, fun n => ?_, fun n => ?_, ?_⟩
      · rw [e1, ← i1]
        show find pm.exporters n = some id ↔ _
        simp
      · rw [e2, ← i2, ← i4]
        show find (addPlugin pm.importers n' id').1 n = some id ↔ _
        rw [find_addPlugin hg.2]
        by_cases hn : n' = n
        · subst hn
          cases hf : find pm.importers n' with
          | none => simp [eq_comm]
          | some y => simp
        · have hn' : ¬ n = n' := fun e => hn e.symm
          simp [hn, hn']
      · show find pm.exporters n = none ↔ _
        simp [i3 n]
      · show find (addPlugin pm.importers n' id').1 n = none ↔ _
        rw [find_addPlugin hg.2]
        have := i4 n
        by_cases hn : n' = n
        · subst hn
          have hne : ¬ ∀ k, Add.importer n' k ∉ hist ++ [.importer n' id'] := fun h => h id' (by simp)
          cases hf : find pm.importers n' with
          | none => rw [if_pos ⟨rfl, rfl⟩]; exact ⟨fun h => (by cases h), fun h => absurd h hne⟩
          | some y => rw [if_neg (by simp)]; exact ⟨fun h => (by cases h), fun h => absurd h hne⟩
        · have hn' : ¬ n = n' := fun e => hn e.symm
          simp [hn, hn', this]
      · show pm.defs = _
        rw [i5]; simp [definitions]
    | definition id' =>
      refine ⟨fun n id => ?_, fun n id => ?_, fun n => ?_, fun n => ?_, ?_⟩
      · rw [e1, ← i1]; show find pm.exporters n = some id ↔ _; simp
      · rw [e2, ← i2]; show find pm.importers n = some id ↔ _; simp
      · show find pm.exporters n = none ↔ _; simp [i3 n]
      · show find pm.importers n = none ↔ _; simp [i4 n]
      · show pm.defs ++ [id'] = _; rw [i5]; simp [definitions]

theorem deleteAll_spec : ∀ (ids gone : List Nat), ids.Nodup → (∀ i ∈ ids, i ∉ gone) → deleteAll gone ids = .ok ids := by
  intro ids
  induction ids with
  | nil => intros; rfl
  | cons i ids ih =>
    intro gone hn hg
    obtain ⟨h1, h2⟩ := List.nodup_cons.mp hn
    rw [deleteAll, if_neg (hg i (by simp)), ih (i :: gone) h2 ?_]
    · rfl
    · intro j hj hm
      rcases List.mem_cons.mp hm with rfl | hm
      · exact h1 hj
      · exact hg j (by simp [hj]) hm

theorem loadFiles_spec : ∀ (files : List File) (pm : PM), loadFiles files pm = addAll pm (files.flatMap fun f =>
    if f.ext = ".so".toList ∨ f.ext = ".dylib".toList then f.entry.getD [] else []) := by
  intro files
  induction files with
  | nil => intro pm; rfl
  | cons f files ih =>
    intro pm
    rw [List.flatMap_cons, addAll_append, loadFiles]
    split
    · cases f.entry with
      | none => exact ih pm
      | some as => exact ih _
    · rw [ih]; rfl

theorem needsColon_true (s : Str) : needsColon s = true := by
  unfold needsColon
  split
  · rfl
  · rename_i i hi
    have h : i < s.length := by
      have := List.findIdx?_eq_some_iff_findIdx_eq.mp hi
      simpa using this.1
    simp only [ne_eq, decide_not, Bool.not_eq_true', decide_eq_false_iff_not]
    omega

theorem findColon_append {d r : Str} (h : ':' ∉ d) : findColon (d ++ ':' :: r) = some d.length := by
  unfold findColon
  induction d with
  | nil => simp [List.findIdx?_cons]
  | cons c d ih =>
    have hc : (c == ':') = false := by
      rw [beq_eq_false_iff_ne]; rintro rfl; simp at h
    rw [List.cons_append, List.findIdx?_cons, hc]
    have := ih (by simp at h; exact h.2)
    simp [this]

theorem findColon_none {d : Str} (h : ':' ∉ d) : findColon d = none := by
  unfold findColon
  rw [List.findIdx?_eq_none_iff]
  intro x hx
  rw [beq_eq_false_iff_ne]
  rintro rfl
  exact h hx

/-- the loop on the entries of a path -/
theorem pathLoop_spec (fs : Fs) : ∀ (ds : List Str) (d : Str) (f : Nat) (pm : PM), (∀ e ∈ d :: ds, ':' ∉ e) → ds.length < f →
    ((∀ e ∈ d :: ds, (fs e).isSome) → pathLoop fs f (List.intercalate [':'] (d :: ds) ++ [':']) pm =
      (addAll pm ((d :: ds).flatMap (additions fs)), .ok ())) ∧
    ((¬ ∀ e ∈ d :: ds, (fs e).isSome) → ∃ pm', pathLoop fs f (List.intercalate [':'] (d :: ds) ++ [':']) pm = (pm', .exn .exception)) := by
  intro ds
  have dir : ∀ (d : Str) (pm : PM), ((fs d).isSome → loadDir fs pm d = (addAll pm (additions fs d), .ok ())) ∧
      (¬ (fs d).isSome → loadDir fs pm d = (pm, .exn .exception)) := by
    intro d pm
    unfold loadDir additions
    cases fs d with
    | none => simp
    | some files => simp [loadFiles_spec]
  induction ds with
  | nil =>
    intro d f pm hc hf
    obtain ⟨f, rfl⟩ : ∃ g, f = g + 1 := ⟨f - 1, by simp at hf; omega⟩
    have hfc : findColon (d ++ [':']) = some d.length := findColon_append (hc d (by simp))
    have ht : (d ++ [':']).take d.length = d := by simp
    have hdrop : (d ++ [':']).drop (d.length + 1) = [] := by simp
    simp only [List.intercalate, List.intersperse, List.flatten_cons, List.flatten_nil, List.append_nil, pathLoop, hfc, ht, hdrop]
    obtain ⟨h1, h2⟩ := dir d pm
    constructor
    · intro h
      rw [h1 (h d (by simp))]
      simp [findColon]
    · intro h
      rw [h2 (by intro hd; exact h (by simpa using hd))]
      exact ⟨pm, rfl⟩
  | cons e ds ih =>
    intro d f pm hc hf
    obtain ⟨f, rfl⟩ : ∃ g, f = g + 1 := ⟨f - 1, by simp at hf; omega⟩
    have e0 : List.intercalate [':'] (d :: e :: ds) ++ [':'] = d ++ ':' :: (List.intercalate [':'] (e :: ds) ++ [':']) := by
      simp [List.intercalate, List.intersperse]
    obtain ⟨h1, h2⟩ := dir d pm
    rw [e0]
    generalize hr : List.intercalate [':'] (e :: ds) ++ [':'] = rest at *
    have hfc : findColon (d ++ ':' :: rest) = some d.length := findColon_append (hc d (by simp))
    have ht : (d ++ ':' :: rest).take d.length = d := by simp
    have hdrop : (d ++ ':' :: rest).drop (d.length + 1) = rest := by
      rw [show d.length + 1 = (d ++ [':']).length by simp, show d ++ ':' :: rest = (d ++ [':']) ++ rest by simp]
      exact List.drop_left
    have hfr : ∃ k, findColon rest = some k := by
      cases ds with
      | nil => exact ⟨_, by rw [← hr]; simp only [List.intercalate, List.intersperse, List.flatten_cons, List.flatten_nil, List.append_nil]; exact findColon_append (hc e (by simp))⟩
      | cons g ds =>
        refine ⟨e.length, ?_⟩
        rw [← hr]
        have : List.intercalate [':'] (e :: g :: ds) ++ [':'] = e ++ ':' :: (List.intercalate [':'] (g :: ds) ++ [':']) := by
          simp [List.intercalate, List.intersperse]
        rw [this]
        exact findColon_append (hc e (by simp))
    obtain ⟨k, hk⟩ := hfr
    simp only [pathLoop, hfc, ht, hdrop]
    have ih' := ih e f (addAll pm (additions fs d)) (fun x hx => hc x (by simp at hx ⊢; right; exact hx)) (by simp at hf; omega)
    rw [hr] at ih'
    constructor
    · intro h
      rw [h1 (h d (by simp))]
      dsimp only
      rw [hk]
      dsimp only
      rw [ih'.1 (fun x hx => h x (by simp at hx ⊢; right; exact hx)), List.flatMap_cons (x := d), addAll_append]
    · intro h
      by_cases hd : (fs d).isSome
      · rw [h1 hd]
        dsimp only
        rw [hk]
        dsimp only
        refine ih'.2 fun hall => h ?_
        intro x hx
        rcases List.mem_cons.mp hx with rfl | hx
        · exact hd
        · exact hall x hx
      · rw [h2 hd]
        exact ⟨pm, rfl⟩

/-! ### C56 -/

/-- **C56, lookup**: after any sequence of additions, a name gives the first plugin added under it, of the kind asked for, and
`PluginNotFound` if there is none. -/
theorem C56_lookup (hist : List Add) (name : Str) :
    (∀ id, exporter (addAll PM.empty hist) name = .ok id ↔ FirstExporter hist name id) ∧
    (∀ id, importer (addAll PM.empty hist) name = .ok id ↔ FirstImporter hist name id) ∧
    (exporter (addAll PM.empty hist) name = .exn .pluginNotFound ↔ ∀ k, .exporter name k ∉ hist) ∧
    (importer (addAll PM.empty hist) name = .exn .pluginNotFound ↔ ∀ k, .importer name k ∉ hist) := by
  obtain ⟨h1, h2, h3, h4, _⟩ := tables hist
  refine ⟨fun id => ?_, fun id => ?_, ?_, ?_⟩
  · rw [← h1]; unfold exporter getPlugin; cases find (addAll PM.empty hist).exporters name <;> simp
  · rw [← h2]; unfold importer getPlugin; cases find (addAll PM.empty hist).importers name <;> simp
  · rw [← h3]; unfold exporter getPlugin; cases find (addAll PM.empty hist).exporters name <;> simp
  · rw [← h4]; unfold importer getPlugin; cases find (addAll PM.empty hist).importers name <;> simp

/-- **C56, add**: an importer or exporter is accepted exactly if none of its kind was added under its name before. -/
theorem C56_add (hist : List Add) (name : Str) (id : Nat) :
    ((add (addAll PM.empty hist) (.exporter name id)).2 = true ↔ ∀ k, .exporter name k ∉ hist) ∧
    ((add (addAll PM.empty hist) (.importer name id)).2 = true ↔ ∀ k, .importer name k ∉ hist) := by
  obtain ⟨_, _, h3, h4, _⟩ := tables hist
  constructor
  · rw [← h3]; simp only [add, addPlugin]; cases find (addAll PM.empty hist).exporters name <;> simp
  · rw [← h4]; simp only [add, addPlugin]; cases find (addAll PM.empty hist).importers name <;> simp

/-- **C56, types**: the definition plugins, in the order of their addition, each work on the registry the previous one left; an
exception stops them there. -/
theorem C56_types {α : Type} (hist : List Add) (reg : Nat → α → α × Res Unit) (rs : Nat → α) (ids : List Nat)
    (hids : definitions hist = ids) :
    ((∀ (i : Nat) (h : i < ids.length), reg ids[i] (rs i) = (rs (i + 1), .ok ())) →
      registerTypes reg (addAll PM.empty hist).defs (rs 0) = (rs ids.length, .ok ())) ∧
    (∀ (n : Nat) (hn : n < ids.length) (r : α) (x : Res Unit),
      (∀ (i : Nat) (h : i < n), reg (ids[i]'(Nat.lt_trans h hn)) (rs i) = (rs (i + 1), .ok ())) →
      reg ids[n] (rs n) = (r, x) → x ≠ .ok () → registerTypes reg (addAll PM.empty hist).defs (rs 0) = (r, x)) := by
  rw [(tables hist).2.2.2.2, hids]
  clear hids
  constructor
  · induction ids generalizing rs with
    | nil => intro _; rfl
    | cons i ids ih =>
      intro h
      have h0 := h 0 (by simp)
      simp only [List.getElem_cons_zero] at h0
      rw [registerTypes, h0]
      dsimp only
      exact ih (fun i => rs (i + 1)) (fun j hj => h (j + 1) (by simpa using hj))
  · induction ids generalizing rs with
    | nil => intro n hn; simp at hn
    | cons i ids ih =>
      intro n hn r x hb hx hne
      cases n with
      | zero =>
        simp only [List.getElem_cons_zero] at hx
        rw [registerTypes, hx]
        cases x with
        | ok u => exact absurd rfl hne
        | _ => rfl
      | succ n =>
        have h0 := hb 0 (by omega)
        simp only [List.getElem_cons_zero] at h0
        rw [registerTypes, h0]
        dsimp only
        exact ih (fun i => rs (i + 1)) n (by simpa using hn) r x
          (fun j hj => hb (j + 1) (by omega)) hx hne

/-- **C56, destruction**: if no plugin was added twice, the destructor deletes each plugin that was accepted, once. -/
theorem C56_destroy (hist : List Add) (hd : (hist.map Add.id).Nodup) :
    ∃ l, destroy (addAll PM.empty hist) = .ok l ∧ l.Nodup ∧ ∀ id, id ∈ l ↔
      ((∃ n, FirstExporter hist n id) ∨ (∃ n, FirstImporter hist n id) ∨ .definition id ∈ hist) := by
  obtain ⟨h1, h2, h3, h4, h5⟩ := tables hist
  obtain ⟨g1, g2⟩ := good_addAll good_empty hist
  generalize addAll PM.empty hist = pm at *
  have me : ∀ {n id}, (n, id) ∈ pm.exporters → .exporter n id ∈ hist := by
    intro n id h
    obtain ⟨a, b, rfl, _⟩ := (h1 n id).mp ((mem_iff_find g1).mp h)
    simp
  have mi : ∀ {n id}, (n, id) ∈ pm.importers → .importer n id ∈ hist := by
    intro n id h
    obtain ⟨a, b, rfl, _⟩ := (h2 n id).mp ((mem_iff_find g2).mp h)
    simp
  have md : ∀ {id}, id ∈ pm.defs ↔ .definition id ∈ hist := by
    intro id
    rw [h5, definitions, List.mem_filterMap]
    constructor
    · rintro ⟨a, ha, he⟩
      cases a <;> simp at he
      subst he; exact ha
    · intro h; exact ⟨_, h, rfl⟩
  have uniq : ∀ {x y : Add}, x ∈ hist → y ∈ hist → x.id = y.id → x = y := by
    intro x y hx hy he
    exact inj_of_nodup hd hx hy he
  have keys : ∀ {m : SMap Nat}, MSorted m → m.Pairwise (fun a b => a.1 ≠ b.1) := by
    intro m hm
    exact hm.imp (fun {a b} h e => by rw [e, strLt_irrefl] at h; cases h)
  have hn : (pm.importers.map (·.2) ++ pm.exporters.map (·.2) ++ pm.defs).Nodup := by
    rw [List.nodup_append, List.nodup_append]
    refine ⟨⟨?_, ?_, ?_⟩, ?_, ?_⟩
    · rw [List.nodup_iff_pairwise_ne, List.pairwise_map]
      refine List.Pairwise.imp_of_mem ?_ (keys g2)
      rintro ⟨n, i⟩ ⟨n', i'⟩ ha hb hne e
      have e : i = i' := e
      subst e
      have := uniq (mi ha) (mi hb) rfl
      cases this
      exact hne rfl
    · rw [List.nodup_iff_pairwise_ne, List.pairwise_map]
      refine List.Pairwise.imp_of_mem ?_ (keys g1)
      rintro ⟨n, i⟩ ⟨n', i'⟩ ha hb hne e
      have e : i = i' := e
      subst e
      have := uniq (me ha) (me hb) rfl
      cases this
      exact hne rfl
    · intro i hi j hj e
      subst e
      obtain ⟨⟨n, i⟩, hm, rfl⟩ := List.mem_map.mp hi
      obtain ⟨⟨n', i'⟩, hm', hb⟩ := List.mem_map.mp hj
      have hb : i' = i := hb
      subst hb
      cases uniq (mi hm) (me hm') rfl
    · rw [h5]; exact (definitions_sublist hist).nodup hd
    · intro i hi j hj e
      subst e
      have hj' := md.mp hj
      rcases List.mem_append.mp hi with hi | hi
      · obtain ⟨⟨n, i⟩, hm, rfl⟩ := List.mem_map.mp hi
        cases uniq (mi hm) hj' rfl
      · obtain ⟨⟨n, i⟩, hm, rfl⟩ := List.mem_map.mp hi
        cases uniq (me hm) hj' rfl
  refine ⟨_, deleteAll_spec _ [] hn (by simp), hn, fun id => ?_⟩
  simp only [List.mem_append, md]
  have e1 : id ∈ pm.exporters.map (·.2) ↔ ∃ n, FirstExporter hist n id := by
    rw [List.mem_map]
    constructor
    · rintro ⟨⟨n, i⟩, hm, rfl⟩; exact ⟨n, (h1 n i).mp ((mem_iff_find g1).mp hm)⟩
    · rintro ⟨n, hf⟩; exact ⟨(n, id), (mem_iff_find g1).mpr ((h1 n id).mpr hf), rfl⟩
  have e2 : id ∈ pm.importers.map (·.2) ↔ ∃ n, FirstImporter hist n id := by
    rw [List.mem_map]
    constructor
    · rintro ⟨⟨n, i⟩, hm, rfl⟩; exact ⟨n, (h2 n i).mp ((mem_iff_find g2).mp hm)⟩
    · rintro ⟨n, hf⟩; exact ⟨(n, id), (mem_iff_find g2).mpr ((h2 n id).mpr hf), rfl⟩
  rw [e1, e2]
  constructor
  · rintro ((h | h) | h)
    · exact .inr (.inl h)
    · exact .inl h
    · exact .inr (.inr h)
  · rintro (h | h | h)
    · exact .inl (.inr h)
    · exact .inl (.inl h)
    · exact .inr h

/-- a path has one list of entries -/
theorem entries_exist (s : Str) : ∃ ds, Entries s ds := by
  induction s with
  | nil => exact ⟨[[]], by simp, by simp, by simp [List.intercalate]⟩
  | cons c s ih =>
    obtain ⟨ds, h1, h2, h3⟩ := ih
    obtain ⟨d, ds, rfl⟩ := List.exists_cons_of_ne_nil h1
    by_cases hc : c = ':'
    · subst hc
      refine ⟨[] :: d :: ds, by simp, ?_, ?_⟩
      · intro x hx
        rcases List.mem_cons.mp hx with rfl | hx
        · simp
        · exact h2 x hx
      · rw [← h3]; simp [List.intercalate, List.intersperse]
    · refine ⟨(c :: d) :: ds, by simp, ?_, ?_⟩
      · intro x hx
        rcases List.mem_cons.mp hx with rfl | hx
        · have := h2 d (by simp)
          simp only [List.mem_cons, not_or]
          exact ⟨fun e => hc e.symm, this⟩
        · exact h2 x (by simp [hx])
      · rw [← h3]
        cases ds <;> simp [List.intercalate, List.intersperse]

/-- **C56, search path**: the directories of `TYPELIB_PLUGIN_PATH`, which are what is between the colons, are loaded in order. If
one of them, even an empty one, is not a directory, the constructor throws. -/
theorem C56_path (fs : Fs) (exist : Str → Bool) (hardcoded s : Str) :
    ∃ ds, Entries s ds ∧
      ((∀ d ∈ ds, (fs d).isSome) →
        construct fs exist (some s) hardcoded = (addAll PM.empty (ds.flatMap (additions fs)), .ok ())) ∧
      ((¬ ∀ d ∈ ds, (fs d).isSome) → ∃ pm, construct fs exist (some s) hardcoded = (pm, .exn .exception)) := by
  obtain ⟨ds, hE⟩ := entries_exist s
  refine ⟨ds, hE, ?_⟩
  obtain ⟨h1, h2, h3⟩ := hE
  obtain ⟨d, ds, rfl⟩ := List.exists_cons_of_ne_nil h1
  have hlen : ∀ (ds : List Str) (d : Str), ds.length ≤ (List.intercalate [':'] (d :: ds)).length := by
    intro ds
    induction ds with
    | nil => intro d; simp
    | cons e ds ih =>
      intro d
      have := ih e
      have e0 : List.intercalate [':'] (d :: e :: ds) = d ++ ':' :: List.intercalate [':'] (e :: ds) := by
        simp [List.intercalate, List.intersperse]
      rw [e0, List.length_append, List.length_cons, List.length_cons]
      omega
  unfold construct
  dsimp only
  rw [needsColon_true, if_pos rfl, ← h3]
  exact pathLoop_spec fs ds d _ PM.empty h2 (by have := hlen ds d; simp only [List.length_append, List.length_singleton]; omega)

/-- **C56, default path**: without the variable, the plugins of the compiled-in directory are loaded, if it exists. -/
theorem C56_default_path (fs : Fs) (exist : Str → Bool) (hardcoded : Str) :
    (exist hardcoded = true → (fs hardcoded).isSome →
      construct fs exist none hardcoded = (addAll PM.empty (additions fs hardcoded), .ok ())) ∧
    (exist hardcoded = false → construct fs exist none hardcoded = (PM.empty, .ok ())) := by
  unfold construct
  dsimp only
  constructor
  · intro h1 h2
    rw [if_pos h1]
    unfold loadDir additions
    cases hf : fs hardcoded with
    | none => rw [hf] at h2; cases h2
    | some files => simp [loadFiles_spec]
  · intro h
    rw [if_neg (by simp [h])]

/-- **C56 fails for a path that ends in a colon** (or an empty one): the code means to load what precedes it, but the empty name
after it is not a directory. -/
theorem C56_trailing_colon_counterexample (fs : Fs) (exist : Str → Bool) (hardcoded : Str) (hfs : fs [] = none) :
    (∀ s, ∃ pm, construct fs exist (some (s ++ [':'])) hardcoded = (pm, .exn .exception)) ∧
    ∃ pm, construct fs exist (some []) hardcoded = (pm, .exn .exception) := by
  constructor
  · intro s
    obtain ⟨ds, ⟨h1, h2, h3⟩, _, hb⟩ := C56_path fs exist hardcoded (s ++ [':'])
    refine hb fun hall => ?_
    obtain ⟨r, x, rfl⟩ := (List.eq_nil_or_concat ds).resolve_left h1
    rw [List.concat_eq_append] at *
    have hx : x = [] := by
      rcases List.eq_nil_or_concat x with h | ⟨y, c, rfl⟩
      · exact h
      · exfalso
        rw [List.concat_eq_append] at *
        have hlast : ∀ (r : List Str), ∃ z, List.intercalate [':'] (r ++ [y ++ [c]]) = z ++ [c] := by
          intro r
          induction r with
          | nil => exact ⟨y, by simp [List.intercalate]⟩
          | cons a r ih =>
            obtain ⟨z, hz⟩ := ih
            refine ⟨a ++ ':' :: z, ?_⟩
            obtain ⟨b, t, hbt⟩ : ∃ b t, r ++ [y ++ [c]] = b :: t := List.exists_cons_of_ne_nil (by simp)
            rw [List.cons_append, hbt]
            have e0 : List.intercalate [':'] (a :: b :: t) = a ++ ':' :: List.intercalate [':'] (b :: t) := by
              simp [List.intercalate, List.intersperse]
            rw [e0, ← hbt, hz]; simp
        obtain ⟨z, hz⟩ := hlast r
        rw [hz] at h3
        obtain ⟨_, hc⟩ := List.append_inj' h3 rfl
        have hc : c = ':' := by simpa using hc
        exact h2 (y ++ [c]) (by simp) (by simp [hc])
    have := hall x (by simp)
    rw [hx, hfs] at this
    cases this
  · obtain ⟨ds, ⟨h1, h2, h3⟩, _, hb⟩ := C56_path fs exist hardcoded []
    refine hb fun hall => ?_
    obtain ⟨d, ds, rfl⟩ := List.exists_cons_of_ne_nil h1
    have hd : d = [] := by
      cases ds with
      | nil => simpa [List.intercalate] using h3
      | cons e ds =>
        have e0 : List.intercalate [':'] (d :: e :: ds) = d ++ ':' :: List.intercalate [':'] (e :: ds) := by
          simp [List.intercalate, List.intersperse]
        rw [e0] at h3
        simp at h3
    have := hall d (by simp)
    rw [hd, hfs] at this
    cases this

/-- **C56 fails for refused plugins**: nobody deletes a plugin whose name is taken (the libraries ignore what `add` returns). -/
theorem C56_leak_counterexample :
    ∃ hist, Add.exporter ['a'] 2 ∈ hist ∧ destroy (addAll PM.empty hist) = .ok [1] :=
  ⟨[.exporter ['a'] 1, .exporter ['a'] 2], by simp, by decide⟩

/-- **C56 fails for plugins added twice**: definition plugins are not checked, and are then deleted twice. -/
theorem C56_twice_counterexample (id : Nat) : destroy (addAll PM.empty [.definition id, .definition id]) = .ub := by
  simp [destroy, addAll, add, PM.empty, deleteAll]

/-! ### Examples -/

/-- a directory with two plugins, of which one is not valid, and another file -/
def exFs : Fs := fun d =>
  if d = "p".toList then some [⟨".so".toList, some [.exporter "tlb".toList 1, .importer "tlb".toList 2]⟩,
    ⟨".txt".toList, some [.definition 9]⟩, ⟨".so".toList, none⟩]
  else if d = "q".toList then some [⟨".so".toList, some [.exporter "tlb".toList 3, .exporter "idl".toList 4, .definition 5]⟩]
  else none

example : construct exFs (fun _ => false) (some "p:q".toList) [] =
    (⟨[("idl".toList, 4), ("tlb".toList, 1)], [("tlb".toList, 2)], [5]⟩, .ok ()) := by decide
example : (construct exFs (fun _ => false) (some "p:".toList) []).2 = .exn .exception := by decide
example : Entries "p:q".toList ["p".toList, "q".toList] := ⟨by simp, by decide, by decide⟩
example : FirstExporter [.importer ['a'] 1, .exporter ['a'] 2, .exporter ['a'] 3] ['a'] 2 :=
  ⟨[.importer ['a'] 1], [.exporter ['a'] 3], rfl, by simp⟩
example : destroy (addAll PM.empty [.importer ['a'] 1, .exporter ['a'] 2, .definition 3]) = .ok [1, 2, 3] := by decide

/-! ### The theorems on concrete cases -/

/-- two type definitions, the second one fails -/
example := C56_types (α := Nat) [.definition 3, .importer ['a'] 1, .definition 4]
  (fun i a => if i = 3 then (a + 10, .ok ()) else (a, .exn .exception)) (fun n => n * 10) [3, 4] rfl

example := C56_destroy [.importer ['a'] 1, .exporter ['a'] 2, .definition 3, .exporter ['a'] 4] (by decide)

end Verif.Plugins
