import Verif.Basic

/-! Property C90: loading the Ruby plugins of typelib, `Typelib.load_typelib_plugins(force:)`
(bindings/ruby/lib/typelib.rb:146-188), called whenever a registry is created (registry.rb:157-162), over histories of calls in
environments that change between the calls. -/

namespace Verif.RubyPlugins
open Verif

/-- What one call finds. Simplifications: a file is known by its path (`require` follows symbolic links); the files are looked
up at the beginning of the call, where the code looks into a directory after loading the plugins of the previous ones; a plugin
that creates registries, and so calls the function again while it is loaded, is not modelled. -/
structure World where
  /-- `Gem.find_files('*/typelib_plugin.rb')`, in this order -/
  gems : List Str
  /-- the environment variable TYPELIB_RUBY_PLUGIN_PATH -/
  path : Option Str
  exist : Str → Bool
  /-- `Dir.glob(File.join(dir, '*.rb'))` -/
  glob : Str → List Str
  /-- whether the file, once executed, raises an exception -/
  raises : Str → Bool

/-- The state of the process: `$LOADED_FEATURES`, `@@loaded_typelib_plugins`, `@@typelib_plugin_path`, and a log of the files
executed so far, with whether they ended normally. -/
structure State where
  features : List Str := []
  loaded : Bool := false
  path : Option Str := none
  log : List (Str × Bool) := []
  deriving DecidableEq, Repr

/-- Ruby's `require`: a file that has been loaded is not executed again; one that raises is not recorded. The second component
is false if an exception is raised. -/
def require (W : World) (f : Str) (s : State) : State × Bool :=
  if f ∈ s.features then (s, true)
  else if W.raises f then ({ s with log := s.log ++ [(f, false)] }, false)
  else ({ s with log := s.log ++ [(f, true)], features := s.features ++ [f] }, true)

/-- a loop that requires files; an exception leaves it -/
def requireAll (W : World) : List Str → State → State × Bool
  | [], s => (s, true)
  | f :: fs, s =>
    let r := require W f s
    if r.2 then requireAll W fs r.1 else r

/-- `path.split(':')` without the removal of empty strings at the end (they name the root directory in the loop: see `dirs`) -/
def splitColon : Str → List Str
  | [] => [[]]
  | c :: cs =>
    if c = ':' then [] :: splitColon cs
    else match splitColon cs with
      | [] => [[c]]
      | d :: ds => (c :: d) :: ds

/-- Ruby's `String#split`, which drops the empty strings at the end (typelib.rb:163) -/
def dirs (p : Str) : List Str := ((splitColon p).reverse.dropWhile List.isEmpty).reverse

/-- the file of a directory, `File.join(dir, "typelib_plugin.rb")` (typelib.rb:164); `File.join` would not double a slash at the
end of the directory -/
def specific (d : Str) : Str := d ++ "/typelib_plugin.rb".toList

/-- the files of a directory of the path (typelib.rb:164-184): `typelib_plugin.rb` if it exists, all Ruby files otherwise -/
def filesOf (W : World) (d : Str) : List Str := if W.exist (specific d) then [specific d] else W.glob d

def pathFiles (W : World) (p : Str) : List Str := (dirs p).flatMap (filesOf W)

/-- `Typelib.load_typelib_plugins(force: force)` (typelib.rb:146-188). -/
def load (W : World) (force : Bool) (s : State) : State × Bool :=
  if !force && s.loaded then (s, true)
  else
    let r := requireAll W W.gems s
    if !r.2 then r
    else
      let s1 := { r.1 with loaded := true }
      match W.path with
      | none => (s1, true)
      | some p =>
        if s1.path = some p then (s1, true)
        else
          let r2 := requireAll W (pathFiles W p) s1
          if !r2.2 then r2 else ({ r2.1 with path := some p }, true)

/-- a history of calls -/
def run : List (World × Bool) → State → State
  | [], s => s
  | (W, f) :: h, s => run h (load W f s).1

/-! ### Specification -/

/-- the files of `fs` that are not among `seen`, each once, in order -/
def fresh : List Str → List Str → List Str
  | _, [] => []
  | seen, f :: fs => if f ∈ seen then fresh seen fs else f :: fresh (seen ++ [f]) fs

/-- the files a call has to load: those of the gems, then those of the path unless this path has been loaded -/
def wanted (W : World) (s : State) : List Str :=
  W.gems ++ match W.path with
    | none => []
    | some p => if s.path = some p then [] else pathFiles W p

/-- the files loaded in a log are not executed again -/
def Once (log : List (Str × Bool)) : Prop := log.Pairwise (fun a b => a.2 = true → a.1 ≠ b.1)

/-! ### One loop -/

theorem fresh_append (a b : List Str) : ∀ seen, fresh seen (a ++ b) = fresh seen a ++ fresh (seen ++ fresh seen a) b := by
  induction a with
  | nil => intro seen; simp [fresh]
  | cons f a ih =>
    intro seen
    by_cases h : f ∈ seen
    · simp only [List.cons_append, fresh, if_pos h, ih]
    · simp only [List.cons_append, fresh, if_neg h, ih, List.append_assoc, List.cons_append, List.nil_append]

/-- what a loop does: it executes the files not loaded yet, in order, up to the first that raises -/
theorem requireAll_spec (W : World) : ∀ (fs : List Str) (s : State),
    (requireAll W fs s).1.loaded = s.loaded ∧ (requireAll W fs s).1.path = s.path ∧
    (((requireAll W fs s).2 = true ∧ (∀ f ∈ fresh s.features fs, W.raises f = false) ∧
        (requireAll W fs s).1.log = s.log ++ (fresh s.features fs).map (fun f => (f, true)) ∧
        (requireAll W fs s).1.features = s.features ++ fresh s.features fs) ∨
     ((requireAll W fs s).2 = false ∧ ∃ pre f post, fresh s.features fs = pre ++ f :: post ∧
        (∀ g ∈ pre, W.raises g = false) ∧ W.raises f = true ∧
        (requireAll W fs s).1.log = s.log ++ pre.map (fun f => (f, true)) ++ [(f, false)] ∧
        (requireAll W fs s).1.features = s.features ++ pre)) := by
  intro fs
  induction fs with
  | nil => intro s; refine ⟨rfl, rfl, .inl ⟨rfl, nofun, ?_, ?_⟩⟩ <;> simp [requireAll, fresh]
  | cons f fs ih =>
    intro s
    unfold requireAll require fresh
    by_cases h : f ∈ s.features
    · simp only [if_pos h, if_true]
      exact ih s
    · simp only [if_neg h]
      by_cases hr : W.raises f = true
      · simp only [if_pos hr, Bool.false_eq_true, if_false]
        refine ⟨trivial, trivial, .inr ⟨trivial, [], f, fresh (s.features ++ [f]) fs, rfl, nofun, hr, ?_, ?_⟩⟩ <;> simp
      · simp only [if_neg hr, if_true]
        have hr' : W.raises f = false := by simpa using hr
        obtain ⟨h1, h2, h3⟩ := ih { s with log := s.log ++ [(f, true)], features := s.features ++ [f] }
        refine ⟨h1, h2, ?_⟩
        rcases h3 with ⟨e1, e2, e3, e4⟩ | ⟨e1, pre, g, post, e2, e3, e4, e5, e6⟩
        · refine .inl ⟨e1, ?_, ?_, ?_⟩
          · intro g hg
            rcases List.mem_cons.mp hg with rfl | hg
            · exact hr'
            · exact e2 g hg
          · rw [e3]; simp
          · rw [e4]; simp
        · refine .inr ⟨e1, f :: pre, g, post, ?_, ?_, e4, ?_, ?_⟩
          · simp [e2]
          · intro x hx
            rcases List.mem_cons.mp hx with rfl | hx
            · exact hr'
            · exact e3 x hx
          · rw [e5]; simp
          · rw [e6]; simp

theorem mem_fresh : ∀ (fs seen : List Str) (f : Str), f ∈ fresh seen fs ↔ f ∈ fs ∧ f ∉ seen := by
  intro fs
  induction fs with
  | nil => intro seen f; simp [fresh]
  | cons g fs ih =>
    intro seen f
    unfold fresh
    by_cases h : g ∈ seen
    · rw [if_pos h, ih]
      constructor
      · exact fun ⟨a, b⟩ => ⟨List.mem_cons_of_mem _ a, b⟩
      · rintro ⟨a, b⟩
        rcases List.mem_cons.mp a with rfl | a
        · exact absurd h b
        · exact ⟨a, b⟩
    · rw [if_neg h, List.mem_cons, ih]
      constructor
      · rintro (rfl | ⟨a, b⟩)
        · exact ⟨List.mem_cons_self .., h⟩
        · exact ⟨List.mem_cons_of_mem _ a, fun n => b (List.mem_append.mpr (.inl n))⟩
      · rintro ⟨a, b⟩
        by_cases e : f = g
        · exact .inl e
        · rcases List.mem_cons.mp a with rfl | a
          · exact absurd rfl e
          · refine .inr ⟨a, fun n => ?_⟩
            rcases List.mem_append.mp n with n | n
            · exact b n
            · exact e (List.mem_singleton.mp n)

theorem fresh_nodup : ∀ (fs seen : List Str), (fresh seen fs).Nodup := by
  intro fs
  induction fs with
  | nil => intro seen; simp [fresh]
  | cons g fs ih =>
    intro seen
    unfold fresh
    by_cases h : g ∈ seen
    · rw [if_pos h]; exact ih seen
    · rw [if_neg h, List.nodup_cons]
      refine ⟨fun n => ?_, ih _⟩
      have := ((mem_fresh _ _ _).mp n).2
      exact this (by simp)

/-! ### One call -/

/-- the calls that do something -/
def active (force : Bool) (s : State) : Bool := force || !s.loaded

theorem load_active {W : World} {force : Bool} {s : State} (h : active force s = true) :
    load W force s = (let r := requireAll W W.gems s
      if !r.2 then r
      else
        let s1 := { r.1 with loaded := true }
        match W.path with
        | none => (s1, true)
        | some p =>
          if s1.path = some p then (s1, true)
          else
            let r2 := requireAll W (pathFiles W p) s1
            if !r2.2 then r2 else ({ r2.1 with path := some p }, true)) := by
  unfold load
  have : (!force && s.loaded) = false := by
    unfold active at h
    cases force <;> cases hs : s.loaded <;> simp_all
  rw [this]
  rfl

/-- **C90.** A call that is not forced does nothing once the plugins are loaded. -/
theorem C90_quiet (W : World) (s : State) (h : s.loaded = true) : load W false s = (s, true) := by
  unfold load
  rw [h]
  rfl

/-- **C90.** Every other call executes the plugins it finds, those of the gems and then those of the path, in order, each once
and only those that were not loaded before; it raises an exception exactly if one of them does, and then executes no more of
them. After a call without exception, the plugins are recorded as loaded. -/
theorem C90_call (W : World) (force : Bool) (s : State) (h : active force s = true) :
    ((load W force s).2 = true ∧ (∀ f ∈ fresh s.features (wanted W s), W.raises f = false) ∧
      (load W force s).1.log = s.log ++ (fresh s.features (wanted W s)).map (fun f => (f, true)) ∧
      (load W force s).1.features = s.features ++ fresh s.features (wanted W s) ∧
      (load W force s).1.loaded = true ∧ (load W force s).1.path = W.path.orElse (fun _ => s.path)) ∨
    ((load W force s).2 = false ∧ ∃ pre f post, fresh s.features (wanted W s) = pre ++ f :: post ∧
      (∀ g ∈ pre, W.raises g = false) ∧ W.raises f = true ∧
      (load W force s).1.log = s.log ++ pre.map (fun f => (f, true)) ++ [(f, false)] ∧
      (load W force s).1.features = s.features ++ pre ∧ (load W force s).1.path = s.path ∧
      ((load W force s).1.loaded = true ↔ s.loaded = true ∨ (fresh s.features W.gems).length ≤ pre.length)) := by
  rw [load_active h]
  obtain ⟨a1, a2, a3⟩ := requireAll_spec W W.gems s
  rcases a3 with ⟨e1, e2, e3, e4⟩ | ⟨e1, pre, f, post, e2, e3, e4, e5, e6⟩
  · simp only [e1, Bool.not_true, Bool.false_eq_true, if_false]
    cases hp : W.path with
    | none =>
      have hw : wanted W s = W.gems := by unfold wanted; rw [hp]; simp
      simp only [hw]
      exact .inl ⟨trivial, e2, e3, e4, trivial, a2⟩
    | some p =>
      by_cases hs : s.path = some p
      · have hs1 : (requireAll W W.gems s).1.path = some p := a2.trans hs
        have hw : wanted W s = W.gems := by unfold wanted; rw [hp]; simp [hs]
        simp only [if_pos hs1, hw]
        refine .inl ⟨trivial, e2, e3, e4, trivial, ?_⟩
        rw [a2, hs]; rfl
      · have hw : wanted W s = W.gems ++ pathFiles W p := by unfold wanted; rw [hp]; simp [hs]
        have hs1 : ¬ (requireAll W W.gems s).1.path = some p := fun e => hs (a2.symm.trans e)
        simp only [if_neg hs1, hw, fresh_append]
        obtain ⟨b1, b2, b3⟩ := requireAll_spec W (pathFiles W p)
          { (requireAll W W.gems s).1 with loaded := true }
        generalize hr : requireAll W (pathFiles W p) { (requireAll W W.gems s).1 with loaded := true } = r at b1 b2 b3 ⊢
        simp only [e3, e4] at b3
        rcases b3 with ⟨g1, g2, g3, g4⟩ | ⟨g1, pre, f, post, g2, g3, g4, g5, g6⟩
        · simp only [g1, Bool.not_true, Bool.false_eq_true, if_false]
          refine .inl ⟨trivial, ?_, ?_, ?_, b1, rfl⟩
          · intro f hf
            rcases List.mem_append.mp hf with hf | hf
            · exact e2 f hf
            · exact g2 f hf
          · rw [g3]; simp
          · rw [g4]; simp
        · simp only [g1, Bool.not_false, if_true]
          refine .inr ⟨trivial, fresh s.features W.gems ++ pre, f, post, ?_, ?_, g4, ?_, ?_, ?_, ?_⟩
          · rw [g2]; simp
          · intro x hx
            rcases List.mem_append.mp hx with hx | hx
            · exact e2 x hx
            · exact g3 x hx
          · rw [g5]; simp
          · rw [g6]; simp
          · rw [b2, a2]
          · rw [b1]; simp
  · simp only [e1, Bool.not_false, if_true]
    have hw : fresh s.features (wanted W s) = fresh s.features W.gems ++ fresh (s.features ++ fresh s.features W.gems)
        (match W.path with
          | none => []
          | some p => if s.path = some p then [] else pathFiles W p) := by
      unfold wanted; rw [fresh_append]
    refine .inr ⟨trivial, pre, f, post ++ fresh (s.features ++ fresh s.features W.gems)
        (match W.path with
          | none => []
          | some p => if s.path = some p then [] else pathFiles W p), ?_, e3, e4, e5, e6, a2, ?_⟩
    · rw [hw, e2]; simp
    · rw [a1, e2]
      constructor
      · exact Or.inl
      · rintro (h | h)
        · exact h
        · simp at h; omega

/-- **C90.** After a call without exception every plugin it had to load has been loaded, by this call or before. -/
theorem C90_loaded (W : World) (force : Bool) (s : State) (h : active force s = true) (hok : (load W force s).2 = true) :
    ∀ f ∈ wanted W s, f ∈ (load W force s).1.features := by
  intro f hf
  rcases C90_call W force s h with ⟨_, _, _, e, _⟩ | ⟨e, _⟩
  · rw [e]
    by_cases hs : f ∈ s.features
    · exact List.mem_append.mpr (.inl hs)
    · exact List.mem_append.mpr (.inr ((mem_fresh _ _ _).mpr ⟨hf, hs⟩))
  · rw [e] at hok; cases hok

/-! ### Histories -/

/-- the features are the files executed without exception -/
structure Inv (s : State) : Prop where
  feat : ∀ f, f ∈ s.features ↔ (f, true) ∈ s.log
  once : Once s.log

theorem once_append {log : List (Str × Bool)} {pre : List Str} {t : List (Str × Bool)} (h : Once log) (hn : pre.Nodup)
    (hd : ∀ f ∈ pre, (f, true) ∉ log) (ht : t = [] ∨ ∃ f, t = [(f, false)] ∧ f ∉ pre ∧ (f, true) ∉ log) :
    Once (log ++ pre.map (fun f => (f, true)) ++ t) := by
  have step : Once (log ++ pre.map (fun f => (f, true))) := by
    unfold Once
    rw [List.pairwise_append]
    refine ⟨h, ?_, ?_⟩
    · rw [List.pairwise_map]
      exact List.Pairwise.imp (S := fun a b => (a, true).2 = true → (a, true).1 ≠ (b, true).1) (fun hne _ => hne) hn
    · rintro ⟨a, b⟩ ha y hy hb
      obtain ⟨f, hf, rfl⟩ := List.mem_map.mp hy
      rintro (rfl : a = f)
      cases hb
      exact hd a hf ha
  rcases ht with rfl | ⟨f, rfl, h1, h2⟩
  · rw [List.append_nil]; exact step
  · unfold Once
    rw [List.pairwise_append]
    refine ⟨step, List.pairwise_singleton _ _, ?_⟩
    rintro ⟨a, b⟩ ha y hy hb
    rw [List.mem_singleton] at hy
    subst hy
    cases hb
    rintro (rfl : a = f)
    rcases List.mem_append.mp ha with ha | ha
    · exact h2 ha
    · obtain ⟨g, hg, e⟩ := List.mem_map.mp ha
      cases e
      exact h1 hg

theorem load_inv (W : World) (force : Bool) {s : State} (h : Inv s) : Inv (load W force s).1 := by
  cases ha : active force s with
  | false =>
    have : load W force s = (s, true) := by
      unfold active at ha
      cases force with
      | true => simp at ha
      | false => exact C90_quiet W s (by simpa using ha)
    rw [this]; exact h
  | true =>
    have nd := fresh_nodup (wanted W s) s.features
    have nm : ∀ f ∈ fresh s.features (wanted W s), (f, true) ∉ s.log := by
      intro f hf n
      exact ((mem_fresh _ _ _).mp hf).2 ((h.feat f).mpr n)
    rcases C90_call W force s ha with ⟨_, _, e3, e4, _⟩ | ⟨_, pre, f, post, e2, _, _, e5, e6, _⟩
    · constructor
      · intro f
        rw [e3, e4, List.mem_append, List.mem_append, h.feat f, List.mem_map]
        constructor
        · rintro (a | a)
          · exact .inl a
          · exact .inr ⟨f, a, rfl⟩
        · rintro (a | ⟨g, a, e⟩)
          · exact .inl a
          · cases e; exact .inr a
      · rw [e3, ← List.append_nil (s.log ++ _)]
        exact once_append h.once nd nm (.inl rfl)
    · rw [e2] at nd nm
      rw [List.nodup_append] at nd
      constructor
      · intro g
        rw [e5, e6, List.mem_append, List.mem_append, List.mem_append, h.feat g, List.mem_map]
        constructor
        · rintro (a | a)
          · exact .inl (.inl a)
          · exact .inl (.inr ⟨g, a, rfl⟩)
        · rintro ((a | ⟨x, a, e⟩) | a)
          · exact .inl a
          · cases e; exact .inr a
          · rw [List.mem_singleton] at a; cases a
      · rw [e5]
        refine once_append h.once nd.1 (fun g hg => nm g (List.mem_append.mpr (.inl hg))) (.inr ⟨f, rfl, fun n => ?_, ?_⟩)
        · exact nd.2.2 f n f (List.mem_cons_self ..) rfl
        · exact nm f (List.mem_append.mpr (.inr (List.mem_cons_self ..)))

/-- **C90.** Over every history of calls, forced or not, in changing environments and with plugins that raise: a plugin that has
been executed without exception is never executed again. -/
theorem C90_once (h : List (World × Bool)) : Once (run h {}).log := by
  have main : ∀ (h : List (World × Bool)) (s : State), Inv s → Inv (run h s) := by
    intro h
    induction h with
    | nil => exact fun s hs => hs
    | cons x h ih => exact fun s hs => ih _ (load_inv x.1 x.2 hs)
  exact (main h {} ⟨fun f => by simp, List.Pairwise.nil⟩).once

/-- **C90 (partial).** A plugin of a gem that raises is not lost: the exception leaves the plugins to be loaded, so that the next
call, forced or not, that raises nothing loads all it finds.
Missing: plugins of the path, for which this is false (`C90_lost_counterexample`). -/
theorem C90_retry_partial (W W' : World) (force : Bool) (s : State) (hs : s.loaded = false)
    (f : Str) (hf : f ∈ W.gems) (hr : W.raises f = true) (hn : f ∉ s.features) (hok : (load W' force (load W force s).1).2 = true) :
    (load W force s).2 = false ∧ ∀ g ∈ wanted W' s, g ∈ (load W' force (load W force s).1).1.features := by
  have ha : active force s = true := by unfold active; rw [hs]; simp
  rcases C90_call W force s ha with ⟨_, e, _⟩ | ⟨e1, pre, g, post, e2, e3, e4, e5, e6, e7, e8⟩
  · have : f ∈ fresh s.features (wanted W s) :=
      (mem_fresh _ _ _).mpr ⟨List.mem_append.mpr (.inl hf), hn⟩
    rw [e f this] at hr; cases hr
  · refine ⟨e1, ?_⟩
    have hl : (load W force s).1.loaded = false := by
      cases hl : (load W force s).1.loaded with
      | false => rfl
      | true =>
        exfalso
        rcases e8.mp hl with h | h
        · rw [hs] at h; cases h
        · -- then the failing gem plugin is among those executed without exception
          have hfg : f ∈ fresh s.features W.gems := (mem_fresh _ _ _).mpr ⟨hf, hn⟩
          have hsp : fresh s.features (wanted W s) = fresh s.features W.gems ++
              fresh (s.features ++ fresh s.features W.gems) (match W.path with
                | none => []
                | some p => if s.path = some p then [] else pathFiles W p) := by
            unfold wanted; rw [fresh_append]
          rw [hsp] at e2
          have : fresh s.features W.gems = pre.take (fresh s.features W.gems).length := by
            have := congrArg (List.take (fresh s.features W.gems).length) e2
            rw [List.take_left, List.take_append_of_le_length h] at this
            exact this
          rw [this] at hfg
          rw [e3 f (List.mem_of_mem_take hfg)] at hr
          cases hr
    have ha' : active force (load W force s).1 = true := by unfold active; rw [hl]; simp
    have hw : wanted W' (load W force s).1 = wanted W' s := by unfold wanted; rw [e7]
    have := C90_loaded W' force _ ha' hok
    rw [hw] at this
    exact this

/-- **C90 is false of the plugins in TYPELIB_RUBY_PLUGIN_PATH**: if one of them raises, all plugins are recorded as loaded
nevertheless. Every later call that is not forced, in whatever environment, executes nothing and reports no error: that plugin
and the ones after it are lost for the process. -/
theorem C90_lost_counterexample (W : World) (s : State) (p f : Str) (hs : s.loaded = false)
    (hg : ∀ g ∈ W.gems, W.raises g = false) (hp : W.path = some p) (hne : s.path ≠ some p) (hf : f ∈ pathFiles W p)
    (hn : f ∉ s.features) (hr : W.raises f = true) :
    (load W false s).2 = false ∧ (load W false s).1.loaded = true ∧ f ∉ (load W false s).1.features ∧
    ∀ h : List World, run (h.map (fun W => (W, false))) (load W false s).1 = (load W false s).1 := by
  have ha : active false s = true := by unfold active; rw [hs]; rfl
  have hw : wanted W s = W.gems ++ pathFiles W p := by unfold wanted; rw [hp]; simp [hne]
  rcases C90_call W false s ha with ⟨_, e, _⟩ | ⟨e1, pre, g, post, e2, e3, e4, e5, e6, e7, e8⟩
  · have : f ∈ fresh s.features (wanted W s) :=
      (mem_fresh _ _ _).mpr ⟨by rw [hw]; exact List.mem_append.mpr (.inr hf), hn⟩
    rw [e f this] at hr; cases hr
  · have hl : (load W false s).1.loaded = true := by
      rw [e8]
      right
      rw [hw, fresh_append] at e2
      apply Nat.le_of_not_lt
      intro lt
      have : g ∈ fresh s.features W.gems := by
        have := congrArg (fun l => l[pre.length]?) e2
        simp only [List.getElem?_append_left lt] at this
        rw [List.getElem?_append_right (Nat.le_refl _)] at this
        simp at this
        exact List.mem_of_getElem? this
      rw [hg g ((mem_fresh _ _ _).mp this).1] at e4
      cases e4
    refine ⟨e1, hl, ?_, ?_⟩
    · rw [e6]
      intro n
      rcases List.mem_append.mp n with n | n
      · exact hn n
      · rw [e3 f n] at hr; cases hr
    · intro h
      induction h with
      | nil => rfl
      | cons W' h ih =>
        show run _ (load W' false (load W false s).1).1 = _
        rw [C90_quiet W' _ hl]
        exact ih

/-- **C90.** A forced call looks for new plugins of the gems, but not for new files in the directories of
TYPELIB_RUBY_PLUGIN_PATH while the variable keeps its value, whatever these directories contain now. -/
theorem C90_forced_counterexample (W : World) (s : State) (p : Str) (hp : W.path = some p) (hs : s.path = some p) :
    wanted W s = W.gems ∧ ∀ f ∈ pathFiles W p, f ∉ W.gems → f ∉ s.features → f ∉ (load W true s).1.features := by
  have hw : wanted W s = W.gems := by unfold wanted; rw [hp]; simp [hs]
  refine ⟨hw, fun f _ hg hn => ?_⟩
  have nf : f ∉ fresh s.features (wanted W s) := fun n => hg (by
    have := ((mem_fresh _ _ _).mp n).1
    rw [hw] at this; exact this)
  rcases C90_call W true s rfl with ⟨_, _, _, e, _⟩ | ⟨_, pre, g, post, e2, _, _, _, e6, _⟩
  · rw [e]
    exact fun n => (List.mem_append.mp n).elim hn nf
  · rw [e6]
    intro n
    rcases List.mem_append.mp n with n | n
    · exact hn n
    · exact nf (by rw [e2]; exact List.mem_append.mpr (.inl n))

/-! ### The directories of the path -/

/-- directories separated by colons -/
def Joined : List Str → Str
  | [] => []
  | [d] => d
  | d :: ds => d ++ ':' :: Joined ds

/-- the files of a list of directories, in order: `typelib_plugin.rb` in those that have it, the Ruby files of the others -/
inductive Listed (W : World) : List Str → List Str → Prop
  | nil : Listed W [] []
  | one {d ds fs} : W.exist (d ++ "/typelib_plugin.rb".toList) = true → Listed W ds fs →
      Listed W (d :: ds) ((d ++ "/typelib_plugin.rb".toList) :: fs)
  | all {d ds fs} : W.exist (d ++ "/typelib_plugin.rb".toList) = false → Listed W ds fs → Listed W (d :: ds) (W.glob d ++ fs)

theorem splitColon_ne (s : Str) : splitColon s ≠ [] := by
  cases s with
  | nil => simp [splitColon]
  | cons c s =>
    unfold splitColon
    split
    · simp
    · split <;> simp

theorem splitColon_append (d s : Str) (h : ':' ∉ d) : ∃ e es, splitColon s = e :: es ∧ splitColon (d ++ s) = (d ++ e) :: es := by
  induction d with
  | nil =>
    cases hs : splitColon s with
    | nil => exact absurd hs (splitColon_ne s)
    | cons e es => exact ⟨e, es, rfl, by simpa using hs⟩
  | cons c d ih =>
    obtain ⟨e, es, h1, h2⟩ := ih (fun n => h (List.mem_cons_of_mem _ n))
    refine ⟨e, es, h1, ?_⟩
    have hc : c ≠ ':' := by rintro rfl; exact h (List.mem_cons_self ..)
    show splitColon (c :: (d ++ s)) = _
    unfold splitColon
    rw [if_neg hc, h2]
    rfl

theorem splitColon_colons (n : Nat) : splitColon (List.replicate n ':') = List.replicate (n + 1) [] := by
  induction n with
  | zero => rfl
  | succ n ih =>
    rw [List.replicate_succ, List.replicate_succ]
    unfold splitColon
    rw [if_pos rfl, ih]

theorem splitColon_joined (n : Nat) : ∀ (ds : List Str), ds ≠ [] → (∀ d ∈ ds, ':' ∉ d) →
    splitColon (Joined ds ++ List.replicate n ':') = ds ++ List.replicate n [] := by
  intro ds
  induction ds with
  | nil => intro h; exact absurd rfl h
  | cons d ds ih =>
    intro _ hd
    cases ds with
    | nil =>
      obtain ⟨e, es, h1, h2⟩ := splitColon_append d (List.replicate n ':') (hd d (List.mem_cons_self ..))
      rw [splitColon_colons, List.replicate_succ] at h1
      cases h1
      show splitColon (d ++ _) = _
      rw [h2]
      simp
    | cons d' ds =>
      obtain ⟨e, es, h1, h2⟩ := splitColon_append d (':' :: (Joined (d' :: ds) ++ List.replicate n ':'))
        (hd d (List.mem_cons_self ..))
      unfold splitColon at h1
      rw [if_pos rfl, ih (by simp) (fun x hx => hd x (List.mem_cons_of_mem _ hx))] at h1
      cases h1
      show splitColon ((d ++ ':' :: Joined (d' :: ds)) ++ _) = _
      rw [List.append_assoc]
      show splitColon (d ++ (':' :: (Joined (d' :: ds) ++ _))) = _
      rw [h2]
      simp

theorem dropWhile_empties (n : Nat) (l : List Str) (h : ∀ x, l.head? = some x → x ≠ []) :
    (List.replicate n [] ++ l).dropWhile List.isEmpty = l := by
  induction n with
  | zero =>
    cases l with
    | nil => rfl
    | cons x l =>
      have hx := h x rfl
      cases x with
      | nil => exact absurd rfl hx
      | cons _ _ => rfl
  | succ n ih => rw [List.replicate_succ]; exact ih

/-- **C90.** The plugins of the path: for directories without colons, of which the last one is not empty, separated by colons and
followed by any number of colons, the files a call requires are, directory by directory, `typelib_plugin.rb` if there is one and
all Ruby files otherwise. -/
theorem C90_path (W : World) (ds : List Str) (n : Nat) (hd : ∀ d ∈ ds, ':' ∉ d) (hl : ∀ d, ds.getLast? = some d → d ≠ []) :
    Listed W ds (pathFiles W (Joined ds ++ List.replicate n ':')) := by
  have hdirs : dirs (Joined ds ++ List.replicate n ':') = ds := by
    unfold dirs
    cases ds with
    | nil =>
      show ((splitColon (List.replicate n ':')).reverse.dropWhile List.isEmpty).reverse = []
      rw [splitColon_colons, List.reverse_replicate]
      have := dropWhile_empties (n + 1) [] nofun
      rw [List.append_nil] at this
      rw [this]
      rfl
    | cons d ds =>
      rw [splitColon_joined n _ (by simp) hd, List.reverse_append, List.reverse_replicate, dropWhile_empties, List.reverse_reverse]
      intro x hx
      rw [List.head?_reverse] at hx
      exact hl x hx
  have main : ∀ ds : List Str, Listed W ds (ds.flatMap (filesOf W)) := by
    intro ds
    induction ds with
    | nil => exact .nil
    | cons d ds ih =>
      rw [List.flatMap_cons]
      unfold filesOf specific
      cases h : W.exist (d ++ "/typelib_plugin.rb".toList) with
      | true => exact .one h ih
      | false => exact .all h ih
  unfold pathFiles
  rw [hdirs]
  exact main ds

/-! ### Examples -/

/-- two gems and two directories; the plugin of the first directory raises -/
def exW (bad : Bool) : World where
  gems := ["a/typelib_plugin.rb".toList, "b/typelib_plugin.rb".toList]
  path := some "/x:/y".toList
  exist f := decide (f = "/x/typelib_plugin.rb".toList)
  glob _ := ["/y/1.rb".toList, "/y/2.rb".toList]
  raises f := bad && decide (f = "/x/typelib_plugin.rb".toList)

/-- all plugins are loaded, in order, and nothing by the second call -/
example : (run [(exW false, false), (exW false, false)] {}).log =
    ["a/typelib_plugin.rb", "b/typelib_plugin.rb", "/x/typelib_plugin.rb", "/y/1.rb", "/y/2.rb"].map
      (fun f => (f.toList, true)) := by decide +kernel

/-- `/y/1.rb` and `/y/2.rb` are never loaded after the exception, unless a call is forced -/
example : (run [(exW true, false), (exW false, false)] {}).features =
      ["a/typelib_plugin.rb", "b/typelib_plugin.rb"].map String.toList ∧
    (run [(exW true, false), (exW false, true)] {}).features.length = 5 := by decide +kernel

/-- `C90_lost_counterexample` and `C90_retry_partial` apply -/
example : (∀ g ∈ (exW true).gems, (exW true).raises g = false) ∧ "/x/typelib_plugin.rb".toList ∈ pathFiles (exW true) "/x:/y".toList ∧
    (exW true).raises "/x/typelib_plugin.rb".toList = true ∧ active false {} = true := by decide +kernel

example : ∃ (W W' : World) (f : Str), f ∈ W.gems ∧ W.raises f = true ∧ f ∉ ({} : State).features ∧
    (load W' false (load W false {}).1).2 = true :=
  ⟨{ exW false with raises := fun f => decide (f = "b/typelib_plugin.rb".toList) }, exW false, "b/typelib_plugin.rb".toList,
    by decide +kernel, by decide +kernel, nofun, by decide +kernel⟩

/-- `C90_forced_counterexample` applies after a first call; Ruby's `split` drops empty directories at the end only -/
example : (run [(exW false, false)] {}).path = (exW false).path ∧ dirs "/x::/y::".toList = ["/x".toList, [], "/y".toList] ∧
    dirs [] = [] := by decide +kernel

/-- `C90_path` applies to two directories with an empty one between them -/
example : Joined ["/x".toList, [], "/y".toList] = "/x::/y".toList ∧ (∀ d ∈ ["/x".toList, [], "/y".toList], ':' ∉ d) := by
  decide +kernel

end Verif.RubyPlugins
