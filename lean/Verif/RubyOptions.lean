import Verif.ConfigSet

/-!
C62: the options of `Registry#import` and `Registry#export` on their way from Ruby to the plugins
(bindings/ruby/lib/typelib/registry.rb:126-143, `format_options`; bindings/ruby/ext/registry.cc:202-237,
`setup_configset_from_option_array`).
-/

namespace Verif.RubyOptions
open Verif Verif.Registry Verif.StdMap Verif.ConfigSet

/-! ### Model -/

mutual
/-- a Ruby hash of options, in its order; keys as `to_s` gives them -/
inductive Opts where
  | nil
  | cons (key : Str) (value : OVal) (rest : Opts)
/-- a value: anything but arrays and hashes (as `to_s` gives it), an array of such, an array of hashes, a hash. Arrays that mix
hashes with other values are left out, and so are strings with NUL characters, which `StringValuePtr` would cut. -/
inductive OVal where
  | one (s : Str)
  | many (l : List Str)
  | subs (l : OptsList)
  | sub (h : Opts)
inductive OptsList where
  | nil
  | cons (h : Opts) (rest : OptsList)
end

mutual
/-- the Ruby value that `format_options` returns: strings and arrays -/
inductive FVal where
  | str (s : Str)
  | arr (l : FList)
inductive FList where
  | nil
  | cons (v : FVal) (rest : FList)
end

def strList : List Str → FList
  | [] => .nil
  | s :: l => .cons (.str s) (strList l)

/-- `[ a, b ]` -/
def pair (a b : FVal) : FVal := .arr (.cons a (.cons b .nil))

mutual
/-- `format_options` (registry.rb:126-143) -/
def formatOptions : Opts → FList
  | .nil => .nil
  | .cons k v r => .cons (pair (.str k) (formatValue v)) (formatOptions r)
def formatValue : OVal → FVal
  | .one s => .str s
  | .many l => .arr (strList l)
  | .subs l => .arr (formatAll l)
  | .sub h => .arr (formatOptions h)
def formatAll : OptsList → FList
  | .nil => .nil
  | .cons h r => .cons (.arr (formatOptions h)) (formatAll r)
end

/-- a `config_set` with the sets it owns -/
inductive Cfg where
  | mk (values : MMap Str) (children : List (Str × Cfg))

def Cfg.values : Cfg → MMap Str
  | .mk v _ => v

def Cfg.children : Cfg → MMap Cfg
  | .mk _ c => c

def Cfg.new : Cfg := .mk [] []

/-- `config_set::insert(name, value)` (configset.cc:64-65) -/
def Cfg.insert (c : Cfg) (k v : Str) : Cfg := .mk (minsert k v c.values) c.children

/-- `config_set::insert(name, child)` (configset.cc:72-73) -/
def Cfg.insertChild (c : Cfg) (k : Str) (ch : Cfg) : Cfg := .mk c.values (minsert k ch c.children)

/-- `config_set::set(name, value)` (configset.cc:74-78) -/
def Cfg.set (c : Cfg) (k v : Str) : Cfg := .mk (minsert k v (merase c.values k)) c.children

/-- the loop on strings (registry.cc:225-229): `StringValuePtr` of an array raises `TypeError` -/
def setupStrs (k : Str) : Cfg → FList → Res Cfg
  | c, .nil => .ok c
  | c, .cons (.str s) r => setupStrs k (c.insert k s) r
  | _, .cons (.arr _) _ => .exn .rbType

/-- `rb_obj_is_kind_of(rb_ary_entry(v, 0), rb_cArray)` (registry.cc:213-214) -/
def firstIsArray : FList → Bool
  | .cons (.arr _) _ => true
  | _ => false

mutual
/-- `setup_configset_from_option_array` (registry.cc:202-237). `RARRAY_PTR` of something that is not an array, or beyond its end, is
undefined. -/
def setup (c : Cfg) : FList → Res Cfg
  | .nil => .ok c
  | .cons e r =>
    match setupEntry c e with
    | .ok c => setup c r
    | x => x
def setupEntry (c : Cfg) : FVal → Res Cfg
  | .str _ => .ub
  | .arr l => setupPair c l
def setupPair (c : Cfg) : FList → Res Cfg
  | .nil => .ub
  | .cons k r => setupSecond c k r
/-- the entry `[k, v]` -/
def setupSecond (c : Cfg) (k : FVal) : FList → Res Cfg
  | .nil => .ub
  | .cons v _ =>
    match k with
    | .str k => setupValue c k v
    | .arr _ => .exn .rbType
def setupValue (c : Cfg) (k : Str) : FVal → Res Cfg
  | .str s => .ok (c.set k s)
  | .arr l => if firstIsArray l then setupKids c k l else setupStrs k c l
/-- the loop on children (registry.cc:217-222) -/
def setupKids (c : Cfg) (k : Str) : FList → Res Cfg
  | .nil => .ok c
  | .cons v r =>
    match setupKid v with
    | .ok ch => setupKids (c.insertChild k ch) k r
    | x => x
def setupKid : FVal → Res Cfg
  | .str _ => .ub
  | .arr l => setup Cfg.new l
end

/-- what `import` and `export` pass to the plugin (registry.rb:229-231, 280-281) -/
def optionsOf (h : Opts) : Res Cfg := setup Cfg.new (formatOptions h)

/-- `config_set::get<stringlist>` (configset.cc:98-110) -/
def Cfg.strings (c : Cfg) (k : Str) : List Str := (Node.mk c.values []).getStrings k []

/-- `config_set::children(name)` (configset.cc:29-46) -/
def Cfg.kids (c : Cfg) (k : Str) : List Cfg :=
  ((lowerBound c.children k).takeWhile (fun p => !strLt k p.1)).map (·.2)

/-! ### Specification -/

def Opts.keys : Opts → List Str
  | .nil => []
  | .cons k _ r => k :: r.keys

def OptsList.toList : OptsList → List Opts
  | .nil => []
  | .cons h r => h :: r.toList

/-- the strings given under a name -/
def Opts.given : Opts → Str → List Str
  | .nil, _ => []
  | .cons k (.one s) r, n => if k = n then [s] else r.given n
  | .cons k (.many l) r, n => if k = n then l else r.given n
  | .cons k _ r, n => if k = n then [] else r.given n

/-- the hashes given under a name -/
def Opts.sets : Opts → Str → List Opts
  | .nil, _ => []
  | .cons k (.subs l) r, n => if k = n then l.toList else r.sets n
  | .cons k _ r, n => if k = n then [] else r.sets n

mutual
/-- the configuration says what the options say: for each name, the strings in their order, and the sets in their order -/
inductive Matches : Cfg → Opts → Prop
  | mk {c h} (strs : ∀ k, c.strings k = h.given k) (kids : ∀ k, AllMatch (c.kids k) (h.sets k)) : Matches c h
/-- one by one -/
inductive AllMatch : List Cfg → List Opts → Prop
  | nil : AllMatch [] []
  | cons {c h cs hs} : Matches c h → AllMatch cs hs → AllMatch (c :: cs) (h :: hs)
end

mutual
/-- no name is used twice (`:a` and `"a"`) and there is no hash outside an array, at any level -/
def Opts.Ok : Opts → Prop
  | .nil => True
  | .cons k v r => k ∉ r.keys ∧ v.Ok ∧ r.Ok
def OVal.Ok : OVal → Prop
  | .one _ => True
  | .many _ => True
  | .subs l => l.Ok
  | .sub _ => False
def OptsList.Ok : OptsList → Prop
  | .nil => True
  | .cons h r => h.Ok ∧ r.Ok
end

/-! ### Proofs -/

theorem getStrings_eq {v : MMap Str} (h : MMSorted v) (k : Str) : (Node.mk v []).getStrings k [] = vals v k := by
  have hcong : ∀ l : MMap Str, (∀ p ∈ l, strLt p.1 k = false) →
      l.takeWhile (fun p => p.1 == k) = l.takeWhile (fun p => !strLt k p.1) := by
    intro l
    induction l with
    | nil => intro _; rfl
    | cons q r ih =>
      intro h
      have hq := h q (by simp)
      have hr := ih (fun p hp => h p (List.mem_cons_of_mem _ hp))
      rw [List.takeWhile_cons, List.takeWhile_cons, hr]
      by_cases e : q.1 = k
      · have : strLt k q.1 = false := by rw [e, strLt_irrefl]
        simp [e, strLt_irrefl]
      · have : strLt k q.1 = true := strLt_total e hq
        simp [this, e]
  unfold Node.getStrings
  simp only [mhas_iff h k]
  by_cases he : vals v k = []
  · simp [he]
  · have hne : (vals v k).isEmpty = false := by simp [he]
    simp only [hne, Bool.not_false, if_true]
    rw [hcong _ (fun p hp => lowerBound_mem h hp), block h k]
    have : (List.filter (fun p => p.1 == k) v).map (·.2) = vals v k := rfl
    rw [this, if_neg (by simp [he])]

structure Sorted (c : Cfg) : Prop where
  values : MMSorted c.values
  children : MMSorted c.children

theorem Sorted.strings {c : Cfg} (h : Sorted c) (k : Str) : c.strings k = vals c.values k := getStrings_eq h.values k

theorem Sorted.kids {c : Cfg} (h : Sorted c) (k : Str) : c.kids k = vals c.children k := by
  unfold Cfg.kids
  rw [block h.children k]
  rfl

theorem sorted_new : Sorted Cfg.new := ⟨List.Pairwise.nil, List.Pairwise.nil⟩

theorem setupStrs_spec (k : Str) : ∀ (l : List Str) (c : Cfg), Sorted c →
    ∃ c', setupStrs k c (strList l) = .ok c' ∧ Sorted c' ∧ c'.children = c.children ∧
      ∀ n, vals c'.values n = if k = n then vals c.values n ++ l else vals c.values n
  | [], c, h => ⟨c, rfl, h, rfl, fun n => by simp⟩
  | s :: l, c, h => by
    obtain ⟨c', h1, h2, h3, h4⟩ := setupStrs_spec k l (c.insert k s) ⟨sorted_minsert h.values, h.children⟩
    refine ⟨c', h1, h2, h3, fun n => ?_⟩
    rw [h4 n]
    have : (c.insert k s).values = minsert k s c.values := rfl
    rw [this, vals_minsert h.values]
    by_cases e : k = n <;> simp [e]

/-- what one option adds -/
structure Adds (k : Str) (strs : List Str) (sets : List Opts) (c c' : Cfg) : Prop where
  sorted : Sorted c'
  strs : ∀ n, vals c'.values n = if k = n then strs else vals c.values n
  other : ∀ n, k ≠ n → vals c'.children n = vals c.children n
  kids : ∃ new, vals c'.children k = vals c.children k ++ new ∧ AllMatch new sets

def OVal.strs : OVal → List Str
  | .one s => [s]
  | .many l => l
  | _ => []

def OVal.kids : OVal → List Opts
  | .subs l => l.toList
  | _ => []

theorem given_cons (k : Str) (v : OVal) (r : Opts) (n : Str) : (Opts.cons k v r).given n = if k = n then v.strs else r.given n := by
  cases v <;> rfl

theorem sets_cons (k : Str) (v : OVal) (r : Opts) (n : Str) : (Opts.cons k v r).sets n = if k = n then v.kids else r.sets n := by
  cases v <;> rfl

theorem given_of_not_mem : ∀ (h : Opts) {n : Str}, n ∉ h.keys → h.given n = [] ∧ h.sets n = []
  | .nil, n, _ => ⟨rfl, rfl⟩
  | .cons k v r, n, hn => by
    have h1 : k ≠ n := fun e => hn (by simp [Opts.keys, e])
    have := given_of_not_mem r (n := n) (fun e => hn (by simp [Opts.keys, e]))
    rw [given_cons, sets_cons, if_neg h1, if_neg h1]
    exact this

mutual
theorem setup_spec : ∀ (h : Opts), h.Ok → ∀ (c : Cfg), Sorted c → (∀ k ∈ h.keys, vals c.values k = [] ∧ vals c.children k = []) →
    ∃ c', setup c (formatOptions h) = .ok c' ∧ Sorted c' ∧
      (∀ k, k ∉ h.keys → vals c'.values k = vals c.values k ∧ vals c'.children k = vals c.children k) ∧
      ∀ k ∈ h.keys, vals c'.values k = h.given k ∧ AllMatch (vals c'.children k) (h.sets k)
  | .nil, _, c, hc, _ => ⟨c, rfl, hc, fun k _ => ⟨rfl, rfl⟩, fun k hk => by simp [Opts.keys] at hk⟩
  | .cons k v r, hok, c, hc, hfresh => by
    obtain ⟨c1, h1, ha⟩ := value_spec v hok.2.1 k c hc (hfresh k (by simp [Opts.keys])).1
    obtain ⟨new, hnew, hmatch⟩ := ha.kids
    obtain ⟨c2, h2, h3, h4, h5⟩ := setup_spec r hok.2.2 c1 ha.sorted (fun n hn => by
      have hne : k ≠ n := fun e => hok.1 (e ▸ hn)
      rw [ha.strs, if_neg hne, ha.other n hne]
      exact hfresh n (by simp [Opts.keys, hn]))
    refine ⟨c2, ?_, h3, fun n hn => ?_, fun n hn => ?_⟩
    · simp only [formatOptions, pair, setup, setupEntry, setupPair, setupSecond]
      rw [h1]
      exact h2
    · have hne : k ≠ n := fun e => hn (by simp [Opts.keys, e])
      obtain ⟨e1, e2⟩ := h4 n (fun e => hn (by simp [Opts.keys, e]))
      rw [e1, e2, ha.strs, if_neg hne, ha.other n hne]
      exact ⟨rfl, rfl⟩
    · rw [given_cons, sets_cons]
      by_cases e : k = n
      · subst e
        rw [if_pos rfl, if_pos rfl]
        obtain ⟨e1, e2⟩ := h4 k hok.1
        rw [e1, e2, ha.strs, if_pos rfl, hnew, (hfresh k (by simp [Opts.keys])).2]
        exact ⟨rfl, by simpa using hmatch⟩
      · rw [if_neg e, if_neg e]
        refine h5 n ?_
        simp only [Opts.keys, List.mem_cons] at hn
        rcases hn with rfl | hn
        · exact (e rfl).elim
        · exact hn
theorem value_spec : ∀ (v : OVal), v.Ok → ∀ (k : Str) (c : Cfg), Sorted c → vals c.values k = [] →
    ∃ c', setupValue c k (formatValue v) = .ok c' ∧ Adds k v.strs v.kids c c'
  | .one s, _, k, c, hc, hv => by
    refine ⟨c.set k s, rfl, ⟨sorted_minsert (sorted_merase hc.values k), hc.children⟩, fun n => ?_, fun n _ => rfl, [],
      (List.append_nil _).symm, .nil⟩
    have : (c.set k s).values = minsert k s (merase c.values k) := rfl
    rw [this, vals_minsert (sorted_merase hc.values k), vals_merase hc.values]
    by_cases e : k = n <;> simp [e, OVal.strs]
  | .many l, _, k, c, hc, hv => by
    obtain ⟨c', h1, h2, h3, h4⟩ := setupStrs_spec k l c hc
    refine ⟨c', ?_, h2, fun n => ?_, fun n _ => by rw [h3], [], by rw [h3, List.append_nil], .nil⟩
    · simp only [formatValue, setupValue]
      rw [if_neg (by cases l <;> simp [strList, firstIsArray])]
      exact h1
    · rw [h4 n]
      by_cases e : k = n
      · subst e; rw [if_pos rfl, if_pos rfl, hv]; rfl
      · rw [if_neg e, if_neg e]
  | .subs .nil, _, k, c, hc, hv => by
    refine ⟨c, rfl, hc, fun n => ?_, fun n _ => rfl, [], (List.append_nil _).symm, .nil⟩
    by_cases e : k = n
    · subst e; rw [if_pos rfl, hv]; rfl
    · rw [if_neg e]
  | .subs (.cons h r), hok, k, c, hc, hv => by
    obtain ⟨c', h1, h2⟩ := kids_spec (.cons h r) hok k c hc
    refine ⟨c', ?_, h2.1, fun n => ?_, h2.2.2.1, h2.2.2.2⟩
    · simp only [formatValue, setupValue, formatAll, firstIsArray, if_true]
      exact h1
    · rw [h2.2.1]
      by_cases e : k = n
      · subst e; rw [if_pos rfl, hv]; rfl
      · rw [if_neg e]
  | .sub _, hok, _, _, _, _ => hok.elim
theorem kids_spec : ∀ (l : OptsList), l.Ok → ∀ (k : Str) (c : Cfg), Sorted c →
    ∃ c', setupKids c k (formatAll l) = .ok c' ∧ Sorted c' ∧ c'.values = c.values ∧
      (∀ n, k ≠ n → vals c'.children n = vals c.children n) ∧
      ∃ new, vals c'.children k = vals c.children k ++ new ∧ AllMatch new l.toList
  | .nil, _, k, c, hc => ⟨c, rfl, hc, rfl, fun n _ => rfl, [], (List.append_nil _).symm, .nil⟩
  | .cons h r, hok, k, c, hc => by
    obtain ⟨ch, h1, h2, h3, h4⟩ := setup_spec h hok.1 Cfg.new sorted_new (fun n _ => ⟨rfl, rfl⟩)
    have hm : Matches ch h := by
      refine .mk (fun n => ?_) (fun n => ?_)
      · rw [h2.strings]
        by_cases hn : n ∈ h.keys
        · exact (h4 n hn).1
        · rw [(h3 n hn).1, (given_of_not_mem h hn).1]; rfl
      · rw [h2.kids]
        by_cases hn : n ∈ h.keys
        · exact (h4 n hn).2
        · rw [(h3 n hn).2, (given_of_not_mem h hn).2]; exact .nil
    obtain ⟨c', e1, e2, e3, e4, new, e5, e6⟩ := kids_spec r hok.2 k (c.insertChild k ch) ⟨hc.values, sorted_minsert hc.children⟩
    have hch : (c.insertChild k ch).children = minsert k ch c.children := rfl
    refine ⟨c', ?_, e2, e3, fun n hn => ?_, ch :: new, ?_, .cons hm e6⟩
    · simp only [formatAll, setupKids, setupKid]
      rw [h1]
      exact e1
    · rw [e4 n hn, hch, vals_minsert hc.children, if_neg hn]
    · rw [e5, hch, vals_minsert hc.children, if_pos rfl, List.append_assoc]
      rfl
end

/-- **C62**: the plugin gets a configuration that says exactly what the options say, at all levels. -/
theorem C62_options (h : Opts) (hok : h.Ok) : ∃ c, optionsOf h = .ok c ∧ Matches c h := by
  obtain ⟨c, h1, h2, h3, h4⟩ := setup_spec h hok Cfg.new sorted_new (fun n _ => ⟨rfl, rfl⟩)
  refine ⟨c, h1, .mk (fun n => ?_) (fun n => ?_)⟩
  · rw [h2.strings]
    by_cases hn : n ∈ h.keys
    · exact (h4 n hn).1
    · rw [(h3 n hn).1, (given_of_not_mem h hn).1]; rfl
  · rw [h2.kids]
    by_cases hn : n ∈ h.keys
    · exact (h4 n hn).2
    · rw [(h3 n hn).2, (given_of_not_mem h hn).2]; exact .nil

/-! ### Examples and counterexamples -/

/-- `import(file, merge: ..., include: ["/usr", "/opt"], debug: true, rules: [{ name: "a" }, { name: "b", path: [...] }])` -/
def exOpts : Opts :=
  .cons "include".toList (.many ["/usr".toList, "/opt".toList]) (.cons "debug".toList (.one "true".toList)
    (.cons "rules".toList (.subs (.cons (.cons "name".toList (.one "a".toList) .nil)
      (.cons (.cons "name".toList (.one "b".toList) (.cons "path".toList (.many ["x".toList]) .nil)) .nil))) .nil))

example : exOpts.Ok := by
  refine ⟨by decide, trivial, by decide, trivial, by decide, ⟨⟨by decide, trivial, trivial⟩, ⟨by decide, trivial, by decide, trivial, trivial⟩,
    trivial⟩, trivial⟩

example : exOpts.given "include".toList = ["/usr".toList, "/opt".toList] ∧ (exOpts.sets "rules".toList).length = 2 := by decide +kernel

/-- **C62 fails for a hash as the value of an option**: `setup_configset_from_option_array` takes the pairs of the formatted hash for
lists of options and reads its strings as arrays. -/
theorem C62_hash_counterexample (k a v : Str) (r : Opts) (n : Opts) :
    optionsOf (.cons k (.sub (.cons a (.one v) r)) n) = .ub := rfl

/-- **C62 fails for names that are the same as strings**: `{ :a => ["x"], "a" => ["y"] }` gives both values, with single values the
last one wins. -/
theorem C62_same_name_counterexample :
    (∃ c, optionsOf (.cons ['a'] (.many [['x']]) (.cons ['a'] (.many [['y']]) .nil)) = .ok c ∧ c.strings ['a'] = [['x'], ['y']]) ∧
    (∃ c, optionsOf (.cons ['a'] (.one ['x']) (.cons ['a'] (.one ['y']) .nil)) = .ok c ∧ c.strings ['a'] = [['y']]) :=
  ⟨⟨_, rfl, by decide +kernel⟩, ⟨_, rfl, by decide +kernel⟩⟩

end Verif.RubyOptions
