import Verif.StdMap

/-!
C86: the methods that the values of a compound type get for its fields (`Typelib.filter_methods_that_should_not_be_defined`,
bindings/ruby/lib/typelib.rb:115-131; `Type::ALLOWED_OVERLOADINGS`, type.rb:22-28; `subclass_initialize`, `access_method_module`,
`extend_for_custom_convertions` and `custom_convertion_module`, compound_type.rb:172-246, 252-285).
-/

namespace Verif.RubyMethods
open Verif Verif.Registry Verif.StdMap

/-! ### Model -/

/-- `"raw_#{name}"` -/
def raw (n : Str) : Str := 'r' :: 'a' :: 'w' :: '_' :: n

/-- `"#{name}="` -/
def setter (n : Str) : Str := n ++ ['=']

/-- what a method does: something of the library, something of a module the program declared for the type, or an access to a field:
`get(n)`, `set(n, value)`, `raw_get(n)`, `raw_set(n, value)`, or the accessors of converted fields (C67) -/
inductive Meth where
  | base
  | declared
  | get (n : Str)
  | set (n : Str)
  | rawGet (n : Str)
  | rawSet (n : Str)
  | convGet (n : Str)
  | convSet (n : Str)
  deriving DecidableEq, Repr

/-- a compound type: the methods of every object (`obj`), those that `Type` and `CompoundType` define (`own`), those of the modules
declared with `specialize` (`declared`, included by `Type.subclass_initialize`, type.rb:217-219), the fields in order with "contains
converted types" -/
structure Cls where
  obj : Str → Bool
  own : Str → Bool
  declared : Str → Bool
  fields : List (Str × Bool)

/-- `CompoundType.method_defined?(x)` -/
def Cls.base (c : Cls) (x : Str) : Bool := c.own x || c.obj x

/-- `ALLOWED_OVERLOADINGS` (type.rb:23-28): the methods of objects but `class` and those that begin with `__` -/
def Cls.allowed (c : Cls) (x : Str) : Bool := c.obj x && !(x.take 2 == ['_', '_']) && !(x == ['c', 'l', 'a', 's', 's'])

/-- the names that are looked at (typelib.rb:117-120) -/
def candidates (withRaw : Bool) (n : Str) : List Str :=
  if withRaw then [n, setter n, raw n, setter (raw n)] else [n, setter n]

/-- `filter_methods_that_should_not_be_defined` (typelib.rb:115-131), with `method_defined?` -/
def filterNames (c : Cls) (defined : Str → Bool) (withRaw : Bool) (names : List Str) : List Str :=
  names.filter fun n => (candidates withRaw n).all fun x => !defined x || c.allowed x

/-- `sort` of strings -/
def insertName (n : Str) : List Str → List Str
  | [] => [n]
  | m :: r => if strLt m n then m :: insertName n r else n :: m :: r

def sortNames : List Str → List Str
  | [] => []
  | n :: r => insertName n (sortNames r)

/-- a module: `define_method` again replaces -/
def defs : List (Str × Meth) → Str → Option Meth
  | [], _ => none
  | (k, m) :: r, x =>
    match defs r x with
    | some m' => some m'
    | none => if k = x then some m else none

/-- the methods of a field without conversion (compound_type.rb:234-239) -/
def fullMethods (n : Str) : List (Str × Meth) :=
  [(n, .get n), (setter n, .set n), (raw n, .rawGet n), (setter (raw n), .rawSet n)]

/-- those of a converted field (compound_type.rb:240-243) -/
def rawMethods (n : Str) : List (Str × Meth) := [(raw n, .rawGet n), (setter (raw n), .rawSet n)]

/-- those of `custom_convertion_module` (compound_type.rb:176-189) -/
def convMethods (n : Str) : List (Str × Meth) := [(setter n, .convSet n), (n, .convGet n)]

/-- the names of the converted or of the other fields, sorted (compound_type.rb:268-277) -/
def Cls.names (c : Cls) (converted : Bool) : List Str := sortNames ((c.fields.filter (·.2 == converted)).map (·.1))

/-- the module included first (compound_type.rb:279-283) -/
def Cls.access (c : Cls) : List (Str × Meth) :=
  (filterNames c c.base true (c.names false)).flatMap fullMethods ++ (filterNames c c.base false (c.names true)).flatMap rawMethods

/-- `method_defined?` when `extend_for_custom_convertions` is called (from `Type.subclass_initialize`, type.rb:229-231) -/
def Cls.definedThen (c : Cls) (x : Str) : Bool := c.declared x || (defs c.access x).isSome || c.base x

/-- the module included last (compound_type.rb:212-228) -/
def Cls.conv (c : Cls) : List (Str × Meth) := (filterNames c c.definedThen false (c.names true)).flatMap convMethods

/-- the method that is called by a name: the modules included last come first, then the superclass -/
def Cls.call (c : Cls) (x : Str) : Option Meth :=
  match defs c.conv x with
  | some m => some m
  | none =>
    if c.declared x then some .declared
    else
      match defs c.access x with
      | some m => some m
      | none => if c.base x then some .base else none

/-- the methods that `CompoundType` and `Type` define in /repo (compound_type.rb:50-523, type.rb:248-823, value.cc:711-727,
specialized_types.cc:731-732, strings.cc:113), for the examples -/
def compoundMethods : List Str :=
  ["freeze", "invalidate", "freeze_children", "invalidate_children", "set_hash", "set_array", "typelib_initialize", "raw_each_field",
   "each_field", "pretty_print", "has_field?", "[]", "get_field", "raw_get_field", "get", "raw_get", "raw_get_cached", "raw_set_field",
   "raw_set", "set_field", "[]=", "set", "to_simple_value", "cast", "__typelib_parent", "apply_changes_from_converted_types",
   "invalidate_changes_from_converted_types", "dup", "frozen?", "invalidated?", "allocating_operation", "handle_invalidation",
   "handle_invalidation_protect_containers", "from_buffer", "from_buffer_direct", "to_byte_array", "to_ruby", "==", "to_ptr", "to_s",
   "raw_to_s", "to_memory_ptr", "is_a?", "inspect", "to_json_value", "typelib_get_field", "typelib_set_field", "string_handler?",
   "do_from_buffer", "zero!", "memory_eql?", "endian_swap", "endian_swap!", "zone_address", "do_cast", "do_invalidate", "to_csv",
   "do_byte_array", "marshalling_size"].map String.toList

/-- some methods of every Ruby object, for the examples -/
def objectMethods : List Str :=
  ["dup", "freeze", "frozen?", "==", "to_s", "inspect", "is_a?", "class", "send", "__send__", "hash", "extend", "method", "display",
   "instance_variable_get", "instance_variable_set", "pretty_print", "tap"].map String.toList

/-- a compound type of typelib with the given fields -/
def cls (fields : List (Str × Bool)) : Cls :=
  ⟨fun x => objectMethods.contains x, fun x => compoundMethods.contains x, fun _ => false, fields⟩

/-! ### Specification -/

/-- A method the library needs: one of its own or of Ruby's that must not be replaced, as opposed to those every Ruby object has. -/
def Protected (c : Cls) (x : Str) : Prop :=
  (c.own x = true ∨ c.obj x = true) ∧ (c.obj x = false ∨ (∃ r, x = '_' :: '_' :: r) ∨ x = ['c', 'l', 'a', 's', 's'])

/-- The names of the accessors of a field. -/
inductive AccessorName (n : Str) : Str → Prop
  | get : AccessorName n n
  | set : AccessorName n (n ++ ['='])
  | rawGet : AccessorName n (['r', 'a', 'w', '_'] ++ n)
  | rawSet : AccessorName n (['r', 'a', 'w', '_'] ++ n ++ ['='])

/-- What a method does to which field, with the name it must have. -/
inductive Does : Meth → Str → Str → Prop
  | get {n} : Does (.get n) n n
  | convGet {n} : Does (.convGet n) n n
  | set {n} : Does (.set n) n (n ++ ['='])
  | convSet {n} : Does (.convSet n) n (n ++ ['='])
  | rawGet {n} : Does (.rawGet n) n (['r', 'a', 'w', '_'] ++ n)
  | rawSet {n} : Does (.rawSet n) n (['r', 'a', 'w', '_'] ++ n ++ ['='])

/-- No field is called like another with `raw_` in front, no name has an `=`, and no name is used twice. -/
structure Separate (c : Cls) : Prop where
  nodup : (c.fields.map (·.1)).Nodup
  plain : ∀ p ∈ c.fields, '=' ∉ p.1
  noRaw : ∀ p ∈ c.fields, ∀ q ∈ c.fields, p.1 ≠ ['r', 'a', 'w', '_'] ++ q.1

/-! ### Lemmas -/

theorem mem_insertName (n x : Str) : ∀ l, x ∈ insertName n l ↔ x = n ∨ x ∈ l
  | [] => by simp [insertName]
  | m :: r => by
    simp only [insertName]
    split
    · simp only [List.mem_cons, mem_insertName n x r]
      constructor
      · rintro (h | h | h) <;> simp [h]
      · rintro (h | h | h) <;> simp [h]
    · simp

theorem mem_sortNames (x : Str) : ∀ l, x ∈ sortNames l ↔ x ∈ l
  | [] => by simp [sortNames]
  | n :: r => by simp [sortNames, mem_insertName, mem_sortNames x r]

theorem mem_names (c : Cls) (b : Bool) (n : Str) : n ∈ c.names b ↔ (n, b) ∈ c.fields := by
  unfold Cls.names
  rw [mem_sortNames, List.mem_map]
  constructor
  · rintro ⟨p, hp, rfl⟩
    simp only [List.mem_filter, beq_iff_eq] at hp
    obtain ⟨h1, h2⟩ := hp
    rw [← h2]
    exact h1
  · intro h
    exact ⟨(n, b), by simp [h], rfl⟩

theorem mem_filterNames {c : Cls} {d : Str → Bool} {w : Bool} {l : List Str} {n : Str} :
    n ∈ filterNames c d w l ↔ n ∈ l ∧ ∀ x ∈ candidates w n, d x = true → c.allowed x = true := by
  unfold filterNames
  rw [List.mem_filter]
  simp only [List.all_eq_true, Bool.or_eq_true, Bool.not_eq_true']
  constructor
  · rintro ⟨h1, h2⟩
    refine ⟨h1, fun x hx hd => ?_⟩
    rcases h2 x hx with h | h
    · rw [hd] at h; cases h
    · exact h
  · rintro ⟨h1, h2⟩
    refine ⟨h1, fun x hx => ?_⟩
    cases hd : d x with
    | false => exact Or.inl rfl
    | true => exact Or.inr (h2 x hx hd)

/-- a definition of a module is in it -/
theorem defs_mem {l : List (Str × Meth)} {x : Str} {m : Meth} (h : defs l x = some m) : (x, m) ∈ l := by
  induction l with
  | nil => cases h
  | cons p l ih =>
    obtain ⟨k, m'⟩ := p
    unfold defs at h
    cases hd : defs l x with
    | some m'' =>
      rw [hd] at h
      simp only [Option.some.injEq] at h
      subst h
      exact List.mem_cons_of_mem _ (ih hd)
    | none =>
      rw [hd] at h
      simp only at h
      split at h
      · rename_i e
        injection h with h
        subst e; subst h
        exact List.mem_cons_self
      · cases h

theorem defs_isSome {l : List (Str × Meth)} {x : Str} {m : Meth} (h : (x, m) ∈ l) : ∃ m', defs l x = some m' := by
  induction l with
  | nil => cases h
  | cons p l ih =>
    obtain ⟨k, m'⟩ := p
    unfold defs
    cases hd : defs l x with
    | some m'' => exact ⟨m'', rfl⟩
    | none =>
      rcases List.mem_cons.mp h with h | h
      · injection h with h1 h2
        subst h1
        exact ⟨m', by simp⟩
      · obtain ⟨m', hm⟩ := ih h
        rw [hd] at hm
        cases hm

/-- if all definitions of a name agree, that is what is called -/
theorem defs_eq {l : List (Str × Meth)} {x : Str} {m : Meth} (h : (x, m) ∈ l) (hu : ∀ m', (x, m') ∈ l → m' = m) : defs l x = some m := by
  obtain ⟨m', hm⟩ := defs_isSome h
  rw [hm, hu m' (defs_mem hm)]

theorem defs_none {l : List (Str × Meth)} {x : Str} (h : ∀ m, (x, m) ∉ l) : defs l x = none := by
  cases hd : defs l x with
  | none => rfl
  | some m => exact absurd (defs_mem hd) (h m)

theorem mem_access {c : Cls} {x : Str} {m : Meth} : (x, m) ∈ c.access ↔
    (∃ n, n ∈ filterNames c c.base true (c.names false) ∧ (x, m) ∈ fullMethods n) ∨
    (∃ n, n ∈ filterNames c c.base false (c.names true) ∧ (x, m) ∈ rawMethods n) := by
  unfold Cls.access
  simp only [List.mem_append, List.mem_flatMap]

theorem mem_conv {c : Cls} {x : Str} {m : Meth} : (x, m) ∈ c.conv ↔
    ∃ n, n ∈ filterNames c c.definedThen false (c.names true) ∧ (x, m) ∈ convMethods n := by
  unfold Cls.conv
  simp only [List.mem_flatMap]

theorem full_does {n x : Str} {m : Meth} (h : (x, m) ∈ fullMethods n) : Does m n x := by
  simp only [fullMethods, List.mem_cons, Prod.mk.injEq, List.not_mem_nil, or_false] at h
  rcases h with ⟨rfl, rfl⟩ | ⟨rfl, rfl⟩ | ⟨rfl, rfl⟩ | ⟨rfl, rfl⟩
  · exact .get
  · exact .set
  · exact .rawGet
  · exact .rawSet

theorem raw_does {n x : Str} {m : Meth} (h : (x, m) ∈ rawMethods n) : Does m n x := by
  simp only [rawMethods, List.mem_cons, Prod.mk.injEq, List.not_mem_nil, or_false] at h
  rcases h with ⟨rfl, rfl⟩ | ⟨rfl, rfl⟩
  · exact .rawGet
  · exact .rawSet

theorem conv_does {n x : Str} {m : Meth} (h : (x, m) ∈ convMethods n) : Does m n x := by
  simp only [convMethods, List.mem_cons, Prod.mk.injEq, List.not_mem_nil, or_false] at h
  rcases h with ⟨rfl, rfl⟩ | ⟨rfl, rfl⟩
  · exact .convSet
  · exact .convGet

theorem does_name {m : Meth} {n x : Str} (h : Does m n x) : AccessorName n x := by
  cases h <;> constructor

theorem mem_candidates_full {n x : Str} {m : Meth} (h : (x, m) ∈ fullMethods n) : x ∈ candidates true n := by
  simp only [fullMethods, List.mem_cons, Prod.mk.injEq, List.not_mem_nil, or_false] at h
  simp only [candidates, if_true]
  rcases h with ⟨rfl, rfl⟩ | ⟨rfl, rfl⟩ | ⟨rfl, rfl⟩ | ⟨rfl, rfl⟩ <;> simp

theorem mem_candidates_conv {n x : Str} {m : Meth} (h : (x, m) ∈ convMethods n) : x ∈ candidates false n := by
  simp only [convMethods, List.mem_cons, Prod.mk.injEq, List.not_mem_nil, or_false] at h
  simp only [candidates, Bool.false_eq_true, if_false]
  rcases h with ⟨rfl, rfl⟩ | ⟨rfl, rfl⟩ <;> simp

theorem protected_iff (c : Cls) (x : Str) : Protected c x ↔ c.base x = true ∧ c.allowed x = false := by
  unfold Protected Cls.base Cls.allowed
  rw [Bool.or_eq_true]
  refine and_congr_right fun _ => ?_
  constructor
  · rintro (h | ⟨r, rfl⟩ | rfl)
    · simp [h]
    · simp
    · simp
  · intro h
    cases ho : c.obj x with
    | false => exact Or.inl rfl
    | true =>
      right
      by_cases h1 : x = ['c', 'l', 'a', 's', 's']
      · exact Or.inr h1
      · left
        rw [ho] at h
        have hb : (x == ['c', 'l', 'a', 's', 's']) = false := by simpa using h1
        rw [hb] at h
        simp only [Bool.true_and, Bool.not_false, Bool.and_true, Bool.not_eq_false', beq_iff_eq] at h
        match x, h with
        | a :: b :: r, h =>
          simp only [List.take_succ_cons, List.take_zero, List.cons.injEq, and_true] at h
          exact ⟨r, by rw [h.1, h.2]⟩

theorem setter_inj {a b : Str} (h : setter a = setter b) : a = b := List.append_cancel_right h

theorem raw_inj {a b : Str} (h : raw a = raw b) : a = b := by
  simp only [raw, List.cons.injEq, true_and] at h
  exact h

theorem setter_eq (n : Str) : '=' ∈ setter n := by simp [setter]

theorem raw_plain {n : Str} (h : '=' ∉ n) : '=' ∉ raw n := by simp [raw, h]

/-- the four kinds of accessors -/
inductive Slot where
  | get | set | rawGet | rawSet
  deriving DecidableEq

def Slot.name (n : Str) : Slot → Str
  | .get => n
  | .set => setter n
  | .rawGet => raw n
  | .rawSet => setter (raw n)

def slot : Meth → Slot
  | .get _ | .convGet _ => .get
  | .set _ | .convSet _ => .set
  | .rawGet _ => .rawGet
  | .rawSet _ => .rawSet
  | _ => .get

theorem does_slot {m : Meth} {n x : Str} (h : Does m n x) : x = (slot m).name n := by
  cases h <;> rfl

/-- accessors of fields with the same name are of the same field and kind -/
theorem slot_unique {c : Cls} (hs : Separate c) {n n' : Str} {a b : Slot} (hn : ∃ b, (n, b) ∈ c.fields) (hn' : ∃ b, (n', b) ∈ c.fields)
    (h : a.name n = b.name n') : n = n' ∧ a = b := by
  obtain ⟨_, hb⟩ := hn
  obtain ⟨_, hb'⟩ := hn'
  have p : '=' ∉ n := hs.plain _ hb
  have p' : '=' ∉ n' := hs.plain _ hb'
  have r : n ≠ raw n' := hs.noRaw _ hb _ hb'
  have r' : n' ≠ raw n := hs.noRaw _ hb' _ hb
  have q := raw_plain p
  have q' := raw_plain p'
  cases a <;> cases b <;> simp only [Slot.name] at h
  · exact ⟨h, rfl⟩
  · exact absurd (h ▸ setter_eq n') p
  · exact absurd h r
  · exact absurd (h ▸ setter_eq _) p
  · exact absurd (h ▸ setter_eq n) p'
  · exact ⟨setter_inj h, rfl⟩
  · exact absurd (h ▸ setter_eq n) q'
  · exact absurd (setter_inj h) r
  · exact absurd h.symm r'
  · exact absurd (h ▸ setter_eq n') q
  · exact ⟨raw_inj h, rfl⟩
  · exact absurd (h ▸ setter_eq _) q
  · exact absurd (h ▸ setter_eq _) p'
  · exact absurd (setter_inj h).symm r'
  · exact absurd (h ▸ setter_eq _) q'
  · exact ⟨raw_inj (setter_inj h), rfl⟩

theorem access_field {c : Cls} {x : Str} {m : Meth} (h : (x, m) ∈ c.access) : ∃ n b, (n, b) ∈ c.fields ∧ Does m n x := by
  rcases mem_access.mp h with ⟨n, hn, hm⟩ | ⟨n, hn, hm⟩
  · exact ⟨n, false, (mem_names c _ n).mp (mem_filterNames.mp hn).1, full_does hm⟩
  · exact ⟨n, true, (mem_names c _ n).mp (mem_filterNames.mp hn).1, raw_does hm⟩

theorem conv_field {c : Cls} {x : Str} {m : Meth} (h : (x, m) ∈ c.conv) : ∃ n, (n, true) ∈ c.fields ∧ Does m n x := by
  obtain ⟨n, hn, hm⟩ := mem_conv.mp h
  exact ⟨n, (mem_names c _ n).mp (mem_filterNames.mp hn).1, conv_does hm⟩

theorem field_unique {c : Cls} (hs : Separate c) {n : Str} {a b : Bool} (ha : (n, a) ∈ c.fields) (hb : (n, b) ∈ c.fields) : a = b := by
  have : ∀ {l : List (Str × Bool)}, (l.map (·.1)).Nodup → (n, a) ∈ l → (n, b) ∈ l → a = b := by
    intro l
    induction l with
    | nil => intro _ h; cases h
    | cons p l ih =>
      intro hn h h'
      simp only [List.map_cons, List.nodup_cons] at hn
      rcases List.mem_cons.mp h with h | h <;> rcases List.mem_cons.mp h' with h' | h'
      · rw [← h] at h'; injection h' with _ e; exact e.symm
      · exact absurd (List.mem_map.mpr ⟨(n, b), h', by rw [← h]⟩) hn.1
      · exact absurd (List.mem_map.mpr ⟨(n, a), h, by rw [← h']⟩) hn.1
      · exact ih hn.2 h h'
  exact this hs.nodup ha hb

/-- the free names -/
def Free (c : Cls) (x : Str) : Prop := ¬ Protected c x

theorem free_allowed {c : Cls} {x : Str} (h : Free c x) (hb : c.base x = true) : c.allowed x = true := by
  cases ha : c.allowed x with
  | true => rfl
  | false => exact absurd ((protected_iff c x).mpr ⟨hb, ha⟩) h

/-! ### Theorems -/

/-- What a name calls is never confused: a method that accesses a field has the name of that accessor of a field of the type. -/
theorem C86_names (c : Cls) (x : Str) (m : Meth) (h : c.call x = some m) :
    m = .base ∨ m = .declared ∨ ∃ n b, (n, b) ∈ c.fields ∧ Does m n x := by
  unfold Cls.call at h
  cases hc : defs c.conv x with
  | some m' =>
    rw [hc] at h
    injection h with h
    subst h
    obtain ⟨n, hn, hd⟩ := conv_field (defs_mem hc)
    exact Or.inr (Or.inr ⟨n, true, hn, hd⟩)
  | none =>
    rw [hc] at h
    simp only at h
    split at h
    · injection h with h; exact Or.inr (Or.inl h.symm)
    · cases ha : defs c.access x with
      | some m' =>
        rw [ha] at h
        injection h with h
        subst h
        obtain ⟨n, b, hn, hd⟩ := access_field (defs_mem ha)
        exact Or.inr (Or.inr ⟨n, b, hn, hd⟩)
      | none =>
        rw [ha] at h
        simp only at h
        split at h
        · injection h with h; exact Or.inl h.symm
        · cases h

/-- The methods the library needs keep their meaning for all fields, except those called like `raw_` with a converted field. -/
theorem C86_protected_partial (c : Cls) (x : Str) (hp : Protected c x) (hd : c.declared x = false)
    (hr : ∀ n, (n, true) ∈ c.fields → x ≠ ['r', 'a', 'w', '_'] ++ n ∧ x ≠ ['r', 'a', 'w', '_'] ++ n ++ ['=']) :
    c.call x = some .base := by
  obtain ⟨hb, ha⟩ := (protected_iff c x).mp hp
  have h1 : defs c.conv x = none := by
    refine defs_none fun m hm => ?_
    obtain ⟨n, hn, hm⟩ := mem_conv.mp hm
    have := (mem_filterNames.mp hn).2 x (mem_candidates_conv hm) (by unfold Cls.definedThen; simp [hb])
    rw [ha] at this
    cases this
  have h2 : defs c.access x = none := by
    refine defs_none fun m hm => ?_
    rcases mem_access.mp hm with ⟨n, hn, hm⟩ | ⟨n, hn, hm⟩
    · have := (mem_filterNames.mp hn).2 x (mem_candidates_full hm) hb
      rw [ha] at this
      cases this
    · have hf := (mem_names c _ n).mp (mem_filterNames.mp hn).1
      simp only [rawMethods, List.mem_cons, Prod.mk.injEq, List.not_mem_nil, or_false] at hm
      rcases hm with ⟨rfl, _⟩ | ⟨rfl, _⟩
      · exact (hr n hf).1 rfl
      · exact (hr n hf).2 rfl
  unfold Cls.call
  simp [h1, h2, hd, hb]

/-- A field without conversion gets all four accessors, unless one of them would replace a method the library needs: then it gets none. -/
theorem C86_accessors_partial (c : Cls) (hs : Separate c) (n : Str) (hn : (n, false) ∈ c.fields)
    (hd : ∀ x, AccessorName n x → c.declared x = false) :
    ((∀ x, AccessorName n x → ¬ Protected c x) →
      c.call n = some (.get n) ∧ c.call (n ++ ['=']) = some (.set n) ∧ c.call (['r', 'a', 'w', '_'] ++ n) = some (.rawGet n) ∧
      c.call (['r', 'a', 'w', '_'] ++ n ++ ['=']) = some (.rawSet n)) ∧
    ((∃ x, AccessorName n x ∧ Protected c x) → ∀ x m, c.call x = some m → ¬ Does m n x) := by
  have hf : n ∈ c.names false := (mem_names c _ n).mpr hn
  constructor
  · intro hfree
    have hin : n ∈ filterNames c c.base true (c.names false) := by
      refine mem_filterNames.mpr ⟨hf, fun x hx hb => free_allowed (hfree x ?_) hb⟩
      simp only [candidates, if_true, List.mem_cons, List.not_mem_nil, or_false] at hx
      rcases hx with rfl | rfl | rfl | rfl
      · exact .get
      · exact .set
      · exact .rawGet
      · exact .rawSet
    have key : ∀ x m, (x, m) ∈ fullMethods n → c.call x = some m := by
      intro x m hm
      have hdo := full_does hm
      have h1 : defs c.conv x = none := by
        refine defs_none fun m' hm' => ?_
        obtain ⟨n', hn', hd'⟩ := conv_field hm'
        have := (slot_unique hs ⟨_, hn⟩ ⟨_, hn'⟩ ((does_slot hdo).symm.trans (does_slot hd'))).1
        subst this
        cases field_unique hs hn hn'
      have h2 : defs c.access x = some m := by
        refine defs_eq (mem_access.mpr (Or.inl ⟨n, hin, hm⟩)) fun m' hm' => ?_
        rcases mem_access.mp hm' with ⟨n', hn', hm''⟩ | ⟨n', hn', hm''⟩
        · have hf' := (mem_names c _ n').mp (mem_filterNames.mp hn').1
          obtain ⟨e, es⟩ := slot_unique hs ⟨_, hn⟩ ⟨_, hf'⟩ ((does_slot hdo).symm.trans (does_slot (full_does hm'')))
          subst e
          simp only [fullMethods, List.mem_cons, Prod.mk.injEq, List.not_mem_nil, or_false] at hm hm''
          rcases hm with ⟨_, rfl⟩ | ⟨_, rfl⟩ | ⟨_, rfl⟩ | ⟨_, rfl⟩ <;>
            rcases hm'' with ⟨_, rfl⟩ | ⟨_, rfl⟩ | ⟨_, rfl⟩ | ⟨_, rfl⟩ <;> first | rfl | cases es
        · have hf' := (mem_names c _ n').mp (mem_filterNames.mp hn').1
          have := (slot_unique hs ⟨_, hn⟩ ⟨_, hf'⟩ ((does_slot hdo).symm.trans (does_slot (raw_does hm'')))).1
          subst this
          cases field_unique hs hn hf'
      unfold Cls.call
      simp [h1, h2, hd x (does_name hdo)]
    exact ⟨key _ _ (by simp [fullMethods]), key _ _ (by simp [fullMethods, setter]), key _ _ (by simp [fullMethods, raw]),
      key _ _ (by simp [fullMethods, setter, raw])⟩
  · rintro ⟨y, hy, hp⟩ x m hcall hdo
    obtain ⟨hb, ha⟩ := (protected_iff c y).mp hp
    unfold Cls.call at hcall
    cases hc : defs c.conv x with
    | some m' =>
      obtain ⟨n', hn', hd'⟩ := conv_field (defs_mem hc)
      have := (slot_unique hs ⟨_, hn⟩ ⟨_, hn'⟩ ((does_slot hdo).symm.trans (does_slot hd'))).1
      subst this
      cases field_unique hs hn hn'
    | none =>
      rw [hc] at hcall
      simp only [hd x (does_name hdo), Bool.false_eq_true, if_false] at hcall
      cases hac : defs c.access x with
      | some m' =>
        rcases mem_access.mp (defs_mem hac) with ⟨n', hn', hm''⟩ | ⟨n', hn', hm''⟩
        · have hf' := (mem_names c _ n').mp (mem_filterNames.mp hn').1
          have := (slot_unique hs ⟨_, hn⟩ ⟨_, hf'⟩ ((does_slot hdo).symm.trans (does_slot (full_does hm'')))).1
          subst this
          have := (mem_filterNames.mp hn').2 y (by cases hy <;> simp [candidates, raw, setter]) hb
          rw [ha] at this
          cases this
        · have hf' := (mem_names c _ n').mp (mem_filterNames.mp hn').1
          have := (slot_unique hs ⟨_, hn⟩ ⟨_, hf'⟩ ((does_slot hdo).symm.trans (does_slot (raw_does hm'')))).1
          subst this
          cases field_unique hs hn hf'
      | none =>
        rw [hac] at hcall
        simp only at hcall
        split at hcall
        · injection hcall with e; subst e; cases hdo
        · cases hcall

/-- A converted field gets the accessors of its Ruby object, and those of the typelib value, if its name and the setter are free. -/
theorem C86_converted_partial (c : Cls) (hs : Separate c) (n : Str) (hn : (n, true) ∈ c.fields)
    (hd : ∀ x, AccessorName n x → c.declared x = false) (h1 : ¬ Protected c n) (h2 : ¬ Protected c (n ++ ['='])) :
    c.call n = some (.convGet n) ∧ c.call (n ++ ['=']) = some (.convSet n) ∧ c.call (['r', 'a', 'w', '_'] ++ n) = some (.rawGet n) ∧
      c.call (['r', 'a', 'w', '_'] ++ n ++ ['=']) = some (.rawSet n) := by
  have hf : n ∈ c.names true := (mem_names c _ n).mpr hn
  have hin : n ∈ filterNames c c.base false (c.names true) := by
    refine mem_filterNames.mpr ⟨hf, fun x hx hb => ?_⟩
    simp only [candidates, Bool.false_eq_true, if_false, List.mem_cons, List.not_mem_nil, or_false] at hx
    rcases hx with rfl | rfl
    · exact free_allowed h1 hb
    · exact free_allowed h2 hb
  -- in the first module, only the raw accessors are those of this field
  have hacc : ∀ x m, AccessorName n x → (x, m) ∈ c.access → (x, m) ∈ rawMethods n := by
    intro x m hx hm
    have hslot : ∃ a : Slot, x = a.name n := by
      cases hx
      · exact ⟨.get, rfl⟩
      · exact ⟨.set, rfl⟩
      · exact ⟨.rawGet, rfl⟩
      · exact ⟨.rawSet, rfl⟩
    obtain ⟨a, hxa⟩ := hslot
    rcases mem_access.mp hm with ⟨n', hn', hm'⟩ | ⟨n', hn', hm'⟩
    · have hf' := (mem_names c _ n').mp (mem_filterNames.mp hn').1
      have := (slot_unique hs ⟨_, hn⟩ ⟨_, hf'⟩ (hxa.symm.trans (does_slot (full_does hm')))).1
      subst this
      cases field_unique hs hn hf'
    · have hf' := (mem_names c _ n').mp (mem_filterNames.mp hn').1
      have := (slot_unique hs ⟨_, hn⟩ ⟨_, hf'⟩ (hxa.symm.trans (does_slot (raw_does hm')))).1
      subst this
      exact hm'
  have hneget : ∀ {x : Str}, (x = n ∨ x = setter n) → defs c.access x = none := by
    intro x hx
    refine defs_none fun m hm => ?_
    have hsl : ∃ a : Slot, (a = .get ∨ a = .set) ∧ x = a.name n := by
      rcases hx with rfl | rfl
      · exact ⟨.get, Or.inl rfl, rfl⟩
      · exact ⟨.set, Or.inr rfl, rfl⟩
    obtain ⟨a, ha, hxa⟩ := hsl
    have hm' := hacc x m (by rcases hx with rfl | rfl; exact .get; exact .set) hm
    have hd' := raw_does hm'
    have es := (slot_unique hs ⟨_, hn⟩ ⟨_, hn⟩ (hxa.symm.trans (does_slot hd'))).2
    simp only [rawMethods, List.mem_cons, Prod.mk.injEq, List.not_mem_nil, or_false] at hm'
    rcases ha with rfl | rfl <;> rcases hm' with ⟨_, rfl⟩ | ⟨_, rfl⟩ <;> cases es
  have hinc : n ∈ filterNames c c.definedThen false (c.names true) := by
    refine mem_filterNames.mpr ⟨hf, fun x hx hb => ?_⟩
    simp only [candidates, Bool.false_eq_true, if_false, List.mem_cons, List.not_mem_nil, or_false] at hx
    have hno := hneget hx
    unfold Cls.definedThen at hb
    have hdec : c.declared x = false := hd x (by rcases hx with rfl | rfl; exact .get; exact .set)
    rw [hno, hdec] at hb
    simp only [Option.isSome_none, Bool.or_false, Bool.false_or] at hb
    rcases hx with rfl | rfl
    · exact free_allowed h1 hb
    · exact free_allowed h2 hb
  have keyc : ∀ x m, (x, m) ∈ convMethods n → c.call x = some m := by
    intro x m hm
    have hdo := conv_does hm
    have : defs c.conv x = some m := by
      refine defs_eq (mem_conv.mpr ⟨n, hinc, hm⟩) fun m' hm' => ?_
      obtain ⟨n', hn', hm''⟩ := mem_conv.mp hm'
      have hf' := (mem_names c _ n').mp (mem_filterNames.mp hn').1
      obtain ⟨e, es⟩ := slot_unique hs ⟨_, hn⟩ ⟨_, hf'⟩ ((does_slot hdo).symm.trans (does_slot (conv_does hm'')))
      subst e
      simp only [convMethods, List.mem_cons, Prod.mk.injEq, List.not_mem_nil, or_false] at hm hm''
      rcases hm with ⟨_, rfl⟩ | ⟨_, rfl⟩ <;> rcases hm'' with ⟨_, rfl⟩ | ⟨_, rfl⟩ <;> first | rfl | cases es
    unfold Cls.call
    rw [this]
  have keyr : ∀ x m, (x, m) ∈ rawMethods n → c.call x = some m := by
    intro x m hm
    have hdo := raw_does hm
    have hc : defs c.conv x = none := by
      refine defs_none fun m' hm' => ?_
      obtain ⟨n', hn', hm''⟩ := mem_conv.mp hm'
      have hf' := (mem_names c _ n').mp (mem_filterNames.mp hn').1
      obtain ⟨e, es⟩ := slot_unique hs ⟨_, hn⟩ ⟨_, hf'⟩ ((does_slot hdo).symm.trans (does_slot (conv_does hm'')))
      subst e
      simp only [rawMethods, convMethods, List.mem_cons, Prod.mk.injEq, List.not_mem_nil, or_false] at hm hm''
      rcases hm with ⟨_, rfl⟩ | ⟨_, rfl⟩ <;> rcases hm'' with ⟨_, rfl⟩ | ⟨_, rfl⟩ <;> cases es
    have ha : defs c.access x = some m := by
      refine defs_eq (mem_access.mpr (Or.inr ⟨n, hin, hm⟩)) fun m' hm' => ?_
      have hm'' := hacc x m' (does_name hdo) hm'
      have es := (slot_unique hs ⟨_, hn⟩ ⟨_, hn⟩ ((does_slot hdo).symm.trans (does_slot (raw_does hm'')))).2
      simp only [rawMethods, List.mem_cons, Prod.mk.injEq, List.not_mem_nil, or_false] at hm hm''
      rcases hm with ⟨_, rfl⟩ | ⟨_, rfl⟩ <;> rcases hm'' with ⟨_, rfl⟩ | ⟨_, rfl⟩ <;> first | rfl | cases es
    unfold Cls.call
    simp [hc, ha, hd x (does_name hdo)]
  exact ⟨keyc _ _ (by simp [convMethods]), keyc _ _ (by simp [convMethods, setter]), keyr _ _ (by simp [rawMethods, raw]),
    keyr _ _ (by simp [rawMethods, setter, raw])⟩

/-! ### Counterexamples -/

/-- A structure with fields `x` and `raw_x`, for every name `x` after `raw_` in the alphabet: `value.raw_x` and `value.raw_x = …` mean
the field `x`, and the field `raw_x` has no accessor. -/
theorem C86_raw_counterexample (c : Cls) (n : Str) (hf : c.fields = [(n, false), (['r', 'a', 'w', '_'] ++ n, false)])
    (hlt : strLt (['r', 'a', 'w', '_'] ++ n) n = true) (hfree : ∀ f ∈ c.fields, ∀ x, AccessorName f.1 x → ¬ Protected c x)
    (hd : ∀ x, c.declared x = false) :
    c.call (['r', 'a', 'w', '_'] ++ n) = some (.rawGet n) ∧ c.call (['r', 'a', 'w', '_'] ++ n ++ ['=']) = some (.rawSet n) := by
  have hne : n ≠ raw n := fun e => by have := congrArg List.length e; simp [raw] at this; omega
  have hlt' : strLt n (raw n) = false := by
    cases h : strLt n (raw n) with
    | false => rfl
    | true =>
      have := strLt_trans h hlt
      rw [strLt_irrefl] at this
      cases this
  have hnames : c.names false = [raw n, n] := by
    unfold Cls.names
    rw [hf]
    simp only [List.filter_cons, beq_self_eq_true, if_true, List.filter_nil, List.map_cons, List.map_nil, sortNames, insertName]
    rw [if_pos hlt]
    rfl
  have hnamest : c.names true = [] := by
    unfold Cls.names
    rw [hf]
    rfl
  have hm : ∀ m, m ∈ [raw n, n] → ∀ x ∈ candidates true m, c.base x = true → c.allowed x = true := by
    intro m hm x hx hb
    rw [hf] at hfree
    refine free_allowed (hfree (m, false) ?_ x ?_) hb
    · simp only [List.mem_cons, List.not_mem_nil, or_false] at hm
      rcases hm with rfl | rfl <;> simp [raw]
    · simp only [candidates, if_true, List.mem_cons, List.not_mem_nil, or_false] at hx
      rcases hx with rfl | rfl | rfl | rfl
      · exact .get
      · exact .set
      · exact .rawGet
      · exact .rawSet
  have hfil : filterNames c c.base true [raw n, n] = [raw n, n] := by
    unfold filterNames
    rw [List.filter_eq_self]
    intro m hm'
    rw [List.all_eq_true]
    intro x hx
    cases hb : c.base x with
    | false => rfl
    | true => simp [hm m hm' x hx hb]
  have hacc : c.access = fullMethods (raw n) ++ fullMethods n := by
    unfold Cls.access
    rw [hnames, hnamest, hfil]
    simp [filterNames]
  have hconv : c.conv = [] := by
    unfold Cls.conv
    rw [hnamest]
    rfl
  have n1 : n ≠ setter n := fun e => by have := congrArg List.length e; simp [setter] at this
  have n2 : setter n ≠ raw n := fun e => by have := congrArg List.length e; simp [raw, setter] at this
  have n3 : raw n ≠ setter (raw n) := fun e => by have := congrArg List.length e; simp [setter] at this
  constructor
  · show c.call (raw n) = _
    unfold Cls.call
    simp only [hconv, defs, hd, hacc, fullMethods, List.cons_append, List.nil_append, n3.symm, if_false, if_true, Bool.false_eq_true]
  · show c.call (setter (raw n)) = _
    unfold Cls.call
    simp only [hconv, defs, hd, hacc, fullMethods, List.cons_append, List.nil_append, if_true, if_false, Bool.false_eq_true]

/-- A field called like a method that every Ruby object has replaces that method, also where the library defines it anew: for every such
name, `value.dup`, `value.freeze`, `value.hash`, … are the field. -/
theorem C86_overload_counterexample (c : Cls) (n : Str) (hf : c.fields = [(n, false)]) (hp : '=' ∉ n) (hn : c.allowed n = true)
    (hfree : ∀ x, AccessorName n x → x ≠ n → c.base x = false) (hd : ∀ x, c.declared x = false) : c.call n = some (.get n) := by
  have hs : Separate c := by
    constructor
    · rw [hf]; simp
    · intro p h; rw [hf] at h; simp only [List.mem_singleton] at h; subst h; exact hp
    · intro p h q h'
      rw [hf] at h h'
      simp only [List.mem_singleton] at h h'
      subst h; subst h'
      exact fun e => by have := congrArg List.length e; simp at this; omega
  refine ((C86_accessors_partial c hs n (by rw [hf]; simp) (fun x _ => hd x)).1 fun x hx hpr => ?_).1
  obtain ⟨hb, ha⟩ := (protected_iff c x).mp hpr
  by_cases e : x = n
  · subst e; rw [hn] at ha; cases ha
  · rw [hfree x hx e] at hb; cases hb

/-- A converted field called `get_cached` replaces the method `raw_get_cached` of the library (used when values are invalidated): the
methods with `raw_` of converted fields are not checked. -/
theorem C86_protected_counterexample :
    Protected (cls [("get_cached".toList, true)]) "raw_get_cached".toList ∧
    (cls [("get_cached".toList, true)]).call "raw_get_cached".toList = some (.rawGet "get_cached".toList) := by
  refine ⟨(protected_iff _ _).mpr ?_, ?_⟩ <;> decide +kernel

/-! ### Examples -/

example : (cls [("x".toList, false), ("raw_x".toList, false)]).call "raw_x".toList = some (.rawGet "x".toList) ∧
    (cls [("dup".toList, false)]).call "dup".toList = some (.get "dup".toList) ∧
    (cls [("get".toList, false)]).call "get".toList = some .base ∧
    (cls [("class".toList, false)]).call "class".toList = some .base ∧
    (cls [("time".toList, true), ("x".toList, false)]).call "time".toList = some (.convGet "time".toList) ∧
    (cls [("time".toList, true), ("x".toList, false)]).call "raw_x=".toList = some (.rawSet "x".toList) ∧
    (cls [("time".toList, true), ("x".toList, false)]).call "y".toList = none := by decide +kernel

/-- a type that meets the hypotheses of the theorems -/
def sample : Cls := cls [("time".toList, true), ("x".toList, false), ("get".toList, false)]

theorem sample_separate : Separate sample := by
  refine ⟨?_, ?_, ?_⟩ <;> decide +kernel

theorem names_of {n x : Str} (h : AccessorName n x) : x ∈ [n, n ++ ['='], ['r', 'a', 'w', '_'] ++ n, ['r', 'a', 'w', '_'] ++ n ++ ['=']] := by
  cases h <;> simp

example := (C86_accessors_partial sample sample_separate "x".toList (by decide +kernel) (fun _ _ => rfl)).1 (by
  intro x hx hp
  have hm := names_of hx
  have := (protected_iff _ _).mp hp
  have hb : ∀ y ∈ ["x".toList, "x".toList ++ ['='], ['r', 'a', 'w', '_'] ++ "x".toList, ['r', 'a', 'w', '_'] ++ "x".toList ++ ['=']],
    sample.base y = false := by decide +kernel
  rw [hb x hm] at this
  cases this.1)

example := (C86_accessors_partial sample sample_separate "get".toList (by decide +kernel) (fun _ _ => rfl)).2
  ⟨_, .get, (protected_iff _ _).mpr (by decide +kernel)⟩

example := C86_converted_partial sample sample_separate "time".toList (by decide +kernel) (fun _ _ => rfl)
  (fun h => absurd ((protected_iff _ _).mp h).1 (by decide +kernel)) (fun h => absurd ((protected_iff _ _).mp h).1 (by decide +kernel))

example : sample.call "to_byte_array".toList = some .base :=
  C86_protected_partial sample _ ((protected_iff _ _).mpr (by decide +kernel)) rfl (by
    intro n hn
    have : n = "time".toList := by
      simp only [sample, cls, List.mem_cons, Prod.mk.injEq, Bool.true_eq_false, and_false, List.not_mem_nil, or_false, and_true] at hn
      exact hn
    subst this
    decide +kernel)

theorem free_of {c : Cls} {n : Str}
    (h : ∀ x ∈ [n, n ++ ['='], ['r', 'a', 'w', '_'] ++ n, ['r', 'a', 'w', '_'] ++ n ++ ['=']], c.base x = false) :
    ∀ x, AccessorName n x → ¬ Protected c x := by
  intro x hx hp
  have := ((protected_iff _ _).mp hp).1
  rw [h x (names_of hx)] at this
  cases this

example := C86_raw_counterexample (cls [("x".toList, false), (['r', 'a', 'w', '_'] ++ "x".toList, false)]) "x".toList rfl
  (by decide +kernel) (by
    intro f hf
    simp only [cls, List.mem_cons, List.not_mem_nil, or_false] at hf
    rcases hf with rfl | rfl <;> exact free_of (by decide +kernel)) (fun _ => rfl)

example := C86_overload_counterexample (cls [("dup".toList, false)]) "dup".toList rfl (by decide +kernel) (by decide +kernel) (by
  intro x hx hne
  have hb : ∀ y ∈ ["dup".toList, "dup".toList ++ ['='], ['r', 'a', 'w', '_'] ++ "dup".toList, ['r', 'a', 'w', '_'] ++ "dup".toList ++ ['=']],
    y = "dup".toList ∨ (cls [("dup".toList, false)]).base y = false := by decide +kernel
  exact (hb x (names_of hx)).resolve_left hne) (fun _ => rfl)

example := C86_names sample "x".toList (.get "x".toList) (by decide +kernel)

end Verif.RubyMethods
