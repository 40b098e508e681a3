import Verif.LayoutGraph

/-!
C68: Ruby customizations of types (bindings/ruby/lib/typelib/specializations.rb) and the classes that represent types in Ruby
(bindings/ruby/ext/value.cc:106-132 `type_wrap`, the `subclass_initialize` and `extend_for_custom_convertions` methods).
-/

namespace Verif.RubyCustom
open Verif Verif.Graph Verif.LayoutGraph

/-! ### Model: RubyMappingCustomization (specializations.rb:22-138) -/

/-- the key of a declaration: a string, or a regexp (a name for it) -/
inductive Key where
  | str (s : Str)
  | regexp (r : Nat)
  deriving DecidableEq

/-- a registered object with its `:if` block -/
structure Entry (α : Type) where
  cond : TId → Bool
  value : α

/-- a Ruby `Hash`: pairs in insertion order -/
abbrev RHash (κ β : Type) := List (κ × β)

section
variable {κ β : Type} [DecidableEq κ]

/-- `hash[key]` -/
def hget : RHash κ β → κ → Option β
  | [], _ => none
  | (k, v) :: h, x => if k = x then some v else hget h x

/-- `hash[key] = value`: the key keeps its place -/
def hput : RHash κ β → κ → β → RHash κ β
  | [], x, w => [(x, w)]
  | (k, v) :: h, x, w => if k = x then (k, w) :: h else (k, v) :: hput h x w

end

/-- `RubyMappingCustomization` (specializations.rb:22-47) with a container: the four hashes
(`set`, specializations.rb:73-78, is never called and is left out) -/
structure Mapping (α : Type) where
  typename : RHash Str (List (Entry α))
  arrays : RHash Str (List (Entry α))
  containers : RHash Str (List (Entry α))
  regexps : RHash Nat (List (Entry α))

def Mapping.new {α : Type} : Mapping α := ⟨[], [], [], []⟩

/-- the two last characters, nil if there are less (`key[-2, 2]`) -/
def suffix2 (s : Str) : Option Str := if s.length < 2 then none else some (s.drop (s.length - 2))

/-- `key[0..-3]` -/
def chop2 (s : Str) : Str := s.take (s.length - 2)

/-- the hash of a key (`mapping_for_key`, specializations.rb:52-66) -/
inductive Slot where
  | container (s : Str)
  | array (s : Str)
  | name (s : Str)
  | regexp (r : Nat)
  deriving DecidableEq

def slotOf : Key → Slot
  | .str s =>
    if suffix2 s = some "<>".toList then .container (chop2 s)
    else if suffix2 s = some "[]".toList then .array (chop2 s)
    else .name s
  | .regexp r => .regexp r

/-- `add` (specializations.rb:89-97): `set = (set[key] ||= container.dup); set << [options, value]` -/
def Mapping.add {α : Type} (m : Mapping α) (k : Key) (e : Entry α) : Mapping α :=
  match slotOf k with
  | .container s => { m with containers := hput m.containers s ((hget m.containers s).getD [] ++ [e]) }
  | .array s => { m with arrays := hput m.arrays s ((hget m.arrays s).getD [] ++ [e]) }
  | .name s => { m with typename := hput m.typename s ((hget m.typename s).getD [] ++ [e]) }
  | .regexp r => { m with regexps := hput m.regexps r ((hget m.regexps r).getD [] ++ [e]) }

/-- `ContainerType.container_kind` (specialized_types.cc:403-409, containers.cc:20, 392) -/
def containerKind : Kind → Option Str
  | .vec _ => some "/std/vector".toList
  | .str _ => some "/std/string".toList
  | _ => none

/-- the first part of `find_all` (specializations.rb:117-125) -/
def genericEntries {α : Type} (H : Heap) (m : Mapping α) (t : TId) : List (Entry α) :=
  match containerKind (H.kind t) with
  | some k => (hget m.containers k).getD []
  | none =>
    match H.kind t with
    | .arr _ e => (hget m.arrays (H.name e)).getD []
    | _ => []

/-- `find_all` (specializations.rb:113-138); `rx r name` is `matcher === name` -/
def Mapping.findAll {α : Type} (H : Heap) (rx : Nat → Str → Bool) (m : Mapping α) (t : TId) : List α :=
  ((genericEntries H m t ++ (hget m.typename (H.name t)).getD [] ++
    m.regexps.flatMap (fun p => if rx p.1 (H.name t) then p.2 else [])).filter (fun e => e.cond t)).map (·.value)

/-! ### Model: the classes of the types -/

/-- Ruby classes that values are converted to or from -/
inductive RClass where
  | array | hash | deepCopyArray | numeric | float
  | other (n : Nat)
  deriving DecidableEq

/-- conversion blocks: those of a declaration, and the default ones -/
inductive Block where
  | user (n : Nat)
  /-- array_type.rb:131-139 -/
  | arrayToRuby
  /-- array_type.rb:107-117 -/
  | arrayFromRuby
  /-- container_type.rb:216-223 -/
  | containerToRuby
  /-- container_type.rb:192-201 -/
  | containerFromRuby
  /-- compound_type.rb:288-292 -/
  | compoundFromHash
  /-- compound_type.rb:296-300 -/
  | compoundFromArray
  deriving DecidableEq

/-- `convertion_to_ruby` (type.rb:202-203) -/
structure ToRuby where
  to : Option RClass
  builtin : Bool
  deriving DecidableEq

/-- A class made by `type_wrap`: the modules it is extended with, the modules it includes, `convertions_from_ruby`,
`convertion_to_ruby`, the `to_ruby` method put on it by `convert_to_ruby` (the last `extend` wins), `contains_converted_types?`,
and, for containers, whether `ConvertToRuby` and `ConvertFromRuby` are included. -/
structure Cls where
  extended : List Nat
  included : List Nat
  froms : RHash RClass Block
  conv : Option ToRuby
  toRuby : Option Block
  contains : Bool
  elementTo : Bool
  elementFrom : Bool
  deriving DecidableEq

/-- a class before `subclass_initialize` -/
def Cls.blank : Cls := ⟨[], [], [], none, none, false, false, false⟩

/-- the declarations known to the `Typelib` module (specializations.rb:141-144) -/
structure Cust where
  models : Mapping Nat
  values : Mapping Nat
  froms : Mapping (RClass × Nat)
  tos : Mapping (Option RClass × Nat)

def Cust.new : Cust := ⟨.new, .new, .new, .new⟩

/-- `Type.convert_to_ruby` with a block (type.rb:184-204), `recursive: true` -/
def Cls.convertTo (c : Cls) (to : Option RClass) (b : Block) : Cls :=
  { c with
    toRuby := some b
    contains := true
    conv := some ⟨to, false⟩ }

/-- `convert_to_ruby(to, recursive: false, builtin: true)` (numeric_type.rb:7-13) -/
def Cls.builtin (c : Cls) (to : RClass) : Cls :=
  { c with
    contains := false
    conv := some ⟨some to, true⟩ }

/-- `Type.convert_from_ruby` (type.rb:208-210) -/
def Cls.convertFrom (c : Cls) (k : RClass) (b : Block) : Cls := { c with froms := hput c.froms k b }

/-- `Type.subclass_initialize` up to `extend_for_custom_convertions` (type.rb:213-228); `find(self, false)` is the first of
`find_all` -/
def typeInit (H : Heap) (rx : Nat → Str → Bool) (cu : Cust) (t : TId) (c : Cls) : Cls :=
  let c := { c with
    extended := c.extended ++ cu.models.findAll H rx t
    included := c.included ++ cu.values.findAll H rx t }
  let c := (cu.froms.findAll H rx t).foldl (fun c p => c.convertFrom p.1 (.user p.2)) c
  match (cu.tos.findAll H rx t).head? with
  | some p => c.convertTo p.1 (.user p.2)
  | none => c

/-- `needs_convertion_to_ruby?` (type.rb:57-59) -/
def Cls.needsTo (c : Cls) : Bool :=
  match c.conv with
  | some x => !x.builtin
  | none => false

/-- `needs_convertion_from_ruby?` (type.rb:65-67) -/
def Cls.needsFrom (c : Cls) : Bool := !c.froms.isEmpty

/-- `ArrayType.extend_for_custom_convertions` (array_type.rb:120-146) then the rest of `ArrayType.subclass_initialize` (107-118) -/
def arrayInit (e : Cls) (c : Cls) : Cls :=
  let c := if e.contains then c.convertTo (some .array) .arrayToRuby else c
  c.convertFrom .array .arrayFromRuby

/-- `ContainerType.extend_for_custom_convertions` (container_type.rb:204-236) then the rest of `ContainerType.subclass_initialize`
(185-202; the `RandomAccessContainer` module is left out) -/
def containerInit (e : Cls) (c : Cls) : Cls :=
  let c := if e.contains then c.convertTo (some .array) .containerToRuby else c
  let c := { c with
    elementTo := e.needsTo
    elementFrom := e.needsFrom }
  (c.convertFrom .array .containerFromRuby).convertFrom .deepCopyArray .containerFromRuby

/-- `CompoundType.extend_for_custom_convertions` (compound_type.rb:215-231, without the methods of the converted fields, C67) then the rest
of `CompoundType.subclass_initialize` (285-302) -/
def compoundInit (converted : Bool) (c : Cls) : Cls :=
  let c := if converted then { c with contains := true } else c
  let c := if (hget c.froms .hash).isNone then c.convertFrom .hash .compoundFromHash else c
  if (hget c.froms .array).isNone then c.convertFrom .array .compoundFromArray else c

/-- `NumericType.subclass_initialize` (numeric_type.rb:4-14) after `super` -/
def numericInit (cat : NumCat) (c : Cls) : Cls :=
  match cat with
  | .float => c.builtin .float
  | _ => c.builtin .numeric

/-- the class that `subclass_initialize` gives, once the classes of the elements and fields exist -/
def classOf (H : Heap) (rx : Nat → Str → Bool) (cu : Cust) (cls : TId → Cls) (t : TId) : Cls :=
  let c := typeInit H rx cu t .blank
  match H.kind t with
  | .arr _ e => arrayInit (cls e) c
  | .vec e => containerInit (cls e) c
  | .str e => containerInit (cls e) c
  | .comp fs => compoundInit (fs.any fun f => (cls f.ty).contains) c
  | .num cat => numericInit cat c
  | _ => c

/-- the declarations and the wrappers of the registry (`RbRegistry::wrappers`) -/
structure St where
  cust : Cust
  classes : TId → Option Cls

def St.new : St := ⟨.new, fun _ => none⟩

def St.cls (s : St) (t : TId) : Cls := (s.classes t).getD .blank

def St.insert (s : St) (t : TId) (c : Cls) : St := { s with classes := fun u => if u = t then some c else s.classes u }

/-- `get_fields` (specialized_types.cc:16-42): the classes of the fields are made one after the other -/
def wrapFields (rec : St → TId → Res St) : St → List FieldD → Res St
  | s, [] => .ok s
  | s, f :: fs => rec s f.ty >>= fun s => wrapFields rec s fs

/-- `type_wrap` (value.cc:106-132): the class is put in the map when it is complete. The classes of elements are made by `deference`
(specialized_types.cc:385-395) in `find_all` (arrays) or `extend_for_custom_convertions`; here before the rest, which does not make a
difference. -/
def wrap (H : Heap) (rx : Nat → Str → Bool) : Nat → St → TId → Res St
  | 0, _, _ => .fuel
  | f + 1, s, t =>
    if (s.classes t).isSome then .ok s
    else
      let parts : Res St :=
        match H.kind t with
        | .arr _ e => wrap H rx f s e
        | .vec e => wrap H rx f s e
        | .str e => wrap H rx f s e
        | .comp fs => wrapFields (wrap H rx f) s fs
        | _ => .ok s
      parts >>= fun s => .ok (s.insert t (classOf H rx s.cust s.cls t))

/-- calls of the API -/
inductive Op where
  /-- `Typelib.specialize_model(key, if: cond) { … }` (specializations.rb:224-227) -/
  | specializeModel (k : Key) (cond : TId → Bool) (m : Nat)
  /-- `Typelib.specialize(key, if: cond) { … }` (specializations.rb:252-255) -/
  | specialize (k : Key) (cond : TId → Bool) (m : Nat)
  /-- `Typelib.convert_from_ruby(cls, key, if: cond) { … }` (specializations.rb:340-347) -/
  | convertFrom (cls : RClass) (k : Key) (cond : TId → Bool) (b : Nat)
  /-- `Typelib.convert_to_ruby(key, cls, if: cond) { … }` (specializations.rb:303-312) -/
  | convertTo (k : Key) (cls : Option RClass) (cond : TId → Bool) (b : Nat)
  /-- `Typelib.convert_to_ruby(key, if: cond) { … }`: the options are the second argument -/
  | convertToOpts (k : Key) (cond : TId → Bool) (b : Nat)
  /-- the class of the type is needed, e.g. `registry.get` -/
  | wrap (t : TId)

def step (H : Heap) (rx : Nat → Str → Bool) (fuel : Nat) (s : St) : Op → Res St
  | .specializeModel k c m => .ok { s with cust := { s.cust with models := s.cust.models.add k ⟨c, m⟩ } }
  | .specialize k c m => .ok { s with cust := { s.cust with values := s.cust.values.add k ⟨c, m⟩ } }
  | .convertFrom cls k c b => .ok { s with cust := { s.cust with froms := s.cust.froms.add k ⟨c, (cls, b)⟩ } }
  | .convertTo k cls c b => .ok { s with cust := { s.cust with tos := s.cust.tos.add k ⟨c, (cls, b)⟩ } }
  -- specializations.rb:304-306: `ruby_class, options = nil, options` where the hash is in `ruby_class` and `options` is the empty default
  | .convertToOpts k _ b => .ok { s with cust := { s.cust with tos := s.cust.tos.add k ⟨fun _ => true, (none, b)⟩ } }
  | .wrap t => wrap H rx fuel s t

def run (H : Heap) (rx : Nat → Str → Bool) (fuel : Nat) : St → List Op → Res St
  | s, [] => .ok s
  | s, o :: os => step H rx fuel s o >>= fun s => run H rx fuel s os

/-! ### Specification -/

/-- a declaration -/
structure Decl (α : Type) where
  key : Key
  cond : TId → Bool
  value : α

/-- the key designates all the types of a kind: all `std::vector`s for `/std/vector<>`, `std::string` for `/std/string<>`, the arrays
of an element for `element[]` -/
def Key.Generic (H : Heap) (k : Key) (t : TId) : Prop :=
  (∃ e, H.kind t = .vec e ∧ k = .str "/std/vector<>".toList) ∨ (∃ e, H.kind t = .str e ∧ k = .str "/std/string<>".toList) ∨
  (∃ d e, H.kind t = .arr d e ∧ k = .str (H.name e ++ "[]".toList))

theorem Key.generic_iff (H : Heap) (k : Key) (t : TId) : k.Generic H t ↔
    (∃ kind, containerKind (H.kind t) = some kind ∧ k = .str (kind ++ "<>".toList)) ∨
    (∃ d e, H.kind t = .arr d e ∧ k = .str (H.name e ++ "[]".toList)) := by
  unfold Key.Generic
  cases hk : H.kind t with
  | vec e =>
    have e0 : "/std/vector<>".toList = "/std/vector".toList ++ "<>".toList := by decide
    rw [e0]
    constructor
    · rintro (⟨_, _, h⟩ | ⟨_, h, _⟩ | ⟨_, _, h, _⟩)
      · exact .inl ⟨_, rfl, h⟩
      · cases h
      · cases h
    · rintro (⟨_, h, h'⟩ | ⟨_, _, h, _⟩)
      · cases h; exact .inl ⟨e, rfl, h'⟩
      · cases h
  | str e =>
    have e0 : "/std/string<>".toList = "/std/string".toList ++ "<>".toList := by decide
    rw [e0]
    constructor
    · rintro (⟨_, h, _⟩ | ⟨_, _, h⟩ | ⟨_, _, h, _⟩)
      · cases h
      · exact .inl ⟨_, rfl, h⟩
      · cases h
    · rintro (⟨_, h, h'⟩ | ⟨_, _, h, _⟩)
      · cases h; exact .inr (.inl ⟨e, rfl, h'⟩)
      · cases h
  | arr d e =>
    constructor
    · rintro (⟨_, h, _⟩ | ⟨_, h, _⟩ | h)
      · cases h
      · cases h
      · exact .inr h
    · rintro (⟨_, h, _⟩ | h)
      · cases h
      · exact .inr (.inr h)
  | _ =>
    constructor
    · rintro (⟨_, h, _⟩ | ⟨_, h, _⟩ | ⟨_, _, h, _⟩) <;> cases h
    · rintro (⟨_, h, _⟩ | ⟨_, _, h, _⟩) <;> cases h

/-- the keys that designate the types of a kind -/
def genericKey (H : Heap) (t : TId) : Option Key :=
  match H.kind t with
  | .vec _ => some (.str "/std/vector<>".toList)
  | .str _ => some (.str "/std/string<>".toList)
  | .arr _ e => some (.str (H.name e ++ "[]".toList))
  | _ => none

instance (H : Heap) (k : Key) (t : TId) : Decidable (k.Generic H t) :=
  decidable_of_iff (genericKey H t = some k) (by
    unfold genericKey Key.Generic
    cases hk : H.kind t with
    | arr d e =>
      constructor
      · intro h; injection h with h; exact .inr (.inr ⟨d, e, rfl, h.symm⟩)
      · rintro (⟨_, h, _⟩ | ⟨_, h, _⟩ | ⟨_, _, h, h'⟩)
        · cases h
        · cases h
        · cases h; rw [h']
    | _ => simp [eq_comm])

/-- the regexps of the declarations, each once, in the order of their first declaration -/
def regexpsOf {α : Type} : List (Decl α) → List Nat
  | [] => []
  | d :: ds =>
    match d.key with
    | .regexp r => r :: (regexpsOf ds).filter (· ≠ r)
    | .str _ => regexpsOf ds

/-- **The declarations that apply to a type**, in order of precedence: those for its kind, those for its name, those whose regexp
matches its name; each group in the order of the declarations (the regexps in the order of their first declaration). -/
def applicable {α : Type} (H : Heap) (rx : Nat → Str → Bool) (ds : List (Decl α)) (t : TId) : List α :=
  let ds' := ds.filter (fun d => d.cond t)
  ((ds'.filter (fun d => d.key.Generic H t)) ++ (ds'.filter (fun d => d.key = .str (H.name t))) ++
    ((regexpsOf ds).filter (fun r => rx r (H.name t))).flatMap (fun r => ds'.filter (fun d => d.key = .regexp r))).map (·.value)

/-- the key designates the type -/
def Key.Matches (H : Heap) (rx : Nat → Str → Bool) (k : Key) (t : TId) : Prop :=
  k.Generic H t ∨ k = .str (H.name t) ∨ ∃ r, k = .regexp r ∧ rx r (H.name t) = true

/-- the name of a type does not look like a generic key -/
def PlainName (s : Str) : Prop := ∀ a, s ≠ a ++ "<>".toList ∧ s ≠ a ++ "[]".toList


/-! The declarations of a history. `Typelib.convert_to_ruby(key, if: cond)` declares the conversion for the types that `cond` accepts. -/

def modelDecls (ops : List Op) : List (Decl Nat) :=
  ops.filterMap fun o => match o with | .specializeModel k c m => some ⟨k, c, m⟩ | _ => none

def valueDecls (ops : List Op) : List (Decl Nat) :=
  ops.filterMap fun o => match o with | .specialize k c m => some ⟨k, c, m⟩ | _ => none

def fromDecls (ops : List Op) : List (Decl (RClass × Nat)) :=
  ops.filterMap fun o => match o with | .convertFrom cls k c b => some ⟨k, c, (cls, b)⟩ | _ => none

def toDecls (ops : List Op) : List (Decl (Option RClass × Nat)) :=
  ops.filterMap fun o =>
    match o with
    | .convertTo k cls c b => some ⟨k, c, (cls, b)⟩
    | .convertToOpts k c b => some ⟨k, c, (none, b)⟩
    | _ => none

/-- no call of `convert_to_ruby` gives options as second argument, except options that change nothing -/
def NoOpts (ops : List Op) : Prop := ∀ k c b, Op.convertToOpts k c b ∈ ops → c = fun _ => true

/-- `pre` is the part of the history before the first use of a type that contains `t`: this is when the class of `t` is made -/
def FirstUse (H : Heap) (ops : List Op) (t : TId) (pre : List Op) : Prop :=
  ∃ w post, ops = pre ++ .wrap w :: post ∧ Part H w t ∧ ∀ w', Op.wrap w' ∈ pre → ¬ Part H w' t

def IsNum (H : Heap) (t : TId) : Prop := ∃ c, H.kind t = .num c

/-- a conversion to Ruby was declared for the type when its class was made (numeric types are always converted) -/
def Declared (H : Heap) (rx : Nat → Str → Bool) (ops : List Op) (t : TId) : Prop :=
  ¬ IsNum H t ∧ ∃ pre, FirstUse H ops t pre ∧ applicable H rx (toDecls pre) t ≠ []

/-- the type has a part (maybe itself) for which a conversion to Ruby was declared -/
def Converted (H : Heap) (rx : Nat → Str → Bool) (ops : List Op) (t : TId) : Prop := ∃ u, Part H t u ∧ Declared H rx ops u

/-- the element of an array or container -/
def elementOf : Kind → Option TId
  | .arr _ e => some e
  | .vec e => some e
  | .str e => some e
  | _ => none

/-- the default conversions from Ruby -/
def defaultFrom : Kind → RClass → Option Block
  | .arr .., .array => some .arrayFromRuby
  | .vec _, .array => some .containerFromRuby
  | .vec _, .deepCopyArray => some .containerFromRuby
  | .str _, .array => some .containerFromRuby
  | .str _, .deepCopyArray => some .containerFromRuby
  | .comp _, .hash => some .compoundFromHash
  | .comp _, .array => some .compoundFromArray
  | _, _ => none

/-- the default conversion of an array or container whose elements are converted -/
def defaultTo : Kind → Block
  | .arr .. => .arrayToRuby
  | _ => .containerToRuby

/-- the declared conversion from a Ruby class: the last one that applies -/
def declaredFrom (H : Heap) (rx : Nat → Str → Bool) (pre : List Op) (t : TId) (k : RClass) : Option Block :=
  (((applicable H rx (fromDecls pre) t).filter (fun p => p.1 = k)).getLast?).map (fun p => .user p.2)

/-- the declared conversion to Ruby: the first one that applies -/
def declaredTo (H : Heap) (rx : Nat → Str → Bool) (pre : List Op) (t : TId) : Option (Option RClass × Block) :=
  ((applicable H rx (toDecls pre) t).head?).map (fun p => (p.1, .user p.2))

end Verif.RubyCustom
