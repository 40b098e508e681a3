import Verif.EnumModel
import Verif.RubyConvert

/-!
C85: the symbols of an enumeration as Ruby sees them: `keys`, `value_of`, `name_of` and `to_h` of the class of an enum type
(bindings/ruby/ext/specialized_types.cc:131-190, bindings/ruby/lib/typelib/enum_type.rb:36-42), over any history of calls of these
methods, of `Enum::add` on the type (typelib/typemodel.cc:482-489) and of changes made to the returned hash.
-/

namespace Verif.RubyEnum
open Verif Verif.Registry Verif.StdMap Verif.EnumModel Verif.RubyConvert

/-! ### Model -/

/-- arguments: strings (bytes as characters), symbols, integers, other numbers (with their integral part), anything else -/
inductive Arg where
  | str (s : Str)
  | sym (s : Str)
  | int (z : Int)
  | float (integral : Int)
  | other
  deriving DecidableEq, Repr

/-- what ends at the first NUL: `c_str()`, `rb_str_new2`, `StringValuePtr` given to a `std::string const&` -/
def cut (s : Str) : Str := s.takeWhile (· ≠ '\x00')

/-- `StringValuePtr` -/
def strArg : Arg → Res Str
  | .str s => .ok (cut s)
  | _ => .exn .rbType

/-- `NUM2INT`: other numbers are truncated -/
def numArg : Arg → Res Int
  | .int z => num2int z
  | .float z => num2int z
  | _ => .exn .rbType

/-- a Ruby hash from strings to integers in insertion order -/
abbrev RHash := List (Str × Int)

/-- `rb_hash_aset`: an existing key keeps its place -/
def hset : RHash → Str → Int → RHash
  | [], n, z => [(n, z)]
  | (k, v) :: h, n, z => if k = n then (k, z) :: h else (k, v) :: hset h n z

/-- the class: the type, and the instance variable `@values` -/
structure Cls where
  e : Enum
  values : Option RHash
  deriving DecidableEq, Repr

/-- the loop of `enum_keys` (specialized_types.cc:150-151); `get` of one of the names does not fail -/
def fill (e : Enum) : List Str → RHash → RHash
  | [], h => h
  | n :: r, h =>
    match e.get n with
    | .ok z => fill e r (hset h (cut n) z)
    | _ => fill e r h

/-- `enum_keys` (specialized_types.cc:136-155) -/
def keys (c : Cls) : Cls × RHash :=
  match c.values with
  | some h => (c, h)
  | none => (⟨c.e, some (fill c.e c.e.names [])⟩, fill c.e c.e.names [])

/-- what a method gives -/
inductive Ans where
  | nothing
  | hash (h : RHash)
  | int (z : Int)
  | name (n : Str)
  | raised (e : Err)
  deriving DecidableEq, Repr

/-- `enum_value_of` (specialized_types.cc:162-172) -/
def valueOf (c : Cls) (a : Arg) : Ans :=
  match strArg a with
  | .ok s =>
    match c.e.get s with
    | .ok z => .int z
    | _ => .raised .rbArg
  | _ => .raised .rbType

/-- `enum_name_of` (specialized_types.cc:180-190) -/
def nameOf (c : Cls) (a : Arg) : Ans :=
  match numArg a with
  | .ok z =>
    match c.e.getName z with
    | .ok n => .name (cut n)
    | _ => .raised .rbArg
  | .exn e => .raised e
  | _ => .nothing

/-- calls. `toH` is `to_h` (enum_type.rb:36-42), of which the pairs of `values` are what is returned here; `change` is whatever the
program does to the hash that `keys` returned. -/
inductive Op where
  | add (n : Str) (z : Int)
  | keys
  | toH
  | valueOf (a : Arg)
  | nameOf (a : Arg)
  | change (f : RHash → RHash)

/-- one call -/
def step (c : Cls) : Op → Cls × Ans
  | .add n z => (⟨(c.e.add n z).1, c.values⟩, .nothing)
  | .keys => ((keys c).1, .hash (keys c).2)
  | .toH => ((keys c).1, .hash (keys c).2)
  | .valueOf a => (c, valueOf c a)
  | .nameOf a => (c, nameOf c a)
  | .change f => (⟨c.e, c.values.map f⟩, .nothing)

/-- the class after a history -/
def exec (c : Cls) : List Op → Cls
  | [] => c
  | op :: r => exec (step c op).1 r

/-- a new enumeration type with a class that was not used yet -/
def start (initial : Int) : Cls := ⟨⟨initial - 1, []⟩, none⟩

/-- what a call gives after a history -/
def answer (initial : Int) (history : List Op) (op : Op) : Ans := (step (exec (start initial) history) op).2

/-- `keys[name]` with a string of the program's encoding: the keys are binary strings, which are equal to others only if all characters
are ASCII -/
def hlookup (h : RHash) (n : Str) : Option Int :=
  if n.all (fun c => c.toNat < 128) then h.lookup n else none

/-! ### Specification -/

/-- The symbols added by a history, in order. -/
def adds : List Op → List (Str × Int)
  | [] => []
  | .add n z :: r => (n, z) :: adds r
  | _ :: r => adds r

/-- A name means the value of the first `add` for it. -/
def Means (l : List (Str × Int)) (n : Str) (z : Int) : Prop := ∃ pre post, l = pre ++ (n, z) :: post ∧ ∀ p ∈ pre, p.1 ≠ n

/-- no NUL character -/
def NoNul (s : Str) : Prop := '\x00' ∉ s

/-- The program leaves the returned hashes alone. -/
def Untouched (l : List Op) : Prop := ∀ op ∈ l, ∀ f, op ≠ .change f

/-- No symbol is added after the first use of `keys` or `to_h`. -/
def Orderly (l : List Op) : Prop := ∀ pre post, l = pre ++ post → (Op.keys ∈ pre ∨ Op.toH ∈ pre) → adds post = []

/-- An `int` -/
def IsInt (z : Int) : Prop := -2147483648 ≤ z ∧ z ≤ 2147483647

/-- The right hash: exactly the symbols with their values, each once, in the order of their names. -/
structure Table (l : List (Str × Int)) (h : RHash) : Prop where
  exact : ∀ n z, (n, z) ∈ h ↔ Means l n z
  sorted : h.Pairwise (fun a b => strLt a.1 b.1 = true)

/-- The right answers to calls of `value_of`. -/
inductive ValueRight (l : List (Str × Int)) : Arg → Ans → Prop
  | found {s z} : Means l s z → ValueRight l (.str s) (.int z)
  | unknown {s} : (∀ z, ¬ Means l s z) → ValueRight l (.str s) (.raised .rbArg)
  | noString {a} : (∀ s, a ≠ .str s) → ValueRight l a (.raised .rbType)

/-- The right answers to calls of `name_of`: of several names, the first one in alphabetical order. -/
inductive NameRight (l : List (Str × Int)) : Arg → Ans → Prop
  | found {z n} : IsInt z → Means l n z → (∀ m, Means l m z → m ≠ n → strLt n m = true) → NameRight l (.int z) (.name n)
  | unknown {z} : IsInt z → (∀ n, ¬ Means l n z) → NameRight l (.int z) (.raised .rbArg)
  | large {z} : ¬ IsInt z → NameRight l (.int z) (.raised .rbRange)
  | noNumber {a} : (∀ z, a ≠ .int z ∧ a ≠ .float z) → NameRight l a (.raised .rbType)

/-! ### Lemmas -/

theorem cut_noNul {s : Str} (h : NoNul s) : cut s = s := by
  unfold cut NoNul at *
  induction s with
  | nil => rfl
  | cons c s ih =>
    simp only [List.mem_cons, not_or] at h
    rw [List.takeWhile_cons_of_pos (by simpa using Ne.symm h.1), ih h.2]

theorem means_iff (l : List (Str × Int)) (n : Str) (z : Int) : Means l n z ↔ firstValue l n = some z := by
  unfold Means firstValue
  constructor
  · rintro ⟨pre, post, rfl, hp⟩
    rw [List.find?_append]
    have : pre.find? (fun c => c.1 == n) = none := List.find?_eq_none.mpr (fun p hm => by simpa using hp p hm)
    rw [this]
    simp
  · intro h
    obtain ⟨p, hp, hz⟩ := Option.map_eq_some_iff.mp h
    obtain ⟨h1, as, bs, hl, has⟩ := List.find?_eq_some_iff_append.mp hp
    obtain ⟨k, w⟩ := p
    have e1 : k = n := by simpa using h1
    simp only at hz
    subst e1; subst hz
    exact ⟨as, bs, hl, fun p hm => by simpa using has p hm⟩

theorem exec_append (c : Cls) (a b : List Op) : exec c (a ++ b) = exec (exec c a) b := by
  induction a generalizing c with
  | nil => rfl
  | cons op a ih => exact ih _

theorem adds_append (a b : List Op) : adds (a ++ b) = adds a ++ adds b := by
  induction a with
  | nil => rfl
  | cons op a ih => cases op <;> simp [adds, ih]

/-- the type only depends on the symbols added -/
theorem exec_enum (c : Cls) (l : List Op) : (exec c l).e = c.e.run (adds l) := by
  induction l generalizing c with
  | nil => rfl
  | cons op l ih =>
    simp only [exec, ih]
    cases op with
    | add n z => rfl
    | keys => simp only [step, adds, keys]; cases c.values <;> rfl
    | toH => simp only [step, adds, keys]; cases c.values <;> rfl
    | valueOf a => rfl
    | nameOf a => rfl
    | change f => rfl

theorem enum_after (initial : Int) (l : List Op) : (exec (start initial) l).e = Enum.run ⟨initial - 1, []⟩ (adds l) := exec_enum _ _

theorem get_iff (initial : Int) (l : List (Str × Int)) (n : Str) (z : Int) :
    (Enum.run ⟨initial - 1, []⟩ l).get n = .ok z ↔ Means l n z := by
  rw [C35_get_first, means_iff]
  cases firstValue l n <;> simp

theorem get_none (initial : Int) (l : List (Str × Int)) (n : Str) (h : ∀ z, ¬ Means l n z) :
    (Enum.run ⟨initial - 1, []⟩ l).get n = .exn .runtime := by
  rw [C35_get_first]
  cases hf : firstValue l n with
  | none => rfl
  | some z => exact absurd ((means_iff l n z).mpr hf) (h z)

theorem means_names {l : List (Str × Int)} {n : Str} {z : Int} (h : Means l n z) : n ∈ l.map (·.1) := by
  obtain ⟨pre, post, rfl, _⟩ := h
  simp

theorem hset_new {h : RHash} {n : Str} {z : Int} (hn : n ∉ h.map (·.1)) : hset h n z = h ++ [(n, z)] := by
  induction h with
  | nil => rfl
  | cons p h ih =>
    obtain ⟨k, v⟩ := p
    simp only [List.map_cons, List.mem_cons, not_or] at hn
    simp only [hset, if_neg (Ne.symm hn.1), ih hn.2, List.cons_append]

/-- the loop copies the map -/
theorem fill_eq {e : Enum} (hs : MSorted e.values) (hc : ∀ n ∈ e.names, NoNul n) :
    ∀ (r pre : SMap Int), e.values = pre ++ r → fill e (r.map (·.1)) pre = e.values := by
  intro r
  induction r with
  | nil => intro pre h; simp [fill, h]
  | cons p r ih =>
    obtain ⟨n, z⟩ := p
    intro pre h
    have hm : (n, z) ∈ e.values := by rw [h]; simp
    have hg : e.get n = .ok z := by unfold Enum.get; rw [(mem_iff_find hs).mp hm]
    have hnn : n ∉ pre.map (·.1) := by
      intro hin
      obtain ⟨q, hq, rfl⟩ := List.mem_map.mp hin
      unfold MSorted at hs
      rw [h, List.pairwise_append] at hs
      have := hs.2.2 q hq (q.1, z) (by simp)
      rw [strLt_irrefl] at this
      cases this
    simp only [List.map_cons, fill, hg]
    rw [cut_noNul (hc n (List.mem_map.mpr ⟨(n, z), hm, rfl⟩)), hset_new hnn]
    exact ih (pre ++ [(n, z)]) (by simp [h])

theorem fill_names {e : Enum} (hs : MSorted e.values) (hc : ∀ n ∈ e.names, NoNul n) : fill e e.names [] = e.values :=
  fill_eq hs hc e.values [] rfl

theorem mem_values (initial : Int) (l : List (Str × Int)) (n : Str) (z : Int) :
    (n, z) ∈ (Enum.run ⟨initial - 1, []⟩ l).values ↔ Means l n z := by
  rw [mem_iff_find (run_spec initial l).1, (run_spec initial l).2.1, means_iff]

theorem table_values (initial : Int) (l : List (Str × Int)) : Table l (Enum.run ⟨initial - 1, []⟩ l).values :=
  ⟨mem_values initial l, (run_spec initial l).1⟩

theorem names_noNul (initial : Int) {l : List (Str × Int)} (h : ∀ p ∈ l, NoNul p.1) :
    ∀ n ∈ (Enum.run ⟨initial - 1, []⟩ l).names, NoNul n := by
  intro n hn
  obtain ⟨p, hp, rfl⟩ := List.mem_map.mp hn
  obtain ⟨k, v⟩ := p
  obtain ⟨pre, post, rfl, _⟩ := (mem_values initial l k v).mp hp
  exact h (k, v) (by simp)

theorem means_mono {a : List (Str × Int)} {n : Str} {z : Int} (b : List (Str × Int)) (h : Means a n z) : Means (a ++ b) n z := by
  obtain ⟨pre, post, rfl, hp⟩ := h
  exact ⟨pre, post ++ b, by simp, hp⟩

/-- without changes by the program, the remembered hash is the table of an earlier moment -/
theorem cached (initial : Int) : ∀ (l : List Op), Untouched l → (∀ p ∈ adds l, NoNul p.1) →
    ((exec (start initial) l).values = none ∧ Op.keys ∉ l ∧ Op.toH ∉ l) ∨
    ∃ pre post, l = pre ++ post ∧ (Op.keys ∈ pre ∨ Op.toH ∈ pre) ∧ ∃ h, (exec (start initial) l).values = some h ∧ Table (adds pre) h := by
  intro l
  induction l using snoc_induction with
  | nil => intro _ _; exact Or.inl ⟨rfl, by simp, by simp⟩
  | snoc l op ih =>
    intro hu hn
    have ih := ih (fun o ho => hu o (by simp [ho])) (fun p hp => hn p (by rw [adds_append]; exact List.mem_append_left _ hp))
    rw [exec_append]
    have hk : ∀ op', (op' = .keys ∨ op' = .toH) → ((step (exec (start initial) l) op').1 = (keys (exec (start initial) l)).1) := by
      rintro op' (rfl | rfl) <;> rfl
    have make : (op = .keys ∨ op = .toH) → ∃ pre post, l ++ [op] = pre ++ post ∧ (Op.keys ∈ pre ∨ Op.toH ∈ pre) ∧
        ∃ h, (exec (exec (start initial) l) [op]).values = some h ∧ Table (adds pre) h := by
      intro ho
      simp only [exec, hk op ho]
      rcases ih with ⟨hv, _, _⟩ | ⟨pre, post, hl, hp, h, hv, ht⟩
      · refine ⟨l ++ [op], [], by simp, ?_, fill (exec (start initial) l).e (exec (start initial) l).e.names [], ?_, ?_⟩
        · rcases ho with rfl | rfl <;> simp
        · unfold keys; rw [hv]
        · have ha : adds (l ++ [op]) = adds l := by rw [adds_append]; rcases ho with rfl | rfl <;> simp [adds]
          rw [ha] at hn ⊢
          rw [enum_after, fill_names (run_spec initial _).1 (names_noNul initial hn)]
          exact table_values initial _
      · exact ⟨pre, post ++ [op], by simp [hl], hp, h, (by unfold keys; rw [hv]; exact hv), ht⟩
    have keep : (op ≠ .keys ∧ op ≠ .toH) → (exec (exec (start initial) l) [op]).values = (exec (start initial) l).values →
        ((exec (exec (start initial) l) [op]).values = none ∧ Op.keys ∉ l ++ [op] ∧ Op.toH ∉ l ++ [op]) ∨
        ∃ pre post, l ++ [op] = pre ++ post ∧ (Op.keys ∈ pre ∨ Op.toH ∈ pre) ∧
          ∃ h, (exec (exec (start initial) l) [op]).values = some h ∧ Table (adds pre) h := by
      intro ho he
      rw [he]
      rcases ih with ⟨hv, h1, h2⟩ | ⟨pre, post, hl, hp, h, hv, ht⟩
      · exact Or.inl ⟨hv, by simp [h1, ho.1.symm], by simp [h2, ho.2.symm]⟩
      · exact Or.inr ⟨pre, post ++ [op], by simp [hl], hp, h, hv, ht⟩
    cases op with
    | add n z => exact keep (by simp) rfl
    | keys => exact Or.inr (make (Or.inl rfl))
    | toH => exact Or.inr (make (Or.inr rfl))
    | valueOf a => exact keep (by simp) rfl
    | nameOf a => exact keep (by simp) rfl
    | change f => exact absurd rfl (hu (.change f) (by simp) f)

theorem table_unique {l : List (Str × Int)} {h h' : RHash} (a : Table l h) (b : Table l h') : h = h' := by
  refine StdMap.ext a.sorted b.sorted (fun k => ?_)
  cases hf : find h k with
  | some z => exact ((mem_iff_find b.sorted).mp ((b.exact k z).mpr ((a.exact k z).mp ((mem_iff_find a.sorted).mpr hf)))).symm
  | none =>
    cases hf' : find h' k with
    | none => rfl
    | some z =>
      have := (mem_iff_find a.sorted).mp ((a.exact k z).mpr ((b.exact k z).mp ((mem_iff_find b.sorted).mpr hf')))
      rw [hf] at this
      cases this

theorem lookup_find (h : RHash) (n : Str) : h.lookup n = find h n := by
  induction h with
  | nil => rfl
  | cons p h ih =>
    obtain ⟨k, v⟩ := p
    simp only [List.lookup_cons, find]
    by_cases e : k = n
    · subst e; simp
    · have : (n == k) = false := by simpa using Ne.symm e
      rw [this]
      simp [e, ih]

/-! ### Theorems -/

/-- `value_of` in any history, whatever was done with the hash that `keys` returns: the value of the first `add` for the name,
ArgumentError if there is none, TypeError for what is no string. -/
theorem C85_value_of (initial : Int) (history : List Op) (a : Arg) (hs : ∀ s, a = .str s → NoNul s) :
    ValueRight (adds history) a (answer initial history (.valueOf a)) := by
  unfold answer
  simp only [step, valueOf, enum_after]
  cases a with
  | str s =>
    simp only [strArg, cut_noNul (hs s rfl)]
    by_cases h : ∃ z, Means (adds history) s z
    · obtain ⟨z, hz⟩ := h
      rw [(get_iff initial _ s z).mpr hz]
      exact .found hz
    · have h' : ∀ z, ¬ Means (adds history) s z := fun z hz => h ⟨z, hz⟩
      rw [get_none initial _ s h']
      exact .unknown h'
  | sym s => exact .noString (by simp)
  | int z => exact .noString (by simp)
  | float z => exact .noString (by simp)
  | other => exact .noString (by simp)

/-- `name_of` in any history: a name with this value, the first one in alphabetical order; ArgumentError if there is none, RangeError
for what is no `int`, TypeError for what is no number. -/
theorem C85_name_of (initial : Int) (history : List Op) (a : Arg) (hn : ∀ p ∈ adds history, NoNul p.1) (ha : ∀ z, a ≠ .float z) :
    NameRight (adds history) a (answer initial history (.nameOf a)) := by
  unfold answer
  simp only [step, nameOf, enum_after]
  cases a with
  | int z =>
    simp only [numArg, num2int]
    by_cases hz : IsInt z
    · rw [if_pos (by unfold IsInt at hz; omega)]
      simp only
      obtain ⟨h1, h2, h3⟩ := C35_get_inverse initial (adds history) z
      by_cases hex : ∃ n, Means (adds history) n z
      · obtain ⟨n, hnz⟩ := hex
        obtain ⟨m, hm⟩ := h2 ⟨n, (get_iff initial _ n z).mpr hnz⟩
        obtain ⟨hg, hl⟩ := h1 m hm
        have hmz := (get_iff initial _ m z).mp hg
        rw [hm]
        have hc : NoNul m := by
          obtain ⟨p, hp, he⟩ := List.mem_map.mp (means_names hmz)
          exact he ▸ hn p hp
        simp only [cut_noNul hc]
        exact .found hz hmz (fun k hk hne => hl k ((get_iff initial _ k z).mpr hk) hne)
      · rw [h3 (fun ⟨n, h⟩ => hex ⟨n, (get_iff initial _ n z).mp h⟩)]
        exact .unknown hz (fun n h => hex ⟨n, h⟩)
    · rw [if_neg (by unfold IsInt at hz; omega)]
      exact .large hz
  | str s => exact .noNumber (by simp)
  | sym s => exact .noNumber (by simp)
  | float z => exact absurd rfl (ha z)
  | other => exact .noNumber (by simp)

/-- `keys` and `to_h` give exactly the symbols with their values, in alphabetical order, when the program leaves the returned hash alone
and no symbol is added after the first call. -/
theorem C85_keys_partial (initial : Int) (history : List Op) (op : Op) (ho : op = .keys ∨ op = .toH)
    (hn : ∀ p ∈ adds history, NoNul p.1) (hu : Untouched history) (hord : Orderly history) :
    ∃ h, answer initial history op = .hash h ∧ Table (adds history) h := by
  have e : answer initial history op = .hash (keys (exec (start initial) history)).2 := by
    rcases ho with rfl | rfl <;> rfl
  rw [e]
  rcases cached initial history hu hn with ⟨hv, _, _⟩ | ⟨pre, post, hl, hp, h, hv, ht⟩
  · refine ⟨_, rfl, ?_⟩
    unfold keys
    rw [hv]
    simp only
    rw [enum_after, fill_names (run_spec initial _).1 (names_noNul initial hn)]
    exact table_values initial _
  · refine ⟨_, rfl, ?_⟩
    unfold keys
    rw [hv]
    have : adds history = adds pre := by
      have h0 := hord pre post hl hp
      have h1 : adds history = adds pre ++ adds post := by rw [← adds_append, ← hl]
      rw [h1, h0, List.append_nil]
    rw [this]
    exact ht

/-- Even if symbols are added later: what `keys` tells is true, and it tells everything that was there at the first call. -/
theorem C85_keys_true (initial : Int) (history : List Op) (hn : ∀ p ∈ adds history, NoNul p.1) (hu : Untouched history) :
    ∃ h, answer initial history .keys = .hash h ∧ (∀ n z, (n, z) ∈ h → Means (adds history) n z) ∧
      ∀ pre post, history = pre ++ post → Op.keys ∉ pre → Op.toH ∉ pre → ∀ n z, Means (adds pre) n z → (n, z) ∈ h := by
  have e : answer initial history .keys = .hash (keys (exec (start initial) history)).2 := rfl
  rw [e]
  rcases cached initial history hu hn with ⟨hv, _, _⟩ | ⟨pre, post, hl, hp, h, hv, ht⟩
  · refine ⟨_, rfl, ?_, ?_⟩ <;> unfold keys <;> rw [hv] <;> simp only <;>
      rw [enum_after, fill_names (run_spec initial _).1 (names_noNul initial hn)]
    · exact fun n z => (mem_values initial _ n z).mp
    · intro pre post hl _ _ n z hz
      rw [mem_values, hl, adds_append]
      exact means_mono _ hz
  · refine ⟨_, rfl, ?_, ?_⟩ <;> unfold keys <;> rw [hv]
    · intro n z hz
      rw [hl, adds_append]
      exact means_mono _ ((ht.exact n z).mp hz)
    · intro pre' post' hl' h1 h2 n z hz
      refine (ht.exact n z).mpr ?_
      -- the history before the first call is a beginning of `pre`
      rw [hl] at hl'
      rcases List.append_eq_append_iff.mp hl' with ⟨x, hx, _⟩ | ⟨x, hx, _⟩
      · rw [hx] at h1 h2
        rcases hp with hp | hp
        · exact absurd (List.mem_append_left _ hp) h1
        · exact absurd (List.mem_append_left _ hp) h2
      · rw [hx, adds_append]
        exact means_mono _ hz

/-- The three methods agree: `keys[n]` and `value_of(n)` for ASCII names, and `value_of(name_of(z))` is `z`. -/
theorem C85_agree_partial (initial : Int) (history : List Op) (hn : ∀ p ∈ adds history, NoNul p.1) (hu : Untouched history)
    (hord : Orderly history) :
    (∃ h, answer initial history .keys = .hash h ∧ ∀ n, (∀ c ∈ n, c.toNat < 128 ∧ c ≠ '\x00') → ∀ z,
      hlookup h n = some z ↔ answer initial history (.valueOf (.str n)) = .int z) ∧
    ∀ z n, answer initial history (.nameOf (.int z)) = .name n → answer initial history (.valueOf (.str n)) = .int z := by
  constructor
  · obtain ⟨h, ha, ht⟩ := C85_keys_partial initial history .keys (Or.inl rfl) hn hu hord
    refine ⟨h, ha, fun n hc z => ?_⟩
    have hno : NoNul n := fun hm => (hc _ hm).2 rfl
    have hl : hlookup h n = find h n := by
      unfold hlookup
      rw [if_pos (by simpa using fun c hm => (hc c hm).1), lookup_find]
    rw [hl, ← mem_iff_find ht.sorted, ht.exact]
    have hv := C85_value_of initial history (.str n) (fun s hs => by injection hs with hs; exact hs ▸ hno)
    constructor
    · intro hm
      generalize answer initial history (.valueOf (.str n)) = r at hv
      cases hv with
      | found hz =>
        rw [means_iff] at hm hz
        rw [hm] at hz
        injection hz with hz
        rw [hz]
      | unknown hz => exact absurd hm (hz z)
      | noString hz => exact absurd rfl (hz n)
    · intro hm
      rw [hm] at hv
      cases hv with
      | found hz => exact hz
  · intro z n h
    have hr := C85_name_of initial history (.int z) hn (by simp)
    rw [h] at hr
    cases hr with
    | found _ hm _ =>
      have hno : NoNul n := by
        obtain ⟨p, hp, he⟩ := List.mem_map.mp (means_names hm)
        exact he ▸ hn p hp
      have hv := C85_value_of initial history (.str n) (fun s hs => by injection hs with hs; exact hs ▸ hno)
      generalize answer initial history (.valueOf (.str n)) = r at hv
      cases hv with
      | found hz =>
        rw [means_iff] at hm hz
        rw [hm] at hz
        injection hz with hz
        rw [hz]
      | unknown hz => exact absurd hm (hz z)
      | noString hz => exact absurd rfl (hz n)

/-! ### Counterexamples -/

/-- Whatever the program does to the hash that `keys` returned is what the next call returns: `keys` is not a copy. -/
theorem C85_shared_counterexample (initial : Int) (history : List Op) (f : RHash → RHash) :
    ∃ h, answer initial history .keys = .hash h ∧
      answer initial (history ++ [.keys, .change f]) .keys = .hash (f h) ∧
      answer initial (history ++ [.keys, .change f]) .toH = .hash (f h) := by
  refine ⟨(keys (exec (start initial) history)).2, rfl, ?_, ?_⟩ <;>
  · simp only [answer, exec_append, exec, step]
    congr 1
    generalize exec (start initial) history = c
    obtain ⟨e, v⟩ := c
    cases v <;> rfl

/-- A symbol added after the first call of `keys` is missing from it for ever, although `value_of` knows it. -/
theorem C85_stale_counterexample (initial : Int) (n : Str) (z : Int) (hn : NoNul n) (k : Nat) :
    answer initial ([.keys, .add n z] ++ List.replicate k .keys) .keys = .hash [] ∧
    answer initial ([.keys, .add n z] ++ List.replicate k .keys) (.valueOf (.str n)) = .int z := by
  have hk : ∀ (k : Nat) (c : Cls) (h : RHash), c.values = some h → exec c (List.replicate k .keys) = c := by
    intro k
    induction k with
    | zero => intro c h _; rfl
    | succ k ih =>
      intro c h hc
      have : (step c .keys).1 = c := by simp only [step, keys, hc]
      simp only [List.replicate_succ, exec, this]
      exact ih c h hc
  have e : exec (start initial) ([.keys, .add n z] ++ List.replicate k .keys) = ⟨⟨z, [(n, z)]⟩, some []⟩ := by
    rw [exec_append]
    have : exec (start initial) [.keys, .add n z] = ⟨⟨z, [(n, z)]⟩, some []⟩ := rfl
    rw [this, hk k _ [] rfl]
  unfold answer
  rw [e]
  refine ⟨rfl, ?_⟩
  simp only [step, valueOf, strArg, cut_noNul hn, Enum.get, find, if_true]

/-- A name with a NUL is cut: `name_of` gives a name that `value_of` does not know, and `keys` has one entry for two symbols. -/
theorem C85_nul_counterexample :
    answer 0 [.add ['A', '\x00', 'B'] 1] (.nameOf (.int 1)) = .name ['A'] ∧
    answer 0 [.add ['A', '\x00', 'B'] 1] (.valueOf (.str ['A'])) = .raised .rbArg ∧
    answer 0 [.add ['A', '\x00', 'B'] 1, .add ['A', '\x00', 'C'] 2] .keys = .hash [(['A'], 2)] ∧
    answer 0 [.add ['A'] 7] (.valueOf (.str ['A', '\x00', 'B'])) = .int 7 := by decide +kernel

/-- Numbers are truncated: `name_of(1.9)` is `name_of(1)`, for every number and history. -/
theorem C85_truncated_counterexample (initial : Int) (history : List Op) (z : Int) :
    answer initial history (.nameOf (.float z)) = answer initial history (.nameOf (.int z)) := rfl

/-- A name with other characters than ASCII is in `keys`, but looking it up there does not find it. -/
theorem C85_encoding_counterexample (initial : Int) (n : Str) (z : Int) (hn : NoNul n) (ha : ∃ c ∈ n, 128 ≤ c.toNat) :
    answer initial [.add n z] .keys = .hash [(n, z)] ∧ hlookup [(n, z)] n = none ∧
    answer initial [.add n z] (.valueOf (.str n)) = .int z := by
  refine ⟨?_, ?_, ?_⟩
  · simp only [answer, exec, step, start, Enum.add, find, upsert, Option.getD, keys, Enum.names, List.map, fill, Enum.get, if_true,
      cut_noNul hn, hset]
  · unfold hlookup
    rw [if_neg]
    obtain ⟨c, hc, hl⟩ := ha
    simp only [List.all_eq_true, decide_eq_true_eq]
    exact fun h => by have := h c hc; omega
  · simp only [answer, exec, step, start, Enum.add, find, upsert, Option.getD, valueOf, strArg, cut_noNul hn, Enum.get, if_true]

/-! ### Examples -/

example : answer 0 [.add ['B'] 1, .add ['A'] 1, .add ['C'] (-2), .add ['B'] 5] .keys = .hash [(['A'], 1), (['B'], 1), (['C'], -2)] ∧
    answer 0 [.add ['B'] 1, .add ['A'] 1, .keys] (.nameOf (.int 1)) = .name ['A'] ∧
    answer 0 [.add ['B'] 1] (.valueOf (.sym ['B'])) = .raised .rbType ∧
    answer 0 [.add ['B'] 1] (.nameOf (.int 2147483648)) = .raised .rbRange := by decide +kernel

theorem orderly_of {a b : List Op} (h1 : Op.keys ∉ a) (h2 : Op.toH ∉ a) (hb : adds b = []) : Orderly (a ++ b) := by
  intro pre post h hk
  rcases List.append_eq_append_iff.mp h with ⟨x, hx, hy⟩ | ⟨x, hx, hy⟩
  · rw [hy, adds_append] at hb
    exact (List.append_eq_nil_iff.mp hb).2
  · rcases hk with hk | hk
    · exact absurd (by rw [hx]; exact List.mem_append_left _ hk) h1
    · exact absurd (by rw [hx]; exact List.mem_append_left _ hk) h2

/-- a history that meets the hypotheses of the theorems -/
def usual : List Op := [.add ['B'] 1, .add ['A'] 1] ++ [.keys, .valueOf (.str ['A'])]

theorem usual_ok : (∀ p ∈ adds usual, NoNul p.1) ∧ Untouched usual ∧ Orderly usual := by
  refine ⟨?_, ?_, orderly_of (by simp) (by simp) rfl⟩
  · intro p hp
    simp only [usual, adds, List.cons_append, List.nil_append, List.mem_cons, List.not_mem_nil, or_false] at hp
    rcases hp with rfl | rfl <;> simp [NoNul]
  · intro op ho f
    simp only [usual, List.cons_append, List.nil_append, List.mem_cons, List.not_mem_nil, or_false] at ho
    rcases ho with rfl | rfl | rfl | rfl <;> simp

example : ∃ h, answer 0 usual .toH = .hash h ∧ Table (adds usual) h :=
  C85_keys_partial 0 usual .toH (Or.inr rfl) usual_ok.1 usual_ok.2.1 usual_ok.2.2

example : NameRight (adds usual) (.int 1) (answer 0 usual (.nameOf (.int 1))) :=
  C85_name_of 0 usual (.int 1) usual_ok.1 (by simp)

example : ValueRight (adds usual) (.str ['B']) (answer 0 usual (.valueOf (.str ['B']))) :=
  C85_value_of 0 usual (.str ['B']) (by intro s h; cases h; simp [NoNul])

example := C85_keys_true 0 usual usual_ok.1 usual_ok.2.1
example := C85_agree_partial 0 usual usual_ok.1 usual_ok.2.1 usual_ok.2.2
example := C85_stale_counterexample 0 ['A'] 3 (by simp [NoNul]) 2
example := C85_encoding_counterexample 0 [Char.ofNat 233] 3 (by unfold NoNul; decide) ⟨_, List.mem_singleton.mpr rfl, by decide⟩

end Verif.RubyEnum
