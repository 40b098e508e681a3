import Verif.RubySimpleThms

/-!
C69: counterexamples and concrete cases.
-/

namespace Verif.RubySimple
open Verif Verif.RubyConvert
open Verif.Value (leVal)
open Verif.RubyBytes (RStr)

/-! ### A machine -/

/-- the characters of a string in UTF-8, for the characters of one and two bytes (what is not valid is taken byte by byte) -/
def utf8 : List UInt8 → RStr
  | [] => []
  | [b] => [[b]]
  | b :: c :: l =>
    if 192 ≤ b.toNat ∧ b.toNat < 224 ∧ 128 ≤ c.toNat ∧ c.toNat < 192 then [b, c] :: utf8 l else [b] :: utf8 (c :: l)

mutual
/-- a value made of zero bytes -/
def zeroV : T → V
  | .int _ k => .num (List.replicate k 0)
  | .char => .num [0]
  | .bool => .num [0]
  | .float k => .num (List.replicate k 0)
  | .enum _ => .num [0, 0, 0, 0]
  | .str => .str []
  | .arr n e => .seq (List.replicate n (zeroV e))
  | .vec _ => .seq []
  | .comp fs => .seq (zeroFields fs)
  | .other => .seq []
/-- one per field -/
def zeroFields : Fs → List V
  | .nil => []
  | .cons _ t rest => zeroV t :: zeroFields rest
end

mutual
theorem zeroV_ok : ∀ t, Sound t → Ok t (zeroV t)
  | .int _ k, h => ⟨h, by simp⟩
  | .char, _ => rfl
  | .bool, _ => rfl
  | .float k, h => ⟨h, by simp⟩
  | .enum _, _ => rfl
  | .str, _ => trivial
  | .arr n e, h => ⟨by simp, fun v hv => by
      rw [List.eq_of_mem_replicate hv]; exact zeroV_ok e h⟩
  | .vec _, _ => fun v hv => absurd hv (by simp)
  | .comp fs, h => zeroFields_ok fs h.2
  | .other, _ => trivial
theorem zeroFields_ok : ∀ fs, SoundFields fs → OkFields fs (zeroFields fs)
  | .nil, _ => rfl
  | .cons _ t rest, h => ⟨zeroV_ok t h.1, zeroFields_ok rest h.2⟩
end

theorem utf8_flatten : ∀ (n : Nat) (bs : List UInt8), bs.length ≤ n → (utf8 bs).flatten = bs := by
  intro n
  induction n with
  | zero => intro bs h; cases bs with
    | nil => rfl
    | cons b bs => simp at h
  | succ n ih =>
    intro bs h
    match bs with
    | [] => rfl
    | [b] => rfl
    | b :: c :: l =>
      simp only [utf8]
      simp only [List.length_cons] at h
      split
      · rw [List.flatten_cons, ih l (by omega)]; rfl
      · rw [List.flatten_cons, ih (c :: l) (by simp only [List.length_cons]; omega)]; rfl

theorem utf8_nonempty : ∀ (n : Nat) (bs : List UInt8), bs.length ≤ n → ∀ c ∈ utf8 bs, c ≠ [] := by
  intro n
  induction n with
  | zero => intro bs h; cases bs with
    | nil => simp [utf8]
    | cons b bs => simp at h
  | succ n ih =>
    intro bs h
    match bs with
    | [] => simp [utf8]
    | [b] => simp [utf8]
    | b :: c :: l =>
      simp only [utf8]
      simp only [List.length_cons] at h
      split
      · intro x hx
        rcases List.mem_cons.mp hx with rfl | hx
        · simp
        · exact ih l (by omega) x hx
      · intro x hx
        rcases List.mem_cons.mp hx with rfl | hx
        · simp
        · exact ih (c :: l) (by simp only [List.length_cons]; omega) x hx

/-- A machine. `float`s are converted by moving their bits (the conversion of the real machine is another one, which matters to
no theorem below). -/
def env0 : Env where
  chars := utf8
  ord
    | [b] => if b.toNat < 128 then some b.toNat else none
    | [b, c] => some ((b.toNat - 192) * 64 + (c.toNat - 128) : Nat)
    | _ => none
  widen bs := UInt64.ofNat (leVal bs)
  narrow d := Verif.Layout.leBytes 4 (d.toNat % 2 ^ 32)
  ofInt _ := 0
  trunc _ := 0
  junk _ t := zeroV t

theorem env0_sane : Sane env0 where
  flatten bs := utf8_flatten _ bs (Nat.le_refl _)
  nonempty bs := utf8_nonempty _ bs (Nat.le_refl _)
  narrow d := Verif.Layout.leBytes_length _ _
  junk _ t ht := zeroV_ok t ht

/-! ### The round trip fails -/

/-- **C69 fails for containers of enumerations**: whatever the Ruby objects (symbols as strings, as `to_simple_value` gives them,
or integers), a container of enumerations cannot be made from a list that is not empty. -/
theorem C69_enum_container_counterexample (env : Env) (syms : List (Str × Int)) (p : List Nat) (s : S) (l : List S) :
    fromRuby env (.vec (.enum syms)) p (.arr (s :: l)) = .error .type := by
  simp [fromRuby, mapIdx, pushed, Except.map]

/-- an array of the same enumeration can: the conversion of the elements exists -/
theorem C69_enum_array (env : Env) (he : Sane env) (syms : List (Str × Int)) (hs : Sound (.enum syms)) (l : List V)
    (hl : ∀ v ∈ l, Ok (.enum syms) v) (hf : ∀ v ∈ l, Faithful env (.enum syms) v) (p : List Nat) :
    ∃ s, toSimple env .none (.arr l.length (.enum syms)) (.seq l) = .ok s ∧
      fromRuby env (.arr l.length (.enum syms)) p s = .ok (.seq l) :=
  (C69_roundtrip_partial env he (.arr l.length (.enum syms)) hs (.seq l) ⟨rfl, hl⟩ p).mpr hf

/-- **C69 fails for undeclared values of an enumeration**: they all become the empty string, which `from_ruby` refuses. -/
theorem C69_undeclared_enum_counterexample (env : Env) (he : Sane env) (syms : List (Str × Int)) (hs : Sound (.enum syms))
    (bs : List UInt8) (hno : ∀ n z, (n, z) ∈ syms → n ≠ [] ∧ ¬ Holds true 4 (memOf bs) 0 z) (p : List Nat) :
    ∃ s e, toSimple env .none (.enum syms) (.num bs) = .ok (.str s) ∧ s.flatten = [] ∧
      fromRuby env (.enum syms) p (.str s) = .error e := by
  obtain ⟨z, hz, _⟩ := holds_exists true 4 (by simp [CSize]) (memOf bs) 0
  rcases C52_enum_get syms (memOf bs) 0 z hz with ⟨n, hn, _⟩ | ⟨_, hg⟩
  · exact absurd hz (hno n z hn).2
  · obtain ⟨e, he'⟩ := (C52_enum_set syms hs.1 (memOf []) 0 (.str [])).2 (fun z' hz' => (hno _ _ hz').1 rfl)
    refine ⟨env.chars [], exnOf e, by simp only [toSimple]; rw [hg], he.flatten [], ?_⟩
    simp only [fromRuby, rval, he.flatten]
    unfold putEnum
    rw [he']
    rfl

/-- **C69 fails for big unsigned numbers**: an `uint64_t` of 2^63 or more is given as the right integer, which `from_ruby`
refuses with a `RangeError`. -/
theorem C69_uint64_counterexample (env : Env) (bs : List UInt8) (hl : bs.length = 8) (h : 2 ^ 63 ≤ leVal bs) (p : List Nat) :
    ∃ s, toSimple env .none (.int false 8) (.num bs) = .ok s ∧ fromRuby env (.int false 8) p s = .error .range := by
  obtain ⟨z, h1, _, h3⟩ := int_roundtrip (env := env) (sg := false) (k := 8) (bs := bs) (by simp [CSize]) hl
  refine ⟨.int z, by simp only [toSimple, h1]; rfl, ?_⟩
  have := h3 (fun hh => absurd (hh rfl rfl) (by omega))
  simp only [fromRuby, numFromRuby, this]
  rfl

/-- **C69 fails for characters of several bytes**: the string `é` comes back as its first byte. -/
theorem C69_string_counterexample : ∃ s, toSimple env0 .none .str (.str [195, 169]) = .ok s ∧
    fromRuby env0 .str [] s = .ok (.str [195]) :=
  ⟨.str [[195, 169]], rfl, rfl⟩

/-- **JSON values are not for `from_ruby`**: the `nil` that stands for a NaN is refused. -/
theorem C69_json_counterexample (env : Env) (k : Nat) (p : List Nat) : fromRuby env (.float k) p .nil = .error .arg := by
  simp [fromRuby, floatFromRuby, rescueType, Except.map]

/-! ### Concrete cases -/

/-- the names in ASCII -/
def nm (s : String) : Str := s.toList

/-- `struct { int32_t a; bool b; std::string s; Color c; std::vector<int16_t> v; }` -/
def ty0 : T := .comp (.cons (nm "a") (.int true 4) (.cons (nm "b") .bool (.cons (nm "s") .str
  (.cons (nm "c") (.enum [(nm "RED", 0), (nm "BLUE", 3)]) (.cons (nm "v") (.vec (.int true 2)) .nil)))))

/-- `{ a: -2, b: true, s: "hi", c: BLUE, v: [1, -1] }` -/
def v0 : V := .seq [.num [254, 255, 255, 255], .num [1], .str [104, 105], .num [3, 0, 0, 0], .seq [.num [1, 0], .num [255, 255]]]

theorem ty0_sound : Sound ty0 := by
  refine ⟨?_, .inr (.inr (.inl rfl)), trivial, trivial, ⟨⟨?_, ?_⟩, ?_⟩, .inr (.inl rfl), trivial⟩
  · show (["a".toList, "b".toList, "s".toList, "c".toList, "v".toList] : List Str).Nodup
    decide
  · show (["RED".toList, "BLUE".toList] : List Str).Nodup
    decide
  · intro p hp
    simp only [List.mem_cons, List.not_mem_nil, or_false] at hp
    rcases hp with rfl | rfl <;> decide
  · intro p hp
    simp only [List.mem_cons, List.not_mem_nil, or_false] at hp
    rcases hp with rfl | rfl <;> decide

theorem v0_ok : Ok ty0 v0 := by
  refine ⟨⟨.inr (.inr (.inl rfl)), rfl⟩, rfl, trivial, rfl, ?_, rfl⟩
  intro v hv
  simp only [List.mem_cons, List.not_mem_nil, or_false] at hv
  rcases hv with rfl | rfl
  · exact ⟨.inr (.inl rfl), rfl⟩
  · exact ⟨.inr (.inl rfl), rfl⟩

theorem v0_faithful : Faithful env0 ty0 v0 := by
  refine ⟨?_, .inr rfl, ?_, ⟨nm "BLUE", 3, List.mem_of_getElem? (i := 1) rfl, by unfold InRange; decide, ?_⟩, .inr ⟨id, ?_⟩, trivial⟩
  · intro h; cases h
  · show ∀ c ∈ utf8 [104, 105], c.length = 1
    decide
  · unfold LowBytes; decide
  · intro v hv
    simp only [List.mem_cons, List.not_mem_nil, or_false] at hv
    rcases hv with rfl | rfl
    · intro h; cases h
    · intro h; cases h

example (p : List Nat) : ∃ s, toSimple env0 .none ty0 v0 = .ok s ∧ fromRuby env0 ty0 p s = .ok v0 :=
  (C69_roundtrip_partial env0 env0_sane ty0 ty0_sound v0 v0_ok p).mpr v0_faithful

/-- the simple value is the one expected -/
example : toSimple env0 .none ty0 v0 = .ok (.hash [(nm "a", .int (-2)), (nm "b", .bool true), (nm "s", .str [[104], [105]]),
    (nm "c", .str [[66], [76], [85], [69]]), (nm "v", .arr [.int 1, .int (-1)])]) := rfl

example (v : V) (hv : Ok ty0 v) (hf : Faithful env0 ty0 v)
    (h : toSimple env0 .none ty0 v0 = toSimple env0 .none ty0 v) : v0 = v :=
  C69_injective env0 env0_sane ty0 ty0_sound v0 v v0_ok hv v0_faithful hf h

example : ∃ s, toJson env0 ty0 v0 = .ok s := C69_representable env0 .nil ty0 (by simp [ty0, Plain, PlainFields]) v0 v0_ok

/-- NaN -/
def nan0 : V := .num [0, 0, 0, 0, 0, 0, 248, 127]

example : toSimple env0 .none (.vec (.float 8)) (.seq [nan0]) = .ok (.arr [.float 0x7ff8000000000000]) := rfl
example : toJson env0 (.vec (.float 8)) (.seq [nan0]) = .ok (.arr [.nil]) := by
  rw [C69_json]; rfl
example : toSimple env0 .string (.vec (.float 8)) (.seq [nan0]) = .ok (.arr [.str (asciiStr "NaN")]) := by
  rw [C69_string_floats]; rfl
example : JsonOk (.arr [.nil]) := C69_json_finite env0 (.vec (.float 8)) (.seq [nan0]) _ rfl

/-- a hash with only the field `b`: the other fields are what `new` left there -/
example : fromRuby env0 ty0 [] (.hash [(nm "b", .bool true)]) =
    .ok (.seq [.num [0, 0, 0, 0], .num [1], .str [], .num [0, 0, 0, 0], .seq []]) := rfl
example : Ok ty0 (.seq [.num [0, 0, 0, 0], .num [1], .str [], .num [0, 0, 0, 0], .seq []]) :=
  C69_valid env0 env0_sane ty0 ty0_sound [] (.hash [(nm "b", .bool true)]) _ rfl
/-- a key that is not a field -/
example : fromRuby env0 ty0 [] (.hash [(nm "x", .bool true)]) = .error .arg := rfl
/-- a hash gives the fields the values of the hash -/
example : ∃ (j : Nat) (t : T) (v : V), ty0 = ty0 ∧ ([.num [0, 0, 0, 0], .num [1], .str [], .num [0, 0, 0, 0], .seq []] : List V)[j]? = some v ∧
    fromRuby env0 t [0] (.bool true) = .ok v := by
  obtain ⟨j, t, v, _, h2, h3⟩ := ((C69_hash env0 env0_sane _ ty0_sound [(nm "b", .bool true)] (by simp) []
    [.num [0, 0, 0, 0], .num [1], .str [], .num [0, 0, 0, 0], .seq []]).mp rfl).2.1 0 _ _ rfl
  exact ⟨j, t, v, rfl, h3, h2⟩

/-- `[RED, BLUE]` in an array, and in a container -/
example : ∃ s, toSimple env0 .none (.arr 2 (.enum [(nm "RED", 0), (nm "BLUE", 3)])) (.seq [.num [0, 0, 0, 0], .num [3, 0, 0, 0]]) = .ok s ∧
    fromRuby env0 (.arr 2 (.enum [(nm "RED", 0), (nm "BLUE", 3)])) [] s = .ok (.seq [.num [0, 0, 0, 0], .num [3, 0, 0, 0]]) := ⟨_, rfl, rfl⟩
example : ∃ s, toSimple env0 .none (.vec (.enum [(nm "RED", 0), (nm "BLUE", 3)])) (.seq [.num [0, 0, 0, 0], .num [3, 0, 0, 0]]) = .ok s ∧
    fromRuby env0 (.vec (.enum [(nm "RED", 0), (nm "BLUE", 3)])) [] s = .error .type := ⟨_, rfl, rfl⟩
/-- the undeclared value 1 -/
example : ∃ s e, toSimple env0 .none (.enum [(nm "RED", 0), (nm "BLUE", 3)]) (.num [1, 0, 0, 0]) = .ok (.str s) ∧ s.flatten = [] ∧
    fromRuby env0 (.enum [(nm "RED", 0), (nm "BLUE", 3)]) [] (.str s) = .error e := ⟨_, _, rfl, rfl, rfl⟩
example : ∃ s, toSimple env0 .none (.int false 8) (.num [0, 0, 0, 0, 0, 0, 0, 128]) = .ok s ∧
    fromRuby env0 (.int false 8) [] s = .error .range :=
  C69_uint64_counterexample env0 [0, 0, 0, 0, 0, 0, 0, 128] rfl (by decide) []

end Verif.RubySimple
