import Verif.RubyStrings
import Verif.RubyBytes

/-!
C69: values as plain Ruby objects: `Type#to_simple_value`, `Type#to_json_value` and `Typelib.from_ruby`
(bindings/ruby/lib/typelib.rb:297-335, type.rb:795-820, numeric_type.rb, enum_type.rb, array_type.rb:105-120, 180-182, 211-228,
container_type.rb:185-202, 282-312, 407-427, compound_type.rb:115-130, 285-302, 480-522, standard_convertions.rb;
ext/convert.cc, ext/specialized_types.cc:102-127, 464-492).

Types and values are trees: the value of a type is what the program can see of it, without the padding. Values wrapped by
Ruby objects with pending converted fields are C67's subject: here nothing is pending. The special Ruby methods that a field
name may hide are C64's subject; field names are those of the API (`get`, `set`). The option `pack_simple_arrays` is C65's
subject: here it is not given.
-/

namespace Verif.RubySimple
open Verif Verif.RubyConvert
open Verif.Value (leVal)
open Verif.Layout (leBytes)
open Verif.RubyBytes (RStr packA)

/-! ### Types and values -/

mutual
/-- A type class. `char` and `bool` are the numeric types with the names `CHAR_T.name` (`/char` is an alias of it) and `/bool`,
which have conversions of their own (standard_convertions.rb:1-16, 62-77). `other`: pointers, opaques, null types. -/
inductive T where
  | int (signed : Bool) (size : Nat)
  | char
  | bool
  | float (size : Nat)
  | enum (syms : List (Str × Int))
  | str
  | arr (n : Nat) (e : T)
  | vec (e : T)
  | comp (fs : Fs)
  | other
/-- the fields of a compound, in order -/
inductive Fs where
  | nil
  | cons (name : Str) (t : T) (rest : Fs)
end

/-- what a value holds: the bytes of a number or an enumeration, the bytes of a string, the elements of an array or a
container, the fields of a compound in order -/
inductive V where
  | num (bytes : List UInt8)
  | str (bytes : List UInt8)
  | seq (l : List V)

/-- plain Ruby objects. A `Float` is the 64 bits of a `double`. The keys of a `Hash` are strings, in insertion order. -/
inductive S where
  | int (z : Int)
  | float (d : UInt64)
  | bool (b : Bool)
  | nil
  | str (s : RStr)
  | arr (l : List S)
  | hash (l : List (Str × S))

/-- the exceptions: `ArgumentError` (which `Typelib::UnknownConversionRequested` is: typelib.rb:274), `TypeError`, `RangeError`,
`NotImplementedError`, `NoMethodError`; `ub` is undefined behaviour of the C++ code -/
inductive Exn where
  | arg
  | type
  | range
  | notImplemented
  | noMethod
  | ub
  deriving DecidableEq, Repr

/-- What the code below depends on and that is not in the repository: the characters of a string in the default encoding, the
code point of a character (`none`: it is not valid), conversions between `float`, `double` and integers, and what the memory that `new`
returns holds before it is assigned (`junk`; the list identifies the call). -/
structure Env where
  chars : List UInt8 → RStr
  ord : List UInt8 → Option Int
  widen : List UInt8 → UInt64
  narrow : UInt64 → List UInt8
  ofInt : Int → UInt64
  trunc : UInt64 → Int
  junk : List Nat → T → V

/-! ### Numbers -/

/-- `Float#nan?` -/
def isNan (d : UInt64) : Bool := d.toNat / 2 ^ 52 % 2048 == 2047 && d.toNat % 2 ^ 52 != 0
/-- `Float#infinite?` -/
def isInf (d : UInt64) : Bool := d.toNat / 2 ^ 52 % 2048 == 2047 && d.toNat % 2 ^ 52 == 0
/-- the sign bit -/
def isNeg (d : UInt64) : Bool := 2 ^ 63 ≤ d.toNat

/-- a memory that starts with these bytes -/
def memOf (bs : List UInt8) : Mem := fun i => bs.getD i 0

/-- the Ruby exception of an error of `Verif.RubyConvert` -/
def exnOf : Err → Exn
  | .rbArg => .arg
  | .rbRange => .range
  | _ => .type

/-- `RubyGetter` on an integer (convert.cc:16-23) -/
def intToRuby (signed : Bool) (size : Nat) (bs : List UInt8) : Except Exn Int :=
  match getInt signed size (memOf bs) 0 with
  | .ok (.int z) => .ok z
  | _ => .error .type

/-- `RubyGetter` on a `float` or a `double` (convert.cc:24-25) -/
def floatToRuby (env : Env) (size : Nat) (bs : List UInt8) : Except Exn UInt64 :=
  if size = 4 then .ok (env.widen bs) else if size = 8 then .ok (UInt64.ofNat (leVal bs)) else .error .type

/-- `RubySetter` on an integer (convert.cc:87-94, 165-196), on memory that `new` returned; all the bytes are written -/
def putInt (signed : Bool) (size : Nat) (v : RVal) : Except Exn (List UInt8) :=
  match setInt signed size (memOf []) 0 v with
  | (m, .ok _) => .ok (load m 0 size)
  | (_, .exn e) => .error (exnOf e)
  | (_, _) => .error .ub

/-- `RubySetter` on an enumeration (convert.cc:130-134) of 4 bytes -/
def putEnum (syms : List (Str × Int)) (v : RVal) : Except Exn (List UInt8) :=
  match setEnum syms (memOf []) 0 v with
  | (m, .ok _) => .ok (load m 0 4)
  | (_, .exn e) => .error (exnOf e)
  | (_, _) => .error .ub

/-- `RubySetter` on a `float` or a `double` (convert.cc:95-96) -/
def putFloat (env : Env) (size : Nat) (d : UInt64) : Except Exn (List UInt8) :=
  if size = 4 then .ok (env.narrow d) else if size = 8 then .ok (leBytes 8 d.toNat) else .error .type

/-- A Ruby object as `NUM2INT` and `enum_value` see it. The objects that are neither integers nor strings nor floats are all
refused with a `TypeError`, as `nil` is. -/
def rval : S → RVal
  | .int z => .int z
  | .str s => .str s.flatten
  | _ => .nil

/-- `typelib_from_ruby` on an integer (convert.cc:165-196). `NUM2INT` and the like truncate a `Float`, and raise a `RangeError`
for NaN and infinities. -/
def intFromRuby (env : Env) (signed : Bool) (size : Nat) : S → Except Exn (List UInt8)
  | .float d => if isNan d || isInf d then .error .range else putInt signed size (.int (env.trunc d))
  | s => putInt signed size (rval s)

/-- `typelib_from_ruby` on a `float` or a `double`: `NUM2DBL` -/
def floatFromRuby (env : Env) (size : Nat) : S → Except Exn (List UInt8)
  | .float d => putFloat env size d
  | .int z => putFloat env size (env.ofInt z)
  | _ => .error .type

/-- the `rescue TypeError` of `NumericType.from_ruby` (numeric_type.rb:16-22) -/
def rescueType {α : Type} : Except Exn α → Except Exn α
  | .error .type => .error .arg
  | r => r

/-! ### Lists of values -/

/-- `each`/`map` on a list, stopping at the first exception -/
def mapAll {α β : Type} (f : α → Except Exn β) : List α → Except Exn (List β)
  | [] => .ok []
  | a :: l =>
    match f a with
    | .error e => .error e
    | .ok b =>
      match mapAll f l with
      | .error e => .error e
      | .ok bs => .ok (b :: bs)

/-- the same with the index -/
def mapIdx {α β : Type} (f : Nat → α → Except Exn β) : Nat → List α → Except Exn (List β)
  | _, [] => .ok []
  | i, a :: l =>
    match f i a with
    | .error e => .error e
    | .ok b =>
      match mapIdx f (i + 1) l with
      | .error e => .error e
      | .ok bs => .ok (b :: bs)

/-- `hash[key] = value` -/
def hashPut (k : Str) (s : S) : List (Str × S) → List (Str × S)
  | [] => [(k, s)]
  | p :: l => if p.1 = k then (k, s) :: l else p :: hashPut k s l

/-- the bytes of a symbol's name (`Symbol#to_s`); each `Char` of a C name is a byte -/
def nameBytes (n : Str) : List UInt8 := n.map fun c => UInt8.ofNat c.toNat

/-! ### To Ruby -/

/-- the option `special_float_values` -/
inductive Special where
  | none
  | string
  | nil
  deriving DecidableEq, Repr

/-- a Ruby string with ASCII characters -/
def asciiStr (s : String) : RStr := s.toList.map fun c => [UInt8.ofNat c.toNat]

/-- the end of `NumericType#to_simple_value` on a float (numeric_type.rb:94-113) -/
def special (opt : Special) (d : UInt64) : S :=
  match opt with
  | .none => .float d
  | .string =>
    if isNan d then .str (asciiStr "NaN")
    else if isInf d then (if isNeg d then .str (asciiStr "-Infinity") else .str (asciiStr "Infinity"))
    else .float d
  | .nil => if isNan d || isInf d then .nil else .float d

mutual
/-- `to_simple_value(special_float_values: opt)`: numeric_type.rb:92-113 (`/bool`: standard_convertions.rb:14-16), enum_type.rb:11-13
(`nil.to_s` is `""` for an undeclared value), `/std/string`: standard_convertions.rb:31-37, 46-48, array_type.rb:217-227,
container_type.rb:416-427, compound_type.rb:513-522, type.rb:807-809. The last case does not occur: it is not a value of the
type. -/
def toSimple (env : Env) (opt : Special) : T → V → Except Exn S
  | .int sg k, .num bs => (intToRuby sg k bs).map .int
  | .char, .num bs => (intToRuby true 1 bs).map .int
  | .bool, .num bs => (intToRuby true 1 bs).map fun z => .bool (z != 0)
  | .float k, .num bs => (floatToRuby env k bs).map (special opt)
  | .enum syms, .num bs =>
    .ok (.str (env.chars (match getEnum syms (memOf bs) 0 with
      | .sym n => nameBytes n
      | _ => [])))
  | .str, .str bs => .ok (.str (env.chars bs))
  | .arr _ e, .seq l => (mapAll (toSimple env opt e) l).map .arr
  | .vec e, .seq l => (mapAll (toSimple env opt e) l).map .arr
  | .comp fs, .seq l => (fieldsToSimple env opt fs l []).map .hash
  | .other, _ => .error .notImplemented
  | _, _ => .error .type
/-- the loop of `CompoundType#to_simple_value` (compound_type.rb:517-522) -/
def fieldsToSimple (env : Env) (opt : Special) : Fs → List V → List (Str × S) → Except Exn (List (Str × S))
  | .nil, _, acc => .ok acc
  | .cons n t rest, v :: vs, acc =>
    match toSimple env opt t v with
    | .error e => .error e
    | .ok s => fieldsToSimple env opt rest vs (hashPut n s acc)
  | .cons _ _ _, [], _ => .error .type
end

/-- `to_json_value` (type.rb:818-820) -/
def toJson (env : Env) : T → V → Except Exn S := toSimple env .nil

/-! ### From Ruby -/

/-- `NumericType.from_ruby` on an integer, and the conversions of `/bool` and `CHAR_T` that end there -/
def numFromRuby (env : Env) (signed : Bool) (size : Nat) (s : S) : Except Exn V :=
  (rescueType (intFromRuby env signed size s)).map .num

/-- `Typelib.from_ruby` on `CHAR_T` (standard_convertions.rb:62-69): strings of one character -/
def charFromRuby (env : Env) : S → Except Exn V
  | .str [c] =>
    match env.ord c with
    | some z => numFromRuby env true 1 (.int z)
    | none => .error .arg
  | .str _ => .error .arg
  | s => numFromRuby env true 1 s

/-- the byte of a character value -/
def V.bytes : V → List UInt8
  | .num bs => bs
  | .str bs => bs
  | .seq _ => []

/-- assignments in order, each numbered; `set_hash` (compound_type.rb:116-120) -/
def assignAll (f : Nat → Str → S → List V → Except Exn (List V)) : Nat → List (Str × S) → List V → Except Exn (List V)
  | _, [], cur => .ok cur
  | i, (k, s) :: l, cur =>
    match f i k s cur with
    | .error e => .error e
    | .ok cur' => assignAll f (i + 1) l cur'

/-- names of the fields -/
def Fs.names : Fs → List Str
  | .nil => []
  | .cons n _ rest => n :: rest.names

/-- `set_array` (compound_type.rb:124-130): `fields[i][0]` is a `NoMethodError` out of the fields -/
def assignArray (f : Nat → Str → S → List V → Except Exn (List V)) :
    Nat → List Str → List S → List V → Except Exn (List V)
  | _, _, [], cur => .ok cur
  | _, [], _ :: _, _ => .error .noMethod
  | i, k :: ks, s :: l, cur =>
    match f i k s cur with
    | .error e => .error e
    | .ok cur' => assignArray f (i + 1) ks l cur'

/-- how `from_string` ended on a fresh array of `n` characters -/
def charsResult (n : Nat) : Mem × Res Unit → Except Exn V
  | (m, .ok _) => .ok (.seq ((load m 0 n).map fun b => .num [b]))
  | (_, .exn e) => .error (exnOf e)
  | (_, _) => .error .ub

/-- `Type::from_string` on an array of characters (standard_convertions.rb:79-83), C53 -/
def charsFromRuby (n : Nat) (s : RStr) : Except Exn V :=
  charsResult n (RubyConvert.fromString n (memOf []) 0 s.flatten)

/-- a string to an array of elements of type `e`: there is a conversion for characters only -/
def stringToArray (e : T) (n : Nat) (s : RStr) : Except Exn V :=
  match e with
  | .char => charsFromRuby n s
  | _ => .error .arg

/-- the fields of a value of a compound that `new` returned -/
def V.elems : V → List V
  | .seq l => l
  | _ => []

/-- `do_push(__element_from_ruby(v))` (container_type.rb:302-311, 282-299, specialized_types.cc:464-492): element types with
conversions from Ruby go through `Typelib.from_ruby` (`conv`), the other numbers through `typelib_from_ruby`, and for the rest
(enumerations, pointers) a Typelib value is needed. -/
def pushed (env : Env) (e : T) (conv : S → Except Exn V) (s : S) : Except Exn V :=
  match e with
  | .int sg k => (intFromRuby env sg k s).map .num
  | .float k => (floatFromRuby env k s).map .num
  | .enum _ => .error .type
  | .other => .error .type
  | _ => conv s

mutual
/-- `Typelib.from_ruby(value, type)` (typelib.rb:304-335), for a plain Ruby object: the conversion registered for the class of the
object if there is one (arrays: array_type.rb:108-119, containers: container_type.rb:191-195, compounds: compound_type.rb:285-299,
the rest in standard_convertions.rb), the type's `from_ruby` (numeric_type.rb:16-22, enum_type.rb:15-19), otherwise
`UnknownConversionRequested`. Elements of arrays and fields are converted by `Typelib.from_ruby` and copied
(array_type.rb:180-182, compound_type.rb:501-507). -/
def fromRuby (env : Env) : T → List Nat → S → Except Exn V
  | .int sg k, _, s => numFromRuby env sg k s
  | .char, _, s => charFromRuby env s
  | .bool, _, s =>
    match s with
    | .bool b => numFromRuby env false 1 (.int (if b then 1 else 0))
    | s => numFromRuby env false 1 s
  | .float k, _, s => (rescueType (floatFromRuby env k s)).map .num
  | .enum syms, _, s => (putEnum syms (rval s)).map .num
  | .str, _, s =>
    match s with
    | .str s => .ok (.str (packA s.length s.flatten))
    | .arr l => (mapAll (charFromRuby env) l).map fun vs => .str (vs.flatMap V.bytes)
    | _ => .error .arg
  | .arr n e, p, s =>
    match s with
    | .arr l =>
      if l.length ≠ n then .error .arg
      else (mapIdx (fun i s => fromRuby env e (i :: p) s) 0 l).map .seq
    | .str s => stringToArray e n s
    | _ => .error .arg
  | .vec e, p, s =>
    match s with
    | .arr l => (mapIdx (fun i s => pushed env e (fromRuby env e (i :: p)) s) 0 l).map .seq
    | _ => .error .arg
  | .comp fs, p, s =>
    match s with
    | .hash l =>
      (assignAll (fun i k s cur => setField env fs (i :: p) k s cur) 0 l (env.junk p (.comp fs)).elems).map .seq
    | .arr l =>
      (assignArray (fun i k s cur => setField env fs (i :: p) k s cur) 0 fs.names l (env.junk p (.comp fs)).elems).map .seq
    | _ => .error .arg
  | .other, _, _ => .error .arg
/-- `set(name, value)` (compound_type.rb:501-511): an `ArgumentError` if there is no such field -/
def setField (env : Env) : Fs → List Nat → Str → S → List V → Except Exn (List V)
  | .nil, _, _, _, _ => .error .arg
  | .cons n t rest, p, k, s, cur =>
    if n = k then
      match fromRuby env t p s with
      | .error e => .error e
      | .ok v => .ok (v :: cur.tail)
    else
      match setField env rest p k s cur.tail with
      | .error e => .error e
      | .ok vs => .ok (cur.headD (.seq []) :: vs)
end

end Verif.RubySimple
