import Verif.Basic

/-!
C67: fields that have another class in Ruby (`Typelib.convert_to_ruby`, `convert_from_ruby`). The accessors of such a field
(`value.time`, `value.time = t`) work on a Ruby object that is remembered by the compound; it is written back to the C++
value when this one is used (`to_byte_array`, `==`, `Typelib.copy`...). bindings/ruby/lib/typelib/compound_type.rb:78-113 and
173-195, lib/typelib.rb:232-270 and 304-334.
-/

namespace Verif.RubyConverted
open Verif

/-! ### Model -/

/-- The conversions of the types (`k` is a type, `B` its C++ values, `R` Ruby objects). A block of `convert_from_ruby` can
raise. -/
structure Conv (B R : Type) where
  toRuby : Nat → B → R
  fromRuby : Nat → R → Option B

variable {B R : Type}

mutual
/-- A Ruby object for a compound: its fields with, for each one, the C++ value and what the object remembers.
`plain`: a field that is not converted. `conv`: the type `k` of the field has a conversion; `iv` is the instance variable
`@__typelib_<name>`, `none` is `nil`. `comp`: a compound which has converted fields; `child` is the Ruby object for it
(`@fields[name]`; as long as it is not created it remembers nothing) and `iv` the instance variable. -/
inductive Obj (B R : Type) where
  | nil
  | plain (n : Str) (m : B) (r : Obj B R)
  | conv (n : Str) (k : Nat) (m : B) (iv : Option R) (r : Obj B R)
  | comp (n : Str) (child : Obj B R) (iv : Var B R) (r : Obj B R)
/-- the instance variable for a compound: `nil`, the object of `@fields[name]` itself, or another object of the type -/
inductive Var (B R : Type) where
  | nil
  | self
  | other (o : Obj B R)
end

/-- C++ values of compounds -/
inductive Mem (B : Type) where
  | nil
  | plain (n : Str) (m : B) (r : Mem B)
  | conv (n : Str) (k : Nat) (m : B) (r : Mem B)
  | comp (n : Str) (c : Mem B) (r : Mem B)

/-- the C++ value that an object refers to -/
def Obj.mem : Obj B R → Mem B
  | .nil => .nil
  | .plain n m r => .plain n m r.mem
  | .conv n k m _ r => .conv n k m r.mem
  | .comp n c _ r => .comp n c.mem r.mem

/-- a new object for a C++ value -/
def fresh : Mem B → Obj B R
  | .nil => .nil
  | .plain n m r => .plain n m (fresh r)
  | .conv n k m r => .conv n k m none (fresh r)
  | .comp n c r => .comp n (fresh c) .nil (fresh r)

/-- `invalidate_changes_from_converted_types` (compound_type.rb:81-89) -/
def clear : Obj B R → Obj B R
  | .nil => .nil
  | .plain n m r => .plain n m (clear r)
  | .conv n k m _ r => .conv n k m none (clear r)
  | .comp n c _ r => .comp n (clear c) .nil (clear r)

/-- The C++ value is overwritten by another value of its type; what the objects remember stays (`do_copy`,
`do_from_buffer`). -/
def setMem : Obj B R → Mem B → Obj B R
  | .plain n _ r, .plain _ m' r' => .plain n m' (setMem r r')
  | .conv n k _ iv r, .conv _ _ m' r' => .conv n k m' iv (setMem r r')
  | .comp n c iv r, .comp _ c' r' => .comp n (setMem c c') iv (setMem r r')
  | x, _ => x

/-- `apply_changes_from_converted_types` (compound_type.rb:91-102), with `set_field` (compound_type.rb:485-511),
`Typelib.from_ruby` (typelib.rb:304-312: the object applies its changes), `raw_set` (compound_type.rb:451-462) and
`Typelib.copy` (typelib.rb:243-260: the target forgets what it remembers, the source applies its changes). Changes are applied
up to three times to the same object: the other times there is nothing to do (`apply_again`). `none`: an exception. -/
def apply (cv : Conv B R) : Obj B R → Option (Obj B R)
  | .nil => some .nil
  | .plain n m r => do
    let r ← apply cv r
    some (.plain n m r)
  | .conv n k m none r => do
    let r ← apply cv r
    some (.conv n k m none r)
  | .conv n k _ (some v) r => do
    let m ← cv.fromRuby k v
    let r ← apply cv r
    some (.conv n k m (some v) r)
  | .comp n c .nil r => do
    let r ← apply cv r
    some (.comp n c .nil r)
  | .comp n c .self r => do
    let c ← apply cv c
    let r ← apply cv r
    some (.comp n (clear c) .self r)
  | .comp n c (.other o) r => do
    let c ← apply cv c
    let o ← apply cv o
    let r ← apply cv r
    some (.comp n (setMem (clear c) o.mem) (.other o) r)

/-- how a program gets to the object of a compound field: the accessor (`value.inner`), `value['inner']` (also `get`,
`get_field`, `each_field`), `value.raw_inner` (also `raw_get`). An object that was obtained before is reached
as `value.raw_inner` if it is the object in `@fields`. -/
inductive Step where
  | acc (n : Str)
  | get (n : Str)
  | raw (n : Str)
  deriving DecidableEq

def Step.name : Step → Str
  | .acc n => n
  | .get n => n
  | .raw n => n

/-- one step, then `g` on the object. The accessor (compound_type.rb:182-190) gives what the instance variable has, otherwise
what `get` gives, and remembers it; `get` (compound_type.rb:437-447) goes through `Typelib.to_ruby` (typelib.rb:232-237), which
applies the changes of the object, `raw_get` (compound_type.rb:449-451) does not. -/
def step (cv : Conv B R) {α : Type} (g : Obj B R → Option (Obj B R × α)) (s : Step) : Obj B R → Option (Obj B R × α)
  | .nil => none
  | .plain m b r => if m = s.name then none else (step cv g s r).map fun x => (.plain m b x.1, x.2)
  | .conv m k b iv r => if m = s.name then none else (step cv g s r).map fun x => (.conv m k b iv x.1, x.2)
  | .comp m c iv r =>
    if m = s.name then
      match s, iv with
      | .acc _, .nil => do
        let c ← apply cv c
        let x ← g c
        some (.comp m x.1 .self r, x.2)
      | .acc _, .self => (g c).map fun x => (.comp m x.1 .self r, x.2)
      | .acc _, .other o => (g o).map fun x => (.comp m c (.other x.1) r, x.2)
      | .get _, iv => do
        let c ← apply cv c
        let x ← g c
        some (.comp m x.1 iv r, x.2)
      | .raw _, iv => (g c).map fun x => (.comp m x.1 iv r, x.2)
    else (step cv g s r).map fun x => (.comp m c iv x.1, x.2)

/-- several steps -/
def steps (cv : Conv B R) {α : Type} (g : Obj B R → Option (Obj B R × α)) : List Step → Obj B R → Option (Obj B R × α)
  | [], x => g x
  | s :: p, x => step cv (steps cv g p) s x

/-- a field of the object -/
inductive Field (B R : Type) where
  | plain (m : B)
  | conv (k : Nat) (m : B) (iv : Option R)
  | comp (c : Obj B R) (iv : Var B R)

/-- `h` on the field of name `n`: `none` if it raises, or if there is no such field -/
def onField {α : Type} (h : Field B R → Option (Field B R × α)) (n : Str) : Obj B R → Option (Obj B R × α)
  | .nil => none
  | .plain m b r =>
    if m = n then
      match h (.plain b) with
      | some (.plain b, a) => some (.plain m b r, a)
      | _ => none
    else (onField h n r).map fun x => (.plain m b x.1, x.2)
  | .conv m k b iv r =>
    if m = n then
      match h (.conv k b iv) with
      | some (.conv _ b iv, a) => some (.conv m k b iv r, a)
      | _ => none
    else (onField h n r).map fun x => (.conv m k b iv x.1, x.2)
  | .comp m c iv r =>
    if m = n then
      match h (.comp c iv) with
      | some (.comp c iv, a) => some (.comp m c iv r, a)
      | _ => none
    else (onField h n r).map fun x => (.comp m c iv x.1, x.2)

/-- what a program does with a compound -/
inductive Act (B R : Type) where
  /-- `x.n` where the field is converted -/
  | read (n : Str)
  /-- `x.n = v` where the field is converted; `none` is `nil` -/
  | write (n : Str) (v : Option R)
  /-- `x.n` where the field is not converted -/
  | readPlain (n : Str)
  /-- `x.n = v` where the field is not converted -/
  | writePlain (n : Str) (b : B)
  /-- `x.n = o` where the field is a compound with converted fields; the program does not use `o` after that -/
  | assign (n : Str) (o : Obj B R)
  /-- `x['n']` (`get`, `get_field`) on a converted field -/
  | getField (n : Str)
  /-- `x['n'] = v` (`set`, `set_field`) on a converted field -/
  | set (n : Str) (v : R)
  /-- `x.raw_n = b`, `x.raw_set('n', b)` on a converted field, `b` a typelib value -/
  | rawSet (n : Str) (b : B)
  /-- `x.to_byte_array`; likewise `x == y`, `x.to_simple_value`: they use the C++ value of `x` after its changes have been applied -/
  | bytes
  /-- `x.from_buffer(y.to_byte_array)` -/
  | fromBuffer (m : Mem B)
  /-- `Typelib.copy(x, o)` -/
  | copyFrom (o : Obj B R)
  /-- `x.dup` -/
  | dup

/-- what it gets -/
inductive Out (B R : Type) where
  | unit
  | ruby (r : R)
  | val (b : B)
  | mem (m : Mem B)

/-- the end of `dup` (compound_type.rb:104-114): the variables of *the original* are replaced by duplicates. A converted
object is not distinguished from its duplicate; that of a compound object refers to other memory. -/
def dupVars : Obj B R → Obj B R
  | .nil => .nil
  | .plain n m r => .plain n m (dupVars r)
  | .conv n k m iv r => .conv n k m iv (dupVars r)
  | .comp n c .nil r => .comp n c .nil (dupVars r)
  | .comp n c .self r => .comp n c (.other (fresh c.mem)) (dupVars r)
  | .comp n c (.other o) r => .comp n c (.other (fresh o.mem)) (dupVars r)

/-- the actions (the accessors: compound_type.rb:173-195 and 234-247; `get`, `set`: 437-511; `to_byte_array`: type.rb:709-717;
`from_buffer`: type.rb:660-682; `Typelib.copy`: typelib.rb:243-260; `dup`: type.rb:276-279, compound_type.rb:104-114) -/
def act (cv : Conv B R) : Act B R → Obj B R → Option (Obj B R × Out B R)
  | .read n => onField (fun
    | .conv k m (some v) => some (.conv k m (some v), .ruby v)
    | .conv k m none => some (.conv k m (some (cv.toRuby k m)), .ruby (cv.toRuby k m))
    | _ => none) n
  | .write n v => onField (fun
    | .conv k m _ => some (.conv k m v, .unit)
    | _ => none) n
  | .readPlain n => onField (fun
    | .plain m => some (.plain m, .val m)
    | _ => none) n
  | .writePlain n b => onField (fun
    | .plain _ => some (.plain b, .unit)
    | _ => none) n
  | .assign n o => onField (fun
    | .comp c _ => some (.comp c (.other o), .unit)
    | _ => none) n
  | .getField n => onField (fun
    | .conv k m iv => some (.conv k m iv, .ruby (cv.toRuby k m))
    | _ => none) n
  | .set n v => onField (fun
    | .conv k _ iv => (cv.fromRuby k v).map fun m => (.conv k m iv, .unit)
    | _ => none) n
  | .rawSet n b => onField (fun
    | .conv k _ iv => some (.conv k b iv, .unit)
    | _ => none) n
  | .bytes => fun x => (apply cv x).map fun x => (x, .mem x.mem)
  | .fromBuffer m => fun x => some (setMem x m, .unit)
  | .copyFrom o => fun x => (apply cv o).map fun o => (setMem (clear x) o.mem, .unit)
  | .dup => fun x => (apply cv x).map fun x => (dupVars x, .mem x.mem)

/-- a program: actions on the objects reached from a value -/
def run (cv : Conv B R) : Obj B R → List (List Step × Act B R) → Option (Obj B R × List (Out B R))
  | x, [] => some (x, [])
  | x, (p, a) :: as => do
    let y ← steps cv (act cv a) p x
    let z ← run cv y.1 as
    some (z.1, y.2 :: z.2)

end Verif.RubyConverted
