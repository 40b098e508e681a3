import Verif.ValueCodec
import Verif.TypeGraph

/-!
C52: conversions between Ruby integers, symbols and strings and the C values of numeric and enum types
(bindings/ruby/ext/convert.cc, bindings/ruby/ext/specialized_types.cc:102-127, bindings/ruby/ext/typelib.hh:76-83, and the
dispatch of typelib/value.cc:17-56).

The machine is the one typelib is used on: little endian, two's complement, `int` of 4 bytes. Floating point types are not
modelled. The Ruby C API macros are modelled on Ruby `Integer`s (of any magnitude).
-/

namespace Verif.RubyConvert
open Verif Verif.Graph
open Verif.Value (leVal)
open Verif.Layout (leBytes leBytes_length)

/-! ### Memory -/

/-- the bytes of the process -/
abbrev Mem := Nat → UInt8

/-- `k` bytes from address `a` -/
def load (m : Mem) (a : Nat) : Nat → List UInt8
  | 0 => []
  | k + 1 => m a :: load m (a + 1) k

/-- write bytes at address `a` -/
def store (m : Mem) (a : Nat) (bs : List UInt8) : Mem :=
  fun x => if a ≤ x ∧ x < a + bs.length then bs.getD (x - a) 0 else m x

/-- the number of `k` bytes whose unsigned reading is `n`, read as two's complement -/
def toSigned (k : Nat) (n : Nat) : Int := if 2 * n < 256 ^ k then n else (n : Int) - 256 ^ k

/-- reading an `intN_t` / `uintN_t` of `k` bytes -/
def readInt (signed : Bool) (k : Nat) (m : Mem) (a : Nat) : Int :=
  if signed then toSigned k (leVal (load m a k)) else leVal (load m a k)

/-- assigning `z` to an `intN_t` / `uintN_t` of `k` bytes: the conversion keeps the low bytes -/
def writeInt (k : Nat) (m : Mem) (a : Nat) (z : Int) : Mem := store m a (leBytes k (z % 256 ^ k).toNat)

/-! ### Ruby C API -/

/-- a Ruby object: an `Integer`, a `Symbol`, a `String` (its bytes), `nil` -/
inductive RVal where
  | int (z : Int)
  | sym (s : Str)
  | str (bytes : List UInt8)
  | nil
  deriving DecidableEq, Repr

/-- `INT2NUM`/`INT2FIX` of an integer: its argument is converted to `int` (INT2FIX converts to `long`, which is the same for
the 8 and 16 bits types it is used on) -/
def int2num (z : Int) : Int := toSigned 4 (z % 256 ^ 4).toNat

/-- `NUM2INT`: `RangeError` out of `int` -/
def num2int (z : Int) : Res Int := if -2147483648 ≤ z ∧ z < 2147483648 then .ok z else .exn .rbRange

/-- `NUM2UINT`: negative numbers down to `INT_MIN` are accepted, and converted to `unsigned int` -/
def num2uint (z : Int) : Res Int := if -2147483648 ≤ z ∧ z < 4294967296 then .ok (z % 4294967296) else .exn .rbRange

/-- `NUM2LL`: `RangeError` out of `long long` -/
def num2ll (z : Int) : Res Int :=
  if -9223372036854775808 ≤ z ∧ z < 9223372036854775808 then .ok z else .exn .rbRange

/-! ### Numbers -/

/-- `RubyGetter::visit_` of the integer types (convert.cc:16-23) behind `integer_cast` (value.cc:17-29);
`UnsupportedType` for another size -/
def getInt (signed : Bool) (size : Nat) (m : Mem) (a : Nat) : Res RVal :=
  match signed, size with
  | true, 1 => .ok (.int (int2num (readInt true 1 m a)))
  | false, 1 => .ok (.int (int2num (readInt false 1 m a)))
  | true, 2 => .ok (.int (int2num (readInt true 2 m a)))
  | false, 2 => .ok (.int (int2num (readInt false 2 m a)))
  | true, 4 => .ok (.int (int2num (readInt true 4 m a)))
  | false, 4 => .ok (.int (int2num (readInt false 4 m a)))
  | true, 8 => .ok (.int (readInt true 8 m a))
  | false, 8 => .ok (.int (readInt false 8 m a))
  | _, _ => .exn .exception

/-- the macro that `RubySetter::visit_` applies for each integer type (convert.cc:87-94) -/
def num2c (signed : Bool) (size : Nat) : Option (Int → Res Int) :=
  match signed, size with
  | true, 1 => some num2int
  | false, 1 => some num2int
  | true, 2 => some num2int
  | false, 2 => some num2uint
  | true, 4 => some num2int
  | false, 4 => some num2uint
  | true, 8 => some num2ll
  | false, 8 => some num2ll
  | _, _ => none

/-- `typelib_from_ruby` on an integer type (convert.cc:87-94, 165-196) given a Ruby object that is not a Typelib value:
the memory afterwards, and how the call ends. `NUM2INT` of a `String`, a `Symbol` or `nil` is a `TypeError`; of an
`UnsupportedType` (other sizes) too. -/
def setInt (signed : Bool) (size : Nat) (m : Mem) (a : Nat) (v : RVal) : Mem × Res Unit :=
  match num2c signed size with
  | none => (m, .exn .rbType)
  | some f =>
    match v with
    | .int z =>
      match f z with
      | .ok c => (writeInt size m a c, .ok ())
      | .exn e => (m, .exn e)
      | .ub => (m, .ub)
      | .fuel => (m, .fuel)
    | _ => (m, .exn .rbType)

/-! ### Enumerations -/

/-- the C string of a Ruby string: up to its first NUL byte, each byte being one `char` -/
def cstr (bytes : List UInt8) : Str := (bytes.takeWhile (· ≠ 0)).map fun b => Char.ofNat b.toNat

/-- `RubyGetter::visit_(Enum::integral_type&, Enum const&)` (convert.cc:65-69) with `cxx2rb::enum_symbol` (typelib.hh:76-83)
and `Enum::get(value)` (typemodel.cc:498-507). `TypeDispatch` reads an `Enum::integral_type`, an `int`
(value.cc:52-56). -/
def getEnum (syms : List (Str × Int)) (m : Mem) (a : Nat) : RVal :=
  match syms.find? (fun p => p.2 == readInt true 4 m a) with
  | none => .nil
  | some p => .sym p.1

/-- `e.get(name)` (typemodel.cc:490-497) -/
def enumByName (syms : List (Str × Int)) (n : Str) : Res Int :=
  match syms.find? (fun p => p.1 == n) with
  | none => .exn .rbArg
  | some p => .ok p.2

/-- `rb2cxx::enum_value` (specialized_types.cc:102-127). `TYPE(v) == T_FIXNUM` for the integers of 63 bits; the other integers
go to `StringValuePtr`, a `TypeError`. `FIX2INT` raises `RangeError` out of `int`. -/
def enumValue (syms : List (Str × Int)) : RVal → Res Int
  | .int z =>
    if -4611686018427387904 ≤ z ∧ z < 4611686018427387904 then
      num2int z >>= fun v => if syms.any (fun p => p.2 == v) then .ok v else .exn .rbArg
    else .exn .rbType
  | .sym n => enumByName syms n
  | .str b => enumByName syms (cstr b)
  | .nil => .exn .rbType

/-- `RubySetter::visit_(Enum::integral_type&, Enum const&)` (convert.cc:130-134): an `int` is written -/
def setEnum (syms : List (Str × Int)) (m : Mem) (a : Nat) (v : RVal) : Mem × Res Unit :=
  match enumValue syms v with
  | .ok z => (writeInt 4 m a z, .ok ())
  | .exn e => (m, .exn e)
  | .ub => (m, .ub)
  | .fuel => (m, .fuel)

/-! ### Specification -/

/-- the numbers that a C integer of `size` bytes represents -/
def InRange (signed : Bool) (size : Nat) (z : Int) : Prop :=
  if signed then -(256 ^ size : Nat) ≤ 2 * z ∧ 2 * z < (256 ^ size : Nat) else 0 ≤ z ∧ z < (256 ^ size : Nat)

/-- the bytes at `a` are the `size` low bytes of `z`, in two's complement, the lowest first -/
def LowBytes (size : Nat) (m : Mem) (a : Nat) (z : Int) : Prop :=
  ∀ i < size, ((m (a + i)).toNat : Int) = z / 256 ^ i % 256

/-- a C integer of `size` bytes at `a` is the number `z` -/
def Holds (signed : Bool) (size : Nat) (m : Mem) (a : Nat) (z : Int) : Prop :=
  InRange signed size z ∧ LowBytes size m a z

/-- nothing changed out of the `size` bytes at `a` -/
def SameOutside (a size : Nat) (m m' : Mem) : Prop := ∀ x, ¬ (a ≤ x ∧ x < a + size) → m' x = m x

/-- sizes of the C integers -/
def CSize (size : Nat) : Prop := size = 1 ∨ size = 2 ∨ size = 4 ∨ size = 8

/-! ### Lemmas -/

theorem load_length (m : Mem) : ∀ (k a : Nat), (load m a k).length = k := by
  intro k
  induction k with
  | zero => intro a; rfl
  | succ k ih => intro a; simp [load, ih]

theorem emod_pow_succ (z : Int) (k : Nat) : z % 256 ^ (k + 1) = z % 256 + 256 * (z / 256 % 256 ^ k) := by
  have hN : (0 : Int) < 256 ^ k := Int.pow_pos (by decide)
  have h1 := Int.emod_add_ediv_mul (z / 256) (256 ^ k)
  have h2 := Int.emod_add_ediv_mul z 256
  have hr := Int.emod_nonneg (z / 256) (Int.ne_of_gt hN)
  have hl := Int.emod_lt_of_pos (z / 256) hN
  have hr2 := Int.emod_nonneg z (show (256 : Int) ≠ 0 by decide)
  have hl2 := Int.emod_lt_of_pos z (show (0 : Int) < 256 by decide)
  generalize hq : z / 256 / 256 ^ k = q at *
  generalize z / 256 % 256 ^ k = r at *
  rw [Int.pow_succ]
  have e : z = (z % 256 + 256 * r) + (256 ^ k * 256) * q := by
    have : (256 : Int) ^ k * 256 * q = 256 * (q * 256 ^ k) := by
      rw [Int.mul_comm (256 ^ k) 256, Int.mul_assoc, Int.mul_comm (256 ^ k) q]
    rw [this]
    omega
  have hlt : z % 256 + 256 * r < 256 ^ k * 256 := by omega
  have hge : 0 ≤ z % 256 + 256 * r := by omega
  conv => lhs; rw [e]
  rw [Int.add_mul_emod_self_left]
  exact Int.emod_eq_of_lt hge hlt

theorem leVal_of_lowBytes (m : Mem) : ∀ (k a : Nat) (z : Int), LowBytes k m a z →
    (leVal (load m a k) : Int) = z % 256 ^ k := by
  intro k
  induction k with
  | zero => intro a z _; simp [load, leVal]
  | succ k ih =>
    intro a z h
    have h0 := h 0 (by omega)
    simp only [Nat.add_zero, Int.pow_zero, Int.ediv_one] at h0
    have ih' := ih (a + 1) (z / 256) (by
      intro i hi
      have := h (i + 1) (by omega)
      rw [show a + 1 + i = a + (i + 1) by omega, this, Int.pow_succ, Int.mul_comm, ← Int.ediv_ediv_of_nonneg (by decide)]
      )
    simp only [load, leVal]
    rw [emod_pow_succ]
    rw [Int.natCast_add, Int.natCast_mul]
    rw [h0, ih']
    rfl

theorem lowBytes_leBytes (m : Mem) : ∀ (k : Nat) (a : Nat) (z : Int),
    LowBytes k (writeInt k m a z) a z := by
  intro k a z i hi
  unfold writeInt store
  rw [leBytes_length, if_pos (by omega), Nat.add_sub_cancel_left]
  have key : ∀ (k : Nat) (z : Int) (i : Nat), i < k →
      (((leBytes k (z % 256 ^ k).toNat).getD i 0).toNat : Int) = z / 256 ^ i % 256 := by
    intro k
    induction k with
    | zero => intro z i hi; omega
    | succ k ih =>
      intro z i hi
      have hN : (0 : Int) < 256 ^ k := Int.pow_pos (by decide)
      have hr := Int.emod_nonneg (z / 256) (Int.ne_of_gt hN)
      have hr2 := Int.emod_nonneg z (show (256 : Int) ≠ 0 by decide)
      have hl2 := Int.emod_lt_of_pos z (show (0 : Int) < 256 by decide)
      have e : (z % 256 ^ (k + 1)).toNat = (z % 256).toNat + 256 * (z / 256 % 256 ^ k).toNat := by
        rw [emod_pow_succ]; omega
      have e1 : ((z % 256).toNat + 256 * (z / 256 % 256 ^ k).toNat) % 256 = (z % 256).toNat := by omega
      have e2 : ((z % 256).toNat + 256 * (z / 256 % 256 ^ k).toNat) / 256 = (z / 256 % 256 ^ k).toNat := by omega
      rw [e, leBytes, e1, e2]
      cases i with
      | zero =>
        simp only [List.getD_cons_zero, Int.pow_zero, Int.ediv_one]
        rw [UInt8.toNat_ofNat']
        omega
      | succ i =>
        rw [List.getD_cons_succ, ih (z / 256) i (by omega), Int.pow_succ, Int.mul_comm (256 ^ i), ← Int.ediv_ediv_of_nonneg (by decide)]
  exact key k z i hi

theorem writeInt_outside (k : Nat) (m : Mem) (a : Nat) (z : Int) : SameOutside a k m (writeInt k m a z) := by
  intro x hx
  unfold writeInt store
  rw [leBytes_length, if_neg hx]

theorem pow_natCast (k : Nat) : ((256 ^ k : Nat) : Int) = 256 ^ k := by
  induction k with
  | zero => rfl
  | succ k ih => rw [Nat.pow_succ, Int.pow_succ, Int.natCast_mul, ih]; rfl

theorem emod_signed {N z : Int} (hlo : -N ≤ 2 * z) (hhi : 2 * z < N) : z % N = if 0 ≤ z then z else z + N := by
  split
  · exact Int.emod_eq_of_lt (by omega) (by omega)
  · have : (z + N * 1) % N = z % N := Int.add_mul_emod_self_left z N 1
    rw [Int.mul_one] at this
    rw [← this]
    exact Int.emod_eq_of_lt (by omega) (by omega)

/-- the bytes of a number are read back as that number -/
theorem readInt_of_holds {signed : Bool} {k : Nat} {m : Mem} {a : Nat} {z : Int} (h : Holds signed k m a z) :
    readInt signed k m a = z := by
  obtain ⟨hr, hb⟩ := h
  have hv := leVal_of_lowBytes m k a z hb
  unfold InRange at hr
  unfold readInt
  cases signed with
  | false =>
    simp only [Bool.false_eq_true, if_false] at hr ⊢
    rw [pow_natCast] at hr
    rw [hv, Int.emod_eq_of_lt hr.1 hr.2]
  | true =>
    simp only [if_true] at hr ⊢
    rw [pow_natCast] at hr
    rw [emod_signed hr.1 hr.2] at hv
    unfold toSigned
    have hc := pow_natCast k
    generalize leVal (load m a k) = n at hv ⊢
    generalize (256 ^ k : Nat) = N at hc ⊢
    rw [← hc] at hr hv ⊢
    split at hv <;> split <;> omega

/-- what is read is what is there -/
theorem holds_readInt (signed : Bool) (k : Nat) (hk : 0 < k) (m : Mem) (a : Nat) : Holds signed k m a (readInt signed k m a) := by
  have key : ∀ (k a : Nat) (z : Int), z % 256 ^ k = leVal (load m a k) → LowBytes k m a z := by
    intro k
    induction k with
    | zero => intro a z _ i hi; omega
    | succ k ih =>
      intro a z h
      rw [emod_pow_succ] at h
      simp only [load, leVal] at h
      rw [Int.natCast_add, Int.natCast_mul] at h
      have hb := (m a).toNat_lt
      have hr2 := Int.emod_nonneg z (show (256 : Int) ≠ 0 by decide)
      have hl2 := Int.emod_lt_of_pos z (show (0 : Int) < 256 by decide)
      have h1 : z % 256 = (m a).toNat := by omega
      have h2 : z / 256 % 256 ^ k = leVal (load m (a + 1) k) := by omega
      intro i hi
      cases i with
      | zero => simp only [Nat.add_zero, Int.pow_zero, Int.ediv_one]; exact h1.symm
      | succ i =>
        have := ih (a + 1) (z / 256) h2 i (by omega)
        rw [show a + (i + 1) = a + 1 + i by omega, this, Int.pow_succ, Int.mul_comm (256 ^ i), ← Int.ediv_ediv_of_nonneg (by decide)]
  have hlt : leVal (load m a k) < 256 ^ k := by
    have := Value.leVal_lt (load m a k)
    rwa [load_length] at this
  have hc := pow_natCast k
  have hev : 2 ∣ (256 ^ k : Nat) := by
    obtain ⟨j, rfl⟩ : ∃ j, k = j + 1 := ⟨k - 1, by omega⟩
    exact ⟨256 ^ j * 128, by rw [Nat.pow_succ]; omega⟩
  have hmod : readInt signed k m a % 256 ^ k = leVal (load m a k) := by
    unfold readInt toSigned
    cases signed with
    | false => simp only [Bool.false_eq_true, if_false]; exact Int.emod_eq_of_lt (by omega) (by omega)
    | true =>
      simp only [if_true]
      split
      · exact Int.emod_eq_of_lt (by omega) (by omega)
      · have := Int.add_mul_emod_self_left ((leVal (load m a k) : Int) - 256 ^ k) (256 ^ k) 1
        rw [← this, Int.mul_one, Int.sub_add_cancel]
        exact Int.emod_eq_of_lt (by omega) (by omega)
  refine ⟨?_, key k a _ hmod⟩
  unfold InRange readInt toSigned
  generalize leVal (load m a k) = n at hlt ⊢
  generalize (256 ^ k : Nat) = N at hc hlt hev ⊢
  rw [← hc]
  cases signed with
  | false => simp only [Bool.false_eq_true, if_false]; omega
  | true =>
    simp only [if_true]
    split <;> omega

theorem holds_unique {signed : Bool} {k : Nat} {m : Mem} {a : Nat} {z z' : Int} (h : Holds signed k m a z)
    (h' : Holds signed k m a z') : z = z' := by rw [← readInt_of_holds h, readInt_of_holds h']

theorem int2num_id {z : Int} (h1 : -2147483648 ≤ z) (h2 : z < 2147483648) : int2num z = z := by
  unfold int2num toSigned
  have e : (256 : Int) ^ 4 = 4294967296 := by decide
  have e' : (256 : Nat) ^ 4 = 4294967296 := by decide
  rw [e, e']
  split <;> omega

theorem int2num_wrap {z : Int} (h1 : 2147483648 ≤ z) (h2 : z < 4294967296) : int2num z = z - 4294967296 := by
  unfold int2num toSigned
  have e : (256 : Int) ^ 4 = 4294967296 := by decide
  have e' : (256 : Nat) ^ 4 = 4294967296 := by decide
  rw [e, e']
  split <;> omega

theorem InRange.bounds {signed : Bool} {size : Nat} {z : Int} (h : InRange signed size z) :
    (size = 1 → -128 ≤ z ∧ z < 256) ∧ (size = 2 → -32768 ≤ z ∧ z < 65536) ∧
    (size = 4 → (signed = true → -2147483648 ≤ z ∧ z < 2147483648) ∧ (signed = false → 0 ≤ z ∧ z < 4294967296)) ∧
    (size = 8 → -9223372036854775808 ≤ z) ∧ (size = 8 → signed = true → z < 9223372036854775808) := by
  unfold InRange at h
  have e1 : (256 : Nat) ^ 1 = 256 := by decide
  have e2 : (256 : Nat) ^ 2 = 65536 := by decide
  have e4 : (256 : Nat) ^ 4 = 4294967296 := by decide
  have e8 : (256 : Nat) ^ 8 = 18446744073709551616 := by decide
  refine ⟨?_, ?_, ?_, ?_, ?_⟩
  · rintro rfl; rw [e1] at h; split at h <;> omega
  · rintro rfl; rw [e2] at h; split at h <;> omega
  · rintro rfl; rw [e4] at h
    constructor
    · rintro rfl; rw [if_pos rfl] at h; omega
    · rintro rfl; rw [if_neg (by decide)] at h; omega
  · rintro rfl; rw [e8] at h; split at h <;> omega
  · rintro rfl rfl; rw [e8, if_pos rfl] at h; omega

/-! ### C52, numbers -/

/-- every C integer in memory is some number, and only one: the specification below is about every memory -/
theorem holds_exists (signed : Bool) (size : Nat) (hs : CSize size) (m : Mem) (a : Nat) :
    ∃ z, Holds signed size m a z ∧ ∀ z', Holds signed size m a z' → z' = z :=
  ⟨_, holds_readInt signed size (by rcases hs with h | h | h | h <;> omega) m a, fun _ h => (readInt_of_holds h).symm⟩

/-- **C52, reading**: the Ruby integer is the number stored, but for an `uint32_t` of 2^31 or more. -/
theorem C52_get (signed : Bool) (size : Nat) (hs : CSize size) (m : Mem) (a : Nat) (z : Int)
    (h : Holds signed size m a z) (hx : ¬ (signed = false ∧ size = 4 ∧ 2147483648 ≤ z)) :
    getInt signed size m a = .ok (.int z) := by
  have hr := readInt_of_holds h
  obtain ⟨b1, b2, b4, _, _⟩ := h.1.bounds
  rcases hs with rfl | rfl | rfl | rfl <;> cases signed <;> simp only [getInt] <;> rw [hr]
  all_goals first
    | rfl
    | (rw [int2num_id]
       · have := b1 rfl; omega
       · have := b1 rfl; omega)
    | (rw [int2num_id]
       · have := b2 rfl; omega
       · have := b2 rfl; omega)
    | skip
  · rw [int2num_id]
    · have := (b4 rfl).2 rfl; omega
    · exact Int.lt_of_not_ge fun h => hx ⟨rfl, rfl, h⟩
  · rw [int2num_id ((b4 rfl).1 rfl).1 ((b4 rfl).1 rfl).2]

/-- **C52 fails for uint32_t**: a number of 2^31 or more is read as a negative one. -/
theorem C52_get_u32_counterexample (m : Mem) (a : Nat) (z : Int) (h : Holds false 4 m a z) (hz : 2147483648 ≤ z) :
    getInt false 4 m a = .ok (.int (z - 4294967296)) := by
  have hr := readInt_of_holds h
  have := (h.1.bounds.2.2.1 rfl).2 rfl
  simp only [getInt]
  rw [hr, int2num_wrap hz this.2]

/-- the integers that can be assigned to a C integer: those that `int`, `unsigned int` or `long long` (according to the type)
can be made of -/
def Accepted (signed : Bool) (size : Nat) (z : Int) : Prop :=
  if size = 8 then -9223372036854775808 ≤ z ∧ z < 9223372036854775808
  else if signed = false ∧ size ≠ 1 then -2147483648 ≤ z ∧ z < 4294967296
  else -2147483648 ≤ z ∧ z < 2147483648

theorem lowBytes_mod32 {k : Nat} (hk : k ≤ 4) {m : Mem} {a : Nat} {z : Int} (h : LowBytes k m a (z % 4294967296)) :
    LowBytes k m a z := by
  intro i hi
  rw [h i hi]
  have : i = 0 ∨ i = 1 ∨ i = 2 ∨ i = 3 := by omega
  rcases this with rfl | rfl | rfl | rfl
  · have e : (256 : Int) ^ 0 = 1 := by decide
    rw [e]; omega
  · have e : (256 : Int) ^ 1 = 256 := by decide
    rw [e]; omega
  · have e : (256 : Int) ^ 2 = 65536 := by decide
    rw [e]; omega
  · have e : (256 : Int) ^ 3 = 16777216 := by decide
    rw [e]; omega

/-- **C52, assigning**: an accepted integer leaves its low bytes in the C integer, and touches nothing else; another one is a
`RangeError`, and nothing is changed. -/
theorem C52_set (signed : Bool) (size : Nat) (hs : CSize size) (m : Mem) (a : Nat) (z : Int) :
    (Accepted signed size z → ∃ m', setInt signed size m a (.int z) = (m', .ok ()) ∧ LowBytes size m' a z ∧
      SameOutside a size m m') ∧
    (¬ Accepted signed size z → setInt signed size m a (.int z) = (m, .exn .rbRange)) := by
  have plain : ∀ k, LowBytes k (writeInt k m a z) a z ∧ SameOutside a k m (writeInt k m a z) :=
    fun k => ⟨lowBytes_leBytes m k a z, writeInt_outside k m a z⟩
  have modded : ∀ k, k ≤ 4 → LowBytes k (writeInt k m a (z % 4294967296)) a z ∧
      SameOutside a k m (writeInt k m a (z % 4294967296)) :=
    fun k hk => ⟨lowBytes_mod32 hk (lowBytes_leBytes m k a _), writeInt_outside k m a _⟩
  unfold Accepted
  rcases hs with rfl | rfl | rfl | rfl <;> cases signed <;> simp only [setInt, num2c, num2int, num2uint, num2ll] <;>
    constructor <;> intro h
  all_goals first
    | (rw [if_pos (by simpa using h)]; exact ⟨_, rfl, plain _⟩)
    | (rw [if_pos (by simpa using h)]; exact ⟨_, rfl, modded _ (by decide)⟩)
    | (rw [if_neg (by simpa using h)])

/-- **C52, round trip**: a number that the C type represents can be assigned, is then what is stored, and is what is read
back; but for the numbers of 2^63 or more (refused) and the reading of 32 bits unsigned numbers of 2^31 or more. -/
theorem C52_roundtrip (signed : Bool) (size : Nat) (hs : CSize size) (m : Mem) (a : Nat) (z : Int)
    (hz : InRange signed size z) (h63 : z < 9223372036854775808) :
    ∃ m', setInt signed size m a (.int z) = (m', .ok ()) ∧ Holds signed size m' a z ∧ SameOutside a size m m' ∧
      (¬ (signed = false ∧ size = 4 ∧ 2147483648 ≤ z) → getInt signed size m' a = .ok (.int z)) := by
  have ha : Accepted signed size z := by
    obtain ⟨b1, b2, b4, b8, b8'⟩ := hz.bounds
    unfold Accepted
    rcases hs with rfl | rfl | rfl | rfl
    · have := b1 rfl
      rw [if_neg (by decide), if_neg (by simp)]; omega
    · have := b2 rfl
      rw [if_neg (by decide)]
      split <;> omega
    · rw [if_neg (by decide)]
      cases signed with
      | false => have := (b4 rfl).2 rfl; rw [if_pos (by simp)]; omega
      | true => have := (b4 rfl).1 rfl; rw [if_neg (by simp)]; omega
    · have := b8 rfl
      rw [if_pos rfl]; omega
  obtain ⟨m', h1, h2, h3⟩ := (C52_set signed size hs m a z).1 ha
  exact ⟨m', h1, ⟨hz, h2⟩, h3, fun hx => C52_get signed size hs m' a z ⟨hz, h2⟩ hx⟩

/-- **C52 fails for uint64_t**: a number of 2^63 or more is read properly, and refused by the assignment. -/
theorem C52_set_u64_counterexample (m : Mem) (a : Nat) (z : Int) (h : Holds false 8 m a z) (hz : 9223372036854775808 ≤ z) :
    getInt false 8 m a = .ok (.int z) ∧ setInt false 8 m a (.int z) = (m, .exn .rbRange) := by
  refine ⟨C52_get false 8 (by simp [CSize]) m a z h (by simp), (C52_set false 8 (by simp [CSize]) m a z).2 ?_⟩
  unfold Accepted
  rw [if_pos rfl]; omega

/-- **C52 fails out of range**: a number that a smaller type does not represent is accepted, and another one is stored. -/
theorem C52_set_wraps_counterexample (m : Mem) (a : Nat) :
    ∃ m', setInt false 1 m a (.int (-1)) = (m', .ok ()) ∧ getInt false 1 m' a = .ok (.int 255) := by
  obtain ⟨m', h1, h2, _⟩ := (C52_set false 1 (by simp [CSize]) m a (-1)).1 (by unfold Accepted; decide)
  refine ⟨m', h1, C52_get false 1 (by simp [CSize]) m' a 255 ⟨by unfold InRange; decide, ?_⟩ (by simp)⟩
  intro i hi
  have : i = 0 := by omega
  subst this
  rw [h2 0 (by decide)]
  decide

/-- **C52, other objects**: what is not an integer is a `TypeError`, and nothing is changed. -/
theorem C52_set_other (signed : Bool) (size : Nat) (m : Mem) (a : Nat) (v : RVal) (hv : ∀ z, v ≠ .int z) :
    setInt signed size m a v = (m, .exn .rbType) := by
  unfold setInt
  cases num2c signed size with
  | none => rfl
  | some f =>
    cases v with
    | int z => exact absurd rfl (hv z)
    | _ => rfl

/-! ### C52, enumerations -/

/-- the declaration of an enumeration: the symbols are distinct, the values are `int`s (`std::map<std::string, int>`) -/
structure Decl (syms : List (Str × Int)) : Prop where
  names : (syms.map (·.1)).Nodup
  ints : ∀ p ∈ syms, -2147483648 ≤ p.2 ∧ p.2 < 2147483648

/-- the Ruby object stands for the declared value `z`: its symbol, as a symbol or a string, or the integer itself -/
def Denotes (syms : List (Str × Int)) : RVal → Int → Prop
  | .int k, z => k = z ∧ ∃ n, (n, z) ∈ syms
  | .sym n, z => (n, z) ∈ syms
  | .str b, z => (cstr b, z) ∈ syms
  | .nil, _ => False

theorem enumByName_iff {syms : List (Str × Int)} (hn : (syms.map (·.1)).Nodup) (n : Str) :
    (∀ z, (n, z) ∈ syms → enumByName syms n = .ok z) ∧ ((∀ z, (n, z) ∉ syms) → enumByName syms n = .exn .rbArg) := by
  unfold enumByName
  constructor
  · intro z hz
    cases hf : syms.find? (fun p => p.1 == n) with
    | none =>
      have := List.find?_eq_none.mp hf (n, z) hz
      simp at this
    | some p =>
      have h1 := List.mem_of_find?_eq_some hf
      have h2 : (p.1 == n) = true := List.find?_some (p := fun p : Str × Int => p.1 == n) hf
      have h3 : p.1 = n := eq_of_beq h2
      obtain ⟨i, hi⟩ := List.getElem?_of_mem h1
      obtain ⟨j, hj⟩ := List.getElem?_of_mem hz
      have e1 : (syms.map (·.1))[i]? = some n := by rw [List.getElem?_map, hi, ← h3]; rfl
      have e2 : (syms.map (·.1))[j]? = some n := by rw [List.getElem?_map, hj]; rfl
      have : i = j := by
        refine (List.getElem?_inj ?_ hn).mp (e1.trans e2.symm)
        exact (List.getElem?_eq_some_iff.mp e1).1
      subst this
      rw [hi] at hj
      cases hj
      rfl
  · intro h
    cases hf : syms.find? (fun p => p.1 == n) with
    | none => rfl
    | some p =>
      have h1 := List.mem_of_find?_eq_some hf
      have h2 : (p.1 == n) = true := List.find?_some (p := fun p : Str × Int => p.1 == n) hf
      have h3 : p.1 = n := eq_of_beq h2
      exact absurd (show (n, p.2) ∈ syms by rw [← h3]; exact h1) (h p.2)

theorem int_range {z : Int} (h : -2147483648 ≤ z ∧ z < 2147483648) : InRange true 4 z := by
  unfold InRange
  have e : (256 : Nat) ^ 4 = 4294967296 := by decide
  rw [if_pos rfl, e]; omega

/-- **C52, assigning an enumeration**: a Ruby object that stands for a declared value is stored as that value, in 4 bytes;
anything else is refused, and nothing is changed. -/
theorem C52_enum_set (syms : List (Str × Int)) (hd : Decl syms) (m : Mem) (a : Nat) (v : RVal) :
    (∀ z, Denotes syms v z → ∃ m', setEnum syms m a v = (m', .ok ()) ∧ Holds true 4 m' a z ∧ SameOutside a 4 m m') ∧
    ((∀ z, ¬ Denotes syms v z) → ∃ e, setEnum syms m a v = (m, .exn e)) := by
  have good : ∀ z n, (n, z) ∈ syms → enumValue syms v = .ok z →
      ∃ m', setEnum syms m a v = (m', .ok ()) ∧ Holds true 4 m' a z ∧ SameOutside a 4 m m' := by
    intro z n hm h
    refine ⟨writeInt 4 m a z, ?_, ⟨int_range (hd.ints _ hm), lowBytes_leBytes m 4 a z⟩, writeInt_outside 4 m a z⟩
    unfold setEnum
    rw [h]
  have bad : ∀ e, enumValue syms v = .exn e → ∃ e, setEnum syms m a v = (m, .exn e) := by
    intro e h
    refine ⟨e, ?_⟩
    unfold setEnum
    rw [h]
  constructor
  · intro z hz
    cases v with
    | nil => exact hz.elim
    | sym n => exact good z n hz ((enumByName_iff hd.names n).1 z hz)
    | str b => exact good z (cstr b) hz ((enumByName_iff hd.names (cstr b)).1 z hz)
    | int k =>
      obtain ⟨rfl, n, hn⟩ := hz
      refine good k n hn ?_
      have hb : -2147483648 ≤ k ∧ k < 2147483648 := hd.ints _ hn
      unfold enumValue num2int
      dsimp only
      rw [if_pos (by omega), if_pos hb, Res.bind_ok, if_pos]
      exact List.any_eq_true.mpr ⟨(n, k), hn, by simp⟩
  · intro h
    cases v with
    | nil => exact bad _ rfl
    | sym n => exact bad _ ((enumByName_iff hd.names n).2 h)
    | str b => exact bad _ ((enumByName_iff hd.names (cstr b)).2 h)
    | int k =>
      unfold enumValue num2int at bad
      simp only at bad
      by_cases h1 : -4611686018427387904 ≤ k ∧ k < 4611686018427387904
      · rw [if_pos h1] at bad
        by_cases h2 : -2147483648 ≤ k ∧ k < 2147483648
        · rw [if_pos h2, Res.bind_ok, if_neg] at bad
          · exact bad _ rfl
          · intro hany
            obtain ⟨p, hp, he⟩ := List.any_eq_true.mp hany
            have : p.2 = k := eq_of_beq he
            exact h k ⟨rfl, p.1, by rw [← this]; exact hp⟩
        · rw [if_neg h2] at bad
          exact bad _ rfl
      · rw [if_neg h1] at bad
        exact bad _ rfl

/-- **C52, reading an enumeration**: a symbol of the stored value, `nil` if the value is not declared. -/
theorem C52_enum_get (syms : List (Str × Int)) (m : Mem) (a : Nat) (z : Int) (h : Holds true 4 m a z) :
    (∃ n, (n, z) ∈ syms ∧ getEnum syms m a = .sym n) ∨ ((∀ n, (n, z) ∉ syms) ∧ getEnum syms m a = .nil) := by
  unfold getEnum
  rw [readInt_of_holds h]
  cases hf : syms.find? (fun p => p.2 == z) with
  | none =>
    refine .inr ⟨fun n hn => ?_, rfl⟩
    have := List.find?_eq_none.mp hf (n, z) hn
    simp at this
  | some p =>
    have h1 := List.mem_of_find?_eq_some hf
    have h2 : (p.2 == z) = true := List.find?_some (p := fun p : Str × Int => p.2 == z) hf
    have h3 : p.2 = z := eq_of_beq h2
    exact .inl ⟨p.1, by rw [← h3]; exact h1, rfl⟩

/-- **C52, round trip of an enumeration**: what is read after an assignment is a symbol that stands for the same value, and
the symbol assigned if no other one has its value. -/
theorem C52_enum_roundtrip (syms : List (Str × Int)) (hd : Decl syms) (m : Mem) (a : Nat) (v : RVal) (z : Int)
    (hv : Denotes syms v z) :
    ∃ m' n, setEnum syms m a v = (m', .ok ()) ∧ getEnum syms m' a = .sym n ∧ (n, z) ∈ syms ∧
      ∀ n', v = .sym n' → (∀ k, (k, z) ∈ syms → k = n') → n = n' := by
  obtain ⟨m', h1, h2, _⟩ := (C52_enum_set syms hd m a v).1 z hv
  rcases C52_enum_get syms m' a z h2 with ⟨n, hn, hg⟩ | ⟨hno, _⟩
  · exact ⟨m', n, h1, hg, hn, fun n' _ hu => hu n hn⟩
  · exfalso
    cases v with
    | nil => exact hv
    | sym n => exact hno n hv
    | str b => exact hno _ hv
    | int k => obtain ⟨_, n, hn⟩ := hv; exact hno n hn

/-- **C52 fails for small enumerations**: the assignment writes 4 bytes whatever the size of the type, so for an enumeration
of one byte the following bytes (of another field) are changed. -/
theorem C52_enum_overrun_counterexample :
    ∃ (syms : List (Str × Int)) (m : Mem), Decl syms ∧ ∀ a, (setEnum syms m a (.int 0)).2 = .ok () ∧
      ¬ SameOutside a 1 m (setEnum syms m a (.int 0)).1 := by
  have hd : Decl [(['A'], (0 : Int))] := ⟨by simp, by simp⟩
  refine ⟨[(['A'], 0)], fun _ => 255, hd, fun a => ?_⟩
  obtain ⟨m', h1, h2, _⟩ := (C52_enum_set [(['A'], 0)] hd (fun _ => 255) a (.int 0)).1 0 ⟨rfl, ['A'], by simp⟩
  rw [h1]
  refine ⟨rfl, fun hs => ?_⟩
  have e1 := hs (a + 1) (by omega)
  have e2 := h2.2 1 (by decide)
  simp only at e1
  rw [e1] at e2
  revert e2
  decide

/-! ### Examples -/

/-- a byte 200 at address 10 -/
def mem200 : Mem := fun x => if x = 10 then 200 else 0

example : Holds false 1 mem200 10 200 := by
  refine ⟨by unfold InRange; decide, fun i hi => ?_⟩
  have : i = 0 := by omega
  subst this; decide
example : Holds true 1 mem200 10 (-56) := by
  refine ⟨by unfold InRange; decide, fun i hi => ?_⟩
  have : i = 0 := by omega
  subst this; decide
example : getInt true 1 mem200 10 = .ok (.int (-56)) := by decide +kernel
example : ((setInt true 2 mem200 10 (.int (-2))).1 10, (setInt true 2 mem200 10 (.int (-2))).1 11) = (254, 255) := by
  decide +kernel
example : InRange true 8 (-9223372036854775808) ∧ ¬ InRange true 8 9223372036854775808 := by unfold InRange; decide
example : Decl [(['A'], 0), (['B'], 5)] := ⟨by decide, by decide⟩
example : Denotes [(['A'], 0), (['B'], 5)] (.str [66, 0, 67]) 5 := by simp only [Denotes]; decide

/-! ### The theorems on concrete cases -/

example := C52_roundtrip true 2 (.inr (.inl rfl)) mem200 10 (-2) (by unfold InRange; decide) (by decide)
example := C52_set_other true 2 mem200 10 .nil (fun _ h => nomatch h)
example := C52_enum_roundtrip [(['a'], 1), (['b'], -2)] ⟨by decide, by decide⟩ mem200 10 (.sym ['b']) (-2)
  (by unfold Denotes; decide)

end Verif.RubyConvert
