/-!
Common vocabulary of the model: outcomes of C++ code, strings, 64-bit arithmetic.
-/

namespace Verif

/-- Exceptions raised by the modelled code (class of the C++ exception, without its message). -/
inductive Err where
  | runtime        -- std::runtime_error
  | outOfRange     -- std::out_of_range
  | lengthError    -- std::length_error / std::bad_alloc
  | invalidLayout  -- Typelib::InvalidMemoryLayout
  | badBytecode    -- Typelib::UnknownLayoutBytecode
  | noLayout       -- Typelib::NoLayout
  | undefined      -- Typelib::Undefined
  | badName        -- Typelib::BadName
  | alreadyDefined -- Typelib::AlreadyDefined
  | mismatch       -- Typelib::DefinitionMismatch
  | exportError    -- Typelib::ExportError
  | badValueCast   -- Typelib::BadValueCast
  | pluginNotFound -- Typelib::PluginNotFound
  | importError    -- Typelib::ImportError
  | exception      -- plain std::exception
  | notEqual       -- not an exception: early `return false` of the comparison loops
  | rbRange        -- Ruby: RangeError
  | rbArg          -- Ruby: ArgumentError
  | rbType         -- Ruby: TypeError
  | rbIndex        -- Ruby: IndexError
  deriving DecidableEq, Repr

/-- Outcome of a piece of C++ code: a value, an exception, undefined behaviour, or
"the model ran out of fuel" (possible non-termination). -/
inductive Res (α : Type _) where
  | ok (a : α)
  | exn (e : Err)
  | ub
  | fuel
  deriving DecidableEq, Repr

namespace Res

def bind {α β} (x : Res α) (f : α → Res β) : Res β :=
  match x with
  | ok a => f a
  | exn e => exn e
  | ub => ub
  | fuel => fuel

instance : Monad Res where
  pure := ok
  bind := bind

@[simp] theorem bind_ok {α β} (a : α) (f : α → Res β) : (Res.ok a >>= f) = f a := rfl
@[simp] theorem bind_exn {α β} (e : Err) (f : α → Res β) : ((Res.exn e : Res α) >>= f) = Res.exn e := rfl
@[simp] theorem bind_ub {α β} (f : α → Res β) : ((Res.ub : Res α) >>= f) = Res.ub := rfl
@[simp] theorem bind_fuel {α β} (f : α → Res β) : ((Res.fuel : Res α) >>= f) = Res.fuel := rfl
@[simp] theorem pure_eq {α} (a : α) : (pure a : Res α) = Res.ok a := rfl

theorem bind_eq_ok {α β} {x : Res α} {f : α → Res β} {b : β} :
    (x >>= f) = Res.ok b ↔ ∃ a, x = Res.ok a ∧ f a = Res.ok b := by
  cases x <;> simp

theorem bind_assoc' {α β γ} (x : Res α) (f : α → Res β) (g : β → Res γ) :
    (x >>= f) >>= g = x >>= fun a => f a >>= g := by
  cases x <;> rfl

/-- The outcome is neither undefined behaviour nor a possible infinite loop. -/
def Safe {α} : Res α → Prop
  | ok _ => True
  | exn _ => True
  | ub => False
  | fuel => False

end Res

/-- std::string, as a list of characters. -/
abbrev Str := List Char

/-- 2^64: the modulus of `size_t` arithmetic. -/
def W : Nat := 18446744073709551616

/-- `size_t` addition. -/
def wadd (a b : Nat) : Nat := (a + b) % W
/-- `size_t` subtraction. -/
def wsub (a b : Nat) : Nat := (a + (W - b % W)) % W
/-- `size_t` multiplication. -/
def wmul (a b : Nat) : Nat := (a * b) % W

theorem wadd_eq {a b : Nat} (h : a + b < W) : wadd a b = a + b := Nat.mod_eq_of_lt h
theorem wmul_eq {a b : Nat} (h : a * b < W) : wmul a b = a * b := Nat.mod_eq_of_lt h
theorem wsub_eq {a b : Nat} (h : b ≤ a) (ha : a < W) : wsub a b = a - b := by
  unfold wsub W at *
  omega

end Verif
