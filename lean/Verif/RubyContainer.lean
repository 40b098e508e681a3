import Verif.Vector

/-!
C73: vectors and strings from Ruby (bindings/ruby/lib/typelib/container_type.rb, bindings/ruby/ext/specialized_types.cc:440-600), on the
vectors of C19.

An object for an element of a vector (`v[i]`, if the elements are not numbers) is an address in the buffer of the vector, so the
identity of the buffer is part of the state: it changes when the buffer is reallocated. So are the elements that there is a cached object
for: `v[i]` gives this object, also if the elements are numbers. What is not modelled: conversions between Ruby
and typelib values (an argument is a value of the element type, or something that is refused; see C52), objects that were invalidated (see
C55) and frozen or invalidated containers. An exception of C++ (a failed allocation) is not caught by the bindings: it
ends the program. `&(*vector_ptr)[0]` of an empty vector is taken to be defined.
-/

namespace Verif.Container
open Verif Verif.Layout Verif.Value

/-! ### Model -/

/-- a vector, the identity of its buffer, and `@elements`: the indexes that there is an object for. The objects that `v[i]` makes for elements
that are not scalars are left out: `v[i]` gives an object in any case. -/
structure Cont where
  v : Vec
  gen : Nat
  objs : List Nat

/-- an argument: a value elsewhere (or a number), `v[i]` of the vector `v` itself, or something that is not of the element type -/
inductive Arg where
  | val (x : Mem)
  | own (i : Int)
  | bad (er : Err)

/-- an evaluated argument -/
inductive Src where
  | mem (x : Mem)
  | at_ (g i : Nat)
  | bad (er : Err)

/-- what a call gives -/
inductive Rep where
  | done
  | bool (b : Bool)
  | num (z : Int)
  | elem (obj : Bool) (m : Mem)
  | mems (l : List (Bool × Mem))
  | vec (v : Vec)
  | raised (er : Err)

/-- `container_length` (specialized_types.cc:442-448): `INT2NUM` of a `size_t` -/
def rbSize (e : Ty) (v : Vec) : Int :=
  if vecCount e v % 4294967296 < 2147483648 then ((vecCount e v % 4294967296 : Nat) : Int)
  else ((vecCount e v % 4294967296 : Nat) : Int) - 4294967296

/-- the bounds checks of `[]`, `raw_get` and `raw_set` (container_type.rb:103-107, 133-137, 144-146) -/
def outside (e : Ty) (v : Vec) (i : Int) : Bool := decide (i < 0) || decide (rbSize e v ≤ i)

/-- elements that `v[i]` gives as Ruby numbers or symbols (`typelib_to_ruby`), that is as copies; an element that is none of the symbols of
its enumeration is not considered -/
def isScalar : Ty → Bool
  | .num _ => true
  | .enum _ _ => true
  | _ => false

/-- the evaluation of an argument; `v[i]` is container_type.rb:120-141 and `container_do_get` (specialized_types.cc:506-517) -/
def evalArg (e : Ty) (c : Cont) : Arg → Res Src
  | .val x => .ok (.mem x)
  | .bad er => .ok (.bad er)
  | .own i =>
    if outside e c.v i then .exn .rbArg
    else if isScalar e && !c.objs.contains i.toNat then
      match vecGet e i.toNat c.v with
      | some m => .ok (.mem m)
      | none => .ub
    else .ok (.at_ c.gen i.toNat)

def evalArgs (e : Ty) (c : Cont) : List Arg → Res (List Src)
  | [] => .ok []
  | a :: as => (evalArg e c a).bind fun s => (evalArgs e c as).bind fun ss => .ok (s :: ss)

/-- the memory that an argument is in, and its offset there; an object for a buffer that is gone points nowhere -/
def place (e : Ty) (c : Cont) : Src → Option (Mem × Nat)
  | .mem x => some (x, 0)
  | .at_ g i => if g = c.gen then some (c.v.buf, wmul i e.size) else none
  | .bad _ => none

/-- the end of `Vector::push` (containers.cc:154-156), after `resize` -/
def pushCopy (env : Env) (e : Ty) (size : Nat) (s : Src) (c : Cont) : Out Cont (Option Err) :=
  match place e c s with
  | none => .ub
  | some (m, off) =>
    (((elemOps env e).copy e m off c.v.buf (wmul size e.size)).conv fun b => (⟨⟨c.v.cap, b⟩, c.gen, c.objs⟩ : Cont)).bind fun _ c => .ok none c

/-- `Vector::push` (containers.cc:144-157): the argument is read after the vector was resized; `resize` reallocates if the capacity is too
small -/
def pushAt (env : Env) (e : Ty) (s : Src) (c : Cont) : Out Cont (Option Err) :=
  if e.size = 0 then .ub
  else
    ((vecResize env (elemOps env e) e (wadd (vecCount e c.v) 1) c.v).conv fun v =>
      (⟨v, if c.v.cap < wmul (wadd (vecCount e c.v) 1) e.size then c.gen + 1 else c.gen, c.objs⟩ : Cont)).bind fun _ c1 =>
    pushCopy env e (vecCount e c.v) s c1

/-- the memory of an argument -/
def bytesOf (e : Ty) (c : Cont) : Src → Option Mem
  | .mem x => some x
  | .at_ g i => if g = c.gen then vecGet e i c.v else none
  | .bad _ => none

/-- `container_element` (specialized_types.cc:464-482) copies numbers first -/
def isNum : Ty → Bool
  | .num n => decide (n ≤ 80)
  | _ => false

/-- `do_push` (specialized_types.cc:464-493): `some` is an exception of Ruby -/
def doPush (env : Env) (e : Ty) (s : Src) (c : Cont) : Out Cont (Option Err) :=
  match s with
  | .bad er => .ok (some er) c
  | .mem x => pushAt env e (.mem x) c
  | .at_ g i =>
    if isNum e then
      match bytesOf e c (.at_ g i) with
      | none => .ub
      | some m => pushAt env e (.mem m) c
    else pushAt env e (.at_ g i) c

/-- `concat` (container_type.rb:302-312) -/
def concat (env : Env) (e : Ty) : List Src → Cont → Out Cont Rep
  | [], c => .ok .done c
  | s :: ss, c => (doPush env e s c).bind fun r c =>
    match r with
    | none => concat env e ss c
    | some er => .ok (.raised er) c

/-- `[]=` (container_type.rb:143-158), `do_set` (specialized_types.cc:495-504), `Vector::setElement` (containers.cc:72-80). For an
element that is assigned to itself the code calls `memcpy` with equal arguments, which is taken to be a copy. -/
def doSet (env : Env) (e : Ty) (idx : Int) (s : Src) (c : Cont) : Out Cont Rep :=
  if outside e c.v idx then .ok (.raised .rbArg) c
  else
    match s with
    | .bad er => .ok (.raised er) c
    | s =>
      match place e c s with
      | none => .ub
      | some (m, off) =>
        (((elemOps env e).copy e m off c.v.buf (wmul idx.toNat e.size)).conv fun b => (⟨⟨c.v.cap, b⟩, c.gen, c.objs⟩ : Cont)).bind
          fun _ c => .ok .done c

/-- `erase` (container_type.rb:345-352), `container_erase` (specialized_types.cc:561-573), `Vector::erase` (containers.cc:159-183) -/
def doErase (env : Env) (e : Ty) (s : Src) (c : Cont) : Out Cont Rep :=
  match s with
  | .bad er => .ok (.raised er) c
  | s =>
    match bytesOf e c s with
    | none => .ub
    | some x => ((vecErase env (elemOps env e) e x c.v).conv fun v => (⟨v, c.gen, c.objs⟩ : Cont)).bind fun b c => .ok (.bool b) c

/-- the loop of `[](index, chunk_size)` (container_type.rb:128-130) -/
def sliceLoop (env : Env) (e : Ty) (v : Vec) : Nat → Nat → Vec → Out Vec Unit
  | 0, _, acc => .ok () acc
  | k + 1, idx, acc =>
    match vecGet e idx v with
    | none => .ub
    | some m => (vecPush env (elemOps env e) e m acc).bind fun _ acc => sliceLoop env e v k (idx + 1) acc

/-- the indexes `i`, …, `i + n - 1` -/
def indexes (i n : Nat) : List Nat := (List.range n).map (i + ·)

/-- `[](index, chunk_size)` (container_type.rb:120-131): a new container; `Integer#times` does nothing if the number is negative.
`raw_get_no_boundary_check` (83-85) makes an object for each of the elements. -/
def doSlice (env : Env) (e : Ty) (i n : Int) (c : Cont) : Out Cont Rep :=
  if i < 0 then .ok (.raised .rbArg) c
  else if i + n > rbSize e c.v then .ok (.raised .rbArg) c
  else
    match sliceLoop env e c.v n.toNat i.toNat ⟨0, []⟩ with
    | .ok _ acc => .ok (.vec acc) ⟨c.v, c.gen, indexes i.toNat n.toNat ++ c.objs⟩
    | .exn er _ => .exn er c
    | .ub => .ub
    | .fuel => .fuel

/-- whether an element is given as an object (`get_no_boundary_check`, container_type.rb:89-99, and `typelib_to_ruby`) -/
def asObj (e : Ty) (c : Cont) (i : Nat) : Bool := !isScalar e || c.objs.contains i

/-- `[]` (container_type.rb:132-140) -/
def doGet (e : Ty) (i : Int) (c : Cont) : Out Cont Rep :=
  if outside e c.v i then .ok (.raised .rbArg) c
  else
    match vecGet e i.toNat c.v with
    | none => .ub
    | some m => .ok (.elem (asObj e c i.toNat) m) c

/-- `raw_get` (container_type.rb:102-109) -/
def doRawGet (e : Ty) (i : Int) (c : Cont) : Out Cont Rep :=
  if outside e c.v i then .ok (.raised .rbArg) c
  else
    match vecGet e i.toNat c.v with
    | none => .ub
    | some m => .ok (.elem true m) ⟨c.v, c.gen, i.toNat :: c.objs⟩

/-- `each` (container_type.rb:167-172) with a block that only looks at the elements -/
def eachLoop (e : Ty) (c : Cont) : Nat → Nat → Option (List (Bool × Mem))
  | 0, _ => some []
  | k + 1, idx =>
    match vecGet e idx c.v with
    | none => none
    | some m =>
      match eachLoop e c k (idx + 1) with
      | none => none
      | some l => some ((asObj e c idx, m) :: l)

def doEach (e : Ty) (c : Cont) : Out Cont Rep :=
  match eachLoop e c (rbSize e c.v).toNat 0 with
  | none => .ub
  | some l => .ok (.mems l) c

/-- a call; `push(a)`, `insert(a)` and `v << a` are `concat [a]` -/
inductive Op where
  | size
  | empty
  | get (i : Int)
  | rawGet (i : Int)
  | slice (i n : Int)
  | each
  | set (i : Int) (a : Arg)
  | concat (as : List Arg)
  | erase (a : Arg)
  | deleteIf (p : Mem → Bool)
  | clear

/-- an exception of Ruby in the evaluation of the arguments -/
def withArgs {α : Type} (c : Cont) (r : Res α) (f : α → Out Cont Rep) : Out Cont Rep :=
  match r with
  | .ok a => f a
  | .exn er => .ok (.raised er) c
  | .ub => .ub
  | .fuel => .fuel

/-- the end of `handle_container_invalidation` (container_type.rb:264-281) for the vector itself: all objects are dropped if the buffer was
reallocated or the vector became empty, otherwise those past the end, by `while @elements.size > self.size`, which never ends if the size is
negative. -/
def settle (e : Ty) (old c : Cont) : Option Cont :=
  if old.v.buf ≠ [] ∧ (c.v.buf = [] ∨ c.gen ≠ old.gen) then some ⟨c.v, c.gen, []⟩
  else if rbSize e c.v < 0 then none
  else some ⟨c.v, c.gen, c.objs.filter fun (i : Nat) => decide ((i : Int) < rbSize e c.v)⟩

/-- `handle_invalidation` (type.rb:343-370) around a call -/
def settled (e : Ty) (old : Cont) : Out Cont Rep → Out Cont Rep
  | .ok r c =>
    match settle e old c with
    | none => .fuel
    | some c => .ok r c
  | .exn er c => .exn er c
  | .ub => .ub
  | .fuel => .fuel

def step (env : Env) (e : Ty) (c : Cont) : Op → Out Cont Rep
  | .size => .ok (.num (rbSize e c.v)) c
  | .empty => .ok (.bool (decide (rbSize e c.v = 0))) c
  | .get i => doGet e i c
  | .rawGet i => doRawGet e i c
  | .slice i n => doSlice env e i n c
  | .each => doEach e c
  | .set i a => withArgs c (evalArg e c a) fun s => doSet env e i s c
  | .concat as => withArgs c (evalArgs e c as) fun ss => settled e c (concat env e ss c)
  | .erase a => withArgs c (evalArg e c a) fun s => settled e c (doErase env e s c)
  | .deleteIf p =>
    settled e c (((vecDeleteIf env (elemOps env e) e p c.v).conv fun v => (⟨v, c.gen, c.objs⟩ : Cont)).bind fun _ c => .ok .done c)
  | .clear => ((vecClear env (elemOps env e) e c.v).conv fun v => (⟨v, c.gen, []⟩ : Cont)).bind fun _ c => .ok .done c

/-- a program: exceptions of Ruby are rescued, an exception of C++ ends it -/
def runAll (env : Env) (e : Ty) : List Op → Cont → Out Cont (List Rep)
  | [], c => .ok [] c
  | o :: os, c => (step env e c o).bind fun r c => (runAll env e os c).bind fun rs c => .ok (r :: rs) c

/-! ### Specification: arrays -/

/-- what a call gives, in terms of the values of the elements: `elem` is a number or symbol if the elements are scalars, `object` is always an
object -/
inductive SRep where
  | done
  | bool (b : Bool)
  | num (z : Int)
  | elem (x : List AV)
  | object (x : List AV)
  | list (xs : List (List AV))
  | copy (xs : List (List AV))
  | raised (er : Err)
  | noMemory

/-- the value of an argument -/
inductive Means (env : Env) (e : Ty) (xs : List (List AV)) : Arg → List AV → Prop where
  | val {m : Mem} {a : List AV} : Valid env e m a → Means env e xs (.val m) a
  | own {i : Nat} {a : List AV} : xs[i]? = some a → Means env e xs (.own i) a

/-- an argument that cannot be evaluated -/
def BadIndex (xs : List (List AV)) (a : Arg) : Prop := ∃ i, a = .own i ∧ (i < 0 ∨ (xs.length : Int) ≤ i)

/-- the values that `concat` appends to an array of `n` elements: those before the first argument that is refused, or that there is no
memory for -/
inductive Takes (env : Env) (e : Ty) (xs : List (List AV)) : Nat → List Arg → List (List AV) → SRep → Prop where
  | nil {n : Nat} : Takes env e xs n [] [] .done
  | cons {n : Nat} {a : Arg} {as : List Arg} {x : List AV} {l : List (List AV)} {r : SRep} : Means env e xs a x →
      Takes env e xs (n + 1) as l r → Takes env e xs n (a :: as) (x :: l) r
  | bad {n : Nat} {er : Err} {as : List Arg} : Takes env e xs n (.bad er :: as) [] (.raised er)
  | full {n : Nat} {a : Arg} {as : List Arg} {x : List AV} : Means env e xs a x → env.maxAlloc < (n + 1) * e.size →
      Takes env e xs n (a :: as) [] .noMemory

/-- what a call does on an array of values: the array afterwards and the result -/
inductive Sem (env : Env) (e : Ty) (xs : List (List AV)) : Op → List (List AV) → SRep → Prop where
  | size : Sem env e xs .size xs (.num xs.length)
  | empty : Sem env e xs .empty xs (.bool (xs.isEmpty))
  | get {i : Nat} {x : List AV} : xs[i]? = some x → Sem env e xs (.get i) xs (.elem x)
  | getOut {i : Int} : i < 0 ∨ (xs.length : Int) ≤ i → Sem env e xs (.get i) xs (.raised .rbArg)
  | rawGet {i : Nat} {x : List AV} : xs[i]? = some x → Sem env e xs (.rawGet i) xs (.object x)
  | rawGetOut {i : Int} : i < 0 ∨ (xs.length : Int) ≤ i → Sem env e xs (.rawGet i) xs (.raised .rbArg)
  | slice {i n : Nat} : i + n ≤ xs.length → Sem env e xs (.slice i n) xs (.copy ((xs.drop i).take n))
  | sliceOut {i n : Int} : i < 0 ∨ (xs.length : Int) < i + n → Sem env e xs (.slice i n) xs (.raised .rbArg)
  | each : Sem env e xs .each xs (.list xs)
  | set {i : Nat} {a : Arg} {x : List AV} : i < xs.length → Means env e xs a x → Sem env e xs (.set i a) (xs.set i x) .done
  | setOut {i : Int} {a : Arg} : i < 0 ∨ (xs.length : Int) ≤ i → Sem env e xs (.set i a) xs (.raised .rbArg)
  | setIndex {i : Int} {a : Arg} : BadIndex xs a → Sem env e xs (.set i a) xs (.raised .rbArg)
  | setBad {i : Nat} {er : Err} : i < xs.length → Sem env e xs (.set i (.bad er)) xs (.raised er)
  | concat {as : List Arg} {l : List (List AV)} {r : SRep} : (∀ a ∈ as, ¬ BadIndex xs a) → Takes env e xs xs.length as l r →
      Sem env e xs (.concat as) (xs ++ l) r
  | concatIndex {as : List Arg} {a : Arg} : a ∈ as → BadIndex xs a → Sem env e xs (.concat as) xs (.raised .rbArg)
  | erase {a : Arg} {x y : List AV} {l r : List (List AV)} : Means env e xs a x → xs = l ++ y :: r → (∀ z ∈ l, ¬ VEq (kinds e) z x) →
      VEq (kinds e) y x → Sem env e xs (.erase a) (l ++ r) (.bool true)
  | eraseNone {a : Arg} {x : List AV} : Means env e xs a x → (∀ z ∈ xs, ¬ VEq (kinds e) z x) → Sem env e xs (.erase a) xs (.bool false)
  | eraseIndex {a : Arg} : BadIndex xs a → Sem env e xs (.erase a) xs (.raised .rbArg)
  | eraseBad {er : Err} : Sem env e xs (.erase (.bad er)) xs (.raised er)
  | deleteIf {p : Mem → Bool} {q : List AV → Bool} : (∀ m x, Valid env e m x → p m = q x) → (∀ x y, VEq (kinds e) x y → q x = q y) →
      Sem env e xs (.deleteIf p) (xs.filter fun x => !q x) .done
  | clear : Sem env e xs .clear [] .done

/-- elements of these values, given in the right form if `strict` -/
inductive Reads (env : Env) (strict : Bool) (e : Ty) : List (Bool × Mem) → List (List AV) → Prop where
  | nil : Reads env strict e [] []
  | cons {m : Mem} {o : Bool} {l : List (Bool × Mem)} {x : List AV} {xs : List (List AV)} : Valid env e m x →
      (strict = true → o = !isScalar e) → Reads env strict e l xs → Reads env strict e ((o, m) :: l) (x :: xs)

/-- a result is what it should be -/
inductive RepOk (env : Env) (strict : Bool) (e : Ty) : Rep → SRep → Prop where
  | done : RepOk env strict e .done .done
  | bool (b : Bool) : RepOk env strict e (.bool b) (.bool b)
  | num (z : Int) : RepOk env strict e (.num z) (.num z)
  | elem {m : Mem} {o : Bool} {x : List AV} : Valid env e m x → (strict = true → o = !isScalar e) → RepOk env strict e (.elem o m) (.elem x)
  | object {m : Mem} {x : List AV} : Valid env e m x → RepOk env strict e (.elem true m) (.object x)
  | list {l : List (Bool × Mem)} {xs : List (List AV)} : Reads env strict e l xs → RepOk env strict e (.mems l) (.list xs)
  | copy {v : Vec} {xs ys : List (List AV)} : Holds env e v ys → EqL e ys xs → RepOk env strict e (.vec v) (.copy xs)
  | raised (er : Err) : RepOk env strict e (.raised er) (.raised er)

/-- The arguments of a call are values of the element type; the block of `delete_if` looks at the values only; no negative number of
elements is asked for; and an element of the vector is not appended to the vector itself. If `strict`, scalar elements may be appended to
the vector itself, but no objects are made for them. -/
def OkOp (env : Env) (strict : Bool) (e : Ty) : Op → Prop
  | .set _ (.val x) => ∃ a, Valid env e x a
  | .erase (.val x) => ∃ a, Valid env e x a
  | .concat as => (∀ x, Arg.val x ∈ as → ∃ a, Valid env e x a) ∧ ((strict = true ∧ isScalar e = true) ∨ ∀ i, Arg.own i ∉ as)
  | .deleteIf p => ∃ q : List AV → Bool, (∀ m x, Valid env e m x → p m = q x) ∧ (∀ x y, VEq (kinds e) x y → q x = q y)
  | .slice _ n => 0 ≤ n ∧ (strict = true → isScalar e = false)
  | .rawGet _ => strict = true → isScalar e = false
  | _ => True

/-- no scalar element has an object, if `strict` -/
def Clean (strict : Bool) (e : Ty) (c : Cont) : Prop := strict = true → isScalar e = true → c.objs = []

end Verif.Container
