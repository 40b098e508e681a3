import Verif.LayoutProps

/-!
Model of the value operations: `typelib/value_ops.cc` (dump, load, zero, init, destroy, copy, compare), the container
implementations of `lang/csupport/containers.cc` (std::vector, std::string) and the memory they work on.
-/

namespace Verif.Value
open Verif Verif.Layout

/-! ### outcomes that keep the state on exceptions -/

/-- Outcome of a stateful piece of C++ code. The state is kept when an exception is thrown, because callers
can observe it. `ub`: undefined behaviour (wild access, use after destruction, leak of a live container). -/
inductive Out (σ : Type) (α : Type) where
  | ok (a : α) (s : σ)
  | exn (e : Err) (s : σ)
  | ub
  | fuel

namespace Out
def bind {σ α β : Type} (x : Out σ α) (f : α → σ → Out σ β) : Out σ β :=
  match x with
  | ok a s => f a s
  | exn e s => exn e s
  | ub => ub
  | fuel => fuel
/-- change the state type (put a sub-object back into the object it belongs to) -/
def conv {σ τ α : Type} (g : σ → τ) : Out σ α → Out τ α
  | ok a s => ok a (g s)
  | exn e s => exn e (g s)
  | ub => ub
  | fuel => fuel
/-- a computation without state -/
def ofRes {σ α : Type} (r : Res α) (s : σ) : Out σ α :=
  match r with
  | .ok a => ok a s
  | .exn e => exn e s
  | .ub => ub
  | .fuel => fuel
/-- undefined behaviour when absent -/
def ofOpt {σ α : Type} (o : Option α) (s : σ) : Out σ α :=
  match o with
  | some a => ok a s
  | none => ub
end Out

/-! ### memory -/

/-- One byte of memory. A container object of size `n` is one `vec`/`str` cell followed by `n - 1` `tail` cells; the
bytes of its implementation are not accessible. `vec cap buf` is a `std::vector<uint8_t>` with its buffer.
`dead` is storage where a container has been destroyed. -/
inductive Cell where
  | byte (b : UInt8)
  | vec (cap : Nat) (buf : List Cell)
  | str (s : List UInt8)
  | tail
  | dead

abbrev Mem := List Cell

namespace Cell
def byte? : Cell → Option UInt8
  | byte b => some b
  | _ => none
/-- part of a live container object -/
def live : Cell → Bool
  | vec _ _ => true
  | str _ => true
  | tail => true
  | _ => false
def isTail : Cell → Bool
  | tail => true
  | _ => false
end Cell

/-- read `n` bytes: they must be plain bytes of the object -/
def readBytes (m : Mem) (off n : Nat) : Option (List UInt8) :=
  if n = 0 then some []
  else if off + n ≤ m.length then ((m.drop off).take n).mapM Cell.byte? else none

/-- write bytes: inside the object, not over a live container -/
def writeBytes (m : Mem) (off : Nat) (bs : List UInt8) : Option Mem :=
  if bs.length = 0 then some m
  else if off + bs.length ≤ m.length ∧ ((m.drop off).take bs.length).all (fun c => !c.live) then
    some (m.take off ++ bs.map .byte ++ m.drop (off + bs.length))
  else none

/-- the container object of size `cs` at `off` -/
def getCell (m : Mem) (off cs : Nat) : Option Cell :=
  match m[off]? with
  | some c =>
    if off + cs ≤ m.length ∧ ((m.drop (off + 1)).take (cs - 1)).all Cell.isTail then some c else none
  | none => none

/-- update the container object at `off` -/
def setCell (m : Mem) (off : Nat) (c : Cell) : Mem := m.set off c

/-- placement new of a container object -/
def construct (m : Mem) (off cs : Nat) (c : Cell) : Option Mem :=
  if 0 < cs ∧ off + cs ≤ m.length ∧ ((m.drop off).take cs).all (fun c => !c.live) then
    some (m.take off ++ (c :: List.replicate (cs - 1) .tail) ++ m.drop (off + cs))
  else none

/-- end of life of a container object (its destructor has run) -/
def destruct (m : Mem) (off cs : Nat) : Mem :=
  m.take off ++ List.replicate cs .dead ++ m.drop (off + cs)

/-- The allocator: requests above `maxAlloc` throw; `grow cap n` is the capacity given by a vector of capacity
`cap` that grows to `n`. -/
structure Env where
  maxAlloc : Nat
  grow : Nat → Nat → Nat
  hmax : maxAlloc < 9223372036854775808
  grow_ok : ∀ cap n, n ≤ maxAlloc → n ≤ grow cap n ∧ grow cap n ≤ maxAlloc

/-- a std::vector<uint8_t>: capacity and contents -/
structure Vec where
  cap : Nat
  buf : Mem

/-- `std::vector<uint8_t>::resize(n)`: new bytes are zero; live containers must not be dropped nor relocated. -/
def rawResize (env : Env) (v : Vec) (n : Nat) : Out Vec Unit :=
  if n ≤ v.buf.length then
    if (v.buf.drop n).any Cell.live then .ub else .ok () ⟨v.cap, v.buf.take n⟩
  else if n ≤ v.cap then .ok () ⟨v.cap, v.buf ++ List.replicate (n - v.buf.length) (.byte 0)⟩
  else if env.maxAlloc < n then .exn .lengthError v
  else if v.buf.any Cell.live then .ub
  else .ok () ⟨env.grow v.cap n, v.buf ++ List.replicate (n - v.buf.length) (.byte 0)⟩

/-! ### bytecode interpretation -/

/-- What distinguishes the bytecode loops of value_ops.cc from each other. -/
structure Interp (σ : Type) where
  memcpy : Nat → σ → Out σ Unit
  skip : Nat → σ → Out σ Unit
  /-- FLAG_CONTAINER: given the recursive loop, the container and the iterator after its address, returns the
  iterator after the switch -/
  cont : (List Word → σ → Out σ (List Word)) → Ty → List Word → σ → Out σ (List Word)
  /-- arrays of dimension 0 are skipped (dump, load) -/
  zeroSkips : Bool
  /-- the check after an array does not test for the end of the stream (load) -/
  derefEnd : Bool
  /-- the iterator returned for a container is checked (dump, load) -/
  contCheck : Bool
  /-- exception for an unknown opcode -/
  badOp : Err

/-- `for (i = 0; i < n; ++i) tie(.., it) = f(..)` -/
def repeatM {σ : Type} (g : σ → Out σ (List Word)) : Nat → List Word → σ → Out σ (List Word)
  | 0, it, s => .ok it s
  | n + 1, _, s => (g s).bind fun it s => repeatM g n it s

/-- The common skeleton of `ValueOps::{dump,load,zero,destroy,copy,compare}` (value_ops.cc:59-123, 125-191, 291-340,
399-445, 447-502, 504-570). Returns the iterator; `[]` stands for `end`. -/
def walk {σ : Type} (I : Interp σ) : Nat → List Word → σ → Out σ (List Word)
  | 0, _, _ => .fuel
  | f + 1, it, s =>
    match it with
    | [] => .ok [] s
    | .p _ :: _ => .exn I.badOp s
    | .n o :: r =>
      if o = FLAG_END then .ok (.n o :: r) s
      else if o = FLAG_MEMCPY then
        match r with
        | .n n :: r' => (I.memcpy n s).bind fun _ s => walk I f r' s
        | _ => .ub
      else if o = FLAG_SKIP then
        match r with
        | .n n :: r' => (I.skip n s).bind fun _ s => walk I f r' s
        | _ => .ub
      else if o = FLAG_ARRAY then
        match r with
        | .n n :: body =>
          let run := if n = 0 ∧ I.zeroSkips = true then Out.ofRes (skipBlock 0 body) s
            else repeatM (walk I f body) n body s
          run.bind fun it s =>
            match it with
            | .n 4 :: r' => walk I f r' s
            | [] => if I.derefEnd then .ub else .exn .runtime s
            | _ => .exn .runtime s
        | _ => .ub
      else if o = FLAG_CONTAINER then
        match r with
        | .p c :: r' =>
          (I.cont (walk I f) c r' s).bind fun it s =>
            match it with
            | .n 4 :: r'' => walk I f r'' s
            | [] => if I.contCheck then .exn .runtime s else .ub
            | _ :: r'' => if I.contCheck then .exn .runtime s else walk I f r'' s
        | _ => .ub
      else .exn I.badOp s

/-- state of zero, init and destroy: memory and current position -/
structure MS where
  mem : Mem
  off : Nat

/-- an initialisation data word, stored in a byte (value_ops.cc:352-353) -/
def wordByte : Word → Option UInt8
  | .n v => some (UInt8.ofNat v)
  | .p _ => none

/-- `ValueOps::init` (value_ops.cc:342-397), with `Vector::init`/`String::init` (containers.cc:52-55, 398-401) inlined -/
def walkInit : Nat → List Word → MS → Out MS (List Word)
  | 0, _, _ => .fuel
  | f + 1, it, s =>
    match it with
    | [] => .ok [] s
    | .p _ :: _ => .exn .runtime s
    | .n o :: r =>
      if o = FLAG_INIT_END then .ok (.n o :: r) s
      else if o = FLAG_INIT then
        match r with
        | .n size :: r' =>
          if r'.length < size then .ub
          else
            match (r'.take size).mapM wordByte with
            | some bs =>
              (Out.ofOpt (writeBytes s.mem s.off bs) s).bind fun m s =>
                walkInit f (r'.drop size) ⟨m, wadd s.off size⟩
            | none => .ub
        | _ => .ub
      else if o = FLAG_INIT_SKIP then
        match r with
        | .n n :: r' => walkInit f r' ⟨s.mem, wadd s.off n⟩
        | _ => .ub
      else if o = FLAG_INIT_REPEAT then
        match r with
        | .n n :: body =>
          (repeatM (walkInit f body) n body s).bind fun it s =>
            match it with
            | .n 4 :: r' => walkInit f r' s
            | _ => .exn .runtime s
        | _ => .ub
      else if o = FLAG_INIT_CONTAINER then
        match r with
        | .p c :: r' =>
          let fresh : Option Cell := match c with
            | .vec _ _ => some (.vec 0 [])
            | .str _ => some (.str [])
            | _ => none
          match fresh with
          | some cell =>
            (Out.ofOpt (construct s.mem s.off c.size cell) s).bind fun m s =>
              walkInit f r' ⟨m, wadd s.off c.size⟩
          | none => .ub
        | _ => .ub
      else .exn .runtime s

/-! ### containers -/

/-- `Vector::getElementLayout` (containers.cc:36-45): `layout_of(element)`, empty when it throws. -/
def elemLayout (e : Ty) : ML :=
  match layoutOf false false true true e with
  | .ok l => l
  | _ => ⟨[], []⟩

/-- `MemoryLayout::isMemcpy` on the element layout: `Vector::isElementMemcpy` (containers.cc:26-29) -/
def isElementMemcpy (e : Ty) : Bool := (elemLayout e).isMemcpy

/-- The operations on one element of a vector buffer that `Vector` calls: `Typelib::init/destroy/copy` with the
element layout, at a byte offset of a buffer. -/
structure ElemOps where
  init : Ty → Mem → Nat → Out Mem Unit
  destroy : Ty → Mem → Nat → Out Mem Unit
  /-- `copy e src soff dst doff` -/
  copy : Ty → Mem → Nat → Mem → Nat → Out Mem Unit

/-- `for (size_t i = start; i < stop; i += step) body(i)` -/
def forStep {σ : Type} (body : Nat → σ → Out σ Unit) (stop step : Nat) : Nat → Nat → σ → Out σ Unit
  | 0, _, _ => .fuel
  | f + 1, i, s => if i < stop then (body i s).bind fun _ s => forStep body stop step f (wadd i step) s else .ok () s

/-- `Vector::resize` (containers.cc:93-142). A zero-sized element divides by zero. If an exception leaves the
reallocation loop while the new buffer holds live containers they leak (`ub`). -/
def vecResize (env : Env) (O : ElemOps) (e : Ty) (newSize : Nat) (v : Vec) : Out Vec Unit :=
  let esize := e.size
  if esize = 0 then .ub
  else
    let oldRaw := v.buf.length
    let oldSize := oldRaw / esize
    let newRaw := wmul newSize esize
    if (elemLayout e).ops.isEmpty then .exn .runtime v
    else if isElementMemcpy e then rawResize env v newRaw
    else
      let step1 : Out Vec Unit :=
        if oldSize > newSize then
          (forStep (fun i b => O.destroy e b i) oldRaw esize (oldRaw + 1) newRaw v.buf).conv (fun b => ⟨v.cap, b⟩)
        else .ok () v
      step1.bind fun _ v =>
      let step2 : Out Vec Unit :=
        if newRaw ≤ v.cap then rawResize env v newRaw
        else if env.maxAlloc < newRaw then .exn .lengthError v
        else
          let fresh : Mem := List.replicate newRaw (.byte 0)
          let loop : Out (Mem × Mem) Unit :=
            forStep (fun i (s : Mem × Mem) =>
              ((O.init e s.2 i).conv (fun n => (s.1, n))).bind fun _ s =>
              ((O.copy e s.1 i s.2 i).conv (fun n => (s.1, n))).bind fun _ s =>
              ((O.destroy e s.1 i).conv (fun b => (b, s.2))).bind fun _ s => .ok () s)
              (min oldRaw newRaw) esize (min oldRaw newRaw + 1) 0 (v.buf, fresh)
          match loop with
          | .ok _ s => if s.1.any Cell.live then .ub else .ok () ⟨env.grow 0 newRaw, s.2⟩
          | .exn er s => if s.2.any Cell.live then .ub else .exn er ⟨v.cap, s.1⟩
          | .ub => .ub
          | .fuel => .fuel
      step2.bind fun _ v =>
        if oldSize < newSize then
          (forStep (fun i b => O.init e b i) newRaw esize (newRaw + 1) oldRaw v.buf).conv (fun b => ⟨v.cap, b⟩)
        else .ok () v

/-- a std::vector object in memory -/
def getVec (m : Mem) (off cs : Nat) : Option Vec :=
  match getCell m off cs with
  | some (.vec cap buf) => some ⟨cap, buf⟩
  | _ => none
def setVec (m : Mem) (off : Nat) (v : Vec) : Mem := setCell m off (.vec v.cap v.buf)
/-- a std::string object in memory -/
def getStr (m : Mem) (off cs : Nat) : Option (List UInt8) :=
  match getCell m off cs with
  | some (.str s) => some s
  | _ => none

/-- `Vector::getElementCount` (containers.cc:47-51) -/
def vecCount (e : Ty) (v : Vec) : Nat := v.buf.length / e.size

/-- `Vector::clear` (containers.cc:63-68), `String::clear` (406-409) -/
def contClear (env : Env) (O : ElemOps) (c : Ty) (m : Mem) (off : Nat) : Out Mem Unit :=
  match c with
  | .vec cs e =>
    match getVec m off cs with
    | some v => (vecResize env O e 0 v).conv (setVec m off)
    | none => .ub
  | .str cs =>
    match getStr m off cs with
    | some _ => .ok () (setCell m off (.str []))
    | none => .ub
  | _ => .ub

/-- `Vector::destroy` (containers.cc:56-62), `String::destroy` (402-405) -/
def contDestroy (env : Env) (O : ElemOps) (c : Ty) (m : Mem) (off : Nat) : Out Mem Unit :=
  match c with
  | .vec cs _ => (contClear env O c m off).bind fun _ m =>
    match getVec m off cs with
    | some v => if v.buf.any Cell.live then .ub else .ok () (destruct m off cs)
    | none => .ub
  | .str cs =>
    match getStr m off cs with
    | some _ => .ok () (destruct m off cs)
    | none => .ub
  | _ => .ub

/-- `Vector::copy(dst_ptr, dst_idx, src_ptr, src_idx, count)` (containers.cc:235-258). The source is passed by
value: copying does not modify it, and in the only case where both are the same vector (`erase`) each element is
read before the ones after it are written. The per-element copy goes through `Typelib::copy(Value, Value)`, i.e.
`layout_of(element)` instead of the cached layout, which is the same. -/
def vecCopy (O : ElemOps) (e : Ty) (src : Mem) (sidx : Nat) (dst : Mem) (didx count : Nat) : Out Mem Unit :=
  if isElementMemcpy e then
    match readBytes src (wmul sidx e.size) (wmul e.size count) with
    | some bs =>
      match writeBytes dst (wmul didx e.size) bs with
      | some m => .ok () m
      | none => .ub
    | none => .ub
  else
    forStep (fun i d => O.copy e src (wadd (wmul sidx e.size) (wmul i e.size)) d (wadd (wmul didx e.size) (wmul i e.size)))
      count 1 (count + 1) 0 dst

/-- `Vector::copy(dst, src)` (containers.cc:224-233), `String::copy` (446-451) -/
def contCopy (env : Env) (O : ElemOps) (c : Ty) (src : Mem) (soff : Nat) (dst : Mem) (doff : Nat) : Out Mem Unit :=
  match c with
  | .vec cs e =>
    match getVec src soff cs, getVec dst doff cs with
    | some sv, some dv =>
      if e.size = 0 then .ub
      else
        let count := vecCount e sv
        ((vecResize env O e count dv).conv (setVec dst doff)).bind fun _ dst =>
          match getVec dst doff cs with
          | some dv => (vecCopy O e sv.buf 0 dv.buf 0 count).conv (fun b => setVec dst doff ⟨dv.cap, b⟩)
          | none => .ub
    | _, _ => .ub
  | .str cs =>
    match getStr src soff cs, getStr dst doff cs with
    | some s, some _ => .ok () (setCell dst doff (.str s))
    | _, _ => .ub
  | _ => .ub

/-! ### zero, destroy, copy -/

/-- `ValueOps::zero` (value_ops.cc:291-340) -/
def zeroI (env : Env) (O : ElemOps) : Interp MS where
  memcpy n s := (Out.ofOpt (writeBytes s.mem s.off (List.replicate n 0)) s).bind fun m s => .ok () ⟨m, wadd s.off n⟩
  skip n s := (Out.ofOpt (writeBytes s.mem s.off (List.replicate n 0)) s).bind fun m s => .ok () ⟨m, wadd s.off n⟩
  cont _ c it s :=
    ((contClear env O c s.mem s.off).conv (fun m => ⟨m, s.off⟩)).bind fun _ s =>
      (Out.ofRes (skipBlock 0 it) s).bind fun it s => .ok it ⟨s.mem, wadd s.off c.size⟩
  zeroSkips := false
  derefEnd := false
  contCheck := false
  badOp := .runtime

/-- `ValueOps::destroy` (value_ops.cc:399-445); `skipBlock` starts at the address word -/
def destroyI (env : Env) (O : ElemOps) : Interp MS where
  memcpy n s := .ok () ⟨s.mem, wadd s.off n⟩
  skip n s := .ok () ⟨s.mem, wadd s.off n⟩
  cont _ c it s :=
    ((contDestroy env O c s.mem s.off).conv (fun m => ⟨m, s.off⟩)).bind fun _ s =>
      (Out.ofRes (skipBlock 0 (.p c :: it)) s).bind fun it s => .ok it ⟨s.mem, wadd s.off c.size⟩
  zeroSkips := false
  derefEnd := false
  contCheck := false
  badOp := .runtime

/-- state of copy: destination memory and position, position in the (constant) source -/
structure CS where
  mem : Mem
  off : Nat
  soff : Nat

/-- `ValueOps::copy` (value_ops.cc:447-502) -/
def copyI (env : Env) (O : ElemOps) (src : Mem) : Interp CS where
  memcpy n s :=
    (Out.ofOpt (readBytes src s.soff n) s).bind fun bs s =>
      (Out.ofOpt (writeBytes s.mem s.off bs) s).bind fun m s => .ok () ⟨m, wadd s.off n, wadd s.soff n⟩
  skip n s := .ok () ⟨s.mem, wadd s.off n, wadd s.soff n⟩
  cont _ c it s :=
    ((contCopy env O c src s.soff s.mem s.off).conv (fun m => ⟨m, s.off, s.soff⟩)).bind fun _ s =>
      (Out.ofRes (skipBlock 0 (.p c :: it)) s).bind fun it s =>
        .ok it ⟨s.mem, wadd s.off c.size, wadd s.soff c.size⟩
  zeroSkips := false
  derefEnd := false
  contCheck := false
  badOp := .runtime

/-- `Typelib::init(data, layout)` (value_ops.cc:206-209) at an offset -/
def initL (ml : ML) (m : Mem) (off : Nat) : Out Mem Unit :=
  ((walkInit (ml.init.length + 1) ml.init ⟨m, off⟩).bind fun _ s => .ok () s).conv MS.mem
/-- `Typelib::destroy(data, layout)` (value_ops.cc:240-243) -/
def destroyL (env : Env) (O : ElemOps) (ml : ML) (m : Mem) (off : Nat) : Out Mem Unit :=
  ((walk (destroyI env O) (ml.ops.length + 1) ml.ops ⟨m, off⟩).bind fun _ s => .ok () s).conv MS.mem
/-- `Typelib::zero(data, layout)` (value_ops.cc:223-226) -/
def zeroL (env : Env) (O : ElemOps) (ml : ML) (m : Mem) (off : Nat) : Out Mem Unit :=
  ((walk (zeroI env O) (ml.ops.length + 1) ml.ops ⟨m, off⟩).bind fun _ s => .ok () s).conv MS.mem
/-- `Typelib::copy(dst, src, layout)` (value_ops.cc:253-263), for two different objects -/
def copyL (env : Env) (O : ElemOps) (ml : ML) (src : Mem) (soff : Nat) (m : Mem) (off : Nat) : Out Mem Unit :=
  ((walk (copyI env O src) (ml.ops.length + 1) ml.ops ⟨m, off, soff⟩).bind fun _ s => .ok () s).conv CS.mem

/-- The element operations, for containers nested up to the given depth. -/
def opsAt (env : Env) : Nat → ElemOps
  | 0 => ⟨fun _ _ _ => .fuel, fun _ _ _ => .fuel, fun _ _ _ _ _ => .fuel⟩
  | d + 1 =>
    { init := fun e m i => initL (elemLayout e) m i
      destroy := fun e m i => destroyL env (opsAt env d) (elemLayout e) m i
      copy := fun e src si m i => copyL env (opsAt env d) (elemLayout e) src si m i }

mutual
/-- depth of container nesting of a type -/
def cdepth : Ty → Nat
  | .num _ => 0
  | .enum _ _ => 0
  | .arr _ e => cdepth e
  | .vec _ e => cdepth e + 1
  | .str _ => 1
  | .comp _ fs => cdepthF fs
  | .ptr _ => 0
  | .opaq _ => 0
def cdepthF : Fields → Nat
  | .nil => 0
  | .cons _ t r => max (cdepth t) (cdepthF r)
end

/-- run an operation with the layout of a type (`MemoryLayout ops = layout_of(v.getType())`) -/
def withLayout {σ α : Type} (t : Ty) (s : σ) (k : ML → Out σ α) : Out σ α :=
  (Out.ofRes (layoutOf false false true true t) s).bind fun ml _ => k ml

/-- `Typelib::init(Value)` (value_ops.cc:194-198) -/
def init (t : Ty) (m : Mem) : Out Mem Unit := withLayout t m fun ml => initL ml m 0
/-- `Typelib::zero(Value)` (value_ops.cc:211-215) -/
def zero (env : Env) (t : Ty) (m : Mem) : Out Mem Unit :=
  withLayout t m fun ml => zeroL env (opsAt env (cdepth t)) ml m 0
/-- `Typelib::destroy(Value)` (value_ops.cc:228-233) -/
def destroy (env : Env) (t : Ty) (m : Mem) : Out Mem Unit :=
  withLayout t m fun ml => destroyL env (opsAt env (cdepth t)) ml m 0
/-- `Typelib::copy(Value dst, Value src)` (value_ops.cc:245-251), for two different objects of the same type
(it throws when the types are different objects and does nothing when both are the same object) -/
def copy (env : Env) (t : Ty) (src dst : Mem) : Out Mem Unit :=
  withLayout t dst fun ml => copyL env (opsAt env (cdepth t)) ml src 0 dst 0

/-! ### compare -/

/-- state of compare: both positions -/
structure PS where
  aoff : Nat
  boff : Nat

/-- the element loop of `Vector::compare` (containers.cc:196-222), `String::compare` (439-444); `cmp` is
`Typelib::compare(void*, void*, element_t)` at offsets of the two buffers. -/
def contCompare (cmp : Ty → Mem → Nat → Mem → Nat → Out PS Bool) (c : Ty) (a : Mem) (aoff : Nat) (b : Mem) (boff : Nat) :
    Out PS Bool :=
  match c with
  | .vec cs e =>
    match getVec a aoff cs, getVec b boff cs with
    | some va, some vb =>
      if e.size = 0 then .ub
      else if vecCount e va ≠ vecCount e vb then .ok false ⟨aoff, boff⟩
      else
        match forStep (fun i s => (cmp e va.buf (wmul i e.size) vb.buf (wmul i e.size)).bind fun r _ =>
            if r then .ok () s else .exn .notEqual s) (vecCount e va) 1 (vecCount e va + 1) 0 ⟨aoff, boff⟩ with
        | .ok _ s => .ok true s
        | .exn .notEqual s => .ok false s
        | .exn er s => .exn er s
        | .ub => .ub
        | .fuel => .fuel
    | _, _ => .ub
  | .str cs =>
    match getStr a aoff cs, getStr b boff cs with
    | some x, some y => .ok (x == y) ⟨aoff, boff⟩
    | _, _ => .ub
  | _ => .ub

/-- `ValueOps::compare` (value_ops.cc:504-570); an early `return false` is the pseudo-exception `notEqual` -/
def compareI (cmp : Ty → Mem → Nat → Mem → Nat → Out PS Bool) (a b : Mem) : Interp PS where
  memcpy n s :=
    (Out.ofOpt (readBytes a s.aoff n) s).bind fun x s =>
      (Out.ofOpt (readBytes b s.boff n) s).bind fun y s =>
        if x = y then .ok () ⟨wadd s.aoff n, wadd s.boff n⟩ else .exn .notEqual s
  skip n s := .ok () ⟨wadd s.aoff n, wadd s.boff n⟩
  cont _ c it s :=
    (contCompare cmp c a s.aoff b s.boff).bind fun r s =>
      if r then
        (Out.ofRes (skipBlock 0 (.p c :: it)) s).bind fun it s => .ok it ⟨wadd s.aoff c.size, wadd s.boff c.size⟩
      else .exn .notEqual s
  zeroSkips := false
  derefEnd := false
  contCheck := false
  badOp := .runtime

/-- `Typelib::compare(void*, void*, Type const&)` (value_ops.cc:276-289): the layout accepts pointers and does not
merge padding into data. Containers nested up to a depth. -/
def compareAt : Nat → Ty → Mem → Nat → Mem → Nat → Out PS Bool
  | 0, _, _, _, _, _ => .fuel
  | d + 1, t, a, aoff, b, boff =>
    match layoutOf true false false true t with
    | .ok ml =>
      match walk (compareI (compareAt d) a b) (ml.ops.length + 1) ml.ops ⟨aoff, boff⟩ with
      | .ok _ s => .ok true s
      | .exn .notEqual s => .ok false s
      | .exn er s => .exn er s
      | .ub => .ub
      | .fuel => .fuel
    | .exn er => .exn er ⟨aoff, boff⟩
    | .ub => .ub
    | .fuel => .fuel

/-- `Typelib::compare` on two objects of a type -/
def compare (t : Ty) (a b : Mem) : Out PS Bool := compareAt (cdepth t + 1) t a 0 b 0

/-! ### dump -/

/-- state of dump: what is dumped, position, output stream -/
structure DS (S : Type) where
  mem : Mem
  off : Nat
  out : S

/-- the bytes of a `uint64_t` in memory (little-endian host) -/
def le64 (n : Nat) : List UInt8 := leBytes 8 n

/-- `stream.write` on the stream component of the state -/
def DS.write {S : Type} (w : List UInt8 → S → Out S Unit) (bs : List UInt8) (s : DS S) : Out (DS S) Unit :=
  (w bs s.out).conv fun o => { s with out := o }

/-- one iteration of the element loop of `Vector::dump` (containers.cc:317-323): `rec` is `ValueOps::dump` from the
element block, at the `i`-th element; the state is the iterator and the stream -/
def dumpElem {S : Type} (rec : List Word → DS S → Out (DS S) (List Word)) (begin : List Word) (buf : Mem) (esize : Nat)
    (s : DS S) (i : Nat) (x : List Word × DS S) : Out (List Word × DS S) Unit :=
  match rec begin ⟨buf, wmul i esize, x.2.out⟩ with
  | .ok it t => .ok () (it, { s with out := t.out })
  | .exn er t => .exn er (x.1, { s with out := t.out })
  | .ub => .ub
  | .fuel => .fuel

/-- `Vector::dump` (containers.cc:300-327), `String::dump` (475-485); `begin` is the iterator on the element block -/
def contDump {S : Type} (w : List UInt8 → S → Out S Unit) (rec : List Word → DS S → Out (DS S) (List Word))
    (c : Ty) (off count : Nat) (begin : List Word) (s : DS S) : Out (DS S) (List Word) :=
  match c with
  | .vec cs e =>
    match getVec s.mem off cs with
    | some v =>
      if isElementMemcpy e then
        match begin with
        | _ :: .n k :: after =>
          match readBytes v.buf 0 (wmul k count) with
          | some bs => (s.write w bs).bind fun _ s => .ok after s
          | none => .ub
        | _ => .ub
      else
        (((forStep (dumpElem rec begin v.buf e.size s) count 1 (count + 1) 0 (begin, s)).bind fun _ x => .ok x.1 x).conv Prod.snd)
    | none => .ub
  | .str cs =>
    match getStr s.mem off cs with
    | some str =>
      match begin with
      | _ :: _ :: after => (s.write w (str.take count)).bind fun _ s => .ok after s
      | _ => .ub
    | none => .ub
  | _ => .ub

/-- `Vector::getElementCount`, `String::getElementCount` -/
def contCount (c : Ty) (m : Mem) (off : Nat) : Option Nat :=
  match c with
  | .vec cs e => if e.size = 0 then none else (getVec m off cs).map (vecCount e)
  | .str cs => (getStr m off cs).map List.length
  | _ => none

/-- `ValueOps::dump` (value_ops.cc:59-123) -/
def dumpI {S : Type} (w : List UInt8 → S → Out S Unit) : Interp (DS S) where
  memcpy n s :=
    (Out.ofOpt (readBytes s.mem s.off n) s).bind fun bs s =>
      (s.write w bs).bind fun _ s => .ok () { s with off := wadd s.off n }
  skip n s := .ok () { s with off := wadd s.off n }
  cont rec c it s :=
    let off := s.off
    let s := { s with off := wadd s.off c.size }
    (Out.ofOpt (contCount c s.mem off) s).bind fun count s =>
      (s.write w (le64 count)).bind fun _ s =>
        if count = 0 then Out.ofRes (skipBlock 0 it) s
        else contDump w rec c off count it s
  zeroSkips := true
  derefEnd := false
  contCheck := true
  badOp := .badBytecode

/-- `Typelib::dump(data, stream, layout)` (value_ops.cc:724-730) -/
def dumpL {S : Type} (w : List UInt8 → S → Out S Unit) (ml : ML) (m : Mem) (o : S) : Out S Unit :=
  match walk (dumpI w) (ml.ops.length + 1) ml.ops ⟨m, 0, o⟩ with
  | .ok [] s => .ok () s.out
  | .ok (_ :: _) s => .exn .runtime s.out
  | .exn e s => .exn e s.out
  | .ub => .ub
  | .fuel => .fuel

/-- `VectorOutputStream::write` (value_ops.cc:589-593) -/
def vecWrite (env : Env) (bs : List UInt8) (o : List UInt8) : Out (List UInt8) Unit :=
  if env.maxAlloc < o.length + bs.length then .exn .lengthError o else .ok () (o ++ bs)

/-- `Typelib::dump(Value, std::vector<uint8_t>&)` (value_ops.cc:595-599): appends to the buffer -/
def dump (env : Env) (t : Ty) (m : Mem) (o : List UInt8) : Out (List UInt8) Unit :=
  withLayout t o fun ml => dumpL (vecWrite env) ml m o

/-- `ByteCounterStream::write` (value_ops.cc:787-788) -/
def countWrite (bs : List UInt8) (n : Nat) : Out Nat Unit := .ok () (wadd n bs.length)

/-- `Typelib::getDumpSize` (value_ops.cc:790-803) -/
def getDumpSize (t : Ty) (m : Mem) : Out Nat Unit :=
  withLayout t 0 fun ml =>
    match walk (dumpI countWrite) (ml.ops.length + 1) ml.ops ⟨m, 0, 0⟩ with
    | .ok _ s => .ok () s.out
    | .exn e s => .exn e s.out
    | .ub => .ub
    | .fuel => .fuel

/-- a fixed buffer and the write position (an `unsigned int`) -/
structure BA where
  buf : List UInt8
  current : Nat

/-- `ByteArrayOutputStream::write` (value_ops.cc:747-754); `size` is the `buffer_size` given by the caller, the
actual buffer being `buf`: writing outside of `buf` is undefined. -/
def baWrite (size : Nat) (bs : List UInt8) (o : BA) : Out BA Unit :=
  if wadd o.current bs.length > size then .exn .exception o
  else if bs.length = 0 then .ok () o
  else if o.current + bs.length ≤ o.buf.length then
    .ok () ⟨o.buf.take o.current ++ bs ++ o.buf.drop (o.current + bs.length), (o.current + bs.length) % 4294967296⟩
  else .ub

/-- `Typelib::dump(Value, uint8_t*, unsigned int)` (value_ops.cc:756-781): exceptions of the dump become 0. -/
def dumpFixed (t : Ty) (m : Mem) (size : Nat) (buf : List UInt8) : Out BA Nat :=
  withLayout t ⟨buf, 0⟩ fun ml =>
    match walk (dumpI (baWrite size)) (ml.ops.length + 1) ml.ops ⟨m, 0, ⟨buf, 0⟩⟩ with
    | .ok [] s => .ok s.out.current s.out
    | .ok (_ :: _) s => .exn .runtime s.out
    | .exn _ s => .ok 0 s.out
    | .ub => .ub
    | .fuel => .fuel

/-! ### load -/

/-- state of load: destination, position, position in the input -/
structure LS where
  mem : Mem
  off : Nat
  idx : Nat

/-- the value of the 8 bytes of a `uint64_t` in memory -/
def leVal : List UInt8 → Nat
  | [] => 0
  | b :: r => b.toNat + 256 * leVal r

/-- `VectorInputStream::read` (value_ops.cc:844-857), `ByteArrayInputStream::read` (898-911): the next `n` bytes of the
input and the new position -/
def inRead (input : List UInt8) (idx n : Nat) : Res (List UInt8 × Nat) :=
  if wadd n idx > input.length then .exn .runtime
  else if n = 0 then .ok ([], idx)
  else if idx + n ≤ input.length then .ok ((input.drop idx).take n, idx + n)
  else .ub

/-- one iteration of the element loop of `Vector::load` (containers.cc:347-356); the state is the iterator, the buffer of
the vector and the position in the input -/
def loadElem (rec : List Word → LS → Out LS (List Word)) (begin : List Word) (esize : Nat)
    (i : Nat) (x : List Word × Mem × Nat) : Out (List Word × Mem × Nat) Unit :=
  match rec begin ⟨x.2.1, wmul i esize, x.2.2⟩ with
  | .ok it t => .ok () (it, t.mem, t.idx)
  | .exn er t => .exn er (x.1, t.mem, t.idx)
  | .ub => .ub
  | .fuel => .fuel

/-- `Vector::load` (containers.cc:329-360), `String::load` (487-502) -/
def contLoad (env : Env) (O : ElemOps) (input : List UInt8) (rec : List Word → LS → Out LS (List Word))
    (c : Ty) (off count : Nat) (begin : List Word) (s : LS) : Out LS (List Word) :=
  match c with
  | .vec cs e =>
    match getVec s.mem off cs with
    | some v =>
      ((vecResize env O e count v).conv (fun v => { s with mem := setVec s.mem off v })).bind fun _ s =>
      match getVec s.mem off cs with
      | some v =>
        if isElementMemcpy e then
          match begin with
          | _ :: .n k :: after =>
            (Out.ofRes (inRead input s.idx (wmul k count)) s).bind fun r s =>
              match writeBytes v.buf 0 r.1 with
              | some b => .ok after { s with mem := setVec s.mem off ⟨v.cap, b⟩, idx := r.2 }
              | none => .ub
          | _ => .ub
        else
          (((forStep (loadElem rec begin e.size) count 1 (count + 1) 0 ([], v.buf, s.idx)).bind fun _ x => .ok x.1 x).conv
            fun x => { s with mem := setVec s.mem off ⟨v.cap, x.2.1⟩, idx := x.2.2 })
      | none => .ub
    | none => .ub
  | .str cs =>
    match getStr s.mem off cs with
    | some _ =>
      let s := { s with mem := setCell s.mem off (.str []) }
      if env.maxAlloc < count then .exn .lengthError s
      else
        (Out.ofRes (inRead input s.idx count) s).bind fun r s =>
          match begin with
          | _ :: _ :: after => .ok after { s with mem := setCell s.mem off (.str r.1), idx := r.2 }
          | _ => .ub
    | none => .ub
  | _ => .ub

/-- `ValueOps::load` (value_ops.cc:125-191) -/
def loadI (env : Env) (O : ElemOps) (input : List UInt8) : Interp LS where
  memcpy n s :=
    (Out.ofRes (inRead input s.idx n) s).bind fun r s =>
      (Out.ofOpt (writeBytes s.mem s.off r.1) s).bind fun m s => .ok () ⟨m, wadd s.off n, r.2⟩
  skip n s := .ok () { s with off := wadd s.off n }
  cont rec c it s :=
    let off := s.off
    let s := { s with off := wadd s.off c.size }
    (Out.ofRes (inRead input s.idx 8) s).bind fun r s =>
      let s := { s with idx := r.2 }
      let count := leVal r.1
      if count = 0 then Out.ofRes (skipBlock 0 it) s
      else contLoad env O input rec c off count it s
  zeroSkips := true
  derefEnd := true
  contCheck := true
  badOp := .badBytecode

/-- largest `offset + size` of the fields (typemodel.cc:329-336) -/
def maxEnd : Fields → Nat
  | .nil => 0
  | .cons off t r => max (off + t.size) (maxEnd r)

/-- `Type::getTrailingPadding` (typemodel.cc:73-74, 321-339) -/
def trailingPadding : Ty → Nat
  | .comp n .nil => n
  | .comp n fs => n - maxEnd fs
  | _ => 0

/-- the checks at the end of `Typelib::load` from a buffer (value_ops.cc:868-884, 922-938) -/
def loadFinish (t : Ty) (input : List UInt8) : Out LS (List Word) → Out Mem Unit
  | .ok [] s =>
    if s.idx ≠ input.length ∧ wadd s.idx (trailingPadding t) ≠ input.length then .exn .runtime s.mem else .ok () s.mem
  | .ok (_ :: _) s => .exn .runtime s.mem
  | .exn e s => .exn e s.mem
  | .ub => .ub
  | .fuel => .fuel

/-- `Typelib::load(Value, std::vector<uint8_t> const&)` (value_ops.cc:860-884) -/
def load (env : Env) (t : Ty) (input : List UInt8) (m : Mem) : Out Mem Unit :=
  withLayout t m fun ml =>
    loadFinish t input (walk (loadI env (opsAt env (cdepth t)) input) (ml.ops.length + 1) ml.ops ⟨m, 0, 0⟩)

end Verif.Value
