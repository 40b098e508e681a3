import Verif.Basic

/-!
Model of `typelib/memory_layout.{hh,cc}`: the bytecode that describes the memory of a type, its
construction from a type, its simplification and validation.
-/

namespace Verif.Layout
open Verif

mutual
/-- Type definitions as seen by the memory layout code (typelib/typemodel.hh). Only what the layout and value
operations look at is kept: sizes, offsets, dimensions, element types. A type that contains itself through a
container is not representable (raw_layout_of does not terminate on it).
`Array` has size `dim * elem.size` (typemodel.cc:520-524), `Vector`/`String` their `getNaturalSize()`
(containers.cc:88,411), a parameter here; `String`'s element is the 1-byte numeric `/int8_t`. -/
inductive Ty where
  | num (size : Nat)
  /-- `values`: the integer values of the symbols, in the order of `Enum::values()` (a std::map by name) -/
  | enum (size : Nat) (values : List Int)
  | arr (dim : Nat) (elem : Ty)
  | vec (csize : Nat) (elem : Ty)
  | str (csize : Nat)
  | comp (size : Nat) (fields : Fields)
  | ptr (size : Nat)
  | opaq (size : Nat)
/-- the ordered fields of a compound: offset and type -/
inductive Fields where
  | nil
  | cons (offset : Nat) (type : Ty) (rest : Fields)
end

/-- `Type::getSize()`; the product of an array is a `size_t` product. -/
def Ty.size : Ty → Nat
  | .num n => n
  | .enum n _ => n
  | .arr d e => wmul d e.size
  | .vec c _ => c
  | .str c => c
  | .comp n _ => n
  | .ptr n => n
  | .opaq n => n

/-- One `size_t` of bytecode: a number, or the address of a `Container` object (memory_layout.cc:70; assumed
different from the opcodes 0..4). -/
inductive Word where
  | n (v : Nat)
  | p (c : Ty)

/-! opcodes (memory_layout.hh:117-131) -/
@[reducible] def FLAG_MEMCPY : Nat := 0
@[reducible] def FLAG_ARRAY : Nat := 1
@[reducible] def FLAG_CONTAINER : Nat := 2
@[reducible] def FLAG_SKIP : Nat := 3
@[reducible] def FLAG_END : Nat := 4
@[reducible] def FLAG_INIT : Nat := 0
@[reducible] def FLAG_INIT_REPEAT : Nat := 1
@[reducible] def FLAG_INIT_CONTAINER : Nat := 2
@[reducible] def FLAG_INIT_SKIP : Nat := 3
@[reducible] def FLAG_INIT_END : Nat := 4

/-- `MemoryLayout` (memory_layout.hh:41): `ops` and `init_ops`. -/
structure ML where
  ops : List Word
  init : List Word

/-- `isMemcpy` (memory_layout.cc:11-14) -/
def ML.isMemcpy (l : ML) : Bool :=
  match l.ops with
  | [.n 0, _] => true
  | _ => false

/-- bytes of `init_value`, lowest first, `size` of them (the loop of memory_layout.cc:563-566); `init_value` is
the `uint64_t` conversion of the enum value. -/
def leBytes : Nat → Nat → List UInt8
  | 0, _ => []
  | k + 1, v => UInt8.ofNat (v % 256) :: leBytes k (v / 256)

/-- initialisation data of an enum (memory_layout.cc:558-567): empty when it has no symbol. -/
def enumInit (size : Nat) : List Int → List UInt8
  | [] => []
  | v :: _ => leBytes size (v % (W : Int)).toNat

/-- `pushMemcpy` (memory_layout.cc:15-32). -/
def pushMemcpy (l : ML) (size : Nat) (data : List UInt8) : Res ML :=
  if data.isEmpty then
    .ok { ops := l.ops ++ [.n FLAG_MEMCPY, .n size], init := l.init ++ [.n FLAG_INIT_SKIP, .n size] }
  else if size ≠ data.length then .exn .runtime
  else .ok { ops := l.ops ++ [.n FLAG_MEMCPY, .n size],
             init := l.init ++ [.n FLAG_INIT, .n data.length] ++ data.map (fun b => .n b.toNat) }

/-- `pushSkip` (memory_layout.cc:34-39). -/
def pushSkip (l : ML) (size : Nat) : ML :=
  { ops := l.ops ++ [.n FLAG_SKIP, .n size], init := l.init ++ [.n FLAG_INIT_SKIP, .n size] }

/-- `pushArray` (memory_layout.cc:57-65) and `pushInitRepeat` (98-103). -/
def pushArray (l : ML) (dim : Nat) (sub : ML) : ML :=
  { ops := l.ops ++ [.n FLAG_ARRAY, .n dim] ++ sub.ops ++ [.n FLAG_END],
    init := l.init ++ [.n FLAG_INIT_REPEAT, .n dim] ++ sub.init ++ [.n FLAG_INIT_END] }

/-- `pushContainer` (memory_layout.cc:67-75) and `pushInitContainer` (105-108). -/
def pushContainer (l : ML) (c : Ty) (sub : ML) : ML :=
  { ops := l.ops ++ [.n FLAG_CONTAINER, .p c] ++ sub.ops ++ [.n FLAG_END],
    init := l.init ++ [.n FLAG_INIT_CONTAINER, .p c] }

mutual
/-- `MemLayout::Visitor` (memory_layout.cc:546-625): appends the layout of a type to `l`. `ap`/`ao` are
`accept_pointers`/`accept_opaques`; array and container elements are visited with a visitor that has both
at `false` (memory_layout.cc:575, 583). -/
def visit (ap ao : Bool) (l : ML) : Ty → Res ML
  | .num n => pushMemcpy l n []
  | .enum n vs => if n > 8 then .exn .runtime else pushMemcpy l n (enumInit n vs)
  | .arr d e => do
    let sub ← visit false false ⟨[], []⟩ e
    .ok (pushArray l d sub)
  | .vec c e => do
    let sub ← visit false false ⟨[], []⟩ e
    .ok (pushContainer l (.vec c e) sub)
  | .str c => do
    let sub ← pushMemcpy ⟨[], []⟩ 1 []
    .ok (pushContainer l (.str c) sub)
  | .comp n fs => do
    let (l, cur) ← visitFields ap ao l 0 fs
    .ok (pushSkip l (wsub n cur))
  | .ptr n => if ap then pushMemcpy l n [] else .exn .noLayout
  | .opaq n => if ao then .ok (pushSkip l n) else .exn .noLayout
/-- the field loop of `visit_(Compound const&)` (memory_layout.cc:594-600) -/
def visitFields (ap ao : Bool) (l : ML) (cur : Nat) : Fields → Res (ML × Nat)
  | .nil => .ok (l, cur)
  | .cons off t r => do
    let l ← visit ap ao (pushSkip l (wsub off cur)) t
    visitFields ap ao l (wadd off t.size) r
end

/-- `raw_layout_of` (memory_layout.hh:155-161) -/
def rawLayoutOf (ap ao : Bool) (t : Ty) : Res ML := visit ap ao ⟨[], []⟩ t

/-! ### simplification -/

/-- `pushGenericOp` -/
def gop (out : List Word) (op v : Nat) : List Word := out ++ [.n op, .n v]

/-- `ops.resize(n)` as used by the simplifier; growing would add zeros, and `n` is a `size_t` (so that
`content_i - 4` below zero is a huge request: `std::length_error`). -/
def resizeOps (out : List Word) (size minus : Nat) : Res (List Word) :=
  if size < minus then .exn .lengthError
  else .ok (out.take (size - minus))

/-- The loop of the private `simplify` (memory_layout.cc:256-367), `simplifyBlock` (246-254) inlined.
Local variables: `op` = current_op, `cnt` = current_op_count, `skc` = current_skip_count; `out` is
`simplified.ops`. Returns the iterator and the output. -/
def simp (merge rem : Bool) : Nat → List Word → (depth op cnt skc : Nat) → List Word → Res (List Word × List Word)
  | 0, _, _, _, _, _, _ => .fuel
  | f + 1, it, depth, op, cnt, skc, out =>
    match it with
    | [] =>
      if cnt ≠ 0 then
        if !rem || op ≠ FLAG_SKIP || depth > 0 then .ok ([], gop out op (wsub cnt skc)) else .ok ([], out)
      else .ok ([], out)
    | .p _ :: _ => .ub     -- an address read as an opcode: never produced by the visitor
    | .n o :: r =>
      if o = FLAG_END then
        .ok (.n FLAG_END :: r, if cnt ≠ 0 then gop out op cnt else out)
      else if o = FLAG_ARRAY then
        match r with
        | .n dim :: body =>
          let out1 := if cnt ≠ 0 then gop out op cnt else out
          let out2 := gop out1 FLAG_ARRAY dim
          let contentI := out2.length
          match simp merge rem f body (depth + 1) FLAG_MEMCPY 0 0 out2 with
          | .ok (.n 4 :: r', out3) =>
            let added := out3.length - contentI
            if added = 2 then
              match out3.drop contentI with
              | .n op' :: .n v :: _ =>
                let count := wmul v dim
                if op' = op ∧ cnt ≠ 0 then do
                  let o4 ← resizeOps out3 contentI 4
                  simp merge rem f r' depth op (wadd cnt count) 0 o4
                else do
                  let o4 ← resizeOps out3 contentI 2
                  simp merge rem f r' depth op' count 0 o4
              | _ => .ub
            else if added = 0 then do
              let o4 ← resizeOps out3 contentI 4
              simp merge rem f r' depth op cnt 0 o4
            else simp merge rem f r' depth op 0 0 (out3 ++ [.n FLAG_END])
          | .ok (_, _) => .exn .invalidLayout
          | .exn e => .exn e
          | .ub => .ub
          | .fuel => .fuel
        | _ => .ub
      else if o = FLAG_CONTAINER then
        match r with
        | c :: body =>
          let out1 := if cnt ≠ 0 then gop out op cnt else out
          match simp merge rem f body (depth + 1) FLAG_MEMCPY 0 0 (out1 ++ [.n FLAG_CONTAINER, c]) with
          | .ok (.n 4 :: r', out3) => simp merge rem f r' depth op 0 0 (out3 ++ [.n FLAG_END])
          | .ok (_, _) => .exn .invalidLayout
          | .exn e => .exn e
          | .ub => .ub
          | .fuel => .fuel
        | _ => .ub
      else
        match r with
        | .n size :: r' =>
          let skc1 := if o = FLAG_SKIP then wadd skc size else 0
          if o = op then simp merge rem f r' depth op (wadd cnt size) skc1 out
          else if merge then simp merge rem f r' depth FLAG_MEMCPY (wadd cnt size) skc1 out
          else simp merge rem f r' depth o size skc1 (if cnt ≠ 0 then gop out op cnt else out)
        | _ => .ub

/-- The loop of the private `simplifyInit` (memory_layout.cc:134-231), `simplifyInitBlock` (124-132) inlined.
`cnt` = current_op_count, `dat` = current_init_data (bytes as words), `out` = simplified.init_ops;
`shave` is true only for the outermost call. -/
def simpI : Nat → List Word → (shave : Bool) → (cnt : Nat) → (dat : List Word) → List Word →
    Res (List Word × List Word)
  | 0, _, _, _, _, _ => .fuel
  | f + 1, it, shave, cnt, dat, out =>
    match it with
    | [] =>
      if cnt ≠ 0 ∧ shave = false then .ok ([], gop out FLAG_INIT_SKIP cnt)
      else if !dat.isEmpty then .ok ([], out ++ [.n FLAG_INIT, .n dat.length] ++ dat)
      else .ok ([], out)
    | .p _ :: _ => .exn .invalidLayout
    | .n o :: r =>
      if o = FLAG_INIT_END then
        .ok (.n FLAG_INIT_END :: r,
          if cnt ≠ 0 then gop out FLAG_INIT_SKIP cnt
          else if !dat.isEmpty then out ++ [.n FLAG_INIT, .n dat.length] ++ dat else out)
      else if o = FLAG_INIT then
        match r with
        | .n size :: r' =>
          if size > r'.length then .ub
          else simpI f (r'.drop size) shave 0 (dat ++ r'.take size)
            (if cnt ≠ 0 then gop out FLAG_INIT_SKIP cnt else out)
        | _ => .ub
      else
        let out := if !dat.isEmpty then out ++ [.n FLAG_INIT, .n dat.length] ++ dat else out
        if o = FLAG_INIT_REPEAT then
          match r with
          | .n dim :: body =>
            let out1 := if cnt ≠ 0 then gop out FLAG_INIT_SKIP cnt else out
            let out2 := gop out1 FLAG_INIT_REPEAT dim
            let contentI := out2.length
            match simpI f body false 0 [] out2 with
            | .ok (.n 4 :: r', out3) =>
              let added := out3.length - contentI
              let single : Option Nat :=
                if added = 2 then match out3.drop contentI with
                  | .n 3 :: .n v :: _ => some v
                  | _ => none
                else none
              match single with
              | some v =>
                let count := wmul v dim
                if cnt ≠ 0 then do
                  let o4 ← resizeOps out3 contentI 4
                  simpI f r' shave (wadd cnt count) [] o4
                else do
                  let o4 ← resizeOps out3 contentI 2
                  simpI f r' shave count [] o4
              | none =>
                if added = 0 then do
                  let o4 ← resizeOps out3 contentI 4
                  simpI f r' shave cnt [] o4
                else simpI f r' shave 0 [] (out3 ++ [.n FLAG_INIT_END])
            | .ok (_, _) => .exn .invalidLayout
            | .exn e => .exn e
            | .ub => .ub
            | .fuel => .fuel
          | _ => .ub
        else if o = FLAG_INIT_CONTAINER then
          match r with
          | c :: r' =>
            simpI f r' shave 0 [] ((if cnt ≠ 0 then gop out FLAG_INIT_SKIP cnt else out) ++ [.n FLAG_INIT_CONTAINER, c])
          | _ => .ub
        else if o = FLAG_INIT_SKIP then
          match r with
          | .n v :: r' => simpI f r' shave (wadd cnt v) [] out
          | _ => .ub
        else .exn .invalidLayout

/-- `simplifyInit()` (memory_layout.cc:111-122) -/
def simplifyInit (init : List Word) : Res (List Word) :=
  match simpI (init.length + 1) init true 0 [] [] with
  | .ok ([], out) =>
    .ok (match out with
      | [.n 3, _] => []
      | o => o)
  | .ok (_ :: _, _) => .exn .invalidLayout
  | .exn e => .exn e
  | .ub => .ub
  | .fuel => .fuel

/-- `simplify(merge_skip_copy, remove_trailing_skips)` (memory_layout.cc:233-244) -/
def simplify (merge rem : Bool) (l : ML) : Res ML :=
  match simp merge rem (l.ops.length + 1) l.ops 0 FLAG_MEMCPY 0 0 [] with
  | .ok ([], out) => do
    let i ← simplifyInit l.init
    .ok ⟨out, i⟩
  | .ok (_ :: _, _) => .exn .invalidLayout
  | .exn e => .exn e
  | .ub => .ub
  | .fuel => .fuel

/-- `layout_of` (memory_layout.hh:180-184) -/
def layoutOf (ap ao merge rem : Bool) (t : Ty) : Res ML := do
  let raw ← rawLayoutOf ap ao t
  simplify merge rem raw

/-! ### validation, block skipping -/

/-- the first loop of `validate` (memory_layout.cc:371-404) -/
def validateOps : Nat → List Word → Res Nat
  | indent, [] => .ok indent
  | _, .p _ :: _ => .exn .invalidLayout
  | indent, .n o :: r =>
    if o = FLAG_MEMCPY ∨ o = FLAG_SKIP then
      match r with
      | _ :: r' => validateOps indent r'
      | [] => .ub
    else if o = FLAG_ARRAY ∨ o = FLAG_CONTAINER then
      match r with
      | _ :: r' => validateOps (indent + 1) r'
      | [] => .ub
    else if o = FLAG_END then
      match indent with
      | 0 => .exn .invalidLayout
      | k + 1 => validateOps k r
    else .exn .invalidLayout

/-- the second loop of `validate` (memory_layout.cc:406-440). The test
`(init_ops.end() - it) < (int) size` counts the size word itself, so it allows one word too many:
`it += size` may then step on the last word of the stream's end. Modelled: at most `r'.length` data words. -/
def validateInit : Nat → Nat → List Word → Res Nat
  | 0, _, _ => .fuel
  | _ + 1, indent, [] => .ok indent
  | f + 1, indent, .p _ :: r => validateInit f indent r
  | f + 1, indent, .n o :: r =>
    if o = FLAG_INIT_SKIP ∨ o = FLAG_INIT_CONTAINER then
      match r with
      | _ :: r' => validateInit f indent r'
      | [] => .ub
    else if o = FLAG_INIT then
      match r with
      | .n size :: r' =>
        if r'.length + 1 < size then .exn .invalidLayout
        else if r'.length < size then .ub
        else validateInit f indent (r'.drop size)
      | _ => .ub
    else if o = FLAG_INIT_REPEAT then
      match r with
      | _ :: r' => validateInit f (indent + 1) r'
      | [] => .ub
    else if o = FLAG_INIT_END then
      match indent with
      | 0 => .exn .invalidLayout
      | k + 1 => validateInit f k r
    else validateInit f indent r

/-- `validate()` (memory_layout.cc:369-441) -/
def validate (l : ML) : Res Unit := do
  let k ← validateOps 0 l.ops
  if k > 0 then .exn .invalidLayout
  else do
    let j ← validateInit (l.init.length + 1) 0 l.init
    if j > 0 then .exn .invalidLayout else .ok ()

/-- `skipBlock(begin, end)` (memory_layout.cc:515-544); the result is the iterator, `[]` for `end`. -/
def skipBlock : Nat → List Word → Res (List Word)
  | _, [] => .ok []
  | nest, .p _ :: r => skipBlock nest r
  | nest, .n o :: r =>
    if o = FLAG_ARRAY ∨ o = FLAG_CONTAINER then
      match r with
      | _ :: r' => skipBlock (nest + 1) r'
      | [] => .ub
    else if o = FLAG_END then
      match nest with
      | 0 => .ok (.n o :: r)
      | k + 1 => skipBlock k r
    else if o = FLAG_SKIP ∨ o = FLAG_MEMCPY then
      match r with
      | _ :: r' => skipBlock nest r'
      | [] => .ub
    else skipBlock nest r

end Verif.Layout
