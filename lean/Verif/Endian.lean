import Verif.LayoutSpec

/-!
Model of `typelib/endianness.{hh,cc}` (`CompileEndianSwapVisitor`) and of the integer swaps of
`typelib/endian_swap.hh`.
-/

namespace Verif.Endian
open Verif Verif.Layout

/-! ### `Endian::Details::swap_helper` (endian_swap.hh:23-40) -/

/-- `swap_helper<2, uint16_t>` (endian_swap.hh:25-26) -/
def sw2 (data : BitVec 16) : BitVec 16 :=
  ((data >>> 8) &&& 0xFF#16) ||| ((data <<< 8) &&& 0xFF00#16)

/-- `swap_helper<4, uint32_t>` (endian_swap.hh:27-28) -/
def sw4 (data : BitVec 32) : BitVec 32 :=
  ((data &&& 0xFF000000#32) >>> 24) ||| ((data &&& 0x00FF0000#32) >>> 8)
    ||| ((data &&& 0xFF#32) <<< 24) ||| ((data &&& 0xFF00#32) <<< 8)

/-- `swap_helper<8, uint64_t>` (endian_swap.hh:29-40) -/
def sw8 (data : BitVec 64) : BitVec 64 :=
  let srcLow : BitVec 32 := (data &&& 0xFFFFFFFF#64).setWidth 32
  let srcHigh : BitVec 32 := (data >>> 32).setWidth 32
  let dstLow := sw4 srcHigh
  let dstHigh := sw4 srcLow
  ((dstHigh.setWidth 64) <<< 32) ||| dstLow.setWidth 64

/-- the integer whose object representation on a little-endian host is the given bytes -/
def loadLE (w : Nat) : List UInt8 → BitVec w
  | [] => 0#w
  | b :: r => (b.toBitVec.setWidth w) ||| (loadLE w r <<< 8)

/-- the object representation (`k` bytes) of an integer on a little-endian host -/
def storeLE {w : Nat} (v : BitVec w) : Nat → List UInt8
  | 0 => []
  | k + 1 => ⟨v.setWidth 8⟩ :: storeLE (v >>> 8) k

/-- `swap<uint16_t>` on memory -/
def swapMem2 (bs : List UInt8) : List UInt8 := storeLE (sw2 (loadLE 16 bs)) 2
/-- `swap<uint32_t>` on memory -/
def swapMem4 (bs : List UInt8) : List UInt8 := storeLE (sw4 (loadLE 32 bs)) 4
/-- `swap<uint64_t>` on memory -/
def swapMem8 (bs : List UInt8) : List UInt8 := storeLE (sw8 (loadLE 64 bs)) 8

theorem swapMem2_reverse (a b : UInt8) : swapMem2 [a, b] = [b, a] := by
  simp only [swapMem2, loadLE, storeLE, List.cons.injEq, and_true]
  rcases a with ⟨a⟩
  rcases b with ⟨b⟩
  refine ⟨?_, ?_⟩ <;>
  · apply UInt8.eq_of_toBitVec_eq
    apply BitVec.eq_of_getLsbD_eq
    intro i hi
    have : i = 0 ∨ i = 1 ∨ i = 2 ∨ i = 3 ∨ i = 4 ∨ i = 5 ∨ i = 6 ∨ i = 7 := by omega
    rcases this with rfl | rfl | rfl | rfl | rfl | rfl | rfl | rfl <;>
      simp [sw2]

theorem swapMem4_reverse (a b c d : UInt8) : swapMem4 [a, b, c, d] = [d, c, b, a] := by
  simp only [swapMem4, loadLE, storeLE, List.cons.injEq, and_true]
  rcases a with ⟨a⟩
  rcases b with ⟨b⟩
  rcases c with ⟨c⟩
  rcases d with ⟨d⟩
  refine ⟨?_, ?_, ?_, ?_⟩ <;>
  · apply UInt8.eq_of_toBitVec_eq
    apply BitVec.eq_of_getLsbD_eq
    intro i hi
    have : i = 0 ∨ i = 1 ∨ i = 2 ∨ i = 3 ∨ i = 4 ∨ i = 5 ∨ i = 6 ∨ i = 7 := by omega
    rcases this with rfl | rfl | rfl | rfl | rfl | rfl | rfl | rfl <;>
      simp [sw4]

theorem swapMem8_reverse (a b c d e f g h : UInt8) :
    swapMem8 [a, b, c, d, e, f, g, h] = [h, g, f, e, d, c, b, a] := by
  simp only [swapMem8, loadLE, storeLE, List.cons.injEq, and_true]
  rcases a with ⟨a⟩
  rcases b with ⟨b⟩
  rcases c with ⟨c⟩
  rcases d with ⟨d⟩
  rcases e with ⟨e⟩
  rcases f with ⟨f⟩
  rcases g with ⟨g⟩
  rcases h with ⟨h⟩
  refine ⟨?_, ?_, ?_, ?_, ?_, ?_, ?_, ?_⟩ <;>
  · apply UInt8.eq_of_toBitVec_eq
    apply BitVec.eq_of_getLsbD_eq
    intro i hi
    have : i = 0 ∨ i = 1 ∨ i = 2 ∨ i = 3 ∨ i = 4 ∨ i = 5 ∨ i = 6 ∨ i = 7 := by omega
    rcases this with rfl | rfl | rfl | rfl | rfl | rfl | rfl | rfl <;>
      simp [sw8, sw4]

/-! ### `CompileEndianSwapVisitor` -/

/-! special words of the compiled program (endianness.hh:63-76) -/
@[reducible] def F_SKIP : Nat := 18446744073709551615
@[reducible] def F_ARRAY : Nat := 18446744073709551614
@[reducible] def F_END : Nat := 18446744073709551613
@[reducible] def F_SWAP_4 : Nat := 18446744073709551612
@[reducible] def F_SWAP_8 : Nat := 18446744073709551611
/-- `sizeof(int)` (endianness.hh:77) -/
@[reducible] def sizeOfEnum : Nat := 4

/-- conversion `size_t → int → size_t` of an argument of `skip(int)` when it is pushed or added to a `size_t` -/
def viaInt (n : Nat) : Nat :=
  let m := n % 4294967296
  if m < 2147483648 then m else W - 4294967296 + m

/-- `skip` (endianness.cc:15-26) -/
def skipW (c : List Nat) (n : Nat) : List Nat :=
  if c.length > 1 ∧ c[c.length - 2]? = some F_SKIP then
    c.take (c.length - 1) ++ [wadd (c.getLastD 0) (viaInt n)]
  else c ++ [F_SKIP, viaInt n]

/-- `m_compiled[i] *= d` -/
def mulAt (c : List Nat) (i d : Nat) : Res (List Nat) :=
  match c[i]? with
  | some v => .ok (c.set i (wmul v d))
  | none => .ub

/-- is the type an array? (`getCategory() == Type::Array`) -/
def isArr : Ty → Bool
  | .arr _ _ => true
  | _ => false

mutual
/-- The `visit_` methods (endianness.cc:28-110): `x` is `m_output_index`, `c` is `m_compiled`. -/
def compile (x : Nat) (c : List Nat) : Ty → Res (List Nat)
  | .num n =>
    if n = 1 then .ok (skipW c 1)
    else if n = 2 then .ok (c ++ [wadd x 1, x])
    else if n = 4 then .ok (c ++ [F_SWAP_4])
    else if n = 8 then .ok (c ++ [F_SWAP_8])
    else .exn .runtime
  | .enum _ _ => .ok (c ++ [wadd x 3, wadd x 2, wadd x 1, wadd x 0])
  | .opaq _ => .exn .runtime
  | .ptr _ => .exn .runtime
  | .vec _ _ => .exn .runtime
  | .str _ => .exn .runtime
  | .arr d e =>
    if isArr e then do
      let c' ← compile x c e
      mulAt c' (c.length + 1) d
    else do
      let c' ← compile x (c ++ [F_ARRAY, d, e.size]) e
      let cs := c.length + 3
      if c'.length = cs + 2 ∧ c'[cs]? = some F_SKIP then
        match c'[cs + 1]? with
        | some n => .ok (c'.take (cs - 3) ++ [F_SKIP, wmul n d])
        | none => .ub
      else .ok (c' ++ [F_END])
  | .comp _ fs => compileF x x c fs
/-- the field loop of `visit_(Compound const&)` (endianness.cc:98-120): `base` is `base_index`, `x` is
`m_output_index` -/
def compileF (base x : Nat) (c : List Nat) : Fields → Res (List Nat)
  | .nil => .ok c
  | .cons off t r =>
    let new := wadd base off
    if new < x then compileF base x c r
    else do
      let c' ← compile new (if new > x then skipW c (wsub new x) else c) t
      compileF base (wadd new t.size) c' r
end

/-- `apply` (endianness.cc:112-117) -/
def compileTop (t : Ty) : Res (List Nat) := compile 0 [] t

/-- state of the interpreter: `output_offset` and the output buffer -/
structure St where
  o : Nat
  out : List UInt8
  deriving DecidableEq, Repr

/-- read `n` bytes of the input buffer at `o`; `alias`: the output value is the input value -/
def readIn (alias : Bool) (inp : List UInt8) (s : St) (o n : Nat) : Res (List UInt8) :=
  let b := if alias then s.out else inp
  if o + n ≤ b.length then .ok ((b.drop o).take n) else .ub

/-- write bytes at `output_offset` and advance it -/
def emit (s : St) (bs : List UInt8) : Res St :=
  if s.o + bs.length ≤ s.out.length then
    .ok ⟨s.o + bs.length, s.out.take s.o ++ bs ++ s.out.drop (s.o + bs.length)⟩
  else .ub

/-- the loop of `FLAG_ARRAY` (endianness.cc:171-178): `g i s` is the recursive call for element `i`; the last
component is `array_end`, which is uninitialised before the first call. -/
def loopN (g : Nat → St → Res (List Nat × St)) : Nat → Nat → St → Option (List Nat) → Res (List Nat × St)
  | 0, _, _, none => .ub
  | 0, _, s, some e => .ok (e, s)
  | n + 1, i, s, _ => do
    let (e, s') ← g i s
    loopN g n (i + 1) s' (some e)

/-- `swap` (endianness.cc:122-194). `it` is the rest of the program. Bytes of a `FLAG_SKIP` are copied one by
one in the code: same effect for disjoint or identical buffers. -/
def swapRun (alias : Bool) (inp : List UInt8) : Nat → Nat → List Nat → St → Res (List Nat × St)
  | 0, _, _, _ => .fuel
  | _ + 1, _, [], s => .ok ([], s)
  | f + 1, ioff, w :: r, s =>
    if w = F_SKIP then
      match r with
      | n :: r' => do
        let bs ← readIn alias inp s s.o n
        let s' ← emit s bs
        swapRun alias inp f ioff r' s'
      | [] => .ub
    else if w = F_SWAP_4 then do
      let bs ← readIn alias inp s s.o 4
      let s' ← emit s (swapMem4 bs)
      swapRun alias inp f ioff r s'
    else if w = F_SWAP_8 then do
      let bs ← readIn alias inp s s.o 8
      let s' ← emit s (swapMem8 bs)
      swapRun alias inp f ioff r s'
    else if w = F_ARRAY then
      match r with
      | n :: es :: body => do
        let (e, s') ← loopN (fun i s => swapRun alias inp f (ioff + es * i) body s) n 0 s none
        match e with
        | _ :: r' => swapRun alias inp f ioff r' s'
        | [] => .ub
      | _ => .ub
    else if w = F_END then .ok (w :: r, s)
    else do
      let bs ← readIn alias inp s (ioff + w) 1
      let s' ← emit s bs
      swapRun alias inp f ioff r s'

/-- `swap(Value in, Value out)` (endianness.hh:93-98): the resulting content of the output value. -/
def swapTop (alias : Bool) (c : List Nat) (inp out : List UInt8) : Res (List UInt8) := do
  let (_, s) ← swapRun alias inp (c.length + 1) 0 c ⟨0, out⟩
  .ok s.out

/-- compile then swap -/
def endianSwap (t : Ty) (inp out : List UInt8) : Res (List UInt8) := do
  let c ← compileTop t
  swapTop false c inp out

/-- swap with the same value as input and output -/
def endianSwapInPlace (t : Ty) (buf : List UInt8) : Res (List UInt8) := do
  let c ← compileTop t
  swapTop true c buf buf

end Verif.Endian
