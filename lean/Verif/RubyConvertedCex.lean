import Verif.RubyConvertedProps

/-!
C67: programs whose changes are lost, and a program that meets the hypotheses.
-/

namespace Verif.RubyConverted.Cex
open Verif Verif.RubyConverted

/-- numbers that Ruby shows as they are -/
def cv : Conv Nat Nat := ⟨fun _ b => b, fun _ v => some v⟩

def t : Str := ['t']
def i : Str := ['i']
def n : Str := ['n']

/-- `struct Inner { Time t; }; struct S { Time t; Inner i; double n; }` -/
def x0 : Obj Nat Nat := fresh (.conv t 0 1 (.comp i (.conv t 0 2 .nil) (.plain n 3 .nil)))

theorem x0_ok : Ok cv x0 := ok_fresh cv _

theorem cv_good : ∀ k b, Good cv k (cv.toRuby k b) := fun _ b => ⟨b, rfl, rfl⟩

/-- what a program gets -/
def outs (prog : List (List Step × Act Nat Nat)) : Option (List (SOut Nat Nat)) :=
  (run cv x0 prog).map fun y => y.2.map (outV cv)
/-- what it should get -/
def souts (prog : List (List Step × Act Nat Nat)) : Option (List (SOut Nat Nat)) :=
  (srun cv (view cv x0) (prog.map fun s => (s.1.map Step.name, s.2))).map (·.2)

/-- the values of `S` -/
def val (a b c : Nat) : V Nat Nat := .conv t 0 a (.comp i (.conv t 0 b .nil) (.plain n c .nil))
def mem (a b c : Nat) : Mem Nat := .conv t 0 a (.comp i (.conv t 0 b .nil) (.plain n c .nil))

/-- `s.t; s.i.t = 7; s.t = 5; s.n = 6; s.to_byte_array; s.dup; s.i = Inner(t: 8); s.i.t; s.to_byte_array` -/
def good : List (List Step × Act Nat Nat) :=
  [([], .read t), ([.acc i], .write t (some 7)), ([], .write t (some 5)), ([], .writePlain n 6), ([], .bytes), ([], .dup),
    ([], .assign i (fresh (.conv t 0 8 .nil))), ([.acc i], .read t), ([], .bytes)]

theorem good_fits : ∀ s ∈ good, FitsAt cv x0.ty s.1 s.2 := by
  have g : ∀ k v, Good cv k v := fun k v => ⟨v, rfl, rfl⟩
  intro s hs
  simp only [good, List.mem_cons, List.not_mem_nil, or_false] at hs
  rcases hs with h | h | h | h | h | h | h | h | h <;> rw [h]
  · trivial
  · exact fun c _ k _ => g k 7
  · exact fun k _ => g k 5
  · trivial
  · trivial
  · trivial
  · intro c hc
    have e : x0.ty.child? i = some (.conv t 0 () .nil) := rfl
    rw [e] at hc
    injection hc with hc
    exact ⟨ok_fresh cv _, by rw [← hc]; rfl⟩
  · exact fun c _ => trivial
  · trivial

/-- the hypotheses of the theorems are met by this program -/
example : outs good = some [.ruby 1, .unit, .unit, .unit, .mem (val 5 7 6), .mem (val 5 7 6), .unit, .ruby 8, .mem (val 5 8 6)] := by
  have h := C67_accessors_partial cv_good x0 x0_ok good good_fits
  have e : outs good = ((run cv x0 good).map (fun y => (view cv y.1, y.2.map (outV cv)))).map (·.2) := by
    rw [Option.map_map]; rfl
  rw [e, h]
  rfl

/-- C67: `s.t; s['t'] = 2; s.t; s.to_byte_array`: the assignment is lost, because the value read before is remembered. -/
theorem C67_set_counterexample :
    outs [([], .read t), ([], .set t 9), ([], .read t), ([], .bytes)] = some [.ruby 1, .unit, .ruby 1, .mem (val 1 2 3)] ∧
    souts [([], .read t), ([], .set t 9), ([], .read t), ([], .bytes)] = some [.ruby 1, .unit, .ruby 9, .mem (val 9 2 3)] :=
  ⟨rfl, rfl⟩

/-- C67: `s.t = 9; s['t']` gives the value from before the assignment. -/
theorem C67_get_counterexample :
    outs [([], .write t (some 9)), ([], .getField t)] = some [.unit, .ruby 1] ∧
    souts [([], .write t (some 9)), ([], .getField t)] = some [.unit, .ruby 9] :=
  ⟨rfl, rfl⟩

/-- C67: `s.t; s.raw_t = 9; s.to_byte_array`: a mere reading undoes the assignment. -/
theorem C67_raw_set_counterexample :
    outs [([], .read t), ([], .rawSet t 9), ([], .bytes)] = some [.ruby 1, .unit, .mem (val 1 2 3)] ∧
    souts [([], .read t), ([], .rawSet t 9), ([], .bytes)] = some [.ruby 1, .unit, .mem (val 9 2 3)] :=
  ⟨rfl, rfl⟩

/-- C67: `s.t; s.from_buffer(b); s.to_byte_array` does not give `b`. -/
theorem C67_from_buffer_counterexample :
    outs [([], .read t), ([], .fromBuffer (mem 7 8 9)), ([], .bytes)] = some [.ruby 1, .unit, .mem (val 1 8 9)] ∧
    souts [([], .read t), ([], .fromBuffer (mem 7 8 9)), ([], .bytes)] = some [.ruby 1, .unit, .mem (val 7 8 9)] :=
  ⟨rfl, rfl⟩

/-- C67: `s['i'].t = 9; s.to_byte_array`: changes made in a compound which is not reached by its accessor are not seen. -/
theorem C67_part_counterexample :
    outs [([.get i], .write t (some 9)), ([], .bytes)] = some [.unit, .mem (val 1 2 3)] ∧
    souts [([.get i], .write t (some 9)), ([], .bytes)] = some [.unit, .mem (val 1 9 3)] :=
  ⟨rfl, rfl⟩

/-- C67: `i = s.i; s.dup; i.t = 9; s.to_byte_array`: `dup` disconnects the parts of the original that were obtained before it.
(Without the `dup` the change is seen.) -/
theorem C67_dup_counterexample :
    outs [([.acc i], .read t), ([], .dup), ([.raw i], .write t (some 9)), ([], .bytes)] =
      some [.ruby 2, .mem (val 1 2 3), .unit, .mem (val 1 2 3)] ∧
    souts [([.acc i], .read t), ([], .dup), ([.raw i], .write t (some 9)), ([], .bytes)] =
      some [.ruby 2, .mem (val 1 2 3), .unit, .mem (val 1 9 3)] ∧
    outs [([.acc i], .read t), ([.raw i], .write t (some 9)), ([], .bytes)] = some [.ruby 2, .unit, .mem (val 1 9 3)] :=
  ⟨rfl, rfl, rfl⟩

/-- C67: `s.t = nil` raises nothing and does nothing; it even takes back what was assigned before. -/
theorem C67_nil_counterexample :
    outs [([], .write t (some 9)), ([], .write t none), ([], .bytes)] = some [.unit, .unit, .mem (val 1 2 3)] :=
  rfl

end Verif.RubyConverted.Cex
