import Verif.RubyContainerOwn

/-! C73: `each` with a block that works on the vector, and strings. -/

namespace Verif.Container
open Verif Verif.Layout Verif.Value

/-! ### Model -/

/-- `each` (container_type.rb:167-172) with a block that makes calls on the vector itself: the size is asked for once, the elements are read
without a check of the index -/
def eachDo (env : Env) (e : Ty) (blk : Nat → List Op) : Nat → Nat → Cont → Out Cont (List ((Bool × Mem) × List Rep))
  | 0, _, c => .ok [] c
  | k + 1, idx, c =>
    match vecGet e idx c.v with
    | none => .ub
    | some m => (runAll env e (blk idx) c).bind fun rs c1 => (eachDo env e blk k (idx + 1) c1).bind fun l c2 =>
        .ok (((asObj e c idx, m), rs) :: l) c2

def doEachBlock (env : Env) (e : Ty) (blk : Nat → List Op) (c : Cont) : Out Cont (List ((Bool × Mem) × List Rep)) :=
  eachDo env e blk (rbSize e c.v).toNat 0 c

/-! ### Specification -/

/-- `each` on an array from index `i` on, for `k` elements: the elements as they are when their turn comes, and what the calls of the block
give -/
inductive EachSem (env : Env) (e : Ty) (blk : Nat → List Op) : Nat → Nat → List (List AV) → List (List AV) → List (List AV × List SRep) → Prop where
  | nil {i : Nat} {xs : List (List AV)} : EachSem env e blk i 0 xs xs []
  | cons {i k : Nat} {xs ys zs : List (List AV)} {x : List AV} {rs : List SRep} {l : List (List AV × List SRep)} : xs[i]? = some x →
      Run env e (blk i) xs ys rs → EachSem env e blk (i + 1) k ys zs l → EachSem env e blk i (k + 1) xs zs ((x, rs) :: l)

inductive VisitsOk (env : Env) (strict : Bool) (e : Ty) : List ((Bool × Mem) × List Rep) → List (List AV × List SRep) → Prop where
  | nil : VisitsOk env strict e [] []
  | cons {o : Bool} {m : Mem} {reps : List Rep} {x : List AV} {rs : List SRep} {l : List ((Bool × Mem) × List Rep)}
      {s : List (List AV × List SRep)} : Valid env e m x → (strict = true → o = !isScalar e) → RepsOk env strict e reps rs →
      VisitsOk env strict e l s → VisitsOk env strict e (((o, m), reps) :: l) ((x, rs) :: s)

/-- a call that removes nothing -/
def Keeps : Op → Prop
  | .erase _ => False
  | .deleteIf _ => False
  | .clear => False
  | _ => True

/-! ### Proofs -/

theorem keeps_sem {env : Env} {e : Ty} {xs ys : List (List AV)} {o : Op} {r : SRep} (h : Sem env e xs o ys r) (hk : Keeps o) :
    xs.length ≤ ys.length := by
  cases h <;> first | exact Nat.le_refl _ | (simp; done) | exact hk.elim | skip

theorem keeps_run {env : Env} {e : Ty} {os : List Op} {xs zs : List (List AV)} {rs : List SRep} (h : Run env e os xs zs rs)
    (hk : ∀ o ∈ os, Keeps o) : xs.length ≤ zs.length := by
  induction h with
  | nil => exact Nat.le_refl _
  | cons h1 _ h3 _ ih =>
    have := keeps_sem h1 (hk _ (by simp))
    have := h3.length
    have := ih (fun o ho => hk o (by simp [ho]))
    omega

theorem run_ok {env : Env} {e : Ty} (he : ElemOk e) (hbig : env.maxAlloc < 2147483648 * e.size) (hsz : e.size < HALF)
    {st : Bool} : ∀ (os : List Op) {c : Cont} {xs : List (List AV)}, Clean st e c → Holds env e c.v xs → (∀ o ∈ os, OkOp env st e o) →
    (∃ reps c' zs rs, runAll env e os c = .ok reps c' ∧ Holds env e c'.v zs ∧ Run env e os xs zs rs ∧ RepsOk env st e reps rs ∧ Clean st e c') ∨
    (∃ c' ws, runAll env e os c = .exn .lengthError c' ∧ Holds env e c'.v ws)
  | [], c, xs, hcl, hv, _ => .inl ⟨[], c, xs, [], rfl, hv, .nil, .nil, hcl⟩
  | o :: os, c, xs, hcl, hv, hok => by
    obtain ⟨ys, r, c', zs, h1, h2, h3, h4⟩ := C73_call_partial he hbig hsz hcl hv o (hok o (by simp))
    rcases h4 with ⟨h4, rep, h5, h6, h7⟩ | ⟨h4, h5⟩
    · rcases run_ok he hbig hsz os h7 h2 (fun o' ho' => hok o' (by simp [ho'])) with ⟨reps, c2, ws, rs, g1, g2, g3, g4, g5⟩ | ⟨c2, us, g4, g5⟩
      · refine .inl ⟨rep :: reps, c2, ws, r :: rs, ?_, g2, .cons h1 h4 h3 g3, .cons h6 g4, g5⟩
        simp only [runAll, h5, Out.bind, g1]
      · refine .inr ⟨c2, us, ?_, g5⟩
        simp only [runAll, h5, Out.bind, g4]
    · exact .inr ⟨c', zs, by simp only [runAll, h5, Out.bind], h2⟩

section
variable {env : Env} {e : Ty} (he : ElemOk e) (hbig : env.maxAlloc < 2147483648 * e.size) (hsz : e.size < HALF)
include he hbig hsz

theorem eachDo_ok {st : Bool} {blk : Nat → List Op} (hok : ∀ i, ∀ o ∈ blk i, OkOp env st e o ∧ Keeps o) : ∀ (k i : Nat) {c : Cont}
    {xs : List (List AV)}, Clean st e c → Holds env e c.v xs → i + k ≤ xs.length →
    (∃ l c' zs s, eachDo env e blk k i c = .ok l c' ∧ Holds env e c'.v zs ∧ EachSem env e blk i k xs zs s ∧ VisitsOk env st e l s ∧
      Clean st e c') ∨
    (∃ c' ws, eachDo env e blk k i c = .exn .lengthError c' ∧ Holds env e c'.v ws)
  | 0, i, c, xs, hcl, hv, _ => .inl ⟨[], c, xs, [], rfl, hv, .nil, .nil, hcl⟩
  | k + 1, i, c, xs, hcl, hv, hik => by
    have hx : xs[i]? = some (xs[i]'(by omega)) := List.getElem?_eq_getElem (by omega)
    obtain ⟨m, hm1, hm2⟩ := get_ok he hv hx
    simp only [eachDo, hm1]
    rcases run_ok he hbig hsz (blk i) hcl hv (fun o ho => (hok i o ho).1) with ⟨reps, c1, ys, rs, h1, h2, h3, h4, h5⟩ | ⟨c1, ws, h1, h2⟩
    · have hlen := keeps_run h3 (fun o ho => (hok i o ho).2)
      rcases eachDo_ok hok k (i + 1) h5 h2 (by omega) with ⟨l, c2, zs, s, g1, g2, g3, g4, g5⟩ | ⟨c2, ws, g1, g2⟩
      · exact .inl ⟨_, c2, zs, _, by simp only [h1, Out.bind, g1], g2, .cons hx h3 g3, .cons hm2 (asObj_ok hcl i) h4 g4, g5⟩
      · exact .inr ⟨c2, ws, by simp only [h1, Out.bind, g1], g2⟩
    · exact .inr ⟨c1, ws, by simp only [h1, Out.bind], h2⟩

/-- **C73, `each`**: a block may read and replace elements of the vector and append to it (which moves the buffer) while `each` is running on it:
`each` visits the elements that the vector had at the beginning, with the values that they have when their turn comes, and none of those that
the block appends. -/
theorem C73_each_partial {st : Bool} {blk : Nat → List Op} (hok : ∀ i, ∀ o ∈ blk i, OkOp env st e o ∧ Keeps o) {c : Cont}
    {xs : List (List AV)} (hcl : Clean st e c) (hv : Holds env e c.v xs) :
    (∃ l c' zs s, doEachBlock env e blk c = .ok l c' ∧ Holds env e c'.v zs ∧ EachSem env e blk 0 xs.length xs zs s ∧ VisitsOk env st e l s) ∨
    (∃ c' ws, doEachBlock env e blk c = .exn .lengthError c' ∧ Holds env e c'.v ws) := by
  unfold doEachBlock
  rw [size_eq he hbig hv, Int.toNat_natCast]
  rcases eachDo_ok he hbig hsz hok xs.length 0 hcl hv (by omega) with ⟨l, c', zs, s, h1, h2, h3, h4, _⟩ | h
  · exact .inl ⟨l, c', zs, s, h1, h2, h3, h4⟩
  · exact .inr h

end

/-! ### Strings -/

/-- a call on a `std::string` container, which has no random access: `push`, `erase`, `delete_if` and `each` -/
inductive StrOp where
  | size
  | push (b : UInt8)
  | erase (b : UInt8)
  | deleteIf (p : UInt8 → Bool)
  | clear
  | each

inductive StrRep where
  | done
  | bool (b : Bool)
  | num (z : Int)
  | list (l : List UInt8)
  deriving DecidableEq

/-- `String::push`, `erase`, `delete_if_impl`, `clear`, `visit`, `getElementCount` (containers.cc:393-397, 406-432, 453-464, 488-489) as the
container methods call them; the elements have one byte, and the string is shorter than 2^31 bytes -/
def strStep (s : List UInt8) : StrOp → List UInt8 × StrRep
  | .size => (s, .num s.length)
  | .push b => (s ++ [b], .done)
  | .erase _ => (s, .bool false)
  | .deleteIf _ => (s, .done)
  | .clear => ([], .done)
  | .each => (s, .list s)

/-- the same call on an array of bytes -/
inductive StrSem (s : List UInt8) : StrOp → List UInt8 → StrRep → Prop where
  | size : StrSem s .size s (.num s.length)
  | push {b : UInt8} : StrSem s (.push b) (s ++ [b]) .done
  | erase {b : UInt8} {l r : List UInt8} : s = l ++ b :: r → b ∉ l → StrSem s (.erase b) (l ++ r) (.bool true)
  | eraseNone {b : UInt8} : b ∉ s → StrSem s (.erase b) s (.bool false)
  | deleteIf {p : UInt8 → Bool} : StrSem s (.deleteIf p) (s.filter fun b => !p b) .done
  | clear : StrSem s .clear [] .done
  | each : StrSem s .each s (.list s)

/-- **C73, strings**: a call on a string does what it does on an array, unless it should remove bytes. -/
theorem C73_string_partial (s : List UInt8) (o : StrOp)
    (hk : match o with | .erase b => b ∉ s | .deleteIf p => ∀ b ∈ s, p b = false | _ => True) :
    StrSem s o (strStep s o).1 (strStep s o).2 := by
  cases o with
  | size => exact .size
  | push b => exact .push
  | erase b => exact .eraseNone hk
  | deleteIf p =>
    have : s.filter (fun b => !p b) = s := List.filter_eq_self.mpr (fun b hb => by rw [hk b hb]; rfl)
    show StrSem s (.deleteIf p) s .done
    have h := StrSem.deleteIf (s := s) (p := p)
    rw [this] at h
    exact h
  | clear => exact .clear
  | each => exact .each

/-- **The code does not have this property**: nothing is ever removed from a string by `erase` or `delete_if`; `erase` says so, `delete_if`
does not. -/
theorem C73_cex_string_erase (s : List UInt8) (b : UInt8) (h : b ∈ s) :
    strStep s (.erase b) = (s, .bool false) ∧ ¬ StrSem s (.erase b) s (.bool false) := by
  refine ⟨rfl, fun hs => ?_⟩
  cases hs with
  | eraseNone hn => exact hn h

theorem C73_cex_string_delete_if (s : List UInt8) (p : UInt8 → Bool) (b : UInt8) (h : b ∈ s) (hp : p b = true) :
    strStep s (.deleteIf p) = (s, .done) ∧ ¬ StrSem s (.deleteIf p) s .done := by
  refine ⟨rfl, fun hs => ?_⟩
  generalize hq : s.filter (fun b => !p b) = s' at *
  have h2 : ∀ {s' r}, StrSem s (.deleteIf p) s' r → s' = s.filter fun b => !p b := by
    intro s' r h; cases h; rfl
  have h3 := h2 hs
  rw [h3] at h
  have := (List.mem_filter.mp h).2
  rw [hp] at this
  cases this

example := C73_string_partial [104, 105] (.push 33) trivial
example := C73_cex_string_erase [104, 105] 104 (by decide)
example := C73_cex_string_delete_if [104, 105] (fun b => b == 104) 104 (by decide) rfl

end Verif.Container
