import Verif.ValueExamples

/-!
C19: the element operations of `Vector` (`lang/csupport/containers.cc`): push, erase, delete_if, clear, setElement, getElement.
The vector object itself is a `Vec`; element operations are those of `Verif.Value`.
-/

namespace Verif.Value
open Verif Verif.Layout

/-! ### model -/

/-- `Vector::push` (containers.cc:144-157), for a value `x` of the element type that is not an element of this vector -/
def vecPush (env : Env) (O : ElemOps) (e : Ty) (x : Mem) (v : Vec) : Out Vec Unit :=
  if e.size = 0 then .ub
  else
    let size := vecCount e v
    (vecResize env O e (wadd size 1) v).bind fun _ v =>
      (O.copy e x 0 v.buf (wmul size e.size)).conv fun b => ⟨v.cap, b⟩

/-- `Vector::setElement` (containers.cc:72-80), for a value outside of the vector; `idx` is not negative -/
def vecSet (O : ElemOps) (e : Ty) (idx : Nat) (x : Mem) (v : Vec) : Out Vec Unit :=
  (O.copy e x 0 v.buf (wmul idx e.size)).conv fun b => ⟨v.cap, b⟩

/-- `Vector::getElement` (containers.cc:82-87): the memory of the returned value -/
def vecGet (e : Ty) (idx : Nat) (v : Vec) : Option Mem :=
  if wmul idx e.size + e.size ≤ v.buf.length then some ((v.buf.drop (wmul idx e.size)).take e.size) else none

/-- `Vector::clear` (containers.cc:63-68) on the vector -/
def vecClear (env : Env) (O : ElemOps) (e : Ty) (v : Vec) : Out Vec Unit := vecResize env O e 0 v

/-- `Vector::copy(ptr, dst_idx, ptr, src_idx, count)` inside one vector (containers.cc:235-258): memmove for plain elements,
otherwise element by element, each copy reading the buffer as the previous ones left it -/
def vecMove (O : ElemOps) (e : Ty) (didx sidx count : Nat) (b : Mem) : Out Mem Unit :=
  if isElementMemcpy e then
    match readBytes b (wmul sidx e.size) (wmul e.size count) with
    | some bs =>
      match writeBytes b (wmul didx e.size) bs with
      | some m => .ok () m
      | none => .ub
    | none => .ub
  else
    forStep (fun i b => O.copy e b (wadd (wmul sidx e.size) (wmul i e.size)) b (wadd (wmul didx e.size) (wmul i e.size)))
      count 1 (count + 1) 0 b

/-- `Vector::erase(ptr, idx)` (containers.cc:185-194) -/
def vecEraseAt (env : Env) (O : ElemOps) (e : Ty) (idx : Nat) (v : Vec) : Out Vec Unit :=
  if e.size = 0 then .ub
  else
    let count := vecCount e v
    (if wadd idx 1 < count then
      (vecMove O e idx (wadd idx 1) (wsub (wsub count idx) 1) v.buf).conv fun b => (⟨v.cap, b⟩ : Vec)
    else .ok () v).bind fun _ v => vecResize env O e (wsub count 1) v

/-- the loop of `Vector::erase(ptr, value)` (containers.cc:172-182) -/
def eraseLoop (env : Env) (O : ElemOps) (e : Ty) (x : Mem) (count : Nat) : Nat → Nat → Vec → Out Vec Bool
  | 0, _, _ => .fuel
  | f + 1, i, v =>
    if i < count then
      match compareAt (cdepth e + 1) e v.buf (wmul i e.size) x 0 with
      | .ok true _ => (vecEraseAt env O e i v).bind fun _ v => .ok true v
      | .ok false _ => eraseLoop env O e x count f (wadd i 1) v
      | .exn er _ => .exn er v
      | .ub => .ub
      | .fuel => .fuel
    else .ok false v

/-- `Vector::erase(ptr, value)` (containers.cc:159-183), for a value outside of the vector. `compare(Value, Value)` first tests
`canCastTo`, which is true here since both have the element type (checked by the caller). -/
def vecErase (env : Env) (O : ElemOps) (e : Ty) (x : Mem) (v : Vec) : Out Vec Bool :=
  if e.size = 0 then .ub else eraseLoop env O e x (vecCount e v) (vecCount e v + 1) 0 v

/-- the loop of `Vector::delete_if_impl` (containers.cc:287-299); the predicate looks at the memory of the element and does
not change it. `base` stays valid because the vector only shrinks, which never reallocates. -/
def deleteLoop (env : Env) (O : ElemOps) (e : Ty) (p : Mem → Bool) : Nat → Nat → Nat → Vec → Out Vec Unit
  | 0, _, _, _ => .fuel
  | f + 1, i, count, v =>
    if i < count then
      match vecGet e i v with
      | some m =>
        if p m then (vecEraseAt env O e i v).bind fun _ v => deleteLoop env O e p f i (wsub count 1) v
        else deleteLoop env O e p f (wadd i 1) count v
      | none => .ub
    else .ok () v

/-- `Vector::delete_if_impl` (containers.cc:276-300) -/
def vecDeleteIf (env : Env) (O : ElemOps) (e : Ty) (p : Mem → Bool) (v : Vec) : Out Vec Unit :=
  if e.size = 0 then .ub else deleteLoop env O e p (vecCount e v + 1) 0 (vecCount e v) v

/-! ### specification -/

/-- the buffer is a sequence of valid elements with these contents -/
inductive Elems (env : Env) (e : Ty) : Mem → List (List AV) → Prop where
  | nil : Elems env e [] []
  | cons {m r : Mem} {x : List AV} {xs : List (List AV)} : Valid env e m x → Elems env e r xs → Elems env e (m ++ r) (x :: xs)

/-- a valid vector object whose elements have these contents -/
structure Holds (env : Env) (e : Ty) (v : Vec) (xs : List (List AV)) : Prop where
  elems : Elems env e v.buf xs
  len : v.buf.length ≤ v.cap
  cap : v.cap ≤ env.maxAlloc

/-- element-wise equality of lists of values -/
inductive EqL (e : Ty) : List (List AV) → List (List AV) → Prop where
  | nil : EqL e [] []
  | cons {x y : List AV} {xs ys : List (List AV)} : VEq (kinds e) x y → EqL e xs ys → EqL e (x :: xs) (y :: ys)

/-- contents of a new element: zero bytes; if the element is not plain data, `init` has been run on them -/
def freshElem (e : Ty) : List AV :=
  if isElementMemcpy e then List.replicate e.size (.b 0) else initV (ikinds e) (List.replicate e.size 0)

/-! ### lemmas -/

theorem EqL.append {e : Ty} {a b c d : List (List AV)} (h : EqL e a b) (h' : EqL e c d) : EqL e (a ++ c) (b ++ d) := by
  induction h with
  | nil => exact h'
  | cons h _ ih => exact .cons h ih

theorem EqL.symm {e : Ty} {a b : List (List AV)} (h : EqL e a b) : EqL e b a := by
  induction h with
  | nil => exact .nil
  | cons h _ ih => exact .cons h.symm ih

theorem EqL.trans {e : Ty} {a b c : List (List AV)} (h : EqL e a b) (h' : EqL e b c) : EqL e a c := by
  induction h generalizing c with
  | nil => exact h'
  | cons h _ ih => cases h' with | cons h1 h2 => exact .cons (h.trans h1) (ih h2)

theorem EqL.length {e : Ty} {a b : List (List AV)} (h : EqL e a b) : a.length = b.length := by
  induction h with
  | nil => rfl
  | cons _ _ ih => simp [ih]

theorem Elems.refl {env : Env} {e : Ty} {m : Mem} {xs : List (List AV)} (h : Elems env e m xs) : EqL e xs xs := by
  induction h with
  | nil => exact .nil
  | cons h _ ih => exact .cons (VEq.refl_of_abs h) ih

theorem Elems.append {env : Env} {e : Ty} {m m' : Mem} {xs ys : List (List AV)} (h : Elems env e m xs) (h' : Elems env e m' ys) :
    Elems env e (m ++ m') (xs ++ ys) := by
  induction h with
  | nil => exact h'
  | cons h _ ih => rw [List.append_assoc]; exact .cons h ih

theorem Elems.split {env : Env} {e : Ty} {xs ys : List (List AV)} : ∀ {m : Mem}, Elems env e m (xs ++ ys) →
    ∃ m1 m2, m = m1 ++ m2 ∧ Elems env e m1 xs ∧ Elems env e m2 ys := by
  induction xs with
  | nil => intro m h; exact ⟨[], m, rfl, .nil, h⟩
  | cons x xs ih =>
    intro m h
    cases h with
    | cons h1 h2 =>
      obtain ⟨m1, m2, rfl, h3, h4⟩ := ih h2
      exact ⟨_, m2, by simp, .cons h1 h3, h4⟩

theorem Elems.abs {env : Env} {e : Ty} {m : Mem} {xs : List (List AV)} (h : Elems env e m xs) :
    Abs env (rep xs.length (kinds e)) m xs.flatten := by
  induction h with
  | nil => exact .nil
  | cons h _ ih => rw [List.length_cons, rep_succ]; exact Abs.append h ih

theorem Elems.ofAbs {env : Env} {e : Ty} {n : Nat} : ∀ {m : Mem} {flat : List AV}, Abs env (rep n (kinds e)) m flat →
    ∃ xs : List (List AV), xs.length = n ∧ flat = xs.flatten ∧ Elems env e m xs := by
  induction n with
  | zero => intro m flat h; cases h; exact ⟨[], rfl, rfl, .nil⟩
  | succ n ih =>
    intro m flat h
    rw [rep_succ] at h
    obtain ⟨m1, m2, v1, v2, rfl, rfl, h1, h2⟩ := h.split
    obtain ⟨xs, rfl, rfl, h3⟩ := ih h2
    exact ⟨v1 :: xs, rfl, rfl, .cons h1 h3⟩

theorem Elems.length {env : Env} {e : Ty} (he : ElemOk e) {m : Mem} {xs : List (List AV)} (h : Elems env e m xs) :
    m.length = xs.length * e.size := abs_elems he h.abs

theorem EqL.ofVEq {env : Env} {e : Ty} {m : Mem} {xs : List (List AV)} (h : Elems env e m xs) :
    ∀ {m' : Mem} {ys : List (List AV)}, Elems env e m' ys → ys.length = xs.length →
    VEq (rep xs.length (kinds e)) xs.flatten ys.flatten → EqL e xs ys := by
  induction h with
  | nil =>
    intro m' ys hy hl _
    have := List.length_eq_zero_iff.mp hl
    subst this
    exact .nil
  | cons hx _ ih =>
    intro m' ys hy hl hv
    cases hy with
    | nil => simp at hl
    | cons hy1 hy2 =>
      rw [List.length_cons, rep_succ] at hv
      obtain ⟨h1, h2⟩ := VEq.split hv hx.length.2 hy1.length.2
      exact .cons h1 (ih hy2 (by simpa using hl) h2)

theorem freshV_eq {e : Ty} (n : Nat) : freshV e n = (List.replicate n (freshElem e)).flatten := by
  unfold freshV freshElem
  split
  · induction n with
    | zero => simp
    | succ n ih => rw [List.replicate_succ, List.flatten_cons, ← ih, Nat.succ_mul, Nat.add_comm, replicate_add]
  · induction n with
    | zero => simp
    | succ n ih => rw [List.replicate_succ, List.flatten_cons, ← ih, rep_succ]

theorem flatten_inj {k : Nat} : ∀ {xs ys : List (List AV)}, (∀ x ∈ xs, x.length = k) → (∀ y ∈ ys, y.length = k) →
    xs.length = ys.length → xs.flatten = ys.flatten → xs = ys := by
  intro xs
  induction xs with
  | nil => intro ys _ _ hl _; exact (List.length_eq_zero_iff.mp hl.symm).symm
  | cons x xs ih =>
    intro ys hx hy hl h
    cases ys with
    | nil => simp at hl
    | cons y ys =>
      simp only [List.flatten_cons] at h
      obtain ⟨rfl, h2⟩ := List.append_inj h (by rw [hx x (by simp), hy y (by simp)])
      rw [ih (fun z hz => hx z (by simp [hz])) (fun z hz => hy z (by simp [hz])) (by simpa using hl) h2]

theorem Elems.each {env : Env} {e : Ty} {m : Mem} {xs : List (List AV)} (h : Elems env e m xs) :
    ∀ x ∈ xs, x.length = (kinds e).length := by
  induction h with
  | nil => simp
  | cons h _ ih =>
    intro y hy
    rcases List.mem_cons.mp hy with rfl | hy
    · exact h.length.2
    · exact ih y hy

theorem freshElem_length (env : Env) {e : Ty} (he : ElemOk e) : (freshElem e).length = (kinds e).length := by
  have := freshV_length he 1 env
  rw [freshV_eq] at this
  simpa using this

/-- `Vector::resize` on lists of elements -/
theorem resize_holds {env : Env} {O : ElemOps} {e : Ty} (he : ElemOk e) (hO : OpsOk env O e) {v : Vec} {xs : List (List AV)}
    (hv : Holds env e v xs) (n : Nat) (hW : n * e.size < W) :
    (env.maxAlloc < n * e.size ∧ vecResize env O e n v = .exn .lengthError v) ∨
    (n * e.size ≤ env.maxAlloc ∧ ∃ v' ys, vecResize env O e n v = .ok () v' ∧ Holds env e v' ys ∧
      EqL e ys (xs.take n ++ List.replicate (n - xs.length) (freshElem e))) := by
  rcases vecResize_spec he hO hv.elems.abs hv.len hv.cap n hW with h | ⟨h1, v', flat', h2, h3⟩
  · exact Or.inl h
  · right
    refine ⟨h1, v', ?_⟩
    obtain ⟨ys, hl, rfl, hy⟩ := Elems.ofAbs h3.abs
    refine ⟨ys, h2, ⟨hy, h3.len, h3.cap⟩, ?_⟩
    obtain ⟨f1, f2, g, h4, h5, h6⟩ := h3.content
    have hys : ys = ys.take (min xs.length n) ++ ys.drop (min xs.length n) := (List.take_append_drop _ _).symm
    have hxs : xs = xs.take (min xs.length n) ++ xs.drop (min xs.length n) := (List.take_append_drop _ _).symm
    have hel := hv.elems
    rw [hxs] at hel
    rw [hys] at hy
    obtain ⟨m1, m2, e1, hx1, hx2⟩ := hel.split
    obtain ⟨m3, m4, e2, hy1, hy2⟩ := hy.split
    have l1 : (xs.take (min xs.length n)).length = min xs.length n := by rw [List.length_take]; omega
    have l2 : (ys.take (min xs.length n)).length = min xs.length n := by rw [List.length_take]; omega
    have hx1l := hx1.abs.length.2
    have hy1l := hy1.abs.length.2
    rw [l1] at hx1l
    rw [l2] at hy1l
    have hf1l := h6.length
    -- identify f1 and g
    rw [hxs, List.flatten_append] at h4
    have e3 := List.append_inj h4 (by omega)
    rw [hys, List.flatten_append] at h5
    have e4 := List.append_inj h5 (by omega)
    rw [hys]
    refine EqL.append ?_ ?_
    · have h7 : xs.take n = xs.take (min xs.length n) := by
        by_cases hn : n ≤ xs.length
        · rw [show min xs.length n = n by omega]
        · rw [List.take_of_length_le (by omega), List.take_of_length_le (by omega)]
      rw [h7]
      refine (EqL.ofVEq hx1 hy1 (by omega) ?_).symm
      rw [e3.1, e4.1, l1]
      exact h6
    · have : ys.drop (min xs.length n) = List.replicate (n - xs.length) (freshElem e) := by
        refine flatten_inj (k := (kinds e).length) hy2.each ?_ ?_ ?_
        · intro y hy'
          rw [(List.mem_replicate.mp hy').2]
          exact freshElem_length env he
        · rw [List.length_drop, List.length_replicate]; omega
        · rw [e4.2, freshV_eq]
      rw [this] at hy2 ⊢
      exact hy2.refl

theorem holds_count {env : Env} {e : Ty} (he : ElemOk e) {v : Vec} {xs : List (List AV)} (hv : Holds env e v xs) :
    vecCount e v = xs.length := by
  unfold vecCount
  rw [hv.elems.length he]
  exact Nat.mul_div_cancel _ he.1

/-- writing one element -/
theorem set_holds {env : Env} {O : ElemOps} {e : Ty} (he : ElemOk e) (hO : OpsOk env O e) {v : Vec} {l r : List (List AV)}
    {y : List AV} (hv : Holds env e v (l ++ y :: r)) {x : Mem} {a : List AV} (hx : Valid env e x a) :
    ∃ v' b, vecSet O e l.length x v = .ok () v' ∧ Holds env e v' (l ++ b :: r) ∧ VEq (kinds e) a b := by
  have hmaxW : env.maxAlloc < W := by have := env.hmax; unfold W; omega
  obtain ⟨m1, m2, e1, h1, h2⟩ := hv.elems.split
  cases h2 with
  | @cons m r' _ _ hy hr =>
    have lm1 := h1.length he
    have lm := abs_elem he hy
    have lx := abs_elem he hx
    have hlen := hv.len
    have hcap := hv.cap
    rw [e1] at hlen
    simp only [List.length_append] at hlen
    obtain ⟨d, b, h3, h4, h5⟩ := hO.copy [] x [] m1 m r' a y hx hy (by simp; omega) (by omega)
    refine ⟨⟨v.cap, m1 ++ (d ++ r')⟩, b, ?_, ⟨h1.append (.cons h4 hr), ?_, hcap⟩, h5⟩
    · unfold vecSet
      rw [e1, wmul_eq (by omega), ← lm1]
      simp only [List.nil_append, List.append_nil, List.length_nil] at h3
      rw [h3]
      rfl
    · have := abs_elem he h4
      simp only [List.length_append]
      omega

/-- shifting elements down by one -/
theorem move_holds {env : Env} {O : ElemOps} {e : Ty} (he : ElemOk e) (hO : OpsOk env O e) {b1 b2 : Mem} {l r : List (List AV)}
    {y : List AV} (h1 : Elems env e b1 l) (h2 : Elems env e b2 (y :: r)) (hW : b1.length + b2.length < W) :
    ∃ b3 r' z, vecMove O e l.length (l.length + 1) r.length (b1 ++ b2) = .ok () (b1 ++ b3) ∧ Elems env e b3 (r' ++ [z]) ∧
      EqL e r r' := by
  have lb1 := h1.length he
  have lb2 := h2.length he
  rw [List.length_cons, Nat.succ_mul] at lb2
  have e1 : wmul (l.length + 1) e.size = b1.length + e.size := by
    rw [wmul_eq (by rw [Nat.succ_mul]; omega), lb1, Nat.succ_mul]
  have e2 : wmul l.length e.size = b1.length := by rw [wmul_eq (by omega), lb1]
  have hes := he.1
  unfold vecMove
  rw [e1, e2]
  by_cases hmc : isElementMemcpy e = true
  · rw [if_pos hmc]
    obtain ⟨bs, hbs, rfl, hf⟩ := Abs.memcpy_bytes he hmc h2.abs
    simp only [List.length_cons, List.length_map] at hbs lb2 hW
    rw [Nat.succ_mul] at hbs
    have e3 : wmul e.size r.length = (bs.drop e.size).length := by
      rw [List.length_drop, wmul_eq (by rw [Nat.mul_comm]; omega), Nat.mul_comm]; omega
    have e4 := readBytes_app (b1 ++ (bs.take e.size).map .byte) (bs.drop e.size) []
    have e5 : b1 ++ (bs.take e.size).map Cell.byte ++ ((bs.drop e.size).map .byte ++ []) = b1 ++ bs.map .byte := by
      rw [List.append_nil, List.append_assoc, ← List.map_append, List.take_append_drop]
    rw [e5] at e4
    simp only [List.length_append, List.length_map, List.length_take] at e4
    rw [show min e.size bs.length = e.size by omega] at e4
    rw [e3, e4]
    simp only []
    have e6 := writeBytes_app b1 ((bs.take (r.length * e.size)).map .byte) (bs.drop e.size) ((bs.drop (r.length * e.size)).map .byte)
      (by simp; omega) (bytes_not_live _)
    rw [← List.map_append, List.take_append_drop] at e6
    rw [e6]
    simp only []
    have hnew := Abs.of_memcpy_bytes env he hmc (n := r.length + 1) (bs := bs.drop e.size ++ bs.drop (r.length * e.size))
      (by simp; rw [Nat.succ_mul]; omega)
    obtain ⟨ys, hyl, hyf, hye⟩ := Elems.ofAbs hnew
    have hcut : ys = ys.take r.length ++ [ys[r.length]'(by omega)] := by
      have h := (List.take_append_drop r.length ys).symm
      have h2 : ys.drop r.length = [ys[r.length]'(by omega)] := by
        rw [List.drop_eq_getElem_cons (by omega), List.drop_of_length_le (by omega)]
      rw [h2] at h; exact h
    refine ⟨_, ys.take r.length, ys[r.length]'(by omega), rfl, ?_, ?_⟩
    · rw [← hcut, ← List.map_append]; exact hye
    · -- the first elements are the same bytes
      have hk := congrArg List.length (((elem_memcpy he).1 hmc).2)
      simp only [List.length_map, List.length_replicate] at hk
      obtain ⟨m0, r0, hy, hr⟩ : ∃ m0 r0, Valid env e m0 y ∧ Elems env e r0 r := by
        have : ∀ {m : Mem}, Elems env e m (y :: r) → ∃ m0 r0, Valid env e m0 y ∧ Elems env e r0 r := by
          intro m h; cases h with | cons h1 h2 => exact ⟨_, _, h1, h2⟩
        exact this h2
      · skip
        have heq : ys.take r.length = r := by
          have hye' := hye
          rw [hcut] at hye'
          obtain ⟨q1, q2, _, hq1, _⟩ := hye'.split
          refine flatten_inj (k := (kinds e).length) hq1.each hr.each (by rw [List.length_take]; omega) ?_
          have hl1 := hq1.abs.length.2
          have hl2 := hr.abs.length.2
          rw [rep_length] at hl1 hl2
          have e7 : (ys.take r.length).flatten ++ (ys[r.length]'(by omega)) =
              (bs.drop e.size).map .b ++ (bs.drop (r.length * e.size)).map .b := by
            rw [← List.map_append, hyf]
            have := congrArg List.flatten hcut
            simp only [List.flatten_append, List.flatten_cons, List.flatten_nil, List.append_nil] at this
            exact this.symm
          have e8 := (List.append_inj e7 (by
            rw [hl1, hk, List.length_map, List.length_drop, List.length_take]
            rw [show min r.length ys.length = r.length by omega]; omega)).1
          have hy3 := hy.length.2
          simp only [List.flatten_cons] at hf
          have e9 : y ++ r.flatten = (bs.take e.size).map .b ++ (bs.drop e.size).map .b := by
            rw [← List.map_append, List.take_append_drop]; exact hf
          have e10 := (List.append_inj e9 (by rw [hy3, hk]; simp; omega)).2
          rw [e8, e10]
        rw [heq]
        exact hr.refl
  · rw [if_neg hmc]
    have hstep := Nat.le_mul_of_pos_right r.length he.1
    have key := forStep_tri (fun i (b : Mem) => O.copy e b (wadd (b1.length + e.size) (wmul i e.size)) b
        (wadd b1.length (wmul i e.size))) 1
      (fun k b => ∃ (c1 c2 : Mem) (s1 s2 r' : List (List AV)) (z : List AV), r = s1 ++ s2 ∧ s1.length = k ∧
        b = b1 ++ (c1 ++ c2) ∧ Elems env e c1 r' ∧ EqL e s1 r' ∧ Elems env e c2 (z :: s2))
      (fun _ _ => False) r.length 0 (by omega) (by omega) ?_ r.length 0 (r.length + 1) (b1 ++ b2) (by omega) (by omega) ?_
    · obtain ⟨_, s, h3, c1, c2, s1, s2, r', z, h4, h5, rfl, h6, h7, h8⟩ := Tri.ok_iff.mp key
      simp only [Nat.zero_add, Nat.mul_one] at h3
      have : s2 = [] := by
        have := congrArg List.length h4
        simp at this
        exact List.length_eq_zero_iff.mp (by omega)
      subst this
      rw [List.append_nil] at h4
      subst h4
      exact ⟨c1 ++ c2, r', z, h3, h6.append h8, h7⟩
    · rintro k b hk ⟨c1, c2, s1, s2, r', z, h4, h5, rfl, h6, h7, h8⟩
      simp only [Nat.zero_add, Nat.mul_one]
      cases s2 with
      | nil => have := congrArg List.length h4; simp at this; omega
      | cons w s2 =>
        cases h8 with
        | @cons mz _ _ _ hz h9 =>
          cases h9 with
          | @cons mw c3 _ _ hw h10 =>
            have lc1 := h6.length he
            have := h7.length
            have lmz := abs_elem he hz
            have lmw := abs_elem he hw
            have hrl := congrArg List.length h4
            simp only [List.length_append, List.length_cons] at hrl
            have hkb : (k + 1) * e.size ≤ r.length * e.size := Nat.mul_le_mul_right _ (by omega)
            rw [Nat.succ_mul] at hkb
            have lc1' : c1.length = k * e.size := by rw [lc1, ← this, h5]
            obtain ⟨d, a, h11, h12, h13⟩ := hO.copy (b1 ++ (c1 ++ mz)) mw c3 (b1 ++ c1) mz (mw ++ c3) w z hw hz
              (by simp; omega) (by simp; omega)
            rw [wmul_eq (by omega), wadd_eq (by omega), wadd_eq (by omega)]
            simp only [List.length_append, List.append_assoc] at h11
            rw [show b1.length + e.size + k * e.size = b1.length + (c1.length + mz.length) by omega,
              show b1.length + k * e.size = b1.length + c1.length by omega, h11]
            refine ⟨c1 ++ d, mw ++ c3, s1 ++ [w], s2, r' ++ [a], w, by simp [h4], by simp [h5], by simp, ?_, ?_, ?_⟩
            · have := h6.append (Elems.cons h12 .nil)
              simpa using this
            · exact h7.append (.cons h13 .nil)
            · exact .cons hw h10
    · exact ⟨[], b2, [], r, [], y, rfl, rfl, by simp, .nil, .nil, h2⟩

theorem eraseAt_holds {env : Env} {O : ElemOps} {e : Ty} (he : ElemOk e) (hO : OpsOk env O e) {v : Vec} {l r : List (List AV)}
    {y : List AV} (hv : Holds env e v (l ++ y :: r)) :
    ∃ v' ys, vecEraseAt env O e l.length v = .ok () v' ∧ Holds env e v' ys ∧ EqL e ys (l ++ r) := by
  have hmaxW : env.maxAlloc < W := by have := env.hmax; unfold W; omega
  have hcnt := holds_count he hv
  have hlen := hv.len
  have hcap := hv.cap
  have hbl := hv.elems.length he
  have hsz := Nat.le_mul_of_pos_right (l ++ y :: r).length he.1
  have hle : (l ++ r).length * e.size + e.size = (l ++ y :: r).length * e.size := by
    rw [← Nat.succ_mul]; congr 1; simp; omega
  have hl : (l ++ y :: r).length = l.length + r.length + 1 := by simp; omega
  have hne : ¬ e.size = 0 := by have := he.1; omega
  unfold vecEraseAt
  rw [if_neg hne]
  simp only [hcnt]
  have hw1 : wsub (wsub (l ++ y :: r).length l.length) 1 = r.length := by
    rw [wsub_eq (a := (l ++ y :: r).length) (b := l.length) (by omega) (by omega), wsub_eq (by omega) (by omega)]; omega
  have hw2 : wsub (l ++ y :: r).length 1 = (l ++ r).length := by
    rw [wsub_eq (by omega) (by omega), hl]; simp
  rw [wadd_eq (by omega), hw1, hw2]
  -- after the shift
  have hshift : ∃ v1 zs z, (if l.length + 1 < (l ++ y :: r).length then
      (vecMove O e l.length (l.length + 1) r.length v.buf).conv fun b => (⟨v.cap, b⟩ : Vec)
    else .ok () v) = .ok () v1 ∧ Holds env e v1 (zs ++ [z]) ∧ EqL e zs (l ++ r) := by
    by_cases hlt : l.length + 1 < (l ++ y :: r).length
    · rw [if_pos hlt]
      obtain ⟨b1, b2, e1, h1, h2⟩ := hv.elems.split
      rw [e1, List.length_append] at hlen hbl
      obtain ⟨b3, r', z, h3, h4, h5⟩ := move_holds he hO h1 h2 (by omega)
      rw [e1, h3]
      have := h1.append h4
      refine ⟨_, l ++ r', z, rfl, ⟨by simpa using this, ?_, hcap⟩, h1.refl.append h5.symm⟩
      have l4 := h4.length he
      have l2 := h2.length he
      have := h5.length
      simp only [List.length_append, List.length_cons, List.length_nil] at l4 l2 ⊢
      rw [← this] at l4
      simp only [Nat.zero_add] at l4
      omega
    · rw [if_neg hlt]
      have : r = [] := List.length_eq_zero_iff.mp (by omega)
      subst this
      refine ⟨v, l, y, rfl, hv, ?_⟩
      obtain ⟨b1, b2, e1, h1, h2⟩ := hv.elems.split
      simpa using h1.refl
  obtain ⟨v1, zs, z, h1, h2, h3⟩ := hshift
  rw [h1]
  simp only [Out.bind_ok]
  have h3l := h3.length
  rcases resize_holds he hO h2 (l ++ r).length (by omega) with ⟨h4, _⟩ | ⟨_, v', ys, h5, h6, h7⟩
  · omega
  · refine ⟨v', ys, h5, h6, h7.trans ?_⟩
    rw [← h3l, List.take_left, show zs.length - (zs ++ [z]).length = 0 by simp]
    simpa using h3

/-! ### C19 -/

/-- the operations on elements, as the code uses them for a vector of `e` -/
def elemOps (env : Env) (e : Ty) : ElemOps := opsAt env (cdepth e + 1)

theorem elemOps_ok (env : Env) {e : Ty} (he : ElemOk e) : OpsOk env (elemOps env e) e :=
  allOps env (cdepth e + 1) e he (by omega)

/-- C19, resize. Whether or not the buffer is reallocated: the common prefix is kept, the new elements are fresh; only the
allocator can make it fail, and then the vector is unchanged. -/
theorem C19_resize {env : Env} {e : Ty} (he : ElemOk e) {v : Vec} {xs : List (List AV)}
    (hv : Holds env e v xs) (n : Nat) (hW : n * e.size < W) :
    (env.maxAlloc < n * e.size ∧ vecResize env (elemOps env e) e n v = .exn .lengthError v) ∨
    (n * e.size ≤ env.maxAlloc ∧ ∃ v' ys, vecResize env (elemOps env e) e n v = .ok () v' ∧ Holds env e v' ys ∧
      EqL e ys (xs.take n ++ List.replicate (n - xs.length) (freshElem e))) :=
  resize_holds he (elemOps_ok env he) hv n hW

/-- C19, clear. -/
theorem C19_clear {env : Env} {e : Ty} (he : ElemOk e) {v : Vec} {xs : List (List AV)}
    (hv : Holds env e v xs) : ∃ v', vecClear env (elemOps env e) e v = .ok () v' ∧ Holds env e v' [] := by
  rcases resize_holds he (elemOps_ok env he) hv 0 (by simp [W]) with ⟨h, _⟩ | ⟨_, v', ys, h1, h2, h3⟩
  · simp at h
  · simp at h3
    cases h3
    exact ⟨v', h1, h2⟩

/-- C19, push. -/
theorem C19_push {env : Env} {e : Ty} (he : ElemOk e) {v : Vec} {xs : List (List AV)}
    (hv : Holds env e v xs) {x : Mem} {a : List AV} (hx : Valid env e x a) (hsz : e.size < HALF) :
    (env.maxAlloc < (xs.length + 1) * e.size ∧ vecPush env (elemOps env e) e x v = .exn .lengthError v) ∨
    ∃ v' ys, vecPush env (elemOps env e) e x v = .ok () v' ∧ Holds env e v' ys ∧ EqL e ys (xs ++ [a]) := by
  have hmax := env.hmax
  have hlen := hv.len
  have hcap := hv.cap
  have hbl := hv.elems.length he
  have hxl := Nat.le_mul_of_pos_right xs.length he.1
  have hne : ¬ e.size = 0 := by have := he.1; omega
  have hW : (xs.length + 1) * e.size < W := by
    simp only [HALF] at hsz; unfold W; rw [Nat.succ_mul]; omega
  unfold vecPush
  rw [if_neg hne]
  simp only [holds_count he hv]
  rw [wadd_eq (by unfold W; omega)]
  rcases resize_holds he (elemOps_ok env he) hv (xs.length + 1) hW with ⟨h1, h2⟩ | ⟨h1, v', ys, h2, h3, h4⟩
  · left
    refine ⟨h1, ?_⟩
    rw [h2]; rfl
  · right
    rw [h2]
    simp only [Out.bind_ok]
    rw [List.take_of_length_le (by omega), show xs.length + 1 - xs.length = 1 by omega] at h4
    have hyl := h4.length
    simp at hyl
    have hcut : ys = ys.take xs.length ++ [ys[xs.length]'(by omega)] := by
      have h := (List.take_append_drop xs.length ys).symm
      have h2 : ys.drop xs.length = [ys[xs.length]'(by omega)] := by
        rw [List.drop_eq_getElem_cons (by omega), List.drop_of_length_le (by omega)]
      rw [h2] at h; exact h
    have hpre : EqL e (ys.take xs.length) xs := by
      rw [hcut] at h4
      have : ∀ {a b c d : List (List AV)}, a.length = b.length → EqL e (a ++ c) (b ++ d) → EqL e a b := by
        intro a
        induction a with
        | nil => intro b c d hl _; rw [List.length_eq_zero_iff.mp hl.symm]; exact .nil
        | cons x a ih =>
          intro b c d hl h
          cases b with
          | nil => simp at hl
          | cons y b => cases h with | cons h1 h2 => exact .cons h1 (ih (by simpa using hl) h2)
      exact this (by rw [List.length_take]; omega) h4
    rw [hcut] at h3
    obtain ⟨v2, b, h5, h6, h7⟩ := set_holds he (elemOps_ok env he) h3 hx
    rw [show (ys.take xs.length).length = xs.length by rw [List.length_take]; omega] at h5
    exact ⟨v2, _, h5, h6, hpre.append (.cons h7.symm .nil)⟩

/-- C19, setElement: inside the bounds it replaces one element. -/
theorem C19_set {env : Env} {e : Ty} (he : ElemOk e) {v : Vec} {l r : List (List AV)} {y : List AV}
    (hv : Holds env e v (l ++ y :: r)) {x : Mem} {a : List AV} (hx : Valid env e x a) :
    ∃ v' b, vecSet (elemOps env e) e l.length x v = .ok () v' ∧ Holds env e v' (l ++ b :: r) ∧ VEq (kinds e) a b :=
  set_holds he (elemOps_ok env he) hv hx

/-- C19, getElement: inside the bounds the returned value is the element. -/
theorem C19_get {env : Env} {e : Ty} (he : ElemOk e) {v : Vec} {l r : List (List AV)} {y : List AV}
    (hv : Holds env e v (l ++ y :: r)) : ∃ m, vecGet e l.length v = some m ∧ Valid env e m y := by
  have hmaxW : env.maxAlloc < W := by have := env.hmax; unfold W; omega
  obtain ⟨b1, b2, e1, h1, h2⟩ := hv.elems.split
  have hlen := hv.len
  have hcap := hv.cap
  cases h2 with
  | @cons m r' _ _ hy hr =>
    have l1 := h1.length he
    have lm := abs_elem he hy
    rw [e1] at hlen
    simp only [List.length_append] at hlen
    refine ⟨m, ?_, hy⟩
    unfold vecGet
    rw [wmul_eq (by omega), e1, if_pos (by simp only [List.length_append]; omega), ← l1, List.drop_left, ← lm, List.take_left]

theorem eraseLoop_spec {env : Env} {e : Ty} (he : ElemOk e) {x : Mem} {a : List AV} (hx : Valid env e x a) {v : Vec} :
    ∀ (r l : List (List AV)) (f : Nat), Holds env e v (l ++ r) → r.length < f → (∀ z ∈ l, ¬ VEq (kinds e) z a) →
    (∃ l' y r' v' ys, l ++ r = l' ++ y :: r' ∧ (∀ z ∈ l', ¬ VEq (kinds e) z a) ∧ VEq (kinds e) y a ∧
      eraseLoop env (elemOps env e) e x (l ++ r).length f l.length v = .ok true v' ∧ Holds env e v' ys ∧ EqL e ys (l' ++ r')) ∨
    ((∀ z ∈ l ++ r, ¬ VEq (kinds e) z a) ∧ eraseLoop env (elemOps env e) e x (l ++ r).length f l.length v = .ok false v) := by
  have hmaxW : env.maxAlloc < W := by have := env.hmax; unfold W; omega
  intro r
  induction r with
  | nil =>
    intro l f hv hf hl
    cases f with
    | zero => omega
    | succ f =>
      right
      refine ⟨by simpa using hl, ?_⟩
      simp [eraseLoop]
  | cons y r ih =>
    intro l f hv hf hl
    cases f with
    | zero => omega
    | succ f =>
      simp only [eraseLoop]
      rw [if_pos (by simp)]
      have hlen := hv.len
      have hcap := hv.cap
      have hbl := hv.elems.length he
      have hsz := Nat.le_mul_of_pos_right (l ++ y :: r).length he.1
      obtain ⟨b1, b2, e1, h1, h2⟩ := hv.elems.split
      cases h2 with
      | @cons m r' _ _ hy hr =>
        have l1 := h1.length he
        have lm := abs_elem he hy
        have lx := abs_elem he hx
        rw [e1] at hbl hlen
        simp only [List.length_append] at hbl hlen
        obtain ⟨c, s, h3, h4⟩ := compareAt_spec (env := env) (cdepth e + 1) e he.2.1 (hasLayout_ptr e false he.2.2) (by omega)
          b1 m r' [] x [] y a hy hx (by omega) (by simp; omega)
        simp only [List.nil_append, List.append_nil, List.length_nil] at h3
        rw [wmul_eq (by omega), e1, ← l1, h3]
        cases c with
        | true =>
          left
          simp only []
          obtain ⟨v', ys, h5, h6, h7⟩ := eraseAt_holds he (elemOps_ok env he) hv
          rw [h5]
          exact ⟨l, y, r, v', ys, rfl, hl, h4.mp rfl, rfl, h6, h7⟩
        | false =>
          simp only []
          have hne : ¬ VEq (kinds e) y a := fun h => by simpa using h4.mpr h
          have := ih (l ++ [y]) f (by simpa using hv) (by simpa using hf) (by
            intro z hz
            rcases List.mem_append.mp hz with hz | hz
            · exact hl z hz
            · simp at hz; subst hz; exact hne)
          rw [wadd_eq (by simp only [List.length_append, List.length_cons] at hsz hbl; omega)]
          simpa using this

/-- C19, erase. Removes the first element equal to the value, keeping the others in order; returns whether there was one. -/
theorem C19_erase {env : Env} {e : Ty} (he : ElemOk e) {v : Vec} {xs : List (List AV)} (hv : Holds env e v xs)
    {x : Mem} {a : List AV} (hx : Valid env e x a) :
    (∃ l y r v' ys, xs = l ++ y :: r ∧ (∀ z ∈ l, ¬ VEq (kinds e) z a) ∧ VEq (kinds e) y a ∧
      vecErase env (elemOps env e) e x v = .ok true v' ∧ Holds env e v' ys ∧ EqL e ys (l ++ r)) ∨
    ((∀ z ∈ xs, ¬ VEq (kinds e) z a) ∧ vecErase env (elemOps env e) e x v = .ok false v) := by
  have hne : ¬ e.size = 0 := by have := he.1; omega
  have := eraseLoop_spec he hx (v := v) xs [] (xs.length + 1) hv (by omega) (by simp)
  unfold vecErase
  rw [if_neg hne, holds_count he hv]
  simpa using this

theorem deleteLoop_spec {env : Env} {e : Ty} (he : ElemOk e) {p : Mem → Bool} {q : List AV → Bool}
    (hpq : ∀ m x, Valid env e m x → p m = q x) (hq : ∀ x y, VEq (kinds e) x y → q x = q y) :
    ∀ (f : Nat) (r l : List (List AV)) (v : Vec), Holds env e v (l ++ r) → r.length < f →
    ∃ v' ys, deleteLoop env (elemOps env e) e p f l.length (l ++ r).length v = .ok () v' ∧ Holds env e v' ys ∧
      EqL e ys (l ++ r.filter (fun x => !q x)) := by
  have hmaxW : env.maxAlloc < W := by have := env.hmax; unfold W; omega
  have hfilter : ∀ {a b : List (List AV)}, EqL e a b → EqL e (a.filter (fun x => !q x)) (b.filter (fun x => !q x)) := by
    intro a b h
    induction h with
    | nil => exact .nil
    | cons h1 _ ih =>
      rw [List.filter_cons, List.filter_cons, hq _ _ h1]
      split
      · exact .cons h1 ih
      · exact ih
  have hsplit : ∀ {a b c : List (List AV)}, EqL e a (b ++ c) → ∃ a1 a2, a = a1 ++ a2 ∧ EqL e a1 b ∧ EqL e a2 c := by
    intro a b
    induction b generalizing a with
    | nil => intro c h; exact ⟨[], a, rfl, .nil, h⟩
    | cons y b ih =>
      intro c h
      cases h with
      | cons h1 h2 =>
        obtain ⟨a1, a2, rfl, h3, h4⟩ := ih h2
        exact ⟨_ :: a1, a2, rfl, .cons h1 h3, h4⟩
  intro f
  induction f with
  | zero => intro r l v _ h; omega
  | succ f ih =>
    intro r l v hv hf
    simp only [deleteLoop]
    cases r with
    | nil =>
      rw [if_neg (by simp)]
      refine ⟨v, l, rfl, by simpa using hv, ?_⟩
      have := hv.elems.refl
      simpa using this
    | cons y r =>
      rw [if_pos (by simp)]
      obtain ⟨m, h1, h2⟩ := C19_get he hv
      rw [h1]
      simp only []
      have hlen := hv.len
      have hcap := hv.cap
      have hbl := hv.elems.length he
      have hsz := Nat.le_mul_of_pos_right (l ++ y :: r).length he.1
      have hll : (l ++ y :: r).length = l.length + r.length + 1 := by simp; omega
      rw [hpq m y h2]
      by_cases hy : q y = true
      · rw [if_pos hy]
        obtain ⟨v', ys, h3, h4, h5⟩ := eraseAt_holds he (elemOps_ok env he) hv
        rw [h3]
        simp only [Out.bind_ok]
        obtain ⟨a1, a2, rfl, h6, h7⟩ := hsplit h5
        have l6 := h6.length
        have l7 := h7.length
        obtain ⟨v2, zs, h8, h9, h10⟩ := ih a2 a1 v' h4 (by simp at hf; omega)
        rw [wsub_eq (by omega) (by omega), show (l ++ y :: r).length - 1 = (a1 ++ a2).length by simp; omega, ← l6]
        refine ⟨v2, zs, h8, h9, h10.trans ?_⟩
        rw [List.filter_cons, if_neg (by simp [hy])]
        exact h6.append (hfilter h7)
      · rw [if_neg hy, wadd_eq (by omega)]
        have := ih r (l ++ [y]) v (by simpa using hv) (by simpa using hf)
        simp only [List.length_append, List.length_cons, List.length_nil, List.append_assoc, List.cons_append, List.nil_append] at this ⊢
        obtain ⟨v2, zs, h8, h9, h10⟩ := this
        refine ⟨v2, zs, h8, h9, ?_⟩
        rw [List.filter_cons, if_pos (by simp [hy])]
        exact h10

/-- C19, delete_if. For a predicate that depends on the value of an element only (`q`), keeps exactly the elements it does not
select, in order. -/
theorem C19_delete_if {env : Env} {e : Ty} (he : ElemOk e) {v : Vec} {xs : List (List AV)} (hv : Holds env e v xs)
    {p : Mem → Bool} {q : List AV → Bool} (hpq : ∀ m x, Valid env e m x → p m = q x)
    (hq : ∀ x y, VEq (kinds e) x y → q x = q y) :
    ∃ v' ys, vecDeleteIf env (elemOps env e) e p v = .ok () v' ∧ Holds env e v' ys ∧ EqL e ys (xs.filter (fun x => !q x)) := by
  have hne : ¬ e.size = 0 := by have := he.1; omega
  have := deleteLoop_spec he hpq hq (xs.length + 1) xs [] v hv (by omega)
  unfold vecDeleteIf
  rw [if_neg hne, holds_count he hv]
  simpa using this

/-! ### histories -/

/-- a call on a vector of `e` -/
inductive VOp (e : Ty) where
  | push (x : Mem)
  | erase (x : Mem)
  | deleteIf (p : Mem → Bool)
  | clear
  | resize (n : Nat)
  | set (idx : Nat) (x : Mem)

/-- run a call -/
def VOp.run (env : Env) (e : Ty) : VOp e → Vec → Out Vec Unit
  | .push x, v => vecPush env (elemOps env e) e x v
  | .erase x, v => (vecErase env (elemOps env e) e x v).bind fun _ v => .ok () v
  | .deleteIf p, v => vecDeleteIf env (elemOps env e) e p v
  | .clear, v => vecClear env (elemOps env e) e v
  | .resize n, v => vecResize env (elemOps env e) e n v
  | .set i x, v => vecSet (elemOps env e) e i x v

/-- what the call means on lists of element values; calls with invalid arguments have no meaning -/
inductive VOp.Spec (env : Env) (e : Ty) : VOp e → List (List AV) → List (List AV) → Prop where
  | push {x a xs} : Valid env e x a → VOp.Spec env e (.push x) xs (xs ++ [a])
  | erase {x a l y r} : Valid env e x a → (∀ z ∈ l, ¬ VEq (kinds e) z a) → VEq (kinds e) y a →
      VOp.Spec env e (.erase x) (l ++ y :: r) (l ++ r)
  | eraseNone {x a xs} : Valid env e x a → (∀ z ∈ xs, ¬ VEq (kinds e) z a) → VOp.Spec env e (.erase x) xs xs
  | deleteIf {p : Mem → Bool} {q : List AV → Bool} {xs} : (∀ m x, Valid env e m x → p m = q x) → (∀ x y, VEq (kinds e) x y → q x = q y) →
      VOp.Spec env e (.deleteIf p) xs (xs.filter fun x => !q x)
  | clear {xs} : VOp.Spec env e .clear xs []
  | resize {n xs} : VOp.Spec env e (.resize n) xs (xs.take n ++ List.replicate (n - xs.length) (freshElem e))
  | set {x a l y r} : Valid env e x a → VOp.Spec env e (.set l.length x) (l ++ y :: r) (l ++ a :: r)

/-- run a sequence of calls; the state when an allocation fails is returned with the exception -/
def runAll (env : Env) (e : Ty) : List (VOp e) → Vec → Out Vec Unit
  | [], v => .ok () v
  | o :: os, v => (o.run env e v).bind fun _ v => runAll env e os v

/-- meaning of a sequence: a list is only known up to equality of its elements -/
inductive SpecAll (env : Env) (e : Ty) : List (VOp e) → List (List AV) → List (List AV) → Prop where
  | nil {xs} : SpecAll env e [] xs xs
  | cons {o os xs ys ys' zs} : VOp.Spec env e o xs ys → EqL e ys' ys → SpecAll env e os ys' zs → SpecAll env e (o :: os) xs zs

/-- the arguments of a call are valid for the list it is applied to, and the sizes stay below 2^64 -/
def VOp.Pre (env : Env) (e : Ty) (o : VOp e) (n : Nat) : Prop :=
  match o with
  | .push x => ∃ a, Valid env e x a
  | .erase x => ∃ a, Valid env e x a
  | .deleteIf p => ∃ q : List AV → Bool, (∀ m x, Valid env e m x → p m = q x) ∧ (∀ x y, VEq (kinds e) x y → q x = q y)
  | .clear => True
  | .resize m => m * e.size < W
  | .set i x => i < n ∧ ∃ a, Valid env e x a

/-- C19, one call. -/
theorem C19_call {env : Env} {e : Ty} (he : ElemOk e) (hsz : e.size < HALF) {v : Vec} {xs : List (List AV)} (hv : Holds env e v xs)
    (o : VOp e) (ho : o.Pre env e xs.length) :
    o.run env e v = .exn .lengthError v ∨
    ∃ v' zs ys, o.run env e v = .ok () v' ∧ Holds env e v' zs ∧ o.Spec env e xs ys ∧ EqL e zs ys := by
  cases o with
  | push x =>
    obtain ⟨a, ha⟩ := ho
    rcases C19_push he hv ha hsz with ⟨_, h⟩ | ⟨v', ys, h1, h2, h3⟩
    · exact Or.inl h
    · exact Or.inr ⟨v', ys, _, h1, h2, .push ha, h3⟩
  | erase x =>
    obtain ⟨a, ha⟩ := ho
    right
    rcases C19_erase he hv ha with ⟨l, y, r, v', ys, rfl, h1, h2, h3, h4, h5⟩ | ⟨h1, h2⟩
    · exact ⟨v', ys, _, by simp [VOp.run, h3], h4, .erase ha h1 h2, h5⟩
    · exact ⟨v, xs, _, by simp [VOp.run, h2], hv, .eraseNone ha h1, hv.elems.refl⟩
  | deleteIf p =>
    obtain ⟨q, h1, h2⟩ := ho
    obtain ⟨v', ys, h3, h4, h5⟩ := C19_delete_if he hv h1 h2
    exact Or.inr ⟨v', ys, _, h3, h4, .deleteIf h1 h2, h5⟩
  | clear =>
    obtain ⟨v', h1, h2⟩ := C19_clear he hv
    exact Or.inr ⟨v', [], _, h1, h2, .clear, .nil⟩
  | resize n =>
    rcases C19_resize he hv n ho with ⟨_, h⟩ | ⟨_, v', ys, h1, h2, h3⟩
    · exact Or.inl h
    · exact Or.inr ⟨v', ys, _, h1, h2, .resize, h3⟩
  | set i x =>
    obtain ⟨hi, a, ha⟩ := ho
    have hcut : xs = xs.take i ++ xs[i] :: xs.drop (i + 1) := by simp
    have hl : (xs.take i).length = i := by rw [List.length_take]; omega
    rw [hcut] at hv
    obtain ⟨v', b, h1, h2, h3⟩ := C19_set he hv ha
    rw [hl] at h1
    refine Or.inr ⟨v', _, xs.take i ++ a :: xs.drop (i + 1), h1, h2, ?_, ?_⟩
    · have := VOp.Spec.set (l := xs.take i) (y := xs[i]) (r := xs.drop (i + 1)) ha
      rw [hl, ← hcut] at this
      exact this
    · obtain ⟨b1, b2, _, g1, g2⟩ := hv.elems.split
      cases g2 with
      | cons g3 g4 => exact g1.refl.append (.cons h3.symm g4.refl)

/-- C19, histories. Any sequence of calls refines the sequence of list operations, provided that the arguments of each call are
valid for the list that the previous calls mean; up to the first failed allocation, which leaves a valid vector with the
contents it had before the failing call. -/
theorem C19_history {env : Env} {e : Ty} (he : ElemOk e) (hsz : e.size < HALF) :
    ∀ (os : List (VOp e)) (v : Vec) (xs : List (List AV)), Holds env e v xs →
    (∀ os1 o os2 zs, os = os1 ++ o :: os2 → SpecAll env e os1 xs zs → o.Pre env e zs.length) →
    (∃ v' zs, runAll env e os v = .ok () v' ∧ Holds env e v' zs ∧ SpecAll env e os xs zs) ∨
    (∃ v' zs os1 o os2, os = os1 ++ o :: os2 ∧ runAll env e os v = .exn .lengthError v' ∧ Holds env e v' zs ∧
      SpecAll env e os1 xs zs) := by
  intro os
  induction os with
  | nil => intro v xs hv _; exact Or.inl ⟨v, xs, rfl, hv, .nil⟩
  | cons o os ih =>
    intro v xs hv hpre
    have ho := hpre [] o os xs rfl .nil
    rcases C19_call he hsz hv o ho with h | ⟨v', zs, ys, h1, h2, h3, h4⟩
    · exact Or.inr ⟨v, xs, [], o, os, rfl, by simp [runAll, h], hv, .nil⟩
    · rcases ih v' zs h2 (fun os1 o' os2 ws he hs => hpre (o :: os1) o' os2 ws (by simp [he]) (.cons h3 h4 hs)) with
        ⟨v2, ws, h5, h6, h7⟩ | ⟨v2, ws, os1, o1, os2, h5, h6, h7, h8⟩
      · exact Or.inl ⟨v2, ws, by simp [runAll, h1, h5], h6, .cons h3 h4 h7⟩
      · exact Or.inr ⟨v2, ws, o :: os1, o1, os2, by simp [h5], by simp [runAll, h1, h6], h7, .cons h3 h4 h8⟩

/-! ### the hypotheses are met -/

/-- a `std::vector<std::vector<uint8_t>>` holding [[7, 8], []], with spare capacity -/
def vec0 : Vec := ⟨96, (.vec 4 [.byte 7, .byte 8] :: (List.replicate 23 .tail ++ [])) ++ ((.vec 0 [] :: (List.replicate 23 .tail ++ [])) ++ [])⟩

theorem vec0_holds : Holds env0 (.vec 24 (.num 1)) vec0 [[.seq 2 [.b 7, .b 8]], [.seq 0 []]] :=
  ⟨.cons (.vec (n := 2) (by decide) (.data (.data .nil)) (by decide) (by decide) .nil)
    (.cons (.vec (n := 0) (by decide) .nil (by decide) (by decide) .nil) .nil), by decide, by decide⟩

theorem elem0_ok : ElemOk (.vec 24 (.num 1)) := by
  simp [ElemOk, Ty.WF, Ty.HasLayout, Ty.size, W]

example : ∃ v', (VOp.push (e := .vec 24 (.num 1)) (.vec 1 [.byte 9] :: (List.replicate 23 .tail ++ []))).run env0 _ vec0 = .ok () v' ∧
    v'.buf.length = 72 := ⟨_, rfl, rfl⟩
example : (VOp.erase (e := .vec 24 (.num 1)) (.vec 3 [.byte 7, .byte 8] :: (List.replicate 23 .tail ++ []))).run env0 _ vec0 =
    .ok () ⟨96, .vec 4 [] :: List.replicate 23 .tail⟩ := rfl
/-- an allocation failure in a push that has to reallocate -/
example : runAll env0 (.vec 24 (.num 1)) [.clear, .resize 100000] vec0 = .exn .lengthError ⟨96, []⟩ := rfl

/-- New plain elements are zero-filled, `init` is not run on them: an enum without a 0 symbol holds an invalid value. -/
theorem C19_enum_zero_filled : ∃ v', vecResize env0 (elemOps env0 (.enum 4 [1, 2])) (.enum 4 [1, 2]) 1 ⟨0, []⟩ = .ok () v' ∧
    v'.buf = List.replicate 4 (.byte 0) := ⟨_, rfl, rfl⟩

/-! ### The theorems on concrete cases -/

/-- the element [9] -/
theorem elem9_valid : Valid env0 (.vec 24 (.num 1)) (.vec 1 [.byte 9] :: (List.replicate 23 .tail ++ [])) [.seq 1 [.b 9]] :=
  .vec (n := 1) (by decide) (.data .nil) (by decide) (by decide) .nil

example := C19_resize elem0_ok vec0_holds 5 (by decide)
example := C19_clear elem0_ok vec0_holds
example := C19_push elem0_ok vec0_holds elem9_valid (by decide)
example := C19_set (l := [[.seq 2 [.b 7, .b 8]]]) (r := []) elem0_ok vec0_holds elem9_valid
example := C19_get (l := [[.seq 2 [.b 7, .b 8]]]) (r := []) elem0_ok vec0_holds
example := C19_erase elem0_ok vec0_holds elem9_valid
example := C19_call elem0_ok (by decide) vec0_holds (.push _) ⟨_, elem9_valid⟩

end Verif.Value
