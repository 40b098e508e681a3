import Verif.RubyContainerProps

/-!
C73: appending elements of a vector to the vector itself. An element that is not a number is an address in the buffer: it is appended if the
buffer has room, and read after it was freed otherwise.
-/

namespace Verif.Container
open Verif Verif.Layout Verif.Value

theorem bind_ok_inv {σ α β : Type} {x : Out σ α} {f : α → σ → Out σ β} {b : β} {s' : σ} (h : x.bind f = .ok b s') :
    ∃ a s, x = .ok a s ∧ f a s = .ok b s' := by
  cases x with
  | ok a s => exact ⟨a, s, rfl, h⟩
  | exn er s => cases h
  | ub => cases h
  | fuel => cases h

theorem conv_cap {x : Out Mem Unit} {k : Nat} {v' : Vec} (h : (x.conv fun b => (⟨k, b⟩ : Vec)) = .ok () v') : v'.cap = k := by
  cases x with
  | ok a s => cases h; rfl
  | exn er s => cases h
  | ub => cases h
  | fuel => cases h

/-- no reallocation if there is room -/
theorem resize_cap {env : Env} {O : ElemOps} {e : Ty} {n : Nat} {v v' : Vec} (h : vecResize env O e n v = .ok () v')
    (hr : wmul n e.size ≤ v.cap) : v'.cap = v.cap := by
  have hraw : ∀ {v v' : Vec}, wmul n e.size ≤ v.cap → rawResize env v (wmul n e.size) = .ok () v' → v'.cap = v.cap := by
    intro v v' hr h
    unfold rawResize at h
    repeat' split at h
    all_goals first | cases h; rfl | (cases h; done) | (exfalso; omega)
  unfold vecResize at h
  simp only at h
  by_cases h1 : e.size = 0
  · rw [if_pos h1] at h; cases h
  rw [if_neg h1] at h
  by_cases h2 : (elemLayout e).ops.isEmpty = true
  · rw [if_pos h2] at h; cases h
  rw [if_neg h2] at h
  by_cases h3 : isElementMemcpy e = true
  · rw [if_pos h3] at h; exact hraw hr h
  rw [if_neg h3] at h
  obtain ⟨_, v1, g1, h⟩ := bind_ok_inv h
  have hv1 : v1.cap = v.cap := by
    split at g1
    · exact conv_cap g1
    · cases g1; rfl
  obtain ⟨_, v2, g2, h⟩ := bind_ok_inv h
  rw [if_pos (by omega)] at g2
  have hv2 := hraw (by omega) g2
  split at h
  · rw [conv_cap h]; omega
  · cases h; omega

theorem EqL.get {e : Ty} {xs ys : List (List AV)} (h : EqL e xs ys) : ∀ {i : Nat} {y : List AV}, ys[i]? = some y →
    ∃ x, xs[i]? = some x ∧ VEq (kinds e) x y := by
  induction h with
  | nil => intro i y h; simp at h
  | cons h1 _ ih =>
    intro i y h
    cases i with
    | zero => simp at h; subst h; exact ⟨_, rfl, h1⟩
    | succ i => simp at h; simpa using ih h

/-- an evaluated argument that still has this value, in a vector with these elements in buffer `g` -/
inductive SrcNow (env : Env) (e : Ty) (g : Nat) (xs : List (List AV)) : Src → List AV → Prop where
  | mem {m : Mem} {x : List AV} : Valid env e m x → SrcNow env e g xs (.mem m) x
  | own {i : Nat} {x y : List AV} : xs[i]? = some y → VEq (kinds e) y x → SrcNow env e g xs (.at_ g i) x

theorem SrcNow.mono {env : Env} {e : Ty} {g : Nat} {xs ys r : List (List AV)} {s : Src} {x : List AV} (h : SrcNow env e g xs s x)
    (hy : EqL e ys (xs ++ r)) : SrcNow env e g ys s x := by
  cases h with
  | mem h => exact .mem h
  | @own i x y h1 h2 =>
    obtain ⟨hi, _⟩ := List.getElem?_eq_some_iff.mp h1
    obtain ⟨z, h3, h4⟩ := EqL.get hy (i := i) (y := y) (by rw [List.getElem?_append_left hi]; exact h1)
    exact .own h3 (h4.trans h2)

section
variable {env : Env} {e : Ty} (he : ElemOk e)
include he

theorem place_now {c : Cont} {xs : List (List AV)} (hv : Holds env e c.v xs) {s : Src} {x : List AV} (h : SrcNow env e c.gen xs s x) :
    ∃ y pre m post, Valid env e m y ∧ VEq (kinds e) y x ∧ place e c s = some (pre ++ (m ++ post), pre.length) ∧
      pre.length + e.size < W := by
  have hW : ([] : Mem).length + e.size < W := by have := wf_size_lt he.2.1; simpa using this
  cases h with
  | mem h => exact ⟨x, [], _, [], h, VEq.refl_of_abs h, by simp [place], hW⟩
  | own h1 h2 =>
    obtain ⟨pre, m, post, k1, k2, _, k4⟩ := place_own he hv h1
    exact ⟨_, pre, m, post, k1, h2, k2, k4⟩

omit he in
theorem eqL_prefix : ∀ {a b c d : List (List AV)}, a.length = b.length → EqL e (a ++ c) (b ++ d) → EqL e a b := by
  intro a
  induction a with
  | nil => intro b c d hl _; rw [List.length_eq_zero_iff.mp hl.symm]; exact .nil
  | cons x a ih =>
    intro b c d hl h
    cases b with
    | nil => simp at hl
    | cons y b => cases h with | cons h1 h2 => exact .cons h1 (ih (by simpa using hl) h2)

/-- `Vector::push` on a vector that has room -/
theorem pushAt_room (hsz : e.size < HALF) {c : Cont} {xs : List (List AV)} (hv : Holds env e c.v xs) {s : Src} {x : List AV}
    (h : SrcNow env e c.gen xs s x) (hroom : (xs.length + 1) * e.size ≤ c.v.cap) :
    ∃ c' ys, pushAt env e s c = .ok none c' ∧ Holds env e c'.v ys ∧ EqL e ys (xs ++ [x]) ∧ c'.gen = c.gen ∧ c'.v.cap = c.v.cap := by
  have hmax := env.hmax
  have hlen := hv.len
  have hcap := hv.cap
  have hbl := hv.elems.length he
  have hxl := Nat.le_mul_of_pos_right xs.length he.1
  have hne : ¬ e.size = 0 := by have := he.1; omega
  have hW : (xs.length + 1) * e.size < W := by
    simp only [HALF] at hsz; unfold W; rw [Nat.succ_mul]; omega
  have hmaxW : env.maxAlloc < W := by unfold W; omega
  have hwm : wmul (xs.length + 1) e.size = (xs.length + 1) * e.size := wmul_eq hW
  unfold pushAt
  rw [if_neg hne]
  rw [holds_count he hv, wadd_eq (by unfold W; omega), hwm, if_neg (by omega)]
  rcases C19_resize he hv (xs.length + 1) hW with ⟨h1, _⟩ | ⟨_, v', ys, h2, h3, h4⟩
  · exfalso; omega
  have hc' := resize_cap h2 (by rw [hwm]; exact hroom)
  rw [h2]
  simp only [Out.conv, Out.bind_ok]
  rw [List.take_of_length_le (by omega), show xs.length + 1 - xs.length = 1 by omega] at h4
  have hyl := h4.length
  simp only [List.length_append, List.length_replicate] at hyl
  have hcut : ys = ys.take xs.length ++ [ys[xs.length]'(by omega)] := by
    have h := (List.take_append_drop xs.length ys).symm
    have h2 : ys.drop xs.length = [ys[xs.length]'(by omega)] := by
      rw [List.drop_eq_getElem_cons (by omega), List.drop_of_length_le (by omega)]
    rw [h2] at h; exact h
  have htl : (ys.take xs.length).length = xs.length := by rw [List.length_take]; omega
  have hpre : EqL e (ys.take xs.length) xs := by
    rw [hcut] at h4
    exact eqL_prefix htl h4
  obtain ⟨y, pre, m, post, g1, g2, g3, g4⟩ := place_now he (c := ⟨v', c.gen, c.objs⟩) h3 (h.mono h4)
  have h3' := h3
  rw [hcut] at h3'
  obtain ⟨b1, b2, e1, k1, k2⟩ := h3'.elems.split
  have hl' := h3.len
  have hcap' := h3.cap
  cases k2 with
  | @cons d r' _ _ hy hr =>
    have l1 := k1.length he
    have ld := abs_elem he hy
    rw [htl] at l1
    have hb : v'.buf.length = b1.length + (d.length + r'.length) := by rw [e1]; simp
    obtain ⟨d', x', q1, q2, q3⟩ := (elemOps_ok env he).copy pre m post b1 d r' y _ g1 hy g4 (by omega)
    refine ⟨⟨⟨v'.cap, b1 ++ (d' ++ r')⟩, c.gen, c.objs⟩, ys.take xs.length ++ [x'], ?_, ⟨k1.append (.cons q2 hr), ?_, hcap'⟩,
      hpre.append (.cons (q3.symm.trans g2) .nil), rfl, hc'⟩
    · unfold pushCopy
      rw [g3]
      simp only
      rw [wmul_eq (by omega), ← l1, e1, q1]
      rfl
    · have := abs_elem he q2
      simp only [List.length_append]
      omega

/-- appending to a vector that has room -/
theorem push_room (hsz : e.size < HALF) {c : Cont} {xs : List (List AV)} (hv : Holds env e c.v xs) {s : Src} {x : List AV}
    (h : SrcNow env e c.gen xs s x) (hroom : (xs.length + 1) * e.size ≤ c.v.cap) :
    ∃ c' ys, doPush env e s c = .ok none c' ∧ Holds env e c'.v ys ∧ EqL e ys (xs ++ [x]) ∧ c'.gen = c.gen ∧ c'.v.cap = c.v.cap := by
  cases h with
  | mem h => exact pushAt_room he hsz hv (.mem h) hroom
  | @own i x y h1 h2 =>
    simp only [doPush]
    by_cases hn : isNum e = true
    · rw [if_pos hn]
      obtain ⟨pre, m, post, k1, _, k3, _⟩ := place_own he hv h1
      simp only [k3]
      obtain ⟨c', ys, q1, q2, q3, q4⟩ := pushAt_room he hsz hv (.mem k1) hroom
      exact ⟨c', ys, q1, q2, q3.trans (hv.elems.refl.append (.cons h2 .nil)), q4⟩
    · rw [if_neg hn]
      exact pushAt_room he hsz hv (.own h1 h2) hroom

/-- appending an element of the vector when the buffer is full: the element is read from the buffer that was freed -/
theorem push_realloc (hsz : e.size < HALF) {c : Cont} {xs : List (List AV)} (hv : Holds env e c.v xs) {i : Nat} (hn : isNum e = false)
    (hfull : c.v.cap < (xs.length + 1) * e.size) :
    (env.maxAlloc < (xs.length + 1) * e.size ∧ ∃ c', doPush env e (.at_ c.gen i) c = .exn .lengthError c') ∨
    ((xs.length + 1) * e.size ≤ env.maxAlloc ∧ doPush env e (.at_ c.gen i) c = .ub) := by
  have hmax := env.hmax
  have hlen := hv.len
  have hcap := hv.cap
  have hbl := hv.elems.length he
  have hxl := Nat.le_mul_of_pos_right xs.length he.1
  have hne : ¬ e.size = 0 := by have := he.1; omega
  have hW : (xs.length + 1) * e.size < W := by
    simp only [HALF] at hsz; unfold W; rw [Nat.succ_mul]; omega
  have hwm : wmul (xs.length + 1) e.size = (xs.length + 1) * e.size := wmul_eq hW
  simp only [doPush, pushAt, hn, Bool.false_eq_true, if_false]
  rw [if_neg hne, holds_count he hv, wadd_eq (by unfold W; omega), hwm, if_pos hfull]
  rcases C19_resize he hv (xs.length + 1) hW with ⟨h1, h2⟩ | ⟨h1, v', ys, h2, h3, h4⟩
  · exact .inl ⟨h1, _, by rw [h2]; rfl⟩
  · refine .inr ⟨h1, ?_⟩
    rw [h2]
    simp only [Out.conv, Out.bind_ok, pushCopy, place]
    rw [if_neg (by omega)]

end

/-- evaluated arguments, in a vector with these elements -/
inductive SrcsNow (env : Env) (e : Ty) (g : Nat) (xs0 xs : List (List AV)) : List Arg → List Src → Prop where
  | nil : SrcsNow env e g xs0 xs [] []
  | cons {a : Arg} {x : List AV} {s : Src} {as : List Arg} {ss : List Src} : Means env e xs0 a x → SrcNow env e g xs s x →
      SrcsNow env e g xs0 xs as ss → SrcsNow env e g xs0 xs (a :: as) (s :: ss)
  | bad {er : Err} {as : List Arg} {ss : List Src} : SrcsNow env e g xs0 xs as ss → SrcsNow env e g xs0 xs (.bad er :: as) (.bad er :: ss)

theorem SrcsNow.mono {env : Env} {e : Ty} {g : Nat} {xs0 xs ys r : List (List AV)} {as : List Arg} {ss : List Src}
    (h : SrcsNow env e g xs0 xs as ss) (hy : EqL e ys (xs ++ r)) : SrcsNow env e g xs0 ys as ss := by
  induction h with
  | nil => exact .nil
  | cons h1 h2 _ ih => exact .cons h1 (h2.mono hy) ih
  | bad _ ih => exact .bad ih

section
variable {env : Env} {e : Ty} (he : ElemOk e) (hbig : env.maxAlloc < 2147483648 * e.size)
include he hbig

theorem evalArgs_now {c : Cont} {xs : List (List AV)} (hv : Holds env e c.v xs) : ∀ (as : List Arg),
    (∀ x, Arg.val x ∈ as → ∃ a, Valid env e x a) →
    ((∃ a ∈ as, BadIndex xs a) ∧ evalArgs e c as = .exn .rbArg) ∨
    ((∀ a ∈ as, ¬ BadIndex xs a) ∧ ∃ ss, evalArgs e c as = .ok ss ∧ SrcsNow env e c.gen xs xs as ss)
  | [], _ => .inr ⟨(fun a ha => by cases ha), [], rfl, .nil⟩
  | a :: as, hval => by
    have ih := evalArgs_now hv as (fun x hx => hval x (by simp [hx]))
    rcases evalArg_ok he hbig hv a (fun x hx => hval x (by simp [hx])) with ⟨h1, h2⟩ | ⟨h1, s, h2, h3⟩
    · exact .inl ⟨⟨a, by simp, h1⟩, by simp only [evalArgs, h2]; rfl⟩
    · rcases ih with ⟨⟨b, hb, hbi⟩, h4⟩ | ⟨h4, ss, h5, h6⟩
      · exact .inl ⟨⟨b, by simp [hb], hbi⟩, by simp only [evalArgs, h2, Res.bind, h4]⟩
      · refine .inr ⟨fun b hb => ?_, s :: ss, by simp only [evalArgs, h2, Res.bind, h5], ?_⟩
        · rcases List.mem_cons.mp hb with e1 | e1
          · rw [e1]; exact h1
          · exact h4 b e1
        · cases h3 with
          | val h => exact .cons (.val h) (.mem h) h6
          | bad er => exact .bad h6
          | copied hx hm => exact .cons (.own hx) (.mem hm) h6
          | @own i x hx hs =>
            obtain ⟨m, _, hm⟩ := get_ok he hv hx
            exact .cons (.own hx) (.own hx (VEq.refl_of_abs hm)) h6

omit hbig in
theorem concat_room {st : Bool} (hsz : e.size < HALF) {xs0 : List (List AV)} : ∀ {as : List Arg} {ss : List Src} {c : Cont} {xs : List (List AV)},
    SrcsNow env e c.gen xs0 xs as ss → Holds env e c.v xs → (xs.length + as.length) * e.size ≤ c.v.cap →
    ∃ l r rep c' zs, Takes env e xs0 xs.length as l r ∧ r ≠ .noMemory ∧ concat env e ss c = .ok rep c' ∧ RepOk env st e rep r ∧
      Holds env e c'.v zs ∧ EqL e zs (xs ++ l)
  | _, _, c, xs, .nil, hv, _ =>
    ⟨[], .done, .done, c, xs, .nil, (fun h => by cases h), rfl, .done, hv, by rw [List.append_nil]; exact hv.elems.refl⟩
  | _, _, c, xs, .bad (er := er) _, hv, _ =>
    ⟨[], .raised er, .raised er, c, xs, .bad, (fun h => by cases h), rfl, .raised er, hv, by rw [List.append_nil]; exact hv.elems.refl⟩
  | _, _, c, xs, .cons (x := x) (as := as) hm hx h, hv, hroom => by
    have hr1 : (xs.length + 1) * e.size ≤ c.v.cap :=
      Nat.le_trans (Nat.mul_le_mul_right _ (by simp only [List.length_cons]; omega)) hroom
    obtain ⟨c1, ys, h1, h2, h3, h4, h5⟩ := push_room he hsz hv hx hr1
    have hyl : ys.length = xs.length + 1 := by rw [h3.length]; simp
    have h' := h.mono h3
    rw [← h4] at h'
    obtain ⟨l, r, rep, c2, zs, g1, g2, g3, g4, g5, g6⟩ := concat_room hsz h' h2 (by
      rw [hyl, h5]
      simp only [List.length_cons] at hroom
      rw [show xs.length + 1 + as.length = xs.length + (as.length + 1) by omega]
      exact hroom)
    rw [hyl] at g1
    refine ⟨x :: l, r, rep, c2, zs, .cons hm g1, g2, by simp only [concat, h1, Out.bind, g3], g4, g5, ?_⟩
    have hrefl : EqL e l l := by
      have : ∀ {a b c : List (List AV)}, EqL e a (b ++ c) → EqL e c c := by
        intro a b
        induction b generalizing a with
        | nil => intro c h; exact h.symm.trans h
        | cons y b ih =>
          intro c h
          cases h with
          | cons _ h2 => exact ih h2
      exact this g6
    have := g6.trans (h3.append hrefl)
    rw [List.append_assoc] at this
    exact this

/-- **C73, elements of the vector itself**: if the buffer has room for all the elements, `push` and `concat` may be given elements of the vector
itself: they append their values. -/
theorem C73_own_room_partial {st : Bool} (hsz : e.size < HALF) {c : Cont} {xs : List (List AV)} (hv : Holds env e c.v xs) (as : List Arg)
    (hval : ∀ x, Arg.val x ∈ as → ∃ a, Valid env e x a) (hroom : (xs.length + as.length) * e.size ≤ c.v.cap) :
    ∃ ys r c' zs rep, Sem env e xs (.concat as) ys r ∧ r ≠ .noMemory ∧ Holds env e c'.v zs ∧ EqL e zs ys ∧
      step env e c (.concat as) = .ok rep c' ∧ RepOk env st e rep r := by
  rcases evalArgs_now he hbig hv as hval with ⟨⟨a, h1, h2⟩, h3⟩ | ⟨h1, ss, h2, h3⟩
  · exact ⟨xs, _, c, xs, .raised .rbArg, .concatIndex h1 h2, (fun h => by cases h), hv, hv.elems.refl,
      by simp only [step, withArgs, h3], .raised _⟩
  · obtain ⟨l, r, rep, c', zs, g1, g2, g3, g4, g5, g6⟩ := concat_room he hsz h3 hv hroom
    obtain ⟨c3, q1, q2, _⟩ := settled_ok he hbig (old := c) g5 rep
    exact ⟨xs ++ l, r, c3, zs, rep, .concat h1 g1, g2, by rw [q2]; exact g5, g6, by simp only [step, withArgs, h2, g3, q1], g4⟩

/-- **C73, the limit**: appending an element (that is not a number, and is given as an object) to a vector whose buffer is full reads the element in the buffer that the
append has just freed, unless there is no memory for the new buffer. -/
theorem C73_own_full_partial (hsz : e.size < HALF) {c : Cont} {xs : List (List AV)} (hv : Holds env e c.v xs) (hn : isNum e = false)
    {i : Nat} (hs : isScalar e = false ∨ i ∈ c.objs) (hi : i < xs.length) (hfull : c.v.cap < (xs.length + 1) * e.size) (hmem : (xs.length + 1) * e.size ≤ env.maxAlloc)
    (as : List Arg) (has : ∀ a ∈ as, ∃ m x, a = .val m ∧ Valid env e m x) :
    step env e c (.concat (.own i :: as)) = .ub := by
  have hno : ¬ outside e c.v i = true := fun h => by
    rcases (outside_iff he hbig hv i).mp h with h | h <;> omega
  rcases evalArgs_ok he hbig hv as (fun x hx => by
      obtain ⟨m, y, h1, h2⟩ := has _ hx
      injection h1 with h1
      rw [h1]
      exact ⟨y, h2⟩) (.inr fun i hi => by
      obtain ⟨m, y, h1, h2⟩ := has _ hi
      cases h1) with ⟨⟨a, h1, h2⟩, _⟩ | ⟨_, ss, h2, _⟩
  · obtain ⟨m, y, h3, _⟩ := has a h1
    obtain ⟨j, h4, _⟩ := h2
    rw [h3] at h4
    cases h4
  · have hev : evalArgs e c (.own i :: as) = .ok (.at_ c.gen i :: ss) := by
      have hb : (isScalar e && !c.objs.contains i) = false := by
        rcases hs with hs | hs
        · rw [hs]; rfl
        · have : c.objs.contains i = true := by simpa using hs
          rw [this]; simp
      simp only [evalArgs, evalArg, Int.toNat_natCast]
      rw [if_neg hno, hb]
      simp only [Res.bind, h2]
      rfl
    simp only [step, withArgs, hev, concat]
    rcases push_realloc he hsz hv (i := i) hn hfull with ⟨h, _⟩ | ⟨_, h⟩
    · exfalso; omega
    · rw [h]; rfl

end

end Verif.Container
