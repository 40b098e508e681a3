import Verif.RubyContainer

/-! C73: proofs. -/

namespace Verif.Container
open Verif Verif.Layout Verif.Value

/-- what an argument of a call on a vector with these elements has become -/
inductive SrcOk (env : Env) (e : Ty) (c : Cont) (xs : List (List AV)) : Arg → Src → Prop where
  | val {m : Mem} {a : List AV} : Valid env e m a → SrcOk env e c xs (.val m) (.mem m)
  | bad (er : Err) : SrcOk env e c xs (.bad er) (.bad er)
  | copied {i : Nat} {m : Mem} {a : List AV} : xs[i]? = some a → Valid env e m a → SrcOk env e c xs (.own i) (.mem m)
  | own {i : Nat} {a : List AV} : xs[i]? = some a → (isScalar e = false ∨ i ∈ c.objs) → SrcOk env e c xs (.own i) (.at_ c.gen i)

section
variable {env : Env} {e : Ty} (he : ElemOk e) (hbig : env.maxAlloc < 2147483648 * e.size)
include he hbig

theorem holds_lt {v : Vec} {xs : List (List AV)} (hv : Holds env e v xs) : xs.length < 2147483648 := by
  have h1 := hv.elems.length he
  have h2 := hv.len
  have h3 := hv.cap
  refine Nat.lt_of_mul_lt_mul_right (a := e.size) ?_
  omega

theorem size_eq {v : Vec} {xs : List (List AV)} (hv : Holds env e v xs) : rbSize e v = xs.length := by
  have h := holds_lt he hbig hv
  unfold rbSize
  rw [holds_count he hv, Nat.mod_eq_of_lt (by omega), if_pos h]

theorem outside_iff {v : Vec} {xs : List (List AV)} (hv : Holds env e v xs) (i : Int) :
    outside e v i = true ↔ i < 0 ∨ (xs.length : Int) ≤ i := by
  unfold outside
  rw [size_eq he hbig hv]
  simp

omit hbig in
theorem get_ok {v : Vec} {xs : List (List AV)} (hv : Holds env e v xs) {i : Nat} {x : List AV} (hx : xs[i]? = some x) :
    ∃ m, vecGet e i v = some m ∧ Valid env e m x := by
  obtain ⟨hi, hxe⟩ := List.getElem?_eq_some_iff.mp hx
  have hcut : xs = xs.take i ++ x :: xs.drop (i + 1) := by rw [← hxe]; simp
  have hl : (xs.take i).length = i := by rw [List.length_take]; omega
  rw [hcut] at hv
  have := C19_get he hv
  rw [hl] at this
  exact this

/-- the evaluation of arguments -/
theorem evalArg_ok {c : Cont} {xs : List (List AV)} (hv : Holds env e c.v xs) (a : Arg) (ha : ∀ x, a = .val x → ∃ y, Valid env e x y) :
    (BadIndex xs a ∧ evalArg e c a = .exn .rbArg) ∨ (¬ BadIndex xs a ∧ ∃ s, evalArg e c a = .ok s ∧ SrcOk env e c xs a s) := by
  cases a with
  | val x =>
    obtain ⟨y, hy⟩ := ha x rfl
    exact .inr ⟨(fun ⟨i, h, _⟩ => by cases h), .mem x, rfl, .val hy⟩
  | bad er => exact .inr ⟨(fun ⟨i, h, _⟩ => by cases h), .bad er, rfl, .bad er⟩
  | own i =>
    have ho := outside_iff he hbig hv i
    by_cases h : outside e c.v i = true
    · refine .inl ⟨⟨i, rfl, ho.mp h⟩, ?_⟩
      simp only [evalArg]
      rw [if_pos h]
    · have h2 : ¬ (i < 0 ∨ (xs.length : Int) ≤ i) := fun h' => h (ho.mpr h')
      refine .inr ⟨(fun ⟨j, h3, h4⟩ => by injection h3 with h3; subst h3; exact h2 h4), ?_⟩
      obtain ⟨k, hk⟩ : ∃ k : Nat, i = k := ⟨i.toNat, by omega⟩
      subst hk
      have hx : xs[k]? = some (xs[k]'(by omega)) := List.getElem?_eq_getElem (by omega)
      obtain ⟨m, hm1, hm2⟩ := get_ok he hv hx
      cases hs : (isScalar e && !c.objs.contains k) with
      | true =>
        refine ⟨.mem m, ?_, .copied hx hm2⟩
        simp only [evalArg, Int.toNat_natCast]
        rw [if_neg h, hs]
        simp only [if_true, hm1]
      | false =>
        refine ⟨.at_ c.gen k, ?_, .own hx ?_⟩
        · simp only [evalArg, Int.toNat_natCast]
          rw [if_neg h, hs]
          simp
        · cases h1 : isScalar e with
          | false => exact .inl rfl
          | true => rw [h1] at hs; right; simpa using hs

omit hbig he in
theorem srcOk_means {c : Cont} {xs : List (List AV)} {a : Arg} {s : Src} (h : SrcOk env e c xs a s) (hs : ∀ er, s ≠ .bad er) :
    ∃ x, Means env e xs a x := by
  cases h with
  | val h => exact ⟨_, .val h⟩
  | bad er => exact absurd rfl (hs er)
  | copied h _ => exact ⟨_, .own h⟩
  | own h _ => exact ⟨_, .own h⟩

/-- appending a value that is not in the vector -/
theorem push_mem (hsz : e.size < HALF) {c : Cont} {xs : List (List AV)} (hv : Holds env e c.v xs) {x : Mem} {a : List AV}
    (hx : Valid env e x a) :
    (env.maxAlloc < (xs.length + 1) * e.size ∧ ∃ c', doPush env e (.mem x) c = .exn .lengthError c' ∧ c'.v = c.v) ∨
    ∃ c' ys, doPush env e (.mem x) c = .ok none c' ∧ Holds env e c'.v ys ∧ EqL e ys (xs ++ [a]) := by
  have hne : ¬ e.size = 0 := by have := he.1; omega
  have h := C19_push he hv hx hsz
  unfold vecPush at h
  rw [if_neg hne] at h
  unfold doPush pushAt
  simp only [if_neg hne]
  simp only at h
  generalize vecResize env (elemOps env e) e (wadd (vecCount e c.v) 1) c.v = r at h
  cases r with
  | ok u v =>
    simp only [Out.bind, Out.conv] at h ⊢
    unfold pushCopy place
    simp only
    generalize (elemOps env e).copy e x 0 v.buf (wmul (vecCount e c.v) e.size) = r2 at h
    cases r2 with
    | ok u b =>
      rcases h with ⟨_, h⟩ | ⟨v', ys, h1, h2, h3⟩
      · simp [Out.conv] at h
      · right
        simp only [Out.conv, Out.ok.injEq, true_and] at h1
        subst h1
        exact ⟨_, ys, rfl, h2, h3⟩
    | exn er b =>
      rcases h with ⟨h0, h⟩ | ⟨v', ys, h1, h2, h3⟩
      · simp only [Out.conv, Out.exn.injEq] at h
        refine .inl ⟨h0, _, by simp only [Out.conv, Out.bind]; rw [h.1], h.2⟩
      · simp [Out.conv] at h1
    | ub => rcases h with ⟨_, h⟩ | ⟨v', ys, h1, _⟩ <;> simp [Out.conv] at *
    | fuel => rcases h with ⟨_, h⟩ | ⟨v', ys, h1, _⟩ <;> simp [Out.conv] at *
  | exn er v =>
    simp only [Out.bind, Out.conv] at h ⊢
    rcases h with ⟨h0, h⟩ | ⟨v', ys, h1, _⟩
    · simp only [Out.exn.injEq] at h
      refine .inl ⟨h0, _, by rw [h.1], h.2⟩
    · simp at h1
  | ub => rcases h with ⟨_, h⟩ | ⟨v', ys, h1, _⟩ <;> simp [Out.bind] at *
  | fuel => rcases h with ⟨_, h⟩ | ⟨v', ys, h1, _⟩ <;> simp [Out.bind] at *

end

/-- evaluated arguments, none of which is an address in the vector -/
inductive SrcsOk (env : Env) (e : Ty) (xs : List (List AV)) : List Arg → List Src → Prop where
  | nil : SrcsOk env e xs [] []
  | mem {a : Arg} {x : List AV} {m : Mem} {as : List Arg} {ss : List Src} : Means env e xs a x → Valid env e m x →
      SrcsOk env e xs as ss → SrcsOk env e xs (a :: as) (.mem m :: ss)
  | bad {er : Err} {as : List Arg} {ss : List Src} : SrcsOk env e xs as ss → SrcsOk env e xs (.bad er :: as) (.bad er :: ss)

section
variable {env : Env} {e : Ty} (he : ElemOk e) (hbig : env.maxAlloc < 2147483648 * e.size)
include he hbig

theorem evalArgs_ok {c : Cont} {xs : List (List AV)} (hv : Holds env e c.v xs) : ∀ (as : List Arg),
    (∀ x, Arg.val x ∈ as → ∃ a, Valid env e x a) → ((isScalar e = true ∧ c.objs = []) ∨ ∀ i, Arg.own i ∉ as) →
    ((∃ a ∈ as, BadIndex xs a) ∧ evalArgs e c as = .exn .rbArg) ∨
    ((∀ a ∈ as, ¬ BadIndex xs a) ∧ ∃ ss, evalArgs e c as = .ok ss ∧ SrcsOk env e xs as ss)
  | [], _, _ => .inr ⟨(fun a ha => by cases ha), [], rfl, .nil⟩
  | a :: as, hval, hown => by
    have ih := evalArgs_ok hv as (fun x hx => hval x (by simp [hx]))
      (hown.imp id (fun h i hi => h i (by simp [hi])))
    rcases evalArg_ok he hbig hv a (fun x hx => hval x (by simp [hx])) with ⟨h1, h2⟩ | ⟨h1, s, h2, h3⟩
    · exact .inl ⟨⟨a, by simp, h1⟩, by simp only [evalArgs, h2]; rfl⟩
    · rcases ih with ⟨⟨b, hb, hbi⟩, h4⟩ | ⟨h4, ss, h5, h6⟩
      · exact .inl ⟨⟨b, by simp [hb], hbi⟩, by simp only [evalArgs, h2, Res.bind, h4]⟩
      · refine .inr ⟨fun b hb => ?_, s :: ss, by simp only [evalArgs, h2, Res.bind, h5], ?_⟩
        · rcases List.mem_cons.mp hb with e1 | e1
          · rw [e1]; exact h1
          · exact h4 b e1
        · cases h3 with
          | val h => exact .mem (.val h) h h6
          | bad er => exact .bad h6
          | copied hx hm => exact .mem (.own hx) hm h6
          | @own i x hx hs =>
            rcases hown with h | h
            · rcases hs with hs | hs
              · rw [hs] at h; cases h.1
              · rw [h.2] at hs; cases hs
            · exact absurd (List.mem_cons_self ..) (h (i : Int))

theorem concat_ok {st : Bool} (hsz : e.size < HALF) {xs0 : List (List AV)} : ∀ {as : List Arg} {ss : List Src}, SrcsOk env e xs0 as ss →
    ∀ {c : Cont} {xs : List (List AV)}, Holds env e c.v xs →
    ∃ l r, Takes env e xs0 xs.length as l r ∧
      ((r ≠ .noMemory ∧ ∃ rep c' zs, concat env e ss c = .ok rep c' ∧ RepOk env st e rep r ∧ Holds env e c'.v zs ∧ EqL e zs (xs ++ l)) ∨
       (r = .noMemory ∧ ∃ c' zs, concat env e ss c = .exn .lengthError c' ∧ Holds env e c'.v zs ∧ EqL e zs (xs ++ l)))
  | _, _, .nil, c, xs, hv =>
    ⟨[], .done, .nil, .inl ⟨(fun h => by cases h), .done, c, xs, rfl, .done, hv, by rw [List.append_nil]; exact hv.elems.refl⟩⟩
  | _, _, .bad (er := er) _, c, xs, hv =>
    ⟨[], .raised er, .bad, .inl ⟨(fun h => by cases h), .raised er, c, xs, rfl, .raised er, hv, by rw [List.append_nil]; exact hv.elems.refl⟩⟩
  | _, _, .mem (x := x) (m := m) hm hx h, c, xs, hv => by
    rcases push_mem he hbig hsz hv hx with ⟨h1, c', h2, h3⟩ | ⟨c', ys, h1, h2, h3⟩
    · refine ⟨[], .noMemory, .full hm h1, .inr ⟨rfl, c', xs, ?_, by rw [h3]; exact hv, by rw [List.append_nil]; exact hv.elems.refl⟩⟩
      simp only [concat, h2, Out.bind]
    · obtain ⟨l, r, g1, g2⟩ := concat_ok hsz h h2
      have hyl : ys.length = xs.length + 1 := by rw [h3.length]; simp
      rw [hyl] at g1
      refine ⟨x :: l, r, .cons hm g1, ?_⟩
      have hcat : ∀ {zs}, EqL e zs (ys ++ l) → EqL e zs (xs ++ x :: l) := by
        intro zs hz
        have hrefl : EqL e l l := by
          have : ∀ {a b c : List (List AV)}, EqL e a (b ++ c) → EqL e c c := by
            intro a b
            induction b generalizing a with
            | nil => intro c h; exact h.symm.trans h
            | cons y b ih =>
              intro c h
              cases h with
              | cons _ h2 => exact ih h2
          exact this hz
        have := hz.trans (h3.append hrefl)
        rw [List.append_assoc] at this
        exact this
      rcases g2 with ⟨k1, rep, c2, zs, k2, k3, k4, k5⟩ | ⟨k1, c2, zs, k2, k3, k4⟩
      · exact .inl ⟨k1, rep, c2, zs, by simp only [concat, h1, Out.bind, k2], k3, k4, hcat k5⟩
      · exact .inr ⟨k1, c2, zs, by simp only [concat, h1, Out.bind, k2], k3, hcat k4⟩

omit hbig in
/-- where an element is -/
theorem place_own {c : Cont} {xs : List (List AV)} (hv : Holds env e c.v xs) {i : Nat} {x : List AV} (hx : xs[i]? = some x) :
    ∃ pre m post, Valid env e m x ∧ place e c (.at_ c.gen i) = some (pre ++ (m ++ post), pre.length) ∧
      bytesOf e c (.at_ c.gen i) = some m ∧ pre.length + e.size < W := by
  have hmaxW : env.maxAlloc < W := by have := env.hmax; unfold W; omega
  have hlen := hv.len
  have hcap := hv.cap
  obtain ⟨hi, hxe⟩ := List.getElem?_eq_some_iff.mp hx
  have hcut : xs = xs.take i ++ x :: xs.drop (i + 1) := by rw [← hxe]; simp
  have hl : (xs.take i).length = i := by rw [List.length_take]; omega
  rw [hcut] at hv
  obtain ⟨b1, b2, e1, h1, h2⟩ := hv.elems.split
  cases h2 with
  | @cons m r' _ _ hy hr =>
    have l1 := h1.length he
    have lm := abs_elem he hy
    rw [hl] at l1
    have hb : c.v.buf.length = b1.length + (m.length + r'.length) := by rw [e1]; simp
    have hwm : wmul i e.size = b1.length := by rw [wmul_eq (by omega), l1]
    have hg : vecGet e i c.v = some m := by
      unfold vecGet
      rw [hwm, if_pos (by omega), e1, List.drop_left, ← lm, List.take_left]
    refine ⟨b1, m, r', hy, ?_, ?_, by omega⟩
    · simp only [place, if_true]
      rw [hwm, e1]
    · simp only [bytesOf, if_true]
      exact hg

omit hbig in
/-- where an argument is, and what it is -/
theorem place_ok {c : Cont} {xs : List (List AV)} (hv : Holds env e c.v xs) {a : Arg} {s : Src} (h : SrcOk env e c xs a s)
    (hs : ∀ er, s ≠ .bad er) : ∃ x pre m post, Means env e xs a x ∧ Valid env e m x ∧
      place e c s = some (pre ++ (m ++ post), pre.length) ∧ bytesOf e c s = some m ∧ pre.length + e.size < W := by
  have hW : ([] : Mem).length + e.size < W := by have := wf_size_lt he.2.1; simpa using this
  cases h with
  | val h => exact ⟨_, [], _, [], .val h, h, by simp [place], rfl, hW⟩
  | bad er => exact absurd rfl (hs er)
  | copied hx hm => exact ⟨_, [], _, [], .own hx, hm, by simp [place], rfl, hW⟩
  | @own i x hx _ =>
    obtain ⟨pre, m, post, h1, h2, h3, h4⟩ := place_own he hv hx
    exact ⟨x, pre, m, post, .own hx, h1, h2, h3, h4⟩

theorem set_ok {c : Cont} {xs : List (List AV)} (hv : Holds env e c.v xs) {i : Nat} (hi : i < xs.length) {a : Arg} {s : Src}
    (h : SrcOk env e c xs a s) (hs : ∀ er, s ≠ .bad er) :
    ∃ x c' zs, Means env e xs a x ∧ doSet env e i s c = .ok .done c' ∧ Holds env e c'.v zs ∧ EqL e zs (xs.set i x) ∧
      c'.objs = c.objs := by
  have hmaxW : env.maxAlloc < W := by have := env.hmax; unfold W; omega
  obtain ⟨x, pre, m, post, h1, h2, h3, _, h5⟩ := place_ok he hv h hs
  have hin : ¬ outside e c.v i = true := fun ho => by
    rcases (outside_iff he hbig hv i).mp ho with h | h <;> omega
  have hcut : xs = xs.take i ++ xs[i] :: xs.drop (i + 1) := by simp
  have hl : (xs.take i).length = i := by rw [List.length_take]; omega
  have hv' := hv
  rw [hcut] at hv'
  obtain ⟨b1, b2, e1, g1, g2⟩ := hv'.elems.split
  have hlen := hv.len
  have hcap := hv.cap
  cases g2 with
  | @cons d r' _ _ hy hr =>
    have l1 := g1.length he
    have ld := abs_elem he hy
    rw [hl] at l1
    have hb : c.v.buf.length = b1.length + (d.length + r'.length) := by rw [e1]; simp
    obtain ⟨d', x', k1, k2, k3⟩ := (elemOps_ok env he).copy pre m post b1 d r' x _ h2 hy h5 (by omega)
    refine ⟨x, ⟨⟨c.v.cap, b1 ++ (d' ++ r')⟩, c.gen, c.objs⟩, xs.take i ++ x' :: xs.drop (i + 1), h1, ?_, ⟨g1.append (.cons k2 hr), ?_, hcap⟩, ?_, rfl⟩
    · unfold doSet
      rw [if_neg hin]
      have hwm : wmul (Int.toNat (i : Int)) e.size = b1.length := by
        rw [Int.toNat_natCast, wmul_eq (by omega), l1]
      cases s with
      | bad er => exact absurd rfl (hs er)
      | mem y => simp only [h3, hwm, e1]; rw [k1]; rfl
      | at_ g j => simp only [h3, hwm, e1]; rw [← e1, e1, k1]; rfl
    · have := abs_elem he k2
      simp only [List.length_append]
      omega
    · rw [List.set_eq_take_append_cons_drop, if_pos hi]
      exact g1.refl.append (.cons k3.symm hr.refl)

theorem erase_ok {st : Bool} {c : Cont} {xs : List (List AV)} (hv : Holds env e c.v xs) {a : Arg} {s : Src}
    (h : SrcOk env e c xs a s) (hs : ∀ er, s ≠ .bad er) :
    ∃ rep r c' zs ys, doErase env e s c = .ok rep c' ∧ RepOk env st e rep r ∧ Holds env e c'.v zs ∧ EqL e zs ys ∧
      Sem env e xs (.erase a) ys r ∧ r ≠ .noMemory ∧ c'.objs = c.objs := by
  obtain ⟨x, pre, m, post, h1, h2, _, h4, _⟩ := place_ok he hv h hs
  have hd : doErase env e s c = ((vecErase env (elemOps env e) e m c.v).conv fun v => (⟨v, c.gen, c.objs⟩ : Cont)).bind fun b c => .ok (.bool b) c := by
    unfold doErase
    cases s with
    | bad er => exact absurd rfl (hs er)
    | mem y => simp only [h4]
    | at_ g j => simp only [h4]
  rcases C19_erase he hv h2 with ⟨l, y, r, v', ys, k1, k2, k3, k4, k5, k6⟩ | ⟨k1, k2⟩
  · refine ⟨.bool true, .bool true, ⟨v', c.gen, c.objs⟩, ys, l ++ r, by rw [hd, k4]; rfl, .bool true, k5, k6, ?_, (fun h => by cases h), rfl⟩
    exact .erase h1 k1 k2 k3
  · exact ⟨.bool false, .bool false, ⟨c.v, c.gen, c.objs⟩, xs, xs, by rw [hd, k2]; rfl, .bool false, hv, hv.elems.refl, .eraseNone h1 k1,
      (fun h => by cases h), rfl⟩

theorem slice_ok (hsz : e.size < HALF) {c : Cont} {xs : List (List AV)} (hv : Holds env e c.v xs) : ∀ (k i : Nat) (acc : Vec)
    (ys : List (List AV)), i + k ≤ xs.length → ys.length ≤ i → Holds env e acc ys →
    ∃ acc' zs, sliceLoop env e c.v k i acc = .ok () acc' ∧ Holds env e acc' zs ∧ EqL e zs (ys ++ (xs.drop i).take k) := by
  have hlen := hv.len
  have hcap := hv.cap
  have hbl := hv.elems.length he
  intro k
  induction k with
  | zero =>
    intro i acc ys _ _ ha
    exact ⟨acc, ys, rfl, ha, by simpa using ha.elems.refl⟩
  | succ k ih =>
    intro i acc ys hik hyi ha
    have hx : xs[i]? = some (xs[i]'(by omega)) := List.getElem?_eq_getElem (by omega)
    obtain ⟨m, hm1, hm2⟩ := get_ok he hv hx
    simp only [sliceLoop, hm1]
    rcases C19_push he ha hm2 hsz with ⟨h1, _⟩ | ⟨v', zs, h1, h2, h3⟩
    · exfalso
      have : (ys.length + 1) * e.size ≤ xs.length * e.size := Nat.mul_le_mul_right _ (by omega)
      omega
    · have hzl := h3.length
      simp at hzl
      obtain ⟨acc', ws, g1, g2, g3⟩ := ih (i + 1) v' zs (by omega) (by omega) h2
      refine ⟨acc', ws, by rw [h1]; exact g1, g2, ?_⟩
      have hcut : (xs.drop i).take (k + 1) = (xs[i]'(by omega)) :: (xs.drop (i + 1)).take k := by
        rw [List.drop_eq_getElem_cons (by omega)]
        rfl
      rw [hcut]
      have hrefl : EqL e ((xs.drop (i + 1)).take k) ((xs.drop (i + 1)).take k) := by
        have h5 : xs = xs.take (i + 1) ++ ((xs.drop (i + 1)).take k ++ (xs.drop (i + 1)).drop k) := by
          rw [List.take_append_drop, List.take_append_drop]
        have h6 := hv.elems
        rw [h5] at h6
        obtain ⟨_, _, _, _, h7⟩ := h6.split
        obtain ⟨_, _, _, h8, _⟩ := h7.split
        exact h8.refl
      have := g3.trans (h3.append hrefl)
      rw [List.append_assoc] at this
      exact this

omit hbig he in
theorem asObj_ok {st : Bool} {c : Cont} (hcl : Clean st e c) (i : Nat) : st = true → asObj e c i = !isScalar e := by
  intro h
  unfold asObj
  cases hs : isScalar e with
  | false => rfl
  | true => rw [hcl h hs]; rfl

omit hbig he in
theorem pushAt_objs {s : Src} {c c' : Cont} {r : Option Err} (h : pushAt env e s c = .ok r c') : c'.objs = c.objs := by
  unfold pushAt at h
  split at h
  · cases h
  · generalize vecResize env (elemOps env e) e (wadd (vecCount e c.v) 1) c.v = x at h
    cases x with
    | ok u v =>
      simp only [Out.conv, Out.bind_ok, pushCopy] at h
      split at h
      · cases h
      · rename_i m off _
        generalize (elemOps env e).copy e m off v.buf (wmul (vecCount e c.v) e.size) = y at h
        cases y with
        | ok u b => cases h; rfl
        | exn er b => cases h
        | ub => cases h
        | fuel => cases h
    | exn er v => cases h
    | ub => cases h
    | fuel => cases h

omit hbig he in
theorem concat_objs : ∀ {ss : List Src} {c c' : Cont} {r : Rep}, concat env e ss c = .ok r c' → c'.objs = c.objs
  | [], c, c', r, h => by cases h; rfl
  | s :: ss, c, c', r, h => by
    simp only [concat] at h
    cases hp : doPush env e s c with
    | ok o c1 =>
      rw [hp] at h
      have h1 : c1.objs = c.objs := by
        unfold doPush at hp
        split at hp
        · cases hp; rfl
        · exact pushAt_objs hp
        · split at hp
          · split at hp
            · cases hp
            · exact pushAt_objs hp
          · exact pushAt_objs hp
      cases o with
      | none =>
        simp only [Out.bind] at h
        rw [concat_objs h, h1]
      | some er => cases h; exact h1
    | exn er c1 => rw [hp] at h; cases h
    | ub => rw [hp] at h; cases h
    | fuel => rw [hp] at h; cases h

/-- after the objects were dropped -/
theorem settled_ok {old c : Cont} {xs : List (List AV)} (hv : Holds env e c.v xs) (r : Rep) :
    ∃ c', settled e old (.ok r c) = .ok r c' ∧ c'.v = c.v ∧ c'.gen = c.gen ∧ (c.objs = [] → c'.objs = []) := by
  have hs := size_eq he hbig hv
  have h : ∃ c', settle e old c = some c' ∧ c'.v = c.v ∧ c'.gen = c.gen ∧ (c.objs = [] → c'.objs = []) := by
    unfold settle
    by_cases h1 : old.v.buf ≠ [] ∧ (c.v.buf = [] ∨ c.gen ≠ old.gen)
    · rw [if_pos h1]
      exact ⟨_, rfl, rfl, rfl, fun _ => rfl⟩
    · rw [if_neg h1, if_neg (by rw [hs]; omega)]
      exact ⟨_, rfl, rfl, rfl, fun h => by simp [h]⟩
  obtain ⟨c', h1, h2⟩ := h
  exact ⟨c', by simp only [settled, h1], h2⟩

omit hbig in
theorem each_ok {st : Bool} {c : Cont} (hcl : Clean st e c) {xs : List (List AV)} (hv : Holds env e c.v xs) : ∀ (k i : Nat),
    i + k = xs.length → ∃ l, eachLoop e c k i = some l ∧ Reads env st e l (xs.drop i) := by
  intro k
  induction k with
  | zero =>
    intro i hi
    exact ⟨[], rfl, by rw [List.drop_of_length_le (by omega)]; exact .nil⟩
  | succ k ih =>
    intro i hi
    have hx : xs[i]? = some (xs[i]'(by omega)) := List.getElem?_eq_getElem (by omega)
    obtain ⟨m, hm1, hm2⟩ := get_ok he hv hx
    obtain ⟨l, h1, h2⟩ := ih (i + 1) (by omega)
    refine ⟨(asObj e c i, m) :: l, by simp only [eachLoop, hm1, h1], ?_⟩
    rw [List.drop_eq_getElem_cons (by omega)]
    exact .cons hm2 (asObj_ok hcl i) h2

/-- **C73, one call**: on a vector whose elements have these values, every call does what the same call does on an array of these values. -/
theorem C73_call_partial (hsz : e.size < HALF) {st : Bool} {c : Cont} (hcl : Clean st e c) {xs : List (List AV)} (hv : Holds env e c.v xs)
    (o : Op) (ho : OkOp env st e o) :
    ∃ ys r c' zs, Sem env e xs o ys r ∧ Holds env e c'.v zs ∧ EqL e zs ys ∧
      ((r ≠ .noMemory ∧ ∃ rep, step env e c o = .ok rep c' ∧ RepOk env st e rep r ∧ Clean st e c') ∨
       (r = .noMemory ∧ step env e c o = .exn .lengthError c')) := by
  have hrefl := hv.elems.refl
  have hlt := holds_lt he hbig hv
  cases o with
  | size =>
    exact ⟨xs, _, c, xs, .size, hv, hrefl, .inl ⟨(fun h => by cases h), _, rfl, by rw [size_eq he hbig hv]; exact .num _, hcl⟩⟩
  | empty =>
    refine ⟨xs, _, c, xs, .empty, hv, hrefl, .inl ⟨(fun h => by cases h), _, rfl, ?_⟩⟩
    have : decide (rbSize e c.v = 0) = xs.isEmpty := by
      rw [size_eq he hbig hv]
      cases xs with
      | nil => rfl
      | cons a l => simp; omega
    rw [this]
    exact ⟨.bool _, hcl⟩
  | get i =>
    have hoi := outside_iff he hbig hv i
    by_cases h : outside e c.v i = true
    · exact ⟨xs, _, c, xs, .getOut (hoi.mp h), hv, hrefl, .inl ⟨(fun h => by cases h), .raised .rbArg,
        by simp only [step, doGet]; rw [if_pos h], .raised _, hcl⟩⟩
    · have h2 : ¬ (i < 0 ∨ (xs.length : Int) ≤ i) := fun h' => h (hoi.mpr h')
      obtain ⟨k, hk⟩ : ∃ k : Nat, i = k := ⟨i.toNat, by omega⟩
      subst hk
      have hx : xs[k]? = some (xs[k]'(by omega)) := List.getElem?_eq_getElem (by omega)
      obtain ⟨m, hm1, hm2⟩ := get_ok he hv hx
      exact ⟨xs, _, c, xs, .get hx, hv, hrefl, .inl ⟨(fun h => by cases h), .elem (asObj e c k) m,
        by simp only [step, doGet, if_neg h, Int.toNat_natCast, hm1], .elem hm2 (asObj_ok hcl k), hcl⟩⟩
  | rawGet i =>
    have hoi := outside_iff he hbig hv i
    by_cases h : outside e c.v i = true
    · exact ⟨xs, _, c, xs, .rawGetOut (hoi.mp h), hv, hrefl, .inl ⟨(fun h => by cases h), .raised .rbArg,
        by simp only [step, doRawGet]; rw [if_pos h], .raised _, hcl⟩⟩
    · have h2 : ¬ (i < 0 ∨ (xs.length : Int) ≤ i) := fun h' => h (hoi.mpr h')
      obtain ⟨k, hk⟩ : ∃ k : Nat, i = k := ⟨i.toNat, by omega⟩
      subst hk
      have hx : xs[k]? = some (xs[k]'(by omega)) := List.getElem?_eq_getElem (by omega)
      obtain ⟨m, hm1, hm2⟩ := get_ok he hv hx
      exact ⟨xs, _, ⟨c.v, c.gen, k :: c.objs⟩, xs, .rawGet hx, hv, hrefl, .inl ⟨(fun h => by cases h), .elem true m,
        by simp only [step, doRawGet, if_neg h, Int.toNat_natCast, hm1], .object hm2, fun h3 h4 => by rw [ho h3] at h4; cases h4⟩⟩
  | slice i n =>
    have hs := size_eq he hbig hv
    have hn : 0 ≤ n := ho.1
    by_cases h1 : i < 0
    · exact ⟨xs, _, c, xs, .sliceOut (.inl h1), hv, hrefl, .inl ⟨(fun h => by cases h), .raised .rbArg,
        by simp only [step, doSlice, if_pos h1], .raised _, hcl⟩⟩
    · by_cases h2 : i + n > rbSize e c.v
      · refine ⟨xs, _, c, xs, .sliceOut (.inr ?_), hv, hrefl, .inl ⟨(fun h => by cases h), .raised .rbArg,
          by simp only [step, doSlice, if_neg h1, if_pos h2], .raised _, hcl⟩⟩
        rw [hs] at h2; exact h2
      · obtain ⟨j, hj⟩ : ∃ j : Nat, i = j := ⟨i.toNat, by omega⟩
        obtain ⟨k, hk⟩ : ∃ k : Nat, n = k := ⟨n.toNat, by omega⟩
        subst hj hk
        have hjk : j + k ≤ xs.length := by rw [hs] at h2; omega
        have hnil : Holds env e ⟨0, []⟩ [] := ⟨.nil, by simp, by simp⟩
        obtain ⟨acc, zs, g1, g2, g3⟩ := slice_ok he hbig hsz hv k j ⟨0, []⟩ [] hjk (by simp) hnil
        refine ⟨xs, _, ⟨c.v, c.gen, indexes j k ++ c.objs⟩, xs, .slice hjk, hv, hrefl, .inl ⟨(fun h => by cases h), .vec acc, ?_,
          .copy g2 (by simpa using g3), fun h3 h4 => by rw [ho.2 h3] at h4; cases h4⟩⟩
        simp only [step, doSlice, if_neg h1, if_neg h2, Int.toNat_natCast, g1]
  | each =>
    obtain ⟨l, h1, h2⟩ := each_ok he hcl hv xs.length 0 (by omega)
    refine ⟨xs, _, c, xs, .each, hv, hrefl, .inl ⟨(fun h => by cases h), .mems l, ?_, .list (by simpa using h2), hcl⟩⟩
    simp only [step, doEach, size_eq he hbig hv, Int.toNat_natCast, h1]
  | set i a =>
    have hval : ∀ x, a = .val x → ∃ y, Valid env e x y := by
      intro x hx
      subst hx
      exact ho
    have hoi := outside_iff he hbig hv i
    rcases evalArg_ok he hbig hv a hval with ⟨h1, h2⟩ | ⟨h1, s, h2, h3⟩
    · exact ⟨xs, _, c, xs, .setIndex h1, hv, hrefl, .inl ⟨(fun h => by cases h), .raised .rbArg,
        by simp only [step, withArgs, h2], .raised _, hcl⟩⟩
    · by_cases h : outside e c.v i = true
      · exact ⟨xs, _, c, xs, .setOut (hoi.mp h), hv, hrefl, .inl ⟨(fun h => by cases h), .raised .rbArg,
          by simp only [step, withArgs, h2, doSet, if_pos h], .raised _, hcl⟩⟩
      · have h4 : ¬ (i < 0 ∨ (xs.length : Int) ≤ i) := fun h' => h (hoi.mpr h')
        obtain ⟨k, hk⟩ : ∃ k : Nat, i = k := ⟨i.toNat, by omega⟩
        subst hk
        by_cases hb : ∃ er, s = .bad er
        · obtain ⟨er, hb⟩ := hb
          subst hb
          cases h3
          exact ⟨xs, _, c, xs, .setBad (by omega), hv, hrefl, .inl ⟨(fun h => by cases h), .raised er,
            by simp only [step, withArgs, h2, doSet, if_neg h], .raised _, hcl⟩⟩
        · obtain ⟨x, c', zs, g1, g2, g3, g4, g5⟩ := set_ok he hbig hv (i := k) (by omega) h3 (fun er he' => hb ⟨er, he'⟩)
          exact ⟨_, _, c', zs, .set (by omega) g1, g3, g4, .inl ⟨(fun h => by cases h), .done,
            by simp only [step, withArgs, h2, g2], .done, fun h3 h4 => by rw [g5]; exact hcl h3 h4⟩⟩
  | concat as =>
    rcases evalArgs_ok he hbig hv as ho.1 (ho.2.imp (fun h => ⟨h.2, hcl h.1 h.2⟩) id) with ⟨⟨a, h1, h2⟩, h3⟩ | ⟨h1, ss, h2, h3⟩
    · exact ⟨xs, _, c, xs, .concatIndex h1 h2, hv, hrefl, .inl ⟨(fun h => by cases h), .raised .rbArg,
        by simp only [step, withArgs, h3], .raised _, hcl⟩⟩
    · obtain ⟨l, r, g1, g2⟩ := concat_ok he hbig hsz h3 hv
      rcases g2 with ⟨k1, rep, c2, zs, k2, k3, k4, k5⟩ | ⟨k1, c2, zs, k2, k3, k4⟩
      · obtain ⟨c3, q1, q2, _, q3⟩ := settled_ok he hbig (old := c) k4 rep
        exact ⟨xs ++ l, r, c3, zs, .concat h1 g1, by rw [q2]; exact k4, k5, .inl ⟨k1, rep,
          by simp only [step, withArgs, h2, k2, q1], k3, fun h3 h4 => q3 (by rw [concat_objs k2]; exact hcl h3 h4)⟩⟩
      · exact ⟨xs ++ l, r, c2, zs, .concat h1 g1, k3, k4, .inr ⟨k1, by simp only [step, withArgs, h2, k2, settled]⟩⟩
  | erase a =>
    have hval : ∀ x, a = .val x → ∃ y, Valid env e x y := by
      intro x hx
      subst hx
      exact ho
    rcases evalArg_ok he hbig hv a hval with ⟨h1, h2⟩ | ⟨h1, s, h2, h3⟩
    · exact ⟨xs, _, c, xs, .eraseIndex h1, hv, hrefl, .inl ⟨(fun h => by cases h), .raised .rbArg,
        by simp only [step, withArgs, h2], .raised _, hcl⟩⟩
    · by_cases hb : ∃ er, s = .bad er
      · obtain ⟨er, hb⟩ := hb
        subst hb
        cases h3
        obtain ⟨c3, q1, q2, _, q3⟩ := settled_ok he hbig (old := c) hv (.raised er)
        exact ⟨xs, _, c3, xs, .eraseBad, by rw [q2]; exact hv, hrefl, .inl ⟨(fun h => by cases h), .raised er,
          by simp only [step, withArgs, h2, doErase, q1], .raised _, fun h3 h4 => q3 (hcl h3 h4)⟩⟩
      · obtain ⟨rep, r, c', zs, ys, g1, g2, g3, g4, g5, g6, g7⟩ := erase_ok (st := st) he hbig hv h3 (fun er he' => hb ⟨er, he'⟩)
        obtain ⟨c3, q1, q2, _, q3⟩ := settled_ok he hbig (old := c) g3 rep
        exact ⟨ys, r, c3, zs, g5, by rw [q2]; exact g3, g4, .inl ⟨g6, rep, by simp only [step, withArgs, h2, g1, q1], g2,
          fun h3 h4 => q3 (by rw [g7]; exact hcl h3 h4)⟩⟩
  | deleteIf p =>
    obtain ⟨q, h1, h2⟩ := ho
    obtain ⟨v', ys, h3, h4, h5⟩ := C19_delete_if he hv h1 h2
    obtain ⟨c3, q1, q2, _, q3⟩ := settled_ok he hbig (old := c) (c := ⟨v', c.gen, c.objs⟩) h4 .done
    exact ⟨_, _, c3, ys, .deleteIf h1 h2, by rw [q2]; exact h4, h5, .inl ⟨(fun h => by cases h), .done,
      by simp only [step, h3, Out.conv, Out.bind, q1], .done, fun h3 h4 => q3 (hcl h3 h4)⟩⟩
  | clear =>
    obtain ⟨v', h1, h2⟩ := C19_clear he hv
    exact ⟨_, _, ⟨v', c.gen, []⟩, [], .clear, h2, .nil, .inl ⟨(fun h => by cases h), .done, by simp only [step, h1, Out.conv, Out.bind], .done,
      fun _ _ => rfl⟩⟩

end

/-- the results of a sequence of calls on an array, which is known up to equality of its elements -/
inductive Run (env : Env) (e : Ty) : List Op → List (List AV) → List (List AV) → List SRep → Prop where
  | nil {xs : List (List AV)} : Run env e [] xs xs []
  | cons {o : Op} {os : List Op} {xs ys ys' zs : List (List AV)} {r : SRep} {rs : List SRep} : Sem env e xs o ys r → r ≠ .noMemory →
      EqL e ys' ys → Run env e os ys' zs rs → Run env e (o :: os) xs zs (r :: rs)

inductive RepsOk (env : Env) (st : Bool) (e : Ty) : List Rep → List SRep → Prop where
  | nil : RepsOk env st e [] []
  | cons {a : Rep} {b : SRep} {l : List Rep} {m : List SRep} : RepOk env st e a b → RepsOk env st e l m → RepsOk env st e (a :: l) (b :: m)

/-- **C73, histories**: any sequence of calls gives the results, and leaves the contents, that the same calls give and leave on an array,
whether exceptions are raised on the way or not, and whether or not the buffer of the vector is reallocated; up to the first time there
is no memory, which leaves the vector with the elements that were appended so far. -/
theorem C73_history_partial {env : Env} {e : Ty} (he : ElemOk e) (hbig : env.maxAlloc < 2147483648 * e.size) (hsz : e.size < HALF)
    {st : Bool} : ∀ (os : List Op) {c : Cont} {xs : List (List AV)}, Clean st e c → Holds env e c.v xs → (∀ o ∈ os, OkOp env st e o) →
    (∃ reps c' zs rs, runAll env e os c = .ok reps c' ∧ Holds env e c'.v zs ∧ Run env e os xs zs rs ∧ RepsOk env st e reps rs) ∨
    (∃ os1 o os2 rs zs ys c' ws, os = os1 ++ o :: os2 ∧ Run env e os1 xs zs rs ∧ Sem env e zs o ys .noMemory ∧
      runAll env e os c = .exn .lengthError c' ∧ Holds env e c'.v ws ∧ EqL e ws ys)
  | [], c, xs, _, hv, _ => .inl ⟨[], c, xs, [], rfl, hv, .nil, .nil⟩
  | o :: os, c, xs, hcl, hv, hok => by
    obtain ⟨ys, r, c', zs, h1, h2, h3, h4⟩ := C73_call_partial he hbig hsz hcl hv o (hok o (by simp))
    rcases h4 with ⟨h4, rep, h5, h6, h7⟩ | ⟨h4, h5⟩
    · rcases C73_history_partial he hbig hsz os h7 h2 (fun o' ho' => hok o' (by simp [ho'])) with
        ⟨reps, c2, ws, rs, g1, g2, g3, g4⟩ | ⟨os1, o1, os2, rs, ws, ys2, c2, us, g1, g2, g3, g4, g5, g6⟩
      · refine .inl ⟨rep :: reps, c2, ws, r :: rs, ?_, g2, .cons h1 h4 h3 g3, .cons h6 g4⟩
        simp only [runAll, h5, Out.bind, g1]
      · refine .inr ⟨o :: os1, o1, os2, r :: rs, ws, ys2, c2, us, by rw [g1]; rfl, .cons h1 h4 h3 g2, g3, ?_, g5, g6⟩
        simp only [runAll, h5, Out.bind, g4]
    · subst h4
      refine .inr ⟨[], o, os, [], xs, ys, c', zs, rfl, .nil, h1, ?_, h2, h3⟩
      simp only [runAll, h5, Out.bind]

end Verif.Container
