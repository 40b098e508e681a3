import Verif.Endian

/-!
Structure of the compiled byte-swap programs: a program is a sequence of operations (`Ops`, last operation
outermost), `enc` is its encoding, `run` its effect.
-/

namespace Verif.Endian
set_option linter.unusedSimpArgs false
open Verif Verif.Layout

/-- bound on the sizes: `skip` takes an `int` (endianness.cc:15) -/
@[reducible] def LIM : Nat := 2147483648

inductive Ops where
  | nil
  | skip (p : Ops) (n : Nat)
  | s4 (p : Ops)
  | s8 (p : Ops)
  | idx (p : Ops) (j : Nat)
  | arr (p : Ops) (d es : Nat) (b : Ops)

namespace Ops

def enc : Ops → List Nat
  | nil => []
  | skip p n => enc p ++ [F_SKIP, n]
  | s4 p => enc p ++ [F_SWAP_4]
  | s8 p => enc p ++ [F_SWAP_8]
  | idx p j => enc p ++ [j]
  | arr p d es b => enc p ++ ([F_ARRAY, d, es] ++ enc b ++ [F_END])

def Ok : Ops → Prop
  | nil => True
  | skip p n => p.Ok ∧ n < LIM
  | s4 p => p.Ok
  | s8 p => p.Ok
  | idx p j => p.Ok ∧ j < LIM
  | arr p d es b => p.Ok ∧ 0 < d ∧ d < LIM ∧ es < LIM ∧ b.Ok

/-- number of operations -/
def nops : Ops → Nat
  | nil => 0
  | skip p _ => nops p + 1
  | s4 p => nops p + 1
  | s8 p => nops p + 1
  | idx p _ => nops p + 1
  | arr p _ _ _ => nops p + 1

/-- number of bytes written -/
def adv : Ops → Nat
  | nil => 0
  | skip p n => adv p + n
  | s4 p => adv p + 4
  | s8 p => adv p + 8
  | idx p _ => adv p + 1
  | arr p d _ b => adv p + d * adv b

theorem nops_le (p : Ops) : p.nops ≤ p.enc.length := by
  induction p <;> simp [nops, enc] <;> omega

end Ops

def runLoop (g : Nat → St → Res St) : Nat → Nat → St → Res St
  | 0, _, s => .ok s
  | n + 1, i, s => g i s >>= fun s' => runLoop g n (i + 1) s'

def Ops.run (inp : List UInt8) : Ops → Nat → St → Res St
  | .nil, _, s => .ok s
  | .skip p n, ioff, s => p.run inp ioff s >>= fun s1 => readIn false inp s1 s1.o n >>= fun bs => emit s1 bs
  | .s4 p, ioff, s => p.run inp ioff s >>= fun s1 =>
      readIn false inp s1 s1.o 4 >>= fun bs => emit s1 (swapMem4 bs)
  | .s8 p, ioff, s => p.run inp ioff s >>= fun s1 =>
      readIn false inp s1 s1.o 8 >>= fun bs => emit s1 (swapMem8 bs)
  | .idx p j, ioff, s => p.run inp ioff s >>= fun s1 => readIn false inp s1 (ioff + j) 1 >>= fun bs => emit s1 bs
  | .arr p d es b, ioff, s => p.run inp ioff s >>= fun s1 =>
      runLoop (fun i s => b.run inp (ioff + es * i) s) d 0 s1

theorem loopN_eq (g' : Nat → St → Res (List Nat × St)) (g : Nat → St → Res St) (e : List Nat)
    (h : ∀ i s, g' i s = (g i s >>= fun s' => .ok (e, s'))) :
    ∀ d i s x, (0 < d ∨ x = some e) → loopN g' d i s x = (runLoop g d i s >>= fun s' => .ok (e, s'))
  | 0, i, s, x, hx => by
    rcases hx with hx | rfl
    · omega
    · simp [loopN, runLoop]
  | d + 1, i, s, x, _ => by
    simp only [loopN, runLoop, h, Res.bind_assoc']
    cases hg : g i s with
    | ok s' => simp only [Res.bind_ok]; exact loopN_eq g' g e h d (i + 1) s' (some e) (Or.inr rfl)
    | exn _ => simp
    | ub => simp
    | fuel => simp

theorem swapRun_enc (inp : List UInt8) : ∀ (p : Ops), p.Ok → ∀ (f ioff : Nat) (rest : List Nat) (s : St),
    p.enc.length < f →
    swapRun false inp f ioff (p.enc ++ rest) s
      = (p.run inp ioff s >>= fun s' => swapRun false inp (f - p.nops) ioff rest s') := by
  intro p
  induction p with
  | nil => intro _ f ioff rest s _; simp [Ops.enc, Ops.run, Ops.nops]
  | skip p n ih =>
    intro hok f ioff rest s hf
    simp only [Ops.enc, List.length_append, List.length_cons, List.length_nil] at hf
    simp only [Ops.enc, List.append_assoc, Ops.run, Res.bind_assoc', Ops.nops]
    rw [ih hok.1 f ioff _ s (by omega)]
    congr 1; funext s1
    obtain ⟨g, hg⟩ : ∃ g, f - p.nops = g + 1 := ⟨f - p.nops - 1, by have := p.nops_le; omega⟩
    rw [hg, show f - (p.nops + 1) = g by omega]
    simp [swapRun, F_SKIP, F_SWAP_4, F_SWAP_8]
  | s4 p ih =>
    intro hok f ioff rest s hf
    simp only [Ops.enc, List.length_append, List.length_cons, List.length_nil] at hf
    simp only [Ops.enc, List.append_assoc, Ops.run, Res.bind_assoc', Ops.nops]
    rw [ih hok f ioff _ s (by omega)]
    congr 1; funext s1
    obtain ⟨g, hg⟩ : ∃ g, f - p.nops = g + 1 := ⟨f - p.nops - 1, by have := p.nops_le; omega⟩
    rw [hg, show f - (p.nops + 1) = g by omega]
    simp [swapRun, F_SKIP, F_SWAP_4, F_SWAP_8]
  | s8 p ih =>
    intro hok f ioff rest s hf
    simp only [Ops.enc, List.length_append, List.length_cons, List.length_nil] at hf
    simp only [Ops.enc, List.append_assoc, Ops.run, Res.bind_assoc', Ops.nops]
    rw [ih hok f ioff _ s (by omega)]
    congr 1; funext s1
    obtain ⟨g, hg⟩ : ∃ g, f - p.nops = g + 1 := ⟨f - p.nops - 1, by have := p.nops_le; omega⟩
    rw [hg, show f - (p.nops + 1) = g by omega]
    simp [swapRun, F_SKIP, F_SWAP_4, F_SWAP_8]
  | idx p j ih =>
    intro hok f ioff rest s hf
    have hj : j < 2147483648 := hok.2
    simp only [Ops.enc, List.length_append, List.length_cons, List.length_nil] at hf
    simp only [Ops.enc, List.append_assoc, Ops.run, Res.bind_assoc', Ops.nops]
    rw [ih hok.1 f ioff _ s (by omega)]
    congr 1; funext s1
    obtain ⟨g, hg⟩ : ∃ g, f - p.nops = g + 1 := ⟨f - p.nops - 1, by have := p.nops_le; omega⟩
    rw [hg, show f - (p.nops + 1) = g by omega]
    simp only [List.cons_append, List.nil_append, swapRun]
    rw [if_neg (by simp only [F_SKIP]; omega), if_neg (by simp only [F_SWAP_4]; omega),
      if_neg (by simp only [F_SWAP_8]; omega), if_neg (by simp only [F_ARRAY]; omega),
      if_neg (by simp only [F_END]; omega)]
  | arr p d es b ihp ihb =>
    intro hok f ioff rest s hf
    simp only [Ops.enc, List.length_append, List.length_cons, List.length_nil] at hf
    simp only [Ops.enc, List.append_assoc, Ops.run, Res.bind_assoc', Ops.nops]
    rw [ihp hok.1 f ioff _ s (by omega)]
    congr 1; funext s1
    obtain ⟨g, hg⟩ : ∃ g, f - p.nops = g + 1 := ⟨f - p.nops - 1, by have := p.nops_le; omega⟩
    have hpn := p.nops_le
    rw [hg, show f - (p.nops + 1) = g by omega]
    have hloop := loopN_eq (fun i s => swapRun false inp g (ioff + es * i) (b.enc ++ (F_END :: rest)) s)
      (fun i s => b.run inp (ioff + es * i) s) (F_END :: rest) (fun i s' => by
        rw [ihb hok.2.2.2.2 g (ioff + es * i) (F_END :: rest) s' (by omega)]
        congr 1; funext s2
        obtain ⟨g', hg'⟩ : ∃ g', g - b.nops = g' + 1 := ⟨g - b.nops - 1, by have := b.nops_le; omega⟩
        rw [hg']
        simp [swapRun, F_SKIP, F_SWAP_4, F_SWAP_8, F_ARRAY, F_END]) d 0 s1 none (Or.inl hok.2.1)
    simp only [List.cons_append, List.nil_append, swapRun]
    rw [if_neg (by decide), if_neg (by decide), if_neg (by decide), if_pos trivial, hloop, Res.bind_assoc']
    simp

/-! ### the program of a type -/

/-- `skip` on a structured program -/
def skipO (p : Ops) (m : Nat) : Ops :=
  match p with
  | .skip q n => .skip q (n + m)
  | p => .skip p m

def wrap (p : Ops) (d es : Nat) : Ops → Ops
  | .skip .nil n => .skip p (n * d)
  | b => .arr p d es b

def scale (d : Nat) : Ops → Ops
  | .skip p n => .skip p (n * d)
  | .arr p k es b => .arr p (k * d) es b
  | o => o

mutual
def app (x : Nat) (p : Ops) : Ty → Ops
  | .num n =>
    if n = 1 then skipO p 1
    else if n = 2 then .idx (.idx p (x + 1)) x
    else if n = 4 then .s4 p
    else .s8 p
  | .enum _ _ => .idx (.idx (.idx (.idx p (x + 3)) (x + 2)) (x + 1)) x
  | .arr d e => if isArr e then scale d (app x p e) else wrap p d e.size (app x .nil e)
  | .comp _ fs => appF x x p fs
  | _ => p
def appF (base x : Nat) (p : Ops) : Fields → Ops
  | .nil => p
  | .cons off t r =>
    appF base (base + off + t.size) (app (base + off) (if base + off > x then skipO p (base + off - x) else p) t) r
end

mutual
/-- number of bytes written for a value of the type -/
def advT : Ty → Nat
  | .num n => n
  | .enum _ _ => 4
  | .arr d e => d * advT e
  | .comp _ fs => advF 0 fs
  | _ => 0
def advF (cur : Nat) : Fields → Nat
  | .nil => cur
  | .cons off t .nil => off + advT t
  | .cons off t r => advF (off + t.size) r
end

mutual
/-- Types whose compiled swap is right: supported scalars, no enum of another size than 4, and no trailing padding in
a compound that is followed by something else. -/
def SwapOk : Ty → Prop
  | .num n => n = 1 ∨ n = 2 ∨ n = 4 ∨ n = 8
  | .enum n _ => n = 4
  | .arr _ e => advT e = e.size ∧ SwapOk e
  | .comp _ fs => SwapOkF fs
  | _ => False
def SwapOkF : Fields → Prop
  | .nil => True
  | .cons _ t r => SwapOk t ∧ (r = .nil ∨ advT t = t.size) ∧ SwapOkF r
end

/-! ### the compiler produces `app` -/

abbrev SkipHead (c : List Nat) : Prop := c.length > 1 ∧ c[c.length - 2]? = some F_SKIP
def PreOk (c : List Nat) : Prop := ¬ SkipHead c ∧ c.getLast? ≠ some F_SKIP

theorem getLast?_append_cons (a : List Nat) (x : Nat) (b : List Nat) :
    (a ++ x :: b).getLast? = (x :: b).getLast? := by
  rw [List.getLast?_append, List.getLast?_cons]
  rfl

theorem last_enc (pre : List Nat) (h : pre.getLast? ≠ some F_SKIP) :
    ∀ p : Ops, p.Ok → (pre ++ p.enc).getLast? ≠ some F_SKIP := by
  intro p hok
  have lim : ∀ n, n < LIM → n ≠ F_SKIP := by intro n hn; simp only [F_SKIP, LIM] at *; omega
  cases p with
  | nil => simpa [Ops.enc] using h
  | skip p n => simpa [Ops.enc, List.getLast?_append] using lim n hok.2
  | s4 p => simp [Ops.enc, List.getLast?_append, F_SWAP_4, F_SKIP]
  | s8 p => simp [Ops.enc, List.getLast?_append, F_SWAP_8, F_SKIP]
  | idx p j => simpa [Ops.enc, List.getLast?_append] using lim j hok.2
  | arr p d es b =>
    simp only [Ops.enc]
    rw [← List.append_assoc, ← List.append_assoc, getLast?_append_cons]
    simp [F_END, F_SKIP]

theorem skipHead_snoc (c : List Nat) (x : Nat) (h : SkipHead (c ++ [x])) : c.getLast? = some F_SKIP := by
  obtain ⟨h1, h2⟩ := h
  simp only [List.length_append, List.length_cons, List.length_nil] at h1 h2
  rw [List.getElem?_append_left (by omega)] at h2
  rw [List.getLast?_eq_getElem?, ← h2]
  congr 1

theorem not_skipHead_enc (pre : List Nat) (hp : PreOk pre) :
    ∀ p : Ops, p.Ok → (∀ q n, p ≠ .skip q n) → ¬ SkipHead (pre ++ p.enc) := by
  intro p hok hne h
  cases p with
  | nil => exact hp.1 (by simpa [Ops.enc] using h)
  | skip p n => exact hne p n rfl
  | s4 p =>
    simp only [Ops.enc] at h
    rw [← List.append_assoc] at h
    exact last_enc pre hp.2 p hok (skipHead_snoc _ _ h)
  | s8 p =>
    simp only [Ops.enc] at h
    rw [← List.append_assoc] at h
    exact last_enc pre hp.2 p hok (skipHead_snoc _ _ h)
  | idx p j =>
    simp only [Ops.enc] at h
    rw [← List.append_assoc] at h
    exact last_enc pre hp.2 p hok.1 (skipHead_snoc _ _ h)
  | arr p d es b =>
    simp only [Ops.enc] at h
    rw [← List.append_assoc, ← List.append_assoc] at h
    have h2 := skipHead_snoc _ _ h
    rw [← List.append_assoc] at h2
    refine last_enc (pre ++ p.enc ++ [F_ARRAY, d, es]) ?_ b hok.2.2.2.2 h2
    have : es < 2147483648 := hok.2.2.2.1
    simp only [List.getLast?_append, List.getLast?_cons_cons, List.getLast?_singleton, Option.or_some, F_SKIP]
    simp
    omega

theorem viaInt_eq {n : Nat} (h : n < LIM) : viaInt n = n := by
  have h' : n < 2147483648 := h
  unfold viaInt
  have : n % 4294967296 = n := Nat.mod_eq_of_lt (by omega)
  simp only [this, if_pos h']

theorem skipW_enc (pre : List Nat) (hp : PreOk pre) (p : Ops) (hok : p.Ok) (m : Nat) (hm : p.adv + m < LIM) :
    skipW (pre ++ p.enc) m = pre ++ (skipO p m).enc := by
  have hm' : p.adv + m < 2147483648 := hm
  by_cases hs : ∃ q n, p = .skip q n
  · obtain ⟨q, n, rfl⟩ := hs
    have hn : n < 2147483648 := hok.2
    simp only [Ops.adv] at hm'
    have hc : (pre ++ (Ops.skip q n).enc) = (pre ++ q.enc) ++ [F_SKIP, n] := by simp [Ops.enc]
    have h1 : SkipHead (pre ++ (Ops.skip q n).enc) := by
      rw [hc]
      refine ⟨by simp; omega, ?_⟩
      rw [List.getElem?_append_right (by simp; omega)]
      have e : ((pre ++ q.enc) ++ [F_SKIP, n]).length - 2 - (pre ++ q.enc).length = 0 := by
        simp only [List.length_append, List.length_cons, List.length_nil]; omega
      rw [e]; rfl
    unfold skipW
    rw [if_pos h1, hc, viaInt_eq (by simp only [LIM]; omega)]
    have e1 : ((pre ++ q.enc) ++ [F_SKIP, n]).take (((pre ++ q.enc) ++ [F_SKIP, n]).length - 1)
        = pre ++ q.enc ++ [F_SKIP] := by
      have : ((pre ++ q.enc) ++ [F_SKIP, n]) = (pre ++ q.enc ++ [F_SKIP]) ++ [n] := by simp
      rw [this]
      exact List.take_left' (by simp)
    have e2 : ((pre ++ q.enc) ++ [F_SKIP, n]).getLastD 0 = n := by
      rw [List.getLastD_eq_getLast?, getLast?_append_cons]; rfl
    rw [e1, e2, wadd_eq (by unfold W; omega)]
    simp [skipO, Ops.enc]
  · have hne : ∀ q n, p ≠ .skip q n := fun q n h => hs ⟨q, n, h⟩
    unfold skipW
    rw [if_neg (not_skipHead_enc pre hp p hok hne), viaInt_eq (by simp only [LIM]; omega)]
    have : skipO p m = .skip p m := by
      cases p <;> first | rfl | exact absurd rfl (hne _ _)
    rw [this]
    simp [Ops.enc]

theorem skipO_ok (p : Ops) (hok : p.Ok) (m : Nat) (hm : p.adv + m < LIM) : (skipO p m).Ok := by
  have hm' : p.adv + m < 2147483648 := hm
  cases p with
  | skip q n => refine ⟨hok.1, ?_⟩; simp only [Ops.adv] at hm'; show n + m < 2147483648; omega
  | nil => exact ⟨trivial, by show m < 2147483648; omega⟩
  | s4 p => exact ⟨hok, by show m < 2147483648; omega⟩
  | s8 p => exact ⟨hok, by show m < 2147483648; omega⟩
  | idx p j => exact ⟨hok, by show m < 2147483648; omega⟩
  | arr p d es b => exact ⟨hok, by show m < 2147483648; omega⟩

theorem skipO_adv (p : Ops) (m : Nat) : (skipO p m).adv = p.adv + m := by
  cases p <;> simp [skipO, Ops.adv]; omega

/-! number of bytes -/

theorem wrap_adv (p : Ops) (d es : Nat) (b : Ops) : (wrap p d es b).adv = p.adv + d * b.adv := by
  unfold wrap
  split
  · simp [Ops.adv, Nat.mul_comm]
  · simp [Ops.adv]

/-- number of elements and element type of nested arrays -/
def total : Ty → Nat
  | .arr d e => if isArr e then total e * d else d
  | _ => 1
def inner : Ty → Ty
  | .arr _ e => if isArr e then inner e else e
  | t => t

theorem scale_wrap (p : Ops) (d k es : Nat) (b : Ops) : scale d (wrap p k es b) = wrap p (k * d) es b := by
  unfold wrap
  split
  · simp [scale, Nat.mul_assoc]
  · simp [scale]

theorem app_arr : ∀ (t : Ty), isArr t = true → ∀ x p,
    app x p t = wrap p (total t) (inner t).size (app x .nil (inner t))
  | .arr d e, _, x, p => by
    by_cases he : isArr e = true
    · simp only [app, total, inner, he, if_true]
      rw [app_arr e he x p, scale_wrap]
    · simp only [app, total, inner, he, if_false, Bool.false_eq_true]
  | .num _, h, _, _ => by simp [isArr] at h
  | .enum _ _, h, _, _ => by simp [isArr] at h
  | .vec _ _, h, _, _ => by simp [isArr] at h
  | .str _, h, _, _ => by simp [isArr] at h
  | .comp _ _, h, _, _ => by simp [isArr] at h
  | .ptr _, h, _, _ => by simp [isArr] at h
  | .opaq _, h, _, _ => by simp [isArr] at h

mutual
theorem advT_le : ∀ t : Ty, t.WF → SwapOk t → advT t ≤ t.size
  | .num n, _, _ => Nat.le_refl _
  | .enum n vs, _, h => by simp only [SwapOk] at h; simp [advT, Ty.size, h]
  | .arr d e, hw, h => by
    simp only [SwapOk] at h
    rw [arr_size hw, advT, h.1]
    exact Nat.le_refl _
  | .comp n fs, hw, h => by
    simp only [advT, Ty.size]
    exact advF_le fs 0 n hw.2 h (Nat.zero_le _)
  | .vec _ _, _, h => by cases h
  | .str _, _, h => by cases h
  | .ptr _, _, h => by cases h
  | .opaq _, _, h => by cases h
theorem advF_le : ∀ (fs : Fields) (cur n : Nat), fs.WF cur n → SwapOkF fs → cur ≤ n → advF cur fs ≤ n
  | .nil, cur, n, _, _, h => by simpa [advF] using h
  | .cons off t .nil, cur, n, hw, h, _ => by
    simp only [advF]
    have h1 := advT_le t hw.2.1 h.1
    have h2 : off + t.size ≤ n := hw.2.2
    omega
  | .cons off t (.cons off' t' r), cur, n, hw, h, hc => by
    simp only [advF]
    refine advF_le (.cons off' t' r) (off + t.size) n hw.2.2 h.2.2 ?_
    have h3 : off + t.size ≤ off' := hw.2.2.1
    have h4 := fieldsWF_le (.cons off' t' r) hw.2.2
    omega
theorem fieldsWF_le : ∀ (fs : Fields) {cur n : Nat}, fs.WF cur n → cur ≤ n
  | .nil, _, _, h => h
  | .cons off t r, cur, n, h => by
    have := fieldsWF_le r h.2.2
    have := h.1
    omega
end

theorem total_inner : ∀ (t : Ty), isArr t = true → t.WF → SwapOk t →
    t.size = total t * (inner t).size ∧ advT (inner t) = (inner t).size ∧ 0 < total t ∧ 0 < (inner t).size ∧
    (inner t).WF ∧ SwapOk (inner t) ∧ advT t = t.size
  | .arr d e, _, hw, h => by
    simp only [SwapOk] at h
    have hsz := arr_size hw
    have hadv : advT (.arr d e) = (Ty.arr d e).size := by rw [hsz, advT, h.1]
    by_cases he : isArr e = true
    · obtain ⟨h1, h2, h3, h4, h5, h6, h7⟩ := total_inner e he hw.2.2.2 h.2
      simp only [total, inner, he, if_true]
      refine ⟨?_, h2, Nat.mul_pos h3 hw.1, h4, h5, h6, hadv⟩
      rw [hsz, h1, Nat.mul_comm (total e) d, Nat.mul_assoc]
    · simp only [total, inner, he, if_false, Bool.false_eq_true]
      exact ⟨hsz, h.1, hw.1, hw.2.1, hw.2.2.2, h.2, hadv⟩
  | .num _, h, _, _ => by simp [isArr] at h
  | .enum _ _, h, _, _ => by simp [isArr] at h
  | .vec _ _, h, _, _ => by simp [isArr] at h
  | .str _, h, _, _ => by simp [isArr] at h
  | .comp _ _, h, _, _ => by simp [isArr] at h
  | .ptr _, h, _, _ => by simp [isArr] at h
  | .opaq _, h, _, _ => by simp [isArr] at h

mutual
theorem app_adv : ∀ (t : Ty), t.WF → SwapOk t → ∀ x p, (app x p t).adv = p.adv + advT t
  | .num n, _, h, x, p => by
    simp only [SwapOk] at h
    rcases h with rfl | rfl | rfl | rfl <;> simp [app, advT, skipO_adv, Ops.adv]
  | .enum n vs, _, _, x, p => by simp [app, advT, Ops.adv]
  | .arr d e, hw, h, x, p => by
    simp only [SwapOk] at h
    have ih := app_adv e hw.2.2.2 h.2
    by_cases he : isArr e = true
    · obtain ⟨h1, h2, h3, h4, h5, h6, h7⟩ := total_inner e he hw.2.2.2 h.2
      have hw' := app_arr e he x p
      have hadv := ih x p
      simp only [app, he, if_true, advT]
      rw [hw', scale_wrap, wrap_adv]
      rw [hw', wrap_adv] at hadv
      have : total e * (app x .nil (inner e)).adv = advT e := by omega
      rw [Nat.mul_comm (total e) d, Nat.mul_assoc, this]
    · simp only [app, he, if_false, advT, Bool.false_eq_true, wrap_adv, ih x .nil, Ops.adv, Nat.zero_add]
  | .comp n fs, hw, h, x, p => by
    simp only [app, advT]
    have := appF_adv fs 0 n hw.2 h x p
    simpa using this
  | .vec _ _, _, h, _, _ => by cases h
  | .str _, _, h, _, _ => by cases h
  | .ptr _, _, h, _, _ => by cases h
  | .opaq _, _, h, _, _ => by cases h
theorem appF_adv : ∀ (fs : Fields) (cur n : Nat), fs.WF cur n → SwapOkF fs → ∀ base p,
    (appF base (base + cur) p fs).adv + cur = p.adv + advF cur fs
  | .nil, cur, n, _, _, base, p => by simp [appF, advF]
  | .cons off t r, cur, n, hw, h, base, p => by
    have hsk : (if base + off > base + cur then skipO p (base + off - (base + cur)) else p).adv
        = p.adv + (off - cur) := by
      have := hw.1
      by_cases hg : base + off > base + cur
      · rw [if_pos hg, skipO_adv]; omega
      · rw [if_neg hg]; omega
    have ih := appF_adv r (off + t.size) n hw.2.2 h.2.2 base
      (app (base + off) (if base + off > base + cur then skipO p (base + off - (base + cur)) else p) t)
    have iht := app_adv t hw.2.1 h.1 (base + off)
      (if base + off > base + cur then skipO p (base + off - (base + cur)) else p)
    have hoff : cur ≤ off := hw.1
    have hadvt := advT_le t hw.2.1 h.1
    rw [hsk] at iht
    simp only [appF]
    rw [iht] at ih
    rw [← Nat.add_assoc base off] at ih
    cases r with
    | nil =>
      simp only [advF] at ih ⊢
      simp only [appF] at ih ⊢
      rw [iht]
      omega
    | cons off' t' r' =>
      rcases h.2.1 with hc | hc
      · cases hc
      · simp only [advF] at ih ⊢
        omega
end

theorem wrap_ok {p b : Ops} {d es : Nat} (hp : p.Ok) (hb : b.Ok) (h0 : 0 < d) (hd : d < LIM) (he : es < LIM)
    (ha : d * b.adv < LIM) : (wrap p d es b).Ok := by
  unfold wrap
  split
  · rename_i n
    simp only [Ops.adv, Nat.zero_add] at ha
    exact ⟨hp, by rw [Nat.mul_comm]; exact ha⟩
  · exact ⟨hp, h0, hd, he, hb⟩

theorem wrap_ok_inv {p b : Ops} {d es : Nat} (h : (wrap p d es b).Ok) (h0 : 0 < d) : b.Ok := by
  unfold wrap at h
  split at h
  · rename_i n
    refine ⟨trivial, ?_⟩
    have h2 : n * d < LIM := h.2
    exact Nat.lt_of_le_of_lt (Nat.le_mul_of_pos_right n h0) h2
  · exact h.2.2.2.2

theorem enc_nil {q : Ops} (h : q.enc.length = 0) : q = .nil := by
  cases q <;> simp [Ops.enc] at h ⊢

theorem single_skip {b : Ops} (hb : b.Ok) (h1 : b.enc.length = 2) (h2 : b.enc[0]? = some F_SKIP) :
    ∃ n, b = .skip .nil n := by
  have key : ∀ q : Ops, q.Ok → q.enc.length = 1 → q.enc[0]? ≠ some F_SKIP := by
    intro q hq hl he
    apply last_enc [] (by simp) q hq
    rw [List.nil_append, List.getLast?_eq_getElem?, hl]
    exact he
  cases b with
  | nil => simp [Ops.enc] at h1
  | skip q n =>
    simp [Ops.enc] at h1
    exact ⟨n, by rw [enc_nil (q := q) (by simp [h1])]⟩
  | s4 q =>
    simp only [Ops.enc, List.length_append, List.length_cons, List.length_nil] at h1
    have hl : q.enc.length = 1 := by omega
    simp only [Ops.enc] at h2
    rw [List.getElem?_append_left (by omega)] at h2
    exact absurd h2 (key q hb hl)
  | s8 q =>
    simp only [Ops.enc, List.length_append, List.length_cons, List.length_nil] at h1
    have hl : q.enc.length = 1 := by omega
    simp only [Ops.enc] at h2
    rw [List.getElem?_append_left (by omega)] at h2
    exact absurd h2 (key q hb hl)
  | idx q j =>
    simp only [Ops.enc, List.length_append, List.length_cons, List.length_nil] at h1
    have hl : q.enc.length = 1 := by omega
    simp only [Ops.enc] at h2
    rw [List.getElem?_append_left (by omega)] at h2
    exact absurd h2 (key q hb.1 hl)
  | arr q d es b' =>
    simp only [Ops.enc, List.length_append, List.length_cons, List.length_nil] at h1
    omega

theorem preOk_arr (c : List Nat) (d es : Nat) (hd : d < LIM) (he : es < LIM) : PreOk (c ++ [F_ARRAY, d, es]) := by
  have hd' : d < 2147483648 := hd
  have he' : es < 2147483648 := he
  refine ⟨?_, ?_⟩
  · intro h
    have e : c ++ [F_ARRAY, d, es] = (c ++ [F_ARRAY, d]) ++ [es] := by simp
    rw [e] at h
    have h2 := skipHead_snoc _ _ h
    rw [getLast?_append_cons] at h2
    simp [F_SKIP] at h2
    omega
  · rw [getLast?_append_cons]
    simp [F_SKIP]
    omega

/-- the end of `visit_(Array)` for an element that is not an array -/
theorem compile_wrap (c : List Nat) (p b : Ops) (d es : Nat) (pre : List Nat) (hc : c = pre ++ p.enc) (hb : b.Ok)
    (hlt : d * b.adv < W) :
    (let c' := c ++ [F_ARRAY, d, es] ++ b.enc
     let cs := c.length + 3
     (if c'.length = cs + 2 ∧ c'[cs]? = some F_SKIP then
        match c'[cs + 1]? with
        | some n => Res.ok (c'.take (cs - 3) ++ [F_SKIP, wmul n d])
        | none => .ub
      else .ok (c' ++ [F_END])) : Res (List Nat)) = .ok (pre ++ (wrap p d es b).enc) := by
  subst hc
  simp only
  have hcs : (pre ++ p.enc ++ [F_ARRAY, d, es]).length = (pre ++ p.enc).length + 3 := by
    simp only [List.length_append, List.length_cons, List.length_nil]
  have hget : ∀ i, (pre ++ p.enc ++ [F_ARRAY, d, es] ++ b.enc)[(pre ++ p.enc).length + 3 + i]? = b.enc[i]? := by
    intro i
    rw [List.getElem?_append_right (by omega)]
    congr 1; omega
  by_cases hs : ∃ n, b = .skip .nil n
  · obtain ⟨n, rfl⟩ := hs
    rw [if_pos ⟨by simp [Ops.enc]; omega, by have := hget 0; simp [Ops.enc] at this ⊢; exact this⟩]
    rw [hget 1]
    simp only [Ops.adv, Nat.zero_add] at hlt
    simp only [Ops.enc, List.nil_append, List.getElem?_cons_succ, List.getElem?_cons_zero, wrap]
    rw [show (pre ++ p.enc).length + 3 - 3 = (pre ++ p.enc).length by omega,
      wmul_eq (by rw [Nat.mul_comm]; exact hlt)]
    congr 1
    rw [List.append_assoc (pre ++ p.enc), List.take_left' rfl, List.append_assoc]
  · rw [if_neg]
    · have hw : wrap p d es b = .arr p d es b := by
        unfold wrap
        split
        · exact absurd ⟨_, rfl⟩ hs
        · rfl
      rw [hw]
      simp [Ops.enc]
    · rintro ⟨h1, h2⟩
      have h0 := hget 0
      rw [Nat.add_zero] at h0
      rw [h0] at h2
      exact hs (single_skip hb (by rw [List.length_append, hcs] at h1; omega) h2)

theorem mulAt_wrap (p b : Ops) (pre : List Nat) (k d es : Nat) (h : k * d * b.adv < W) (hk : k * d < W) :
    mulAt (pre ++ (wrap p k es b).enc) ((pre ++ p.enc).length + 1) d = .ok (pre ++ (wrap p (k * d) es b).enc) := by
  have key : ∀ (w v : Nat) (r : List Nat), v * d < W →
      mulAt ((pre ++ p.enc) ++ w :: v :: r) ((pre ++ p.enc).length + 1) d
        = .ok ((pre ++ p.enc) ++ w :: (v * d) :: r) := by
    intro w v r hv
    unfold mulAt
    rw [List.getElem?_append_right (by omega)]
    rw [show (pre ++ p.enc).length + 1 - (pre ++ p.enc).length = 1 by omega]
    simp only [List.getElem?_cons_succ, List.getElem?_cons_zero]
    rw [wmul_eq hv, List.set_append_right _ _ (by omega),
      show (pre ++ p.enc).length + 1 - (pre ++ p.enc).length = 1 by omega]
    rfl
  by_cases hs : ∃ n, b = .skip .nil n
  · obtain ⟨n, rfl⟩ := hs
    simp only [Ops.adv, Nat.zero_add] at h
    simp only [wrap, Ops.enc]
    rw [← List.append_assoc, key _ _ _ (by rw [Nat.mul_assoc, Nat.mul_comm]; exact h), Nat.mul_assoc, List.append_assoc]
  · have hw : ∀ k, wrap p k es b = .arr p k es b := by
      intro k
      unfold wrap
      split
      · exact absurd ⟨_, rfl⟩ hs
      · rfl
    rw [hw, hw]
    have := key F_ARRAY k (es :: (b.enc ++ [F_END])) hk
    simpa [Ops.enc] using this

mutual
theorem compile_app : ∀ (t : Ty), t.WF → SwapOk t → ∀ x (p : Ops) pre, PreOk pre → p.Ok → p.adv ≤ x →
    x + t.size < LIM → compile x (pre ++ p.enc) t = .ok (pre ++ (app x p t).enc) ∧ (app x p t).Ok
  | .num n, _, h, x, p, pre, hpre, hp, hx, hl => by
    have hl' : x + n < 2147483648 := hl
    simp only [SwapOk] at h
    rcases h with rfl | rfl | rfl | rfl
    · simp only [compile, app, if_true]
      exact ⟨by rw [skipW_enc pre hpre p hp 1 (by simp only [LIM]; omega)],
        skipO_ok p hp 1 (by simp only [LIM]; omega)⟩
    · rw [show compile x (pre ++ p.enc) (.num 2) = .ok (pre ++ p.enc ++ [wadd x 1, x]) by simp [compile],
        wadd_eq (by unfold W; omega)]
      refine ⟨by simp [app, Ops.enc], ?_⟩
      simp only [Ty.size] at hl
      simp only [app, Ops.Ok, LIM]
      simp
      exact ⟨⟨hp, by omega⟩, by omega⟩
    · exact ⟨by simp [compile, app, Ops.enc], by simpa [app, Ops.Ok] using hp⟩
    · exact ⟨by simp [compile, app, Ops.enc], by simpa [app, Ops.Ok] using hp⟩
  | .enum n vs, _, h, x, p, pre, hpre, hp, hx, hl => by
    simp only [SwapOk] at h
    subst h
    have hl' : x + 4 < 2147483648 := hl
    simp only [compile, app]
    rw [wadd_eq (by unfold W; omega), wadd_eq (by unfold W; omega), wadd_eq (by unfold W; omega),
      wadd_eq (by unfold W; omega)]
    refine ⟨by simp [Ops.enc], ?_⟩
    simp only [Ops.Ok, LIM]
    exact ⟨⟨⟨⟨hp, by omega⟩, by omega⟩, by omega⟩, by omega⟩
  | .arr d e, hw, h, x, p, pre, hpre, hp, hx, hl => by
    obtain ⟨t1, t2, t3, t4, t5, t6, t7⟩ := total_inner (.arr d e) rfl hw h
    simp only [SwapOk] at h
    have hsz := arr_size hw
    have hl' : x + (Ty.arr d e).size < 2147483648 := hl
    have hle : e.size ≤ d * e.size := Nat.le_mul_of_pos_left _ hw.1
    have hld : d ≤ d * e.size := Nat.le_mul_of_pos_right _ hw.2.1
    have hil : (inner (.arr d e)).size ≤ total (.arr d e) * (inner (.arr d e)).size := Nat.le_mul_of_pos_left _ t3
    have htl : total (.arr d e) ≤ total (.arr d e) * (inner (.arr d e)).size := Nat.le_mul_of_pos_right _ t4
    have hbadv := app_adv (inner (.arr d e)) t5 t6 x .nil
    rw [t2] at hbadv
    simp only [Ops.adv, Nat.zero_add] at hbadv
    by_cases he : isArr e = true
    · obtain ⟨ih1, ih2⟩ := compile_app e hw.2.2.2 h.2 x p pre hpre hp hx (by simp only [LIM]; omega)
      have hform := app_arr e he x p
      have e1 : inner (.arr d e) = inner e := by simp [inner, he]
      have e2 : total (.arr d e) = total e * d := by simp [total, he]
      simp only [e1, e2] at t1 t2 t3 t4 t5 t6 hil htl hbadv
      obtain ⟨u1, u2, u3, u4, u5, u6, u7⟩ := total_inner e he hw.2.2.2 h.2
      rw [hform] at ih1 ih2
      simp only [compile, app, he, if_true]
      rw [ih1, hform, scale_wrap]
      simp only [Res.bind_ok]
      have hlt : total e * d * (app x .nil (inner e)).adv < 2147483648 := by rw [hbadv]; omega
      refine ⟨mulAt_wrap p _ pre _ d _ (by unfold W; omega) (by unfold W; omega), ?_⟩
      exact wrap_ok hp (wrap_ok_inv ih2 u3) t3 (by simp only [LIM]; omega) (by simp only [LIM]; omega)
        (by simp only [LIM]; omega)
    · have e1 : inner (.arr d e) = e := by simp [inner, he]
      have e2 : total (.arr d e) = d := by simp [total, he]
      simp only [e1, e2] at t1 t2 t3 t4 t5 t6 hil htl hbadv
      obtain ⟨ih1, ih2⟩ := compile_app e hw.2.2.2 h.2 x .nil (pre ++ p.enc ++ [F_ARRAY, d, e.size])
        (preOk_arr _ _ _ (by simp only [LIM]; omega) (by simp only [LIM]; omega)) trivial (by simp [Ops.adv])
        (by simp only [LIM]; omega)
      simp only [Ops.enc, List.append_nil] at ih1
      simp only [compile, app, he, Bool.false_eq_true, if_false]
      rw [ih1]
      simp only [Res.bind_ok]
      have hlt : d * (app x .nil e).adv < 2147483648 := by rw [hbadv]; omega
      refine ⟨compile_wrap (pre ++ p.enc) p _ d e.size pre rfl ih2 (by unfold W; omega), ?_⟩
      exact wrap_ok hp ih2 hw.1 (by simp only [LIM]; omega) (by simp only [LIM]; omega) (by simp only [LIM]; omega)
  | .comp n fs, hw, h, x, p, pre, hpre, hp, hx, hl => by
    simp only [compile, app]
    exact compileF_app fs 0 n hw.2 h x p pre hpre hp (by omega) (by simpa [Ty.size] using hl)
  | .vec _ _, _, h, _, _, _, _, _, _, _ => by cases h
  | .str _, _, h, _, _, _, _, _, _, _ => by cases h
  | .ptr _, _, h, _, _, _, _, _, _, _ => by cases h
  | .opaq _, _, h, _, _, _, _, _, _, _ => by cases h
theorem compileF_app : ∀ (fs : Fields) (cur n : Nat), fs.WF cur n → SwapOkF fs → ∀ base (p : Ops) pre, PreOk pre →
    p.Ok → p.adv ≤ base + cur → base + n < LIM →
    compileF base (base + cur) (pre ++ p.enc) fs = .ok (pre ++ (appF base (base + cur) p fs).enc) ∧
      (appF base (base + cur) p fs).Ok
  | .nil, cur, n, _, _, base, p, pre, _, hp, _, _ => by simp [compileF, appF, hp]
  | .cons off t r, cur, n, hw, h, base, p, pre, hpre, hp, hx, hl => by
    have hl' : base + n < 2147483648 := hl
    have hoff : cur ≤ off := hw.1
    have hend := fieldsWF_le r hw.2.2
    simp only [compileF, appF]
    rw [wadd_eq (by unfold W; omega), if_neg (by omega), wsub_eq (by omega) (by unfold W; omega)]
    have hsk : (if base + off > base + cur then skipW (pre ++ p.enc) (base + off - (base + cur)) else pre ++ p.enc)
        = pre ++ (if base + off > base + cur then skipO p (base + off - (base + cur)) else p).enc := by
      by_cases hg : base + off > base + cur
      · rw [if_pos hg, if_pos hg, skipW_enc pre hpre p hp _ (by simp only [LIM]; omega)]
      · rw [if_neg hg, if_neg hg]
    have hok : (if base + off > base + cur then skipO p (base + off - (base + cur)) else p).Ok := by
      by_cases hg : base + off > base + cur
      · rw [if_pos hg]; exact skipO_ok p hp _ (by simp only [LIM]; omega)
      · rw [if_neg hg]; exact hp
    have hadv : (if base + off > base + cur then skipO p (base + off - (base + cur)) else p).adv ≤ base + off := by
      by_cases hg : base + off > base + cur
      · rw [if_pos hg, skipO_adv]; omega
      · rw [if_neg hg]; omega
    rw [hsk]
    generalize (if base + off > base + cur then skipO p (base + off - (base + cur)) else p) = q at *
    obtain ⟨ih1, ih2⟩ := compile_app t hw.2.1 h.1 (base + off) q pre hpre hok hadv (by simp only [LIM]; omega)
    rw [ih1]
    simp only [Res.bind_ok]
    rw [wadd_eq (by unfold W; omega)]
    have ha := app_adv t hw.2.1 h.1 (base + off) q
    have hat := advT_le t hw.2.1 h.1
    rw [Nat.add_assoc base off]
    exact compileF_app r (off + t.size) n hw.2.2 h.2.2 base _ pre hpre ih2 (by omega) hl
end

end Verif.Endian
