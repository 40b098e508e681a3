import Verif.LayoutTree

/-! The flat bytecode functions compute what the tree functions say. -/

namespace Verif.Layout
open Verif

theorem enc_length_cases (b : L) :
    (b = .nil) ∨ (∃ op m, single b = some (op, m) ∧ b.enc = [.n op, .n m]) ∨
    (single b = none ∧ 2 < b.enc.length) := by
  cases b with
  | nil => exact Or.inl rfl
  | mc n k =>
    right
    cases k <;> simp [single, L.enc]
  | sk n k =>
    right
    cases k <;> simp [single, L.enc]
  | ar n b k => right; right; simp [single, L.enc]; omega
  | co n b k => right; right; simp [single, L.enc]; omega

theorem enc_flush (op c : Nat) (hop : op = 0 ∨ op = 3) (k : L) (out : List Word) :
    out ++ (flush op c k).enc = (if c ≠ 0 then gop out op c else out) ++ k.enc := by
  unfold flush one gop
  split
  · rcases hop with rfl | rfl <;> simp [L.enc]
  · rfl

theorem simp_enc (merge rem : Bool) (l : L) : l.Ok → ∀ (f depth op c skc : Nat) (out rest : List Word)
    (mode : Option Bool),
    ((mode = none ∧ ∃ r, rest = .n 4 :: r) ∨ (mode = some rem ∧ rest = [] ∧ depth = 0)) →
    (op = 0 ∨ op = 3) → c + l.expand.length < W → skc + l.expand.length < W → l.enc.length < f →
    simp merge rem f (l.enc ++ rest) depth op c skc out = .ok (rest, out ++ (sT merge l mode op c skc).enc) := by
  induction l with
  | nil =>
    intro _ f depth op c skc out rest mode hmode hop hc hs hf
    cases f with
    | zero => simp at hf
    | succ f =>
      rcases hmode with ⟨rfl, r, rfl⟩ | ⟨rfl, rfl, rfl⟩
      · simp only [L.enc, List.nil_append, simp, if_true, sT, fin]
        rw [enc_flush _ _ hop]
        simp [L.enc]
      · simp only [L.enc, List.nil_append, simp, sT, fin]
        by_cases h0 : c = 0
        · simp [h0, L.enc]
        · simp only [ne_eq, h0, not_false_eq_true, if_true]
          rcases hop with rfl | rfl
          · simp [gop, one, L.enc]
          · cases rem <;> simp [gop, one, L.enc]
  | mc n k ih =>
    intro hok f depth op c skc out rest mode hmode hop hc hs hf
    cases f with
    | zero => simp at hf
    | succ f =>
      simp only [L.expand, List.length_append, List.length_replicate] at hc hs
      have hf' : k.enc.length < f := by simp [L.enc] at hf; omega
      have ih := ih hok f depth
      simp only [L.enc, List.cons_append, simp, show ¬ (0 : Nat) = 4 by decide, show ¬ (0 : Nat) = 1 by decide,
        show ¬ (0 : Nat) = 2 by decide, show ¬ (0 : Nat) = 3 by decide, if_false, sT]
      have hw : wadd c n = c + n := wadd_eq (by omega)
      by_cases h0 : op = 0
      · subst h0
        simp only [if_true, hw]
        exact ih 0 _ _ _ _ _ hmode (Or.inl rfl) (by omega) (by omega) hf'
      · simp only [show ¬ (0 : Nat) = op from fun h => h0 h.symm, h0, if_false]
        cases merge with
        | true =>
          simp only [if_true, hw]
          exact ih 0 _ _ _ _ _ hmode (Or.inl rfl) (by omega) (by omega) hf'
        | false =>
          simp only [Bool.false_eq_true, if_false]
          rw [enc_flush _ _ hop]
          exact ih 0 _ _ _ _ _ hmode (Or.inl rfl) (by omega) (by omega) hf'
  | sk n k ih =>
    intro hok f depth op c skc out rest mode hmode hop hc hs hf
    cases f with
    | zero => simp at hf
    | succ f =>
      simp only [L.expand, List.length_append, List.length_replicate] at hc hs
      have hf' : k.enc.length < f := by simp [L.enc] at hf; omega
      have ih := ih hok f depth
      simp only [L.enc, List.cons_append, simp, show ¬ (3 : Nat) = 4 by decide, show ¬ (3 : Nat) = 1 by decide,
        show ¬ (3 : Nat) = 2 by decide, if_true, if_false, sT]
      have hw : wadd c n = c + n := wadd_eq (by omega)
      have hw2 : wadd skc n = skc + n := wadd_eq (by omega)
      by_cases h0 : op = 3
      · subst h0
        simp only [if_true, hw, hw2]
        exact ih 3 _ _ _ _ _ hmode (Or.inr rfl) (by omega) (by omega) hf'
      · simp only [show ¬ (3 : Nat) = op from fun h => h0 h.symm, h0, if_false, hw2]
        cases merge with
        | true =>
          simp only [if_true, hw]
          exact ih 0 _ _ _ _ _ hmode (Or.inl rfl) (by omega) (by omega) hf'
        | false =>
          simp only [Bool.false_eq_true, if_false]
          rw [enc_flush _ _ hop]
          exact ih 3 _ _ _ _ _ hmode (Or.inr rfl) (by omega) (by omega) hf'
  | ar n b k ihb ihk =>
    intro hok f depth op c skc out rest mode hmode hop hc hs hf
    cases f with
    | zero => simp at hf
    | succ f =>
      obtain ⟨hn, hbne, hokb, hokk⟩ := hok
      simp only [L.expand, List.length_append, rep_length] at hc hs
      have hf' : b.enc.length < f ∧ k.enc.length < f := by simp [L.enc] at hf; omega
      have hbl : b.expand.length ≤ n * b.expand.length := Nat.le_mul_of_pos_left _ hn
      have e : (L.ar n b k).enc ++ rest = .n 1 :: .n n :: (b.enc ++ .n 4 :: (k.enc ++ rest)) := by simp [L.enc]
      rw [e]
      simp only [simp, show ¬ (1 : Nat) = 4 by decide, if_true, if_false]
      generalize hout1 : (if c ≠ 0 then gop out op c else out) = out1
      rw [ihb hokb f (depth + 1) 0 0 0 (gop out1 1 n) (.n 4 :: (k.enc ++ rest)) none (Or.inl ⟨rfl, _, rfl⟩) (Or.inl rfl)
        (by omega) (by omega) hf'.1]
      simp only []
      have hlen : (gop out1 1 n ++ (sT merge b none 0 0 0).enc).length - (gop out1 1 n).length
          = (sT merge b none 0 0 0).enc.length := by simp
      rw [hlen]
      have hexp := expand_sT_block merge b 0 0 0 (Or.inl rfl) (by simp)
      simp only [List.replicate_zero, List.nil_append] at hexp
      rcases enc_length_cases (sT merge b none 0 0 0) with h | ⟨op', m, hsin, henc⟩ | ⟨hsin, hgt⟩
      · exfalso
        rw [h] at hexp
        simp [L.expand] at hexp
        exact hbne hexp
      · obtain ⟨h1, h2, h3⟩ := expand_single hsin
        have hm : b.expand.length = m := by
          have h4 := congrArg List.length hexp
          rw [h1] at h4
          simpa using h4.symm
        rw [hm] at hc hs hbl
        have hmn : wmul m n = m * n := by
          have : m * n = n * m := Nat.mul_comm _ _
          exact wmul_eq (by omega)
        rw [henc]
        simp only [List.length_cons, List.length_nil, Nat.zero_add, Nat.reduceAdd, if_true, List.drop_left, hmn]
        have hr2 : resizeOps (gop out1 1 n ++ [.n op', .n m]) (gop out1 1 n).length 2 = .ok out1 := by
          unfold resizeOps gop
          rw [if_neg (by simp)]
          congr 1
          simp
        have hcomm : m * n = n * m := Nat.mul_comm _ _
        simp only [sT, hsin]
        by_cases hcond : op' = op ∧ c ≠ 0
        · rw [if_pos hcond, if_pos hcond]
          have hr4 : resizeOps (gop out1 1 n ++ [.n op', .n m]) (gop out1 1 n).length 4 = .ok out := by
            rw [if_pos hcond.2] at hout1
            unfold resizeOps gop
            rw [← hout1]
            unfold gop
            rw [if_neg (by simp)]
            congr 1
            simp
          rw [hr4]
          simp only [Res.bind_ok]
          rw [wadd_eq (by omega)]
          exact ihk hokk f depth op (c + m * n) 0 out rest mode hmode hop (by omega) (by omega) hf'.2
        · rw [if_neg hcond, if_neg hcond, hr2]
          simp only [Res.bind_ok]
          rw [enc_flush _ _ hop, hout1]
          exact ihk hokk f depth op' (m * n) 0 out1 rest mode hmode h2 (by omega) (by omega) hf'.2
      · rw [if_neg (by omega), if_neg (by omega)]
        simp only [sT, hsin]
        rw [enc_flush _ _ hop, hout1]
        rw [ihk hokk f depth op 0 0 _ rest mode hmode hop (by omega) (by omega) hf'.2]
        simp [gop, L.enc]
  | co ct b k ihb ihk =>
    intro hok f depth op c skc out rest mode hmode hop hc hs hf
    cases f with
    | zero => simp at hf
    | succ f =>
      obtain ⟨hbW, hokb, hokk⟩ := hok
      simp only [L.expand, List.length_cons] at hc hs
      have hf' : b.enc.length < f ∧ k.enc.length < f := by simp [L.enc] at hf; omega
      have e : (L.co ct b k).enc ++ rest = .n 2 :: .p ct :: (b.enc ++ .n 4 :: (k.enc ++ rest)) := by simp [L.enc]
      rw [e]
      simp only [simp, show ¬ (2 : Nat) = 4 by decide, show ¬ (2 : Nat) = 1 by decide, if_true, if_false]
      generalize hout1 : (if c ≠ 0 then gop out op c else out) = out1
      rw [ihb hokb f (depth + 1) 0 0 0 _ (.n 4 :: (k.enc ++ rest)) none (Or.inl ⟨rfl, _, rfl⟩) (Or.inl rfl)
        (by omega) (by omega) hf'.1]
      simp only [sT]
      rw [enc_flush _ _ hop, hout1]
      rw [ihk hokk f depth op 0 0 _ rest mode hmode hop (by omega) (by omega) hf'.2]
      simp [L.enc]

/-! ### raw layout -/

mutual
/-- tree of the raw layout of a type -/
def rawL : Ty → L
  | .num n => .mc n .nil
  | .enum n _ => .mc n .nil
  | .arr d e => .ar d (rawL e) .nil
  | .vec c e => .co (.vec c e) (rawL e) .nil
  | .str c => .co (.str c) (.mc 1 .nil) .nil
  | .comp n fs => rawLF 0 n fs
  | .ptr n => .mc n .nil
  | .opaq n => .sk n .nil
def rawLF (cur n : Nat) : Fields → L
  | .nil => .sk (wsub n cur) .nil
  | .cons off t r => .sk (wsub off cur) ((rawL t).app (rawLF (wadd off t.size) n r))
end

/-- tree of initialisation operations -/
inductive LI where
  | nil
  | ini (d : List UInt8) (k : LI)
  | sk (n : Nat) (k : LI)
  | re (n : Nat) (b k : LI)
  | co (c : Ty) (k : LI)

namespace LI
def enc : LI → List Word
  | .nil => []
  | .ini d k => .n 0 :: .n d.length :: (d.map (fun b => Word.n b.toNat) ++ enc k)
  | .sk n k => .n 3 :: .n n :: enc k
  | .re n b k => .n 1 :: .n n :: (enc b ++ .n 4 :: enc k)
  | .co c k => .n 2 :: .p c :: enc k
def app : LI → LI → LI
  | .nil, m => m
  | .ini d k, m => .ini d (app k m)
  | .sk n k, m => .sk n (app k m)
  | .re n b k, m => .re n b (app k m)
  | .co c k, m => .co c (app k m)
@[simp] theorem enc_app (a b : LI) : (a.app b).enc = a.enc ++ b.enc := by
  induction a <;> simp [app, enc, *]
end LI

/-- initialisation of a scalar: data if there is some, else nothing -/
def iniOr (n : Nat) (d : List UInt8) : LI := if d.isEmpty then .sk n .nil else .ini d .nil

mutual
def rawI : Ty → LI
  | .num n => .sk n .nil
  | .enum n vs => iniOr n (enumInit n vs)
  | .arr d e => .re d (rawI e) .nil
  | .vec c e => .co (.vec c e) .nil
  | .str c => .co (.str c) .nil
  | .comp n fs => rawIF 0 n fs
  | .ptr n => .sk n .nil
  | .opaq n => .sk n .nil
def rawIF (cur n : Nat) : Fields → LI
  | .nil => .sk (wsub n cur) .nil
  | .cons off t r => .sk (wsub off cur) ((rawI t).app (rawIF (wadd off t.size) n r))
end

theorem leBytes_length (k v : Nat) : (leBytes k v).length = k := by
  induction k generalizing v with
  | zero => rfl
  | succ k ih => simp [leBytes, ih]

theorem enumInit_length (n : Nat) (vs : List Int) : enumInit n vs = [] ∨ (enumInit n vs).length = n := by
  cases vs with
  | nil => exact Or.inl rfl
  | cons v vs => right; simp [enumInit, leBytes_length]

theorem pushMemcpy_enum (l : ML) (n : Nat) (vs : List Int) :
    pushMemcpy l n (enumInit n vs) =
      .ok ⟨l.ops ++ (L.mc n .nil).enc, l.init ++ (iniOr n (enumInit n vs)).enc⟩ := by
  unfold pushMemcpy iniOr
  rcases enumInit_length n vs with h | h
  · simp [h, L.enc, LI.enc]
  · by_cases he : (enumInit n vs).isEmpty = true
    · simp [he, L.enc, LI.enc]
    · simp [he, h, L.enc, LI.enc]

mutual
theorem visit_raw (ap ao : Bool) : ∀ (t : Ty) (l : ML), t.HasLayout ap ao →
    visit ap ao l t = .ok ⟨l.ops ++ (rawL t).enc, l.init ++ (rawI t).enc⟩
  | .num n, l, _ => by simp [visit, pushMemcpy, rawL, rawI, L.enc, LI.enc]
  | .enum n vs, l, h => by
    have h : n ≤ 8 := h
    simp only [visit, rawL, rawI]
    rw [if_neg (by omega), pushMemcpy_enum]
  | .arr d e, l, h => by
    simp only [visit, rawL, rawI]
    rw [visit_raw false false e ⟨[], []⟩ h]
    simp [pushArray, L.enc, LI.enc]
  | .vec c e, l, h => by
    simp only [visit, rawL, rawI]
    rw [visit_raw false false e ⟨[], []⟩ h]
    simp [pushContainer, L.enc, LI.enc]
  | .str c, l, _ => by
    simp [visit, rawL, rawI, pushMemcpy, pushContainer, L.enc, LI.enc]
  | .comp n fs, l, h => by
    simp only [visit, rawL, rawI]
    obtain ⟨l', cur', h1, h2, h3⟩ := visitFields_raw ap ao fs l 0 n h
    rw [h1]
    simp only [Res.bind_ok, pushSkip]
    rw [← h2, ← h3]
  | .ptr n, l, h => by
    have h : ap = true := h
    simp [visit, h, pushMemcpy, rawL, rawI, L.enc, LI.enc]
  | .opaq n, l, h => by
    have h : ao = true := h
    simp [visit, h, pushSkip, rawL, rawI, L.enc, LI.enc]
theorem visitFields_raw (ap ao : Bool) : ∀ (fs : Fields) (l : ML) (cur n : Nat), fs.HasLayout ap ao →
    ∃ l' cur', visitFields ap ao l cur fs = .ok (l', cur') ∧
      l'.ops ++ [.n 3, .n (wsub n cur')] = l.ops ++ (rawLF cur n fs).enc ∧
      l'.init ++ [.n 3, .n (wsub n cur')] = l.init ++ (rawIF cur n fs).enc
  | .nil, l, cur, n, _ => ⟨l, cur, by simp [visitFields], by simp [rawLF, L.enc], by simp [rawIF, LI.enc]⟩
  | .cons off t r, l, cur, n, h => by
    obtain ⟨l', cur', h1, h2, h3⟩ := visitFields_raw ap ao r
      ⟨(pushSkip l (wsub off cur)).ops ++ (rawL t).enc, (pushSkip l (wsub off cur)).init ++ (rawI t).enc⟩
      (wadd off t.size) n h.2
    refine ⟨l', cur', ?_, ?_, ?_⟩
    · simp only [visitFields]
      rw [visit_raw ap ao t _ h.1]
      simp only [Res.bind_ok]
      exact h1
    · rw [h2]; simp [pushSkip, rawLF, L.enc]
    · rw [h3]; simp [pushSkip, rawIF, LI.enc]
end

/-! ### sizes and well-formedness of the raw tree -/

theorem itemsSize_append (a b : List Item) : itemsSize (a ++ b) = itemsSize a + itemsSize b := by
  simp [itemsSize]
theorem itemsSize_replicate (n : Nat) (i : Item) (h : i.size = 1) : itemsSize (List.replicate n i) = n := by
  simp [itemsSize, h]
theorem itemsSize_rep (n : Nat) (l : List Item) : itemsSize (rep n l) = n * itemsSize l := by
  induction n with
  | zero => simp [itemsSize]
  | succ n ih => rw [rep_succ, itemsSize_append, ih, Nat.succ_mul]; omega

theorem wf_size_lt {t : Ty} (h : t.WF) : t.size < W := by
  cases t with
  | num n => exact h
  | enum n _ => exact h
  | arr d e => exact Nat.mod_lt _ (by unfold W; omega)
  | vec c e => exact h.2.1
  | str c => exact h.2
  | comp n fs => exact h.1
  | ptr n => exact h
  | opaq n => exact h

theorem arr_size {d : Nat} {e : Ty} (h : (Ty.arr d e).WF) : (Ty.arr d e).size = d * e.size :=
  wmul_eq h.2.2.1

mutual
theorem kinds_size : ∀ t : Ty, t.WF → itemsSize (kinds t) = t.size
  | .num n, _ => by simp only [kinds, Ty.size]; exact itemsSize_replicate _ _ rfl
  | .enum n _, _ => by simp only [kinds, Ty.size]; exact itemsSize_replicate _ _ rfl
  | .arr d e, h => by
    rw [arr_size h, kinds, itemsSize_rep, kinds_size e h.2.2.2]
  | .vec c e, _ => by simp [kinds, itemsSize, Item.size, Ty.size]
  | .str c, _ => by simp [kinds, itemsSize, Item.size, Ty.size]
  | .comp n fs, h => by
    have := kindsF_size fs 0 n h.2
    simp only [kinds, Ty.size]; omega
  | .ptr n, _ => by simp only [kinds, Ty.size]; exact itemsSize_replicate _ _ rfl
  | .opaq n, _ => by simp only [kinds, Ty.size]; exact itemsSize_replicate _ _ rfl
theorem kindsF_size : ∀ (fs : Fields) (cur n : Nat), fs.WF cur n → cur + itemsSize (kindsF cur n fs) = n
  | .nil, cur, n, h => by
    have h : cur ≤ n := h
    simp only [kindsF]; rw [itemsSize_replicate _ _ rfl]; omega
  | .cons off t r, cur, n, h => by
    obtain ⟨h1, h2, h3⟩ := h
    have e1 := kinds_size t h2
    have e2 := kindsF_size r _ n h3
    simp only [kindsF, itemsSize_append]
    rw [itemsSize_replicate _ _ rfl]
    omega
end

mutual
/-- every item occupies at least one byte -/
theorem kinds_pos : ∀ t : Ty, t.WF → ∀ i ∈ kinds t, 0 < i.size
  | .num n, _ => by simp [kinds, Item.size]
  | .enum n _, _ => by simp [kinds, Item.size]
  | .arr d e, h => by
    intro i hi
    have : ∀ n, i ∈ rep n (kinds e) → 0 < i.size := by
      intro n
      induction n with
      | zero => simp
      | succ n ih =>
        intro h'
        rw [rep_succ, List.mem_append] at h'
        rcases h' with h' | h'
        · exact kinds_pos e h.2.2.2 i h'
        · exact ih h'
    exact this d hi
  | .vec c e, h => by simpa [kinds, Item.size, Ty.size] using h.1
  | .str c, h => by simpa [kinds, Item.size, Ty.size] using h.1
  | .comp n fs, h => by simp only [kinds]; exact kindsF_pos fs 0 n h.2
  | .ptr n, _ => by simp [kinds, Item.size]
  | .opaq n, _ => by simp [kinds, Item.size]
theorem kindsF_pos : ∀ (fs : Fields) (cur n : Nat), fs.WF cur n → ∀ i ∈ kindsF cur n fs, 0 < i.size
  | .nil, cur, n, _ => by simp [kindsF, Item.size]
  | .cons off t r, cur, n, h => by
    intro i hi
    simp only [kindsF, List.mem_append] at hi
    rcases hi with (hi | hi) | hi
    · rw [List.mem_replicate] at hi; rw [hi.2]; exact Nat.one_pos
    · exact kinds_pos t h.2.1 i hi
    · exact kindsF_pos r _ n h.2.2 i hi
end

theorem length_le_itemsSize (l : List Item) (h : ∀ i ∈ l, 0 < i.size) : l.length ≤ itemsSize l := by
  induction l with
  | nil => simp
  | cons a l ih =>
    have h1 := h a (by simp)
    have h2 := ih (fun i hi => h i (by simp [hi]))
    simp only [itemsSize, List.map_cons, List.sum_cons, List.length_cons] at h2 ⊢
    omega

theorem kinds_length_le (t : Ty) (h : t.WF) : (kinds t).length ≤ t.size := by
  have := length_le_itemsSize _ (kinds_pos t h)
  rw [kinds_size t h] at this; exact this

theorem kinds_ne_nil (t : Ty) (h : t.WF) (hs : 0 < t.size) : kinds t ≠ [] := by
  intro h0
  have := kinds_size t h
  rw [h0] at this
  simp [itemsSize] at this; omega

mutual
/-- the raw layout describes exactly the bytes of the type -/
theorem expand_raw : ∀ t : Ty, t.WF → (rawL t).expand = kinds t
  | .num n, _ => by simp [rawL, L.expand, kinds]
  | .enum n _, _ => by simp [rawL, L.expand, kinds]
  | .arr d e, h => by simp [rawL, L.expand, kinds, expand_raw e h.2.2.2]
  | .vec c e, _ => by simp [rawL, L.expand, kinds]
  | .str c, _ => by simp [rawL, L.expand, kinds]
  | .comp n fs, h => by
    simp only [rawL, kinds]
    exact expand_rawF fs 0 n h.2 h.1
  | .ptr n, _ => by simp [rawL, L.expand, kinds]
  | .opaq n, _ => by simp [rawL, L.expand, kinds]
theorem expand_rawF : ∀ (fs : Fields) (cur n : Nat), fs.WF cur n → n < W →
    (rawLF cur n fs).expand = kindsF cur n fs
  | .nil, cur, n, h, hn => by
    have h : cur ≤ n := h
    simp [rawLF, L.expand, kindsF, wsub_eq h hn]
  | .cons off t r, cur, n, h, hn => by
    obtain ⟨h1, h2, h3⟩ := h
    have e2 := kindsF_size r _ n h3
    simp only [rawLF, L.expand, L.expand_app, kindsF]
    rw [wsub_eq h1 (by omega), wadd_eq (by omega), expand_raw t h2, expand_rawF r _ n h3 hn]
    simp
end

mutual
theorem raw_ok : ∀ t : Ty, t.WF → (rawL t).Ok
  | .num n, _ => trivial
  | .enum n _, _ => trivial
  | .arr d e, h => by
    refine ⟨h.1, ?_, raw_ok e h.2.2.2, trivial⟩
    rw [expand_raw e h.2.2.2]; exact kinds_ne_nil e h.2.2.2 h.2.1
  | .vec c e, h => by
    refine ⟨?_, raw_ok e h.2.2.2, trivial⟩
    rw [expand_raw e h.2.2.2]
    have := kinds_length_le e h.2.2.2
    have := wf_size_lt h.2.2.2
    omega
  | .str c, _ => by
    refine ⟨?_, trivial, trivial⟩
    simp [L.expand, W]
  | .comp n fs, h => by simp only [rawL]; exact raw_okF fs 0 n h.2 h.1
  | .ptr n, _ => trivial
  | .opaq n, _ => trivial
theorem raw_okF : ∀ (fs : Fields) (cur n : Nat), fs.WF cur n → n < W → (rawLF cur n fs).Ok
  | .nil, _, _, _, _ => trivial
  | .cons off t r, cur, n, h, hn => by
    have e2 := kindsF_size r _ n h.2.2
    simp only [rawLF, L.Ok, L.ok_app]
    rw [wadd_eq (by omega)]
    exact ⟨raw_ok t h.2.1, raw_okF r _ n h.2.2 hn⟩
end

mutual
theorem raw_good : ∀ t : Ty, t.WF → (rawL t).Good false
  | .num n, _ => trivial
  | .enum n _, _ => trivial
  | .arr d e, h => ⟨raw_good e h.2.2.2, trivial⟩
  | .vec c e, h => by
    refine ⟨?_, raw_good e h.2.2.2, trivial⟩
    simp [elemKinds, expand_raw e h.2.2.2]
  | .str c, _ => by
    refine ⟨?_, trivial, trivial⟩
    simp [elemKinds, L.expand]
  | .comp n fs, h => by simp only [rawL]; exact raw_goodF fs 0 n h.2 h.1
  | .ptr n, _ => trivial
  | .opaq n, _ => trivial
theorem raw_goodF : ∀ (fs : Fields) (cur n : Nat), fs.WF cur n → n < W → (rawLF cur n fs).Good false
  | .nil, _, _, _, _ => trivial
  | .cons off t r, cur, n, h, hn => by
    have e2 := kindsF_size r _ n h.2.2
    simp only [rawLF, L.Good, L.good_app]
    rw [wadd_eq (by omega)]
    exact ⟨raw_good t h.2.1, raw_goodF r _ n h.2.2 hn⟩
end

/-- the simplified operations of a type -/
def layL (merge rem : Bool) (t : Ty) : L := sT merge (rawL t) (some rem) 0 0 0

theorem simp_raw (merge rem : Bool) (t : Ty) (h : t.WF) :
    simp merge rem ((rawL t).enc.length + 1) (rawL t).enc 0 0 0 0 [] = .ok ([], (layL merge rem t).enc) := by
  have hl : (rawL t).expand.length < W := by
    rw [expand_raw t h]
    have := kinds_length_le t h
    have := wf_size_lt h
    omega
  have := simp_enc merge rem (rawL t) (raw_ok t h) ((rawL t).enc.length + 1) 0 0 0 0 [] [] (some rem)
    (Or.inr ⟨rfl, rfl, rfl⟩) (Or.inl rfl) (by omega) (by omega) (by omega)
  simpa [layL] using this

end Verif.Layout
