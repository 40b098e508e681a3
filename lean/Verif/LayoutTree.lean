import Verif.Layout

/-! Trees behind the bytecode, and the specification vocabulary of layouts: one item per byte. -/

namespace Verif.Layout
open Verif

/-- What one byte of a value is (a container object counts as one item spanning its whole size). -/
inductive Item where
  | data
  | pad
  | cont (c : Ty)

/-- `n` copies of a list, one after the other -/
def rep {α : Type} (n : Nat) (l : List α) : List α := (List.replicate n l).flatten

@[simp] theorem rep_zero {α : Type} (l : List α) : rep 0 l = [] := rfl
theorem rep_succ {α : Type} (n : Nat) (l : List α) : rep (n + 1) l = l ++ rep n l := rfl
@[simp] theorem rep_nil {α : Type} (n : Nat) : rep n ([] : List α) = [] := by
  induction n with
  | zero => rfl
  | succ n ih => rw [rep_succ, ih]; rfl
theorem rep_length {α : Type} (n : Nat) (l : List α) : (rep n l).length = n * l.length := by
  induction n with
  | zero => simp
  | succ n ih => rw [rep_succ, List.length_append, ih, Nat.succ_mul]; omega
theorem rep_map {α β : Type} (f : α → β) (n : Nat) (l : List α) : (rep n l).map f = rep n (l.map f) := by
  induction n with
  | zero => rfl
  | succ n ih => rw [rep_succ, List.map_append, ih]; rfl
theorem rep_replicate {α : Type} (n m : Nat) (a : α) :
    rep n (List.replicate m a) = List.replicate (n * m) a := by
  induction n with
  | zero => simp
  | succ n ih => rw [rep_succ, ih, List.replicate_append_replicate, Nat.succ_mul, Nat.add_comm]
theorem rep_add {α : Type} (n m : Nat) (l : List α) : rep (n + m) l = rep n l ++ rep m l := by
  induction n with
  | zero => simp
  | succ n ih => rw [Nat.succ_add, rep_succ, rep_succ, ih, List.append_assoc]
theorem rep_succ' {α : Type} (n : Nat) (l : List α) : rep (n + 1) l = rep n l ++ l := by
  rw [rep_add]; simp [rep_succ]

theorem replicate_add {α : Type} (n m : Nat) (a : α) :
    List.replicate (n + m) a = List.replicate n a ++ List.replicate m a :=
  List.replicate_append_replicate.symm

mutual
/-- Specification: the bytes of a value of a type, in address order. Scalars, enums and pointers are data; the
elements of an array follow each other; a compound has its fields at their offsets and padding elsewhere;
opaques are opaque (padding). Meaningful for compounds whose fields are sorted and do not overlap. -/
def kinds : Ty → List Item
  | .num n => List.replicate n .data
  | .enum n _ => List.replicate n .data
  | .arr d e => rep d (kinds e)
  | .vec c e => [.cont (.vec c e)]
  | .str c => [.cont (.str c)]
  | .comp n fs => kindsF 0 n fs
  | .ptr n => List.replicate n .data
  | .opaq n => List.replicate n .pad
def kindsF (cur n : Nat) : Fields → List Item
  | .nil => List.replicate (n - cur) .pad
  | .cons off t r => List.replicate (off - cur) .pad ++ kinds t ++ kindsF (off + t.size) n r
end

/-- the bytes of one element of a container -/
def elemKinds : Ty → List Item
  | .vec _ e => kinds e
  | .str _ => [.data]
  | _ => []

/-- size in bytes of an item -/
def Item.size : Item → Nat
  | .data => 1
  | .pad => 1
  | .cont c => c.size

def itemsSize (l : List Item) : Nat := (l.map Item.size).sum

mutual
/-- Well-formed types: fields sorted, not overlapping, inside the compound; no empty arrays; elements of
arrays and containers have a size; sizes fit in a `size_t`. -/
def Ty.WF : Ty → Prop
  | .num n => n < W
  | .enum n _ => n < W
  | .arr d e => 0 < d ∧ 0 < e.size ∧ d * e.size < W ∧ e.WF
  | .vec c e => 0 < c ∧ c < W ∧ 0 < e.size ∧ e.WF
  | .str c => 0 < c ∧ c < W
  | .comp n fs => n < W ∧ fs.WF 0 n
  | .ptr n => n < W
  | .opaq n => n < W
def Fields.WF (cur n : Nat) : Fields → Prop
  | .nil => cur ≤ n
  | .cons off t r => cur ≤ off ∧ t.WF ∧ r.WF (off + t.size) n
end

mutual
/-- Types that have a layout: no pointer (unless accepted), no opaque (unless accepted), enums of at most 8 bytes.
The permissions do not extend to elements of arrays and containers. -/
def Ty.HasLayout (ap ao : Bool) : Ty → Prop
  | .num _ => True
  | .enum n _ => n ≤ 8
  | .arr _ e => e.HasLayout false false
  | .vec _ e => e.HasLayout false false
  | .str _ => True
  | .comp _ fs => fs.HasLayout ap ao
  | .ptr _ => ap = true
  | .opaq _ => ao = true
def Fields.HasLayout (ap ao : Bool) : Fields → Prop
  | .nil => True
  | .cons _ t r => t.HasLayout ap ao ∧ r.HasLayout ap ao
end

/-! ### trees -/

/-- An operation list as a tree (the structure that FLAG_END delimits). -/
inductive L where
  | nil
  | mc (n : Nat) (k : L)
  | sk (n : Nat) (k : L)
  | ar (n : Nat) (b k : L)
  | co (c : Ty) (b k : L)

namespace L

def enc : L → List Word
  | .nil => []
  | .mc n k => .n 0 :: .n n :: enc k
  | .sk n k => .n 3 :: .n n :: enc k
  | .ar n b k => .n 1 :: .n n :: (enc b ++ .n 4 :: enc k)
  | .co c b k => .n 2 :: .p c :: (enc b ++ .n 4 :: enc k)

def app : L → L → L
  | .nil, m => m
  | .mc n k, m => .mc n (app k m)
  | .sk n k, m => .sk n (app k m)
  | .ar n b k, m => .ar n b (app k m)
  | .co c b k, m => .co c b (app k m)

/-- meaning of a layout: one item per byte -/
def expand : L → List Item
  | .nil => []
  | .mc n k => List.replicate n .data ++ expand k
  | .sk n k => List.replicate n .pad ++ expand k
  | .ar n b k => rep n (expand b) ++ expand k
  | .co c _ k => .cont c :: expand k

@[simp] theorem enc_app (a b : L) : (a.app b).enc = a.enc ++ b.enc := by
  induction a <;> simp [app, enc, *]

@[simp] theorem expand_app (a b : L) : (a.app b).expand = a.expand ++ b.expand := by
  induction a <;> simp [app, expand, *]

/-- arrays are not empty, nothing wraps -/
def Ok : L → Prop
  | .nil => True
  | .mc _ k => Ok k
  | .sk _ k => Ok k
  | .ar n b k => 0 < n ∧ b.expand ≠ [] ∧ Ok b ∧ Ok k
  | .co _ b k => b.expand.length < W ∧ Ok b ∧ Ok k

@[simp] theorem ok_app (a b : L) : (a.app b).Ok ↔ a.Ok ∧ b.Ok := by
  induction a <;> simp [app, Ok, *] <;> grind

/-- no array of dimension 0 (interpreters other than dump and load reject them) -/
def Pos : L → Prop
  | .nil => True
  | .mc _ k => Pos k
  | .sk _ k => Pos k
  | .ar n b k => 0 < n ∧ Pos b ∧ Pos k
  | .co _ b k => Pos b ∧ Pos k

end L

/-- with `merge_skip_copy`, padding is handled like data -/
def mp (merge : Bool) : Item → Item
  | .pad => if merge then .data else .pad
  | i => i

@[simp] theorem mp_false (i : Item) : mp false i = i := by cases i <;> rfl
@[simp] theorem map_mp_false (l : List Item) : l.map (mp false) = l := by
  induction l <;> simp [*]
@[simp] theorem mp_data (m : Bool) : mp m .data = .data := rfl
@[simp] theorem mp_cont (m : Bool) (c : Ty) : mp m (.cont c) = .cont c := rfl
theorem mp_mp (m : Bool) (i : Item) : mp m (mp m i) = mp m i := by cases i <;> cases m <;> rfl

/-- element blocks describe the element type -/
def L.Good (merge : Bool) : L → Prop
  | .nil => True
  | .mc _ k => k.Good merge
  | .sk _ k => k.Good merge
  | .ar _ b k => b.Good merge ∧ k.Good merge
  | .co c b k => b.expand = (elemKinds c).map (mp merge) ∧ b.Good merge ∧ k.Good merge

@[simp] theorem L.good_app (m : Bool) (a b : L) : (a.app b).Good m ↔ a.Good m ∧ b.Good m := by
  induction a <;> simp [app, Good, *] <;> grind

/-! ### simplification on trees -/

def one (op c : Nat) (k : L) : L := if op = 0 then .mc c k else .sk c k
def flush (op c : Nat) (k : L) : L := if c ≠ 0 then one op c k else k

/-- what is emitted at the end: of a block (`none`), of the stream (`some remove_trailing_skips`) -/
def fin : Option Bool → Nat → Nat → Nat → L
  | none, op, c, _ => flush op c .nil
  | some rem, op, c, skc =>
    if c ≠ 0 then (if !rem || op ≠ 3 then one op (wsub c skc) .nil else .nil) else .nil

def single : L → Option (Nat × Nat)
  | .mc m .nil => some (0, m)
  | .sk m .nil => some (3, m)
  | _ => none

/-- `simplify`, on trees -/
def sT (merge : Bool) : L → Option Bool → Nat → Nat → Nat → L
  | .nil, mode, op, c, skc => fin mode op c skc
  | .mc n k, mode, op, c, _ =>
    if op = 0 then sT merge k mode 0 (c + n) 0
    else if merge then sT merge k mode 0 (c + n) 0
    else flush op c (sT merge k mode 0 n 0)
  | .sk n k, mode, op, c, skc =>
    if op = 3 then sT merge k mode 3 (c + n) (skc + n)
    else if merge then sT merge k mode 0 (c + n) (skc + n)
    else flush op c (sT merge k mode 3 n (skc + n))
  | .ar n b k, mode, op, c, _ =>
    match single (sT merge b none 0 0 0) with
    | some (op', m) =>
      if op' = op ∧ c ≠ 0 then sT merge k mode op (c + m * n) 0
      else flush op c (sT merge k mode op' (m * n) 0)
    | none => flush op c (.ar n (sT merge b none 0 0 0) (sT merge k mode op 0 0))
  | .co ct b k, mode, op, c, _ =>
    flush op c (.co ct (sT merge b none 0 0 0) (sT merge k mode op 0 0))

def kd (op : Nat) : Item := if op = 0 then .data else .pad

theorem expand_one (op c : Nat) (k : L) : (one op c k).expand = List.replicate c (kd op) ++ k.expand := by
  unfold one kd; split <;> rfl

theorem expand_flush (op c : Nat) (k : L) : (flush op c k).expand = List.replicate c (kd op) ++ k.expand := by
  unfold flush
  split
  · exact expand_one _ _ _
  · rename_i h; simp at h; simp [h]

theorem expand_single {b : L} {op m : Nat} (h : single b = some (op, m)) :
    b.expand = List.replicate m (kd op) ∧ (op = 0 ∨ op = 3) ∧ b = one op m .nil := by
  unfold single at h
  split at h <;> simp at h
  · obtain ⟨rfl, rfl⟩ := h; simp [L.expand, kd, one]
  · obtain ⟨rfl, rfl⟩ := h; simp [L.expand, kd, one]

theorem kd_mp {merge : Bool} {op : Nat} (h : merge = true → op = 0) : mp merge (kd op) = kd op := by
  unfold kd
  cases merge
  · simp
  · simp [h rfl]

/-- merging never leaves a skip alone in a block -/
theorem single_merge (l : L) : ∀ (op c skc : Nat) (mode : Option Bool), op = 0 →
    ∀ x, single (sT true l mode op c skc) = some (3, x) → False := by
  induction l with
  | nil =>
    intro op c skc mode h0 x hx; subst h0
    cases mode with
    | none => simp only [sT, fin, flush, one] at hx; split at hx <;> simp [single] at hx
    | some r =>
      simp only [sT, fin] at hx
      split at hx
      · split at hx <;> simp [single, one] at hx
      · simp [single] at hx
  | mc n k ih => intro op c skc mode h0 x hx; subst h0; simp only [sT, if_true] at hx; exact ih 0 _ _ _ rfl x hx
  | sk n k ih =>
    intro op c skc mode h0 x hx; subst h0
    simp only [sT, if_true, show ¬ (0 : Nat) = 3 by decide, if_false] at hx
    exact ih 0 _ _ _ rfl x hx
  | ar n b k ihb ihk =>
    intro op c skc mode h0 x hx; subst h0
    simp only [sT] at hx
    split at hx
    · rename_i op' m hs'
      have ho : op' = 0 := by
        rcases (expand_single hs').2.1 with h | h
        · exact h
        · subst h; exact absurd hs' (fun h => ihb 0 0 0 _ rfl _ h)
      subst ho
      split at hx
      · exact ihk 0 _ _ _ rfl x hx
      · unfold flush at hx
        split at hx
        · simp only [one, if_true] at hx
          unfold single at hx
          split at hx <;> simp_all
        · exact ihk 0 _ _ _ rfl x hx
    · unfold flush at hx
      split at hx <;> simp [one, single] at hx
  | co ct b k ihb ihk =>
    intro op c skc mode h0 x hx; subst h0
    simp only [sT] at hx
    unfold flush at hx
    split at hx <;> simp [one, single] at hx

/-- a simplified block means the same as the original one (padding becomes data when merging). -/
theorem expand_sT_block (merge : Bool) (l : L) : ∀ (op c skc : Nat), (op = 0 ∨ op = 3) →
    (merge = true → op = 0) →
    (sT merge l none op c skc).expand = List.replicate c (kd op) ++ l.expand.map (mp merge) := by
  induction l with
  | nil =>
    intro op c skc _ _
    simp [sT, fin, expand_flush, L.expand]
  | mc n k ih =>
    intro op c skc hop hm
    simp only [sT]
    split
    · rename_i h; subst h
      rw [ih 0 _ _ (Or.inl rfl) (by simp)]
      rw [replicate_add]; simp [L.expand, kd, -List.replicate_append_replicate]
    · rename_i h
      split
      · rename_i h2; exact absurd (hm h2) h
      · rw [expand_flush, ih 0 _ _ (Or.inl rfl) (by simp)]
        simp [L.expand, kd]
  | sk n k ih =>
    intro op c skc hop hm
    simp only [sT]
    split
    · rename_i h; subst h
      have hmf : merge = false := by
        cases hh : merge with
        | false => rfl
        | true => have := hm hh; omega
      subst hmf
      rw [ih 3 _ _ (Or.inr rfl) (by simp)]
      rw [replicate_add]; simp [L.expand, kd, -List.replicate_append_replicate]
    · rename_i h
      have h0 : op = 0 := by omega
      subst h0
      split
      · rename_i h2; subst h2
        rw [ih 0 _ _ (Or.inl rfl) (by simp)]
        rw [replicate_add]; simp [L.expand, kd, mp, -List.replicate_append_replicate]
      · rename_i h2
        simp at h2; subst h2
        rw [expand_flush, ih 3 _ _ (Or.inr rfl) (by simp)]
        simp [L.expand, kd]
  | ar n b k ihb ihk =>
    intro op c skc hop hm
    have hb := ihb 0 0 0 (Or.inl rfl) (by simp)
    simp only [List.replicate_zero, List.nil_append] at hb
    simp only [sT]
    split
    · rename_i op' m hs
      obtain ⟨h1, h2, h3⟩ := expand_single hs
      have hm' : merge = true → op' = 0 := by
        intro hmt
        rcases h2 with h2 | h2
        · exact h2
        · subst h2; subst hmt; exact (single_merge b 0 0 0 _ rfl _ hs).elim
      rw [h1] at hb
      have hbn : rep n (b.expand.map (mp merge)) = List.replicate (m * n) (kd op') := by
        rw [← hb, rep_replicate, Nat.mul_comm]
      split
      · rename_i h; obtain ⟨rfl, _⟩ := h
        rw [ihk op' _ _ hop hm]
        simp only [L.expand, List.map_append, rep_map, hbn]
        rw [replicate_add, List.append_assoc]
      · rw [expand_flush, ihk op' _ _ h2 hm']
        simp only [L.expand, List.map_append, rep_map, hbn]
    · rw [expand_flush]
      simp only [L.expand, hb, List.map_append, rep_map]
      rw [ihk op 0 0 hop hm]
      simp
  | co ct b k ihb ihk =>
    intro op c skc hop hm
    simp only [sT]
    rw [expand_flush]
    simp only [L.expand]
    rw [ihk op 0 0 hop hm]
    simp


/-- The simplified stream means the same as the original one except for some padding at its very end.
`P` is what is pending: `c` bytes of which the last `skc` are padding. -/
theorem expand_sT_top (merge rem : Bool) (l : L) : ∀ (op c skc : Nat) (P : List Item), (op = 0 ∨ op = 3) →
    (merge = true → op = 0) → (merge = false → op = 0 → skc = 0) →
    c < W → P.length = c → P.map (mp merge) = List.replicate c (kd op) →
    (∃ P', P = P' ++ List.replicate skc .pad) → P.length + l.expand.length < W → l.Ok →
    ∃ k X, P ++ l.expand = X ++ List.replicate k .pad ∧
      (sT merge l (some rem) op c skc).expand = X.map (mp merge) := by
  induction l with
  | nil =>
    intro op c skc P hop hm hz hc hPl hP hP' _ _
    obtain ⟨P', rfl⟩ := hP'
    have hle : skc ≤ c := by rw [← hPl]; simp
    simp only [L.expand, List.append_nil, sT, fin]
    by_cases h0 : c = 0
    · subst h0
      refine ⟨0, [], ?_, by simp [L.expand]⟩
      have := List.length_eq_zero_iff.mp hPl
      simp only [this]; rfl
    · rw [if_pos h0]
      split
      · rw [expand_one, wsub_eq hle hc]
        refine ⟨skc, P', rfl, ?_⟩
        simp only [L.expand, List.append_nil]
        have hl : P'.length = c - skc := by simp at hPl; omega
        have h1 := congrArg (List.take (c - skc)) hP
        rw [List.map_append, List.take_append_of_le_length (by simp; omega)] at h1
        rw [List.take_of_length_le (by simp; omega), List.take_replicate] at h1
        rw [h1]; congr 1; omega
      · rename_i h
        simp at h
        obtain ⟨_, rfl⟩ := h
        have hmf : merge = false := by
          cases hh : merge with
          | false => rfl
          | true => have := hm hh; omega
        subst hmf
        refine ⟨c, [], ?_, by simp [L.expand]⟩
        rw [map_mp_false] at hP
        rw [hP]; rfl
  | mc n k ih =>
    intro op c skc P hop hm hz hc hPl hP hP' hlen hok
    have hlen' : c + n + k.expand.length < W := by simp [L.expand] at hlen; omega
    simp only [sT]
    by_cases h : op = 0
    · subst h
      rw [if_pos rfl]
      have := ih 0 (c + n) 0 (P ++ List.replicate n .data) (Or.inl rfl) (by simp) (by simp) (by omega)
        (by simp [hPl]) (by rw [replicate_add, List.map_append, hP]; simp [kd]) ⟨_, (List.append_nil _).symm⟩
        (by simp; omega) hok
      simpa [L.expand] using this
    · rw [if_neg h]
      by_cases hmt : merge = true
      · exact absurd (hm hmt) h
      · rw [if_neg hmt]
        obtain ⟨j, X, h1, h2⟩ := ih 0 n 0 (List.replicate n .data) (Or.inl rfl) (by simp) (by simp) (by omega)
          (by simp) (by simp [kd]) ⟨_, (List.append_nil _).symm⟩ (by simp; omega) hok
        have hmf : merge = false := by simpa using hmt
        subst hmf
        refine ⟨j, P ++ X, ?_, ?_⟩
        · simp only [L.expand, List.append_assoc, h1]
        · rw [expand_flush, h2, List.map_append, hP]
  | sk n k ih =>
    intro op c skc P hop hm hz hc hPl hP hP' hlen hok
    have hlen' : c + n + k.expand.length < W := by simp [L.expand] at hlen; omega
    obtain ⟨P', hP'⟩ := hP'
    have hext : ∃ Q, P ++ List.replicate n Item.pad = Q ++ List.replicate (skc + n) Item.pad :=
      ⟨P', by rw [hP', replicate_add, List.append_assoc]⟩
    simp only [sT]
    by_cases h : op = 3
    · subst h
      rw [if_pos rfl]
      have hmf : merge = false := by
        cases hh : merge with
        | false => rfl
        | true => have := hm hh; omega
      subst hmf
      have := ih 3 (c + n) (skc + n) (P ++ List.replicate n .pad) (Or.inr rfl) (by simp) (by simp) (by omega)
        (by simp [hPl]) (by rw [replicate_add, List.map_append, hP]; simp [kd]) hext (by simp; omega) hok
      simpa [L.expand] using this
    · rw [if_neg h]
      have h0 : op = 0 := by omega
      subst h0
      by_cases hmt : merge = true
      · subst hmt
        rw [if_pos rfl]
        have := ih 0 (c + n) (skc + n) (P ++ List.replicate n .pad) (Or.inl rfl) (by simp) (by simp) (by omega)
          (by simp [hPl]) (by rw [replicate_add, List.map_append, hP]; simp [kd, mp]) hext (by simp; omega) hok
        simpa [L.expand] using this
      · rw [if_neg hmt]
        have hmf : merge = false := by simpa using hmt
        subst hmf
        have hs0 : skc = 0 := hz rfl rfl
        subst hs0
        obtain ⟨j, X, h1, h2⟩ := ih 3 n (0 + n) (List.replicate n .pad) (Or.inr rfl) (by simp) (by simp) (by omega)
          (by simp) (by simp [kd]) ⟨[], (by simp)⟩ (by simp; omega) hok
        refine ⟨j, P ++ X, ?_, ?_⟩
        · simp only [L.expand, List.append_assoc, h1]
        · rw [expand_flush, h2, List.map_append, hP]
  | ar n b k ihb ihk =>
    intro op c skc P hop hm hz hc hPl hP hP' hlen hok
    have hb := expand_sT_block merge b 0 0 0 (Or.inl rfl) (by simp)
    simp only [List.replicate_zero, List.nil_append] at hb
    have hlen' : c + n * b.expand.length + k.expand.length < W := by
      simp [L.expand, rep_length] at hlen; omega
    simp only [sT]
    split
    · rename_i op' m hs
      obtain ⟨h1, h2, h3⟩ := expand_single hs
      have hm' : merge = true → op' = 0 := by
        intro hmt
        rcases h2 with h2 | h2
        · exact h2
        · subst h2; subst hmt; exact (single_merge b 0 0 0 _ rfl _ hs).elim
      rw [h1] at hb
      have hbl : b.expand.length = m := by have := congrArg List.length hb; simpa using this.symm
      have hbn : (rep n b.expand).map (mp merge) = List.replicate (m * n) (kd op') := by
        rw [rep_map, ← hb, rep_replicate, Nat.mul_comm]
      have hbnl : (rep n b.expand).length = m * n := by rw [rep_length, hbl, Nat.mul_comm]
      rw [hbl, Nat.mul_comm] at hlen'
      split
      · rename_i h; obtain ⟨rfl, _⟩ := h
        have := ihk op' (c + m * n) 0 (P ++ rep n b.expand) hop hm (by simp) (by omega) (by simp [hPl, hbnl])
          (by rw [replicate_add, List.map_append, hP, hbn]) ⟨_, (List.append_nil _).symm⟩ (by simp [hbnl]; omega) hok.2.2.2
        simpa [L.expand] using this
      · obtain ⟨j, X, e1, e2⟩ := ihk op' (m * n) 0 (rep n b.expand) h2 hm' (by simp) (by omega) hbnl hbn
          ⟨_, (List.append_nil _).symm⟩ (by rw [hbnl]; omega) hok.2.2.2
        refine ⟨j, P ++ X, ?_, ?_⟩
        · simp only [L.expand, List.append_assoc, e1]
        · rw [expand_flush, e2, List.map_append, hP]
    · obtain ⟨j, X, e1, e2⟩ := ihk op 0 0 [] hop hm (by simp) (by unfold W; omega) rfl (by simp) ⟨_, (List.append_nil _).symm⟩
        (by simp; omega) hok.2.2.2
      refine ⟨j, P ++ (rep n b.expand ++ X), ?_, ?_⟩
      · simp only [L.expand, List.append_assoc]
        simp only [List.nil_append] at e1
        rw [e1]
      · rw [expand_flush]
        simp only [L.expand, e2, hb, List.map_append, hP, rep_map]
  | co ct b k ihb ihk =>
    intro op c skc P hop hm hz hc hPl hP hP' hlen hok
    simp only [sT]
    obtain ⟨j, X, e1, e2⟩ := ihk op 0 0 [] hop hm (by simp) (by unfold W; omega) rfl (by simp) ⟨_, (List.append_nil _).symm⟩
      (by simp [L.expand] at hlen ⊢; omega) hok.2.2
    refine ⟨j, P ++ (.cont ct :: X), ?_, ?_⟩
    · simp only [L.expand, List.append_assoc]
      simp only [List.nil_append] at e1
      rw [e1]; rfl
    · rw [expand_flush]
      simp only [L.expand, e2, List.map_append, hP, List.map_cons, mp_cont]

theorem good_flush (m : Bool) (op c : Nat) (k : L) : (flush op c k).Good m ↔ k.Good m := by
  unfold flush one; split
  · split <;> simp [L.Good]
  · rfl

theorem good_sT (merge : Bool) (l : L) (hl : l.Good false) : ∀ mode op c skc,
    (sT merge l mode op c skc).Good merge := by
  induction l with
  | nil =>
    intro mode op c skc
    cases mode with
    | none => simp only [sT, fin, good_flush, L.Good]
    | some r =>
      simp only [sT, fin]
      split
      · split
        · unfold one; split <;> simp [L.Good]
        · simp [L.Good]
      · simp [L.Good]
  | mc n k ih =>
    intro mode op c skc
    have ih := ih hl
    simp only [sT]
    split
    · exact ih ..
    · split
      · exact ih ..
      · rw [good_flush]; exact ih ..
  | sk n k ih =>
    intro mode op c skc
    have ih := ih hl
    simp only [sT]
    split
    · exact ih ..
    · split
      · exact ih ..
      · rw [good_flush]; exact ih ..
  | ar n b k ihb ihk =>
    intro mode op c skc
    have ihk := ihk hl.2
    have ihb := ihb hl.1
    simp only [sT]
    split
    · split
      · exact ihk ..
      · rw [good_flush]; exact ihk ..
    · rw [good_flush]; exact ⟨ihb .., ihk ..⟩
  | co ct b k ihb ihk =>
    intro mode op c skc
    have ihk := ihk hl.2.2
    have ihb := ihb hl.2.1
    simp only [sT]
    rw [good_flush]
    refine ⟨?_, ihb .., ihk ..⟩
    rw [expand_sT_block merge b 0 0 0 (Or.inl rfl) (by simp)]
    have := hl.1
    rw [map_mp_false] at this
    simp [this]

theorem pos_flush (op c : Nat) (k : L) : (flush op c k).Pos ↔ k.Pos := by
  unfold flush one; split
  · split <;> simp [L.Pos]
  · rfl

theorem pos_sT (merge : Bool) (l : L) (hl : l.Ok) : ∀ mode op c skc,
    (sT merge l mode op c skc).Pos := by
  induction l with
  | nil =>
    intro mode op c skc
    cases mode with
    | none => simp only [sT, fin, pos_flush, L.Pos]
    | some r =>
      simp only [sT, fin]
      split
      · split
        · unfold one; split <;> simp [L.Pos]
        · simp [L.Pos]
      · simp [L.Pos]
  | mc n k ih =>
    intro mode op c skc
    have ih := ih hl
    simp only [sT]
    split
    · exact ih ..
    · split
      · exact ih ..
      · rw [pos_flush]; exact ih ..
  | sk n k ih =>
    intro mode op c skc
    have ih := ih hl
    simp only [sT]
    split
    · exact ih ..
    · split
      · exact ih ..
      · rw [pos_flush]; exact ih ..
  | ar n b k ihb ihk =>
    intro mode op c skc
    have ihk := ihk hl.2.2.2
    have ihb := ihb hl.2.2.1
    simp only [sT]
    split
    · split
      · exact ihk ..
      · rw [pos_flush]; exact ihk ..
    · rw [pos_flush]; exact ⟨hl.1, ihb .., ihk ..⟩
  | co ct b k ihb ihk =>
    intro mode op c skc
    have ihk := ihk hl.2.2
    have ihb := ihb hl.2.1
    simp only [sT]
    rw [pos_flush]
    exact ⟨ihb .., ihk ..⟩

/-- with merging, a layout that reduces to one memcpy as a complete stream also does as a block, and conversely -/
theorem single_top_block (l : L) : ∀ (c skc : Nat),
    ((sT true l none 0 c skc = .nil) ↔ (sT true l (some true) 0 c skc = .nil)) ∧
    ((∃ n, sT true l none 0 c skc = .mc n .nil) ↔ (∃ n, sT true l (some true) 0 c skc = .mc n .nil)) := by
  induction l with
  | nil =>
    intro c skc
    simp only [sT, fin, flush, one]
    by_cases h : c = 0 <;> simp [h]
  | mc n k ih => intro c skc; simp only [sT, if_true]; exact ih _ _
  | sk n k ih =>
    intro c skc
    simp only [sT, if_true, show ¬ (0 : Nat) = 3 by decide, if_false]; exact ih _ _
  | ar n b k ihb ihk =>
    intro c skc
    simp only [sT]
    split
    · rename_i op' m hs'
      have ho : op' = 0 := by
        rcases (expand_single hs').2.1 with h | h
        · exact h
        · subst h; exact (single_merge b 0 0 0 _ rfl _ hs').elim
      subst ho
      split
      · exact ihk _ _
      · unfold flush
        split
        · simp only [one, if_true, L.mc.injEq]
          have := (ihk (m * n) 0).1
          simp [this]
        · exact ihk _ _
    · unfold flush; split <;> simp [one]
  | co ct b k ihb ihk =>
    intro c skc
    simp only [sT]
    unfold flush; split <;> simp [one]

end Verif.Layout
