import Verif.LayoutFlat

/-! The initialisation bytecode: simplification keeps its meaning. -/

namespace Verif.Layout
open Verif

/-- What initialisation does to one byte (a container object counts as one). -/
inductive IItem where
  /-- set to this byte -/
  | set (b : UInt8)
  /-- left alone -/
  | leave
  /-- construct a container -/
  | cont (c : Ty)

mutual
/-- Specification of initialisation: enums that have symbols take the value of their first symbol, containers are
constructed, the rest is left alone. -/
def ikinds : Ty → List IItem
  | .num n => List.replicate n .leave
  | .enum n vs => if (enumInit n vs).isEmpty then List.replicate n .leave else (enumInit n vs).map .set
  | .arr d e => rep d (ikinds e)
  | .vec c e => [.cont (.vec c e)]
  | .str c => [.cont (.str c)]
  | .comp n fs => ikindsF 0 n fs
  | .ptr n => List.replicate n .leave
  | .opaq n => List.replicate n .leave
def ikindsF (cur n : Nat) : Fields → List IItem
  | .nil => List.replicate (n - cur) .leave
  | .cons off t r => List.replicate (off - cur) .leave ++ ikinds t ++ ikindsF (off + t.size) n r
end

namespace LI
def expand : LI → List IItem
  | .nil => []
  | .ini d k => d.map .set ++ expand k
  | .sk n k => List.replicate n .leave ++ expand k
  | .re n b k => rep n (expand b) ++ expand k
  | .co c k => .cont c :: expand k
@[simp] theorem expand_app (a b : LI) : (a.app b).expand = a.expand ++ b.expand := by
  induction a <;> simp [app, expand, *]
/-- repetitions are not empty -/
def Ok : LI → Prop
  | .nil => True
  | .ini _ k => Ok k
  | .sk _ k => Ok k
  | .re n b k => 0 < n ∧ b.expand ≠ [] ∧ Ok b ∧ Ok k
  | .co _ k => Ok k
@[simp] theorem ok_app (a b : LI) : (a.app b).Ok ↔ a.Ok ∧ b.Ok := by
  induction a <;> simp [app, Ok, *] <;> grind
/-- no repetition of length 0 -/
def Pos : LI → Prop
  | .nil => True
  | .ini _ k => Pos k
  | .sk _ k => Pos k
  | .re n b k => 0 < n ∧ Pos b ∧ Pos k
  | .co _ k => Pos k
end LI

def iniF (d : List UInt8) (k : LI) : LI := if d.isEmpty then k else .ini d k
def skF (c : Nat) (k : LI) : LI := if c ≠ 0 then .sk c k else k
def singleI : LI → Option Nat
  | .sk m .nil => some m
  | _ => none

/-- `simplifyInit`, on trees; `blk`: inside a repetition -/
def sI : LI → Bool → Nat → List UInt8 → LI
  | .nil, blk, cnt, dat => if cnt ≠ 0 ∧ blk = true then .sk cnt .nil else iniF dat .nil
  | .ini d k, blk, cnt, dat => skF cnt (sI k blk 0 (dat ++ d))
  | .sk n k, blk, cnt, dat => iniF dat (sI k blk (cnt + n) [])
  | .re n b k, blk, cnt, dat =>
    match singleI (sI b true 0 []) with
    | some v => iniF dat (sI k blk (cnt + v * n) [])
    | none => iniF dat (skF cnt (.re n (sI b true 0 []) (sI k blk 0 [])))
  | .co c k, blk, cnt, dat => iniF dat (skF cnt (.co c (sI k blk 0 [])))

theorem expand_iniF (d : List UInt8) (k : LI) : (iniF d k).expand = d.map .set ++ k.expand := by
  unfold iniF
  cases d <;> simp [LI.expand]
theorem expand_skF (c : Nat) (k : LI) : (skF c k).expand = List.replicate c .leave ++ k.expand := by
  unfold skF
  split
  · rfl
  · rename_i h; simp at h; simp [h]

theorem expand_singleI {b : LI} {v : Nat} (h : singleI b = some v) : b = .sk v .nil := by
  unfold singleI at h
  split at h <;> simp_all

theorem expand_sI_block (l : LI) : ∀ (cnt : Nat) (dat : List UInt8), (cnt = 0 ∨ dat = []) →
    (sI l true cnt dat).expand = List.replicate cnt .leave ++ dat.map .set ++ l.expand := by
  induction l with
  | nil =>
    intro cnt dat h
    simp only [sI, and_true]
    by_cases h0 : cnt = 0
    · subst h0; simp [expand_iniF, LI.expand]
    · have := h.resolve_left h0; subst this
      simp [h0, LI.expand]
  | ini d k ih =>
    intro cnt dat h
    simp only [sI, expand_skF, LI.expand]
    rw [ih 0 _ (Or.inl rfl)]
    simp
  | sk n k ih =>
    intro cnt dat h
    simp only [sI, expand_iniF, LI.expand]
    rw [ih _ _ (Or.inr rfl)]
    rw [replicate_add]
    rcases h with rfl | rfl <;> simp [-List.replicate_append_replicate]
  | re n b k ihb ihk =>
    intro cnt dat h
    have hb := ihb 0 [] (Or.inl rfl)
    simp only [List.replicate_zero, List.nil_append, List.map_nil] at hb
    simp only [sI]
    split
    · rename_i v hs
      rw [expand_singleI hs] at hb
      rw [expand_iniF, ihk _ _ (Or.inr rfl), LI.expand, ← hb]
      simp only [LI.expand, List.append_nil, rep_replicate, List.map_nil]
      rw [replicate_add, Nat.mul_comm]
      rcases h with rfl | rfl <;> simp [-List.replicate_append_replicate]
    · rw [expand_iniF, expand_skF, LI.expand, hb, ihk _ _ (Or.inl rfl), LI.expand]
      rcases h with rfl | rfl <;> simp
  | co c k ih =>
    intro cnt dat h
    simp only [sI, expand_iniF, expand_skF, LI.expand]
    rw [ih 0 [] (Or.inl rfl)]
    rcases h with rfl | rfl <;> simp

theorem expand_sI_top (l : LI) : ∀ (cnt : Nat) (dat : List UInt8), (cnt = 0 ∨ dat = []) →
    ∃ j, List.replicate cnt .leave ++ dat.map .set ++ l.expand = (sI l false cnt dat).expand ++ List.replicate j .leave := by
  induction l with
  | nil =>
    intro cnt dat h
    refine ⟨cnt, ?_⟩
    simp only [sI, Bool.false_eq_true, and_false, if_false, expand_iniF, LI.expand]
    rcases h with rfl | rfl <;> simp
  | ini d k ih =>
    intro cnt dat h
    obtain ⟨j, hj⟩ := ih 0 (dat ++ d) (Or.inl rfl)
    refine ⟨j, ?_⟩
    simp only [List.replicate_zero, List.nil_append, List.map_append, List.append_assoc] at hj
    simp only [sI, expand_skF, LI.expand, List.append_assoc, hj]
  | sk n k ih =>
    intro cnt dat h
    obtain ⟨j, hj⟩ := ih (cnt + n) [] (Or.inr rfl)
    refine ⟨j, ?_⟩
    simp only [sI, expand_iniF, LI.expand, List.append_assoc]
    rw [← hj, replicate_add]
    rcases h with rfl | rfl <;> simp [-List.replicate_append_replicate]
  | re n b k ihb ihk =>
    intro cnt dat h
    have hb := expand_sI_block b 0 [] (Or.inl rfl)
    simp only [List.replicate_zero, List.nil_append, List.map_nil] at hb
    simp only [sI]
    split
    · rename_i v hs
      rw [expand_singleI hs] at hb
      obtain ⟨j, hj⟩ := ihk (cnt + v * n) [] (Or.inr rfl)
      refine ⟨j, ?_⟩
      rw [expand_iniF, List.append_assoc (List.map _ _), ← hj, LI.expand, ← hb]
      simp only [LI.expand, List.append_nil, rep_replicate, List.map_nil]
      rw [replicate_add, Nat.mul_comm v n]
      rcases h with rfl | rfl <;> simp [-List.replicate_append_replicate]
    · obtain ⟨j, hj⟩ := ihk 0 [] (Or.inl rfl)
      refine ⟨j, ?_⟩
      simp only [List.replicate_zero, List.nil_append, List.map_nil] at hj
      rw [expand_iniF, expand_skF]
      simp only [LI.expand, hb, List.append_assoc, hj]
      rcases h with rfl | rfl <;> simp
  | co c k ih =>
    intro cnt dat h
    obtain ⟨j, hj⟩ := ih 0 [] (Or.inl rfl)
    refine ⟨j, ?_⟩
    simp only [List.replicate_zero, List.nil_append, List.map_nil] at hj
    simp only [sI, expand_iniF, expand_skF, LI.expand, List.append_assoc, List.cons_append, hj]
    rcases h with rfl | rfl <;> simp

theorem pos_iniF (d : List UInt8) (k : LI) : (iniF d k).Pos ↔ k.Pos := by
  unfold iniF; split <;> simp [LI.Pos]
theorem pos_skF (c : Nat) (k : LI) : (skF c k).Pos ↔ k.Pos := by
  unfold skF; split <;> simp [LI.Pos]

theorem pos_sI (l : LI) (hl : l.Ok) : ∀ blk cnt dat, (sI l blk cnt dat).Pos := by
  induction l with
  | nil =>
    intro blk cnt dat
    simp only [sI]; split
    · simp [LI.Pos]
    · rw [pos_iniF]; trivial
  | ini d k ih => intro blk cnt dat; simp only [sI, pos_skF]; exact ih hl ..
  | sk n k ih => intro blk cnt dat; simp only [sI, pos_iniF]; exact ih hl ..
  | re n b k ihb ihk =>
    intro blk cnt dat
    simp only [sI]; split
    · rw [pos_iniF]; exact ihk hl.2.2.2 ..
    · rw [pos_iniF, pos_skF]; exact ⟨hl.1, ihb hl.2.2.1 .., ihk hl.2.2.2 ..⟩
  | co c k ih => intro blk cnt dat; simp only [sI, pos_iniF, pos_skF]; exact ih hl ..

/-! ### the flat simplifier -/

abbrev bw (d : List UInt8) : List Word := d.map (fun b => Word.n b.toNat)

theorem encI_iniF (d : List UInt8) (k : LI) (out : List Word) :
    out ++ (iniF d k).enc = (if !(bw d).isEmpty then out ++ [.n 0, .n (bw d).length] ++ bw d else out) ++ k.enc := by
  unfold iniF bw
  cases d <;> simp [LI.enc]

theorem encI_skF (c : Nat) (k : LI) (out : List Word) :
    out ++ (skF c k).enc = (if c ≠ 0 then gop out 3 c else out) ++ k.enc := by
  unfold skF gop
  split <;> simp [LI.enc]

theorem encI_cases (b : LI) : b = .nil ∨ (∃ v, b = .sk v .nil) ∨
    (singleI b = none ∧ b.enc ≠ [] ∧ (b.enc.length = 2 → ∃ c, b.enc = [.n 2, .p c]) ∨ ∃ k, b = .ini [] k) := by
  cases b with
  | nil => exact Or.inl rfl
  | ini d k =>
    right; right
    cases d with
    | nil => exact Or.inr ⟨k, rfl⟩
    | cons a d => left; simp [singleI, LI.enc]
  | sk n k =>
    right
    cases k with
    | nil => exact Or.inl ⟨n, rfl⟩
    | ini d k => right; left; simp [singleI, LI.enc]
    | sk m k => right; left; simp [singleI, LI.enc]
    | re m b k => right; left; simp [singleI, LI.enc]
    | co c k => right; left; simp [singleI, LI.enc]
  | re n b k => right; right; left; simp [singleI, LI.enc]
  | co c k =>
    right; right; left
    refine ⟨rfl, by simp [LI.enc], ?_⟩
    intro h
    simp [LI.enc] at h
    exact ⟨c, by simp [LI.enc, h]⟩

theorem iniF_ne (d : List UInt8) (k : LI) (hk : ∀ k', k ≠ .ini [] k') : ∀ k', iniF d k ≠ .ini [] k' := by
  intro k'; unfold iniF; cases d
  · simpa using hk k'
  · simp
theorem skF_ne (c : Nat) (k : LI) (hk : ∀ k', k ≠ .ini [] k') : ∀ k', skF c k ≠ .ini [] k' := by
  intro k'; unfold skF; split
  · simp
  · exact hk k'

theorem sI_ne (l : LI) : ∀ blk cnt dat k', sI l blk cnt dat ≠ .ini [] k' := by
  induction l with
  | nil =>
    intro blk cnt dat k'
    simp only [sI]; split
    · simp
    · exact iniF_ne _ _ (by simp) _
  | ini d k ih => intro blk cnt dat; simp only [sI]; exact skF_ne _ _ (ih _ _ _)
  | sk n k ih => intro blk cnt dat; simp only [sI]; exact iniF_ne _ _ (ih _ _ _)
  | re n b k ihb ihk =>
    intro blk cnt dat
    simp only [sI]; split
    · exact iniF_ne _ _ (ihk _ _ _)
    · exact iniF_ne _ _ (skF_ne _ _ (by simp))
  | co c k ih => intro blk cnt dat; simp only [sI]; exact iniF_ne _ _ (skF_ne _ _ (by simp))

theorem simpI_enc (l : LI) : l.Ok → ∀ (f : Nat) (shave blk : Bool) (cnt : Nat) (dat : List UInt8)
    (out rest : List Word),
    ((blk = true ∧ ∃ r, rest = .n 4 :: r) ∨ (blk = false ∧ shave = true ∧ rest = [])) →
    (cnt = 0 ∨ dat = []) → cnt + l.expand.length < W → l.enc.length < f →
    simpI f (l.enc ++ rest) shave cnt (bw dat) out = .ok (rest, out ++ (sI l blk cnt dat).enc) := by
  induction l with
  | nil =>
    intro _ f shave blk cnt dat out rest hmode hcd hc hf
    cases f with
    | zero => simp at hf
    | succ f =>
      rcases hmode with ⟨rfl, r, rfl⟩ | ⟨rfl, rfl, rfl⟩
      · simp only [LI.enc, List.nil_append, simpI, if_true, sI, and_true]
        by_cases h0 : cnt = 0
        · simp only [h0, ne_eq, not_true_eq_false, if_false]
          rw [encI_iniF]; simp [LI.enc]
        · simp [h0, LI.enc, gop]
      · simp only [LI.enc, List.nil_append, simpI, sI, Bool.true_eq_false, and_false, if_false, Bool.false_eq_true]
        rw [encI_iniF]
        cases dat <;> simp [bw, LI.enc]
  | ini d k ih =>
    intro hok f shave blk cnt dat out rest hmode hcd hc hf
    cases f with
    | zero => simp at hf
    | succ f =>
      simp only [LI.expand, List.length_append, List.length_map] at hc
      have hf' : k.enc.length < f := by simp [LI.enc] at hf; omega
      have e : (LI.ini d k).enc ++ rest = .n 0 :: .n d.length :: (bw d ++ (k.enc ++ rest)) := by
        simp [LI.enc]
      rw [e]
      simp only [simpI, show ¬ (0 : Nat) = 4 by decide, if_true, if_false, sI]
      rw [if_neg (by simp)]
      have e1 : (bw d ++ (k.enc ++ rest)).drop d.length = k.enc ++ rest := by
        rw [List.drop_append_of_le_length (by simp), List.drop_of_length_le (by simp), List.nil_append]
      have e2 : (bw d ++ (k.enc ++ rest)).take d.length = bw d := by
        rw [List.take_append_of_le_length (by simp), List.take_of_length_le (by simp)]
      rw [e1, e2, encI_skF]
      have e3 : bw dat ++ bw d = bw (dat ++ d) := by simp
      rw [e3]
      exact ih hok f shave blk 0 _ _ rest hmode (Or.inl rfl) (by omega) hf'
  | sk n k ih =>
    intro hok f shave blk cnt dat out rest hmode hcd hc hf
    cases f with
    | zero => simp at hf
    | succ f =>
      simp only [LI.expand, List.length_append, List.length_replicate] at hc
      have hf' : k.enc.length < f := by simp [LI.enc] at hf; omega
      simp only [LI.enc, List.cons_append, simpI, show ¬ (3 : Nat) = 4 by decide, show ¬ (3 : Nat) = 0 by decide,
        show ¬ (3 : Nat) = 1 by decide, show ¬ (3 : Nat) = 2 by decide, if_true, if_false, sI]
      rw [encI_iniF, wadd_eq (by omega)]
      exact ih hok f shave blk _ [] _ rest hmode (Or.inr rfl) (by omega) hf'
  | re n b k ihb ihk =>
    intro hok f shave blk cnt dat out rest hmode hcd hc hf
    cases f with
    | zero => simp at hf
    | succ f =>
      obtain ⟨hn, hbne, hokb, hokk⟩ := hok
      simp only [LI.expand, List.length_append, rep_length] at hc
      have hf' : b.enc.length < f ∧ k.enc.length < f := by simp [LI.enc] at hf; omega
      have hbl : b.expand.length ≤ n * b.expand.length := Nat.le_mul_of_pos_left _ hn
      have e : (LI.re n b k).enc ++ rest = .n 1 :: .n n :: (b.enc ++ .n 4 :: (k.enc ++ rest)) := by simp [LI.enc]
      rw [e]
      simp only [simpI, show ¬ (1 : Nat) = 4 by decide, show ¬ (1 : Nat) = 0 by decide, if_true, if_false]
      generalize hout0 : (if !(bw dat).isEmpty then out ++ [.n 0, .n (bw dat).length] ++ bw dat else out) = out0
      generalize hout1 : (if cnt ≠ 0 then gop out0 3 cnt else out0) = out1
      have hb := ihb hokb f false true 0 [] (gop out1 1 n) (.n 4 :: (k.enc ++ rest)) (Or.inl ⟨rfl, _, rfl⟩)
        (Or.inl rfl) (by omega) hf'.1
      simp only [bw, List.map_nil] at hb
      rw [hb]
      simp only []
      have hlen : (gop out1 1 n ++ (sI b true 0 []).enc).length - (gop out1 1 n).length
          = (sI b true 0 []).enc.length := by simp
      rw [hlen]
      have hexp := expand_sI_block b 0 [] (Or.inl rfl)
      simp only [List.replicate_zero, List.nil_append, List.map_nil] at hexp
      rcases encI_cases (sI b true 0 []) with h | ⟨v, h⟩ | ⟨hsin, hne, h2⟩ | ⟨k', h⟩
      · exfalso
        rw [h] at hexp
        simp [LI.expand] at hexp
        exact hbne hexp
      · have hv : b.expand.length = v := by
          have h4 := congrArg List.length hexp
          rw [h] at h4
          simpa [LI.expand] using h4.symm
        rw [hv] at hc hbl
        have hcomm : v * n = n * v := Nat.mul_comm _ _
        have hmn : wmul v n = v * n := wmul_eq (by omega)
        simp only [h, LI.enc, List.length_cons, List.length_nil, Nat.zero_add, Nat.reduceAdd, if_true,
          List.drop_left, hmn, sI, singleI]
        rw [encI_iniF, hout0]
        by_cases h0 : cnt = 0
        · subst h0
          simp only [ne_eq, not_true_eq_false, if_false] at hout1 ⊢
          subst hout1
          have hr2 : resizeOps (gop out0 1 n ++ [.n 3, .n v]) (gop out0 1 n).length 2 = .ok out0 := by
            unfold resizeOps gop
            rw [if_neg (by simp)]
            congr 1
            simp
          rw [hr2]
          simp only [Res.bind_ok, Nat.zero_add]
          exact ihk hokk f shave blk _ [] _ rest hmode (Or.inr rfl) (by omega) hf'.2
        · simp only [ne_eq, h0, not_false_eq_true, if_true] at hout1 ⊢
          have hr4 : resizeOps (gop out1 1 n ++ [.n 3, .n v]) (gop out1 1 n).length 4 = .ok out0 := by
            unfold resizeOps gop
            rw [← hout1]
            unfold gop
            rw [if_neg (by simp)]
            congr 1
            simp
          rw [hr4]
          simp only [Res.bind_ok]
          rw [wadd_eq (by omega)]
          exact ihk hokk f shave blk _ [] _ rest hmode (Or.inr rfl) (by omega) hf'.2
      · have key : ∀ (X : Res (List Word × List Word)),
            simpI f (k.enc ++ rest) shave 0 [] (gop out1 1 n ++ (sI b true 0 []).enc ++ [.n 4]) = X →
            (match (if (sI b true 0 []).enc.length = 2 then
                match (gop out1 1 n ++ (sI b true 0 []).enc).drop (gop out1 1 n).length with
                | .n 3 :: .n v :: _ => some v
                | _ => none
              else none : Option Nat) with
            | some v =>
              if cnt ≠ 0 then do
                let o4 ← resizeOps (gop out1 1 n ++ (sI b true 0 []).enc) (gop out1 1 n).length 4
                simpI f (k.enc ++ rest) shave (wadd cnt (wmul v n)) [] o4
              else do
                let o4 ← resizeOps (gop out1 1 n ++ (sI b true 0 []).enc) (gop out1 1 n).length 2
                simpI f (k.enc ++ rest) shave (wmul v n) [] o4
            | none =>
              if (sI b true 0 []).enc.length = 0 then do
                let o4 ← resizeOps (gop out1 1 n ++ (sI b true 0 []).enc) (gop out1 1 n).length 4
                simpI f (k.enc ++ rest) shave cnt [] o4
              else simpI f (k.enc ++ rest) shave 0 [] (gop out1 1 n ++ (sI b true 0 []).enc ++ [.n 4])) = X := by
          intro X hX
          by_cases h : (sI b true 0 []).enc.length = 2
          · obtain ⟨c, hc'⟩ := h2 h
            rw [if_pos h]
            simp only [hc', List.drop_left] at hX ⊢
            exact hX
          · rw [if_neg h]
            simp only []
            rw [if_neg (by simpa using hne)]
            exact hX
        refine key _ ?_
        simp only [sI, hsin]
        rw [encI_iniF, hout0, encI_skF, hout1]
        have hk := ihk hokk f shave blk 0 [] (gop out1 1 n ++ (sI b true 0 []).enc ++ [.n 4]) rest hmode
          (Or.inr rfl) (by omega) hf'.2
        simp only [bw, List.map_nil] at hk
        rw [hk]
        simp [gop, LI.enc]
      · exact absurd h (sI_ne _ _ _ _ _)
  | co c k ih =>
    intro hok f shave blk cnt dat out rest hmode hcd hc hf
    cases f with
    | zero => simp at hf
    | succ f =>
      simp only [LI.expand, List.length_cons] at hc
      have hf' : k.enc.length < f := by simp [LI.enc] at hf; omega
      simp only [LI.enc, List.cons_append, simpI, show ¬ (2 : Nat) = 4 by decide, show ¬ (2 : Nat) = 0 by decide,
        show ¬ (2 : Nat) = 1 by decide, if_true, if_false, sI]
      rw [encI_iniF, encI_skF]
      have := ih hok f shave blk 0 []
      simp only [bw, List.map_nil] at this
      rw [this _ rest hmode (by simp) (by omega) hf']
      simp [LI.enc]

/-! ### raw -/

theorem iniOr_expand (n : Nat) (vs : List Int) : (iniOr n (enumInit n vs)).expand = ikinds (.enum n vs) := by
  unfold iniOr
  simp only [ikinds]
  split <;> simp [LI.expand]

mutual
theorem ikinds_length : ∀ t : Ty, (ikinds t).length = (kinds t).length
  | .num n => by simp [ikinds, kinds]
  | .enum n vs => by
    simp only [ikinds, kinds]
    split
    · simp
    · rename_i h
      rcases enumInit_length n vs with h' | h'
      · simp [h'] at h
      · simp [h']
  | .arr d e => by simp only [ikinds, kinds, rep_length, ikinds_length e]
  | .vec c e => by simp [ikinds, kinds]
  | .str c => by simp [ikinds, kinds]
  | .comp n fs => by simp only [ikinds, kinds, ikindsF_length fs]
  | .ptr n => by simp [ikinds, kinds]
  | .opaq n => by simp [ikinds, kinds]
theorem ikindsF_length : ∀ (fs : Fields) (cur n : Nat), (ikindsF cur n fs).length = (kindsF cur n fs).length
  | .nil, cur, n => by simp [ikindsF, kindsF]
  | .cons off t r, cur, n => by
    simp only [ikindsF, kindsF, List.length_append, List.length_replicate, ikinds_length t, ikindsF_length r]
end

mutual
theorem expandI_raw : ∀ t : Ty, t.WF → (rawI t).expand = ikinds t
  | .num n, _ => by simp [rawI, LI.expand, ikinds]
  | .enum n vs, _ => by simp only [rawI]; exact iniOr_expand n vs
  | .arr d e, h => by simp [rawI, LI.expand, ikinds, expandI_raw e h.2.2.2]
  | .vec c e, _ => by simp [rawI, LI.expand, ikinds]
  | .str c, _ => by simp [rawI, LI.expand, ikinds]
  | .comp n fs, h => by
    simp only [rawI, ikinds]
    exact expandI_rawF fs 0 n h.2 h.1
  | .ptr n, _ => by simp [rawI, LI.expand, ikinds]
  | .opaq n, _ => by simp [rawI, LI.expand, ikinds]
theorem expandI_rawF : ∀ (fs : Fields) (cur n : Nat), fs.WF cur n → n < W →
    (rawIF cur n fs).expand = ikindsF cur n fs
  | .nil, cur, n, h, hn => by
    have h : cur ≤ n := h
    simp [rawIF, LI.expand, ikindsF, wsub_eq h hn]
  | .cons off t r, cur, n, h, hn => by
    obtain ⟨h1, h2, h3⟩ := h
    have e2 := kindsF_size r _ n h3
    simp only [rawIF, LI.expand, LI.expand_app, ikindsF]
    rw [wsub_eq h1 (by omega), wadd_eq (by omega), expandI_raw t h2, expandI_rawF r _ n h3 hn]
    simp
end

theorem iniOr_ok (n : Nat) (d : List UInt8) : (iniOr n d).Ok := by
  unfold iniOr; split <;> trivial

mutual
theorem rawI_ok : ∀ t : Ty, t.WF → (rawI t).Ok
  | .num n, _ => trivial
  | .enum n _, _ => iniOr_ok _ _
  | .arr d e, h => by
    refine ⟨h.1, ?_, rawI_ok e h.2.2.2, trivial⟩
    rw [expandI_raw e h.2.2.2]
    intro h0
    have h1 := kinds_ne_nil e h.2.2.2 h.2.1
    have h2 := ikinds_length e
    rw [h0] at h2
    exact h1 (List.length_eq_zero_iff.mp h2.symm)
  | .vec c e, _ => trivial
  | .str c, _ => trivial
  | .comp n fs, h => by simp only [rawI]; exact rawI_okF fs 0 n h.2 h.1
  | .ptr n, _ => trivial
  | .opaq n, _ => trivial
theorem rawI_okF : ∀ (fs : Fields) (cur n : Nat), fs.WF cur n → n < W → (rawIF cur n fs).Ok
  | .nil, _, _, _, _ => trivial
  | .cons off t r, cur, n, h, hn => by
    have e2 := kindsF_size r _ n h.2.2
    simp only [rawIF, LI.Ok, LI.ok_app]
    rw [wadd_eq (by omega)]
    exact ⟨rawI_ok t h.2.1, rawI_okF r _ n h.2.2 hn⟩
end

/-- a lone skip is dropped (memory_layout.cc:119-120) -/
def stripI : LI → LI
  | .sk _ .nil => .nil
  | l => l

def layI (t : Ty) : LI := stripI (sI (rawI t) false 0 [])

theorem stripI_enc (l : LI) (hl : ∀ k', l ≠ .ini [] k') : (match l.enc with
      | [.n 3, _] => []
      | o => o) = (stripI l).enc := by
  cases l with
  | nil => rfl
  | ini d k => rfl
  | sk n k =>
    cases k <;> rfl
  | re n b k => rfl
  | co c k => rfl

theorem simplifyInit_raw (t : Ty) (h : t.WF) : simplifyInit (rawI t).enc = .ok (layI t).enc := by
  have hl : (rawI t).expand.length < W := by
    rw [expandI_raw t h, ikinds_length]
    have := kinds_length_le t h
    have := wf_size_lt h
    omega
  have := simpI_enc (rawI t) (rawI_ok t h) ((rawI t).enc.length + 1) true false 0 [] [] []
    (Or.inr ⟨rfl, rfl, rfl⟩) (Or.inl rfl) (by omega) (by omega)
  simp only [List.append_nil, bw, List.map_nil, List.nil_append] at this
  unfold simplifyInit
  rw [this]
  simp only []
  congr 1
  exact stripI_enc _ (sI_ne _ _ _ _)

/-- `layout_of` on a type that has a layout -/
theorem layoutOf_eq (ap ao merge rem : Bool) (t : Ty) (h : t.WF) (hl : t.HasLayout ap ao) :
    layoutOf ap ao merge rem t = .ok ⟨(layL merge rem t).enc, (layI t).enc⟩ := by
  unfold layoutOf rawLayoutOf
  rw [visit_raw ap ao t _ hl]
  simp only [Res.bind_ok, List.nil_append, simplify]
  rw [simp_raw merge rem t h]
  simp only []
  rw [simplifyInit_raw t h]
  rfl

theorem layI_expand (t : Ty) (h : t.WF) :
    ∃ j, ikinds t = (layI t).expand ++ List.replicate j .leave := by
  obtain ⟨j, hj⟩ := expand_sI_top (rawI t) 0 [] (Or.inl rfl)
  simp only [List.replicate_zero, List.nil_append, List.map_nil] at hj
  rw [expandI_raw t h] at hj
  unfold layI stripI
  split
  · rename_i n hs
    refine ⟨n + j, ?_⟩
    rw [hj, hs]
    simp [LI.expand]
  · exact ⟨j, hj⟩

theorem layI_pos (t : Ty) (h : t.WF) : (layI t).Pos := by
  unfold layI stripI
  split
  · trivial
  · exact pos_sI _ (rawI_ok t h) _ _ _

theorem layL_expand (merge rem : Bool) (t : Ty) (h : t.WF) :
    ∃ k X, kinds t = X ++ List.replicate k .pad ∧ (layL merge rem t).expand = X.map (mp merge) := by
  have hl : (rawL t).expand.length < W := by
    rw [expand_raw t h]
    have := kinds_length_le t h
    have := wf_size_lt h
    omega
  have := expand_sT_top merge rem (rawL t) 0 0 0 [] (Or.inl rfl) (by simp) (by simp) (by unfold W; omega) rfl (by simp)
    ⟨[], rfl⟩ (by simpa using hl) (raw_ok t h)
  rw [← expand_raw t h]
  simpa [layL] using this

theorem layL_good (merge rem : Bool) (t : Ty) (h : t.WF) : (layL merge rem t).Good merge :=
  good_sT merge _ (raw_good t h) _ _ _ _
theorem layL_pos (merge rem : Bool) (t : Ty) (h : t.WF) : (layL merge rem t).Pos :=
  pos_sT merge _ (raw_ok t h) _ _ _ _

end Verif.Layout
