import Verif.ValueProps
import Verif.LayoutInit

/-!
Values of types that differ only in their trailing padding (C72): the operations of the layout of one of the types are the same
bytes of the other one. Lemmas on layouts.
-/

namespace Verif.Cast
open Verif Verif.Layout Verif.Value

/-- items that can be exchanged: the same kinds of bytes, and containers whose elements can be exchanged -/
inductive KEq : List Item → List Item → Prop where
  | nil : KEq [] []
  | data {K K'} : KEq K K' → KEq (.data :: K) (.data :: K')
  | pad {K K'} : KEq K K' → KEq (.pad :: K) (.pad :: K')
  | vec {cs e e' K K'} : KEq (kinds e) (kinds e') → KEq K K' → KEq (.cont (.vec cs e) :: K) (.cont (.vec cs e') :: K')
  | str {cs K K'} : KEq K K' → KEq (.cont (.str cs) :: K) (.cont (.str cs) :: K')

theorem KEq.append {a a' b b' : List Item} (h : KEq a a') (h' : KEq b b') : KEq (a ++ b) (a' ++ b') := by
  induction h with
  | nil => exact h'
  | data _ ih => exact .data ih
  | pad _ ih => exact .pad ih
  | vec h1 _ _ ih => exact .vec h1 ih
  | str _ ih => exact .str ih

theorem KEq.rep {a a' : List Item} (h : KEq a a') (n : Nat) : KEq (rep n a) (rep n a') := by
  induction n with
  | zero => exact .nil
  | succ n ih => rw [rep_succ, rep_succ]; exact h.append ih

theorem KEq.symm {a a' : List Item} (h : KEq a a') : KEq a' a := by
  induction h with
  | nil => exact .nil
  | data _ ih => exact .data ih
  | pad _ ih => exact .pad ih
  | vec _ _ ih1 ih => exact .vec ih1 ih
  | str _ ih => exact .str ih

theorem KEq.pads (n : Nat) : KEq (List.replicate n .pad) (List.replicate n .pad) := by
  induction n with
  | zero => exact .nil
  | succ n ih => rw [List.replicate_succ]; exact .pad ih

theorem KEq.datas (n : Nat) : KEq (List.replicate n .data) (List.replicate n .data) := by
  induction n with
  | zero => exact .nil
  | succ n ih => rw [List.replicate_succ]; exact .data ih

theorem KEq.size {a a' : List Item} (h : KEq a a') : itemsSize a = itemsSize a' ∧ a.length = a'.length := by
  induction h with
  | nil => exact ⟨rfl, rfl⟩
  | data _ ih => simp [itemsSize] at ih ⊢; omega
  | pad _ ih => simp [itemsSize] at ih ⊢; omega
  | vec _ _ _ ih => simp [itemsSize, Item.size, Ty.size] at ih ⊢; omega
  | str _ ih => simp [itemsSize] at ih ⊢; omega

theorem KEq.split {x y b : List Item} (h : KEq (x ++ y) b) : ∃ x' y', b = x' ++ y' ∧ KEq x x' ∧ KEq y y' := by
  induction x generalizing b with
  | nil => exact ⟨[], b, rfl, .nil, h⟩
  | cons i x ih =>
    cases h with
    | data h => obtain ⟨x', y', rfl, h1, h2⟩ := ih h; exact ⟨_ :: x', y', rfl, .data h1, h2⟩
    | pad h => obtain ⟨x', y', rfl, h1, h2⟩ := ih h; exact ⟨_ :: x', y', rfl, .pad h1, h2⟩
    | vec h0 h => obtain ⟨x', y', rfl, h1, h2⟩ := ih h; exact ⟨_ :: x', y', rfl, .vec h0 h1, h2⟩
    | str h => obtain ⟨x', y', rfl, h1, h2⟩ := ih h; exact ⟨_ :: x', y', rfl, .str h1, h2⟩

theorem KEq.of_pads {n : Nat} {b : List Item} (h : KEq (List.replicate n .pad) b) : b = List.replicate n .pad := by
  induction n generalizing b with
  | zero => cases h; rfl
  | succ n ih =>
    rw [List.replicate_succ] at h
    cases h with
    | pad h => rw [ih h, List.replicate_succ]

/-- validity -/
theorem KEq.abs {env : Env} {K K' : List Item} {m : Mem} {v : List AV} (h : Abs env K m v) (hk : KEq K K') : Abs env K' m v := by
  induction h generalizing K' with
  | nil => cases hk; exact .nil
  | data _ ih => cases hk with | data hk => exact .data (ih hk)
  | pad _ ih => cases hk with | pad hk => exact .pad (ih hk)
  | vec h0 _ hl hm _ ih1 ih2 => cases hk with | vec he hk => exact .vec h0 (ih1 (he.rep _)) hl hm (ih2 hk)
  | str h0 hl _ ih => cases hk with | str hk => exact .str h0 hl (ih hk)

/-- equality -/
theorem KEq.veq {K K' : List Item} {v w : List AV} (h : VEq K v w) (hk : KEq K K') : VEq K' v w := by
  induction h generalizing K' with
  | nil => cases hk; exact .nil
  | data _ ih => cases hk with | data hk => exact .data (ih hk)
  | pad _ ih => cases hk with | pad hk => exact .pad (ih hk)
  | vec _ _ ih1 ih2 => cases hk with | vec he hk => exact .vec (ih1 (he.rep _)) (ih2 hk)
  | str _ ih => cases hk with | str hk => exact .str (ih hk)

/-! ### Trailing padding -/

/-- all operations are skips -/
def allSk : L → Bool
  | .nil => true
  | .mc _ _ => false
  | .sk _ k => allSk k
  | .ar _ _ _ => false
  | .co _ _ _ => false

/-- the bytes of an operation list without its last skips -/
def core : L → List Item
  | .nil => []
  | .mc n k => List.replicate n .data ++ core k
  | .sk n k => if allSk k then [] else List.replicate n .pad ++ core k
  | .ar n b k => rep n b.expand ++ core k
  | .co c _ k => .cont c :: core k

theorem allSk_app (a b : L) : allSk (a.app b) = (allSk a && allSk b) := by
  induction a with
  | nil => simp [L.app, allSk]
  | mc => simp [L.app, allSk]
  | sk _ _ ih => simpa [L.app, allSk] using ih
  | ar => simp [L.app, allSk]
  | co => simp [L.app, allSk]

theorem core_allSk {l : L} (h : allSk l = true) : core l = [] := by
  cases l with
  | nil => rfl
  | sk n k => simp only [allSk] at h; simp [core, h]
  | _ => simp [allSk] at h

theorem expand_allSk {l : L} (h : allSk l = true) : ∃ n, l.expand = List.replicate n .pad := by
  induction l with
  | nil => exact ⟨0, rfl⟩
  | sk n k ih =>
    simp only [allSk] at h
    obtain ⟨m, hm⟩ := ih h
    exact ⟨n + m, by simp [L.expand, hm]⟩
  | _ => simp [allSk] at h

theorem expand_core (l : L) : ∃ k, l.expand = core l ++ List.replicate k .pad := by
  induction l with
  | nil => exact ⟨0, rfl⟩
  | mc n k ih => obtain ⟨m, hm⟩ := ih; exact ⟨m, by simp [L.expand, core, hm]⟩
  | sk n k ih =>
    cases hs : allSk k with
    | true =>
      obtain ⟨m, hm⟩ := expand_allSk (l := .sk n k) hs
      exact ⟨m, by simp [core, hs, hm]⟩
    | false => obtain ⟨m, hm⟩ := ih; exact ⟨m, by simp [L.expand, core, hm, hs]⟩
  | ar n b k _ ih => obtain ⟨m, hm⟩ := ih; exact ⟨m, by simp [L.expand, core, hm]⟩
  | co c b k _ ih => obtain ⟨m, hm⟩ := ih; exact ⟨m, by simp [L.expand, core, hm]⟩

theorem core_app (a b : L) : core (a.app b) = if allSk b then core a else a.expand ++ core b := by
  induction a with
  | nil =>
    cases h : allSk b with
    | true => simp [L.app, core, core_allSk h]
    | false => simp [L.app, L.expand]
  | mc n k ih => simp only [L.app, core, ih]; cases allSk b <;> simp [L.expand]
  | sk n k ih =>
    simp only [L.app, core, ih, allSk_app]
    cases allSk b <;> simp [L.expand]
  | ar n d k _ ih => simp only [L.app, core, ih]; cases allSk b <;> simp [L.expand]
  | co n d k _ ih => simp only [L.app, core, ih]; cases allSk b <;> simp [L.expand]

theorem length_one (op c : Nat) (k : L) : (one op c k).expand.length = c + k.expand.length := by
  rw [expand_one]; simp
theorem length_flush (op c : Nat) (k : L) : (flush op c k).expand.length = c + k.expand.length := by
  rw [expand_flush]; simp

/-- simplification removes the last skips -/
theorem sT_len (merge : Bool) (l : L) : ∀ op c skc : Nat, (op = 0 ∨ op = 3) → (merge = true → op = 0) →
    (merge = false → op = 0 → skc = 0) → skc ≤ c → c + l.expand.length < W →
    (sT merge l (some true) op c skc).expand.length ≤
      if allSk l then (if op = 0 then c - skc else 0) else c + (core l).length := by
  induction l with
  | nil =>
    intro op c skc hop hm hz hle hW
    simp only [sT, fin, allSk, if_true]
    by_cases hc : c = 0
    · subst hc; simp [L.expand]
    · rw [if_pos hc]
      rcases hop with rfl | rfl
      · simp only [Bool.not_true, Bool.false_or, ne_eq, decide_not, show ¬ (0 : Nat) = 3 by decide, decide_false, Bool.not_false, if_true]
        rw [length_one, wsub_eq hle (by simp [L.expand] at hW; omega)]
        simp [L.expand]
      · simp [L.expand]
  | mc n k ih =>
    intro op c skc hop hm hz hle hW
    simp only [L.expand, List.length_append, List.length_replicate] at hW
    have hk : allSk k = true → core k = [] := core_allSk
    simp only [sT, allSk, core, Bool.false_eq_true, if_false, List.length_append, List.length_replicate]
    split
    · have := ih 0 (c + n) 0 (Or.inl rfl) (fun _ => rfl) (fun _ _ => rfl) (by omega) (by omega)
      refine Nat.le_trans this ?_
      repeat' split
      all_goals omega
    · split
      · have := ih 0 (c + n) 0 (Or.inl rfl) (fun _ => rfl) (fun _ _ => rfl) (by omega) (by omega)
        refine Nat.le_trans this ?_
        repeat' split
        all_goals omega
      · have := ih 0 n 0 (Or.inl rfl) (fun _ => rfl) (fun _ _ => rfl) (by omega) (by omega)
        rw [length_flush]
        repeat' split at this
        all_goals omega
  | sk n k ih =>
    intro op c skc hop hm hz hle hW
    simp only [L.expand, List.length_append, List.length_replicate] at hW
    have e1 : allSk (.sk n k) = allSk k := rfl
    have e2 : (core (.sk n k)).length = if allSk k = true then 0 else n + (core k).length := by
      simp only [core]; split <;> simp
    rw [e2]
    simp only [e1]
    have key : ∀ op' c' skc', (op' = 0 ∨ op' = 3) → (merge = true → op' = 0) → (merge = false → op' = 0 → skc' = 0) →
        skc' ≤ c' → c' + k.expand.length < W → (sT merge k (some true) op' c' skc').expand.length ≤
        if allSk k = true then (if op' = 0 then c' - skc' else 0) else c' + (core k).length := ih
    clear ih
    generalize allSk k = s at *
    simp only [sT]
    split
    · rename_i h3
      subst h3
      have := key 3 (c + n) (skc + n) (Or.inr rfl) hm (fun _ h => absurd h (by decide)) (by omega) (by omega)
      refine Nat.le_trans this ?_
      cases s <;> simp <;> omega
    · rename_i h3
      have h0 : op = 0 := by omega
      subst h0
      split
      · have := key 0 (c + n) (skc + n) (Or.inl rfl) (fun _ => rfl) (fun h _ => by simp_all) (by omega) (by omega)
        refine Nat.le_trans this ?_
        cases s <;> simp <;> omega
      · rename_i hmf
        have hs0 := hz (by simpa using hmf) rfl
        subst hs0
        have := key 3 n (0 + n) (Or.inr rfl) (fun h => absurd h hmf) (fun _ h => absurd h (by decide)) (by omega) (by omega)
        rw [length_flush]
        cases s <;> simp at this ⊢ <;> first | omega | simp_all
  | ar n b k _ ih =>
    intro op c skc hop hm hz hle hW
    have hl : (L.expand (.ar n b k)).length = n * b.expand.length + k.expand.length := by
      simp [L.expand, rep_length]
    rw [hl] at hW
    have hc : core (.ar n b k) = rep n b.expand ++ core k := rfl
    have hk : allSk k = true → core k = [] := core_allSk
    simp only [allSk, Bool.false_eq_true, if_false, hc, List.length_append, rep_length]
    simp only [sT]
    split
    · rename_i op' m hs
      obtain ⟨e1, e2, _⟩ := expand_single hs
      have e3 := congrArg List.length e1
      rw [expand_sT_block merge b 0 0 0 (Or.inl rfl) (fun _ => rfl)] at e3
      simp at e3
      have hop' : merge = true → op' = 0 := by
        intro hmt
        subst hmt
        rcases e2 with h | h
        · exact h
        · subst h; exact (single_merge b 0 0 0 none rfl _ hs).elim
      have e4 : m * n = n * b.expand.length := by rw [e3, Nat.mul_comm]
      rw [e4]
      split
      · rename_i hcc
        have := ih op (c + n * b.expand.length) 0 hop hm (fun _ _ => rfl) (by omega) (by omega)
        refine Nat.le_trans this ?_
        split
        · repeat' split
          all_goals omega
        · omega
      · have := ih op' (n * b.expand.length) 0 e2 hop' (fun _ _ => rfl) (by omega) (by omega)
        rw [length_flush]
        split at this
        · repeat' split at this
          all_goals omega
        · omega
    · have := ih op 0 0 hop hm (fun _ _ => rfl) (by omega) (by omega)
      rw [length_flush]
      have e5 : ∀ x y : L, (L.ar n x y).expand.length = n * x.expand.length + y.expand.length := by
        intro x y; simp [L.expand, rep_length]
      have e6 : (sT merge b none 0 0 0).expand.length = b.expand.length := by
        rw [expand_sT_block merge b 0 0 0 (Or.inl rfl) (fun _ => rfl)]; simp
      rw [e5, e6]
      split at this
      · repeat' split at this
        all_goals omega
      · omega
  | co ct b k _ ih =>
    intro op c skc hop hm hz hle hW
    simp only [L.expand, List.length_cons] at hW
    have hc : core (.co ct b k) = .cont ct :: core k := rfl
    simp only [allSk, Bool.false_eq_true, if_false, hc, List.length_cons]
    simp only [sT]
    have := ih op 0 0 hop hm (fun _ _ => rfl) (by omega) (by omega)
    rw [length_flush]
    have e5 : ∀ x y : L, (L.co ct x y).expand.length = y.expand.length + 1 := by
      intro x y; simp [L.expand]
    rw [e5]
    split at this
    · repeat' split at this
      all_goals omega
    · omega

/-- the layout that drops the last padding -/
theorem layL_len (merge : Bool) (t : Ty) (h : t.WF) : (layL merge true t).expand.length ≤ (core (rawL t)).length := by
  have hl : (rawL t).expand.length < W := by
    rw [expand_raw t h]
    have := kinds_length_le t h
    have := wf_size_lt h
    omega
  have := sT_len merge (rawL t) 0 0 0 (Or.inl rfl) (fun _ => rfl) (fun _ _ => rfl) (by omega) (by omega)
  unfold layL
  split at this
  · simp at this; simp [this]
  · omega

/-! ### Types that differ in their trailing padding -/

mutual
/-- `TCast a b`: `b` has the layout of `a`, but for the bytes after the last field of the structures (`Type::canCastTo`,
typemodel.cc:63-124, 338-366; enums are compared by size only as far as bytes go). The sizes of elements of arrays and
containers are the same. -/
def TCast : Ty → Ty → Prop
  | .num n, .num n' => n = n'
  | .enum n _, .enum n' _ => n = n'
  | .arr d e, .arr d' e' => d = d' ∧ e.size = e'.size ∧ TCast e e'
  | .vec c e, .vec c' e' => c = c' ∧ e.size = e'.size ∧ TCast e e'
  | .str c, .str c' => c = c'
  | .comp _ fs, .comp _ fs' => TCastF fs fs'
  | .ptr n, .ptr n' => n = n'
  | .opaq n, .opaq n' => n = n'
  | _, _ => False
def TCastF : Fields → Fields → Prop
  | .nil, .nil => True
  | .cons off t r, .cons off' t' r' => off = off' ∧ TCast t t' ∧ TCastF r r'
  | _, _ => False
end

theorem kinds_core (t : Ty) (h : t.WF) : ∃ k, kinds t = core (rawL t) ++ List.replicate k .pad := by
  obtain ⟨k, hk⟩ := expand_core (rawL t)
  exact ⟨k, by rw [← expand_raw t h, hk]⟩

/-- elements of equal sizes -/
theorem KEq.of_core {t t' : Ty} (h : t.WF) (h' : t'.WF) (hs : t.size = t'.size)
    (hc : KEq (core (rawL t)) (core (rawL t'))) : KEq (kinds t) (kinds t') := by
  obtain ⟨k, hk⟩ := kinds_core t h
  obtain ⟨k', hk'⟩ := kinds_core t' h'
  have e1 := kinds_size t h
  have e2 := kinds_size t' h'
  have e3 := hc.size.1
  rw [hk, itemsSize_append, itemsSize_replicate _ _ rfl] at e1
  rw [hk', itemsSize_append, itemsSize_replicate _ _ rfl] at e2
  have : k = k' := by omega
  subst this
  rw [hk, hk']
  exact hc.append (KEq.pads k)

theorem wfF_le : ∀ {fs : Fields} {cur n : Nat}, fs.WF cur n → cur ≤ n
  | .nil, _, _, h => h
  | .cons _ _ _, _, _, h => by
    have := h.1
    have := wfF_le h.2.2
    omega

mutual
theorem tcast_core : ∀ (t t' : Ty), t.WF → t'.WF → TCast t t' →
    allSk (rawL t) = allSk (rawL t') ∧ KEq (core (rawL t)) (core (rawL t'))
  | .num n, .num n', _, _, h => by cases (h : n = n'); exact ⟨rfl, (KEq.datas n).append .nil⟩
  | .enum n _, .enum n' _, _, _, h => by cases (h : n = n'); exact ⟨rfl, (KEq.datas n).append .nil⟩
  | .arr d e, .arr d' e', w, w', h => by
    obtain ⟨h1, h2, h3⟩ : d = d' ∧ e.size = e'.size ∧ TCast e e' := h
    cases h1
    have ih := (tcast_core e e' w.2.2.2 w'.2.2.2 h3).2
    refine ⟨rfl, ?_⟩
    simp only [rawL, core, expand_raw e w.2.2.2, expand_raw e' w'.2.2.2]
    exact ((KEq.of_core w.2.2.2 w'.2.2.2 h2 ih).rep d).append .nil
  | .vec c e, .vec c' e', w, w', h => by
    obtain ⟨h1, h2, h3⟩ : c = c' ∧ e.size = e'.size ∧ TCast e e' := h
    cases h1
    have ih := (tcast_core e e' w.2.2.2 w'.2.2.2 h3).2
    exact ⟨rfl, .vec (KEq.of_core w.2.2.2 w'.2.2.2 h2 ih) .nil⟩
  | .str c, .str c', _, _, h => by cases (h : c = c'); exact ⟨rfl, .str .nil⟩
  | .comp n fs, .comp n' fs', w, w', h => by
    obtain ⟨h1, h2⟩ := tcastF_core fs fs' 0 0 n n' w.2 w'.2 w.1 w'.1 h
    refine ⟨h1, ?_⟩
    simp only [rawL]
    cases ha : allSk (rawLF 0 n fs) with
    | true => rw [core_allSk ha, core_allSk (h1 ▸ ha)]; exact .nil
    | false => simpa using h2 ha 0 (Nat.le_refl _) (Nat.le_refl _)
  | .ptr n, .ptr n', _, _, h => by cases (h : n = n'); exact ⟨rfl, (KEq.datas n).append .nil⟩
  | .opaq n, .opaq n', _, _, h => by cases (h : n = n'); exact ⟨rfl, .nil⟩
theorem tcastF_core : ∀ (fs fs' : Fields) (cur cur' n n' : Nat), fs.WF cur n → fs'.WF cur' n' → n < W → n' < W → TCastF fs fs' →
    allSk (rawLF cur n fs) = allSk (rawLF cur' n' fs') ∧
    (allSk (rawLF cur n fs) = false → ∀ base, base ≤ cur → base ≤ cur' →
      KEq (List.replicate (cur - base) .pad ++ core (rawLF cur n fs)) (List.replicate (cur' - base) .pad ++ core (rawLF cur' n' fs')))
  | .nil, .nil, cur, cur', n, n', w, w', hn, hn', h => ⟨rfl, fun h => by simp [rawLF, allSk] at h⟩
  | .cons off t r, .cons off' t' r', cur, cur', n, n', w, w', hn, hn', h => by
    obtain ⟨h1, h2, h3⟩ : off = off' ∧ TCast t t' ∧ TCastF r r' := h
    cases h1
    obtain ⟨w1, w2, w3⟩ : cur ≤ off ∧ t.WF ∧ r.WF (off + t.size) n := w
    obtain ⟨w1', w2', w3'⟩ : cur' ≤ off ∧ t'.WF ∧ r'.WF (off + t'.size) n' := w'
    have l1 := wfF_le w3
    have l2 := wfF_le w3'
    obtain ⟨t1, t2⟩ := tcast_core t t' w2 w2' h2
    obtain ⟨r1, r2⟩ := tcastF_core r r' (off + t.size) (off + t'.size) n n' w3 w3' hn hn' h3
    simp only [rawLF, wsub_eq w1 (by omega), wsub_eq w1' (by omega), wadd_eq (show off + t.size < W by omega),
      wadd_eq (show off + t'.size < W by omega)]
    refine ⟨by simp only [allSk, allSk_app, t1, r1], ?_⟩
    intro hf base hb hb'
    have e : allSk (L.sk (off - cur) ((rawL t).app (rawLF (off + t.size) n r))) = (allSk (rawL t) && allSk (rawLF (off + t.size) n r)) := by
      simp only [allSk, allSk_app]
    have hf1 : allSk ((rawL t).app (rawLF (off + t.size) n r)) = false := hf
    have hf2 : allSk ((rawL t').app (rawLF (off + t'.size) n' r')) = false := by rw [allSk_app, ← t1, ← r1, ← allSk_app]; exact hf1
    have p1 : List.replicate (cur - base) Item.pad ++ List.replicate (off - cur) .pad = List.replicate (off - base) .pad := by
      rw [List.replicate_append_replicate, show cur - base + (off - cur) = off - base by omega]
    have p2 : List.replicate (cur' - base) Item.pad ++ List.replicate (off - cur') .pad = List.replicate (off - base) .pad := by
      rw [List.replicate_append_replicate, show cur' - base + (off - cur') = off - base by omega]
    simp only [core, hf1, hf2, Bool.false_eq_true, if_false]
    rw [← List.append_assoc, ← List.append_assoc, p1, p2]
    refine (KEq.pads _).append ?_
    rw [core_app, core_app]
    cases hr : allSk (rawLF (off + t.size) n r) with
    | true => rw [← r1, hr]; exact t2
    | false =>
      rw [← r1, hr]
      simp only [Bool.false_eq_true, if_false]
      rw [expand_raw t w2, expand_raw t' w2']
      obtain ⟨k, hk⟩ := kinds_core t w2
      obtain ⟨k', hk'⟩ := kinds_core t' w2'
      have e1 := kinds_size t w2
      have e2 := kinds_size t' w2'
      have e3 := t2.size.1
      rw [hk, itemsSize_append, itemsSize_replicate _ _ rfl] at e1
      rw [hk', itemsSize_append, itemsSize_replicate _ _ rfl] at e2
      have q := r2 hr (off + itemsSize (core (rawL t))) (by omega) (by omega)
      rw [show off + t.size - (off + itemsSize (core (rawL t))) = k by omega,
        show off + t'.size - (off + itemsSize (core (rawL t))) = k' by omega] at q
      rw [hk, hk', List.append_assoc, List.append_assoc]
      exact t2.append q
end

/-- The layout of one type describes the bytes of the other one. -/
theorem cast_split (merge : Bool) {a b : Ty} (wa : a.WF) (wb : b.WF) (h : TCast a b) :
    ∃ X X' k k', kinds a = X ++ List.replicate k .pad ∧ kinds b = X' ++ List.replicate k' .pad ∧ KEq X X' ∧
      (layL merge true a).expand = X.map (mp merge) := by
  obtain ⟨k0, hk0⟩ := kinds_core a wa
  obtain ⟨k1, hk1⟩ := kinds_core b wb
  obtain ⟨j, X, e1, e2⟩ := layL_expand merge true a wa
  have hl := layL_len merge a wa
  rw [e2, List.length_map] at hl
  have hx := (tcast_core a b wa wb h).2
  have hp : X <+: core (rawL a) := by
    refine List.prefix_of_prefix_length_le (l₃ := kinds a) ?_ ?_ hl
    · rw [e1]; exact List.prefix_append _ _
    · rw [hk0]; exact List.prefix_append _ _
  obtain ⟨Y, hY⟩ := hp
  rw [← hY] at hx
  obtain ⟨X', Y', f1, f2, f3⟩ := hx.split
  have hYp : Y = List.replicate Y.length .pad := by
    have : Y ++ List.replicate k0 .pad = List.replicate j .pad := by
      rw [hk0, ← hY, List.append_assoc] at e1
      exact List.append_cancel_left e1
    refine List.eq_replicate_iff.mpr ⟨rfl, fun x hx => ?_⟩
    have : x ∈ List.replicate j Item.pad := this ▸ List.mem_append.mpr (Or.inl hx)
    exact (List.mem_replicate.mp this).2
  rw [hYp] at f3
  have hY' := f3.of_pads
  refine ⟨X, X', j, Y.length + k1, e1, ?_, f2, e2⟩
  rw [hk1, f1, hY', List.append_assoc, List.replicate_append_replicate]

end Verif.Cast
