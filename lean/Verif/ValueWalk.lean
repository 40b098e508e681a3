import Verif.ValueSpec

/-! Generic reasoning about the bytecode loops and the memory primitives. -/

namespace Verif.Value
open Verif Verif.Layout

/-! ### outcomes -/

/-- the outcome is a result satisfying `Q` or an exception satisfying `E`: no undefined behaviour, terminates -/
def Tri {σ α : Type} (o : Out σ α) (Q : α → σ → Prop) (E : Err → σ → Prop) : Prop :=
  match o with
  | .ok a s => Q a s
  | .exn e s => E e s
  | .ub => False
  | .fuel => False

theorem Tri.bind {σ α β : Type} {x : Out σ α} {f : α → σ → Out σ β} {Q : β → σ → Prop} {E : Err → σ → Prop}
    (h : Tri x (fun a s => Tri (f a s) Q E) E) : Tri (x.bind f) Q E := by
  cases x <;> exact h

theorem Tri.mono {σ α : Type} {x : Out σ α} {Q Q' : α → σ → Prop} {E E' : Err → σ → Prop} (h : Tri x Q E)
    (hq : ∀ a s, Q a s → Q' a s) (he : ∀ e s, E e s → E' e s) : Tri x Q' E' := by
  cases x with
  | ok a s => exact hq _ _ h
  | exn e s => exact he _ _ h
  | ub => exact h
  | fuel => exact h

theorem Tri.conv {σ τ α : Type} {x : Out σ α} {g : σ → τ} {Q : α → τ → Prop} {E : Err → τ → Prop}
    (h : Tri x (fun a s => Q a (g s)) (fun e s => E e (g s))) : Tri (x.conv g) Q E := by
  cases x <;> exact h

/-- a result without exception is a plain equation -/
theorem Tri.ok_iff {σ α : Type} {x : Out σ α} {Q : α → σ → Prop} :
    Tri x Q (fun _ _ => False) ↔ ∃ a s, x = .ok a s ∧ Q a s := by
  cases x with
  | ok a s =>
    refine ⟨fun h => ⟨a, s, rfl, h⟩, ?_⟩
    rintro ⟨a', s', h, hq⟩
    cases h; exact hq
  | _ => simp [Tri]

@[simp] theorem Out.bind_ok {σ α β : Type} (a : α) (s : σ) (f : α → σ → Out σ β) : (Out.ok a s).bind f = f a s := rfl
@[simp] theorem Out.bind_exn {σ α β : Type} (e : Err) (s : σ) (f : α → σ → Out σ β) :
    (Out.exn e s : Out σ α).bind f = .exn e s := rfl
@[simp] theorem Out.conv_ok {σ τ α : Type} (a : α) (s : σ) (g : σ → τ) : (Out.ok a s).conv g = .ok a (g s) := rfl
@[simp] theorem Out.conv_exn {σ τ α : Type} (e : Err) (s : σ) (g : σ → τ) :
    (Out.exn e s : Out σ α).conv g = .exn e (g s) := rfl
@[simp] theorem Out.ofOpt_some {σ α : Type} (a : α) (s : σ) : Out.ofOpt (some a) s = .ok a s := rfl
@[simp] theorem Out.ofRes_ok {σ α : Type} (a : α) (s : σ) : Out.ofRes (.ok a) s = .ok a s := rfl
@[simp] theorem Out.ofRes_exn {σ α : Type} (e : Err) (s : σ) : (Out.ofRes (.exn e) s : Out σ α) = .exn e s := rfl

/-! ### memory -/

theorem mapM_byte (bs : List UInt8) : (bs.map Cell.byte).mapM Cell.byte? = some bs := by
  induction bs with
  | nil => rfl
  | cons x bs ih => simp [List.mapM_cons, Cell.byte?, ih]

theorem readBytes_app (pre : Mem) (bs : List UInt8) (post : Mem) :
    readBytes (pre ++ (bs.map .byte ++ post)) pre.length bs.length = some bs := by
  unfold readBytes
  split
  · rename_i h; rw [List.length_eq_zero_iff.mp h]
  · rw [if_pos (by simp), List.drop_left, ← mapM_byte bs]
    congr 1
    rw [List.take_append_of_le_length (by simp), List.take_of_length_le (by simp)]

theorem writeBytes_app (pre : Mem) (cells : Mem) (bs : List UInt8) (post : Mem) (hl : cells.length = bs.length)
    (hlive : cells.all (fun c => !c.live) = true) :
    writeBytes (pre ++ (cells ++ post)) pre.length bs = some (pre ++ (bs.map .byte ++ post)) := by
  unfold writeBytes
  split
  · rename_i h
    rw [h] at hl
    rw [List.length_eq_zero_iff.mp hl, List.length_eq_zero_iff.mp h]; rfl
  · rw [if_pos]
    · rw [← hl, ← List.drop_drop, List.take_left, List.drop_left, List.drop_left, List.append_assoc]
    · refine ⟨by simp; omega, ?_⟩
      rw [List.drop_left, ← hl, List.take_left]; exact hlive

theorem bytes_not_live (bs : List UInt8) : (bs.map Cell.byte).all (fun c => !c.live) = true := by
  induction bs with
  | nil => rfl
  | cons x bs ih => simp [Cell.live]

theorem getCell_app (pre : Mem) (c : Cell) (cs : Nat) (post : Mem) (hc : 0 < cs) :
    getCell (pre ++ (c :: (List.replicate (cs - 1) .tail ++ post))) pre.length cs = some c := by
  unfold getCell
  rw [List.getElem?_append_right (Nat.le_refl _)]
  simp only [Nat.sub_self, List.getElem?_cons_zero]
  rw [if_pos]
  refine ⟨by simp; omega, ?_⟩
  rw [← List.drop_drop, List.drop_left, List.drop_one, List.tail_cons, List.take_append_of_le_length (by simp),
    List.take_of_length_le (by simp)]
  simp [Cell.isTail]

theorem setCell_app (pre : Mem) (c c' : Cell) (post : Mem) :
    setCell (pre ++ (c :: post)) pre.length c' = pre ++ (c' :: post) := by
  unfold setCell; simp

theorem construct_app (pre cells post : Mem) (cs : Nat) (c : Cell) (hc : 0 < cs) (hl : cells.length = cs)
    (hlive : cells.all (fun c => !c.live) = true) :
    construct (pre ++ (cells ++ post)) pre.length cs c =
      some (pre ++ (c :: (List.replicate (cs - 1) .tail ++ post))) := by
  unfold construct
  rw [if_pos]
  · rw [← hl, ← List.drop_drop, List.take_left, List.drop_left, List.drop_left, List.append_assoc, List.cons_append]
  · refine ⟨hc, by simp; omega, ?_⟩
    rw [List.drop_left, ← hl, List.take_left]; exact hlive

theorem destruct_app (pre cells post : Mem) (cs : Nat) (hl : cells.length = cs) :
    destruct (pre ++ (cells ++ post)) pre.length cs = pre ++ (List.replicate cs .dead ++ post) := by
  unfold destruct
  rw [← hl, ← List.drop_drop, List.take_left, List.drop_left, List.drop_left, List.append_assoc]

/-! ### loops -/

/-- the iterator is at the end of the stream or at FLAG_END -/
def Stop (rest : List Word) : Prop := rest = [] ∨ ∃ x, rest = .n 4 :: x

/-- `P` holds of every container and its element block -/
def _root_.Verif.Layout.L.All (P : Ty → L → Prop) : L → Prop
  | .nil => True
  | .mc _ k => k.All P
  | .sk _ k => k.All P
  | .ar _ b k => b.All P ∧ k.All P
  | .co c b k => P c b ∧ b.All P ∧ k.All P

theorem repeatM_tri {σ : Type} {g : σ → Out σ (List Word)} {Inv : List Item → σ → Prop} {E : Err → σ → Prop}
    {b K : List Item} {rest : List Word}
    (h : ∀ K s, Inv (b ++ K) s → Tri (g s) (fun it s' => it = rest ∧ Inv K s') E) :
    ∀ (n : Nat) (it : List Word) (s : σ), (0 < n ∨ it = rest) → Inv (rep n b ++ K) s →
      Tri (repeatM g n it s) (fun it s' => it = rest ∧ Inv K s') E := by
  intro n
  induction n with
  | zero =>
    intro it s hn hi
    rcases hn with hn | hn
    · omega
    · exact ⟨hn, by simpa using hi⟩
  | succ n ih =>
    intro it s _ hi
    rw [rep_succ, List.append_assoc] at hi
    apply Tri.bind
    refine (h _ _ hi).mono ?_ (fun _ _ h => h)
    rintro it' s' ⟨rfl, hi'⟩
    exact ih _ _ (Or.inr rfl) hi'

/-- The loops of value_ops.cc on a well-formed operation list keep an invariant `Inv g K s` (`K`: the items still
to be visited, `g`: ghost data) and terminate at the end of the list. -/
theorem walk_tri {σ γ : Type} (I : Interp σ) (P : Ty → L → Prop) (Inv : γ → List Item → σ → Prop) (E : γ → Err → σ → Prop)
    (hm : ∀ g n K s, Inv g (List.replicate n .data ++ K) s → Tri (I.memcpy n s) (fun _ s' => Inv g K s') (E g))
    (hs : ∀ g n K s, Inv g (List.replicate n .pad ++ K) s → Tri (I.skip n s) (fun _ s' => Inv g K s') (E g))
    (hc : ∀ (g : γ) (c : Ty) (b : L) (K : List Item) (f : Nat) (after : List Word) (s : σ), P c b →
      (∀ (g : γ) (K : List Item) (rest : List Word) (s : σ), Stop rest → Inv g (b.expand ++ K) s →
        Tri (walk I f (b.enc ++ rest) s) (fun it s' => it = rest ∧ Inv g K s') (E g)) →
      Inv g (.cont c :: K) s →
      Tri (I.cont (walk I f) c (b.enc ++ .n 4 :: after) s) (fun it s' => it = .n 4 :: after ∧ Inv g K s') (E g))
    (l : L) : l.All P → l.Pos → ∀ (g : γ) (K : List Item) (f : Nat) (rest : List Word) (s : σ), Stop rest →
      l.enc.length < f → Inv g (l.expand ++ K) s →
      Tri (walk I f (l.enc ++ rest) s) (fun it s' => it = rest ∧ Inv g K s') (E g) := by
  induction l with
  | nil =>
    intro _ _ g K f rest s hr hf hi
    cases f with
    | zero => simp at hf
    | succ f =>
      rcases hr with rfl | ⟨x, rfl⟩
      · exact ⟨rfl, hi⟩
      · simp only [L.enc, List.nil_append, walk, FLAG_END, if_true]
        exact ⟨rfl, hi⟩
  | mc n k ih =>
    intro ha hp g K f rest s hr hf hi
    cases f with
    | zero => simp at hf
    | succ f =>
      simp only [L.expand, List.append_assoc] at hi
      simp only [L.enc, List.length_cons] at hf
      simp only [L.enc, List.cons_append, walk, FLAG_END, FLAG_MEMCPY, show ¬ (0:Nat) = 4 by decide, if_false, if_true]
      apply Tri.bind
      refine (hm g n _ _ hi).mono ?_ (fun _ _ h => h)
      intro _ s' hi'
      exact ih ha hp g K f rest s' hr (by omega) hi'
  | sk n k ih =>
    intro ha hp g K f rest s hr hf hi
    cases f with
    | zero => simp at hf
    | succ f =>
      simp only [L.expand, List.append_assoc] at hi
      simp only [L.enc, List.length_cons] at hf
      simp only [L.enc, List.cons_append, walk, FLAG_END, FLAG_MEMCPY, FLAG_SKIP, show ¬ (3:Nat) = 4 by decide,
        show ¬ (3:Nat) = 0 by decide, if_false, if_true]
      apply Tri.bind
      refine (hs g n _ _ hi).mono ?_ (fun _ _ h => h)
      intro _ s' hi'
      exact ih ha hp g K f rest s' hr (by omega) hi'
  | ar n b k ihb ihk =>
    intro ha hp g K f rest s hr hf hi
    cases f with
    | zero => simp at hf
    | succ f =>
      simp only [L.expand, List.append_assoc] at hi
      simp only [L.enc, List.length_cons, List.length_append] at hf
      simp only [L.enc, List.cons_append, walk, FLAG_END, FLAG_MEMCPY, FLAG_SKIP, FLAG_ARRAY, show ¬ (1:Nat) = 4 by decide,
        show ¬ (1:Nat) = 0 by decide, show ¬ (1:Nat) = 3 by decide, if_false, if_true, List.append_assoc]
      have hn := hp.1
      rw [if_neg (by omega)]
      apply Tri.bind
      refine (repeatM_tri (Inv := Inv g) (rest := .n 4 :: (k.enc ++ rest)) ?_ n _ s (Or.inl hn) hi).mono ?_ (fun _ _ h => h)
      · intro K' s' hi'
        exact ihb ha.1 hp.2.1 g K' f _ s' (Or.inr ⟨_, rfl⟩) (by omega) hi'
      · rintro it s' ⟨rfl, hi'⟩
        exact ihk ha.2 hp.2.2 g K f rest s' hr (by omega) hi'
  | co c b k ihb ihk =>
    intro ha hp g K f rest s hr hf hi
    cases f with
    | zero => simp at hf
    | succ f =>
      simp only [L.expand, List.cons_append] at hi
      simp only [L.enc, List.length_cons, List.length_append] at hf
      simp only [L.enc, List.cons_append, walk, FLAG_END, FLAG_MEMCPY, FLAG_SKIP, FLAG_ARRAY, FLAG_CONTAINER,
        show ¬ (2:Nat) = 4 by decide, show ¬ (2:Nat) = 1 by decide,
        show ¬ (2:Nat) = 0 by decide, show ¬ (2:Nat) = 3 by decide, if_false, if_true, List.append_assoc]
      apply Tri.bind
      refine (hc g c b _ f (k.enc ++ rest) s ha.1 ?_ hi).mono ?_ (fun _ _ h => h)
      · intro g' K' rest' s' hr' hi'
        exact ihb ha.2.1 hp.1 g' K' f rest' s' hr' (by omega) hi'
      · rintro it s' ⟨rfl, hi'⟩
        exact ihk ha.2.2 hp.2 g K f rest s' hr (by omega) hi'

/-- counting loops: `i` runs over `start + k * step`, `k < n` -/
theorem forStep_tri {σ : Type} (body : Nat → σ → Out σ Unit) (step : Nat) (Inv : Nat → σ → Prop)
    (E : Err → σ → Prop) (n : Nat) (start : Nat) (hstep : 0 < step) (hW : start + n * step < W)
    (h : ∀ k s, k < n → Inv k s → Tri (body (start + k * step) s) (fun _ s' => Inv (k + 1) s') E) :
    ∀ (m k f : Nat) (s : σ), m + k = n → m < f → Inv k s →
      Tri (forStep body (start + n * step) step f (start + k * step) s) (fun _ s' => Inv n s') E := by
  intro m
  induction m with
  | zero =>
    intro k f s hk hf hi
    cases f with
    | zero => omega
    | succ f =>
      have : k = n := by omega
      subst this
      simp only [forStep, Nat.lt_irrefl, if_false]
      exact hi
  | succ m ih =>
    intro k f s hk hf hi
    cases f with
    | zero => omega
    | succ f =>
      have hlt : k < n := by omega
      have hle : (k + 1) * step ≤ n * step := Nat.mul_le_mul_right _ (by omega)
      rw [Nat.succ_mul] at hle
      simp only [forStep]
      rw [if_pos (by omega)]
      apply Tri.bind
      refine (h k s hlt hi).mono ?_ (fun _ _ h => h)
      intro _ s' hi'
      rw [wadd_eq (by omega), show start + k * step + step = start + (k + 1) * step by rw [Nat.succ_mul]; omega]
      exact ih (k + 1) f s' (by omega) (by omega) hi'

end Verif.Value
