import Verif.LayoutProps
/-!
C09: `MemoryLayout::validate` accepts exactly the operation lists that are made of complete operations and closed blocks.
-/
namespace Verif.Layout

/-! ### Specification: the shape of operation lists -/

/-- a sequence of complete operations; each ARRAY and CONTAINER is closed by its END -/
inductive Blocks : List Word → Prop
  | nil : Blocks []
  | memcpy {x k} : Blocks k → Blocks (.n FLAG_MEMCPY :: x :: k)
  | skip {x k} : Blocks k → Blocks (.n FLAG_SKIP :: x :: k)
  | array {x b k} : Blocks b → Blocks k → Blocks (.n FLAG_ARRAY :: x :: (b ++ .n FLAG_END :: k))
  | container {x b k} : Blocks b → Blocks k → Blocks (.n FLAG_CONTAINER :: x :: (b ++ .n FLAG_END :: k))

/-- an operation of the second list -/
def isInitOp (o : Nat) : Prop :=
  o = FLAG_INIT ∨ o = FLAG_INIT_SKIP ∨ o = FLAG_INIT_REPEAT ∨ o = FLAG_INIT_CONTAINER ∨ o = FLAG_INIT_END

/-- a sequence of complete initialisation operations; words that are no operation are passed over -/
inductive InitBlocks : List Word → Prop
  | nil : InitBlocks []
  | skip {x k} : InitBlocks k → InitBlocks (.n FLAG_INIT_SKIP :: x :: k)
  | container {x k} : InitBlocks k → InitBlocks (.n FLAG_INIT_CONTAINER :: x :: k)
  | init {data k} : InitBlocks k → InitBlocks (.n FLAG_INIT :: .n data.length :: (data ++ k))
  | repeat {x b k} : InitBlocks b → InitBlocks k → InitBlocks (.n FLAG_INIT_REPEAT :: x :: (b ++ .n FLAG_INIT_END :: k))
  | other {o k} : ¬ isInitOp o → InitBlocks k → InitBlocks (.n o :: k)
  | ptr {t k} : InitBlocks k → InitBlocks (.p t :: k)

/-! ### Lemmas -/

theorem blocks_append {b : List Word} (h : Blocks b) : ∀ (k : Nat) (r : List Word), validateOps k (b ++ r) = validateOps k r := by
  induction h with
  | nil => intros; rfl
  | memcpy _ ih => intro k r; simp only [List.cons_append, validateOps, true_or, if_true]; exact ih k r
  | skip _ ih => intro k r; simp only [List.cons_append, validateOps, or_true, if_true]; exact ih k r
  | array _ _ ihb ihk =>
    intro k r
    simp only [List.cons_append, validateOps, List.append_assoc]
    rw [if_neg (by decide), if_pos (by decide), ihb]
    rw [validateOps.eq_def]
    simp only
    rw [if_neg (by decide), if_neg (by decide), if_pos trivial]
    exact ihk k r
  | container _ _ ihb ihk =>
    intro k r
    simp only [List.cons_append, validateOps, List.append_assoc]
    rw [if_neg (by decide), if_pos (by decide), ihb]
    rw [validateOps.eq_def]
    simp only
    rw [if_neg (by decide), if_neg (by decide), if_pos trivial]
    exact ihk k r

/-- what is left of a sequence after `k` opened blocks -/
def Closes : Nat → List Word → Prop
  | 0, ops => Blocks ops
  | k + 1, ops => ∃ b r, ops = b ++ .n FLAG_END :: r ∧ Blocks b ∧ Closes k r

theorem closes_of : ∀ (n k : Nat) (ops : List Word), ops.length ≤ n → validateOps k ops = .ok 0 → Closes k ops := by
  intro n
  induction n with
  | zero =>
    intro k ops hn h
    obtain rfl : ops = [] := List.length_eq_zero_iff.mp (by omega)
    simp only [validateOps, Res.ok.injEq] at h
    subst h
    exact .nil
  | succ n ih =>
    intro k ops hn h
    match ops, hn, h with
    | [], _, h =>
      simp only [validateOps, Res.ok.injEq] at h
      subst h
      exact .nil
    | .p _ :: _, _, h => simp [validateOps] at h
    | .n o :: r, hn, h =>
      rw [validateOps.eq_def] at h
      simp only at h
      split at h
      · rename_i ho
        match r, h with
        | x :: r', h =>
          have := ih k r' (by simp at hn ⊢; omega) h
          cases k with
          | zero => rcases ho with rfl | rfl; exact .memcpy this; exact .skip this
          | succ k =>
            obtain ⟨b, s, rfl, hb, hc⟩ := this
            rcases ho with rfl | rfl
            · exact ⟨.n FLAG_MEMCPY :: x :: b, s, rfl, .memcpy hb, hc⟩
            · exact ⟨.n FLAG_SKIP :: x :: b, s, rfl, .skip hb, hc⟩
      · split at h
        · rename_i _ ho
          match r, h with
          | x :: r', h =>
            obtain ⟨b, s, rfl, hb, hc⟩ := ih (k + 1) r' (by simp at hn ⊢; omega) h
            cases k with
            | zero => rcases ho with rfl | rfl; exact .array hb hc; exact .container hb hc
            | succ k =>
              obtain ⟨b2, s2, rfl, hb2, hc2⟩ := hc
              rcases ho with rfl | rfl
              · exact ⟨.n FLAG_ARRAY :: x :: (b ++ .n FLAG_END :: b2), s2, by simp, .array hb hb2, hc2⟩
              · exact ⟨.n FLAG_CONTAINER :: x :: (b ++ .n FLAG_END :: b2), s2, by simp, .container hb hb2, hc2⟩
        · split at h
          · rename_i ho
            cases k with
            | zero => simp at h
            | succ k => exact ⟨[], r, by rw [ho]; rfl, .nil, ih k r (by simp at hn; omega) h⟩
          · simp at h

theorem validateOps_iff (ops : List Word) : validateOps 0 ops = .ok 0 ↔ Blocks ops := by
  constructor
  · exact closes_of ops.length 0 ops (Nat.le_refl _)
  · intro h
    have := blocks_append h 0 []
    rw [List.append_nil] at this
    rw [this]; rfl

theorem initBlocks_append {b : List Word} (h : InitBlocks b) : ∀ (f k : Nat) (r : List Word), b.length ≤ f →
    ∃ f', validateInit (f + 1) k (b ++ r) = validateInit (f' + 1) k r ∧ f ≤ f' + b.length := by
  induction h with
  | nil => intro f k r _; exact ⟨f, rfl, by simp⟩
  | skip _ ih =>
    intro f k r hf
    obtain ⟨f, rfl⟩ : ∃ g, f = g + 1 := ⟨f - 1, by simp at hf; omega⟩
    obtain ⟨f', h1, h2⟩ := ih f k r (by simp at hf; omega)
    refine ⟨f', ?_, by simp; omega⟩
    simp only [List.cons_append, validateInit, true_or, if_true]; exact h1
  | container _ ih =>
    intro f k r hf
    obtain ⟨f, rfl⟩ : ∃ g, f = g + 1 := ⟨f - 1, by simp at hf; omega⟩
    obtain ⟨f', h1, h2⟩ := ih f k r (by simp at hf; omega)
    refine ⟨f', ?_, by simp; omega⟩
    simp only [List.cons_append, validateInit, or_true, if_true]; exact h1
  | @init data k' _ ih =>
    intro f k r hf
    obtain ⟨f, rfl⟩ : ∃ g, f = g + 1 := ⟨f - 1, by simp at hf; omega⟩
    obtain ⟨f', h1, h2⟩ := ih f k r (by simp at hf; omega)
    refine ⟨f', ?_, by simp; omega⟩
    rw [show (.n FLAG_INIT :: .n data.length :: (data ++ k')) ++ r = .n FLAG_INIT :: .n data.length :: (data ++ (k' ++ r)) by simp]
    rw [validateInit.eq_def]
    simp only
    rw [if_neg (by decide), if_pos trivial, if_neg (by simp; omega), if_neg (by simp), List.drop_left]
    exact h1
  | @«repeat» x b k' _ _ ihb ihk =>
    intro f k r hf
    obtain ⟨f, rfl⟩ : ∃ g, f = g + 1 := ⟨f - 1, by simp at hf; omega⟩
    simp only [List.length_cons, List.length_append] at hf
    obtain ⟨f1, h1, h2⟩ := ihb f (k + 1) (.n FLAG_INIT_END :: (k' ++ r)) (by omega)
    obtain ⟨g, rfl⟩ : ∃ g, f1 = g + 1 := ⟨f1 - 1, by omega⟩
    obtain ⟨f2, h3, h4⟩ := ihk g k r (by omega)
    refine ⟨f2, ?_, by simp; omega⟩
    rw [show (.n FLAG_INIT_REPEAT :: x :: (b ++ .n FLAG_INIT_END :: k')) ++ r =
      .n FLAG_INIT_REPEAT :: x :: (b ++ .n FLAG_INIT_END :: (k' ++ r)) by simp]
    rw [validateInit.eq_def]
    simp only
    rw [if_neg (by decide), if_neg (by decide), if_pos trivial, h1, validateInit.eq_def]
    simp only
    rw [if_neg (by decide), if_neg (by decide), if_neg (by decide), if_pos trivial]
    exact h3
  | @other o k' ho _ ih =>
    intro f k r hf
    obtain ⟨f, rfl⟩ : ∃ g, f = g + 1 := ⟨f - 1, by simp at hf; omega⟩
    obtain ⟨f', h1, h2⟩ := ih f k r (by simp at hf; omega)
    refine ⟨f', ?_, by simp; omega⟩
    unfold isInitOp at ho
    simp only [not_or] at ho
    simp only [List.cons_append]
    rw [validateInit.eq_def]
    simp only
    rw [if_neg (by simp [ho]), if_neg (by simp [ho]), if_neg (by simp [ho]), if_neg (by simp [ho])]
    exact h1
  | ptr _ ih =>
    intro f k r hf
    obtain ⟨f, rfl⟩ : ∃ g, f = g + 1 := ⟨f - 1, by simp at hf; omega⟩
    obtain ⟨f', h1, h2⟩ := ih f k r (by simp at hf; omega)
    refine ⟨f', ?_, by simp; omega⟩
    simp only [List.cons_append, validateInit]; exact h1

def InitCloses : Nat → List Word → Prop
  | 0, ops => InitBlocks ops
  | k + 1, ops => ∃ b r, ops = b ++ .n FLAG_INIT_END :: r ∧ InitBlocks b ∧ InitCloses k r

/-- putting a complete operation in front -/
theorem InitCloses.front {p : List Word} (hp : ∀ k, InitBlocks k → InitBlocks (p ++ k)) : ∀ {n : Nat} {ops : List Word},
    InitCloses n ops → InitCloses n (p ++ ops)
  | 0, ops, h => hp ops h
  | n + 1, ops, ⟨b, r, e, hb, hc⟩ => ⟨p ++ b, r, by rw [e, List.append_assoc], hp b hb, hc⟩

theorem initCloses_of : ∀ (f k : Nat) (ops : List Word), validateInit f k ops = .ok 0 → InitCloses k ops := by
  intro f
  induction f with
  | zero => intro k ops h; simp [validateInit] at h
  | succ f ih =>
    intro k ops h
    match ops, h with
    | [], h =>
      simp only [validateInit, Res.ok.injEq] at h
      subst h
      exact .nil
    | .p t :: r, h => exact InitCloses.front (p := [.p t]) (fun _ hk => .ptr hk) (ih k r (by simpa [validateInit] using h))
    | .n o :: r, h =>
      rw [validateInit.eq_def] at h
      simp only at h
      split at h
      · rename_i ho
        match r, h with
        | x :: r', h =>
          have := ih k r' h
          rcases ho with rfl | rfl
          · exact InitCloses.front (p := [.n FLAG_INIT_SKIP, x]) (fun _ hk => .skip hk) this
          · exact InitCloses.front (p := [.n FLAG_INIT_CONTAINER, x]) (fun _ hk => .container hk) this
      · rename_i n1
        split at h
        · rename_i ho
          match r, h with
          | .n size :: r', h =>
            simp only at h
            split at h
            · simp at h
            · split at h
              · simp at h
              · have := ih k _ h
                have e : Word.n o :: .n size :: r' = (.n FLAG_INIT :: .n (r'.take size).length :: (r'.take size)) ++ r'.drop size := by
                  rw [ho, List.length_take, Nat.min_eq_left (by omega)]; simp
                rw [e]
                exact InitCloses.front (fun k' hk => by simpa using InitBlocks.init (data := r'.take size) hk) this
        · rename_i n2
          split at h
          · rename_i ho
            match r, h with
            | x :: r', h =>
              obtain ⟨b, s, rfl, hb, hc⟩ := ih (k + 1) r' h
              rw [ho]
              have := InitCloses.front (p := .n FLAG_INIT_REPEAT :: x :: (b ++ [.n FLAG_INIT_END]))
                (fun k' hk => by simpa using InitBlocks.repeat (x := x) hb hk) hc
              simpa using this
          · rename_i n3
            split at h
            · rename_i ho
              cases k with
              | zero => simp at h
              | succ k => exact ⟨[], r, by rw [ho]; rfl, .nil, ih k r h⟩
            · rename_i n4
              refine InitCloses.front (p := [.n o]) (fun _ hk => .other ?_ hk) (ih k r h)
              unfold isInitOp
              simp only [not_or] at n1 ⊢
              exact ⟨n2, n1.1, n3, n1.2, n4⟩

theorem validateInit_iff (ops : List Word) : validateInit (ops.length + 1) 0 ops = .ok 0 ↔ InitBlocks ops := by
  constructor
  · exact initCloses_of _ 0 ops
  · intro h
    obtain ⟨f', h1, _⟩ := initBlocks_append h ops.length 0 [] (Nat.le_refl _)
    rw [List.append_nil] at h1
    rw [h1]; rfl

/-- **C09, validation**: `validate()` accepts a layout exactly if both operation lists are made of complete operations and all
their blocks are closed. -/
theorem C09_validate_iff (l : ML) : validate l = .ok () ↔ Blocks l.ops ∧ InitBlocks l.init := by
  rw [← validateOps_iff, ← validateInit_iff]
  unfold validate
  constructor
  · intro h
    obtain ⟨k, hk, h⟩ := Res.bind_eq_ok.mp h
    split at h
    · cases h
    · obtain ⟨j, hj, h⟩ := Res.bind_eq_ok.mp h
      split at h
      · cases h
      · obtain rfl : k = 0 := by omega
        obtain rfl : j = 0 := by omega
        exact ⟨hk, hj⟩
  · rintro ⟨h1, h2⟩
    rw [h1, Res.bind_ok, if_neg (by omega), h2, Res.bind_ok, if_neg (by omega)]

/-- so the operations of every layout that `layout_of` returns are complete and closed -/
theorem C09_blocks (ap ao merge rem : Bool) (t : Ty) (hw : t.WF) (ml : ML) (h : layoutOf ap ao merge rem t = .ok ml) :
    Blocks ml.ops ∧ InitBlocks ml.init :=
  (C09_validate_iff ml).mp (C09_validate ap ao merge rem t hw ml h)

example : ∃ ml, layoutOf false false true true sample = .ok ml ∧ Blocks ml.ops ∧ InitBlocks ml.init ∧ 10 < ml.ops.length := by
  have hw : sample.WF := by simp [sample, Ty.WF, Fields.WF, Ty.size, wmul, W]
  exact ⟨_, rfl, (C09_blocks false false true true sample hw _ rfl).1, (C09_blocks false false true true sample hw _ rfl).2, by decide⟩

/-- an END too many, a block that is not closed -/
example : validate ⟨[.n FLAG_END], []⟩ = .exn .invalidLayout ∧ validate ⟨[.n FLAG_ARRAY, .n 3], []⟩ = .exn .invalidLayout := ⟨rfl, rfl⟩

/-- the size of a block of initial values is checked against one word too many: `validate` itself leaves the list -/
theorem C09_init_bound_counterexample : validate ⟨[], [.n FLAG_INIT, .n 1]⟩ = .ub := rfl

end Verif.Layout
