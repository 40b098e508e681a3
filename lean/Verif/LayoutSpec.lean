import Verif.LayoutInit

/-!
Specification of layouts, independent of how the code computes them.

* `Denotes merge words items`: running the operation list `words` over a value visits the items `items`, in address
  order; the element block of a container describes one element of that container.
* `Leaf t o x`: a value of type `t` has at byte offset `o` the leaf `x` (a data byte, an opaque byte, or a container
  object).
-/

namespace Verif.Layout
open Verif

/-- Meaning of an operation list (memory_layout.hh:60-116 documents the format). `merge`: padding of elements is
allowed to be described as data. -/
inductive Denotes (merge : Bool) : List Word → List Item → Prop where
  | nil : Denotes merge [] []
  | memcpy {n w k} : Denotes merge w k → Denotes merge (.n FLAG_MEMCPY :: .n n :: w) (List.replicate n .data ++ k)
  | skip {n w k} : Denotes merge w k → Denotes merge (.n FLAG_SKIP :: .n n :: w) (List.replicate n .pad ++ k)
  | array {n body b w k} : Denotes merge body b → Denotes merge w k →
      Denotes merge (.n FLAG_ARRAY :: .n n :: (body ++ .n FLAG_END :: w)) (rep n b ++ k)
  | container {c body w k} : Denotes merge body ((elemKinds c).map (mp merge)) → Denotes merge w k →
      Denotes merge (.n FLAG_CONTAINER :: .p c :: (body ++ .n FLAG_END :: w)) (.cont c :: k)

/-- a field of a compound -/
inductive Fields.Mem : Nat → Ty → Fields → Prop where
  | head {off t r} : Fields.Mem off t (.cons off t r)
  | tail {off t off' t' r} : Fields.Mem off t r → Fields.Mem off t (.cons off' t' r)

/-- what a value of a type holds at a byte offset: data byte, opaque byte or container object -/
inductive Leaf : Ty → Nat → Item → Prop where
  | num {n i} : i < n → Leaf (.num n) i .data
  | enum {n vs i} : i < n → Leaf (.enum n vs) i .data
  | ptr {n i} : i < n → Leaf (.ptr n) i .data
  | opaq {n i} : i < n → Leaf (.opaq n) i .pad
  | vec {c e} : Leaf (.vec c e) 0 (.cont (.vec c e))
  | str {c} : Leaf (.str c) 0 (.cont (.str c))
  | arr {d e k i x} : k < d → Leaf e i x → Leaf (.arr d e) (k * e.size + i) x
  | field {n fs off t i x} : Fields.Mem off t fs → Leaf t i x → Leaf (.comp n fs) (off + i) x

/-- the sequence `l` of items has item `x` at byte offset `o` -/
def ItemAt (l : List Item) (o : Nat) (x : Item) : Prop := ∃ a b, l = a ++ x :: b ∧ itemsSize a = o

theorem itemAt_left {l m : List Item} {o : Nat} {x : Item} (h : ItemAt l o x) : ItemAt (l ++ m) o x := by
  obtain ⟨a, b, rfl, rfl⟩ := h
  exact ⟨a, b ++ m, by simp, rfl⟩
theorem itemAt_right {l m : List Item} {o : Nat} {x : Item} (h : ItemAt m o x) :
    ItemAt (l ++ m) (itemsSize l + o) x := by
  obtain ⟨a, b, rfl, rfl⟩ := h
  exact ⟨l ++ a, b, by simp, itemsSize_append _ _⟩

theorem itemAt_append {l m : List Item} {o : Nat} {x : Item} (h : ItemAt (l ++ m) o x) :
    ItemAt l o x ∨ ∃ o', o = itemsSize l + o' ∧ ItemAt m o' x := by
  obtain ⟨a, b, h, rfl⟩ := h
  rcases List.append_eq_append_iff.mp h with ⟨c, rfl, hc⟩ | ⟨c, rfl, hc⟩
  · right; exact ⟨itemsSize c, itemsSize_append _ _, c, b, hc, rfl⟩
  · cases c with
    | nil =>
      right
      simp only [List.nil_append] at hc
      exact ⟨0, by simp, [], b, hc.symm, rfl⟩
    | cons y c =>
      simp only [List.cons_append, List.cons.injEq] at hc
      obtain ⟨rfl, rfl⟩ := hc
      left; exact ⟨a, c, rfl, rfl⟩

theorem itemAt_replicate {n : Nat} {i x : Item} {o : Nat} (hi : i.size = 1) :
    ItemAt (List.replicate n i) o x ↔ x = i ∧ o < n := by
  constructor
  · rintro ⟨a, b, h, rfl⟩
    have hm : ∀ y ∈ a ++ x :: b, y = i := by rw [← h]; intro y hy; exact (List.mem_replicate.mp hy).2
    have hx : x = i := hm x (by simp)
    have ha : a = List.replicate a.length i := List.eq_replicate_iff.mpr ⟨rfl, fun y hy => hm y (by simp [hy])⟩
    have hl := congrArg List.length h
    simp at hl
    refine ⟨hx, ?_⟩
    rw [ha, itemsSize_replicate _ _ hi]; omega
  · rintro ⟨rfl, h⟩
    refine ⟨List.replicate o x, List.replicate (n - o - 1) x, ?_, itemsSize_replicate _ _ hi⟩
    rw [← List.replicate_succ, List.replicate_append_replicate]
    congr 1; omega

theorem itemAt_rep {d : Nat} {l : List Item} {o : Nat} {x : Item} :
    ItemAt (rep d l) o x ↔ ∃ k i, k < d ∧ o = k * itemsSize l + i ∧ ItemAt l i x := by
  induction d generalizing o with
  | zero => simp [rep, ItemAt]
  | succ d ih =>
    rw [rep_succ]
    constructor
    · intro h
      rcases itemAt_append h with h | ⟨o', rfl, h'⟩
      · exact ⟨0, o, by omega, by simp, h⟩
      · obtain ⟨k, i, hk, rfl, hi⟩ := ih.mp h'
        exact ⟨k + 1, i, by omega, by rw [Nat.succ_mul]; omega, hi⟩
    · rintro ⟨k, i, hk, rfl, hi⟩
      cases k with
      | zero => simpa using itemAt_left hi
      | succ k =>
        have := itemAt_right (l := l) (ih.mpr ⟨k, i, by omega, rfl, hi⟩)
        rw [Nat.succ_mul]
        have e : itemsSize l + (k * itemsSize l + i) = k * itemsSize l + itemsSize l + i := by omega
        rwa [e] at this

theorem itemAt_single {i x : Item} {o : Nat} : ItemAt [i] o x ↔ x = i ∧ o = 0 := by
  constructor
  · rintro ⟨a, b, h, rfl⟩
    cases a with
    | nil => simp at h; exact ⟨h.1.symm, rfl⟩
    | cons y a => simp at h
  · rintro ⟨rfl, rfl⟩; exact ⟨[], [], rfl, rfl⟩

/-- every leaf of a field fits inside it -/
theorem itemAt_lt {l : List Item} {o : Nat} {x : Item} (h : ItemAt l o x) : o + x.size ≤ itemsSize l := by
  obtain ⟨a, b, rfl, rfl⟩ := h
  simp [itemsSize]

mutual
theorem leaf_itemAt : ∀ (t : Ty), t.WF → ∀ o x, Leaf t o x → ItemAt (kinds t) o x
  | .num n, _, o, x, h => by cases h with | num h => exact (itemAt_replicate rfl).mpr ⟨rfl, h⟩
  | .enum n vs, _, o, x, h => by cases h with | enum h => exact (itemAt_replicate rfl).mpr ⟨rfl, h⟩
  | .ptr n, _, o, x, h => by cases h with | ptr h => exact (itemAt_replicate rfl).mpr ⟨rfl, h⟩
  | .opaq n, _, o, x, h => by cases h with | opaq h => exact (itemAt_replicate rfl).mpr ⟨rfl, h⟩
  | .vec c e, _, o, x, h => by cases h; exact itemAt_single.mpr ⟨rfl, rfl⟩
  | .str c, _, o, x, h => by cases h; exact itemAt_single.mpr ⟨rfl, rfl⟩
  | .arr d e, hw, o, x, h => by
    cases h with
    | arr hk hl =>
      refine itemAt_rep.mpr ⟨_, _, hk, ?_, leaf_itemAt e hw.2.2.2 _ _ hl⟩
      rw [kinds_size e hw.2.2.2]
  | .comp n fs, hw, o, x, h => by
    cases h with
    | field hm hl =>
      have := field_itemAt fs hw.2 _ _ _ _ hm hl
      simpa [kinds] using this
theorem field_itemAt : ∀ (fs : Fields) {cur n}, fs.WF cur n → ∀ off t i x, Fields.Mem off t fs → Leaf t i x →
    ItemAt (kindsF cur n fs) (off + i - cur) x
  | .nil, _, _, _, _, _, _, _, hm, _ => by cases hm
  | .cons off' t' r, cur, n, hw, off, t, i, x, hm, hl => by
    obtain ⟨h1, h2, h3⟩ := hw
    simp only [kindsF]
    cases hm with
    | head =>
      have := itemAt_right (l := List.replicate (off' - cur) .pad) (leaf_itemAt t' h2 _ _ hl)
      rw [itemsSize_replicate _ _ rfl] at this
      have e : off' - cur + i = off' + i - cur := by omega
      rw [e] at this
      exact itemAt_left this
    | tail hm =>
      have hge : off' + t'.size ≤ off := by
        clear hl
        exact mem_ge r h3 hm
      have := itemAt_right (l := List.replicate (off' - cur) .pad ++ kinds t') (field_itemAt r h3 _ _ _ _ hm hl)
      rw [itemsSize_append, itemsSize_replicate _ _ rfl, kinds_size t' h2] at this
      have e : off' - cur + t'.size + (off + i - (off' + t'.size)) = off + i - cur := by omega
      rwa [e] at this
theorem mem_ge : ∀ (fs : Fields) {cur n : Nat}, fs.WF cur n → ∀ {off t}, Fields.Mem off t fs → cur ≤ off
  | .nil, _, _, _, _, _, hm => by cases hm
  | .cons off' t' r, cur, n, hw, off, t, hm => by
    cases hm with
    | head => exact hw.1
    | tail hm => have := mem_ge r hw.2.2 hm; have := hw.1; omega
end

mutual
theorem itemAt_leaf : ∀ (t : Ty), t.WF → ∀ o x, ItemAt (kinds t) o x → x = .pad ∨ Leaf t o x
  | .num n, _, o, x, h => by obtain ⟨rfl, h'⟩ := (itemAt_replicate rfl).mp h; exact Or.inr (.num h')
  | .enum n vs, _, o, x, h => by obtain ⟨rfl, h'⟩ := (itemAt_replicate rfl).mp h; exact Or.inr (.enum h')
  | .ptr n, _, o, x, h => by obtain ⟨rfl, h'⟩ := (itemAt_replicate rfl).mp h; exact Or.inr (.ptr h')
  | .opaq n, _, o, x, h => by obtain ⟨rfl, h'⟩ := (itemAt_replicate rfl).mp h; exact Or.inr (.opaq h')
  | .vec c e, _, o, x, h => by obtain ⟨rfl, rfl⟩ := itemAt_single.mp h; exact Or.inr .vec
  | .str c, _, o, x, h => by obtain ⟨rfl, rfl⟩ := itemAt_single.mp h; exact Or.inr .str
  | .arr d e, hw, o, x, h => by
    obtain ⟨k, i, hk, rfl, hi⟩ := itemAt_rep.mp h
    rw [kinds_size e hw.2.2.2]
    rcases itemAt_leaf e hw.2.2.2 _ _ hi with h | h
    · exact Or.inl h
    · exact Or.inr (.arr hk h)
  | .comp n fs, hw, o, x, h => by
    rcases itemAt_field fs hw.2 o x h with h | ⟨off, t, i, hm, hl, ho⟩
    · exact Or.inl h
    · right
      have : o = off + i := by omega
      rw [this]; exact .field hm hl
theorem itemAt_field : ∀ (fs : Fields) {cur n}, fs.WF cur n → ∀ o x, ItemAt (kindsF cur n fs) o x →
    x = .pad ∨ ∃ off t i, Fields.Mem off t fs ∧ Leaf t i x ∧ cur + o = off + i
  | .nil, cur, n, _, o, x, h => by
    obtain ⟨rfl, _⟩ := (itemAt_replicate rfl).mp h; exact Or.inl rfl
  | .cons off' t' r, cur, n, hw, o, x, h => by
    obtain ⟨h1, h2, h3⟩ := hw
    simp only [kindsF] at h
    rcases itemAt_append h with h | ⟨o', rfl, h4⟩
    · rcases itemAt_append h with h | ⟨o', rfl, h4⟩
      · obtain ⟨rfl, _⟩ := (itemAt_replicate rfl).mp h; exact Or.inl rfl
      · rcases itemAt_leaf t' h2 _ _ h4 with h | h
        · exact Or.inl h
        · right
          refine ⟨off', t', o', .head, h, ?_⟩
          rw [itemsSize_replicate _ _ rfl]; omega
    · rcases itemAt_field r h3 _ _ h4 with h | ⟨off, t, i, hm, hl, ho⟩
      · exact Or.inl h
      · right
        refine ⟨off, t, i, .tail hm, hl, ?_⟩
        rw [itemsSize_append, itemsSize_replicate _ _ rfl, kinds_size t' h2]; omega
end

/-! ### operation lists and trees -/

theorem denotes_enc {merge : Bool} (l : L) (h : l.Good merge) : Denotes merge l.enc l.expand := by
  induction l with
  | nil => exact .nil
  | mc n k ih => exact .memcpy (ih h)
  | sk n k ih => exact .skip (ih h)
  | ar n b k ihb ihk => exact .array (ihb h.1) (ihk h.2)
  | co c b k ihb ihk =>
    refine .container ?_ (ihk h.2.2)
    rw [← h.1]; exact ihb h.2.1

theorem denotes_tree {merge : Bool} {w : List Word} {k : List Item} (h : Denotes merge w k) :
    ∃ l : L, l.enc = w ∧ l.expand = k ∧ l.Good merge := by
  induction h with
  | nil => exact ⟨.nil, rfl, rfl, trivial⟩
  | memcpy _ ih => obtain ⟨l, rfl, rfl, hg⟩ := ih; exact ⟨.mc _ l, rfl, rfl, hg⟩
  | skip _ ih => obtain ⟨l, rfl, rfl, hg⟩ := ih; exact ⟨.sk _ l, rfl, rfl, hg⟩
  | array _ _ ih1 ih2 =>
    obtain ⟨b, rfl, rfl, hb⟩ := ih1
    obtain ⟨l, rfl, rfl, hg⟩ := ih2
    exact ⟨.ar _ b l, rfl, rfl, hb, hg⟩
  | container _ _ ih1 ih2 =>
    obtain ⟨b, rfl, hb', hb⟩ := ih1
    obtain ⟨l, rfl, rfl, hg⟩ := ih2
    exact ⟨.co _ b l, rfl, rfl, hb', hb, hg⟩

theorem enc_inj (a : L) : ∀ (b : L) (r r' : List Word),
    (r = [] ∨ ∃ x, r = .n 4 :: x) → (r' = [] ∨ ∃ x, r' = .n 4 :: x) →
    a.enc ++ r = b.enc ++ r' → a = b ∧ r = r' := by
  have aux : ∀ (b : L) (r r' : List Word), (r = [] ∨ ∃ x, r = .n 4 :: x) → r = b.enc ++ r' → b = .nil := by
    intro b r r' h1 h2
    cases b with
    | nil => rfl
    | _ => rcases h1 with rfl | ⟨x, rfl⟩ <;> simp [L.enc] at h2
  induction a with
  | nil =>
    intro b r r' h1 h2 h
    have := aux b r r' h1 (by simpa [L.enc] using h)
    subst this
    exact ⟨rfl, by simpa [L.enc] using h⟩
  | mc n k ih =>
    intro b r r' h1 h2 h
    cases b with
    | nil => rcases h2 with rfl | ⟨x, rfl⟩ <;> simp [L.enc] at h
    | mc m k' =>
      simp only [L.enc, List.cons_append, List.cons.injEq, Word.n.injEq, true_and] at h
      obtain ⟨rfl, h⟩ := h
      obtain ⟨rfl, rfl⟩ := ih _ _ _ h1 h2 h
      exact ⟨rfl, rfl⟩
    | _ => simp [L.enc] at h
  | sk n k ih =>
    intro b r r' h1 h2 h
    cases b with
    | nil => rcases h2 with rfl | ⟨x, rfl⟩ <;> simp [L.enc] at h
    | sk m k' =>
      simp only [L.enc, List.cons_append, List.cons.injEq, Word.n.injEq, true_and] at h
      obtain ⟨rfl, h⟩ := h
      obtain ⟨rfl, rfl⟩ := ih _ _ _ h1 h2 h
      exact ⟨rfl, rfl⟩
    | _ => simp [L.enc] at h
  | ar n b k ihb ihk =>
    intro b' r r' h1 h2 h
    cases b' with
    | nil => rcases h2 with rfl | ⟨x, rfl⟩ <;> simp [L.enc] at h
    | ar m b2 k' =>
      simp only [L.enc, List.cons_append, List.append_assoc, List.cons.injEq, Word.n.injEq, true_and] at h
      obtain ⟨rfl, h⟩ := h
      obtain ⟨rfl, h5⟩ := ihb _ _ _ (Or.inr ⟨_, rfl⟩) (Or.inr ⟨_, rfl⟩) h
      simp only [List.cons.injEq, true_and] at h5
      obtain ⟨rfl, rfl⟩ := ihk _ _ _ h1 h2 h5
      exact ⟨rfl, rfl⟩
    | _ => simp [L.enc] at h
  | co c b k ihb ihk =>
    intro b' r r' h1 h2 h
    cases b' with
    | nil => rcases h2 with rfl | ⟨x, rfl⟩ <;> simp [L.enc] at h
    | co m b2 k' =>
      simp only [L.enc, List.cons_append, List.append_assoc, List.cons.injEq, Word.p.injEq, true_and] at h
      obtain ⟨rfl, h⟩ := h
      obtain ⟨rfl, h5⟩ := ihb _ _ _ (Or.inr ⟨_, rfl⟩) (Or.inr ⟨_, rfl⟩) h
      simp only [List.cons.injEq, true_and] at h5
      obtain ⟨rfl, rfl⟩ := ihk _ _ _ h1 h2 h5
      exact ⟨rfl, rfl⟩
    | _ => simp [L.enc] at h

theorem validateOps_enc (l : L) : ∀ (k : Nat) (rest : List Word),
    validateOps k (l.enc ++ rest) = validateOps k rest := by
  induction l with
  | nil => intro k rest; rfl
  | mc n l ih => intro k rest; simp only [L.enc, List.cons_append, validateOps]; simpa [FLAG_MEMCPY, FLAG_SKIP, FLAG_ARRAY, FLAG_CONTAINER, FLAG_END] using ih k rest
  | sk n l ih => intro k rest; simp only [L.enc, List.cons_append, validateOps]; simpa [FLAG_MEMCPY, FLAG_SKIP, FLAG_ARRAY, FLAG_CONTAINER, FLAG_END] using ih k rest
  | ar n b l ihb ihl =>
    intro k rest
    simp only [L.enc, List.cons_append, validateOps, FLAG_MEMCPY, FLAG_SKIP, FLAG_ARRAY, FLAG_CONTAINER, FLAG_END, List.append_assoc]
    simp only [show ¬ ((1:Nat) = 0 ∨ (1:Nat) = 3) by decide, if_false, true_or, if_true, ihb]
    rw [validateOps.eq_def]
    simp only [FLAG_MEMCPY, FLAG_SKIP, FLAG_ARRAY, FLAG_CONTAINER, FLAG_END, show ¬ ((4:Nat) = 0 ∨ (4:Nat) = 3) by decide, show ¬ ((4:Nat) = 1 ∨ (4:Nat) = 2) by decide, if_false,
      if_true, ihl]
  | co n b l ihb ihl =>
    intro k rest
    simp only [L.enc, List.cons_append, validateOps, FLAG_MEMCPY, FLAG_SKIP, FLAG_ARRAY, FLAG_CONTAINER, FLAG_END, List.append_assoc]
    simp only [show ¬ ((2:Nat) = 0 ∨ (2:Nat) = 3) by decide, if_false, or_true, if_true, ihb]
    rw [validateOps.eq_def]
    simp only [FLAG_MEMCPY, FLAG_SKIP, FLAG_ARRAY, FLAG_CONTAINER, FLAG_END, show ¬ ((4:Nat) = 0 ∨ (4:Nat) = 3) by decide, show ¬ ((4:Nat) = 1 ∨ (4:Nat) = 2) by decide, if_false,
      if_true, ihl]

theorem validateInit_enc (l : LI) : ∀ (f k : Nat) (rest : List Word), l.enc.length < f →
    ∃ f', validateInit f k (l.enc ++ rest) = validateInit f' k rest ∧ f ≤ f' + l.enc.length := by
  induction l with
  | nil => intro f k rest hf; exact ⟨f, rfl, by simp⟩
  | ini d l ih =>
    intro f k rest hf
    cases f with
    | zero => simp at hf
    | succ f =>
      have hl : l.enc.length < f := by simp [LI.enc] at hf; omega
      obtain ⟨f', h1, h2⟩ := ih f k rest hl
      refine ⟨f', ?_, by simp [LI.enc]; omega⟩
      simp only [LI.enc, List.cons_append, validateInit]
      simp only [show ¬ ((0:Nat) = 3 ∨ (0:Nat) = 2) by decide, if_false, if_true]
      rw [if_neg (by simp; omega), if_neg (by simp), List.append_assoc, List.drop_append_of_le_length (by simp),
        List.drop_of_length_le (by simp), List.nil_append]
      exact h1
  | sk n l ih =>
    intro f k rest hf
    cases f with
    | zero => simp at hf
    | succ f =>
      have hl : l.enc.length < f := by simp [LI.enc] at hf; omega
      obtain ⟨f', h1, h2⟩ := ih f k rest hl
      refine ⟨f', ?_, by simp [LI.enc]; omega⟩
      simp only [LI.enc, List.cons_append, validateInit, true_or, if_true]
      exact h1
  | co n l ih =>
    intro f k rest hf
    cases f with
    | zero => simp at hf
    | succ f =>
      have hl : l.enc.length < f := by simp [LI.enc] at hf; omega
      obtain ⟨f', h1, h2⟩ := ih f k rest hl
      refine ⟨f', ?_, by simp [LI.enc]; omega⟩
      simp only [LI.enc, List.cons_append, validateInit, or_true, if_true]
      exact h1
  | re n b l ihb ihl =>
    intro f k rest hf
    cases f with
    | zero => simp at hf
    | succ f =>
      have hb : b.enc.length < f ∧ b.enc.length + l.enc.length + 1 < f := by simp [LI.enc] at hf; omega
      obtain ⟨f', h1, h2⟩ := ihb f (k + 1) (.n 4 :: (l.enc ++ rest)) hb.1
      cases f' with
      | zero => omega
      | succ f' =>
        obtain ⟨f'', h3, h4⟩ := ihl f' k rest (by omega)
        refine ⟨f'', ?_, by simp [LI.enc]; omega⟩
        simp only [LI.enc, List.cons_append, validateInit, List.append_assoc]
        simp only [show ¬ ((1:Nat) = 3 ∨ (1:Nat) = 2) by decide, show ¬ ((1:Nat) = 0) by decide, if_false, if_true]
        rw [h1]
        simp only [validateInit, show ¬ ((4:Nat) = 3 ∨ (4:Nat) = 2) by decide, show ¬ ((4:Nat) = 0) by decide,
          show ¬ ((4:Nat) = 1) by decide, if_false, if_true]
        exact h3

theorem skipBlock_enc (l : L) : ∀ (k : Nat) (rest : List Word),
    skipBlock k (l.enc ++ rest) = skipBlock k rest := by
  induction l with
  | nil => intro k rest; rfl
  | mc n l ih => intro k rest; simp only [L.enc, List.cons_append, skipBlock]; simpa [FLAG_MEMCPY, FLAG_SKIP, FLAG_ARRAY, FLAG_CONTAINER, FLAG_END] using ih k rest
  | sk n l ih => intro k rest; simp only [L.enc, List.cons_append, skipBlock]; simpa [FLAG_MEMCPY, FLAG_SKIP, FLAG_ARRAY, FLAG_CONTAINER, FLAG_END] using ih k rest
  | ar n b l ihb ihl =>
    intro k rest
    simp only [L.enc, List.cons_append, skipBlock, FLAG_MEMCPY, FLAG_SKIP, FLAG_ARRAY, FLAG_CONTAINER, FLAG_END, List.append_assoc, true_or, if_true, ihb]
    rw [skipBlock.eq_def]
    simp only [FLAG_MEMCPY, FLAG_SKIP, FLAG_ARRAY, FLAG_CONTAINER, FLAG_END, show ¬ ((4:Nat) = 1 ∨ (4:Nat) = 2) by decide, if_false, if_true, ihl]
  | co n b l ihb ihl =>
    intro k rest
    simp only [L.enc, List.cons_append, skipBlock, FLAG_MEMCPY, FLAG_SKIP, FLAG_ARRAY, FLAG_CONTAINER, FLAG_END, List.append_assoc, or_true, if_true, ihb]
    rw [skipBlock.eq_def]
    simp only [FLAG_MEMCPY, FLAG_SKIP, FLAG_ARRAY, FLAG_CONTAINER, FLAG_END, show ¬ ((4:Nat) = 1 ∨ (4:Nat) = 2) by decide, if_false, if_true, ihl]

end Verif.Layout
