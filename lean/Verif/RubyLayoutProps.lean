import Verif.RubyLayout

/-!
C82: theorems on memory layouts as seen from Ruby.
-/

namespace Verif.RubyLayout
open Verif Verif.Layout

/-- the four options a caller has chosen, defaults for the others: pointers and opaques are refused, padding is merged, trailing padding
is dropped -/
def Chosen (g : Given) (pointers opaques merge rem : Bool) : Prop :=
  (∀ n, (Key.other n) ∉ g.map Prod.fst) ∧
  ((Key.acceptPointers, pointers) ∈ g ∨ (Key.acceptPointers ∉ g.map Prod.fst ∧ pointers = false)) ∧
  ((Key.acceptOpaques, opaques) ∈ g ∨ (Key.acceptOpaques ∉ g.map Prod.fst ∧ opaques = false)) ∧
  ((Key.mergeSkipCopy, merge) ∈ g ∨ (Key.mergeSkipCopy ∉ g.map Prod.fst ∧ merge = true)) ∧
  ((Key.removeTrailingSkips, rem) ∈ g ∨ (Key.removeTrailingSkips ∉ g.map Prod.fst ∧ rem = true))

theorem getD_of {g : Given} (hn : (g.map Prod.fst).Nodup) {k : Key} {v d : Bool}
    (h : (k, v) ∈ g ∨ (k ∉ g.map Prod.fst ∧ v = d)) : g.getD k d = v := by
  unfold Given.getD
  induction g with
  | nil => rcases h with h | ⟨_, rfl⟩
           · cases h
           · rfl
  | cons a g ih =>
    obtain ⟨k', v'⟩ := a
    simp only [List.map_cons, List.nodup_cons] at hn
    by_cases hk : k = k'
    · subst hk
      rcases h with h | ⟨h, _⟩
      · rcases List.mem_cons.mp h with h | h
        · cases h; simp [List.lookup]
        · exact absurd (List.mem_map.mpr ⟨_, h, rfl⟩) hn.1
      · simp at h
    · have hb : (k == k') = false := by simpa using hk
      simp only [List.lookup, hb]
      apply ih hn.2
      rcases h with h | ⟨h, rfl⟩
      · rcases List.mem_cons.mp h with h | h
        · cases h; exact absurd rfl hk
        · exact .inl h
      · exact .inr ⟨fun h' => h (by simp only [List.map_cons, List.mem_cons]; exact .inr h'), rfl⟩

theorem memoryLayout_chosen (t : Ty) {g : Given} (hn : (g.map Prod.fst).Nodup) {ap ao merge rem : Bool} (hg : Chosen g ap ao merge rem) :
    memoryLayout t g = doMemoryLayout t ap ao merge rem := by
  obtain ⟨h0, h1, h2, h3, h4⟩ := hg
  unfold memoryLayout
  rw [if_neg, getD_of hn h1, getD_of hn h2, getD_of hn h3, getD_of hn h4]
  intro h
  obtain ⟨⟨k, v⟩, hm, hk⟩ := List.any_eq_true.mp h
  cases k with
  | other n => exact h0 n (List.mem_map.mpr ⟨_, hm, rfl⟩)
  | _ => cases hk

/-- **C82, contents**: with valid options `memory_layout` gives two arrays for every type that has a layout under these options. Reading
the first one, every data byte and container of the type is at its place, containers are where the type has them (each with the
operations of its elements), without `merge_skip_copy` only data is called data, and nothing beyond the value is described; the second
one does to every byte what initialisation has to do. (For types with less than 2^63 bytes in all their parts.) -/
theorem C82_contents_partial (t : Ty) (hw : t.WF) (hb : Below (2 ^ 63) t) (g : Given) (hn : (g.map Prod.fst).Nodup) (ap ao merge rem : Bool)
    (hg : Chosen g ap ao merge rem) (hl : t.HasLayout ap ao) :
    ∃ ops init items inits j, memoryLayout t g = .ok [.arr ops, .arr init] ∧
      Reads merge ops items ∧ itemsSize items ≤ t.size ∧
      (∀ o x, x ≠ .pad → Leaf t o x → ItemAt items o x) ∧
      (∀ o, Leaf t o .pad → itemsSize items ≤ o ∨ ItemAt items o (if merge then .data else .pad)) ∧
      (∀ o c, ItemAt items o (.cont c) → Leaf t o (.cont c)) ∧
      (merge = false → ∀ o, ItemAt items o .data → Leaf t o .data) ∧
      ReadsInit init inits ∧ inits ++ List.replicate j .leave = ikinds t := by
  obtain ⟨ml, items, h1, h2, h3, h4, h5, h6, h7⟩ := C08_simplified_layout_same_meaning ap ao merge rem t hw hl
  rw [layoutOf_eq ap ao merge rem t hw hl] at h1
  obtain rfl : _ = ml := by injection h1
  obtain rfl : items = (layL merge rem t).expand := C07_denotes_unique h2 (denotes_enc _ (layL_good merge rem t hw))
  obtain ⟨j, hj⟩ := layI_expand t hw
  refine ⟨toR (layL merge rem t), toRI (layI t), _, (layI t).expand, j, ?_, reads_toR _ (layL_good merge rem t hw), h3, h4, h5, h6, h7,
    readsInit_toRI _, hj.symm⟩
  rw [memoryLayout_chosen t hn hg, doMemoryLayout_eq t ap ao merge rem hw hl hb]

/-- **C82, refused**: a type with a pointer or opaque that is not accepted, or with an enum of more than 8 bytes, and a hash with any
other key, give an ArgumentError. -/
theorem C82_refused (t : Ty) (g : Given) (hn : (g.map Prod.fst).Nodup) :
    (∀ n, Key.other n ∈ g.map Prod.fst → memoryLayout t g = .exn .rbArg) ∧
    (∀ ap ao merge rem, Chosen g ap ao merge rem → ¬ t.HasLayout ap ao → memoryLayout t g = .exn .rbArg) := by
  constructor
  · intro n h
    obtain ⟨⟨k, v⟩, hm, rfl⟩ := List.mem_map.mp h
    unfold memoryLayout
    rw [if_pos (List.any_eq_true.mpr ⟨_, hm, rfl⟩)]
  · intro ap ao merge rem hg hl
    rw [memoryLayout_chosen t hn hg]
    unfold doMemoryLayout layoutOf
    rcases C07_rejected ap ao t hl with h | h <;> rw [h] <;> rfl

/-! the arrays tell everything -/

/-- the number behind a symbol, and behind an integer -/
def back : RW → Word
  | .sym .memcpy => .n 0
  | .sym .array => .n 1
  | .sym .container => .n 2
  | .sym .skip => .n 3
  | .sym .end => .n 4
  | .sym .init => .n 0
  | .sym .initRepeat => .n 1
  | .sym .initContainer => .n 2
  | .sym .initSkip => .n 3
  | .sym .initEnd => .n 4
  | .int i => .n i.toNat
  | .cls c => .p c

theorem back_toR (l : L) : (toR l).map back = l.enc := by
  induction l <;> simp [toR, L.enc, back, *]

theorem back_toRI (l : LI) : (toRI l).map back = l.enc := by
  induction l with
  | ini d k ih => simp [toRI, LI.enc, back, ih, Function.comp_def]
  | _ => simp [toRI, LI.enc, back, *]

/-- **C82, nothing is lost**: if Ruby shows the same arrays for two types (with whatever options), their layouts are the same,
operation for operation. -/
theorem C82_faithful_partial (t t' : Ty) (hw : t.WF) (hw' : t'.WF) (hb : Below (2 ^ 63) t) (hb' : Below (2 ^ 63) t')
    (ap ao merge rem ap' ao' merge' rem' : Bool) (g g' : Given) (hn : (g.map Prod.fst).Nodup) (hn' : (g'.map Prod.fst).Nodup)
    (hg : Chosen g ap ao merge rem) (hg' : Chosen g' ap' ao' merge' rem')
    (hl : t.HasLayout ap ao) (hl' : t'.HasLayout ap' ao') (h : memoryLayout t g = memoryLayout t' g') :
    ∃ ml, layoutOf ap ao merge rem t = .ok ml ∧ layoutOf ap' ao' merge' rem' t' = .ok ml := by
  rw [memoryLayout_chosen t hn hg, memoryLayout_chosen t' hn' hg', doMemoryLayout_eq t ap ao merge rem hw hl hb,
    doMemoryLayout_eq t' ap' ao' merge' rem' hw' hl' hb'] at h
  have h0 := Res.ok.inj h
  rw [List.cons.injEq, List.cons.injEq] at h0
  have h1 := congrArg (List.map back) (Elt.arr.inj h0.1)
  have h2 := congrArg (List.map back) (Elt.arr.inj h0.2.1)
  rw [back_toR, back_toR] at h1
  rw [back_toRI, back_toRI] at h2
  refine ⟨_, layoutOf_eq ap ao merge rem t hw hl, ?_⟩
  rw [layoutOf_eq ap' ao' merge' rem' t' hw' hl', h1, h2]

/-- a type that one memcpy copies, says the C++ side (`MemoryLayout::isMemcpy`, memory_layout.cc:11-14) -/
def OneMemcpy (t : Ty) : Prop := ∃ ml, layoutOf false false true true t = .ok ml ∧ ml.isMemcpy = true

/-- **C82, counterexample**: `compatible_with_memcpy?` answers no for every type, also for plain integers: it looks for the operation
in the pair of arrays instead of the first array. -/
theorem C82_memcpy_counterexample : (∀ t b, compatibleWithMemcpy t = .ok b → b = false) ∧
    OneMemcpy (.num 4) ∧ compatibleWithMemcpy (.num 4) = .ok false := by
  refine ⟨?_, ⟨_, rfl, rfl⟩, rfl⟩
  intro t b h
  unfold compatibleWithMemcpy at h
  cases hm : memoryLayout t [] with
  | ok layout =>
    rw [hm] at h
    have : ∃ x y, layout = [.arr x, .arr y] := by
      unfold memoryLayout doMemoryLayout at hm
      simp only [List.any_nil, Bool.false_eq_true, if_false] at hm
      split at hm
      · split at hm
        · split at hm
          · injection hm with hm; exact ⟨_, _, hm.symm⟩
          all_goals cases hm
        all_goals cases hm
      all_goals cases hm
    obtain ⟨x, y, rfl⟩ := this
    injection h with h
    exact h.symm
  | exn e => rw [hm] at h; injection h with h; exact h.symm
  | ub => rw [hm] at h; cases h
  | fuel => rw [hm] at h; cases h

/-- **C82, counterexample**: a type of 2^63 bytes or more is described with a negative number. -/
theorem C82_large_counterexample :
    memoryLayout (.num (2 ^ 63)) [] = .ok [.arr [.sym .memcpy, .int (-(2 ^ 63))], .arr []] := by
  have hw : (Ty.num (2 ^ 63)).WF := by simp only [Ty.WF, W]; decide
  have hl : (Ty.num (2 ^ 63)).HasLayout false false := trivial
  have e : layoutOf false false true true (.num (2 ^ 63)) = .ok ⟨[.n 0, .n (2 ^ 63)], []⟩ := by
    rw [layoutOf_eq false false true true _ hw hl]
    have h1 : (layL true true (.num (2 ^ 63))).enc = [.n 0, .n (2 ^ 63)] := by
      simp [layL, rawL, sT, fin, one, L.enc, wsub, W]
    have h2 : (layI (.num (2 ^ 63))).enc = [] := by
      simp [layI, rawI, sI, stripI, iniF, LI.enc]
    rw [h1, h2]
  unfold memoryLayout
  rw [if_neg (by simp)]
  have d : doMemoryLayout (.num (2 ^ 63)) false false true true = .ok [.arr [.sym .memcpy, .int (-(2 ^ 63))], .arr []] := by
    unfold doMemoryLayout
    rw [e]
    rfl
  exact d

/-- **C82, counterexample**: with `accept_pointers` pointers are "simply skipped", says the documentation (type.rb:404-407); they are
described as data to be copied. Opaques are skipped. -/
theorem C82_pointers_counterexample :
    memoryLayout (.comp 24 (.cons 0 (.num 8) (.cons 8 (.ptr 8) (.cons 16 (.num 8) .nil)))) [(.acceptPointers, true), (.mergeSkipCopy, false)] =
      .ok [.arr [.sym .memcpy, .int 8, .sym .memcpy, .int 8, .sym .memcpy, .int 8], .arr []] ∧
    memoryLayout (.comp 24 (.cons 0 (.num 8) (.cons 8 (.opaq 8) (.cons 16 (.num 8) .nil)))) [(.acceptOpaques, true), (.mergeSkipCopy, false)] =
      .ok [.arr [.sym .memcpy, .int 8, .sym .skip, .int 8, .sym .memcpy, .int 8], .arr []] := ⟨rfl, rfl⟩

/-! ### the hypotheses are met -/

theorem sample_below : Below (2 ^ 63) sample := by
  simp [sample, Below, BelowF, Ty.size, wmul, W]

/-- options: padding not merged, pointers accepted -/
example : Chosen [(.mergeSkipCopy, false), (.acceptPointers, true)] true false false true := by
  refine ⟨?_, .inl (by simp), .inr (by simp), .inl (by simp), .inr (by simp)⟩
  intro n; simp

example : ∃ ops init, memoryLayout sample [(.mergeSkipCopy, false), (.acceptPointers, true)] = .ok [.arr ops, .arr init] ∧
    10 < ops.length ∧ 5 < init.length := ⟨_, _, rfl, by decide, by decide⟩

example : ∃ ops init items inits j, memoryLayout sample [(.mergeSkipCopy, false), (.acceptPointers, true)] = .ok [.arr ops, .arr init] ∧
      Reads false ops items ∧ itemsSize items ≤ sample.size ∧
      (∀ o x, x ≠ .pad → Leaf sample o x → ItemAt items o x) ∧
      (∀ o, Leaf sample o .pad → itemsSize items ≤ o ∨ ItemAt items o (if false then .data else .pad)) ∧
      (∀ o c, ItemAt items o (.cont c) → Leaf sample o (.cont c)) ∧
      (false = false → ∀ o, ItemAt items o .data → Leaf sample o .data) ∧
      ReadsInit init inits ∧ inits ++ List.replicate j .leave = ikinds sample := by
  have hl : sample.HasLayout true false := by simp [sample, Ty.HasLayout, Fields.HasLayout]
  refine C82_contents_partial sample sample_ok.1 sample_below _ (by decide) true false false true ?_ hl
  refine ⟨?_, .inl (by simp), .inr (by simp), .inl (by simp), .inr (by simp)⟩
  intro n; simp

/-- a pointer, with the default options and with pointers accepted -/
example : memoryLayout (.ptr 8) [] = .exn .rbArg ∧
    memoryLayout (.ptr 8) [(.acceptPointers, true)] = .ok [.arr [.sym .memcpy, .int 8], .arr []] ∧
    memoryLayout (.ptr 8) [(.acceptPointers, true), (.other ['x'], true)] = .exn .rbArg := ⟨rfl, rfl, rfl⟩

example : ¬ (Ty.ptr 8).HasLayout false true ∧ Chosen [(.acceptOpaques, true)] false true true true := by
  refine ⟨by simp [Ty.HasLayout], ?_, .inr (by simp), .inl (by simp), .inr (by simp), .inr (by simp)⟩
  intro n; simp

/-- two types with the same arrays: a structure of two integers and one integer -/
example : memoryLayout (.comp 8 (.cons 0 (.num 4) (.cons 4 (.num 4) .nil))) [] = memoryLayout (.num 8) [] := rfl

end Verif.RubyLayout
