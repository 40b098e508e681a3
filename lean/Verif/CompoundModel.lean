import Verif.StdMap

/-!
Model of the building operations of `Compound` (typemodel.hh:395-434, typemodel.cc:295-339, 366-379), with
property C36.
-/

namespace Verif.CompoundModel
open Verif Verif.Registry Verif.StdMap Verif.Graph

/-- `Type::m_size` and `Compound::m_fields`. -/
structure Comp where
  size : Nat
  fields : List FieldD
  deriving DecidableEq, Repr

/-- `Compound::Compound` (typemodel.cc:295-296). -/
def Comp.new : Comp := ⟨0, []⟩

/-- `Type::setSize`. -/
def Comp.setSize (c : Comp) (n : Nat) : Comp := { c with size := n }

/-- `Compound::addField` (typemodel.cc:366-379); `sz` gives the size of every type; `size_t` sum. -/
def Comp.addField (sz : TId → Nat) (c : Comp) (name : Str) (ty : TId) (offset : Nat) : Comp :=
  let newSize := wadd offset (sz ty)
  { fields := c.fields ++ [⟨name, offset, ty⟩],
    size := if c.size < newSize then newSize else c.size }

/-- conversion of a `size_t` to `int` (modulo 2^32, two's complement, as gcc and clang do) -/
def toInt (n : Nat) : Int :=
  let m := n % 4294967296
  if m < 2147483648 then (m : Int) else (m : Int) - 4294967296

/-- `getSize() - max_offset` (typemodel.cc:338), computed in `size_t` and returned as `unsigned int`: only the
value modulo 2^32 survives. -/
def subToUInt (size : Nat) (m : Int) : Nat := (((size : Int) - m) % 4294967296).toNat

/-- `Compound::getTrailingPadding` (typemodel.cc:321-339). -/
def Comp.getTrailingPadding (sz : TId → Nat) (c : Comp) : Nat :=
  if c.fields.isEmpty then c.size % 4294967296
  else
    subToUInt c.size (c.fields.foldl (fun m f =>
      let off := toInt (wadd f.offset (sz f.ty))
      if off > m then off else m) 0)

/-- `fieldOffsetOrdering` (typemodel.cc:308-316). -/
def fieldLt (a b : FieldD) : Bool :=
  if a.offset < b.offset then true
  else if a.offset = b.offset then strLt a.name b.name
  else false

/-- insertion of one element after the elements that are not greater -/
def insertField (f : FieldD) : List FieldD → List FieldD
  | [] => [f]
  | g :: r => if fieldLt f g then f :: g :: r else g :: insertField f r

/-- `Compound::normalizeFieldOrder` (typemodel.cc:317-320): `std::list::sort` is a stable sort; all stable
sorts give the same result, modelled by insertion from the left. -/
def Comp.normalizeFieldOrder (c : Comp) : Comp :=
  { c with fields := c.fields.foldl (fun l f => insertField f l) [] }

/-- `Compound::getField` (typemodel.cc:299-307). -/
def Comp.getField (c : Comp) (n : Str) : Option FieldD := c.fields.find? (fun f => f.name == n)

/-- a sequence of calls to `addField` -/
def Comp.adds (sz : TId → Nat) (c : Comp) (l : List (Str × TId × Nat)) : Comp :=
  l.foldl (fun c a => c.addField sz a.1 a.2.1 a.2.2) c

/-! ### C36 -/

theorem adds_fields (sz : TId → Nat) (l : List (Str × TId × Nat)) (c : Comp) :
    (c.adds sz l).fields = c.fields ++ l.map (fun a => ⟨a.1, a.2.2, a.2.1⟩) := by
  unfold Comp.adds
  induction l generalizing c with
  | nil => simp
  | cons a l ih => rw [List.foldl_cons, ih]; simp [Comp.addField]

/-- The fields of a compound are those added, in order. The size covers every field, never shrinks, and is
either what it was before the calls or the end of some added field: so it is exactly the largest. -/
theorem C36_size (sz : TId → Nat) (c : Comp) (l : List (Str × TId × Nat))
    (hw : ∀ a ∈ l, a.2.2 + sz a.2.1 < W) :
    let r := c.adds sz l
    r.fields = c.fields ++ l.map (fun a => ⟨a.1, a.2.2, a.2.1⟩) ∧
    c.size ≤ r.size ∧
    (∀ a ∈ l, a.2.2 + sz a.2.1 ≤ r.size) ∧
    (r.size = c.size ∨ ∃ a ∈ l, r.size = a.2.2 + sz a.2.1) := by
  refine ⟨adds_fields sz l c, ?_⟩
  unfold Comp.adds
  induction l generalizing c with
  | nil => simp
  | cons a l ih =>
    have ha := hw a (by simp)
    have hadd : wadd a.2.2 (sz a.2.1) = a.2.2 + sz a.2.1 := wadd_eq ha
    obtain ⟨h1, h2, h3⟩ := ih (c.addField sz a.1 a.2.1 a.2.2) (fun b hb => hw b (by simp [hb]))
    simp only [List.foldl_cons]
    generalize l.foldl (fun c a => c.addField sz a.1 a.2.1 a.2.2) (c.addField sz a.1 a.2.1 a.2.2) = r at h1 h2 h3
    have hs : (c.addField sz a.1 a.2.1 a.2.2).size = if c.size < a.2.2 + sz a.2.1 then a.2.2 + sz a.2.1 else c.size := by
      simp [Comp.addField, hadd]
    rw [hs] at h1 h3
    refine ⟨?_, ?_, ?_⟩
    · split at h1 <;> omega
    · intro b hb
      rcases List.mem_cons.mp hb with hb | hb
      · subst hb; split at h1 <;> omega
      · exact h2 b hb
    · rcases h3 with h3 | ⟨b, hb, h3⟩
      · split at h3
        · exact Or.inr ⟨a, by simp, h3⟩
        · exact Or.inl h3
      · exact Or.inr ⟨b, by simp [hb], h3⟩

/-- A compound built only by `addField` is exactly as large as its furthest field (0 if it has none). -/
theorem C36_size_exact (sz : TId → Nat) (l : List (Str × TId × Nat)) (hw : ∀ a ∈ l, a.2.2 + sz a.2.1 < W) (n : Nat) :
    (Comp.new.adds sz l).size ≤ n ↔ ∀ f ∈ (Comp.new.adds sz l).fields, f.offset + sz f.ty ≤ n := by
  obtain ⟨h0, _, h2, h3⟩ := C36_size sz Comp.new l hw
  rw [h0]
  constructor
  · intro h f hf
    simp only [Comp.new, List.nil_append, List.mem_map] at hf
    obtain ⟨a, ha, rfl⟩ := hf
    have := h2 a ha
    simp only
    omega
  · intro h
    rcases h3 with h3 | ⟨a, ha, h3⟩
    · rw [h3]; exact Nat.zero_le _
    · rw [h3]
      exact h ⟨a.1, a.2.2, a.2.1⟩ (by simp only [Comp.new, List.nil_append, List.mem_map]; exact ⟨a, ha, rfl⟩)

/-- Without the hypothesis on overflow the size is wrong: a field at offset 2^64 - 4 of size 8. -/
theorem C36_overflow_counterexample :
    let c := Comp.new.adds (fun _ => 8) [(['f'], 0, 18446744073709551612)]
    c.size = 4 ∧ ∃ f ∈ c.fields, c.size < f.offset + 8 := by decide

theorem toInt_small {n : Nat} (h : n < 2147483648) : toInt n = n := by
  unfold toInt
  rw [Nat.mod_eq_of_lt (by omega)]
  simp [h]

theorem fold_max (sz : TId → Nat) (fs : List FieldD) (m : Nat)
    (hw : ∀ f ∈ fs, f.offset + sz f.ty < 2147483648) :
    ∃ r : Nat, fs.foldl (fun m f =>
      let off := toInt (wadd f.offset (sz f.ty))
      if off > m then off else m) (m : Int) = (r : Int) ∧ m ≤ r ∧ (∀ f ∈ fs, f.offset + sz f.ty ≤ r) ∧
      (r = m ∨ ∃ f ∈ fs, r = f.offset + sz f.ty) := by
  induction fs generalizing m with
  | nil => exact ⟨m, rfl, Nat.le_refl _, by simp, Or.inl rfl⟩
  | cons f fs ih =>
    have hf := hw f (by simp)
    have e : toInt (wadd f.offset (sz f.ty)) = ((f.offset + sz f.ty : Nat) : Int) := by
      rw [wadd_eq (by unfold W; omega), toInt_small hf]
    simp only [List.foldl_cons, e]
    by_cases hgt : m < f.offset + sz f.ty
    · have : ((f.offset + sz f.ty : Nat) : Int) > (m : Int) := by omega
      rw [if_pos this]
      obtain ⟨r, h1, h2, h3, h4⟩ := ih (f.offset + sz f.ty) (fun g hg => hw g (by simp [hg]))
      refine ⟨r, h1, by omega, ?_, ?_⟩
      · intro g hg
        rcases List.mem_cons.mp hg with hg | hg
        · subst hg; exact h2
        · exact h3 g hg
      · rcases h4 with h4 | ⟨g, hg, h4⟩
        · exact Or.inr ⟨f, by simp, h4⟩
        · exact Or.inr ⟨g, by simp [hg], h4⟩
    · have : ¬ ((f.offset + sz f.ty : Nat) : Int) > (m : Int) := by omega
      rw [if_neg this]
      obtain ⟨r, h1, h2, h3, h4⟩ := ih m (fun g hg => hw g (by simp [hg]))
      refine ⟨r, h1, h2, ?_, ?_⟩
      · intro g hg
        rcases List.mem_cons.mp hg with hg | hg
        · subst hg; omega
        · exact h3 g hg
      · rcases h4 with h4 | ⟨g, hg, h4⟩
        · exact Or.inl h4
        · exact Or.inr ⟨g, by simp [hg], h4⟩

/-- Trailing padding is the size minus the end of the furthest field, for every compound whose size covers
its fields and whose fields end below 2^31 (the code computes with `int`). Missing for the full claim:
larger compounds, for which it is false (`C36_padding_counterexample`). -/
theorem C36_padding_partial (sz : TId → Nat) (c : Comp)
    (hcover : ∀ f ∈ c.fields, f.offset + sz f.ty ≤ c.size)
    (hend : ∀ f ∈ c.fields, f.offset + sz f.ty < 2147483648) (hsize : c.size < 4294967296) :
    let p := c.getTrailingPadding sz
    (c.fields = [] → p = c.size) ∧
    (∀ f ∈ c.fields, f.offset + sz f.ty + p ≤ c.size) ∧
    (c.fields ≠ [] → ∃ f ∈ c.fields, f.offset + sz f.ty + p = c.size) := by
  simp only
  unfold Comp.getTrailingPadding
  by_cases he : c.fields = []
  · simp [he, Nat.mod_eq_of_lt hsize]
  · have : c.fields.isEmpty = false := by simpa using he
    rw [this]
    obtain ⟨r, h1, _, h3, h4⟩ := fold_max sz c.fields 0 hend
    simp only [Bool.false_eq_true, if_false]
    have h1' : List.foldl (fun (m : Int) f => if toInt (wadd f.offset (sz f.ty)) > m then toInt (wadd f.offset (sz f.ty)) else m) 0
        c.fields = (r : Int) := h1
    rw [h1']
    have hr : r ≤ c.size := by
      rcases h4 with h4 | ⟨f, hf, h4⟩
      · omega
      · rw [h4]; exact hcover f hf
    have hp : subToUInt c.size (r : Int) = c.size - r := by unfold subToUInt; omega
    rw [hp]
    refine ⟨fun h => absurd h he, fun f hf => ?_, fun _ => ?_⟩
    · have := h3 f hf; omega
    · rcases h4 with h4 | ⟨f, hf, h4⟩
      · cases hc : c.fields with
        | nil => exact absurd hc he
        | cons f r' =>
          have := h3 f (by rw [hc]; simp)
          exact ⟨f, by simp, by omega⟩
      · exact ⟨f, hf, by omega⟩

/-- One field of 1 byte at offset 2^31 - 1, no padding: the code answers 2^31 (`int` overflow). -/
theorem C36_padding_counterexample :
    let c := Comp.new.adds (fun _ => 1) [(['f'], 0, 2147483647)]
    c.size = 2147483648 ∧ c.getTrailingPadding (fun _ => 1) = 2147483648 := by decide

/-! ### Sorting -/

theorem insertField_perm (f : FieldD) (l : List FieldD) : (insertField f l).Perm (f :: l) := by
  induction l with
  | nil => exact List.Perm.refl _
  | cons g r ih =>
    unfold insertField
    split
    · exact List.Perm.refl _
    · exact (List.Perm.cons g ih).trans (List.Perm.swap f g r)

theorem foldl_insert_perm (l acc : List FieldD) :
    (l.foldl (fun l f => insertField f l) acc).Perm (l ++ acc) := by
  induction l generalizing acc with
  | nil => exact List.Perm.refl _
  | cons f l ih =>
    simp only [List.foldl_cons]
    refine (ih _).trans ?_
    refine (List.Perm.append_left l (insertField_perm f acc)).trans ?_
    exact List.perm_middle

/-- the order of two fields: by offset, then by name -/
def fieldLe (a b : FieldD) : Prop := a.offset < b.offset ∨ (a.offset = b.offset ∧ (a.name = b.name ∨ strLt a.name b.name = true))

theorem fieldLt_le {a b : FieldD} (h : fieldLt a b = true) : fieldLe a b := by
  unfold fieldLt at h
  unfold fieldLe
  split at h
  · left; assumption
  · split at h
    · rename_i h2; right; exact ⟨h2, Or.inr h⟩
    · cases h

theorem fieldLt_not {a b : FieldD} (h : fieldLt a b = false) : fieldLe b a := by
  unfold fieldLt at h
  unfold fieldLe
  split at h
  · cases h
  · rename_i h1
    split at h
    · rename_i h2
      right
      refine ⟨h2.symm, ?_⟩
      by_cases hn : a.name = b.name
      · exact Or.inl hn.symm
      · exact Or.inr (strLt_total hn h)
    · left; omega

theorem fieldLe_trans {a b c : FieldD} (h : fieldLe a b) (h' : fieldLe b c) : fieldLe a c := by
  unfold fieldLe at *
  rcases h with h | ⟨h1, h2⟩
  · rcases h' with h' | ⟨h3, h4⟩ <;> left <;> omega
  · rcases h' with h' | ⟨h3, h4⟩
    · left; omega
    · right
      refine ⟨by omega, ?_⟩
      rcases h2 with h2 | h2
      · rw [h2]; exact h4
      · rcases h4 with h4 | h4
        · rw [← h4]; exact Or.inr h2
        · exact Or.inr (strLt_trans h2 h4)

theorem insertField_sorted (f : FieldD) {l : List FieldD} (hs : l.Pairwise fieldLe) :
    (insertField f l).Pairwise fieldLe := by
  induction l with
  | nil => simp [insertField]
  | cons g r ih =>
    obtain ⟨h1, h2⟩ := List.pairwise_cons.mp hs
    unfold insertField
    split
    · rename_i hlt
      refine List.pairwise_cons.mpr ⟨?_, hs⟩
      intro x hx
      rcases List.mem_cons.mp hx with hx | hx
      · subst hx; exact fieldLt_le hlt
      · exact fieldLe_trans (fieldLt_le hlt) (h1 x hx)
    · rename_i hlt
      refine List.pairwise_cons.mpr ⟨?_, ih h2⟩
      intro x hx
      have := (insertField_perm f r).mem_iff.mp hx
      rcases List.mem_cons.mp this with hx | hx
      · subst hx; exact fieldLt_not (by simpa using hlt)
      · exact h1 x hx

theorem foldl_insert_sorted (l : List FieldD) {acc : List FieldD} (h : acc.Pairwise fieldLe) :
    (l.foldl (fun l f => insertField f l) acc).Pairwise fieldLe := by
  induction l generalizing acc with
  | nil => exact h
  | cons f l ih => exact ih (insertField_sorted f h)

theorem insert_end {f : FieldD} {acc : List FieldD} (h : ∀ g ∈ acc, fieldLe g f) :
    insertField f acc = acc ++ [f] := by
  induction acc with
  | nil => rfl
  | cons g r ih =>
    have hg := h g (by simp)
    have : fieldLt f g = false := by
      unfold fieldLt
      unfold fieldLe at hg
      rcases hg with hg | ⟨h1, h2⟩
      · rw [if_neg (by omega), if_neg (by omega)]
      · rw [if_neg (by omega), if_pos h1.symm]
        rcases h2 with h2 | h2
        · rw [h2]; exact strLt_irrefl _
        · exact strLt_asymm h2
    unfold insertField
    rw [this]
    simp [ih (fun x hx => h x (by simp [hx]))]

/-- `normalizeFieldOrder` permutes the fields (none lost, added or modified), sorts them by offset then name,
keeps the size, and does nothing to fields that are already in order. -/
theorem C36_sort (c : Comp) :
    c.normalizeFieldOrder.fields.Perm c.fields ∧
    c.normalizeFieldOrder.fields.Pairwise fieldLe ∧
    c.normalizeFieldOrder.size = c.size ∧
    (c.fields.Pairwise fieldLe → c.normalizeFieldOrder = c) := by
  refine ⟨?_, foldl_insert_sorted _ List.Pairwise.nil, rfl, ?_⟩
  · have := foldl_insert_perm c.fields []
    simpa [Comp.normalizeFieldOrder] using this
  · intro h
    have key : ∀ (l acc : List FieldD), (acc ++ l).Pairwise fieldLe →
        l.foldl (fun l f => insertField f l) acc = acc ++ l := by
      intro l
      induction l with
      | nil => intro acc _; simp
      | cons f l ih =>
        intro acc hp
        simp only [List.foldl_cons]
        rw [insert_end (f := f) (acc := acc)]
        · rw [ih]
          · simp
          · simpa using hp
        · intro g hg
          exact (List.pairwise_append.mp hp).2.2 g hg f (by simp)
    have := key c.fields [] (by simpa using h)
    obtain ⟨s, fs⟩ := c
    simp only [Comp.normalizeFieldOrder] at *
    rw [this]; rfl

/-- `getField` finds a field exactly when one was added under that name, and then the first one. -/
theorem C36_getField (c : Comp) (n : Str) (f : FieldD) :
    c.getField n = some f ↔ ∃ a b, c.fields = a ++ f :: b ∧ f.name = n ∧ ∀ g ∈ a, g.name ≠ n := by
  unfold Comp.getField
  rw [List.find?_eq_some_iff_append]
  constructor
  · rintro ⟨h, a, b, h1, h2⟩
    exact ⟨a, b, h1, by simpa using h, fun g hg => by simpa using h2 g hg⟩
  · rintro ⟨a, b, h1, h2, h3⟩
    exact ⟨by simpa using h2, a, b, h1, fun g hg => by simpa using h3 g hg⟩

/-- a non-trivial compound: 4-byte types, fields added out of order, then padded -/
def exComp : Comp := (Comp.new.adds (fun _ => 4) [(['b'], 0, 8), (['a'], 1, 0)]).setSize 16

example : exComp.size = 16 ∧ exComp.getTrailingPadding (fun _ => 4) = 4 ∧
    exComp.normalizeFieldOrder.fields.map (·.name) = [['a'], ['b']] ∧
    (∀ f ∈ exComp.fields, f.offset + 4 ≤ exComp.size) := by decide

/-! ### The theorems on concrete cases -/

example := C36_size (fun _ => 4) Comp.new [(['b'], 0, 8), (['a'], 1, 0)] (by decide)

example := C36_size_exact (fun _ => 4) [(['b'], 0, 8), (['a'], 1, 0)] (by decide) 12

example := C36_padding_partial (fun _ => 4) exComp (by decide) (by decide) (by decide)

end Verif.CompoundModel
