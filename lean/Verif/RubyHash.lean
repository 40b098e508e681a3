import Verif.LayoutGraph

/-!
C83: the description of types as Ruby hashes, `Type.to_h` (bindings/ruby/lib/typelib/type.rb:80-129, compound_type.rb:309-315, 340-382,
array_type.rb:188-212, container_type.rb:385-409, enum_type.rb:22-42, numeric_type.rb:23-49).
-/

namespace Verif.RubyHash
open Verif Verif.Graph Verif.LayoutGraph

/-! ### Model -/

/-- the keys (symbols) of the hashes -/
inductive Key where
  | name | cls | size | fields | type | offset | length | element | values | value | integer | unsigned
  deriving DecidableEq, Repr

/-- simple Ruby objects -/
inductive RV where
  | str (s : Str)
  | int (i : Int)
  | bool (b : Bool)
  | list (l : List RV)
  | hash (h : List (Key × RV))

/-- a Ruby hash in insertion order -/
abbrev RHash := List (Key × RV)

/-- `hash[key]` -/
def hget : RHash → Key → Option RV
  | [], _ => none
  | (k, v) :: h, x => if k = x then some v else hget h x

/-- `hash[key] = value`: an existing key keeps its place -/
def hput : RHash → Key → RV → RHash
  | [], x, w => [(x, w)]
  | (k, v) :: h, x, w => if k = x then (k, w) :: h else (k, v) :: hput h x w

/-- `INT2FIX(x)` of a `size_t`: the topmost bit is lost, the next one becomes the sign -/
def int2fix (v : Nat) : Int :=
  if v % 2 ^ 63 < 2 ^ 62 then ((v % 2 ^ 63 : Nat) : Int) else ((v % 2 ^ 63 : Nat) : Int) - 2 ^ 63

/-- the name of the class for a category (`class_of`, value.cc:91-104; the classes are defined in specialized_types.cc:711-748) -/
def catClass : Cat → Str
  | .null => "Typelib::NullType".toList
  | .opaque => "Typelib::OpaqueType".toList
  | .numeric => "Typelib::NumericType".toList
  | .enum => "Typelib::EnumType".toList
  | .array => "Typelib::ArrayType".toList
  | .pointer => "Typelib::PointerType".toList
  | .container => "Typelib::ContainerType".toList
  | .compound => "Typelib::CompoundType".toList

/-- `superclass.name` of the class of a type -/
def className (k : Kind) : Str := catClass k.cat

/-- `to_h_minimal` (type.rb:123-129) -/
def minimal (H : Heap) (layout : Bool) (t : TId) : RHash :=
  let h := [(Key.name, RV.str (H.name t)), (Key.cls, RV.str (className (H.kind t)))]
  if layout then hput h .size (.int (int2fix (H.size t))) else h

/-- comparing a field name as `fields` holds it (`force_encoding('ASCII')`, compound_type.rb:260-262) with one that `get_fields` made anew
(binary): strings with other characters than ASCII and different encodings are not equal -/
def sameName (a b : Str) : Bool := a == b && a.all (fun c => c.toNat < 128)

/-- `offset_of` (compound_type.rb:309-315) -/
def offsetOf (n : Str) : List FieldD → Res Int
  | [] => .exn .runtime
  | f :: fs => if sameName n f.name then .ok (int2fix f.offset) else offsetOf n fs

/-- the first loop of `CompoundType.to_h` (compound_type.rb:366-374) -/
def fieldHashes (rec : TId → Res RV) : List FieldD → Res (List (Str × RHash))
  | [] => .ok []
  | f :: fs =>
    match rec f.ty with
    | .ok v =>
      match fieldHashes rec fs with
      | .ok r => .ok ((f.name, [(.name, .str f.name), (.type, v)]) :: r)
      | .exn e => .exn e
      | .ub => .ub
      | .fuel => .fuel
    | .exn e => .exn e
    | .ub => .ub
    | .fuel => .fuel

/-- the second one (compound_type.rb:376-380) -/
def addOffsets (all : List FieldD) : List (Str × RHash) → Res (List (Str × RHash))
  | [] => .ok []
  | (n, h) :: r =>
    match offsetOf n all with
    | .ok o =>
      match addOffsets all r with
      | .ok r => .ok ((n, hput h .offset (.int o)) :: r)
      | .exn e => .exn e
      | .ub => .ub
      | .fuel => .fuel
    | .exn e => .exn e
    | .ub => .ub
    | .fuel => .fuel

/-- `offset_of` is only called with layout info -/
def withOffsets (layout : Bool) (all : List FieldD) (l : List (Str × RHash)) : Res (List (Str × RHash)) :=
  if layout then addOffsets all l else .ok l

/-- `to_h` (type.rb:104-106, compound_type.rb:364-382, array_type.rb:202-212, container_type.rb:400-409, enum_type.rb:36-42,
numeric_type.rb:38-48). A type that contains itself has no end (fuel). -/
def toH (H : Heap) (recursive layout : Bool) : Nat → TId → Res RV
  | 0, _ => .fuel
  | f + 1, t =>
    match H.kind t with
    | .null => .ok (.hash (minimal H layout t))
    | .opaque => .ok (.hash (minimal H layout t))
    | .ptr _ => .ok (.hash (minimal H layout t))
    | .num c =>
      let h := hput (minimal H layout t) .size (.int (int2fix (H.size t)))
      .ok (.hash (if c = .float then hput h .integer (.bool false)
        else hput (hput h .integer (.bool true)) .unsigned (.bool (c = .uint))))
    | .enum syms =>
      .ok (.hash (hput (minimal H layout t) .values
        (.list (syms.map fun p => .hash [(.name, .str p.1), (.value, .int p.2)]))))
    | .arr d e =>
      (if recursive then toH H recursive layout f e else .ok (.hash (minimal H layout e))).bind fun v =>
        .ok (.hash (hput (hput (minimal H layout t) .length (.int (int2fix d))) .element v))
    | .vec e =>
      (if recursive then toH H recursive layout f e else .ok (.hash (minimal H layout e))).bind fun v =>
        .ok (.hash (hput (minimal H layout t) .element v))
    | .str e =>
      (if recursive then toH H recursive layout f e else .ok (.hash (minimal H layout e))).bind fun v =>
        .ok (.hash (hput (minimal H layout t) .element v))
    | .comp fs =>
      (fieldHashes (fun u => if recursive then toH H recursive layout f u else .ok (.hash (minimal H layout u))) fs).bind fun l =>
        (withOffsets layout fs l).bind fun l =>
          .ok (.hash (hput (minimal H layout t) .fields (.list (l.map fun p => .hash p.2))))

/-! ### Specification: what a hash tells (the documentation of `to_h` in the files above) -/

/-- the class of typelib that each kind of type belongs to (`Typelib::VectorType` and the like do not exist: all containers are
`Typelib::ContainerType`) -/
inductive ClassNamed : Kind → Str → Prop
  | null : ClassNamed .null "Typelib::NullType".toList
  | opaque : ClassNamed .opaque "Typelib::OpaqueType".toList
  | num {c} : ClassNamed (.num c) "Typelib::NumericType".toList
  | enum {s} : ClassNamed (.enum s) "Typelib::EnumType".toList
  | arr {d e} : ClassNamed (.arr d e) "Typelib::ArrayType".toList
  | ptr {e} : ClassNamed (.ptr e) "Typelib::PointerType".toList
  | vec {e} : ClassNamed (.vec e) "Typelib::ContainerType".toList
  | str {e} : ClassNamed (.str e) "Typelib::ContainerType".toList
  | comp {fs} : ClassNamed (.comp fs) "Typelib::CompoundType".toList

/-- what every hash has: name, class, and the size exactly if layout info was asked for -/
structure Basic (H : Heap) (layout : Bool) (t : TId) (h : RHash) : Prop where
  name : hget h .name = some (.str (H.name t))
  cls : ∃ c, ClassNamed (H.kind t) c ∧ hget h .cls = some (.str c)
  size : layout = true → hget h .size = some (.int (H.size t))

/-- the symbols in order -/
inductive TellsSyms : List (Str × Int) → List RV → Prop
  | nil : TellsSyms [] []
  | cons {n v r h l} : hget h .name = some (.str n) → hget h .value = some (.int v) → TellsSyms r l →
      TellsSyms ((n, v) :: r) (.hash h :: l)

mutual
/-- the full description of a type -/
inductive Tells (H : Heap) (recursive layout : Bool) : TId → RV → Prop
  | null {t h} : H.kind t = .null → Basic H layout t h → (layout = false → hget h .size = none) → Tells H recursive layout t (.hash h)
  | opaque {t h} : H.kind t = .opaque → Basic H layout t h → (layout = false → hget h .size = none) → Tells H recursive layout t (.hash h)
  | ptr {t e h} : H.kind t = .ptr e → Basic H layout t h → (layout = false → hget h .size = none) → Tells H recursive layout t (.hash h)
  | num {t c h} : H.kind t = .num c → Basic H layout t h → hget h .size = some (.int (H.size t)) →
      hget h .integer = some (.bool (decide (c ≠ .float))) →
      (hget h .unsigned = if c = .float then none else some (.bool (decide (c = .uint)))) →
      Tells H recursive layout t (.hash h)
  | enum {t syms l h} : H.kind t = .enum syms → Basic H layout t h → (layout = false → hget h .size = none) →
      hget h .values = some (.list l) → TellsSyms syms l → Tells H recursive layout t (.hash h)
  | arr {t d e v h} : H.kind t = .arr d e → Basic H layout t h → (layout = false → hget h .size = none) →
      hget h .length = some (.int d) → hget h .element = some v → TellsPart H recursive layout e v → Tells H recursive layout t (.hash h)
  | vec {t e v h} : H.kind t = .vec e → Basic H layout t h → (layout = false → hget h .size = none) →
      hget h .element = some v → TellsPart H recursive layout e v → Tells H recursive layout t (.hash h)
  | str {t e v h} : H.kind t = .str e → Basic H layout t h → (layout = false → hget h .size = none) →
      hget h .element = some v → TellsPart H recursive layout e v → Tells H recursive layout t (.hash h)
  | comp {t fs l h} : H.kind t = .comp fs → Basic H layout t h → (layout = false → hget h .size = none) →
      hget h .fields = some (.list l) → TellsFields H recursive layout fs l → Tells H recursive layout t (.hash h)
/-- elements and fields: a full description if it is recursive, else name, class (and size) -/
inductive TellsPart (H : Heap) (recursive layout : Bool) : TId → RV → Prop
  | full {t v} : recursive = true → Tells H recursive layout t v → TellsPart H recursive layout t v
  | basic {t h} : recursive = false → Basic H layout t h → (layout = false → hget h .size = none) → TellsPart H recursive layout t (.hash h)
/-- the fields in order, with their offsets exactly if layout info was asked for -/
inductive TellsFields (H : Heap) (recursive layout : Bool) : List FieldD → List RV → Prop
  | nil : TellsFields H recursive layout [] []
  | cons {f fs v h l} : hget h .name = some (.str f.name) → hget h .type = some v → TellsPart H recursive layout f.ty v →
      (hget h .offset = if layout then some (.int f.offset) else none) → TellsFields H recursive layout fs l →
      TellsFields H recursive layout (f :: fs) (.hash h :: l)
end

/-- two types, of one registry or of two, have the same definition at every depth (the targets of pointers are not looked at) -/
inductive Alike (H H' : Heap) : TId → TId → Prop
  | null {t t'} : H.name t = H'.name t' → H.size t = H'.size t' → H.kind t = .null → H'.kind t' = .null → Alike H H' t t'
  | opaque {t t'} : H.name t = H'.name t' → H.size t = H'.size t' → H.kind t = .opaque → H'.kind t' = .opaque → Alike H H' t t'
  | ptr {t t' e e'} : H.name t = H'.name t' → H.size t = H'.size t' → H.kind t = .ptr e → H'.kind t' = .ptr e' → Alike H H' t t'
  | num {t t' c} : H.name t = H'.name t' → H.size t = H'.size t' → H.kind t = .num c → H'.kind t' = .num c → Alike H H' t t'
  | enum {t t' s} : H.name t = H'.name t' → H.size t = H'.size t' → H.kind t = .enum s → H'.kind t' = .enum s → Alike H H' t t'
  | arr {t t' d e e'} : H.name t = H'.name t' → H.size t = H'.size t' → H.kind t = .arr d e → H'.kind t' = .arr d e' →
      Alike H H' e e' → Alike H H' t t'
  | cont {t t' e e'} : H.name t = H'.name t' → H.size t = H'.size t' → (H.kind t = .vec e ∨ H.kind t = .str e) →
      (H'.kind t' = .vec e' ∨ H'.kind t' = .str e') → Alike H H' e e' → Alike H H' t t'
  | comp {t t' fs fs'} : H.name t = H'.name t' → H.size t = H'.size t' → H.kind t = .comp fs → H'.kind t' = .comp fs' →
      fs.length = fs'.length →
      (∀ (i : Nat) (h : i < fs.length) (h' : i < fs'.length), fs[i].name = fs'[i].name ∧ fs[i].offset = fs'[i].offset) →
      (∀ (i : Nat) (h : i < fs.length) (h' : i < fs'.length), Alike H H' fs[i].ty fs'[i].ty) → Alike H H' t t'

/-- what the numbers of Ruby can hold, and names it can compare; fields of a compound have different names (C24) -/
structure Usual (H : Heap) : Prop where
  sizes : ∀ t, H.size t < 2 ^ 62
  dims : ∀ t d e, H.kind t = .arr d e → d < 2 ^ 62
  offsets : ∀ t fs, H.kind t = .comp fs → ∀ f ∈ fs, f.offset < 2 ^ 62
  ascii : ∀ t fs, H.kind t = .comp fs → ∀ f ∈ fs, ∀ c ∈ f.name, c.toNat < 128
  names : ∀ t fs, H.kind t = .comp fs → (fs.map (·.name)).Nodup

/-! ### Lemmas -/

theorem hget_hput_same (h : RHash) (k : Key) (v : RV) : hget (hput h k v) k = some v := by
  induction h with
  | nil => simp [hput, hget]
  | cons a h ih =>
    obtain ⟨k', v'⟩ := a
    simp only [hput]
    split
    · simp [hget, *]
    · simp [hget, *]

theorem hget_hput_ne (h : RHash) {k k' : Key} (v : RV) (hne : k ≠ k') : hget (hput h k v) k' = hget h k' := by
  induction h with
  | nil => simp [hput, hget, hne]
  | cons a h ih =>
    obtain ⟨k0, v0⟩ := a
    simp only [hput]
    split
    · rename_i e; subst e; simp [hget, hne]
    · simp only [hget]; rw [ih]

theorem int2fix_small {v : Nat} (h : v < 2 ^ 62) : int2fix v = v := by
  unfold int2fix
  have : v % 2 ^ 63 = v := Nat.mod_eq_of_lt (by omega)
  simp only [this, if_pos h]

theorem classNamed (k : Kind) : ClassNamed k (className k) := by
  cases k <;> constructor

theorem classNamed_iff {k : Kind} {c : Str} (h : ClassNamed k c) : c = className k := by
  cases h <;> rfl

theorem Basic.cls' {H : Heap} {layout : Bool} {t : TId} {h : RHash} (b : Basic H layout t h) :
    hget h .cls = some (.str (className (H.kind t))) := by
  obtain ⟨c, hc, hg⟩ := b.cls
  rw [hg, classNamed_iff hc]

theorem basic_minimal {H : Heap} (layout : Bool) (t : TId) (hs : H.size t < 2 ^ 62) : Basic H layout t (minimal H layout t) := by
  cases layout <;> refine ⟨rfl, ⟨_, classNamed _, rfl⟩, ?_⟩ <;> intro h
  · cases h
  · simp [minimal, hput, hget, int2fix_small hs]

theorem minimal_none (H : Heap) (layout : Bool) (t : TId) {k : Key} (h1 : k ≠ .name) (h2 : k ≠ .cls) (h3 : k ≠ .size ∨ layout = false) :
    hget (minimal H layout t) k = none := by
  cases layout
  · simp [minimal, hget, h1.symm, h2.symm]
  · have h3 : k ≠ .size := by simpa using h3
    simp [minimal, hput, hget, h1.symm, h2.symm, h3.symm]

theorem basic_put {H : Heap} {layout : Bool} {t : TId} {h : RHash} (hb : Basic H layout t h) {k : Key} (v : RV) (h1 : k ≠ .name)
    (h2 : k ≠ .cls) (h3 : k ≠ .size) : Basic H layout t (hput h k v) := by
  constructor
  · rw [hget_hput_ne _ _ h1]; exact hb.name
  · rw [hget_hput_ne _ _ h2]; exact hb.cls
  · intro hl; rw [hget_hput_ne _ _ h3]; exact hb.size hl

theorem sameName_iff {a b : Str} (h : ∀ c ∈ a, c.toNat < 128) : sameName a b = true ↔ a = b := by
  unfold sameName
  simp only [Bool.and_eq_true, beq_iff_eq, List.all_eq_true, decide_eq_true_eq]
  exact ⟨fun h => h.1, fun e => ⟨e, h⟩⟩

/-- the offset found is that of the field: names are different -/
theorem offsetOf_mem {f : FieldD} : ∀ {fs : List FieldD}, f ∈ fs → (∀ c ∈ f.name, c.toNat < 128) → (fs.map (·.name)).Nodup →
    offsetOf f.name fs = .ok (int2fix f.offset)
  | g :: fs, hm, ha, hn => by
    simp only [List.map_cons, List.nodup_cons] at hn
    unfold offsetOf
    by_cases e : f.name = g.name
    · rw [if_pos ((sameName_iff ha).mpr e)]
      rcases List.mem_cons.mp hm with rfl | hm
      · rfl
      · exact absurd (List.mem_map.mpr ⟨f, hm, e⟩) hn.1
    · rw [if_neg (by rw [sameName_iff ha]; exact e)]
      rcases List.mem_cons.mp hm with rfl | hm
      · exact absurd rfl e
      · exact offsetOf_mem hm ha hn.2

/-- what the first loop gives -/
inductive Made (rec : TId → Res RV) : List FieldD → List (Str × RHash) → Prop
  | nil : Made rec [] []
  | cons {f fs v r} : rec f.ty = .ok v → Made rec fs r → Made rec (f :: fs) ((f.name, [(.name, .str f.name), (.type, v)]) :: r)

theorem fieldHashes_made {rec : TId → Res RV} : ∀ {fs : List FieldD} {l}, fieldHashes rec fs = .ok l → Made rec fs l
  | [], l, h => by cases h; exact .nil
  | f :: fs, l, h => by
    unfold fieldHashes at h
    cases hv : rec f.ty with
    | ok v =>
      cases hr : fieldHashes rec fs with
      | ok r =>
        simp only [hv, hr] at h
        injection h with h
        subst h
        exact .cons hv (fieldHashes_made hr)
      | _ => simp [hv, hr] at h
    | _ => simp [hv] at h

theorem fieldHashes_ok {rec : TId → Res RV} : ∀ {fs : List FieldD}, (∀ f ∈ fs, ∃ v, rec f.ty = .ok v) → ∃ l, fieldHashes rec fs = .ok l
  | [], _ => ⟨[], rfl⟩
  | f :: fs, h => by
    obtain ⟨v, hv⟩ := h f List.mem_cons_self
    obtain ⟨l, hl⟩ := fieldHashes_ok (fun g hg => h g (List.mem_cons_of_mem _ hg))
    exact ⟨(f.name, [(.name, .str f.name), (.type, v)]) :: l, by unfold fieldHashes; simp only [hv, hl]⟩

theorem addOffsets_made {rec : TId → Res RV} {all : List FieldD} (ha : ∀ f ∈ all, ∀ c ∈ f.name, c.toNat < 128)
    (hn : (all.map (·.name)).Nodup) : ∀ {fs : List FieldD} {l}, Made rec fs l → (∀ f ∈ fs, f ∈ all) →
    ∃ l', addOffsets all l = .ok l' := by
  intro fs l hm
  induction hm with
  | nil => intro _; exact ⟨[], rfl⟩
  | @cons f fs v r hv _ ih =>
    intro hs
    obtain ⟨l', hl'⟩ := ih (fun g hg => hs g (List.mem_cons_of_mem _ hg))
    have ho := offsetOf_mem (hs f List.mem_cons_self) (ha f (hs f List.mem_cons_self)) hn
    exact ⟨(f.name, hput [(.name, .str f.name), (.type, v)] .offset (.int (int2fix f.offset))) :: l', by unfold addOffsets; simp only [ho, hl']⟩

theorem tells_fields {H : Heap} {recursive layout : Bool} {rec : TId → Res RV} {all : List FieldD}
    (ha : ∀ f ∈ all, ∀ c ∈ f.name, c.toNat < 128) (hn : (all.map (·.name)).Nodup) (ho : ∀ f ∈ all, f.offset < 2 ^ 62)
    (hrec : ∀ f ∈ all, ∀ v, rec f.ty = .ok v → TellsPart H recursive layout f.ty v) :
    ∀ {fs : List FieldD} {l l' : List (Str × RHash)}, Made rec fs l → (∀ f ∈ fs, f ∈ all) → withOffsets layout all l = .ok l' →
    TellsFields H recursive layout fs (l'.map fun p => .hash p.2) := by
  intro fs l l' hm
  induction hm generalizing l' with
  | nil =>
    intro _ h
    cases layout <;> (simp only [withOffsets, addOffsets, if_true, Bool.false_eq_true, if_false] at h; injection h with h; subst h; exact .nil)
  | @cons f fs v r hv _ ih =>
    intro hs h
    have hf := hs f List.mem_cons_self
    have hs' := fun g hg => hs g (List.mem_cons_of_mem f hg)
    cases layout
    · simp only [withOffsets, Bool.false_eq_true, if_false] at h
      injection h with h
      subst h
      refine .cons rfl rfl (hrec f hf v hv) rfl (ih hs' ?_)
      simp [withOffsets]
    · simp only [withOffsets, if_true] at h
      unfold addOffsets at h
      rw [offsetOf_mem hf (ha f hf) hn] at h
      cases hr : addOffsets all r with
      | ok r' =>
        simp only [hr] at h
        injection h with h
        subst h
        refine .cons rfl rfl (hrec f hf v hv) ?_ (ih hs' ?_)
        · simp [hput, hget, int2fix_small (ho f hf)]
        · simp only [withOffsets, if_true, hr]
      | _ => simp [hr] at h

theorem tells_syms : ∀ (syms : List (Str × Int)), TellsSyms syms (syms.map fun p => .hash [(.name, .str p.1), (.value, .int p.2)])
  | [] => .nil
  | (n, v) :: r => .cons rfl rfl (tells_syms r)

theorem size_none (H : Heap) {layout : Bool} (t : TId) (h : layout = false) : hget (minimal H layout t) .size = none :=
  minimal_none H layout t (by decide) (by decide) (Or.inr h)

theorem part_of {H : Heap} (hu : Usual H) {recursive layout : Bool} {f : Nat} {e : TId} {v : RV}
    (ih : ∀ v, toH H recursive layout f e = .ok v → Tells H recursive layout e v)
    (h : (if recursive then toH H recursive layout f e else .ok (.hash (minimal H layout e))) = .ok v) :
    TellsPart H recursive layout e v := by
  cases recursive
  · simp only [Bool.false_eq_true, if_false] at h
    injection h with h
    subst h
    exact .basic rfl (basic_minimal layout e (hu.sizes e)) (size_none H e)
  · simp only [if_true] at h
    exact .full rfl (ih v h)

theorem toH_tells {H : Heap} (hu : Usual H) {recursive layout : Bool} : ∀ (f : Nat) (t : TId) (v : RV), toH H recursive layout f t = .ok v →
    Tells H recursive layout t v := by
  intro f
  induction f with
  | zero => intro t v h; cases h
  | succ f ih =>
    intro t v h
    have hb := basic_minimal layout t (hu.sizes t)
    unfold toH at h
    cases hk : H.kind t with
    | null => rw [hk] at h; injection h with h; subst h; exact .null hk hb (size_none H t)
    | «opaque» => rw [hk] at h; injection h with h; subst h; exact .opaque hk hb (size_none H t)
    | ptr e => rw [hk] at h; injection h with h; subst h; exact .ptr hk hb (size_none H t)
    | num c =>
      rw [hk] at h
      injection h with h
      subst h
      have hb' : Basic H layout t (hput (minimal H layout t) .size (.int (int2fix (H.size t)))) := by
        refine ⟨?_, ?_, ?_⟩
        · rw [hget_hput_ne _ _ (by decide)]; exact hb.name
        · rw [hget_hput_ne _ _ (by decide)]; exact hb.cls
        · intro _; rw [hget_hput_same, int2fix_small (hu.sizes t)]
      have hs : hget (hput (minimal H layout t) .size (.int (int2fix (H.size t)))) .size = some (.int (H.size t)) := by
        rw [hget_hput_same, int2fix_small (hu.sizes t)]
      have hn : hget (hput (minimal H layout t) .size (.int (int2fix (H.size t)))) .unsigned = none := by
        rw [hget_hput_ne _ _ (by decide)]
        exact minimal_none H layout t (by decide) (by decide) (Or.inl (by decide))
      by_cases hc : c = .float
      · subst hc
        simp only [if_true]
        refine .num hk (basic_put hb' _ (by decide) (by decide) (by decide)) ?_ ?_ ?_
        · rw [hget_hput_ne _ _ (by decide)]; exact hs
        · rw [hget_hput_same]; rfl
        · rw [hget_hput_ne _ _ (by decide)]; exact hn
      · simp only [hc, if_false]
        refine .num hk (basic_put (basic_put hb' _ (by decide) (by decide) (by decide)) _ (by decide) (by decide) (by decide)) ?_ ?_ ?_
        · rw [hget_hput_ne _ _ (by decide), hget_hput_ne _ _ (by decide)]; exact hs
        · rw [hget_hput_ne _ _ (by decide), hget_hput_same]; simp [hc]
        · rw [hget_hput_same, if_neg hc]
    | «enum» syms =>
      rw [hk] at h
      injection h with h
      subst h
      refine .enum hk (basic_put hb _ (by decide) (by decide) (by decide)) ?_ (hget_hput_same _ _ _) (tells_syms syms)
      intro hl; rw [hget_hput_ne _ _ (by decide)]; exact size_none H t hl
    | arr d e =>
      rw [hk] at h
      obtain ⟨w, hw, h⟩ := Res.bind_eq_ok.mp h
      injection h with h
      subst h
      refine .arr hk (basic_put (basic_put hb _ (by decide) (by decide) (by decide)) _ (by decide) (by decide) (by decide)) ?_ ?_
        (hget_hput_same _ _ _) (part_of hu (fun v hv => ih e v hv) hw)
      · intro hl; rw [hget_hput_ne _ _ (by decide), hget_hput_ne _ _ (by decide)]; exact size_none H t hl
      · rw [hget_hput_ne _ _ (by decide), hget_hput_same, int2fix_small (hu.dims t d e hk)]
    | vec e =>
      rw [hk] at h
      obtain ⟨w, hw, h⟩ := Res.bind_eq_ok.mp h
      injection h with h
      subst h
      refine .vec hk (basic_put hb _ (by decide) (by decide) (by decide)) ?_ (hget_hput_same _ _ _) (part_of hu (fun v hv => ih e v hv) hw)
      intro hl; rw [hget_hput_ne _ _ (by decide)]; exact size_none H t hl
    | str e =>
      rw [hk] at h
      obtain ⟨w, hw, h⟩ := Res.bind_eq_ok.mp h
      injection h with h
      subst h
      refine .str hk (basic_put hb _ (by decide) (by decide) (by decide)) ?_ (hget_hput_same _ _ _) (part_of hu (fun v hv => ih e v hv) hw)
      intro hl; rw [hget_hput_ne _ _ (by decide)]; exact size_none H t hl
    | comp fs =>
      rw [hk] at h
      obtain ⟨l, hl, h⟩ := Res.bind_eq_ok.mp h
      obtain ⟨l', hl', h⟩ := Res.bind_eq_ok.mp h
      injection h with h
      subst h
      refine .comp hk (basic_put hb _ (by decide) (by decide) (by decide)) ?_ (hget_hput_same _ _ _) ?_
      · intro hl; rw [hget_hput_ne _ _ (by decide)]; exact size_none H t hl
      · exact tells_fields (hu.ascii t fs hk) (hu.names t fs hk) (hu.offsets t fs hk) (fun g hg v hv => part_of hu (fun v hv => ih g.ty v hv) hv)
          (fieldHashes_made hl) (fun _ h => h) hl'

end Verif.RubyHash
