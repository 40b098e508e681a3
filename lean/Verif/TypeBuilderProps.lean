import Verif.TypeBuilderParse
import Verif.NameProps

/-! Property C37: building array and pointer types. -/

namespace Verif.TypeBuilder
open Verif Verif.Names Verif.Graph Verif.Registry

/-! ### Specification -/

/-- the type objects that stand for one step of a declaration over `x` -/
def Decl.kind : Decl → TId → Kind
  | .ptr, x => .ptr x
  | .arr d, x => .arr d x

/-- the size of a step over something of size `s`: 8 bytes for a pointer, `size_t` arithmetic for an array -/
def Decl.size : Decl → Nat → Nat
  | .ptr, _ => 8
  | .arr d, s => d * s % 2 ^ 64

/-- `u` is `t` with the given steps applied, innermost first -/
inductive Applied (H : Heap) (t : TId) : List Decl → TId → Prop
  | nil : Applied H t [] t
  | snoc {l : List Decl} {u v : TId} (m : Decl) : Applied H t l u → H.kind v = m.kind u → Applied H t (l ++ [m]) v

/-- the size of `l` applied to something of size `s` -/
def declSize (s : Nat) (l : List Decl) : Nat := l.foldl (fun s m => m.size s) s

/-- What decorated names mean: a registered array or pointer type is named after its element, has the right size and a
registered element; a type registered under a name that ends like that of an array or pointer is that array or pointer
of what is registered under the rest of the name. -/
structure Honest (H : Heap) (R : Reg) : Prop where
  built : ∀ (u : TId) (m : Decl) (x : TId), Regd H R u → H.kind u = m.kind x →
    H.name u = H.name x ++ m.text ∧ H.size u = m.size (H.size x) ∧ Regd H R x
  names : ∀ (b : Str) (m : Decl) (u : TId), isAbsoluteName b = true → R.get (b ++ m.text) = some u →
    ∃ x, R.get b = some x ∧ H.kind u = m.kind x

/-- the steps meant by the modifiers given to `build` -/
def Modifier.steps : Modifier → List Decl
  | .ptr level => List.replicate level .ptr
  | .arr d => [.arr (toSizeT d)]

/-- nothing that existed is changed: objects are the same and names still designate the same objects -/
structure Extends (w w' : World) : Prop where
  next : w.1.next ≤ w'.1.next
  objects : ∀ t, t < w.1.next → w'.1.get t = w.1.get t
  names : ∀ n u, isAbsoluteName n = true → w.2.get n = some u → w'.2.get n = some u

/-! ### Proof -/

theorem Extends.refl (w : World) : Extends w w := ⟨Nat.le_refl _, fun _ _ => rfl, fun _ _ _ h => h⟩

theorem Extends.trans {a b c : World} (h : Extends a b) (h' : Extends b c) : Extends a c :=
  ⟨Nat.le_trans h.next h'.next, fun t ht => (h'.objects t (Nat.lt_of_lt_of_le ht h.next)).trans (h.objects t ht),
    fun n u hn hu => h'.names n u hn (h.names n u hn hu)⟩

theorem natStr_inj {a b : Nat} (h : natStr a = natStr b) : a = b := by
  have hv : ∀ d, Nat.ofDigitChars 10 (natStr d) 0 = d := by
    intro d
    unfold natStr
    rw [show toString d = d.repr from rfl, Nat.toList_repr]
    exact Nat.ofDigitChars_toDigits (by decide) (by decide)
  rw [← hv a, ← hv b, h]

theorem Decl.indirect (m : Decl) (x : TId) : (m.kind x).indirectName = some (fun n => n ++ m.text) := by
  cases m <;> simp [Decl.kind, Kind.indirectName, Decl.text]

theorem Decl.elem (m : Decl) (x : TId) : (m.kind x).elem? = some x := by
  cases m <;> rfl

theorem text_inj {b b' : Str} {m m' : Decl} (h : b ++ m.text = b' ++ m'.text) : b = b' ∧ m = m' := by
  obtain ⟨h1, h2⟩ := indirect_inj (m.indirect 0) (m'.indirect 0) h
  refine ⟨h1, ?_⟩
  have h3 : m.text = m'.text := by simpa using congrFun h2 []
  cases m <;> cases m' <;> simp [Decl.text] at h3
  · rfl
  · rw [natStr_inj h3]

theorem kind_inj {m m' : Decl} {x x' : TId} (h : m.kind x = m'.kind x') : m = m' ∧ x = x' := by
  cases m <;> cases m' <;> simp [Decl.kind] at h
  · exact ⟨rfl, h⟩
  · exact ⟨by rw [h.1], h.2⟩

/-- a name derived from an alias that ends like an array or pointer name -/
theorem derived_text {k : Kind} {ind : Str → Str} {x : TId} (hi : k.indirectName = some ind) (he : k.elem? = some x)
    {a b : Str} {m : Decl} (h : b ++ m.text = ind a) : a = b ∧ k = m.kind x := by
  cases k with
  | arr d e =>
    simp only [Kind.indirectName, Option.some.injEq] at hi
    simp only [Kind.elem?, Option.some.injEq] at he
    subst he
    rw [← hi] at h
    obtain ⟨h1, h2⟩ := text_inj (b' := a) (m' := .arr d) (h.trans (by simp [Decl.text]))
    exact ⟨h1.symm, by rw [h2]; rfl⟩
  | ptr e =>
    simp only [Kind.indirectName, Option.some.injEq] at hi
    simp only [Kind.elem?, Option.some.injEq] at he
    subst he
    rw [← hi] at h
    obtain ⟨h1, h2⟩ := text_inj (b' := a) (m' := .ptr) (h.trans (by simp [Decl.text]))
    exact ⟨h1.symm, by rw [h2]; rfl⟩
  | vec e =>
    simp only [Kind.indirectName, Option.some.injEq] at hi
    rw [← hi] at h
    have := congrArg List.getLast? h
    cases m <;> simp [Decl.text, List.getLast?_append, List.getLast?_cons] at this
  | null => cases hi
  | «opaque» => cases hi
  | num c => cases hi
  | enum s => cases hi
  | str e => cases hi
  | comp f => cases hi

/-- the object made by the constructors -/
def Decl.defOf (m : Decl) (H : Heap) (x : TId) : TypeDef := ⟨H.name x ++ m.text, m.size (H.size x), m.kind x⟩

variable {key : Char → Int}

theorem abs_append {a b : Str} (h : isAbsoluteName a = true) : isAbsoluteName (a ++ b) = true := by
  cases a with
  | nil => cases h
  | cons c r => exact h

theorem honest_alloc {H : Heap} {R R' : Reg} {x : TId} {m : Decl} (hinv : Inv key H R) (hh : Honest H R)
    (hx : Regd H R x) (hinv' : Inv key (H.alloc (m.defOf H x)) R')
    (hext : ∀ n u, R.reg n = some u → R'.reg n = some u)
    (hnew : ∀ n u, New R R' n u → (n = H.name x ++ m.text ∧ u = H.next) ∨ Derived (H.alloc (m.defOf H x)) R' n u)
    (hold : ∀ n u, New R R' n u → u = H.next ∨ R.reg ((H.alloc (m.defOf H x)).name u) = some u) :
    Honest (H.alloc (m.defOf H x)) R' := by
  generalize hH' : H.alloc (m.defOf H x) = H' at *
  have hget : ∀ t, t < H.next → H'.get t = H.get t := by
    intro t ht; rw [← hH']; exact alloc_get_old H _ ht
  have hnewget : H'.get H.next = m.defOf H x := by rw [← hH']; exact alloc_get_new H _
  have hxr := (hinv.regd_iff x).mp hx
  have hxlt : x < H.next := (hinv.reg_name hxr).2.2.2
  have hlt : ∀ {n u}, R.reg n = some u → u < H.next := fun h => (hinv.reg_name h).2.2.2
  have habs : ∀ {n u}, R.reg n = some u → isAbsoluteName n = true := fun h => (hinv.reg_name h).2.1
  have hname : ∀ t, t < H.next → H'.name t = H.name t := fun t ht => by unfold Heap.name; rw [hget t ht]
  have hkind : ∀ t, t < H.next → H'.kind t = H.kind t := fun t ht => by unfold Heap.kind; rw [hget t ht]
  have hsize : ∀ t, t < H.next → H'.size t = H.size t := fun t ht => by unfold Heap.size; rw [hget t ht]
  have hregd : ∀ t, R.reg (H.name t) = some t → R'.reg (H'.name t) = some t := by
    intro t ht
    rw [hname t (hlt ht)]
    exact hext _ _ ht
  constructor
  · intro u m' x' hu hk
    have hur := (hinv'.regd_iff u).mp hu
    unfold Reg.regd at hur
    have hcase : (u < H.next ∧ R.reg (H.name u) = some u) ∨ u = H.next := by
      cases ho : R.reg (H'.name u) with
      | some u' =>
        have := hext _ _ ho
        rw [hur] at this
        have hu' := (Option.some.inj this).symm
        subst hu'
        exact Or.inl ⟨hlt ho, by rw [← hname _ (hlt ho)]; exact ho⟩
      | none =>
        rcases hold _ u ⟨ho, hur⟩ with h | h
        · exact Or.inr h
        · rw [ho] at h; cases h
    rcases hcase with ⟨hul, hur0⟩ | rfl
    · rw [hkind u hul] at hk
      obtain ⟨h1, h2, h3⟩ := hh.built u m' x' ((hinv.regd_iff u).mpr hur0) hk
      have hx'r := (hinv.regd_iff x').mp h3
      have hx'l := hlt hx'r
      rw [hname u hul, hname x' hx'l, hsize u hul, hsize x' hx'l]
      exact ⟨h1, h2, (hinv'.regd_iff x').mpr (hregd x' hx'r)⟩
    · have hk' : m.kind x = m'.kind x' := by
        rw [← hk]; unfold Heap.kind; rw [hnewget]; rfl
      obtain ⟨rfl, rfl⟩ := kind_inj hk'
      rw [hname x hxlt, hsize x hxlt]
      refine ⟨?_, ?_, (hinv'.regd_iff x).mpr (hregd x hxr)⟩
      · unfold Heap.name; rw [hnewget]; rfl
      · unfold Heap.size; rw [hnewget]; rfl
  · intro b m' u hb hg
    have hba := abs_append (b := m'.text) hb
    rw [hinv'.abs _ hba] at hg
    cases ho : R.reg (b ++ m'.text) with
    | some u' =>
      have := hext _ _ ho
      rw [hg] at this
      have hu' := (Option.some.inj this).symm
      subst hu'
      obtain ⟨x', h1, h2⟩ := hh.names b m' u' hb (by rw [hinv.abs _ hba]; exact ho)
      rw [hinv.abs _ hb] at h1
      refine ⟨x', by rw [hinv'.abs _ hb]; exact hext _ _ h1, by rw [hkind u' (hlt ho)]; exact h2⟩
    | none =>
      rcases hnew _ u ⟨ho, hg⟩ with ⟨h1, rfl⟩ | ⟨ind, y, a, h1, h2, h3, h4, h5, h6⟩
      · obtain ⟨rfl, rfl⟩ := text_inj h1
        refine ⟨x, by rw [hinv'.abs _ hb]; exact hext _ _ hxr, ?_⟩
        unfold Heap.kind; rw [hnewget]; rfl
      · obtain ⟨rfl, h7⟩ := derived_text h1 h2 h3
        exact ⟨y, by rw [hinv'.abs _ hb]; exact h4, h7⟩

/-- the failures of `build`: a name that is not a valid type name -/
def BadNameIn (w : World) (n : Str) : Prop :=
  isValidTypename n true = false ∨ ∃ a u, DerivedName w.1 w.2 a u ∧ isValidTypename a true = false

theorem getOrAdd_spec (hkey : ∀ a b, key a = key b → a = b) {H : Heap} {R : Reg} (hr : Reachable key H R)
    (hh : Honest H R) (x : TId) (hx : Regd H R x) (m : Decl) :
    let o := getOrAdd key (H, R) (m.defOf H x)
    Reachable key o.1.1 o.1.2 ∧ Honest o.1.1 o.1.2 ∧ Extends (H, R) o.1 ∧
    ((∃ v, o.2 = .ok v ∧ Regd o.1.1 o.1.2 v ∧ o.1.1.get v = m.defOf H x) ∨
     (o.2 = .exn .badName ∧ BadNameIn o.1 (H.name x ++ m.text))) := by
  intro o
  have ho : o = getOrAdd key (H, R) (m.defOf H x) := rfl
  obtain ⟨hac, hinv⟩ := reachable_inv hkey hr
  have hxr := (hinv.regd_iff x).mp hx
  have hxa := (hinv.reg_name hxr).2.1
  have hna : isAbsoluteName (H.name x ++ m.text) = true := abs_append hxa
  have hxlt : x < H.next := (hinv.reg_name hxr).2.2.2
  unfold getOrAdd at ho
  simp only at ho
  have hdn : (m.defOf H x).name = H.name x ++ m.text := rfl
  rw [hdn] at ho
  cases hg : R.get (H.name x ++ m.text) with
  | some v =>
    rw [hg] at ho
    rw [ho]
    refine ⟨hr, hh, Extends.refl _, Or.inl ⟨v, rfl, ?_, ?_⟩⟩
    · exact (hinv.regd_iff v).mpr (hinv.get_regd hg)
    · obtain ⟨x', h1, h2⟩ := hh.names (H.name x) m v hxa hg
      rw [show R.get (H.name x) = some x from hx] at h1
      have := Option.some.inj h1
      subst this
      obtain ⟨h3, h4, _⟩ := hh.built v m x ((hinv.regd_iff v).mpr (hinv.get_regd hg)) h2
      show H.get v = _
      have h5 : H.get v = ⟨H.name v, H.size v, H.kind v⟩ := rfl
      rw [h5, h3, h4, h2]
      rfl
  | none =>
    rw [hg] at ho
    simp only at ho
    have hd : ∀ y, (m.defOf H x).kind.elem? = some y → y < H.next := by
      intro y hy
      rw [show (m.defOf H x).kind = m.kind x from rfl, m.elem] at hy
      cases hy
      exact hxlt
    have hr1 := Reachable.alloc (m.defOf H x) hr hd
    obtain ⟨hac1, hinv1⟩ := reachable_inv hkey hr1
    have hnm : (H.alloc (m.defOf H x)).name H.next = H.name x ++ m.text := by
      unfold Heap.name; rw [alloc_get_new]; rfl
    have hlt1 : H.next < (H.alloc (m.defOf H x)).next := Nat.lt_succ_self _
    have habs1 : isAbsoluteName ((H.alloc (m.defOf H x)).name H.next) = true := by rw [hnm]; exact hna
    have hr2 := Reachable.op (.addAuto H.next []) hr1 ⟨hlt1, habs1⟩
    have hsp := add_spec hkey hac1 hinv1 H.next hlt1 habs1
      (isPersistent (H.alloc (m.defOf H x)) ((H.alloc (m.defOf H x)).name H.next) H.next) []
    simp only [step] at hr2
    rw [show add key (H.alloc (m.defOf H x)) R H.next (isPersistent (H.alloc (m.defOf H x))
      ((H.alloc (m.defOf H x)).name H.next) H.next) [] = addAuto key (H.alloc (m.defOf H x)) R H.next [] from rfl] at hsp
    generalize hadd : addAuto key (H.alloc (m.defOf H x)) R H.next [] = a at ho hr2 hsp
    obtain ⟨R', r⟩ := a
    obtain ⟨⟨i1, i2, i3, i4, i5⟩, i6, i7⟩ := hsp
    simp only at i1 i2 i3 i4 i5 i6 i7 hr2
    rw [hnm] at i4 i6 i7
    have hhon := honest_alloc hinv hh hx i1 i3 i4 i5
    have hinv2 := i1
    have hext : Extends (H, R) (H.alloc (m.defOf H x), R') := by
      refine ⟨Nat.le_succ _, fun t ht => alloc_get_old H _ ht, ?_⟩
      intro n u hn hu
      show R'.get n = some u
      rw [hinv2.abs n hn]
      exact i3 n u (by rw [← hinv.abs n hn]; exact hu)
    have hreg0 : R.reg (H.name x ++ m.text) = none := by rw [← hinv.abs _ hna]; exact hg
    rcases i7 with h7 | ⟨h7, h8, h9⟩ | ⟨h7, h8, u, h9, h10⟩ | ⟨h7, h8, n, u, h9, h10⟩
    · subst h7
      rw [ho]
      refine ⟨hr2, hhon, hext, Or.inl ⟨H.next, rfl, ?_, alloc_get_new H _⟩⟩
      refine (hinv2.regd_iff _).mpr ?_
      unfold Reg.regd
      rw [hnm]
      exact (i6 rfl).1
    · subst h7
      rw [ho]
      exact ⟨hr2, hhon, hext, Or.inr ⟨rfl, Or.inl h9⟩⟩
    · rw [hreg0] at h9; cases h9
    · subst h7
      rw [ho]
      exact ⟨hr2, hhon, hext, Or.inr ⟨rfl, Or.inr ⟨n, u, (hinv2.derived_iff n u).mp h9, h10⟩⟩⟩

/-- what one successful or failed construction guarantees -/
structure Outcome (key : Char → Int) (w : World) (t : TId) (l : List Decl) (o : World × Res TId) : Prop where
  reach : Reachable key o.1.1 o.1.2
  honest : Honest o.1.1 o.1.2
  ext : Extends w o.1
  result : (∃ v, o.2 = .ok v ∧ Regd o.1.1 o.1.2 v ∧ Applied o.1.1 t l v ∧ o.1.1.name v = w.1.name t ++ declText l ∧
      o.1.1.size v = declSize (w.1.size t) l) ∨
    (o.2 = .exn .badName ∧ ∃ l1 l2, l = l1 ++ l2 ∧ l1 ≠ [] ∧ BadNameIn o.1 (w.1.name t ++ declText l1))

theorem declText_append (a b : List Decl) : declText (a ++ b) = declText a ++ declText b := by
  unfold declText; rw [List.flatMap_append]

theorem Applied.trans {H : Heap} {t u v : TId} {a b : List Decl} (h : Applied H t a u) (h' : Applied H u b v) :
    Applied H t (a ++ b) v := by
  induction h' with
  | nil => rw [List.append_nil]; exact h
  | snoc m _ hk ih => rw [← List.append_assoc]; exact Applied.snoc m ih hk

theorem outcome_nil {w : World} (hr : Reachable key w.1 w.2) (hh : Honest w.1 w.2) {t : TId} (ht : Regd w.1 w.2 t) :
    Outcome key w t [] (w, .ok t) :=
  ⟨hr, hh, Extends.refl _, Or.inl ⟨t, rfl, ht, .nil, by simp [declText], rfl⟩⟩

theorem Extends.regd (hkey : ∀ a b, key a = key b → a = b) {w w' : World} (h : Extends w w')
    (hr : Reachable key w.1 w.2) {t : TId} (ht : Regd w.1 w.2 t) :
    t < w.1.next ∧ isAbsoluteName (w.1.name t) = true ∧ Regd w'.1 w'.2 t := by
  have hinv := (reachable_inv hkey hr).2
  have h1 := hinv.reg_name ((hinv.regd_iff t).mp ht)
  refine ⟨h1.2.2.2, h1.2.1, ?_⟩
  have : w'.1.name t = w.1.name t := by unfold Heap.name; rw [h.objects t h1.2.2.2]
  unfold Regd
  rw [this]
  exact h.names _ _ h1.2.1 ht

theorem Applied.mono {w w' : World} (hac : Acyclic w.1) (h : Extends w w') {t v : TId} {l : List Decl}
    (ha : Applied w.1 t l v) (hv : v < w.1.next) : Applied w'.1 t l v := by
  induction ha with
  | nil => exact .nil
  | @snoc l u v m _ hk ih =>
    have : u < v := hac v u (by rw [hk]; exact m.elem u)
    refine .snoc m (ih (Nat.lt_trans this hv)) ?_
    unfold Heap.kind
    rw [h.objects v hv]
    exact hk

/-- sequencing -/
theorem outcome_bind (hkey : ∀ a b, key a = key b → a = b) {w : World} {t : TId} {a b : List Decl} {o : World × Res TId} (h : Outcome key w t a o)
    (f : World → TId → World × Res TId)
    (hf : ∀ w' u, Reachable key w'.1 w'.2 → Honest w'.1 w'.2 → Regd w'.1 w'.2 u → Outcome key w' u b (f w' u))
    {o' : World × Res TId}
    (ho' : o' = match o with | (w', .ok u) => f w' u | r => r) : Outcome key w t (a ++ b) o' := by
  obtain ⟨h1, h2, h3, h4⟩ := h
  obtain ⟨w1, r1⟩ := o
  simp only at h1 h2 h3 h4 ho'
  rcases h4 with ⟨u, rfl, h5, h6, h7, h8⟩ | ⟨rfl, l1, l2, e1, e2, e3⟩
  · simp only at ho'
    obtain ⟨k1, k2, k3, k4⟩ := hf w1 u h1 h2 h5
    rw [← ho'] at k1 k2 k3 k4
    refine ⟨k1, k2, h3.trans k3, ?_⟩
    rcases k4 with ⟨v, k5, k6, k7, k8, k9⟩ | ⟨k5, l1, l2, e1, e2, e3⟩
    · left
      have hul := (k3.regd hkey h1 h5).1
      refine ⟨v, k5, k6, (h6.mono (reachable_inv hkey h1).1 k3 hul).trans k7, ?_, ?_⟩
      · rw [k8, h7, declText_append, List.append_assoc]
      · rw [k9, h8]; unfold declSize; rw [List.foldl_append]
    · right
      refine ⟨k5, a ++ l1, l2, by rw [e1, List.append_assoc], by simp [e2], ?_⟩
      rw [h7] at e3
      rw [declText_append, ← List.append_assoc]
      exact e3
  · simp only at ho'
    rw [ho']
    exact ⟨h1, h2, h3, Or.inr ⟨rfl, l1, l2 ++ b, by rw [e1, List.append_assoc], e2, e3⟩⟩

theorem outcome_single (hkey : ∀ a b, key a = key b → a = b) {w : World} (hr : Reachable key w.1 w.2)
    (hh : Honest w.1 w.2) {t : TId} (ht : Regd w.1 w.2 t) (m : Decl) :
    Outcome key w t [m] (getOrAdd key w (m.defOf w.1 t)) := by
  obtain ⟨h1, h2, h3, h4⟩ := getOrAdd_spec hkey hr hh t ht m
  refine ⟨h1, h2, h3, ?_⟩
  rcases h4 with ⟨v, h5, h6, h7⟩ | ⟨h5, h6⟩
  · left
    refine ⟨v, h5, h6, ?_, ?_, ?_⟩
    · refine Applied.snoc (l := []) m .nil ?_
      unfold Heap.kind; rw [h7]; rfl
    · unfold Heap.name; rw [h7]; simp [Decl.defOf, declText, Heap.name]
    · unfold Heap.size; rw [h7]; rfl
  · right
    exact ⟨h5, [m], [], rfl, by simp, by simpa [declText] using h6⟩

theorem outcome_pointer (hkey : ∀ a b, key a = key b → a = b) (n : Nat) : ∀ (w : World) (t : TId),
    Reachable key w.1 w.2 → Honest w.1 w.2 → Regd w.1 w.2 t →
    Outcome key w t (List.replicate n .ptr) (addPointer key n w t) := by
  induction n with
  | zero => intro w t hr hh ht; exact outcome_nil hr hh ht
  | succ n ih =>
    intro w t hr hh ht
    refine outcome_bind (a := [.ptr]) hkey (outcome_single hkey hr hh ht .ptr)
      (fun w u => addPointer key n w u) ih ?_
    rw [addPointer]
    rfl

theorem outcome_mod (hkey : ∀ a b, key a = key b → a = b) (m : Modifier) (w : World) (t : TId)
    (hr : Reachable key w.1 w.2) (hh : Honest w.1 w.2) (ht : Regd w.1 w.2 t) :
    Outcome key w t m.steps (applyMod key w t m) := by
  cases m with
  | ptr n => exact outcome_pointer hkey n w t hr hh ht
  | arr d => exact outcome_single hkey hr hh ht (.arr (toSizeT d))

theorem outcome_mods (hkey : ∀ a b, key a = key b → a = b) (ms : List Modifier) : ∀ (w : World) (t : TId),
    Reachable key w.1 w.2 → Honest w.1 w.2 → Regd w.1 w.2 t →
    Outcome key w t (ms.flatMap Modifier.steps) (applyMods key w t ms) := by
  induction ms with
  | nil => intro w t hr hh ht; exact outcome_nil hr hh ht
  | cons m ms ih =>
    intro w t hr hh ht
    rw [List.flatMap_cons]
    refine outcome_bind hkey (outcome_mod hkey m w t hr hh ht) (fun w u => applyMods key w u ms) ih ?_
    rw [applyMods]
    rfl

/-! ### building again -/

theorem Applied.of_nil {H : Heap} {t v : TId} (h : Applied H t [] v) : v = t := by
  generalize hl : ([] : List Decl) = l at h
  cases h with
  | nil => rfl
  | snoc m _ _ => simp at hl

theorem Applied.cons_iff {H : Heap} {t v : TId} {m : Decl} {l : List Decl} (h : Applied H t (m :: l) v) :
    ∃ u, H.kind u = m.kind t ∧ Applied H u l v := by
  induction l using EnumModel.snoc_induction generalizing v with
  | nil =>
    generalize hl : [m] = l' at h
    cases h with
    | nil => cases hl
    | @snoc l u v m' ha hk =>
      cases l with
      | nil =>
        simp only [List.nil_append, List.cons.injEq, and_true] at hl
        subst hl
        rw [ha.of_nil] at hk
        exact ⟨v, hk, .nil⟩
      | cons a l => simp at hl
  | snoc l p ih =>
    generalize hl : m :: (l ++ [p]) = l' at h
    cases h with
    | nil => cases hl
    | @snoc l2 u v m' ha hk =>
      rw [← List.cons_append] at hl
      have h1 := List.append_inj_left' hl rfl
      have h2 := List.append_inj_right' hl rfl
      simp only [List.cons.injEq, and_true] at h2
      subst h1 h2
      obtain ⟨w, h3, h4⟩ := ih ha
      exact ⟨w, h3, .snoc p h4 hk⟩

theorem Applied.regd {H : Heap} {R : Reg} (hh : Honest H R) {t v : TId} {l : List Decl} (h : Applied H t l v)
    (hv : Regd H R v) : Regd H R t := by
  induction h with
  | nil => exact hv
  | snoc m _ hk ih => exact ih (hh.built _ m _ hv hk).2.2

theorem getOrAdd_found {w : World} (hh : Honest w.1 w.2) {t u : TId} {m : Decl} (hk : w.1.kind u = m.kind t)
    (hu : Regd w.1 w.2 u) : getOrAdd key w (m.defOf w.1 t) = (w, .ok u) := by
  have h1 := (hh.built u m t hu hk).1
  unfold getOrAdd
  have : w.2.get (m.defOf w.1 t).name = some u := by
    rw [show (m.defOf w.1 t).name = w.1.name t ++ m.text from rfl, ← h1]
    exact hu
  rw [this]

theorem Applied.split {H : Heap} {t v : TId} {a b : List Decl} (h : Applied H t (a ++ b) v) :
    ∃ u, Applied H t a u ∧ Applied H u b v := by
  induction a generalizing t with
  | nil => exact ⟨t, .nil, h⟩
  | cons m a ih =>
    obtain ⟨u, h1, h2⟩ := h.cons_iff
    obtain ⟨x, h3, h4⟩ := ih h2
    have h5 : Applied H t [m] u := Applied.snoc (l := []) m .nil h1
    exact ⟨x, by have := h5.trans h3; simpa using this, h4⟩

theorem mods_found (ms : List Modifier) : ∀ (w : World) (t v : TId), Honest w.1 w.2 →
    Applied w.1 t (ms.flatMap Modifier.steps) v → Regd w.1 w.2 v → applyMods key w t ms = (w, .ok v) := by
  have hptr : ∀ (n : Nat) (w : World) (t v : TId), Honest w.1 w.2 → Applied w.1 t (List.replicate n .ptr) v →
      Regd w.1 w.2 v → addPointer key n w t = (w, .ok v) := by
    intro n
    induction n with
    | zero => intro w t v _ ha _; rw [ha.of_nil]; rfl
    | succ n ih =>
      intro w t v hh ha hv
      rw [List.replicate_succ] at ha
      obtain ⟨u, h1, h2⟩ := ha.cons_iff
      rw [addPointer, show ptrDef w.1 t = Decl.ptr.defOf w.1 t from rfl, getOrAdd_found hh h1 (h2.regd hh hv)]
      exact ih w u v hh h2 hv
  induction ms with
  | nil => intro w t v _ ha _; rw [ha.of_nil]; rfl
  | cons m ms ih =>
    intro w t v hh ha hv
    rw [List.flatMap_cons] at ha
    obtain ⟨u, h1, h2⟩ := ha.split
    have hu := h2.regd hh hv
    have hm : applyMod key w t m = (w, .ok u) := by
      cases m with
      | ptr n => exact hptr n w t u hh h1 hu
      | arr d =>
        obtain ⟨x, h3, h4⟩ := Applied.cons_iff (l := []) h1
        rw [h4.of_nil] at hu ⊢
        exact getOrAdd_found hh h3 hu
    rw [applyMods, hm]
    exact ih w u v hh h2 hv

/-! ### C37 -/

/-- the steps written in a text -/
def stepsOf (l : List (Nat × Decl)) : List Decl := l.map (·.2)

theorem toSizeT_nat {d : Nat} (h : d < 2 ^ 31) : toSizeT d = d := by
  unfold toSizeT W
  omega

theorem steps_modifiers (l : List (Nat × Decl)) (hf : ∀ p ∈ l, p.2.Fits) :
    (l.map (fun p => p.2.modifier)).flatMap Modifier.steps = stepsOf l := by
  induction l with
  | nil => rfl
  | cons p l ih =>
    rw [List.map_cons, List.flatMap_cons, ih (fun q hq => hf q (by simp [hq]))]
    have hp := hf p (by simp)
    unfold stepsOf
    rw [List.map_cons]
    obtain ⟨n, d⟩ := p
    cases d with
    | ptr => rfl
    | arr d =>
      simp only [Decl.modifier, Modifier.steps]
      rw [toSizeT_nat hp]
      rfl

/-- **C37.** In every reachable registry where decorated names mean what they say: building the type named by a
known name followed by any array and pointer modifiers yields the type obtained by applying the same modifiers in the
same order to the known type, named after it, of the size given by the dimensions, and registered; nothing that
existed is changed, and the registry keeps its properties. The only failure is `BadName`, when the name of one of the
intermediate types (or a name derived from an alias) is not a valid type name. -/
theorem C37_build (hkey : ∀ a b, key a = key b → a = b) {H : Heap} {R : Reg} (hr : Reachable key H R)
    (hh : Honest H R) (b : Str) (hb : BaseName b) (t : TId) (ht : R.get b = some t) (l : List (Nat × Decl)) (k : Nat)
    (hf : ∀ p ∈ l, p.2.Fits) :
    let o := buildName key (H, R) (b ++ spacedText l k) 0
    Reachable key o.1.1 o.1.2 ∧ Honest o.1.1 o.1.2 ∧ Extends (H, R) o.1 ∧
    ((∃ v, o.2 = .ok (some v) ∧ Applied o.1.1 t (stepsOf l) v ∧
        o.1.1.name v = H.name t ++ declText (stepsOf l) ∧ o.1.1.size v = declSize (H.size t) (stepsOf l) ∧
        o.1.2.get (o.1.1.name v) = some v) ∨
     (o.2 = .exn .badName ∧ ∃ l1 l2, stepsOf l = l1 ++ l2 ∧ l1 ≠ [] ∧ BadNameIn o.1 (H.name t ++ declText l1))) := by
  intro o
  have ho : o = buildName key (H, R) (b ++ spacedText l k) 0 := rfl
  have hinv := (reachable_inv hkey hr).2
  have htr : Regd H R t := (hinv.regd_iff t).mpr (hinv.get_regd ht)
  unfold buildName at ho
  rw [C37_parse b hb l k hf] at ho
  simp only at ho
  rw [ht] at ho
  simp only [buildSpec] at ho
  have hout := outcome_mods hkey (l.map (fun p => p.2.modifier)) (H, R) t hr hh htr
  rw [steps_modifiers l hf] at hout
  generalize applyMods key (H, R) t (l.map (fun p => p.2.modifier)) = a at ho hout
  obtain ⟨w, r⟩ := a
  obtain ⟨h1, h2, h3, h4⟩ := hout
  simp only at h1 h2 h3 h4
  rcases h4 with ⟨v, rfl, h5, h6, h7, h8⟩ | ⟨rfl, h5⟩
  · simp only [ne_eq, not_true_eq_false, if_false] at ho
    rw [ho]
    exact ⟨h1, h2, h3, Or.inl ⟨v, rfl, h6, h7, h8, h5⟩⟩
  · simp only at ho
    rw [ho]
    exact ⟨h1, h2, h3, Or.inr ⟨rfl, h5⟩⟩

/-- **C37.** Building the same name again gives the same type and changes nothing. -/
theorem C37_build_again (hkey : ∀ a b, key a = key b → a = b) {H : Heap} {R : Reg} (hr : Reachable key H R)
    (hh : Honest H R) (b : Str) (hb : BaseName b) (t : TId) (ht : R.get b = some t) (habs : isAbsoluteName b = true)
    (l : List (Nat × Decl)) (k : Nat) (hf : ∀ p ∈ l, p.2.Fits) (w : World) (v : TId)
    (hok : buildName key (H, R) (b ++ spacedText l k) 0 = (w, .ok (some v))) (l' : List (Nat × Decl)) (k' : Nat)
    (hl' : stepsOf l' = stepsOf l) :
    buildName key w (b ++ spacedText l' k') 0 = (w, .ok (some v)) := by
  obtain ⟨h1, h2, h3, h4⟩ := C37_build hkey hr hh b hb t ht l k hf
  rw [hok] at h1 h2 h3 h4
  simp only at h1 h2 h3 h4
  rcases h4 with ⟨u, h5, h6, h7, h8, h9⟩ | ⟨h5, _⟩
  · cases h5
    have hf' : ∀ p ∈ l', p.2.Fits := by
      intro p hp
      have : p.2 ∈ stepsOf l' := List.mem_map.mpr ⟨p, hp, rfl⟩
      rw [hl'] at this
      obtain ⟨q, hq, e⟩ := List.mem_map.mp this
      rw [← e]
      exact hf q hq
    unfold buildName
    rw [C37_parse b hb l' k' hf']
    simp only
    rw [h3.names b t habs ht]
    simp only [buildSpec]
    rw [mods_found _ w t v h2 (by rw [steps_modifiers l' hf', hl']; exact h6) h9]
    simp
  · cases h5

/-- `*…*[d1]…[dn]` -/
def starsThenDims (stars : Nat) (dims : List Nat) : List Decl := List.replicate stars .ptr ++ dims.map .arr

/-- the names that can be built: pointers first, then array dimensions -/
theorem C37_buildable_names (comps : List Str) (hne : comps ≠ []) (hc : ∀ x ∈ comps, Ident x) (stars : Nat)
    (dims : List Nat) :
    isValidTypename (joinAbs comps ++ declText (starsThenDims stars dims)) true = true := by
  have hdims : ∀ dims : List Nat, ∃ t : NTail, t.render = declText (dims.map .arr) ∧ ∀ c, t.WF c := by
    intro dims
    induction dims with
    | nil => exact ⟨.done, rfl, fun c => by simp [NTail.WF]⟩
    | cons d ds ih =>
      obtain ⟨t, h1, h2⟩ := ih
      refine ⟨.arr (natStr d) t, ?_, fun c => ?_⟩
      · simp [NTail.render, h1, declText, Decl.text]
      · simp only [NTail.WF]
        refine ⟨⟨?_, natStr_digits d⟩, h2 _⟩
        unfold natStr
        rw [show toString d = d.repr from rfl, Nat.toList_repr]
        exact Nat.toDigits_ne_nil
  have hstars : declText (List.replicate stars .ptr) = List.replicate stars '*' := by
    induction stars with
    | zero => rfl
    | succ n ih => rw [List.replicate_succ, List.replicate_succ, ← ih]; rfl
  obtain ⟨t, h1, h2⟩ := hdims dims
  rw [starsThenDims, declText_append, hstars, ← h1]
  -- the components after the first
  have htail : ∀ (c : Str) (cs : List Str), (∀ x ∈ c :: cs, Ident x) →
      ∃ (s : Nat) (t' : NTail), t'.WF .ident ∧
        joinAbs (c :: cs) ++ (List.replicate stars '*' ++ t.render) =
          '/' :: (c ++ List.replicate s '*') ++ t'.render := by
    intro c cs
    induction cs generalizing c with
    | nil =>
      intro _
      exact ⟨stars, t, h2 _, by simp [joinAbs]⟩
    | cons d cs ih =>
      intro hx
      obtain ⟨s, t', h3, h4⟩ := ih d (fun x hx' => hx x (by simp [hx']))
      refine ⟨0, .seg d s t', ?_, ?_⟩
      · simp only [NTail.WF]
        exact ⟨hx d (by simp), h3⟩
      · have : joinAbs (c :: d :: cs) = '/' :: c ++ joinAbs (d :: cs) := by simp [joinAbs]
        rw [this, List.append_assoc, h4]
        simp [NTail.render]
  match comps, hne with
  | c :: cs, _ =>
    obtain ⟨s, t', h3, h4⟩ := htail c cs hc
    rw [h4]
    exact C05_wellformed_accepted c s t' true (hc c (by simp)) h3

/-- **C37.** Pointers to, and arrays of pointers to, a type with a plain name can always be built, under the
requested name, provided no alias leads to an invalid derived name. -/
theorem C37_build_succeeds (hkey : ∀ a b, key a = key b → a = b) {H : Heap} {R : Reg} (hr : Reachable key H R)
    (hh : Honest H R) (comps : List Str) (hne : comps ≠ []) (hc : ∀ x ∈ comps, Ident x) (hb : BaseName (joinAbs comps))
    (t : TId) (ht : Regd H R t) (hn : H.name t = joinAbs comps) (stars : Nat) (dims : List Nat)
    (hd : ∀ d ∈ dims, d < 2 ^ 31)
    (hder : ∀ a u, DerivedName
      (buildName key (H, R) (H.name t ++ declText (starsThenDims stars dims)) 0).1.1
      (buildName key (H, R) (H.name t ++ declText (starsThenDims stars dims)) 0).1.2 a u →
      isValidTypename a true = true) :
    ∃ v, (buildName key (H, R) (H.name t ++ declText (starsThenDims stars dims)) 0).2 = .ok (some v) ∧
      (buildName key (H, R) (H.name t ++ declText (starsThenDims stars dims)) 0).1.1.name v =
        H.name t ++ declText (starsThenDims stars dims) := by
  have e : declText (starsThenDims stars dims) =
      spacedText ((starsThenDims stars dims).map (fun d => (0, d))) 0 := by
    unfold spacedText declText
    rw [List.flatMap_map]
    simp
  have es : stepsOf ((starsThenDims stars dims).map (fun d => ((0 : Nat), d))) =
      starsThenDims stars dims := by
    unfold stepsOf
    rw [List.map_map]
    exact List.map_id _
  have hfit : ∀ p ∈ (starsThenDims stars dims).map (fun d => ((0 : Nat), d)), p.2.Fits := by
    intro p hp
    simp only [starsThenDims, List.mem_map, List.mem_append, List.mem_replicate] at hp
    rcases hp with ⟨d, (⟨_, rfl⟩ | ⟨x, hx, rfl⟩), rfl⟩
    · trivial
    · exact hd x hx
  have hB := C37_build hkey hr hh (H.name t) (by rw [hn]; exact hb) t ht _ 0 hfit
  rw [← e, es] at hB
  obtain ⟨_, _, _, h4⟩ := hB
  rcases h4 with ⟨v, h5, _, h7, _, _⟩ | ⟨_, l1, l2, h6, _, h8⟩
  · exact ⟨v, h5, h7⟩
  · exfalso
    rcases h8 with h8 | ⟨a, u, h8, h9⟩
    · -- a prefix of the modifiers is again pointers then arrays
      have hpre : ∃ s ds, l1 = starsThenDims s ds := by
        have hl1 : l1 = (starsThenDims stars dims).take l1.length := by rw [h6]; simp
        rw [hl1, starsThenDims, List.take_append, List.take_replicate]
        refine ⟨min l1.length stars, dims.take (l1.length - (List.replicate stars Decl.ptr).length), ?_⟩
        rw [starsThenDims, List.map_take]
      obtain ⟨s, ds, rfl⟩ := hpre
      rw [hn, C37_buildable_names comps hne hc s ds] at h8
      cases h8
    · rw [hder a u h8] at h9
      cases h9

/-! ### `addArrayMinor` -/

theorem peel_spec {H : Heap} (hac : Acyclic H) (t0 : TId) (h0 : ∀ d x, H.kind t0 ≠ .arr d x) (dims : List Nat) :
    ∀ (t : TId) (f : Nat), Applied H t0 (dims.map .arr) t → t < f →
      peel H f t = ((dims.map (fun d => toInt d)).reverse, t0) := by
  induction dims using EnumModel.snoc_induction with
  | nil =>
    intro t f ha hf
    rw [ha.of_nil] at hf ⊢
    obtain ⟨g, rfl⟩ : ∃ g, f = g + 1 := ⟨f - 1, by have : 0 < f := Nat.zero_lt_of_lt hf; omega⟩
    unfold peel
    split
    · rename_i d e hk; exact absurd hk (h0 d e)
    · rfl
  | snoc ds d ih =>
    intro t f ha hf
    rw [List.map_append] at ha
    obtain ⟨u, h1, h2⟩ := ha.split
    obtain ⟨x, h3, h4⟩ := Applied.cons_iff (l := []) h2
    have hx := h4.of_nil
    subst hx
    have hlt : u < t := hac t u (by rw [h3]; rfl)
    obtain ⟨g, rfl⟩ : ∃ g, f = g + 1 := ⟨f - 1, by have : 0 < f := Nat.zero_lt_of_lt hf; omega⟩
    unfold peel
    rw [show H.kind t = .arr d u from h3]
    simp only
    have hug : u < g := Nat.lt_of_lt_of_le hlt (Nat.le_of_lt_succ hf)
    rw [ih u g h1 hug]
    simp

theorem toSizeT_toInt {d : Nat} (h : d < 2 ^ 31) : toSizeT (toInt d) = d := by
  unfold toInt
  have h1 : d % 2 ^ 32 = d := Nat.mod_eq_of_lt (by omega)
  rw [h1, if_pos h]
  exact toSizeT_nat h

/-- **C37.** `addArrayMinor` inserts the new dimension innermost: from `t0[d1]…[dn]` it makes `t0[d][d1]…[dn]`. -/
theorem C37_addArrayMinor (hkey : ∀ a b, key a = key b → a = b) {H : Heap} {R : Reg} (hr : Reachable key H R)
    (hh : Honest H R) (t0 t : TId) (dims : List Nat) (h0 : ∀ d x, H.kind t0 ≠ .arr d x) (ht : Regd H R t)
    (ha : Applied H t0 (dims.map .arr) t) (hd : ∀ d ∈ dims, d < 2 ^ 31) (d : Nat) (hd' : d < 2 ^ 31) :
    let o := addArrayMinor key (H, R) t d
    Reachable key o.1.1 o.1.2 ∧ Honest o.1.1 o.1.2 ∧ Extends (H, R) o.1 ∧
    ((∃ v, o.2 = .ok v ∧ Applied o.1.1 t0 ((d :: dims).map .arr) v ∧
        o.1.1.name v = H.name t0 ++ declText ((d :: dims).map .arr) ∧ o.1.2.get (o.1.1.name v) = some v) ∨
     (o.2 = .exn .badName ∧ ∃ l1 l2, (d :: dims).map .arr = l1 ++ l2 ∧ l1 ≠ [] ∧
        BadNameIn o.1 (H.name t0 ++ declText l1))) := by
  intro o
  obtain ⟨hac, hinv⟩ := reachable_inv hkey hr
  have htl : t < H.next := (hinv.reg_name ((hinv.regd_iff t).mp ht)).2.2.2
  have hpeel := peel_spec hac t0 h0 dims t (H.next + 1) ha (Nat.lt_succ_of_lt htl)
  have ho : o = addArrayMinor key (H, R) t d := rfl
  unfold addArrayMinor at ho
  simp only [hpeel, List.reverse_reverse] at ho
  have hsteps : (Modifier.arr d :: (dims.map (fun d => toInt d)).map Modifier.arr).flatMap Modifier.steps =
      (d :: dims).map Decl.arr := by
    rw [List.flatMap_cons]
    simp only [Modifier.steps]
    rw [toSizeT_nat hd']
    have : ∀ ds : List Nat, (∀ d ∈ ds, d < 2 ^ 31) →
        ((ds.map (fun d => toInt d)).map Modifier.arr).flatMap Modifier.steps = ds.map Decl.arr := by
      intro ds
      induction ds with
      | nil => intro _; rfl
      | cons e es ih =>
        intro he
        simp only [List.map_cons, List.flatMap_cons, Modifier.steps]
        rw [toSizeT_toInt (he e (by simp)), ih (fun x hx => he x (by simp [hx]))]
        rfl
    rw [this dims hd]
    rfl
  have hout := outcome_mods hkey (Modifier.arr d :: (dims.map (fun d => toInt d)).map Modifier.arr) (H, R) t0 hr hh
    (ha.regd hh ht)
  rw [hsteps, ← ho] at hout
  obtain ⟨h1, h2, h3, h4⟩ := hout
  refine ⟨h1, h2, h3, ?_⟩
  rcases h4 with ⟨v, h5, h6, h7, h8, _⟩ | h5
  · exact Or.inl ⟨v, h5, h7, h8, h6⟩
  · exact Or.inr h5

/-- **C37**, `Registry::has(name, true)`: a name can be built when what precedes its modifiers is known. (The
code does not check that the build would succeed: see `C37_unbuildable`.) -/
theorem C37_has (R : Reg) (b : Str) (hb : BaseName b) (habs : isAbsoluteName b = true) (l : List (Nat × Decl)) (k : Nat)
    (hf : ∀ p ∈ l, p.2.Fits) :
    has R (b ++ spacedText l k) true = .ok (R.has (b ++ spacedText l k) || R.has b) := by
  unfold has
  cases h : R.has (b ++ spacedText l k) with
  | true => simp
  | false =>
    simp only [Bool.false_eq_true, if_false, Bool.not_true, Bool.false_or]
    unfold getFullName getBaseType
    rw [if_pos (abs_append habs), C37_parse b hb l k hf]
    simp only
    unfold Reg.get Reg.has
    rw [Option.isSome_map]

/-! ### a concrete registry -/

theorem exHonest : Honest exHeap (run ascii exHeap Reg.empty [.addAuto 0 [], .addAuto 3 []]) := by
  have hr : Reachable ascii exHeap (run ascii exHeap Reg.empty [.addAuto 0 [], .addAuto 3 []]) := by
    refine reachable_ops exAcyclic _ ?_
    intro o ho
    simp only [List.mem_cons, List.mem_nil_iff, or_false] at ho
    rcases ho with rfl | rfl <;> exact ⟨by decide, by decide⟩
  have hinv := (reachable_inv ascii_inj hr).2
  have hg : (run ascii exHeap Reg.empty [.addAuto 0 [], .addAuto 3 []]).global =
      [("/A".toList, ⟨0, true, []⟩), ("/std/vector</A>".toList, ⟨3, true, []⟩)] := by decide +kernel
  have hmem : ∀ n u, (run ascii exHeap Reg.empty [.addAuto 0 [], .addAuto 3 []]).reg n = some u →
      (n = "/A".toList ∧ u = 0) ∨ (n = "/std/vector</A>".toList ∧ u = 3) := by
    intro n u h
    obtain ⟨e, h1, h2⟩ := reg_mem h
    rw [hg] at h1
    simp only [List.mem_cons, List.mem_nil_iff, or_false, Prod.mk.injEq] at h1
    rcases h1 with ⟨rfl, rfl⟩ | ⟨rfl, rfl⟩
    · exact Or.inl ⟨rfl, h2.symm⟩
    · exact Or.inr ⟨rfl, h2.symm⟩
  constructor
  · intro u m x hu hk
    rcases hmem _ u ((hinv.regd_iff u).mp hu) with ⟨_, rfl⟩ | ⟨_, rfl⟩ <;> cases m <;> cases hk
  · intro b m u hb h
    rw [hinv.abs _ (abs_append hb)] at h
    rcases hmem _ u h with ⟨h1, _⟩ | ⟨h1, _⟩ <;>
    · have := congrArg List.getLast? h1
      cases m <;> simp [Decl.text, List.getLast?_append, List.getLast?_cons] at this

def exStart : Reg := run ascii exHeap Reg.empty [.addAuto 0 [], .addAuto 3 []]

/-- `/A *[3][2]` can be built: 8-byte pointers, 48 bytes -/
example : (buildName ascii (exHeap, exStart) "/A *[3][2] ".toList 0).2 = .ok (some 11) ∧
    (buildName ascii (exHeap, exStart) "/A *[3][2] ".toList 0).1.1.get 11 = ⟨"/A*[3][2]".toList, 48, .arr 2 10⟩ := by
  decide +kernel

/-- **C37, what the unrestricted claim misses**: pointers to arrays and pointers to template types cannot be built
(their names are refused by the registry); the intermediate types are registered all the same, and `has(name, true)`
says that the type can be built. -/
theorem C37_unbuildable :
    (buildName ascii (exHeap, exStart) "/A[3]*".toList 0).2 = .exn .badName ∧
    (buildName ascii (exHeap, exStart) "/A[3]*".toList 0).1.2.has "/A[3]".toList = true ∧
    has exStart "/A[3]*".toList true = .ok true ∧
    (buildName ascii (exHeap, exStart) "/std/vector</A>*".toList 0).2 = .exn .badName ∧
    has exStart "/std/vector</A>*".toList true = .ok true := by decide +kernel

/-- **C37.** Building with an explicit size is building without one, then giving that size to the type returned (and
to no other object). -/
theorem C37_build_size (w : World) (name : Str) (size : Nat) (h0 : 0 < size) (h1 : size < 2 ^ 31) :
    let o0 := buildName key w name 0
    let o := buildName key w name (toInt size)
    o.2 = o0.2 ∧ o.1.2 = o0.1.2 ∧ o.1.1.next = o0.1.1.next ∧
    ∀ u, o.1.1.name u = o0.1.1.name u ∧ o.1.1.kind u = o0.1.1.kind u ∧
      o.1.1.size u = if o0.2 = .ok (some u) then size else o0.1.1.size u := by
  have hi : toInt size = (size : Int) := by
    unfold toInt
    rw [Nat.mod_eq_of_lt (by omega), if_pos h1]
  have hne : (toInt size) ≠ 0 := by rw [hi]; omega
  have hs : toSizeT (toInt size) = size := by
    rw [hi]
    unfold toSizeT W
    omega
  intro o0 o
  have ho : o = buildName key w name (toInt size) := rfl
  have ho0 : o0 = buildName key w name 0 := rfl
  clear_value o o0
  have same : o = o0 → (∀ u, o0.2 ≠ .ok (some u)) → o.2 = o0.2 ∧ o.1.2 = o0.1.2 ∧ o.1.1.next = o0.1.1.next ∧
      ∀ u, o.1.1.name u = o0.1.1.name u ∧ o.1.1.kind u = o0.1.1.kind u ∧
        o.1.1.size u = if o0.2 = .ok (some u) then size else o0.1.1.size u := by
    rintro rfl h
    exact ⟨rfl, rfl, rfl, fun u => ⟨rfl, rfl, by rw [if_neg (h u)]⟩⟩
  unfold buildName at ho ho0
  split at ho
  · rename_i base mods hp
    rw [hp] at ho0
    simp only at ho0
    cases hb : w.2.get base with
    | none =>
      rw [hb] at ho ho0
      subst ho; subst ho0
      exact same rfl (by simp)
    | some t =>
      rw [hb] at ho ho0
      simp only [buildSpec] at ho ho0
      generalize applyMods key w t mods = a at ho ho0
      obtain ⟨w', r⟩ := a
      cases r with
      | ok u =>
        simp only [ne_eq, not_true_eq_false, if_false] at ho0
        simp only [ne_eq, hne, not_false_eq_true, if_true] at ho
        subst ho; subst ho0
        refine ⟨rfl, rfl, rfl, ?_⟩
        intro v
        simp only [Heap.name, Heap.kind, Heap.size, setSize, hs, Res.ok.injEq, Option.some.injEq]
        by_cases hv : v = u
        · subst hv; simp
        · simp [hv, Ne.symm hv]
      | exn e => subst ho; subst ho0; exact same rfl (by simp)
      | ub => subst ho; subst ho0; exact same rfl (by simp)
      | fuel => subst ho; subst ho0; exact same rfl (by simp)
  · rename_i e hp
    rw [hp] at ho0
    subst ho; subst ho0; exact same rfl (by simp)
  · rename_i hp
    rw [hp] at ho0
    subst ho; subst ho0; exact same rfl (by simp)
  · rename_i hp
    rw [hp] at ho0
    subst ho; subst ho0; exact same rfl (by simp)

/-- Building with an explicit size can corrupt an existing type: `/A[3]` exists with its 12 bytes, and
`Registry::build("/A [3]", 5)` (same type, other spelling, so not found by `get`) makes it 5 bytes long. -/
theorem C37_size_counterexample :
    let w := (build ascii (exHeap, exStart) "/A[3]".toList 0).1
    (build ascii (exHeap, exStart) "/A[3]".toList 0).2 = .ok (some 9) ∧ w.1.size 9 = 12 ∧
    (build ascii w "/A [3]".toList 5).2 = .ok (some 9) ∧ (build ascii w "/A [3]".toList 5).1.1.size 9 = 5 := by
  decide +kernel

/-! ### `Registry::build` -/

/-- specification: a name that does not begin with `/` is meant in the default namespace of the registry -/
def inNamespace (R : Reg) (b : Str) : Str := if b.head? = some '/' then b else R.ns ++ b

theorem getFullName_decl (R : Reg) (b : Str) (hb : b ≠ []) (x : Str) :
    getFullName R (b ++ x) = inNamespace R b ++ x := by
  cases b with
  | nil => exact absurd rfl hb
  | cons c b =>
    unfold getFullName inNamespace
    by_cases h : c = '/'
    · subst h; rfl
    · rw [if_neg, if_neg]
      · rw [List.append_assoc]
      · simpa using h
      · simpa [isAbsoluteName] using h

/-- **C37**, `Registry::build(name)`: a name that is known gives the type of that name and nothing changes; otherwise
the type named before the modifiers is looked up (in the default namespace when the name is relative) and the modifiers are applied
to it, with the outcome described in `C37_build`. -/
theorem C37_registry_build (hkey : ∀ a b, key a = key b → a = b) {H : Heap} {R : Reg} (hr : Reachable key H R)
    (hh : Honest H R) (b : Str) (hb0 : b ≠ []) (hb : BaseName (inNamespace R b)) (l : List (Nat × Decl)) (k : Nat)
    (hf : ∀ p ∈ l, p.2.Fits) :
    let o := build key (H, R) (b ++ spacedText l k) 0
    (∀ u, R.get (b ++ spacedText l k) = some u → o = ((H, R), .ok (some u))) ∧
    (R.get (b ++ spacedText l k) = none → R.get (inNamespace R b) = none → o = ((H, R), .ok none)) ∧
    (R.get (b ++ spacedText l k) = none → ∀ t, R.get (inNamespace R b) = some t →
      Reachable key o.1.1 o.1.2 ∧ Honest o.1.1 o.1.2 ∧ Extends (H, R) o.1 ∧
      ((∃ v, o.2 = .ok (some v) ∧ Applied o.1.1 t (stepsOf l) v ∧
          o.1.1.name v = H.name t ++ declText (stepsOf l) ∧ o.1.1.size v = declSize (H.size t) (stepsOf l) ∧
          o.1.2.get (o.1.1.name v) = some v) ∨
       (o.2 = .exn .badName ∧ ∃ l1 l2, stepsOf l = l1 ++ l2 ∧ l1 ≠ [] ∧ BadNameIn o.1 (H.name t ++ declText l1)))) := by
  intro o
  have ho : o = build key (H, R) (b ++ spacedText l k) 0 := rfl
  clear_value o
  have h0 : toInt 0 = 0 := by decide
  unfold build at ho
  refine ⟨?_, ?_, ?_⟩
  · intro u hu
    simp only [hu] at ho
    exact ho
  · intro hn hb'
    simp only [hn, getFullName_decl R b hb0, h0] at ho
    rw [ho]
    unfold buildName
    rw [C37_parse _ hb l k hf]
    simp only [hb']
  · intro hn t ht
    simp only [hn, getFullName_decl R b hb0, h0] at ho
    rw [ho]
    exact C37_build hkey hr hh _ hb t ht l k hf

/-- **C37**, `Registry::has(name, true)` for relative names too -/
theorem C37_registry_has (R : Reg) (b : Str) (hb0 : b ≠ []) (hb : BaseName (inNamespace R b)) (l : List (Nat × Decl))
    (k : Nat) (hf : ∀ p ∈ l, p.2.Fits) :
    has R (b ++ spacedText l k) true = .ok (R.has (b ++ spacedText l k) || R.has (inNamespace R b)) := by
  unfold has
  cases h : R.has (b ++ spacedText l k) with
  | true => simp
  | false =>
    simp only [Bool.false_eq_true, if_false, Bool.not_true, Bool.false_or]
    rw [getFullName_decl R b hb0]
    unfold getBaseType
    rw [C37_parse _ hb l k hf]
    simp only
    unfold Reg.get Reg.has
    rw [Option.isSome_map]

/-- with the default namespace `/`, `A*[3]` is built from `/A` -/
example : inNamespace exStart "A".toList = "/A".toList ∧
    BaseName (inNamespace exStart "A".toList) ∧
    (build ascii (exHeap, exStart) "A*[3]".toList 0).1.1.get 10 = ⟨"/A*[3]".toList, 24, .arr 3 9⟩ ∧
    (build ascii (exHeap, exStart) "A*[3]".toList 0).2 = .ok (some 10) := by
  refine ⟨by decide +kernel, ?_, by decide +kernel, by decide +kernel⟩
  have : inNamespace exStart "A".toList = "/A".toList := by decide +kernel
  rw [this]
  exact ⟨['/'], 'A', rfl, by decide, by decide, by decide, by decide⟩

/-! ### The theorems on concrete cases -/

theorem exStart_reachable : Reachable ascii exHeap exStart := by
  refine reachable_ops exAcyclic _ ?_
  intro o ho
  simp only [List.mem_cons, List.mem_nil_iff, or_false] at ho
  rcases ho with rfl | rfl <;> exact ⟨by decide, by decide⟩

theorem exBase : BaseName "/A".toList := ⟨['/'], 'A', rfl, by decide, by decide, by decide, by decide⟩

theorem exSteps_fit : ∀ p ∈ [(1, Decl.ptr), (0, Decl.arr 3), (0, Decl.arr 2)], p.2.Fits := by
  intro p hp
  simp only [List.mem_cons, List.mem_nil_iff, or_false] at hp
  rcases hp with rfl | rfl | rfl
  all_goals simp [Decl.Fits]

example := C37_build ascii_inj exStart_reachable exHonest "/A".toList exBase 0 (by decide +kernel)
  [(1, .ptr), (0, .arr 3), (0, .arr 2)] 1 exSteps_fit

example := C37_has exStart "/A".toList exBase (by decide) [(1, .ptr), (0, .arr 3), (0, .arr 2)] 1 exSteps_fit

example := C37_build_size (key := ascii) (exHeap, exStart) "/A*[3]".toList 5 (by decide) (by decide)

example := C37_registry_build ascii_inj exStart_reachable exHonest "A".toList (by decide)
  (by rw [show inNamespace exStart "A".toList = "/A".toList by decide +kernel]; exact exBase)
  [(1, .ptr), (0, .arr 3), (0, .arr 2)] 1 exSteps_fit

end Verif.TypeBuilder
