import Verif.TypeGraph

/-!
Model of the comparison of types: `Type::isSame`, `Type::canCastTo`, `rec_compare` and the
`do_compare` of each class (typemodel.cc:54-102, 240-250, 257-259, 340-369, 456-481, 536-543, 604-612,
typemodel.hh:259-260).
-/

namespace Verif.Graph
open Verif

/-- `Type::RecursionStack` (typemodel.hh:168), a `std::map<Type const*, Type const*>`: only searched
and inserted into (a key that is absent). -/
abbrev Stack := List (TId × TId)

/-- The recursive call of `rec_compare`. -/
abbrev DoC := Bool → TId → TId → Stack → Res (Bool × Stack)

/-- `Type::rec_compare` (typemodel.cc:76-100). Comparisons do not throw. -/
def recCompare (doC : DoC) (eq : Bool) (l r : TId) (st : Stack) : Res (Bool × Stack) :=
  if l = r then .ok (true, st)
  else match st.lookup l with
    | some r' => .ok (decide (r = r'), st)
    | none => doC eq l r ((l, r) :: st)

/-- The field loop of `Compound::do_compare` (typemodel.cc:356-368). The right iterator is only
dereferenced: running past the end would be undefined behaviour. -/
def fieldsCompare (doC : DoC) (eq : Bool) : List FieldD → List FieldD → Stack → Res (Bool × Stack)
  | [], _, st => .ok (true, st)
  | _ :: _, [], _ => .ub
  | a :: as, b :: bs, st =>
    if a.name ≠ b.name ∨ a.offset ≠ b.offset then .ok (false, st)
    else
      recCompare doC eq a.ty b.ty st >>= fun x =>
        if x.1 then fieldsCompare doC eq as bs x.2 else .ok (false, x.2)

/-- `Type::do_compare` (typemodel.cc:101-102). -/
def baseCompare (H : Heap) (l r : TId) : Bool :=
  decide (H.size l = H.size r) && decide (H.cat l = H.cat r)

/-- The subset test of `Enum::do_compare` (typemodel.cc:466-479). -/
def enumSubset (s s' : List (Str × Int)) : Bool :=
  decide (s.length ≤ s'.length) && s.all (fun p => s'.lookup p.1 == some p.2)

/-- `do_compare` of each class; a `static_cast` to a class the object does not have is undefined
behaviour. `Container::do_compare` compares the factories: `Vector::factory` against
`String::factory`. The recursion is bounded by `fuel` (see `C26_compare_terminates`). -/
def doCompare (H : Heap) : Nat → DoC
  | 0, _, _, _, _ => .fuel
  | f + 1, eq, l, r, st =>
    let no : Res (Bool × Stack) := .ok (false, st)
    match H.kind l with
    | .null => .ok (decide (H.name r = H.name l), st)
    | .opaque => .ok (baseCompare H l r && decide (H.name l = H.name r), st)
    | .num c =>
      if baseCompare H l r then
        (match H.kind r with
          | .num c' => .ok (decide (c = c'), st)
          | _ => .ub)
      else no
    | .enum s =>
      if baseCompare H l r then
        (match H.kind r with
          | .enum s' => .ok (if eq then decide (s = s') else enumSubset s s', st)
          | _ => .ub)
      else no
    | .arr d e =>
      if baseCompare H l r then
        (match H.kind r with
          | .arr d' e' => if d = d' then recCompare (doCompare H f) true e e' st else no
          | _ => .ub)
      else no
    | .ptr e =>
      if baseCompare H l r then
        (match (H.kind r).elem? with
          | some e' => recCompare (doCompare H f) eq e e' st
          | none => .ub)
      else no
    | .vec e =>
      if baseCompare H l r then
        (match H.kind r with
          | .vec e' => recCompare (doCompare H f) true e e' st
          | .str _ => no
          | _ => .ub)
      else no
    | .str e =>
      if baseCompare H l r then
        (match H.kind r with
          | .str e' => recCompare (doCompare H f) true e e' st
          | .vec _ => no
          | _ => .ub)
      else no
    | .comp fs =>
      if H.cat r ≠ .compound then no
      else if eq && !baseCompare H l r then no
      else
        (match H.kind r with
          | .comp fs' =>
            if fs.length ≠ fs'.length then no else fieldsCompare (doCompare H f) eq fs fs' st
          | _ => .ub)

/-- `Type::isSame` (typemodel.cc:54-62). -/
def isSame (H : Heap) (a b : TId) : Res Bool :=
  if a = b then .ok true
  else doCompare H (H.next + 1) true a b [(a, b)] >>= fun x => .ok x.1

/-- `Type::canCastTo` (typemodel.cc:63-71). -/
def canCastTo (H : Heap) (a b : TId) : Res Bool :=
  if a = b then .ok true
  else doCompare H (H.next + 1) false a b [(a, b)] >>= fun x => .ok x.1

/-! ### Specification -/

/-- Every object referenced by an object exists; the symbols of an enum (a `std::map`) are distinct. -/
structure WF (H : Heap) : Prop where
  deps : ∀ t d, t < H.next → d ∈ H.deps t → d < H.next
  syms : ∀ t s, H.kind t = .enum s → (s.map (·.1)).Nodup

/-- `l` and `r` agree up to the types they are made of, which are related by `R`. With `eq = false`:
`r` can be used in place of `l`. -/
def Step (H : Heap) (eq : Bool) (R : TId → TId → Prop) (l r : TId) : Prop :=
  match H.kind l, H.kind r with
  | .null, _ => H.name l = H.name r
  | .opaque, .opaque => H.size l = H.size r ∧ H.name l = H.name r
  | .num c, .num c' => H.size l = H.size r ∧ c = c'
  | .enum s, .enum s' => H.size l = H.size r ∧ (if eq then s = s' else ∀ p ∈ s, p ∈ s')
  | .arr d e, .arr d' e' => H.size l = H.size r ∧ d = d' ∧ R e e'
  | .ptr e, .ptr e' => H.size l = H.size r ∧ R e e'
  | .vec e, .vec e' => H.size l = H.size r ∧ R e e'
  | .str e, .str e' => H.size l = H.size r ∧ R e e'
  | .comp fs, .comp fs' => (eq = true → H.size l = H.size r) ∧ fs.length = fs'.length ∧
      ∀ (i : Nat) (a b : FieldD), fs[i]? = some a → fs'[i]? = some b →
        a.name = b.name ∧ a.offset = b.offset ∧ R a.ty b.ty
  | _, _ => False

theorem Step.mono {H : Heap} {eq : Bool} {R R' : TId → TId → Prop} (h : ∀ x y, R x y → R' x y) {l r : TId}
    (hs : Step H eq R l r) : Step H eq R' l r := by
  unfold Step at hs ⊢
  split <;> simp_all
  rename_i e1 e2
  intro i a b ha hb
  obtain ⟨h1, h2, h3⟩ := hs.2.2 i a b ha hb
  exact ⟨h1, h2, h _ _ h3⟩

theorem Step.weaken {H : Heap} {eq : Bool} {R : TId → TId → Prop} {l r : TId}
    (hs : Step H true R l r) : Step H eq R l r := by
  cases eq with
  | true => exact hs
  | false =>
    unfold Step at hs ⊢
    split <;> simp_all
    exact hs.2.2

/-- related by the stack, or identical -/
def Rel (st : Stack) (x y : TId) : Prop := x = y ∨ st.lookup x = some y

theorem rel_mono {st st' : Stack} (h : ∀ x y, st.lookup x = some y → st'.lookup x = some y) (x y : TId)
    (hr : Rel st x y) : Rel st' x y := by
  rcases hr with hr | hr
  · exact Or.inl hr
  · exact Or.inr (h x y hr)

theorem lookup_cons_self (l r : TId) (st : Stack) : ((l, r) :: st).lookup l = some r := by
  simp [List.lookup_cons]

theorem lookup_cons_ne {x l : TId} (r : TId) (st : Stack) (h : x ≠ l) : ((l, r) :: st).lookup x = st.lookup x := by
  rw [List.lookup_cons]
  have : (x == l) = false := by simpa using h
  rw [this]

/-- the keys that are not on the stack yet -/
def freeKeys (H : Heap) (st : Stack) : Nat :=
  ((List.range H.next).filter (fun t => (st.lookup t).isNone)).length

theorem freeKeys_le (H : Heap) (st : Stack) : freeKeys H st ≤ H.next := by
  unfold freeKeys
  have := List.length_filter_le (fun t => (st.lookup t).isNone) (List.range H.next)
  rw [List.length_range] at this
  exact this

theorem freeKeys_mono (H : Heap) {st st' : Stack} (h : ∀ x y, st.lookup x = some y → st'.lookup x = some y) :
    freeKeys H st' ≤ freeKeys H st := by
  unfold freeKeys
  generalize List.range H.next = l
  induction l with
  | nil => simp
  | cons a l ih =>
    rw [List.filter_cons, List.filter_cons]
    cases hs : st.lookup a with
    | none =>
      simp only [Option.isNone_none, if_true, List.length_cons]
      split
      · simp only [List.length_cons]; omega
      · omega
    | some y =>
      rw [h a y hs]
      simpa using ih

theorem freeKeys_cons (H : Heap) {l : TId} (r : TId) {st : Stack} (hl : l < H.next) (hn : st.lookup l = none) :
    freeKeys H ((l, r) :: st) < freeKeys H st := by
  unfold freeKeys
  have hmem : l ∈ List.range H.next := List.mem_range.mpr hl
  have hnd : (List.range H.next).Nodup := List.nodup_range
  generalize List.range H.next = L at hmem hnd
  have hle : ∀ L : List TId, (L.filter (fun t => (((l, r) :: st).lookup t).isNone)).length ≤
      (L.filter (fun t => (st.lookup t).isNone)).length := by
    intro L
    induction L with
    | nil => simp
    | cons a L ih =>
      rw [List.filter_cons, List.filter_cons]
      by_cases ha : a = l
      · subst ha
        rw [lookup_cons_self, hn]
        simp only [Option.isNone_some, Bool.false_eq_true, if_false, Option.isNone_none, if_true, List.length_cons]
        omega
      · rw [lookup_cons_ne r st ha]
        split
        · simp only [List.length_cons]; omega
        · exact ih
  clear hnd
  induction L with
  | nil => cases hmem
  | cons a L ih =>
    rw [List.filter_cons, List.filter_cons]
    by_cases ha : a = l
    · subst ha
      rw [lookup_cons_self, hn]
      simp only [Option.isNone_some, Bool.false_eq_true, if_false, Option.isNone_none, if_true, List.length_cons]
      have := hle L
      omega
    · rw [lookup_cons_ne r st ha]
      have := ih (by rcases List.mem_cons.mp hmem with h | h; exact absurd h.symm ha; exact h)
      split
      · simp only [List.length_cons]; omega
      · exact this

/-! ### Soundness -/

/-- what a successful or failed comparison of `l` with `r` establishes -/
structure Sound (H : Heap) (eq : Bool) (st : Stack) (x : Bool × Stack) : Prop where
  ext : ∀ a b, st.lookup a = some b → x.2.lookup a = some b
  new : x.1 = true → ∀ a b, x.2.lookup a = some b → st.lookup a = some b ∨ (a ≠ b ∧ Step H eq (Rel x.2) a b)

theorem Sound.refl (H : Heap) (eq : Bool) (st : Stack) (b : Bool) : Sound H eq st (b, st) :=
  ⟨fun _ _ h => h, fun _ _ _ h => Or.inl h⟩

theorem Sound.weaken {H : Heap} {eq : Bool} {st : Stack} {x : Bool × Stack} (h : Sound H true st x) :
    Sound H eq st x := by
  refine ⟨h.ext, fun hx a b hab => ?_⟩
  rcases h.new hx a b hab with h1 | ⟨h1, h2⟩
  · exact Or.inl h1
  · exact Or.inr ⟨h1, h2.weaken⟩

theorem Sound.trans {H : Heap} {eq : Bool} {st : Stack} {x y : Bool × Stack} (hx : x.1 = true)
    (h1 : Sound H eq st x) (h2 : Sound H eq x.2 y) : Sound H eq st y := by
  refine ⟨fun a b h => h2.ext a b (h1.ext a b h), fun hy a b hab => ?_⟩
  rcases h2.new hy a b hab with h | h
  · rcases h1.new hx a b h with h | ⟨h3, h4⟩
    · exact Or.inl h
    · exact Or.inr ⟨h3, h4.mono (fun u v => rel_mono h2.ext u v)⟩
  · exact Or.inr h

/-- the specification of the recursive call -/
def DoSpec (H : Heap) (doC : DoC) (f : Nat) : Prop :=
  ∀ eq l r st, l < H.next → r < H.next → freeKeys H st < f →
    ∃ x, doC eq l r st = .ok x ∧ Sound H eq st x ∧ (x.1 = true → Step H eq (Rel x.2) l r)

theorem recCompare_spec {H : Heap} {doC : DoC} {f : Nat} (hd : DoSpec H doC f) (eq : Bool) (l r : TId) (st : Stack)
    (hl : l < H.next) (hr : r < H.next) (hf : freeKeys H st ≤ f) :
    ∃ x, recCompare doC eq l r st = .ok x ∧ Sound H eq st x ∧ (x.1 = true → Rel x.2 l r) := by
  unfold recCompare
  by_cases hlr : l = r
  · rw [if_pos hlr]
    exact ⟨_, rfl, Sound.refl _ _ _ _, fun _ => Or.inl hlr⟩
  · rw [if_neg hlr]
    cases hs : st.lookup l with
    | some r' =>
      refine ⟨_, rfl, Sound.refl _ _ _ _, fun h => Or.inr ?_⟩
      have : r = r' := by simpa using h
      rw [this]; exact hs
    | none =>
      simp only
      obtain ⟨x, h1, h2, h3⟩ := hd eq l r ((l, r) :: st) hl hr (by
        have := freeKeys_cons H r hl hs; omega)
      have hlook : x.2.lookup l = some r := h2.ext l r (lookup_cons_self l r st)
      have hext : ∀ a b, st.lookup a = some b → x.2.lookup a = some b := by
        intro a b hab
        refine h2.ext a b ?_
        rw [lookup_cons_ne r st (by rintro rfl; rw [hs] at hab; cases hab)]
        exact hab
      refine ⟨x, h1, ⟨hext, fun hx a b hab => ?_⟩, fun _ => Or.inr hlook⟩
      by_cases hal : a = l
      · subst hal
        rw [hlook] at hab
        cases hab
        exact Or.inr ⟨hlr, h3 hx⟩
      · rcases h2.new hx a b hab with h | h
        · rw [lookup_cons_ne r st hal] at h; exact Or.inl h
        · exact Or.inr h

theorem fieldsCompare_spec {H : Heap} {doC : DoC} {f : Nat} (hd : DoSpec H doC f) (eq : Bool) :
    ∀ (fs fs' : List FieldD) (st : Stack), fs.length = fs'.length → (∀ a ∈ fs, a.ty < H.next) →
      (∀ a ∈ fs', a.ty < H.next) → freeKeys H st ≤ f →
    ∃ x, fieldsCompare doC eq fs fs' st = .ok x ∧ Sound H eq st x ∧
      (x.1 = true → ∀ (i : Nat) (a b : FieldD), fs[i]? = some a → fs'[i]? = some b →
        a.name = b.name ∧ a.offset = b.offset ∧ Rel x.2 a.ty b.ty) := by
  intro fs
  induction fs with
  | nil =>
    intro fs' st _ _ _ _
    exact ⟨_, rfl, Sound.refl _ _ _ _, fun _ i a b h => by simp at h⟩
  | cons a as ih =>
    intro fs' st hlen h1 h2 hf
    cases fs' with
    | nil => simp at hlen
    | cons b bs =>
      unfold fieldsCompare
      by_cases hne : a.name ≠ b.name ∨ a.offset ≠ b.offset
      · rw [if_pos hne]
        exact ⟨_, rfl, Sound.refl _ _ _ _, fun h => by cases h⟩
      · rw [if_neg hne]
        have hnm : a.name = b.name := by
          by_cases h : a.name = b.name
          · exact h
          · exact absurd (Or.inl h) hne
        have hof : a.offset = b.offset := by
          by_cases h : a.offset = b.offset
          · exact h
          · exact absurd (Or.inr h) hne
        obtain ⟨x, e1, e2, e3⟩ := recCompare_spec hd eq a.ty b.ty st (h1 a (by simp)) (h2 b (by simp)) hf
        rw [e1, Res.bind_ok]
        cases hx : x.1 with
        | false =>
          simp only [Bool.false_eq_true, if_false]
          exact ⟨_, rfl, ⟨e2.ext, fun h => by cases h⟩, fun h => by cases h⟩
        | true =>
          simp only [if_true]
          obtain ⟨y, g1, g2, g3⟩ := ih bs x.2 (by simpa using hlen) (fun c hc => h1 c (by simp [hc]))
            (fun c hc => h2 c (by simp [hc])) (Nat.le_trans (freeKeys_mono H e2.ext) hf)
          refine ⟨y, g1, e2.trans hx g2, fun hy i c d hc hd => ?_⟩
          cases i with
          | zero =>
            simp only [List.getElem?_cons_zero, Option.some.injEq] at hc hd
            subst hc; subst hd
            exact ⟨hnm, hof, rel_mono g2.ext _ _ (e3 hx)⟩
          | succ i =>
            simp only [List.getElem?_cons_succ] at hc hd
            exact g3 hy i c d hc hd

theorem base_iff (H : Heap) (l r : TId) : baseCompare H l r = true ↔ H.size l = H.size r ∧ H.cat l = H.cat r := by
  simp [baseCompare]

theorem kind_deps_elem {k : Kind} {e : TId} (h : k.elem? = some e) : e ∈ k.deps := by
  cases k <;> simp [Kind.elem?] at h <;> subst h <;> simp [Kind.deps, Kind.elem?]

theorem kind_deps_field {fs : List FieldD} {a : FieldD} (h : a ∈ fs) : a.ty ∈ (Kind.comp fs).deps := by
  simp [Kind.deps]; exact ⟨a, h, rfl⟩

/-- the comparison terminates, without undefined behaviour, and what it accepts agrees -/
theorem doCompare_spec (H : Heap) (wf : WF H) : ∀ f, DoSpec H (doCompare H f) f := by
  intro f
  induction f with
  | zero => intro eq l r st _ _ h; omega
  | succ f ih =>
    intro eq l r st hl hr hf
    have hdl := fun d => wf.deps l d hl
    have hdr := fun d => wf.deps r d hr
    unfold Heap.deps at hdl hdr
    have hno : ∃ x, (Res.ok (false, st) : Res (Bool × Stack)) = .ok x ∧ Sound H eq st x ∧
        (x.1 = true → Step H eq (Rel x.2) l r) :=
      ⟨_, rfl, Sound.refl _ _ _ _, fun h => by cases h⟩
    have hrec : ∀ (eq' : Bool) (e e' : TId), (eq' = true ∨ eq' = eq) → (H.kind l).elem? = some e →
        (H.kind r).elem? = some e' → (Rel st = Rel st → ∀ st', Rel st' e e' → Step H eq (Rel st') l r) →
        ∃ x, recCompare (doCompare H f) eq' e e' st = .ok x ∧ Sound H eq st x ∧
          (x.1 = true → Step H eq (Rel x.2) l r) := by
      intro eq' e e' he h1 h2 h3
      obtain ⟨x, g1, g2, g3⟩ := recCompare_spec ih eq' e e' st (hdl e (kind_deps_elem h1))
        (hdr e' (kind_deps_elem h2)) (by omega)
      refine ⟨x, g1, ?_, fun hx => h3 rfl _ (g3 hx)⟩
      rcases he with rfl | rfl
      · exact g2.weaken
      · exact g2
    unfold doCompare
    simp only
    cases hkl : H.kind l with
    | null =>
      refine ⟨_, rfl, Sound.refl _ _ _ _, fun h => ?_⟩
      unfold Step
      rw [hkl]
      simp only [decide_eq_true_eq] at h
      exact h.symm
    | «opaque» =>
      refine ⟨_, rfl, Sound.refl _ _ _ _, fun h => ?_⟩
      simp only [Bool.and_eq_true, decide_eq_true_eq, base_iff] at h
      unfold Step
      rw [hkl]
      have hc := h.1.2
      unfold Heap.cat at hc
      rw [hkl] at hc
      cases hkr : H.kind r <;> rw [hkr] at hc <;> simp only [Kind.cat] at hc <;> first | cases hc | skip
      exact ⟨h.1.1, h.2⟩
    | num c =>
      simp only
      by_cases hb : baseCompare H l r = true
      · rw [if_pos hb]
        obtain ⟨hb1, hb2⟩ := (base_iff H l r).mp hb
        unfold Heap.cat at hb2
        rw [hkl] at hb2
        cases hkr : H.kind r <;> rw [hkr] at hb2 <;> simp only [Kind.cat] at hb2 <;> first | cases hb2 | skip
        refine ⟨_, rfl, Sound.refl _ _ _ _, fun h => ?_⟩
        unfold Step
        rw [hkl, hkr]
        simp only [decide_eq_true_eq] at h
        exact ⟨hb1, h⟩
      · rw [if_neg hb]; exact hno
    | enum s =>
      simp only
      by_cases hb : baseCompare H l r = true
      · rw [if_pos hb]
        obtain ⟨hb1, hb2⟩ := (base_iff H l r).mp hb
        unfold Heap.cat at hb2
        rw [hkl] at hb2
        cases hkr : H.kind r <;> rw [hkr] at hb2 <;> simp only [Kind.cat] at hb2 <;> first | cases hb2 | skip
        rename_i s'
        refine ⟨_, rfl, Sound.refl _ _ _ _, fun h => ?_⟩
        unfold Step
        rw [hkl, hkr]
        refine ⟨hb1, ?_⟩
        cases eq with
        | true => simpa using h
        | false =>
          simp only [Bool.false_eq_true, if_false, enumSubset, Bool.and_eq_true, List.all_eq_true,
            beq_iff_eq] at h ⊢
          intro p hp
          have := h.2 p hp
          have hm := List.lookup_eq_some_iff.mp this
          obtain ⟨l1, l2, e, _⟩ := hm
          rw [e]; simp
      · rw [if_neg hb]; exact hno
    | arr d e =>
      simp only
      by_cases hb : baseCompare H l r = true
      · rw [if_pos hb]
        obtain ⟨hb1, hb2⟩ := (base_iff H l r).mp hb
        unfold Heap.cat at hb2
        rw [hkl] at hb2
        cases hkr : H.kind r <;> rw [hkr] at hb2 <;> simp only [Kind.cat] at hb2 <;> first | cases hb2 | skip
        rename_i d' e'
        simp only
        by_cases hdd : d = d'
        · rw [if_pos hdd]
          refine hrec true e e' (Or.inl rfl) (by rw [hkl]; rfl) (by rw [hkr]; rfl) (fun _ st' hst => ?_)
          unfold Step
          rw [hkl, hkr]
          exact ⟨hb1, hdd, hst⟩
        · rw [if_neg hdd]; exact hno
      · rw [if_neg hb]; exact hno
    | ptr e =>
      simp only
      by_cases hb : baseCompare H l r = true
      · rw [if_pos hb]
        obtain ⟨hb1, hb2⟩ := (base_iff H l r).mp hb
        unfold Heap.cat at hb2
        rw [hkl] at hb2
        cases hkr : H.kind r <;> rw [hkr] at hb2 <;> simp only [Kind.cat] at hb2 <;> first | cases hb2 | skip
        rename_i e'
        simp only [Kind.elem?]
        refine hrec eq e e' (Or.inr rfl) (by rw [hkl]; rfl) (by rw [hkr]; rfl) (fun _ st' hst => ?_)
        unfold Step
        rw [hkl, hkr]
        exact ⟨hb1, hst⟩
      · rw [if_neg hb]; exact hno
    | vec e =>
      simp only
      by_cases hb : baseCompare H l r = true
      · rw [if_pos hb]
        obtain ⟨hb1, hb2⟩ := (base_iff H l r).mp hb
        unfold Heap.cat at hb2
        rw [hkl] at hb2
        cases hkr : H.kind r <;> rw [hkr] at hb2 <;> simp only [Kind.cat] at hb2 <;> first | cases hb2 | skip
        · rename_i e'
          refine hrec true e e' (Or.inl rfl) (by rw [hkl]; rfl) (by rw [hkr]; rfl) (fun _ st' hst => ?_)
          unfold Step
          rw [hkl, hkr]
          exact ⟨hb1, hst⟩
        · exact hno
      · rw [if_neg hb]; exact hno
    | str e =>
      simp only
      by_cases hb : baseCompare H l r = true
      · rw [if_pos hb]
        obtain ⟨hb1, hb2⟩ := (base_iff H l r).mp hb
        unfold Heap.cat at hb2
        rw [hkl] at hb2
        cases hkr : H.kind r <;> rw [hkr] at hb2 <;> simp only [Kind.cat] at hb2 <;> first | cases hb2 | skip
        · exact hno
        · rename_i e'
          refine hrec true e e' (Or.inl rfl) (by rw [hkl]; rfl) (by rw [hkr]; rfl) (fun _ st' hst => ?_)
          unfold Step
          rw [hkl, hkr]
          exact ⟨hb1, hst⟩
      · rw [if_neg hb]; exact hno
    | comp fs =>
      simp only
      by_cases hc : H.cat r ≠ .compound
      · rw [if_pos hc]; exact hno
      · rw [if_neg hc]
        have hc' : H.cat r = .compound := by
          by_cases h : H.cat r = .compound
          · exact h
          · exact absurd h hc
        by_cases hb : (eq && !baseCompare H l r) = true
        · rw [if_pos hb]; exact hno
        · rw [if_neg hb]
          unfold Heap.cat at hc'
          cases hkr : H.kind r <;> rw [hkr] at hc' <;> simp only [Kind.cat] at hc' <;> first | cases hc' | skip
          rename_i fs'
          simp only
          by_cases hlen : fs.length ≠ fs'.length
          · rw [if_pos hlen]; exact hno
          · rw [if_neg hlen]
            have hlen' : fs.length = fs'.length := by omega
            obtain ⟨x, g1, g2, g3⟩ := fieldsCompare_spec ih eq fs fs' st hlen'
              (fun a ha => hdl _ (by rw [hkl]; exact kind_deps_field ha))
              (fun a ha => hdr _ (by rw [hkr]; exact kind_deps_field ha)) (by omega)
            refine ⟨x, g1, g2, fun hx => ?_⟩
            unfold Step
            rw [hkl, hkr]
            refine ⟨fun he => ?_, hlen', g3 hx⟩
            rw [he] at hb
            simp only [Bool.true_and, Bool.not_eq_true', Bool.not_eq_false] at hb
            exact ((base_iff H l r).mp hb).1

end Verif.Graph
