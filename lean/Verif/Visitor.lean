import Verif.TypeGraph

/-!
Model of the generic value visitor: `TypeVisitor` (typevisitor.cc), `ValueVisitor` (value.cc, value.hh) and the
`visit` methods of the containers (lang/csupport/containers.cc:261-274, 448-459).

Addresses are natural numbers (address arithmetic does not wrap). The objects that the traversal reads are the
pointers, the vectors and the strings; what is read at the leaves is the business of the visitor. A type that
contains itself makes the traversal infinite, so `fuel` bounds its depth.
-/

namespace Verif.Visitor
open Verif Verif.Graph

/-- What the traversal itself reads: the pointer stored at an address, the first byte and the size in bytes of the
buffer of the `std::vector<uint8_t>` stored at an address, and of the `std::string`. -/
structure Mem where
  ptr : Nat → Nat
  vec : Nat → Nat × Nat
  str : Nat → Nat × Nat

/-- The virtual methods of a `ValueVisitor` subclass: `leaf` for the numeric overloads, the enum and the opaque one
(value.hh:52-71); `field` is an overload of `visit_(Value const&, Compound const&, Field const&)` (`none`: not
redefined). The other overloads are not redefined in typelib. Each returns the boolean of the C++ method and the
new state of the visitor. -/
structure Visitor (σ : Type) where
  leaf : Nat → TId → σ → Bool × σ
  field : Option (Nat → FieldD → σ → Bool × σ)

/-- `TypeDispatch::visit_(Numeric const&)` and `integer_cast` (value.cc:17-50): which sizes are supported.
`sizeof(float)` is 4 and `sizeof(double)` is 8; other float sizes fall through to `default`. -/
def numSupported : NumCat → Nat → Bool
  | .sint, n => n == 1 || n == 2 || n == 4 || n == 8
  | .uint, n => n == 1 || n == 2 || n == 4 || n == 8
  | .float, n => n == 4 || n == 8

section
variable {σ : Type}

/-- the loop of `ValueVisitor::visit_(Value const&, Array const&)` (value.cc:118-124): leaves the loop at the first
element for which the visit returns false. -/
def brkLoop (rec : Nat → σ → Res (Bool × σ)) : List Nat → σ → Res σ
  | [], s => .ok s
  | a :: as, s =>
    rec a s >>= fun r => if r.1 then brkLoop rec as r.2 else .ok r.2

/-- the loop of `Vector::visit` (containers.cc:270-271) and `String::visit` (455-456): the result of
`ValueVisitor::dispatch` (value.cc:139-144, `void`) is ignored. -/
def allLoop (rec : Nat → σ → Res (Bool × σ)) : List Nat → σ → Res σ
  | [], s => .ok s
  | a :: as, s => rec a s >>= fun r => allLoop rec as r.2

/-- the loop of `TypeVisitor::visit_(Compound const&)` (typevisitor.cc:23-29), through
`TypeDispatch::visit_(Compound const&, Field const&)` (value.cc:87-93). -/
def fieldLoop (rec : Nat → FieldD → σ → Res (Bool × σ)) (a : Nat) : List FieldD → σ → Res (Bool × σ)
  | [], s => .ok (true, s)
  | f :: fs, s =>
    rec (a + f.offset) f s >>= fun r => if r.1 then fieldLoop rec a fs r.2 else .ok (false, r.2)

/-- `m_visitor.visit_(Value(...), type, field)` (value.cc:90): the overload of the subclass, or the default one
(value.cc:132-133), which visits the value of the field. -/
def fieldRec (V : Visitor σ) (rec : Nat → TId → σ → Res (Bool × σ)) (b : Nat) (fd : FieldD) (s : σ) : Res (Bool × σ) :=
  match V.field with
  | some g => .ok (g b fd s)
  | none => rec b fd.ty s

/-- addresses of `n` elements of `sz` bytes starting at `a` -/
def elems (a sz n : Nat) : List Nat := (List.range n).map fun i => a + i * sz

/-- `TypeVisitor::dispatch` (typevisitor.cc:36-59) with the overloads of `TypeDispatch` (value.cc:31-93) and of
`ValueVisitor` (value.cc:110-137, `Vector::visit` containers.cc:261-274, `String::visit` containers.cc:448-459).
Dereferencing a null pointer is undefined behaviour, whatever it points to (value.cc:65 reads through it only when
the pointee has a leaf: simplification). `Vector::getElementCount` (containers.cc:47-51) divides by the size of the
element. -/
def visit (H : Heap) (m : Mem) (V : Visitor σ) : Nat → Nat → TId → σ → Res (Bool × σ)
  | 0, _, _, _ => .fuel
  | f + 1, a, t, s =>
    match H.kind t with
    | .null => .exn .exception
    | .opaque => .ok (V.leaf a t s)
    | .num c => if numSupported c (H.size t) then .ok (V.leaf a t s) else .exn .exception
    | .enum _ => .ok (V.leaf a t s)
    | .ptr e => if m.ptr a = 0 then .ub else visit H m V f (m.ptr a) e s
    | .arr d e =>
      brkLoop (fun b => visit H m V f b e) (elems a (H.size e) d) s >>= fun s => .ok (true, s)
    | .vec e =>
      if H.size e = 0 then .ub
      else allLoop (fun b => visit H m V f b e) (elems (m.vec a).1 (H.size e) ((m.vec a).2 / H.size e)) s >>=
        fun s => .ok (true, s)
    | .str e =>
      allLoop (fun b => visit H m V f b e) (elems (m.str a).1 1 (m.str a).2) s >>= fun s => .ok (true, s)
    | .comp fs =>
      fieldLoop (fieldRec V (visit H m V f)) a fs s

/-- `ValueVisitor::apply` (value.cc:160-163, 97-103). -/
def apply (H : Heap) (m : Mem) (V : Visitor σ) (fuel : Nat) (a : Nat) (t : TId) (s : σ) : Res σ :=
  visit H m V fuel a t s >>= fun r => .ok r.2

end

/-- `FieldGetter` (value.hh:91-125), state: the `Value` found so far (`Value()` has a null address). -/
def fieldGetter (name : Str) : Visitor (Nat × Option TId) where
  leaf := fun _ _ s => (true, s)
  field := some fun a f s => if f.name = name then (false, (a, some f.ty)) else (true, s)

/-- `value_get_field` (value.hh:111-121, 127-132): `FieldNotFound` if nothing was found. -/
def getField (H : Heap) (m : Mem) (fuel : Nat) (a : Nat) (t : TId) (name : Str) : Res (Nat × Option TId) :=
  apply H m (fieldGetter name) fuel a t (0, none) >>= fun v => if v.1 = 0 then .exn .exception else .ok v

/-! ### Specification -/

/-- One step from a value to a value it is made of. -/
inductive Step where
  | field (i : Nat)
  | idx (i : Nat)
  | elem (i : Nat)
  | deref
  deriving DecidableEq, Repr

/-- position among the steps that can be taken from the same value -/
def Step.index : Step → Nat
  | .field i => i
  | .idx i => i
  | .elem i => i
  | .deref => 0

abbrev Loc := Nat × TId

/-- Where a step leads: a field is at its offset, an array element at `index * element size`, a container element
at `index * element size` in the buffer of the container, the target of a pointer where the pointer says. -/
def stepTo (H : Heap) (m : Mem) (l : Loc) (st : Step) : Option Loc :=
  match H.kind l.2, st with
  | .comp fs, .field i => (fs[i]?).map fun f => (l.1 + f.offset, f.ty)
  | .arr d e, .idx i => if i < d then some (l.1 + i * H.size e, e) else none
  | .vec e, .elem i => if i < (m.vec l.1).2 / H.size e then some ((m.vec l.1).1 + i * H.size e, e) else none
  | .str e, .elem i => if i < (m.str l.1).2 then some ((m.str l.1).1 + i, e) else none
  | .ptr e, .deref => some (m.ptr l.1, e)
  | _, _ => none

/-- the value at the end of a path -/
def follow (H : Heap) (m : Mem) : Loc → List Step → Option Loc
  | l, [] => some l
  | l, st :: p => (stepTo H m l st).bind fun l' => follow H m l' p

/-- values without parts -/
def Kind.isLeaf : Kind → Bool
  | .opaque => true
  | .num _ => true
  | .enum _ => true
  | _ => false

def IsLeaf (H : Heap) (l : Loc) : Prop := Kind.isLeaf (H.kind l.2) = true

/-- `p` comes before `q`: where they part, `p` takes the smaller step. -/
def Before (p q : List Step) : Prop :=
  ∃ c s t p' q', p = c ++ s :: p' ∧ q = c ++ t :: q' ∧ s.index < t.index

/-- `ps` lists the leaves of a value, each once, in the order of the definitions. -/
structure Leaves (H : Heap) (m : Mem) (l : Loc) (ps : List (List Step × Loc)) : Prop where
  ordered : (ps.map Prod.fst).Pairwise Before
  complete : ∀ p l', (p, l') ∈ ps ↔ follow H m l p = some l' ∧ IsLeaf H l'

/-! ### Enumeration -/

/-- the parts of a value, in order -/
def kids (H : Heap) (m : Mem) (l : Loc) : List (Step × Loc) :=
  match H.kind l.2 with
  | .comp fs => fs.zipIdx.map fun x => (.field x.2, (l.1 + x.1.offset, x.1.ty))
  | .arr d e => (List.range d).map fun i => (.idx i, (l.1 + i * H.size e, e))
  | .vec e => (List.range ((m.vec l.1).2 / H.size e)).map fun i => (.elem i, ((m.vec l.1).1 + i * H.size e, e))
  | .str e => (List.range (m.str l.1).2).map fun i => (.elem i, ((m.str l.1).1 + i, e))
  | .ptr e => [(.deref, (m.ptr l.1, e))]
  | _ => []

def leaves (H : Heap) (m : Mem) : Nat → Loc → List (List Step × Loc)
  | 0, _ => []
  | f + 1, l =>
    if Kind.isLeaf (H.kind l.2) then [([], l)]
    else (kids H m l).flatMap fun k => (leaves H m f k.2).map fun x => (k.1 :: x.1, x.2)

theorem kids_iff (H : Heap) (m : Mem) (l : Loc) (st : Step) (l' : Loc) :
    (st, l') ∈ kids H m l ↔ stepTo H m l st = some l' := by
  unfold kids stepTo
  cases hk : H.kind l.2 with
  | comp fs =>
    simp only [List.mem_map]
    constructor
    · rintro ⟨⟨f, i⟩, hm, h⟩
      cases h
      rw [List.mem_zipIdx_iff_getElem?] at hm
      simp only at hm ⊢
      rw [hm]; rfl
    · intro h
      cases st with
      | field i =>
        simp only [Option.map_eq_some_iff] at h
        rcases h with ⟨f, hf, rfl⟩
        exact ⟨(f, i), by rw [List.mem_zipIdx_iff_getElem?]; exact hf, rfl⟩
      | _ => cases h
  | arr d e =>
    cases st <;> simp [eq_comm]
    exact ⟨fun ⟨a, h1, h2, h3⟩ => by subst h2; exact ⟨h1, h3⟩, fun ⟨h1, h2⟩ => ⟨_, h1, rfl, h2⟩⟩
  | vec e =>
    cases st <;> simp [eq_comm]
    exact ⟨fun ⟨a, h1, h2, h3⟩ => by subst h2; exact ⟨h1, h3⟩, fun ⟨h1, h2⟩ => ⟨_, h1, rfl, h2⟩⟩
  | str e =>
    cases st <;> simp [eq_comm]
    exact ⟨fun ⟨a, h1, h2, h3⟩ => by subst h2; exact ⟨h1, h3⟩, fun ⟨h1, h2⟩ => ⟨_, h1, rfl, h2⟩⟩
  | ptr e => cases st <;> simp [eq_comm]
  | null => cases st <;> simp
  | «opaque» => cases st <;> simp
  | num c => cases st <;> simp
  | «enum» c => cases st <;> simp

theorem pairwise_range_lt (n : Nat) : (List.range n).Pairwise (· < ·) := List.pairwise_lt_range

theorem kids_ordered (H : Heap) (m : Mem) (l : Loc) :
    (kids H m l).Pairwise fun x y => x.1.index < y.1.index := by
  unfold kids
  cases hk : H.kind l.2 with
  | comp fs =>
    simp only
    rw [List.pairwise_map]
    have : (fs.zipIdx.map Prod.snd).Pairwise (· < ·) := by
      rw [List.zipIdx_map_snd]
      exact List.pairwise_lt_range'
    rw [List.pairwise_map] at this
    exact this
  | arr d e => simp only [List.pairwise_map]; exact pairwise_range_lt _
  | vec e => simp only [List.pairwise_map]; exact pairwise_range_lt _
  | str e => simp only [List.pairwise_map]; exact pairwise_range_lt _
  | ptr e => simp
  | _ => simp

theorem isLeaf_kids {H : Heap} {m : Mem} {l : Loc} (h : Kind.isLeaf (H.kind l.2) = true) : kids H m l = [] := by
  unfold kids
  cases hk : H.kind l.2 <;> rw [hk] at h <;> first | rfl | cases h

theorem before_cons {st : Step} {p q : List Step} (h : Before p q) : Before (st :: p) (st :: q) := by
  rcases h with ⟨c, s, t, p', q', rfl, rfl, hlt⟩
  exact ⟨st :: c, s, t, p', q', rfl, rfl, hlt⟩

theorem leaves_of_kids {H : Heap} {m : Mem} {l : Loc} (L : Loc → List (List Step × Loc))
    (hn : ¬ Kind.isLeaf (H.kind l.2) = true) (h : ∀ k ∈ kids H m l, Leaves H m k.2 (L k.2)) :
    Leaves H m l ((kids H m l).flatMap fun k => (L k.2).map fun x => (k.1 :: x.1, x.2)) := by
  constructor
  · have ho := kids_ordered H m l
    generalize kids H m l = ks at h ho
    induction ks with
    | nil => simp
    | cons k ks ih =>
      rw [List.flatMap_cons, List.map_append, List.pairwise_append]
      refine ⟨?_, ih (fun x hx => h x (by simp [hx])) (List.pairwise_cons.mp ho).2, ?_⟩
      · have := (h k (by simp)).ordered
        rw [List.map_map]
        rw [List.pairwise_map] at this ⊢
        exact this.imp (fun hb => before_cons hb)
      · intro p hp q hq
        simp only [List.mem_map, List.mem_flatMap] at hp hq
        rcases hp with ⟨_, ⟨x, _, rfl⟩, rfl⟩
        rcases hq with ⟨_, ⟨k', hk', y, _, rfl⟩, rfl⟩
        exact ⟨[], k.1, k'.1, x.1, y.1, rfl, rfl, (List.pairwise_cons.mp ho).1 k' hk'⟩
  · intro p l'
    constructor
    · intro hm
      simp only [List.mem_flatMap, List.mem_map] at hm
      rcases hm with ⟨k, hk, x, hx, heq⟩
      cases heq
      have := ((h k hk).complete x.1 x.2).mp hx
      refine ⟨?_, this.2⟩
      show (stepTo H m l k.1).bind _ = _
      rw [(kids_iff H m l k.1 k.2).mp hk]
      exact this.1
    · rintro ⟨hf, hl⟩
      cases p with
      | nil => cases hf; exact absurd hl hn
      | cons st p =>
        rw [follow] at hf
        rcases hs : stepTo H m l st with _ | k
        · rw [hs] at hf; cases hf
        · rw [hs] at hf
          have hk := (kids_iff H m l st k).mpr hs
          have := ((h (st, k) hk).complete p l').mpr ⟨hf, hl⟩
          simp only [List.mem_flatMap, List.mem_map]
          exact ⟨(st, k), hk, (p, l'), this, rfl⟩

theorem leaves_leaf {H : Heap} {m : Mem} {l : Loc} (h : Kind.isLeaf (H.kind l.2) = true) : Leaves H m l [([], l)] := by
  constructor
  · simp
  · intro p l'
    constructor
    · intro hm
      simp only [List.mem_singleton, Prod.mk.injEq] at hm
      rcases hm with ⟨rfl, rfl⟩
      exact ⟨rfl, h⟩
    · rintro ⟨hf, hl⟩
      cases p with
      | nil => cases hf; simp
      | cons st p =>
        rw [follow] at hf
        rcases hs : stepTo H m l st with _ | k
        · rw [hs] at hf; cases hf
        · have := (kids_iff H m l st k).mpr hs
          rw [isLeaf_kids h] at this
          cases this

/-! ### The traversal visits the leaves -/

section
variable {σ : Type} {H : Heap} {m : Mem} {V : Visitor σ}

/-- what a visitor does with a list of leaves -/
def runLeaves (V : Visitor σ) (ls : List Loc) (s : σ) : σ := ls.foldl (fun s l => (V.leaf l.1 l.2 s).2) s

theorem runLeaves_append (xs ys : List Loc) (s : σ) :
    runLeaves V (xs ++ ys) s = runLeaves V ys (runLeaves V xs s) := by
  unfold runLeaves; rw [List.foldl_append]

theorem brkLoop_spec {rec : Nat → σ → Res (Bool × σ)} (P : Nat → Prop) (g : Nat → List Loc)
    (hrec : ∀ b s r, rec b s = .ok r → r.1 = true ∧ r.2 = runLeaves V (g b) s ∧ P b) :
    ∀ as s s', brkLoop rec as s = .ok s' → s' = runLeaves V (as.flatMap g) s ∧ ∀ b ∈ as, P b := by
  intro as
  induction as with
  | nil => intro s s' h; cases h; exact ⟨rfl, by simp⟩
  | cons b as ih =>
    intro s s' h
    rw [brkLoop, Res.bind_eq_ok] at h
    rcases h with ⟨r, hr, h⟩
    obtain ⟨h1, h2, h3⟩ := hrec b s r hr
    rw [if_pos h1] at h
    obtain ⟨h4, h5⟩ := ih _ _ h
    refine ⟨?_, ?_⟩
    · rw [h4, h2, List.flatMap_cons, runLeaves_append]
    · intro x hx; rcases List.mem_cons.mp hx with rfl | hx
      · exact h3
      · exact h5 x hx

theorem allLoop_spec {rec : Nat → σ → Res (Bool × σ)} (P : Nat → Prop) (g : Nat → List Loc)
    (hrec : ∀ b s r, rec b s = .ok r → r.1 = true ∧ r.2 = runLeaves V (g b) s ∧ P b) :
    ∀ as s s', allLoop rec as s = .ok s' → s' = runLeaves V (as.flatMap g) s ∧ ∀ b ∈ as, P b := by
  intro as
  induction as with
  | nil => intro s s' h; cases h; exact ⟨rfl, by simp⟩
  | cons b as ih =>
    intro s s' h
    rw [allLoop, Res.bind_eq_ok] at h
    rcases h with ⟨r, hr, h⟩
    obtain ⟨h1, h2, h3⟩ := hrec b s r hr
    obtain ⟨h4, h5⟩ := ih _ _ h
    refine ⟨?_, ?_⟩
    · rw [h4, h2, List.flatMap_cons, runLeaves_append]
    · intro x hx; rcases List.mem_cons.mp hx with rfl | hx
      · exact h3
      · exact h5 x hx

theorem fieldLoop_spec {rec : Nat → FieldD → σ → Res (Bool × σ)} (a : Nat) (P : Nat → TId → Prop)
    (g : Nat → TId → List Loc)
    (hrec : ∀ b fd s r, rec b fd s = .ok r → r.1 = true ∧ r.2 = runLeaves V (g b fd.ty) s ∧ P b fd.ty) :
    ∀ fs s r, fieldLoop rec a fs s = .ok r →
      r.1 = true ∧ r.2 = runLeaves V (fs.flatMap fun f => g (a + f.offset) f.ty) s ∧
        ∀ f ∈ fs, P (a + f.offset) f.ty := by
  intro fs
  induction fs with
  | nil => intro s r h; cases h; exact ⟨rfl, rfl, by simp⟩
  | cons fd fs ih =>
    intro s r h
    rw [fieldLoop, Res.bind_eq_ok] at h
    rcases h with ⟨q, hq, h⟩
    obtain ⟨h1, h2, h3⟩ := hrec _ fd s q hq
    rw [if_pos h1] at h
    obtain ⟨h4, h5, h6⟩ := ih _ _ h
    refine ⟨h4, ?_, ?_⟩
    · rw [h5, h2, List.flatMap_cons, runLeaves_append]
    · intro x hx; rcases List.mem_cons.mp hx with rfl | hx
      · exact h3
      · exact h6 x hx

theorem flatMap_zipIdx {α β : Type} (g : α → List β) : ∀ (l : List α) (n : Nat),
    (l.zipIdx n).flatMap (fun x => g x.1) = l.flatMap g
  | [], _ => rfl
  | a :: l, n => by
    rw [List.zipIdx_cons, List.flatMap_cons, List.flatMap_cons, flatMap_zipIdx g l]

/-- the addresses and types of the leaves, from the parts -/
theorem leaves_kids_snd (f : Nat) (l : Loc) (h : ¬ Kind.isLeaf (H.kind l.2) = true) :
    (leaves H m (f + 1) l).map Prod.snd = (kids H m l).flatMap fun k => (leaves H m f k.2).map Prod.snd := by
  rw [leaves, if_neg h, List.map_flatMap]
  congr 1
  funext k
  rw [List.map_map]
  rfl

theorem visit_spec (hV : ∀ a t s, (V.leaf a t s).1 = true) (hf : V.field = none) :
    ∀ f a t s r, visit H m V f a t s = .ok r →
      r.1 = true ∧ r.2 = runLeaves V ((leaves H m f (a, t)).map Prod.snd) s ∧ Leaves H m (a, t) (leaves H m f (a, t)) := by
  intro f
  induction f with
  | zero => intro a t s r h; cases h
  | succ f ih =>
    intro a t s r h
    rw [visit] at h
    have hleaf : Kind.isLeaf (H.kind t) = true → r = V.leaf a t s →
        r.1 = true ∧ r.2 = runLeaves V ((leaves H m (f + 1) (a, t)).map Prod.snd) s ∧
          Leaves H m (a, t) (leaves H m (f + 1) (a, t)) := by
      intro hl hr
      have hl' : Kind.isLeaf (H.kind (a, t).2) = true := hl
      rw [leaves, if_pos hl']
      exact ⟨by rw [hr]; exact hV _ _ _, by rw [hr]; rfl, leaves_leaf hl⟩
    have hnode : ¬ Kind.isLeaf (H.kind t) = true → r.1 = true →
        r.2 = runLeaves V ((kids H m (a, t)).flatMap fun k => (leaves H m f k.2).map Prod.snd) s →
        (∀ k ∈ kids H m (a, t), Leaves H m k.2 (leaves H m f k.2)) →
        r.1 = true ∧ r.2 = runLeaves V ((leaves H m (f + 1) (a, t)).map Prod.snd) s ∧
          Leaves H m (a, t) (leaves H m (f + 1) (a, t)) := by
      intro hl h1 h2 h3
      refine ⟨h1, ?_, ?_⟩
      · rw [leaves_kids_snd f (a, t) hl, h2]
      · rw [leaves, if_neg hl]
        exact leaves_of_kids (leaves H m f) hl h3
    cases hk : H.kind t with
    | null => rw [hk] at h; cases h
    | «opaque» => rw [hk] at h; cases h; exact hleaf (by rw [hk]; rfl) rfl
    | «enum» c => rw [hk] at h; cases h; exact hleaf (by rw [hk]; rfl) rfl
    | num c =>
      rw [hk] at h
      dsimp only at h
      split at h
      · cases h; exact hleaf (by rw [hk]; rfl) rfl
      · cases h
    | ptr e =>
      rw [hk] at h
      dsimp only at h
      split at h
      · cases h
      · obtain ⟨h1, h2, h3⟩ := ih _ _ _ _ h
        have hkids : kids H m (a, t) = [(.deref, (m.ptr a, e))] := by unfold kids; simp only [hk]
        refine hnode (by rw [hk]; exact (fun h => by cases h)) h1 ?_ ?_
        · rw [hkids]; simpa using h2
        · rw [hkids]; intro k hk'; rw [List.mem_singleton.mp hk']; exact h3
    | arr d e =>
      rw [hk] at h
      dsimp only at h
      rw [Res.bind_eq_ok] at h
      rcases h with ⟨s', hs', h⟩
      cases h
      obtain ⟨h1, h2⟩ := brkLoop_spec (V := V) (P := fun b => Leaves H m (b, e) (leaves H m f (b, e)))
        (g := fun b => (leaves H m f (b, e)).map Prod.snd) (fun b s r hr => ih b e s r hr) _ _ _ hs'
      have hkids : kids H m (a, t) = (elems a (H.size e) d).zipIdx.map (fun x => (.idx x.2, (x.1, e))) := by
        unfold kids elems; simp only [hk]
        rw [List.zipIdx_map, List.map_map]
        apply List.ext_getElem <;> simp
      refine hnode (by rw [hk]; exact (fun h => by cases h)) rfl ?_ ?_
      · rw [hkids, List.flatMap_map, flatMap_zipIdx (fun b => (leaves H m f (b, e)).map Prod.snd)]
        exact h1
      · rw [hkids]; intro k hk'
        rcases List.mem_map.mp hk' with ⟨x, hx, rfl⟩
        exact h2 x.1 (List.fst_mem_of_mem_zipIdx hx)
    | vec e =>
      rw [hk] at h
      dsimp only at h
      split at h
      · cases h
      rw [Res.bind_eq_ok] at h
      rcases h with ⟨s', hs', h⟩
      cases h
      obtain ⟨h1, h2⟩ := allLoop_spec (V := V) (P := fun b => Leaves H m (b, e) (leaves H m f (b, e)))
        (g := fun b => (leaves H m f (b, e)).map Prod.snd) (fun b s r hr => ih b e s r hr) _ _ _ hs'
      have hkids : kids H m (a, t) = (elems (m.vec a).1 (H.size e) ((m.vec a).2 / H.size e)).zipIdx.map
          (fun x => (.elem x.2, (x.1, e))) := by
        unfold kids elems; simp only [hk]
        rw [List.zipIdx_map, List.map_map]
        apply List.ext_getElem <;> simp
      refine hnode (by rw [hk]; exact (fun h => by cases h)) rfl ?_ ?_
      · rw [hkids, List.flatMap_map, flatMap_zipIdx (fun b => (leaves H m f (b, e)).map Prod.snd)]
        exact h1
      · rw [hkids]; intro k hk'
        rcases List.mem_map.mp hk' with ⟨x, hx, rfl⟩
        exact h2 x.1 (List.fst_mem_of_mem_zipIdx hx)
    | str e =>
      rw [hk] at h
      dsimp only at h
      rw [Res.bind_eq_ok] at h
      rcases h with ⟨s', hs', h⟩
      cases h
      obtain ⟨h1, h2⟩ := allLoop_spec (V := V) (P := fun b => Leaves H m (b, e) (leaves H m f (b, e)))
        (g := fun b => (leaves H m f (b, e)).map Prod.snd) (fun b s r hr => ih b e s r hr) _ _ _ hs'
      have hkids : kids H m (a, t) = (elems (m.str a).1 1 (m.str a).2).zipIdx.map
          (fun x => (.elem x.2, (x.1, e))) := by
        unfold kids elems; simp only [hk]
        rw [List.zipIdx_map, List.map_map]
        apply List.ext_getElem <;> simp
      refine hnode (by rw [hk]; exact (fun h => by cases h)) rfl ?_ ?_
      · rw [hkids, List.flatMap_map, flatMap_zipIdx (fun b => (leaves H m f (b, e)).map Prod.snd)]
        exact h1
      · rw [hkids]; intro k hk'
        rcases List.mem_map.mp hk' with ⟨x, hx, rfl⟩
        exact h2 x.1 (List.fst_mem_of_mem_zipIdx hx)
    | comp fs =>
      rw [hk] at h
      dsimp only at h
      obtain ⟨h1, h2, h3⟩ := fieldLoop_spec (V := V) a (P := fun b e => Leaves H m (b, e) (leaves H m f (b, e)))
        (g := fun b e => (leaves H m f (b, e)).map Prod.snd)
        (fun b fd s r hr => ih b fd.ty s r (by unfold fieldRec at hr; rw [hf] at hr; exact hr)) _ _ _ h
      have hkids : kids H m (a, t) = fs.zipIdx.map (fun x => (.field x.2, (a + x.1.offset, x.1.ty))) := by
        unfold kids; simp only [hk]
      refine hnode (by rw [hk]; exact (fun h => by cases h)) h1 ?_ ?_
      · rw [hkids, List.flatMap_map,
          flatMap_zipIdx (fun x : FieldD => (leaves H m f (a + x.offset, x.ty)).map Prod.snd)]
        exact h2
      · rw [hkids]; intro k hk'
        rcases List.mem_map.mp hk' with ⟨x, hx, rfl⟩
        exact h3 x.1 (List.fst_mem_of_mem_zipIdx hx)

end

end Verif.Visitor
