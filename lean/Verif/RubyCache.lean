import Verif.Basic

/-!
C55: the Ruby objects that stand for parts of a value: cached, and invalidated when an operation may have moved the memory they
point to (bindings/ruby/lib/typelib/container_type.rb:51-57, 67-75, 79-83, 98-107, 254-274, 297-308, 335-358;
lib/typelib/type.rb:302-370; lib/typelib/array_type.rb:73-79, 141-151; lib/typelib/accessor.rb; lib/typelib/path.rb;
ext/specialized_types.cc:598-612).

A value is a tree. The parts of compounds and arrays are at fixed offsets of the whole; the elements of a vector are in its
buffer, which operations reallocate. The C++ side of an operation is arbitrary: it is only known to leave alone the vectors that
are not inside the value it works on. A Ruby object reads the memory at the address it holds: if that is not where its part of the
value is, this is undefined behaviour.
-/

namespace Verif.RubyCache
open Verif

/-! ### Model -/

/-- where a part is in a value: the index of the field or element at each level -/
abbrev Path := List Nat

/-- the type of a value, as far as this matters: something without parts, a vector (size and type of its elements), an array or a
compound (offset and type of its parts) -/
inductive T where
  | leaf
  | vec (esz : Nat) (elem : T)
  | fixed (parts : List (Nat × T))

/-- the type of a part -/
def T.part : T → Nat → Option T
  | .leaf, _ => none
  | .vec _ e, _ => some e
  | .fixed ps, i => (ps[i]?).map (·.2)

/-- the type of the part at a path -/
def typeAt : T → Path → Option T
  | t, [] => some t
  | t, i :: p => (t.part i).bind fun u => typeAt u p

/-- what the vector at each path holds: the address of its buffer and its number of elements -/
abbrev Vecs := Path → Nat × Nat

/-- the address of a part of the object at `p`, of type `t` and address `a` -/
def partAddr (vs : Vecs) (p : Path) (t : T) (a i : Nat) : Option Nat :=
  match t with
  | .leaf => none
  | .vec esz _ => if i < (vs p).2 then some ((vs p).1 + i * esz) else none
  | .fixed ps => (ps[i]?).map fun q => a + q.1

/-- a Ruby object: which one it is, and the address it holds -/
structure Wrapper where
  id : Nat
  addr : Nat
  deriving DecidableEq, Repr

/-- the objects `@elements`/`@fields` hold, all levels together; the objects made so far; those that were invalidated -/
structure St where
  ty : T
  base : Nat
  vs : Vecs
  cache : List (Path × Wrapper)
  made : List (Path × Wrapper)
  dead : List Nat

/-- the cached object of a part -/
def look (c : List (Path × Wrapper)) (p : Path) : Option Wrapper := (c.find? fun e => e.1 == p).map (·.2)

/-- a new toplevel value -/
def St.start (ty : T) (base : Nat) (vs : Vecs) : St := ⟨ty, base, vs, [([], ⟨0, base⟩)], [([], ⟨0, base⟩)], []⟩

/-- the address of the part at a path, now -/
def locate (vs : Vecs) : Path → T → Nat → Path → Option Nat
  | _, _, a, [] => some a
  | pre, t, a, i :: p =>
    match t.part i, partAddr vs pre t a i with
    | some u, some b => locate vs (pre ++ [i]) u b p
    | _, _ => none

/-- where the part at `p` is now -/
def St.locate (s : St) (p : Path) : Option Nat := RubyCache.locate s.vs [] s.ty s.base p

/-- reading the vector object through the Ruby object of path `p`; undefined if it does not point to it -/
def readVec (s : St) (p : Path) (w : Wrapper) : Res (Nat × Nat) :=
  if s.locate p = some w.addr then .ok (s.vs p) else .ub

/-- `raw_get` of a part (container_type.rb:79-83, 98-107; array_type.rb:149-151; `CompoundType#raw_get`): the cached object, or a
new one for the address that C++ computes. An index out of bounds is an `ArgumentError`, a path whose object does not exist
(any more) a `TypeError`. -/
def get (s : St) (p : Path) (i : Nat) : St × Res Wrapper :=
  match look s.cache p, typeAt s.ty p with
  | some w, some t =>
    match look s.cache (p ++ [i]) with
    | some c => (s, .ok c)
    | none =>
      match t with
      | .leaf => (s, .exn .rbType)
      | .vec esz _ =>
        match readVec s p w with
        | .ok v =>
          if i < v.2 then
            let c : Wrapper := ⟨s.made.length, v.1 + i * esz⟩
            ({ s with cache := (p ++ [i], c) :: s.cache, made := (p ++ [i], c) :: s.made }, .ok c)
          else (s, .exn .rbArg)
        | _ => (s, .ub)
      | .fixed ps =>
        match ps[i]? with
        | none => (s, .exn .rbArg)
        | some q =>
          let c : Wrapper := ⟨s.made.length, w.addr + q.1⟩
          ({ s with cache := (p ++ [i], c) :: s.cache, made := (p ++ [i], c) :: s.made }, .ok c)
  | _, _ => (s, .exn .rbType)

/-- the object of `q` is (in) a part of the one of `p` whose index satisfies `f` -/
def below (f : Nat → Bool) (p q : Path) : Bool :=
  p.isPrefixOf q && match q.drop p.length with
    | [] => false
    | i :: _ => f i

/-- invalidating the objects of the parts of `p` whose index satisfies `f` (`invalidate_children`, container_type.rb:67-75; or the
trailing ones, 262-271): each invalidates its own children and is forgotten (type.rb:302-309) -/
def drop (f : Nat → Bool) (p : Path) (s : St) : St :=
  { s with
    cache := s.cache.filter fun e => !below f p e.1
    dead := ((s.cache.filter fun e => below f p e.1).map (·.2.id)) ++ s.dead }

/-- `vector_contained_memory_id` (specialized_types.cc:603-612): nil for an empty vector -/
def memId (v : Nat × Nat) : Option Nat := if v.2 = 0 then none else some v.1

/-- the end of `handle_container_invalidation` (container_type.rb:258-273) for the container at `q`; `old` is what
`contained_memory_id` returned before. -/
def settle (s : St) (q : Path) (old : Option Nat) : Res St :=
  match look s.cache q with
  | none => .ok s -- invalidated?
  | some w =>
    readVec s q w >>= fun v =>
      if old ≠ none ∧ old ≠ memId v then .ok (drop (fun _ => true) q s)
      else .ok (drop (fun i => decide (v.2 ≤ i)) q s)

def settleAll (old : Vecs) : List Path → St → Res St
  | [], s => .ok s
  | q :: qs, s => settle s q (memId (old q)) >>= settleAll old qs

def insertLen (p : Path) : List Path → List Path
  | [] => [p]
  | q :: qs => if p.length ≤ q.length then p :: q :: qs else q :: insertLen p qs

/-- `sort_by { |p| p.size }` (accessor.rb:16) -/
def sortLen : List Path → List Path
  | [] => []
  | p :: ps => insertLen p (sortLen ps)

def isVec : Option T → Bool
  | some (.vec ..) => true
  | _ => false

/-- `containers_accessor.each(self)` (type.rb:338-342, 347; accessor.rb): the containers that have an object, at or below `p`,
the outer ones first -/
def containers (s : St) (p : Path) : List Path :=
  sortLen ((s.cache.filter fun e => p.isPrefixOf e.1 && isVec (typeAt s.ty e.1)).map (·.1))

/-- what `handle_invalidation_protect_containers` (type.rb:352-370) reads before the operation -/
def readAll (s : St) : List Path → Res Unit
  | [] => .ok ()
  | q :: qs =>
    match look s.cache q with
    | some w => readVec s q w >>= fun _ => readAll s qs
    | none => .exn .rbType

/-- `handle_invalidation` (type.rb:344-349) on the object of `p`, around an operation after which the vectors are `vs'`
(`push`, `concat`, `erase`, `delete_if` of containers; `Typelib.copy`, `from_buffer`, ... of any value). The blocks are nested so
that the outermost container is settled first. -/
def mutate (s : St) (p : Path) (vs' : Vecs) : Res St :=
  match look s.cache p with
  | none => .exn .rbType
  | some _ =>
    readAll s (containers s p) >>= fun _ =>
      settleAll s.vs (containers s p) { s with vs := vs' }

/-- `ContainerType#clear` (container_type.rb:54-57); only containers have that method -/
def clear (s : St) (p : Path) (vs' : Vecs) : Res St :=
  match look s.cache p, isVec (typeAt s.ty p) with
  | some _, true => .ok (drop (fun _ => true) p { s with vs := vs' })
  | _, _ => .exn .rbType

/-- what a program does -/
inductive Op where
  | get (p : Path) (i : Nat)
  | mutate (p : Path) (vs' : Vecs)
  | clear (p : Path) (vs' : Vecs)

/-- an operation; after a Ruby exception the program goes on -/
def step (s : St) : Op → Res St
  | .get p i =>
    match get s p i with
    | (s', .ok _) => .ok s'
    | (s', .exn _) => .ok s'
    | (_, .ub) => .ub
    | (_, .fuel) => .fuel
  | .mutate p vs' =>
    match mutate s p vs' with
    | .exn _ => .ok s
    | r => r
  | .clear p vs' =>
    match clear s p vs' with
    | .exn _ => .ok s
    | r => r

def run (s : St) : List Op → Res St
  | [] => .ok s
  | o :: os => step s o >>= fun s' => run s' os

/-! ### Specification -/

/-- the C++ operation works on the part at `p`: the vectors elsewhere are as they were -/
def Frame (p : Path) (vs vs' : Vecs) : Prop := ∀ q, ¬ p <+: q → vs' q = vs q

/-- the C++ side of the operations: each changes what it works on only -/
def OkOp (s : St) : Op → Prop
  | .get .. => True
  | .mutate p vs' => Frame p s.vs vs'
  | .clear p vs' => Frame p s.vs vs'

/-- every operation of the history is such, in the state it is performed in -/
def OkRun : St → List Op → Prop
  | _, [] => True
  | s, o :: os => OkOp s o ∧ ∀ s', step s o = .ok s' → OkRun s' os

/-- every object that was handed out and was not invalidated points to its part of the value -/
def Live (s : St) : Prop := ∀ p w, (p, w) ∈ s.made → w.id ∉ s.dead → s.locate p = some w.addr

/-! ### Lemmas -/

theorem find_key {c : List (Path × Wrapper)} (hn : (c.map (·.1)).Nodup) {p : Path} {w : Wrapper} :
    look c p = some w ↔ (p, w) ∈ c := by
  unfold look
  induction c with
  | nil => simp
  | cons e c ih =>
    rw [List.map_cons, List.nodup_cons] at hn
    rw [List.find?_cons]
    by_cases h : e.1 = p
    · have hb : (e.1 == p) = true := by simp [h]
      rw [hb]
      simp only [Option.map_some, Option.some.injEq, List.mem_cons]
      constructor
      · intro hw
        left
        rw [← h, ← hw]
      · rintro (rfl | hm)
        · rfl
        · exact absurd (h ▸ List.mem_map_of_mem (f := (·.1)) hm) hn.1
    · have hb : (e.1 == p) = false := by simp [h]
      rw [hb]
      simp only [List.mem_cons]
      rw [ih hn.2]
      constructor
      · exact .inr
      · rintro (rfl | hm)
        · exact absurd rfl h
        · exact hm

theorem typeAt_snoc (t : T) (p : Path) (i : Nat) : typeAt t (p ++ [i]) = (typeAt t p).bind fun u => u.part i := by
  induction p generalizing t with
  | nil =>
    simp only [List.nil_append, typeAt, Option.bind_some]
    cases t.part i <;> rfl
  | cons j p ih =>
    simp only [List.cons_append, typeAt]
    cases t.part j with
    | none => rfl
    | some u => exact ih u

theorem locate_snoc {vs : Vecs} {pre : Path} {t : T} {a : Nat} {p : Path} {i b c : Nat} {u : T}
    (h1 : locate vs pre t a p = some b) (h2 : typeAt t p = some u) (h3 : partAddr vs (pre ++ p) u b i = some c) :
    locate vs pre t a (p ++ [i]) = some c := by
  induction p generalizing pre t a with
  | nil =>
    cases h1
    cases h2
    rw [List.append_nil] at h3
    simp only [List.nil_append, locate, h3]
    cases hp : u.part i with
    | some u => rfl
    | none =>
      exfalso
      cases u with
      | leaf => cases h3
      | vec => cases hp
      | fixed ps =>
        simp only [T.part, Option.map_eq_none_iff] at hp
        simp only [partAddr, hp] at h3
        cases h3
  | cons j p ih =>
    simp only [List.cons_append, locate] at h1 ⊢
    simp only [typeAt] at h2
    cases hp : t.part j with
    | none => rw [hp] at h2; cases h2
    | some v =>
      cases hq : partAddr vs pre t a j with
      | none => rw [hp, hq] at h1; cases h1
      | some d =>
        rw [hp, hq] at h1
        rw [hp] at h2
        dsimp only at h1 ⊢
        refine ih h1 h2 ?_
        rw [List.append_assoc]
        exact h3

theorem locate_snoc_none {vs : Vecs} {pre : Path} {t : T} {a : Nat} {p : Path} {i b : Nat} {u : T}
    (h1 : locate vs pre t a p = some b) (h2 : typeAt t p = some u) (h3 : partAddr vs (pre ++ p) u b i = none) :
    locate vs pre t a (p ++ [i]) = none := by
  induction p generalizing pre t a with
  | nil =>
    cases h1
    cases h2
    rw [List.append_nil] at h3
    simp only [List.nil_append, locate, h3]
    cases u.part i <;> rfl
  | cons j p ih =>
    simp only [List.cons_append, locate] at h1 ⊢
    simp only [typeAt] at h2
    cases hp : t.part j with
    | none => rw [hp] at h1
    | some v =>
      cases hq : partAddr vs pre t a j with
      | none => rw [hp, hq] at h1
      | some d =>
        rw [hp, hq] at h1
        rw [hp] at h2
        dsimp only at h1 ⊢
        refine ih h1 h2 ?_
        rw [List.append_assoc]
        exact h3

/-- where a vector's part is does not depend on what other vectors hold -/
theorem partAddr_congr {vs vs' : Vecs} {p : Path} {t : T} {a i : Nat} (h : isVec (some t) = true → vs' p = vs p) :
    partAddr vs' p t a i = partAddr vs p t a i := by
  cases t with
  | leaf => rfl
  | fixed => rfl
  | vec esz e => simp only [partAddr]; rw [h rfl]

theorem below_iff {f : Nat → Bool} {p q : Path} : below f p q = true ↔ ∃ i r, q = p ++ i :: r ∧ f i = true := by
  unfold below
  rw [Bool.and_eq_true, List.isPrefixOf_iff_prefix]
  constructor
  · rintro ⟨⟨r, rfl⟩, h⟩
    rw [List.drop_left] at h
    cases r with
    | nil => cases h
    | cons i r => exact ⟨i, r, rfl, h⟩
  · rintro ⟨i, r, rfl, h⟩
    refine ⟨List.prefix_append _ _, ?_⟩
    rw [List.drop_left]
    exact h

theorem below_snoc {f : Nat → Bool} {p q : Path} {i : Nat} (h : below f p q = true) : below f p (q ++ [i]) = true := by
  obtain ⟨j, r, rfl, hf⟩ := below_iff.mp h
  exact below_iff.mpr ⟨j, r ++ [i], by simp, hf⟩

theorem mem_insertLen {p q : Path} {l : List Path} : q ∈ insertLen p l ↔ q = p ∨ q ∈ l := by
  induction l with
  | nil => simp [insertLen]
  | cons x l ih =>
    rw [insertLen]
    split
    · simp
    · simp only [List.mem_cons, ih]
      constructor
      · rintro (h | h | h)
        · exact .inr (.inl h)
        · exact .inl h
        · exact .inr (.inr h)
      · rintro (h | h | h)
        · exact .inr (.inl h)
        · exact .inl h
        · exact .inr (.inr h)

theorem mem_sortLen {q : Path} {l : List Path} : q ∈ sortLen l ↔ q ∈ l := by
  induction l with
  | nil => simp [sortLen]
  | cons x l ih => rw [sortLen, mem_insertLen, ih, List.mem_cons]

theorem sorted_insertLen {p : Path} {l : List Path} (h : l.Pairwise (·.length ≤ ·.length)) :
    (insertLen p l).Pairwise (·.length ≤ ·.length) := by
  induction l with
  | nil => simp [insertLen]
  | cons x l ih =>
    rw [List.pairwise_cons] at h
    rw [insertLen]
    split
    · rename_i hle
      refine List.pairwise_cons.mpr ⟨?_, List.pairwise_cons.mpr h⟩
      intro y hy
      rcases List.mem_cons.mp hy with rfl | hy
      · exact hle
      · exact Nat.le_trans hle (h.1 y hy)
    · rename_i hle
      refine List.pairwise_cons.mpr ⟨?_, ih h.2⟩
      intro y hy
      rcases mem_insertLen.mp hy with rfl | hy
      · omega
      · exact h.1 y hy

theorem sorted_sortLen (l : List Path) : (sortLen l).Pairwise (·.length ≤ ·.length) := by
  induction l with
  | nil => exact List.Pairwise.nil
  | cons x l ih => exact sorted_insertLen ih

/-! ### Invariants -/

/-- the bookkeeping of the objects, whatever the memory is -/
structure Book (s : St) : Prop where
  nodup : (s.cache.map (·.1)).Nodup
  root : ([], ⟨0, s.base⟩) ∈ s.cache
  acc : ∀ e ∈ s.made, e ∈ s.cache ∨ e.2.id ∈ s.dead
  sub : ∀ e ∈ s.cache, e ∈ s.made
  ids : ∀ e ∈ s.made, ∀ e' ∈ s.made, e.2.id = e'.2.id → e = e'
  next : ∀ e ∈ s.made, e.2.id < s.made.length
  alive : ∀ e ∈ s.cache, e.2.id ∉ s.dead
  deadlt : ∀ k ∈ s.dead, k < s.made.length

/-- the object of a part exists only with that of the whole, and points to the part if the one of the whole points to the
whole -/
def Linked (s : St) (vs : Vecs) (q : Path) (i : Nat) (w : Wrapper) : Prop :=
  ∃ wp t, (q, wp) ∈ s.cache ∧ typeAt s.ty q = some t ∧ partAddr vs q t wp.addr i = some w.addr

structure Inv (s : St) : Prop where
  book : Book s
  linked : ∀ q i w, (q ++ [i], w) ∈ s.cache → Linked s s.vs q i w

theorem Book.drop {s : St} (h : Book s) (f : Nat → Bool) (p : Path) : Book (drop f p s) := by
  refine ⟨?_, ?_, ?_, ?_, h.ids, h.next, ?_, ?_⟩
  · exact (List.filter_sublist.map _).nodup h.nodup
  · refine List.mem_filter.mpr ⟨h.root, ?_⟩
    rw [Bool.not_eq_true']
    refine Bool.eq_false_iff.mpr fun hb => ?_
    obtain ⟨i, r, he, _⟩ := below_iff.mp hb
    simp at he
  · intro e he
    rcases h.acc e he with hc | hd
    · by_cases hb : below f p e.1 = true
      · right
        exact List.mem_append.mpr (.inl (List.mem_map.mpr ⟨e, List.mem_filter.mpr ⟨hc, hb⟩, rfl⟩))
      · left
        exact List.mem_filter.mpr ⟨hc, by simpa using hb⟩
    · right
      exact List.mem_append.mpr (.inr hd)
  · intro e he
    exact h.sub e (List.mem_filter.mp he).1
  · intro e he hd
    obtain ⟨hc, hb⟩ := List.mem_filter.mp he
    rcases List.mem_append.mp hd with hd | hd
    · obtain ⟨e', he', hid⟩ := List.mem_map.mp hd
      obtain ⟨hc', hb'⟩ := List.mem_filter.mp he'
      have := h.ids e' (h.sub e' hc') e (h.sub e hc) hid
      subst this
      rw [hb'] at hb
      cases hb
    · exact h.alive e hc hd
  · intro k hk
    rcases List.mem_append.mp hk with hk | hk
    · obtain ⟨e, he, rfl⟩ := List.mem_map.mp hk
      exact h.next e (h.sub e (List.mem_filter.mp he).1)
    · exact h.deadlt k hk

/-- every object points to its part if the links from the root to it are right -/
theorem current {s : St} {vs : Vecs} (hb : Book s) : ∀ (n : Nat) (q : Path) (w : Wrapper), q.length = n → (q, w) ∈ s.cache →
    (∀ r i w', (r ++ [i], w') ∈ s.cache → ∃ wp, (r, wp) ∈ s.cache) →
    (∀ r i w', r ++ [i] <+: q → (r ++ [i], w') ∈ s.cache → Linked s vs r i w') →
    locate vs [] s.ty s.base q = some w.addr := by
  intro n
  induction n with
  | zero =>
    intro q w hq hm _ _
    have : q = [] := List.eq_nil_of_length_eq_zero hq
    subst this
    have := (find_key hb.nodup).mpr hm
    rw [(find_key hb.nodup).mpr hb.root] at this
    cases this
    rfl
  | succ n ih =>
    intro q w hq hm hcl hl
    obtain ⟨r, i, rfl⟩ : ∃ r i, q = r ++ [i] := by
      rcases List.eq_nil_or_concat q with rfl | ⟨r, i, rfl⟩
      · simp at hq
      · exact ⟨r, i, by simp⟩
    obtain ⟨wp, t, h1, h2, h3⟩ := hl r i w (List.prefix_refl _) hm
    have hr : r.length = n := by simpa using hq
    have := ih r wp hr h1 hcl (fun r' i' w' hp => hl r' i' w' (hp.trans (List.prefix_append _ _)))
    exact locate_snoc this h2 (by rw [List.nil_append]; exact h3)

theorem Inv.current {s : St} (h : Inv s) {q : Path} {w : Wrapper} (hm : (q, w) ∈ s.cache) : s.locate q = some w.addr :=
  RubyCache.current h.book q.length q w rfl hm (fun r i w' hm => let ⟨wp, _, h1, _⟩ := h.linked r i w' hm; ⟨wp, h1⟩)
    (fun r i w' _ hm => h.linked r i w' hm)

theorem Inv.live {s : St} (h : Inv s) : Live s := by
  intro p w hm hd
  rcases h.book.acc _ hm with hc | hd'
  · exact h.current hc
  · exact absurd hd' hd

theorem inv_start (ty : T) (base : Nat) (vs : Vecs) : Inv (St.start ty base vs) := by
  refine ⟨⟨by simp [St.start], by simp [St.start], by intro e he; exact .inl he, by intro e he; exact he, ?_, ?_, by simp [St.start], by simp [St.start]⟩, ?_⟩
  · intro e he e' he' _
    simp only [St.start, List.mem_singleton] at he he'
    rw [he, he']
  · intro e he
    simp only [St.start, List.mem_singleton] at he
    subst he
    simp [St.start]
  · intro q i w hm
    simp only [St.start, List.mem_singleton, Prod.mk.injEq] at hm
    simp at hm

/-! #### Access -/

/-- making the object of a part -/
theorem Inv.add {s : St} (h : Inv s) {p : Path} {i : Nat} {wp : Wrapper} {t : T} {a : Nat} (hp : (p, wp) ∈ s.cache)
    (ht : typeAt s.ty p = some t) (ha : partAddr s.vs p t wp.addr i = some a) (hn : look s.cache (p ++ [i]) = none) :
    Inv { s with cache := (p ++ [i], ⟨s.made.length, a⟩) :: s.cache, made := (p ++ [i], ⟨s.made.length, a⟩) :: s.made } := by
  have hfresh : ∀ w, (p ++ [i], w) ∉ s.cache := by
    intro w hw
    rw [(find_key h.book.nodup).mpr hw] at hn
    cases hn
  refine ⟨⟨?_, ?_, ?_, ?_, ?_, ?_, ?_, ?_⟩, ?_⟩
  · refine List.nodup_cons.mpr ⟨?_, h.book.nodup⟩
    intro hm
    obtain ⟨e, he, h1⟩ := List.mem_map.mp hm
    dsimp only at h1
    exact hfresh e.2 (by rw [← h1]; exact he)
  · exact List.mem_cons_of_mem _ h.book.root
  · intro e he
    rcases List.mem_cons.mp he with rfl | he
    · exact .inl List.mem_cons_self
    · rcases h.book.acc e he with hc | hd
      · exact .inl (List.mem_cons_of_mem _ hc)
      · exact .inr hd
  · intro e he
    rcases List.mem_cons.mp he with rfl | he
    · exact List.mem_cons_self
    · exact List.mem_cons_of_mem _ (h.book.sub e he)
  · intro e he e' he' hid
    rcases List.mem_cons.mp he with rfl | he <;> rcases List.mem_cons.mp he' with rfl | he'
    · rfl
    · have := h.book.next e' he'
      simp only at hid
      omega
    · have := h.book.next e he
      simp only at hid
      omega
    · exact h.book.ids e he e' he' hid
  · intro e he
    rw [List.length_cons]
    rcases List.mem_cons.mp he with rfl | he
    · exact Nat.lt_succ_self _
    · exact Nat.lt_succ_of_lt (h.book.next e he)
  · intro e he hd
    rcases List.mem_cons.mp he with rfl | he
    · exact Nat.lt_irrefl _ (h.book.deadlt _ hd)
    · exact h.book.alive e he hd
  · intro k hk
    exact Nat.lt_succ_of_lt (h.book.deadlt k hk)
  · intro q j w hm
    rcases List.mem_cons.mp hm with he | hm
    · have h1 := congrArg Prod.fst he
      have h2 := congrArg Prod.snd he
      dsimp only at h1 h2
      obtain ⟨rfl, hij⟩ := List.append_inj' h1 rfl
      cases hij
      subst h2
      exact ⟨wp, t, List.mem_cons_of_mem _ hp, ht, ha⟩
    · obtain ⟨wq, u, h1, h2, h3⟩ := h.linked q j w hm
      exact ⟨wq, u, List.mem_cons_of_mem _ h1, h2, h3⟩

theorem partAddr_part {vs : Vecs} {p : Path} {t : T} {a i b : Nat} (h : partAddr vs p t a i = some b) : (t.part i).isSome := by
  cases t with
  | leaf => cases h
  | vec => rfl
  | fixed ps =>
    simp only [partAddr, Option.map_eq_some_iff] at h
    obtain ⟨q, hq, _⟩ := h
    simp [T.part, hq]

theorem Inv.typed {s : St} (h : Inv s) : ∀ (n : Nat) (q : Path) (w : Wrapper), q.length = n → (q, w) ∈ s.cache →
    ∃ t, typeAt s.ty q = some t := by
  intro n
  induction n with
  | zero =>
    intro q w hq _
    have : q = [] := List.eq_nil_of_length_eq_zero hq
    subst this
    exact ⟨s.ty, rfl⟩
  | succ n ih =>
    intro q w hq hm
    obtain ⟨r, i, rfl⟩ : ∃ r i, q = r ++ [i] := by
      rcases List.eq_nil_or_concat q with rfl | ⟨r, i, rfl⟩
      · simp at hq
      · exact ⟨r, i, by simp⟩
    obtain ⟨wp, t, _, h2, h3⟩ := h.linked r i w hm
    rw [typeAt_snoc, h2]
    exact Option.isSome_iff_exists.mp (partAddr_part h3)

theorem readVec_ok {s : St} {q : Path} {w : Wrapper} (h : s.locate q = some w.addr) : readVec s q w = .ok (s.vs q) := by
  unfold readVec
  rw [if_pos h]

/-- an access: the state stays good; the object returned points to the part -/
theorem get_spec {s : St} (h : Inv s) (p : Path) (i : Nat) :
    Inv (get s p i).1 ∧ (get s p i).1.vs = s.vs ∧ (get s p i).1.ty = s.ty ∧ (get s p i).1.base = s.base ∧
    (get s p i).1.dead = s.dead ∧ (∀ e ∈ s.made, e ∈ (get s p i).1.made) ∧
    ((∃ w, (get s p i).2 = .ok w ∧ s.locate (p ++ [i]) = some w.addr ∧ (p ++ [i], w) ∈ (get s p i).1.made ∧ w.id ∉ s.dead) ∨
      ∃ e, (get s p i).2 = .exn e) ∧
    (∀ wp, (p, wp) ∈ s.made → wp.id ∉ s.dead → (s.locate (p ++ [i])).isSome → ∃ w, (get s p i).2 = .ok w) := by
  have same : ∀ e, Inv s ∧ s.vs = s.vs ∧ s.ty = s.ty ∧ s.base = s.base ∧ s.dead = s.dead ∧ (∀ e ∈ s.made, e ∈ s.made) ∧
    ((∃ w, (Res.exn e : Res Wrapper) = .ok w ∧ s.locate (p ++ [i]) = some w.addr ∧ (p ++ [i], w) ∈ s.made ∧ w.id ∉ s.dead) ∨
      ∃ e', (Res.exn e : Res Wrapper) = .exn e') := fun e => ⟨h, rfl, rfl, rfl, rfl, fun _ h => h, .inr ⟨e, rfl⟩⟩
  have find : ∀ wp, (p, wp) ∈ s.made → wp.id ∉ s.dead → look s.cache p = some wp := by
    intro wp hm hd
    rcases h.book.acc _ hm with hc | hd'
    · exact (find_key h.book.nodup).mpr hc
    · exact absurd hd' hd
  have locate_app : ∀ wp t, (p, wp) ∈ s.cache → typeAt s.ty p = some t →
      s.locate (p ++ [i]) = (partAddr s.vs p t wp.addr i) := by
    intro wp t hm ht
    have hl := h.current hm
    cases hpa : partAddr s.vs p t wp.addr i with
    | some b => exact locate_snoc hl ht (by rw [List.nil_append]; exact hpa)
    | none => exact locate_snoc_none hl ht (by rw [List.nil_append]; exact hpa)
  unfold get
  cases hp : look s.cache p with
  | none =>
    dsimp only
    obtain ⟨a, b, c, d, e, f, g⟩ := same .rbType
    refine ⟨a, b, c, d, e, f, g, fun wp hm hd _ => ?_⟩
    rw [find wp hm hd] at hp
    cases hp
  | some w =>
    have hw := (find_key h.book.nodup).mp hp
    obtain ⟨t, ht⟩ := h.typed _ p w rfl hw
    rw [ht]
    dsimp only
    have hla := locate_app w t hw ht
    cases hc : look s.cache (p ++ [i]) with
    | some c =>
      dsimp only
      have hcm := (find_key h.book.nodup).mp hc
      refine ⟨h, rfl, rfl, rfl, rfl, fun _ h => h, .inl ⟨c, rfl, h.current hcm, h.book.sub _ hcm, h.book.alive _ hcm⟩, fun _ _ _ _ => ⟨c, rfl⟩⟩
    | none =>
      dsimp only
      have grow : ∀ a, partAddr s.vs p t w.addr i = some a → _ := fun a ha => h.add hw ht ha hc
      have fresh : s.made.length ∉ s.dead := fun hd => Nat.lt_irrefl _ (h.book.deadlt _ hd)
      cases t with
      | leaf =>
        dsimp only
        obtain ⟨a, b, c, d, e, f, g⟩ := same .rbType
        refine ⟨a, b, c, d, e, f, g, fun wp hm hd hl => ?_⟩
        rw [hla] at hl
        cases hl
      | vec esz e =>
        dsimp only
        rw [readVec_ok (h.current hw)]
        dsimp only
        by_cases hi : i < (s.vs p).2
        · rw [if_pos hi]
          have ha : partAddr s.vs p (.vec esz e) w.addr i = some ((s.vs p).1 + i * esz) := by
            simp only [partAddr]; rw [if_pos hi]
          exact ⟨grow _ ha, rfl, rfl, rfl, rfl, fun e he => List.mem_cons_of_mem _ he,
            .inl ⟨_, rfl, hla.trans ha, List.mem_cons_self, fresh⟩, fun _ _ _ _ => ⟨_, rfl⟩⟩
        · rw [if_neg hi]
          obtain ⟨a, b, c, d, e', f, g⟩ := same .rbArg
          refine ⟨a, b, c, d, e', f, g, fun wp hm hd hl => ?_⟩
          rw [hla] at hl
          simp only [partAddr] at hl
          rw [if_neg hi] at hl
          cases hl
      | fixed ps =>
        dsimp only
        cases hq : ps[i]? with
        | none =>
          dsimp only
          obtain ⟨a, b, c, d, e', f, g⟩ := same .rbArg
          refine ⟨a, b, c, d, e', f, g, fun wp hm hd hl => ?_⟩
          rw [hla] at hl
          simp only [partAddr, hq] at hl
          cases hl
        | some q =>
          dsimp only
          have ha : partAddr s.vs p (.fixed ps) w.addr i = some (w.addr + q.1) := by
            simp only [partAddr, hq, Option.map_some]
          exact ⟨grow _ ha, rfl, rfl, rfl, rfl, fun e he => List.mem_cons_of_mem _ he,
            .inl ⟨_, rfl, hla.trans ha, List.mem_cons_self, fresh⟩, fun _ _ _ _ => ⟨_, rfl⟩⟩

/-! #### Invalidation -/

/-- while the containers at or below `op` are being settled, `D` are those that have been; `vs` is what the vectors held before,
the state has what they hold now -/
structure Mid (op : Path) (vs : Vecs) (D : List Path) (s : St) : Prop where
  book : Book s
  linked : ∀ q i w, (q ++ [i], w) ∈ s.cache → ∃ wp t, (q, wp) ∈ s.cache ∧ typeAt s.ty q = some t ∧
    partAddr vs q t wp.addr i = some w.addr ∧
    ((q ∈ D ∨ ¬ (isVec (some t) = true ∧ op <+: q)) → partAddr s.vs q t wp.addr i = some w.addr)

theorem Mid.current {op : Path} {vs : Vecs} {D : List Path} {s : St} (h : Mid op vs D s) {q : Path} {w : Wrapper}
    (hm : (q, w) ∈ s.cache)
    (hD : ∀ r, r <+: q → r.length < q.length → op <+: r → isVec (typeAt s.ty r) = true → (∃ wr, (r, wr) ∈ s.cache) → r ∈ D) :
    s.locate q = some w.addr := by
  refine RubyCache.current h.book q.length q w rfl hm (fun r i w' hm => ?_) (fun r i w' hp hm => ?_)
  · obtain ⟨wp, _, h1, _⟩ := h.linked r i w' hm
    exact ⟨wp, h1⟩
  · obtain ⟨wp, t, h1, h2, _, h4⟩ := h.linked r i w' hm
    refine ⟨wp, t, h1, h2, h4 ?_⟩
    by_cases hv : isVec (some t) = true ∧ op <+: r
    · left
      have hl : (r ++ [i]).length ≤ q.length := hp.length_le
      rw [List.length_append, List.length_singleton] at hl
      exact hD r ((List.prefix_append _ _).trans hp) (by omega) hv.2 (by rw [h2]; exact hv.1) ⟨wp, h1⟩
    · exact .inr hv

theorem mem_drop {f : Nat → Bool} {p : Path} {s : St} {e : Path × Wrapper} :
    e ∈ (drop f p s).cache ↔ e ∈ s.cache ∧ below f p e.1 = false := by
  unfold drop
  rw [List.mem_filter, Bool.not_eq_true']

theorem Mid.drop {op : Path} {vs : Vecs} {D : List Path} {s : St} (h : Mid op vs D s) (f : Nat → Bool) (q : Path)
    (hq : ∀ i w wp t, (q ++ [i], w) ∈ s.cache → (q, wp) ∈ s.cache → typeAt s.ty q = some t → f i = false →
      partAddr vs q t wp.addr i = some w.addr → partAddr s.vs q t wp.addr i = some w.addr) :
    Mid op vs (q :: D) (drop f q s) := by
  refine ⟨h.book.drop f q, fun r i w hm => ?_⟩
  obtain ⟨hc, hb⟩ := mem_drop.mp hm
  obtain ⟨wp, t, h1, h2, h3, h4⟩ := h.linked r i w hc
  refine ⟨wp, t, mem_drop.mpr ⟨h1, ?_⟩, h2, h3, fun hD => ?_⟩
  · refine Bool.eq_false_iff.mpr fun hb' => ?_
    rw [below_snoc hb'] at hb
    cases hb
  · by_cases e : r = q
    · subst e
      refine hq i w wp t hc h1 h2 ?_ h3
      refine Bool.eq_false_iff.mpr fun hf => ?_
      rw [show below f r (r ++ [i]) = true from below_iff.mpr ⟨i, [], rfl, hf⟩] at hb
      cases hb
    · refine h4 ?_
      rcases hD with hD | hD
      · rcases List.mem_cons.mp hD with h | h
        · exact absurd h e
        · exact .inl h
      · exact .inr hD

theorem Mid.prefix_closed {op : Path} {vs : Vecs} {D : List Path} {s : St} (h : Mid op vs D s) : ∀ (n : Nat) (q : Path) (w : Wrapper),
    q.length = n → (q, w) ∈ s.cache → ∀ r, r <+: q → ∃ wr, (r, wr) ∈ s.cache := by
  intro n
  induction n with
  | zero =>
    intro q w hq hm r hr
    have : q = [] := List.eq_nil_of_length_eq_zero hq
    subst this
    rw [List.prefix_nil.mp hr]
    exact ⟨w, hm⟩
  | succ n ih =>
    intro q w hq hm r hr
    obtain ⟨q', i, rfl⟩ : ∃ q' i, q = q' ++ [i] := by
      rcases List.eq_nil_or_concat q with rfl | ⟨r, i, rfl⟩
      · simp at hq
      · exact ⟨r, i, by simp⟩
    rcases List.prefix_concat_iff.mp hr with rfl | hr
    · exact ⟨w, hm⟩
    · obtain ⟨wp, _, h1, _⟩ := h.linked q' i w hm
      exact ih q' wp (by simpa using hq) h1 r hr

/-- settling one container -/
theorem settle_spec {op : Path} {vs : Vecs} {D : List Path} {s : St} (h : Mid op vs D s) (q : Path)
    (hv : isVec (typeAt s.ty q) = true)
    (hD : ∀ r, r <+: q → r.length < q.length → op <+: r → isVec (typeAt s.ty r) = true → (∃ wr, (r, wr) ∈ s.cache) → r ∈ D) :
    ∃ s', settle s q (memId (vs q)) = .ok s' ∧ Mid op vs (q :: D) s' ∧ s'.vs = s.vs ∧ s'.ty = s.ty ∧ s'.base = s.base ∧
      s'.made = s.made ∧
      ∀ e, e ∈ s'.cache ↔ e ∈ s.cache ∧ ∀ i r, e.1 = q ++ i :: r →
        (memId (vs q) = none ∨ memId (vs q) = memId (s.vs q)) ∧ i < (s.vs q).2 := by
  unfold settle
  cases hl : look s.cache q with
  | none =>
    have hno : ∀ w, (q, w) ∉ s.cache := by
      intro w hw
      rw [(find_key h.book.nodup).mpr hw] at hl
      cases hl
    refine ⟨s, rfl, ⟨h.book, fun r i w hm => ?_⟩, rfl, rfl, rfl, rfl, fun e => ⟨fun he => ⟨he, fun i r h1 => ?_⟩, And.left⟩⟩
    · obtain ⟨wp, t, h1, h2, h3, h4⟩ := h.linked r i w hm
      refine ⟨wp, t, h1, h2, h3, fun hD => h4 ?_⟩
      rcases hD with hD | hD
      · rcases List.mem_cons.mp hD with h | h
        · subst h; exact absurd h1 (hno wp)
        · exact .inl h
      · exact .inr hD
    · exfalso
      obtain ⟨wr, hr⟩ := Mid.prefix_closed h (e.1.length) e.1 e.2 rfl he q (by rw [h1]; exact List.prefix_append _ _)
      exact hno wr hr
  | some w =>
    have hm := (find_key h.book.nodup).mp hl
    dsimp only
    rw [readVec_ok (h.current hm hD), Res.bind_ok]
    by_cases hc : memId (vs q) ≠ none ∧ memId (vs q) ≠ memId (s.vs q)
    · rw [if_pos hc]
      refine ⟨_, rfl, h.drop _ q (fun i w wp t _ _ _ hf _ => by cases hf), rfl, rfl, rfl, rfl, fun e => ?_⟩
      rw [mem_drop]
      constructor
      · rintro ⟨h1, h2⟩
        refine ⟨h1, fun i r he => ?_⟩
        rw [below_iff.mpr ⟨i, r, he, rfl⟩] at h2
        cases h2
      · rintro ⟨h1, h2⟩
        refine ⟨h1, Bool.eq_false_iff.mpr fun hb => ?_⟩
        obtain ⟨i, r, he, _⟩ := below_iff.mp hb
        rcases (h2 i r he).1 with h | h
        · exact hc.1 h
        · exact hc.2 h
    · rw [if_neg hc]
      have hc' : memId (vs q) = none ∨ memId (vs q) = memId (s.vs q) := by
        by_cases h1 : memId (vs q) = none
        · exact .inl h1
        · exact .inr (Classical.byContradiction fun h2 => hc ⟨h1, h2⟩)
      refine ⟨_, rfl, h.drop _ q ?_, rfl, rfl, rfl, rfl, fun e => ?_⟩
      · intro i w' wp t _ _ ht hf hp
        rw [ht] at hv
        cases t with
        | leaf => cases hv
        | fixed => cases hv
        | vec esz e =>
          have hlt : i < (s.vs q).2 := by
            have := of_decide_eq_false hf
            omega
          simp only [partAddr] at hp ⊢
          split at hp
          · rename_i hi
            rw [if_pos hlt, ← hp]
            have e1 : memId (vs q) = some (vs q).1 := by unfold memId; rw [if_neg (by omega)]
            have e2 : memId (s.vs q) = some (s.vs q).1 := by unfold memId; rw [if_neg (by omega)]
            rcases hc' with h | h
            · rw [e1] at h; cases h
            · rw [e1, e2] at h
              rw [Option.some.inj h]
          · cases hp
      · rw [mem_drop]
        constructor
        · rintro ⟨h1, h2⟩
          refine ⟨h1, fun i r he => ⟨hc', ?_⟩⟩
          refine Nat.lt_of_not_le fun hle => ?_
          rw [below_iff.mpr ⟨i, r, he, decide_eq_true hle⟩] at h2
          cases h2
        · rintro ⟨h1, h2⟩
          refine ⟨h1, Bool.eq_false_iff.mpr fun hb => ?_⟩
          obtain ⟨i, r, he, hle⟩ := below_iff.mp hb
          have := (h2 i r he).2
          have := of_decide_eq_true hle
          omega

/-- settling the containers, the outer ones first -/
theorem settleAll_spec {op : Path} {vs : Vecs} : ∀ (qs D : List Path) (s : St), Mid op vs D s →
    qs.Pairwise (·.length ≤ ·.length) → (∀ q ∈ qs, isVec (typeAt s.ty q) = true) →
    (∀ r wr, (r, wr) ∈ s.cache → op <+: r → isVec (typeAt s.ty r) = true → r ∈ D ∨ r ∈ qs) →
    ∃ s', settleAll vs qs s = .ok s' ∧ Mid op vs (qs.reverse ++ D) s' ∧ s'.vs = s.vs ∧ s'.ty = s.ty ∧ s'.base = s.base ∧
      s'.made = s.made ∧
      ∀ e, e ∈ s'.cache ↔ e ∈ s.cache ∧ ∀ q ∈ qs, ∀ i r, e.1 = q ++ i :: r →
        (memId (vs q) = none ∨ memId (vs q) = memId (s.vs q)) ∧ i < (s.vs q).2 := by
  intro qs
  induction qs with
  | nil => intro D s h _ _ _; exact ⟨s, rfl, h, rfl, rfl, rfl, rfl, fun e => ⟨fun h => ⟨h, by simp⟩, And.left⟩⟩
  | cons q qs ih =>
    intro D s h hp hv hall
    rw [List.pairwise_cons] at hp
    obtain ⟨s1, h1, h2, h3, h4, h5, h6, h7⟩ := settle_spec h q (hv q List.mem_cons_self) (by
      intro r _ hlt hop hvr ⟨wr, hr⟩
      rcases hall r wr hr hop hvr with hD | hq
      · exact hD
      · exfalso
        rcases List.mem_cons.mp hq with rfl | hq
        · omega
        · have := hp.1 r hq; omega)
    obtain ⟨s', k1, k2, k3, k4, k5, k6, k7⟩ := ih (q :: D) s1 h2 hp.2
      (fun x hx => by rw [h4]; exact hv x (List.mem_cons_of_mem _ hx))
      (fun r wr hr hop hvr => by
        rw [h4] at hvr
        rcases hall r wr ((h7 _).mp hr).1 hop hvr with hD | hq
        · exact .inl (List.mem_cons_of_mem _ hD)
        · rcases List.mem_cons.mp hq with rfl | hq
          · exact .inl List.mem_cons_self
          · exact .inr hq)
    refine ⟨s', ?_, ?_, k3.trans h3, k4.trans h4, k5.trans h5, k6.trans h6, fun e => ?_⟩
    · rw [settleAll, h1, Res.bind_ok, k1]
    · rw [List.reverse_cons, List.append_assoc]
      exact k2
    · rw [k7, h7, h3]
      constructor
      · rintro ⟨⟨a, b⟩, c⟩
        refine ⟨a, fun x hx => ?_⟩
        rcases List.mem_cons.mp hx with rfl | hx
        · exact b
        · exact c x hx
      · rintro ⟨a, b⟩
        exact ⟨⟨a, b q List.mem_cons_self⟩, fun x hx => b x (List.mem_cons_of_mem _ hx)⟩

theorem mem_containers {s : St} {p q : Path} :
    q ∈ containers s p ↔ p <+: q ∧ isVec (typeAt s.ty q) = true ∧ ∃ w, (q, w) ∈ s.cache := by
  unfold containers
  rw [mem_sortLen, List.mem_map]
  constructor
  · rintro ⟨e, he, rfl⟩
    obtain ⟨h1, h2⟩ := List.mem_filter.mp he
    rw [Bool.and_eq_true, List.isPrefixOf_iff_prefix] at h2
    exact ⟨h2.1, h2.2, e.2, h1⟩
  · rintro ⟨h1, h2, w, hw⟩
    exact ⟨(q, w), List.mem_filter.mpr ⟨hw, by rw [Bool.and_eq_true, List.isPrefixOf_iff_prefix]; exact ⟨h1, h2⟩⟩, rfl⟩

theorem readAll_ok {s : St} (h : Inv s) : ∀ qs : List Path, (∀ q ∈ qs, ∃ w, (q, w) ∈ s.cache) → readAll s qs = .ok () := by
  intro qs
  induction qs with
  | nil => intro _; rfl
  | cons q qs ih =>
    intro hq
    obtain ⟨w, hw⟩ := hq q List.mem_cons_self
    rw [readAll, (find_key h.book.nodup).mpr hw]
    dsimp only
    rw [readVec_ok (h.current hw), Res.bind_ok]
    exact ih fun x hx => hq x (List.mem_cons_of_mem _ hx)

/-- an element that has an object exists -/
theorem Inv.vec_index {s : St} (h : Inv s) {q : Path} {i : Nat} {w : Wrapper} (hv : isVec (typeAt s.ty q) = true)
    (hm : (q ++ [i], w) ∈ s.cache) : i < (s.vs q).2 := by
  obtain ⟨wp, t, _, h2, h3⟩ := h.linked q i w hm
  rw [h2] at hv
  cases t with
  | leaf => cases hv
  | fixed => cases hv
  | vec esz e =>
    simp only [partAddr] at h3
    split at h3
    · assumption
    · cases h3

/-- an operation protected by `handle_invalidation`: no stale object is read; the state stays good; the objects that are still
there are those that no vector on their path has moved or lost -/
theorem mutate_spec {s : St} (h : Inv s) (p : Path) (vs' : Vecs) (hf : Frame p s.vs vs') :
    (∀ w, (p, w) ∈ s.cache → ∃ s', mutate s p vs' = .ok s' ∧ Inv s' ∧ s'.vs = vs' ∧ s'.ty = s.ty ∧ s'.base = s.base ∧
      s'.made = s.made ∧
      ∀ e, e ∈ s'.cache ↔ e ∈ s.cache ∧ ∀ q, p <+: q → isVec (typeAt s.ty q) = true → ∀ i r, e.1 = q ++ i :: r →
        (vs' q).1 = (s.vs q).1 ∧ i < (vs' q).2) ∧
    ((∀ w, (p, w) ∉ s.cache) → ∃ e, mutate s p vs' = .exn e) := by
  constructor
  · intro w hw
    have hmid : Mid p s.vs [] { s with vs := vs' } := by
      refine ⟨⟨h.book.nodup, h.book.root, h.book.acc, h.book.sub, h.book.ids, h.book.next, h.book.alive, h.book.deadlt⟩, ?_⟩
      intro q i w' hm
      obtain ⟨wp, t, h1, h2, h3⟩ := h.linked q i w' hm
      refine ⟨wp, t, h1, h2, h3, fun hD => ?_⟩
      rcases hD with hD | hD
      · cases hD
      · show partAddr vs' q t wp.addr i = some w'.addr
        rw [partAddr_congr (vs := s.vs), h3]
        intro hv
        exact hf q fun hpq => hD ⟨hv, hpq⟩
    obtain ⟨s', k1, k2, k3, k4, k5, k6, k7⟩ := settleAll_spec (op := p) (vs := s.vs) (containers s p) []
      { s with vs := vs' } hmid (sorted_sortLen _) (fun q hq => (mem_containers.mp hq).2.1)
      (fun r wr hr hop hvr => .inr (mem_containers.mpr ⟨hop, hvr, wr, hr⟩))
    refine ⟨s', ?_, ⟨k2.book, fun q i w' hm => ?_⟩, k3, k4, k5, k6, fun e => ?_⟩
    · unfold mutate
      rw [(find_key h.book.nodup).mpr hw]
      dsimp only
      rw [readAll_ok h _ (fun q hq => (mem_containers.mp hq).2.2), Res.bind_ok]
      exact k1
    · obtain ⟨wp, t, h1, h2, h3, h4⟩ := k2.linked q i w' hm
      refine ⟨wp, t, h1, h2, h4 ?_⟩
      by_cases hv : isVec (some t) = true ∧ p <+: q
      · left
        rw [List.append_nil, List.mem_reverse]
        refine mem_containers.mpr ⟨hv.2, ?_, wp, ((k7 _).mp h1).1⟩
        have h2' : typeAt s.ty q = some t := by rw [← h2, k4]
        rw [h2']
        exact hv.1
      · exact .inr hv
    · rw [k7]
      constructor
      · rintro ⟨a, b⟩
        refine ⟨a, fun q hpq hv i r he => ?_⟩
        obtain ⟨wq, hwq⟩ := hmid.prefix_closed _ e.1 e.2 rfl a q (by rw [he]; exact List.prefix_append _ _)
        obtain ⟨wi, hwi⟩ := hmid.prefix_closed _ e.1 e.2 rfl a (q ++ [i]) (by rw [he]; exact ⟨r, by simp⟩)
        obtain ⟨h1, h2⟩ := b q (mem_containers.mpr ⟨hpq, hv, wq, hwq⟩) i r he
        refine ⟨?_, h2⟩
        have h2' : i < (vs' q).2 := h2
        have hi := h.vec_index hv hwi
        have e1 : memId (s.vs q) = some (s.vs q).1 := by unfold memId; rw [if_neg (by omega)]
        have e2 : memId (vs' q) = some (vs' q).1 := by unfold memId; rw [if_neg (by omega)]
        rcases h1 with h1 | h1
        · rw [e1] at h1; cases h1
        · have h1' : memId (s.vs q) = memId (vs' q) := h1
          rw [e1, e2] at h1'
          exact (Option.some.inj h1').symm
      · rintro ⟨a, b⟩
        refine ⟨a, fun q hq i r he => ?_⟩
        obtain ⟨hpq, hv, _⟩ := mem_containers.mp hq
        obtain ⟨h1, h2⟩ := b q hpq hv i r he
        obtain ⟨wi, hwi⟩ := hmid.prefix_closed _ e.1 e.2 rfl a (q ++ [i]) (by rw [he]; exact ⟨r, by simp⟩)
        have hi := h.vec_index hv hwi
        refine ⟨.inr ?_, h2⟩
        show memId (s.vs q) = memId (vs' q)
        unfold memId
        rw [if_neg (by omega), if_neg (by omega), h1]
  · intro hno
    refine ⟨.rbType, ?_⟩
    unfold mutate
    cases hl : look s.cache p with
    | none => rfl
    | some w => exact absurd ((find_key h.book.nodup).mp hl) (hno w)

/-- `clear` -/
theorem clear_spec {s : St} (h : Inv s) (p : Path) (vs' : Vecs) (hf : Frame p s.vs vs') :
    (∀ w, (p, w) ∈ s.cache → isVec (typeAt s.ty p) = true → ∃ s', clear s p vs' = .ok s' ∧ Inv s' ∧ s'.vs = vs' ∧ s'.ty = s.ty ∧
      s'.base = s.base ∧ s'.made = s.made ∧ ∀ e, e ∈ s'.cache ↔ e ∈ s.cache ∧ ¬ ∃ i r, e.1 = p ++ i :: r) ∧
    (¬ (∃ w, (p, w) ∈ s.cache ∧ isVec (typeAt s.ty p) = true) → ∃ e, clear s p vs' = .exn e) := by
  constructor
  · intro w hw hv
    have hmem : ∀ e, e ∈ (drop (fun _ => true) p { s with vs := vs' }).cache ↔ e ∈ s.cache ∧ ¬ ∃ i r, e.1 = p ++ i :: r := by
      intro e
      rw [mem_drop]
      constructor
      · rintro ⟨a, b⟩
        refine ⟨a, fun ⟨i, r, he⟩ => ?_⟩
        rw [below_iff.mpr ⟨i, r, he, rfl⟩] at b
        cases b
      · rintro ⟨a, b⟩
        refine ⟨a, Bool.eq_false_iff.mpr fun hb => ?_⟩
        obtain ⟨i, r, he, _⟩ := below_iff.mp hb
        exact b ⟨i, r, he⟩
    refine ⟨drop (fun _ => true) p { s with vs := vs' }, ?_, ⟨?_, fun q i w' hm => ?_⟩, rfl, rfl, rfl, rfl, hmem⟩
    · unfold clear
      rw [(find_key h.book.nodup).mpr hw, hv]
    · refine Book.drop (s := { s with vs := vs' }) ?_ _ _
      exact ⟨h.book.nodup, h.book.root, h.book.acc, h.book.sub, h.book.ids, h.book.next, h.book.alive, h.book.deadlt⟩
    · obtain ⟨hc, hb⟩ := (hmem _).mp hm
      obtain ⟨wp, t, h1, h2, h3⟩ := h.linked q i w' hc
      have hq : ¬ p <+: q := by
        rintro ⟨r, rfl⟩
        apply hb
        cases r with
        | nil => exact ⟨i, [], by simp⟩
        | cons j r => exact ⟨j, r ++ [i], by simp⟩
      refine ⟨wp, t, (hmem _).mpr ⟨h1, fun ⟨j, r, he⟩ => hq ?_⟩, h2, ?_⟩
      · dsimp only at he
        rw [he]
        exact List.prefix_append _ _
      · show partAddr vs' q t wp.addr i = some w'.addr
        rw [partAddr_congr (vs := s.vs), h3]
        intro _
        exact hf q hq
  · intro hno
    refine ⟨.rbType, ?_⟩
    unfold clear
    cases hl : look s.cache p with
    | none => rfl
    | some w =>
      cases hv : isVec (typeAt s.ty p) with
      | false => rfl
      | true => exact absurd ⟨w, (find_key h.book.nodup).mp hl, hv⟩ hno

theorem step_spec {s : St} (h : Inv s) (o : Op) (ho : OkOp s o) :
    ∃ s', step s o = .ok s' ∧ Inv s' ∧ s'.ty = s.ty ∧ s'.base = s.base ∧ ∀ e ∈ s.made, e ∈ s'.made := by
  cases o with
  | get p i =>
    obtain ⟨a, _, b, c, _, d, e, _⟩ := get_spec h p i
    refine ⟨(get s p i).1, ?_, a, b, c, d⟩
    unfold step
    dsimp only
    generalize get s p i = g at e ⊢
    rcases g with ⟨g1, g2⟩
    rcases e with ⟨w, hw, _⟩ | ⟨e, he⟩
    · dsimp only at hw; subst hw; rfl
    · dsimp only at he; subst he; rfl
  | mutate p vs' =>
    by_cases hp : ∃ w, (p, w) ∈ s.cache
    · obtain ⟨w, hw⟩ := hp
      obtain ⟨s', k1, k2, _, k3, k4, k5, _⟩ := (mutate_spec h p vs' ho).1 w hw
      refine ⟨s', ?_, k2, k3, k4, fun e he => k5 ▸ he⟩
      unfold step
      dsimp only
      rw [k1]
    · obtain ⟨e, he⟩ := (mutate_spec h p vs' ho).2 fun w hw => hp ⟨w, hw⟩
      refine ⟨s, ?_, h, rfl, rfl, fun e he => he⟩
      unfold step
      dsimp only
      rw [he]
  | clear p vs' =>
    by_cases hp : ∃ w, (p, w) ∈ s.cache ∧ isVec (typeAt s.ty p) = true
    · obtain ⟨w, hw, hv⟩ := hp
      obtain ⟨s', k1, k2, _, k3, k4, k5, _⟩ := (clear_spec h p vs' ho).1 w hw hv
      refine ⟨s', ?_, k2, k3, k4, fun e he => k5 ▸ he⟩
      unfold step
      dsimp only
      rw [k1]
    · obtain ⟨e, he⟩ := (clear_spec h p vs' ho).2 hp
      refine ⟨s, ?_, h, rfl, rfl, fun e he => he⟩
      unfold step
      dsimp only
      rw [he]

theorem run_spec (os : List Op) : ∀ s : St, Inv s → OkRun s os → ∃ s', run s os = .ok s' ∧ Inv s' := by
  induction os with
  | nil => intro s h _; exact ⟨s, rfl, h⟩
  | cons o os ih =>
    intro s h ho
    obtain ⟨s1, h1, h2, _⟩ := step_spec h o ho.1
    obtain ⟨s', k1, k2⟩ := ih s1 h2 (ho.2 s1 h1)
    exact ⟨s', by rw [run, h1, Res.bind_ok, k1], k2⟩

theorem run_ty (os : List Op) : ∀ s s' : St, Inv s → OkRun s os → run s os = .ok s' → s'.ty = s.ty := by
  induction os with
  | nil => intro s s' _ _ h; cases h; rfl
  | cons o os ih =>
    intro s s' h ho hr
    obtain ⟨s1, h1, h2, h3, _⟩ := step_spec h o ho.1
    rw [run, h1, Res.bind_ok] at hr
    exact (ih s1 s' h2 (ho.2 s1 h1) hr).trans h3

/-! ### C55 -/

/-- **C55, histories**: whatever a program does with a value, its parts, and the operations that reallocate its containers, no
operation reads memory through an object that does not point to its part of the value, and every object that was ever obtained
and was not invalidated points to it. -/
theorem C55_live (ty : T) (base : Nat) (vs : Vecs) (os : List Op) (ho : OkRun (St.start ty base vs) os) :
    ∃ s, run (St.start ty base vs) os = .ok s ∧ Live s := by
  obtain ⟨s, h1, h2⟩ := run_spec os _ (inv_start ty base vs) ho
  exact ⟨s, h1, h2.live⟩

/-- **C55, access**: after any history, the access to a part through an object that was not invalidated gives an object that
points to that part, if there is such a part, and a Ruby exception otherwise. -/
theorem C55_get (ty : T) (base : Nat) (vs : Vecs) (os : List Op) (ho : OkRun (St.start ty base vs) os) (s : St)
    (hr : run (St.start ty base vs) os = .ok s) (p : Path) (i : Nat) (wp : Wrapper) (hm : (p, wp) ∈ s.made)
    (hd : wp.id ∉ s.dead) :
    (∀ a, s.locate (p ++ [i]) = some a → ∃ w, (get s p i).2 = .ok w ∧ w.addr = a) ∧
    (s.locate (p ++ [i]) = none → ∃ e, (get s p i).2 = .exn e) := by
  obtain ⟨s', h1, h⟩ := run_spec os _ (inv_start ty base vs) ho
  rw [hr] at h1
  cases h1
  obtain ⟨_, _, _, _, _, _, e, f⟩ := get_spec h p i
  constructor
  · intro a ha
    obtain ⟨w, hw⟩ := f wp hm hd (by rw [ha]; rfl)
    refine ⟨w, hw, ?_⟩
    rcases e with ⟨w', hw', hl, _⟩ | ⟨e, he⟩
    · rw [hw] at hw'
      cases hw'
      rw [ha] at hl
      exact (Option.some.inj hl).symm
    · rw [hw] at he; cases he
  · intro hn
    rcases e with ⟨w, _, hl, _⟩ | he
    · rw [hn] at hl; cases hl
    · exact he

/-- **C55, nothing is invalidated needlessly**: an operation on the part at `p` leaves the object of the part at `q` valid exactly
if no vector at or below `p` that contains it was reallocated or lost that element. -/
theorem C55_kept (ty : T) (base : Nat) (vs : Vecs) (os : List Op) (ho : OkRun (St.start ty base vs) os) (s : St)
    (hr : run (St.start ty base vs) os = .ok s) (p : Path) (vs' : Vecs) (hf : Frame p s.vs vs') (wp : Wrapper)
    (hm : (p, wp) ∈ s.made) (hd : wp.id ∉ s.dead) :
    ∃ s', mutate s p vs' = .ok s' ∧ s'.vs = vs' ∧ ∀ q w, (q, w) ∈ s.made → w.id ∉ s.dead →
      (w.id ∉ s'.dead ↔ ∀ r, p <+: r → isVec (typeAt ty r) = true → ∀ i rest, q = r ++ i :: rest →
        (vs' r).1 = (s.vs r).1 ∧ i < (vs' r).2) := by
  obtain ⟨s1, h1, h⟩ := run_spec os _ (inv_start ty base vs) ho
  rw [hr] at h1
  cases h1
  have hty := run_ty os _ _ (inv_start ty base vs) ho hr
  have inCache : ∀ e ∈ s.made, e.2.id ∉ s.dead → e ∈ s.cache := by
    intro e he hd
    rcases h.book.acc e he with hc | hd'
    · exact hc
    · exact absurd hd' hd
  obtain ⟨s', k1, k2, k3, _, _, k6, k7⟩ := (mutate_spec h p vs' hf).1 wp (inCache _ hm hd)
  refine ⟨s', k1, k3, fun q w hq hw => ?_⟩
  have hc := inCache _ hq hw
  have : w.id ∉ s'.dead ↔ (q, w) ∈ s'.cache := by
    constructor
    · intro hn
      rcases k2.book.acc (q, w) (k6 ▸ hq) with hc | hd'
      · exact hc
      · exact absurd hd' hn
    · exact fun hc => k2.book.alive (q, w) hc
  rw [this, k7, hty]
  exact ⟨fun ⟨_, b⟩ => b, fun b => ⟨hc, b⟩⟩

/-! ### Examples, and where the property fails -/

/-- a `std::vector<std::vector<int>>`: one element, of three -/
def vv : T := .vec 24 (.vec 4 .leaf)
def vv0 : Vecs := fun p => if p = [] then (1000, 1) else if p = [0] then (2000, 3) else (0, 0)
/-- after a push that moved the outer vector (the inner one keeps its buffer) -/
def vv1 : Vecs := fun p => if p = [] then (4000, 2) else if p = [0] then (2000, 3) else (0, 0)
/-- after the inner vector was assigned, and moved -/
def vv2 : Vecs := fun p => if p = [] then (1000, 1) else if p = [0] then (5000, 3) else (0, 0)
/-- after the inner vector lost its last two elements -/
def vv3 : Vecs := fun p => if p = [] then (1000, 1) else if p = [0] then (2000, 1) else (0, 0)

/-- the objects of the inner vector and of its first and third elements -/
def looked : List Op := [.get [] 0, .get [0] 0, .get [0] 2]

example : OkRun (St.start vv 500 vv0) (looked ++ [.mutate [0] vv3, .get [0] 0, .mutate [] vv1]) := by
  refine ⟨trivial, fun s1 h1 => ⟨trivial, fun s2 h2 => ⟨trivial, fun s3 h3 => ⟨?_, fun s4 h4 => ⟨trivial, fun s5 h5 => ⟨?_, fun _ _ => trivial⟩⟩⟩⟩⟩⟩
  · obtain rfl := Res.ok.inj h1
    obtain rfl := Res.ok.inj h2
    obtain rfl := Res.ok.inj h3
    intro q hq
    show vv3 q = vv0 q
    unfold vv0 vv3
    split
    · rfl
    · split
      · rename_i h; subst h; exact absurd (List.prefix_refl _) hq
      · rfl
  · intro q hq
    exact absurd List.nil_prefix hq

/-- the state after `looked` -/
def lookedSt : St := ⟨vv, 500, vv0, [([0, 2], ⟨3, 2008⟩), ([0, 0], ⟨2, 2000⟩), ([0], ⟨1, 1000⟩), ([], ⟨0, 500⟩)],
  [([0, 2], ⟨3, 2008⟩), ([0, 0], ⟨2, 2000⟩), ([0], ⟨1, 1000⟩), ([], ⟨0, 500⟩)], []⟩

example : run (St.start vv 500 vv0) looked = .ok lookedSt := rfl
/-- shrinking the inner vector invalidates the third element only -/
example : ∃ s, mutate lookedSt [0] vv3 = .ok s ∧ s.dead = [3] ∧ s.cache.map (·.1) = [[0, 0], [0], []] := ⟨_, rfl, rfl, rfl⟩
/-- moving the outer vector invalidates everything in it -/
example : ∃ s, mutate lookedSt [] vv1 = .ok s ∧ s.dead = [3, 2, 1] := ⟨_, rfl, rfl⟩

/-- `RandomAccessContainer#raw_set` (container_type.rb:138-144) and `raw_memcpy` (specialized_types.cc:619-646) change the
container without `handle_invalidation` -/
def unprotected (s : St) (vs' : Vecs) : St := { s with vs := vs' }

/-- **C55 fails for `container[i] = v`**: the element is copied over without `handle_invalidation`; when it is itself a container
that the copy reallocates, the objects of its elements point to freed memory and are not invalidated. -/
theorem C55_set_counterexample :
    ∃ s, run (St.start vv 500 vv0) looked = .ok s ∧ Frame [0] s.vs vv2 ∧ ¬ Live (unprotected s vv2) := by
  refine ⟨lookedSt, rfl, ?_, fun h => ?_⟩
  · intro q hq
    show vv2 q = vv0 q
    unfold vv0 vv2
    split
    · rfl
    · split
      · rename_i h; subst h; exact absurd (List.prefix_refl _) hq
      · rfl
  · have := h [0, 0] ⟨2, 2000⟩ (by simp [unprotected, lookedSt]) (by simp [unprotected, lookedSt])
    revert this
    decide

/-- **C55 fails for strings**: `contained_memory_id` is defined for `/std/vector` only (container_type.rb:254-255), and is nil for
other containers: the objects of the characters of a `std::string` (`raw_each`) survive its reallocation. -/
theorem C55_string_counterexample :
    ∃ (s : St) (vs' : Vecs) (s' : St), Inv s ∧ settle { s with vs := vs' } [] none = .ok s' ∧ ¬ Live s' := by
  have hv : Inv ⟨.vec 1 .leaf, 500, fun _ => (2000, 3), [([0], ⟨1, 2000⟩), ([], ⟨0, 500⟩)],
      [([0], ⟨1, 2000⟩), ([], ⟨0, 500⟩)], []⟩ := by
    obtain ⟨s, h1, h2⟩ := run_spec [.get [] 0] _ (inv_start (.vec 1 .leaf) 500 (fun _ => (2000, 3))) ⟨trivial, fun _ _ => trivial⟩
    have : run (St.start (.vec 1 .leaf) 500 fun _ => (2000, 3)) [.get [] 0] = .ok ⟨.vec 1 .leaf, 500, fun _ => (2000, 3),
      [([0], ⟨1, 2000⟩), ([], ⟨0, 500⟩)], [([0], ⟨1, 2000⟩), ([], ⟨0, 500⟩)], []⟩ := rfl
    rw [this] at h1
    cases h1
    exact h2
  refine ⟨_, fun _ => (6000, 4), _, hv, rfl, fun h => ?_⟩
  have := h [0] ⟨1, 2000⟩ (by decide) (by decide)
  revert this
  decide

/-- the object that `delete_if` passes to its block (specialized_types.cc:575-579): made anew, and not cached -/
def yielded (s : St) (p : Path) (i a : Nat) : St :=
  { s with made := (p ++ [i], ⟨s.made.length, a⟩) :: s.made }

/-- **C55 fails for `delete_if`**: an object kept by the block is not invalidated by the operation that moves the elements. -/
theorem C55_delete_if_counterexample :
    ∃ s s', run (St.start vv 500 vv0) [] = .ok s ∧ s.locate [0] = some 1000 ∧
      mutate (yielded s [] 0 1000) [] vv1 = .ok s' ∧ ¬ Live s' := by
  refine ⟨_, _, rfl, rfl, rfl, fun h => ?_⟩
  have := h [0] ⟨1, 1000⟩ (by decide) (by decide)
  revert this
  decide

/-- **C55 needs the outer containers first**: settling the inner container first reads it through an object that points to the
old buffer of the outer one. -/
theorem C55_order_counterexample :
    ∃ s, run (St.start vv 500 vv0) looked = .ok s ∧ settleAll s.vs (containers s []).reverse { s with vs := vv1 } = .ub ∧
      ∃ s', settleAll s.vs (containers s []) { s with vs := vv1 } = .ok s' := ⟨lookedSt, rfl, rfl, _, rfl⟩

/-! ### The theorems on concrete cases -/

theorem looked_ok : OkRun (St.start vv 500 vv0) looked :=
  ⟨trivial, fun _ _ => ⟨trivial, fun _ _ => ⟨trivial, fun _ _ => trivial⟩⟩⟩

example := C55_live vv 500 vv0 looked looked_ok

example := C55_get vv 500 vv0 looked looked_ok lookedSt rfl [0] 2 ⟨1, 1000⟩ (by decide) (by decide)

/-- the inner vector shrinks -/
example := C55_kept vv 500 vv0 looked looked_ok lookedSt rfl [0] vv3 (by
    intro q hq
    show vv3 q = vv0 q
    unfold vv0 vv3
    split
    · rfl
    · split
      · rename_i h; subst h; exact absurd (List.prefix_refl _) hq
      · rfl) ⟨1, 1000⟩ (by decide) (by decide)

end Verif.RubyCache
