import Verif.Visitor

/-! C42: visiting a value. -/

namespace Verif.Visitor
open Verif Verif.Graph

variable {σ : Type}

/-- **C42** (every leaf once, in order, at its address). If no method of the visitor asks to stop, a visit that
completes has called the visitor on every leaf of the value, each exactly once, in the order of the definitions,
with its address and type, and on nothing else. -/
theorem C42_visits (H : Heap) (m : Mem) (V : Visitor σ) (fuel a : Nat) (t : TId) (s s' : σ)
    (hV : ∀ a t s, (V.leaf a t s).1 = true) (hf : V.field = none) (h : apply H m V fuel a t s = .ok s') :
    ∃ ps, Leaves H m (a, t) ps ∧ s' = (ps.map Prod.snd).foldl (fun s l => (V.leaf l.1 l.2 s).2) s := by
  rw [apply, Res.bind_eq_ok] at h
  rcases h with ⟨r, hr, h⟩
  cases h
  obtain ⟨_, h2, h3⟩ := visit_spec hV hf _ _ _ _ _ hr
  exact ⟨_, h3, h2⟩

/-- The visitor that records what it is called on. -/
def recorder : Visitor (List Loc) := ⟨fun a t s => (true, s ++ [(a, t)]), none⟩

theorem foldl_recorder : ∀ (ls acc : List Loc),
    ls.foldl (fun s l => (recorder.leaf l.1 l.2 s).2) acc = acc ++ ls
  | [], acc => by simp
  | l :: ls, acc => by
    rw [List.foldl_cons, foldl_recorder ls]
    simp [recorder]

theorem before_irrefl (p : List Step) : ¬ Before p p := by
  rintro ⟨c, s, t, p', q', h1, h2, h⟩
  rw [h1] at h2
  have := List.append_cancel_left h2
  cases this
  exact Nat.lt_irrefl _ h

/-- **C42** for the recording visitor: the calls are the leaves; the paths are pairwise different. -/
theorem C42_calls (H : Heap) (m : Mem) (fuel a : Nat) (t : TId) (calls : List Loc)
    (h : apply H m recorder fuel a t [] = .ok calls) :
    ∃ ps : List (List Step), ps.Nodup ∧ ps.Pairwise Before ∧
      ps.map (follow H m (a, t)) = calls.map some ∧
      ∀ p, p ∈ ps ↔ ∃ l, follow H m (a, t) p = some l ∧ IsLeaf H l := by
  obtain ⟨ps, hl, h2⟩ := C42_visits H m recorder fuel a t [] calls (fun _ _ _ => rfl) rfl h
  rw [foldl_recorder] at h2
  refine ⟨ps.map Prod.fst, ?_, hl.ordered, ?_, ?_⟩
  · refine hl.ordered.imp ?_
    intro p q hb he
    subst he
    exact before_irrefl _ hb
  · rw [h2, List.nil_append, List.map_map, List.map_map]
    apply List.map_congr_left
    intro x hx
    exact ((hl.complete x.1 x.2).mp hx).1
  · intro p
    constructor
    · intro hp
      rcases List.mem_map.mp hp with ⟨x, hx, rfl⟩
      exact ⟨x.2, (hl.complete x.1 x.2).mp hx⟩
    · rintro ⟨l, h⟩
      exact List.mem_map.mpr ⟨(p, l), (hl.complete p l).mpr h, rfl⟩

/-! ### The visit completes -/

/-- Nothing on the way stops the traversal: no null type, only numeric types of the supported sizes, no container
of elements of size 0, no null pointer. -/
def Passable (H : Heap) (m : Mem) (l : Loc) : Prop :=
  match H.kind l.2 with
  | .null => False
  | .num c => numSupported c (H.size l.2) = true
  | .vec e => H.size e ≠ 0
  | .ptr _ => m.ptr l.1 ≠ 0
  | _ => True

theorem brkLoop_ok {rec : Nat → σ → Res (Bool × σ)} : ∀ (as : List Nat) (s : σ),
    (∀ b ∈ as, ∀ s, ∃ r, rec b s = .ok r) → ∃ s', brkLoop rec as s = .ok s'
  | [], s, _ => ⟨s, rfl⟩
  | b :: as, s, h => by
    obtain ⟨r, hr⟩ := h b (by simp) s
    rw [brkLoop, hr, Res.bind_ok]
    split
    · exact brkLoop_ok as r.2 (fun b hb => h b (by simp [hb]))
    · exact ⟨_, rfl⟩

theorem allLoop_ok {rec : Nat → σ → Res (Bool × σ)} : ∀ (as : List Nat) (s : σ),
    (∀ b ∈ as, ∀ s, ∃ r, rec b s = .ok r) → ∃ s', allLoop rec as s = .ok s'
  | [], s, _ => ⟨s, rfl⟩
  | b :: as, s, h => by
    obtain ⟨r, hr⟩ := h b (by simp) s
    rw [allLoop, hr, Res.bind_ok]
    exact allLoop_ok as r.2 (fun b hb => h b (by simp [hb]))

theorem fieldLoop_ok {rec : Nat → FieldD → σ → Res (Bool × σ)} (a : Nat) : ∀ (fs : List FieldD) (s : σ),
    (∀ fd ∈ fs, ∀ s, ∃ r, rec (a + fd.offset) fd s = .ok r) → ∃ r, fieldLoop rec a fs s = .ok r
  | [], s, _ => ⟨_, rfl⟩
  | fd :: fs, s, h => by
    obtain ⟨r, hr⟩ := h fd (by simp) s
    rw [fieldLoop, hr, Res.bind_ok]
    split
    · exact fieldLoop_ok a fs r.2 (fun b hb => h b (by simp [hb]))
    · exact ⟨_, rfl⟩

theorem follow_step {H : Heap} {m : Mem} {l k : Loc} {st : Step} (h : stepTo H m l st = some k) (p : List Step) :
    follow H m l (st :: p) = follow H m k p := by
  rw [follow, h]; rfl

theorem visit_ok {H : Heap} {m : Mem} {V : Visitor σ} {rank : TId → Nat}
    (hr : ∀ u x, x ∈ H.deps u → rank x < rank u) :
    ∀ f a t s, rank t < f → (∀ p l, follow H m (a, t) p = some l → Passable H m l) →
      ∃ r, visit H m V f a t s = .ok r := by
  intro f
  induction f with
  | zero => intro a t s h; omega
  | succ f ih =>
    intro a t s hlt hp
    have h0 := hp [] (a, t) rfl
    have hdep : ∀ x, x ∈ H.deps t → rank x < f := fun x hx => Nat.lt_of_lt_of_le (hr t x hx) (Nat.lt_succ_iff.mp hlt)
    have hkid : ∀ st (b : Nat) x, stepTo H m (a, t) st = some (b, x) → x ∈ H.deps t →
        ∀ s, ∃ r, visit H m V f b x s = .ok r := by
      intro st b x hst hx s
      exact ih b x s (hdep x hx) (fun p l hl => hp (st :: p) l (by rw [follow_step hst]; exact hl))
    rw [visit]
    unfold Passable at h0
    unfold Heap.deps at hkid
    cases hk : H.kind t with
    | null => simp only [hk] at h0
    | «opaque» => exact ⟨_, rfl⟩
    | «enum» c => exact ⟨_, rfl⟩
    | num c =>
      simp only [hk] at h0
      simp only [h0, if_true]
      exact ⟨_, rfl⟩
    | ptr e =>
      simp only [hk] at h0
      simp only [if_neg h0]
      exact hkid .deref _ e (by unfold stepTo; simp only [hk]) (by rw [hk]; simp [Kind.deps, Kind.elem?]) s
    | arr d e =>
      obtain ⟨s', hs'⟩ := brkLoop_ok (rec := fun b => visit H m V f b e) (elems a (H.size e) d) s (by
        intro b hb s
        unfold elems at hb
        rcases List.mem_map.mp hb with ⟨i, hi, rfl⟩
        exact hkid (.idx i) _ e (by unfold stepTo; simp only [hk]; rw [if_pos (List.mem_range.mp hi)])
          (by rw [hk]; simp [Kind.deps, Kind.elem?]) s)
      simp only [hs', Res.bind_ok]
      exact ⟨_, rfl⟩
    | vec e =>
      simp only [hk] at h0
      obtain ⟨s', hs'⟩ := allLoop_ok (rec := fun b => visit H m V f b e)
          (elems (m.vec a).1 (H.size e) ((m.vec a).2 / H.size e)) s (by
        intro b hb s
        unfold elems at hb
        rcases List.mem_map.mp hb with ⟨i, hi, rfl⟩
        exact hkid (.elem i) _ e (by unfold stepTo; simp only [hk]; rw [if_pos (List.mem_range.mp hi)])
          (by rw [hk]; simp [Kind.deps, Kind.elem?]) s)
      simp only [if_neg h0, hs', Res.bind_ok]
      exact ⟨_, rfl⟩
    | str e =>
      obtain ⟨s', hs'⟩ := allLoop_ok (rec := fun b => visit H m V f b e) (elems (m.str a).1 1 (m.str a).2) s (by
        intro b hb s
        unfold elems at hb
        rcases List.mem_map.mp hb with ⟨i, hi, rfl⟩
        exact hkid (.elem i) _ e
          (by unfold stepTo; simp only [hk]; rw [if_pos (List.mem_range.mp hi), Nat.mul_one])
          (by rw [hk]; simp [Kind.deps, Kind.elem?]) s)
      simp only [hs', Res.bind_ok]
      exact ⟨_, rfl⟩
    | comp fs =>
      dsimp only
      refine fieldLoop_ok a fs s ?_
      intro fd hfd s
      unfold fieldRec
      cases hvf : V.field with
      | some g => exact ⟨_, rfl⟩
      | none =>
        dsimp only
        obtain ⟨i, hi⟩ := List.getElem?_of_mem hfd
        exact hkid (.field i) _ fd.ty (by unfold stepTo; simp only [hk]; rw [hi]; rfl)
          (by rw [hk]; exact List.mem_map.mpr ⟨fd, hfd, rfl⟩) s

/-- **C42** (the visit completes). If no type contains itself, nothing reachable from the value is a null type, a
numeric type of an unsupported size, a container of empty elements or a null pointer, the visit completes, whatever
the visitor does. -/
theorem C42_completes (H : Heap) (m : Mem) (V : Visitor σ) (rank : TId → Nat) (a : Nat) (t : TId) (s : σ)
    (hr : ∀ u x, x ∈ H.deps u → rank x < rank u)
    (hp : ∀ p l, follow H m (a, t) p = some l → Passable H m l) :
    ∃ fuel s', apply H m V fuel a t s = .ok s' := by
  obtain ⟨r, h⟩ := visit_ok (V := V) hr (rank t + 1) a t s (Nat.lt_succ_self _) hp
  exact ⟨rank t + 1, r.2, by rw [apply, h, Res.bind_ok]⟩

theorem visit_passable {H : Heap} {m : Mem} {V : Visitor σ} (hV : ∀ a t s, (V.leaf a t s).1 = true) (hf : V.field = none) :
    ∀ f a t s r, visit H m V f a t s = .ok r → ∀ p l, follow H m (a, t) p = some l → Passable H m l := by
  intro f
  induction f with
  | zero => intro a t s r h; cases h
  | succ f ih =>
    intro a t s r h p l hp
    have hrec : ∀ e b s r, visit H m V f b e s = .ok r → r.1 = true ∧ r.2 = runLeaves V ((leaves H m f (b, e)).map Prod.snd) s ∧
        ∀ p l, follow H m (b, e) p = some l → Passable H m l := fun e b s r hr =>
      ⟨(visit_spec hV hf _ _ _ _ _ hr).1, (visit_spec hV hf _ _ _ _ _ hr).2.1, ih _ _ _ _ hr⟩
    rw [visit] at h
    have key : Passable H m (a, t) → (∀ k ∈ kids H m (a, t), ∀ p l, follow H m k.2 p = some l → Passable H m l) →
        Passable H m l := by
      intro h0 h1
      cases p with
      | nil => cases hp; exact h0
      | cons st p =>
        rw [follow] at hp
        rcases hs : stepTo H m (a, t) st with _ | x
        · rw [hs] at hp; cases hp
        · rw [hs] at hp
          exact h1 (st, x) ((kids_iff H m (a, t) st x).mpr hs) p l hp
    cases hk : H.kind t with
    | null => rw [hk] at h; cases h
    | «opaque» =>
      exact key (by unfold Passable; simp only [hk]) (by intro k hk'; simp only [kids, hk] at hk'; cases hk')
    | «enum» c =>
      exact key (by unfold Passable; simp only [hk]) (by intro k hk'; simp only [kids, hk] at hk'; cases hk')
    | num c =>
      rw [hk] at h
      dsimp only at h
      split at h
      · rename_i hn
        exact key (by unfold Passable; simp only [hk]; exact hn) (by intro k hk'; simp only [kids, hk] at hk'; cases hk')
      · cases h
    | ptr e =>
      rw [hk] at h
      dsimp only at h
      split at h
      · cases h
      · rename_i hn
        refine key (by unfold Passable; simp only [hk]; exact hn) ?_
        intro k hk'
        simp only [kids, hk, List.mem_singleton] at hk'
        rw [hk']; exact ih _ _ _ _ h
    | arr d e =>
      rw [hk] at h
      dsimp only at h
      rw [Res.bind_eq_ok] at h
      rcases h with ⟨s', hs', h⟩
      obtain ⟨_, h2⟩ := brkLoop_spec (V := V) (P := fun b => ∀ p l, follow H m (b, e) p = some l → Passable H m l)
        (g := fun b => (leaves H m f (b, e)).map Prod.snd) (hrec e) _ _ _ hs'
      refine key (by unfold Passable; simp only [hk]) ?_
      intro k hk'
      simp only [kids, hk, List.mem_map] at hk'
      rcases hk' with ⟨i, hi, rfl⟩
      exact h2 _ (List.mem_map.mpr ⟨i, hi, rfl⟩)
    | vec e =>
      rw [hk] at h
      dsimp only at h
      split at h
      · cases h
      rename_i hn
      rw [Res.bind_eq_ok] at h
      rcases h with ⟨s', hs', h⟩
      obtain ⟨_, h2⟩ := allLoop_spec (V := V) (P := fun b => ∀ p l, follow H m (b, e) p = some l → Passable H m l)
        (g := fun b => (leaves H m f (b, e)).map Prod.snd) (hrec e) _ _ _ hs'
      refine key (by unfold Passable; simp only [hk]; exact hn) ?_
      intro k hk'
      simp only [kids, hk, List.mem_map] at hk'
      rcases hk' with ⟨i, hi, rfl⟩
      exact h2 _ (List.mem_map.mpr ⟨i, hi, rfl⟩)
    | str e =>
      rw [hk] at h
      dsimp only at h
      rw [Res.bind_eq_ok] at h
      rcases h with ⟨s', hs', h⟩
      obtain ⟨_, h2⟩ := allLoop_spec (V := V) (P := fun b => ∀ p l, follow H m (b, e) p = some l → Passable H m l)
        (g := fun b => (leaves H m f (b, e)).map Prod.snd) (hrec e) _ _ _ hs'
      refine key (by unfold Passable; simp only [hk]) ?_
      intro k hk'
      simp only [kids, hk, List.mem_map] at hk'
      rcases hk' with ⟨i, hi, rfl⟩
      exact h2 _ (List.mem_map.mpr ⟨i, hi, by rw [Nat.mul_one]⟩)
    | comp fs =>
      rw [hk] at h
      dsimp only at h
      obtain ⟨_, _, h3⟩ := fieldLoop_spec (V := V) a
        (P := fun b e => ∀ p l, follow H m (b, e) p = some l → Passable H m l)
        (g := fun b e => (leaves H m f (b, e)).map Prod.snd)
        (fun b fd s r hr => hrec fd.ty b s r (by unfold fieldRec at hr; rw [hf] at hr; exact hr)) _ _ _ h
      refine key (by unfold Passable; simp only [hk]) ?_
      intro k hk'
      simp only [kids, hk, List.mem_map] at hk'
      rcases hk' with ⟨x, hx, rfl⟩
      exact h3 x.1 (List.fst_mem_of_mem_zipIdx hx)

/-- **C42** (and only then): a visit that is not cut short by the visitor completes only if nothing reachable from
the value stops it. -/
theorem C42_completes_only (H : Heap) (m : Mem) (V : Visitor σ) (fuel a : Nat) (t : TId) (s s' : σ)
    (hV : ∀ a t s, (V.leaf a t s).1 = true) (hf : V.field = none) (h : apply H m V fuel a t s = .ok s') :
    ∀ p l, follow H m (a, t) p = some l → Passable H m l := by
  rw [apply, Res.bind_eq_ok] at h
  rcases h with ⟨r, hr, _⟩
  exact visit_passable hV hf _ _ _ _ _ hr

/-! ### Inside the value -/

/-- Definitions whose fields and elements fit. -/
structure Fits (H : Heap) : Prop where
  comp : ∀ t fs, H.kind t = .comp fs → ∀ f ∈ fs, f.offset + H.size f.ty ≤ H.size t
  arr : ∀ t d e, H.kind t = .arr d e → d * H.size e ≤ H.size t

/-- the step stays in the memory of the value itself -/
def Step.inner : Step → Bool
  | .field _ => true
  | .idx _ => true
  | _ => false

theorem step_inside {H : Heap} {m : Mem} (hF : Fits H) {l k : Loc} {st : Step} (hi : st.inner = true)
    (h : stepTo H m l st = some k) : l.1 ≤ k.1 ∧ k.1 + H.size k.2 ≤ l.1 + H.size l.2 := by
  unfold stepTo at h
  cases st with
  | elem i => cases hi
  | deref => cases hi
  | field i =>
    cases hk : H.kind l.2 with
    | comp fs =>
      rw [hk] at h
      simp only [Option.map_eq_some_iff] at h
      rcases h with ⟨f, hf, rfl⟩
      have := hF.comp l.2 fs hk f (List.mem_of_getElem? hf)
      exact ⟨Nat.le_add_right _ _, by show l.1 + f.offset + H.size f.ty ≤ _; omega⟩
    | _ => rw [hk] at h; cases h
  | idx i =>
    cases hk : H.kind l.2 with
    | arr d e =>
      rw [hk] at h
      simp only at h
      split at h
      · rename_i hlt
        cases h
        have h1 := hF.arr l.2 d e hk
        have h2 : (i + 1) * H.size e ≤ d * H.size e := Nat.mul_le_mul_right _ hlt
        rw [Nat.add_mul, Nat.one_mul] at h2
        exact ⟨Nat.le_add_right _ _, by show l.1 + i * H.size e + H.size e ≤ _; omega⟩
      · cases h
    | _ => rw [hk] at h; cases h

/-- **C42** (inside the value). Everything reached from a value through fields and array elements lies within the
memory of that value, if the definitions fit. -/
theorem C42_inside (H : Heap) (m : Mem) (hF : Fits H) : ∀ (p : List Step) (l k : Loc),
    (∀ st ∈ p, st.inner = true) → follow H m l p = some k →
    l.1 ≤ k.1 ∧ k.1 + H.size k.2 ≤ l.1 + H.size l.2
  | [], l, k, _, h => by cases h; exact ⟨Nat.le_refl _, Nat.le_refl _⟩
  | st :: p, l, k, hi, h => by
    rw [follow] at h
    rcases hs : stepTo H m l st with _ | x
    · rw [hs] at h; cases h
    · rw [hs] at h
      have h1 := step_inside hF (hi st (by simp)) hs
      have h2 := C42_inside H m hF p x k (fun s hs => hi s (by simp [hs])) h
      omega

/-- **C42** (inside the buffer of a container): an element of a vector lies within the bytes of the vector, an
element of a string within the string (whose characters are one byte). -/
theorem C42_element_inside (H : Heap) (m : Mem) (l k : Loc) (i : Nat) (h : stepTo H m l (.elem i) = some k) :
    (∃ e, H.kind l.2 = .vec e ∧ (m.vec l.1).1 ≤ k.1 ∧ k.1 + H.size k.2 ≤ (m.vec l.1).1 + (m.vec l.1).2) ∨
    (∃ e, H.kind l.2 = .str e ∧ (m.str l.1).1 ≤ k.1 ∧
      (H.size e = 1 → k.1 + H.size k.2 ≤ (m.str l.1).1 + (m.str l.1).2)) := by
  unfold stepTo at h
  cases hk : H.kind l.2 with
  | vec e =>
    left
    rw [hk] at h
    simp only at h
    split at h
    · rename_i hlt
      cases h
      refine ⟨e, rfl, Nat.le_add_right _ _, ?_⟩
      have h1 : (m.vec l.1).2 / H.size e * H.size e ≤ (m.vec l.1).2 := Nat.div_mul_le_self _ _
      have h2 : (i + 1) * H.size e ≤ (m.vec l.1).2 / H.size e * H.size e := Nat.mul_le_mul_right _ hlt
      rw [Nat.add_mul, Nat.one_mul] at h2
      show (m.vec l.1).1 + i * H.size e + H.size e ≤ _
      omega
    · cases h
  | str e =>
    right
    rw [hk] at h
    simp only at h
    split at h
    · rename_i hlt
      cases h
      refine ⟨e, rfl, Nat.le_add_right _ _, ?_⟩
      intro h1
      show (m.str l.1).1 + i + H.size e ≤ _
      omega
    · cases h
  | _ => rw [hk] at h; cases h

/-- Fields of a compound do not overlap. -/
def NoOverlap (H : Heap) : Prop :=
  ∀ t fs, H.kind t = .comp fs → ∀ (i j : Nat) (f g : FieldD), fs[i]? = some f → fs[j]? = some g → i ≠ j →
    f.offset + H.size f.ty ≤ g.offset ∨ g.offset + H.size g.ty ≤ f.offset

theorem steps_disjoint {H : Heap} {m : Mem} (hN : NoOverlap H) {l k k' : Loc} {st st' : Step}
    (hi : st.inner = true) (hne : st ≠ st')
    (h : stepTo H m l st = some k) (h' : stepTo H m l st' = some k') :
    k.1 + H.size k.2 ≤ k'.1 ∨ k'.1 + H.size k'.2 ≤ k.1 := by
  unfold stepTo at h h'
  cases st with
  | elem i => cases hi
  | deref => cases hi
  | field i =>
    cases hk : H.kind l.2 with
    | comp fs =>
      rw [hk] at h h'
      cases st' with
      | field j =>
        simp only [Option.map_eq_some_iff] at h h'
        rcases h with ⟨f, hf, rfl⟩
        rcases h' with ⟨g, hg, rfl⟩
        have hij : i ≠ j := fun e => hne (by rw [e])
        have := hN l.2 fs hk i j f g hf hg hij
        show l.1 + f.offset + H.size f.ty ≤ l.1 + g.offset ∨ l.1 + g.offset + H.size g.ty ≤ l.1 + f.offset
        omega
      | _ => cases h'
    | _ => rw [hk] at h; cases h
  | idx i =>
    cases hk : H.kind l.2 with
    | arr d e =>
      rw [hk] at h h'
      cases st' with
      | idx j =>
        simp only at h h'
        split at h
        · split at h'
          · cases h; cases h'
            have hij : i ≠ j := fun e => hne (by rw [e])
            rcases Nat.lt_or_gt_of_ne hij with hlt | hlt
            · left
              have h2 : (i + 1) * H.size e ≤ j * H.size e := Nat.mul_le_mul_right _ hlt
              rw [Nat.add_mul, Nat.one_mul] at h2
              show l.1 + i * H.size e + H.size e ≤ l.1 + j * H.size e
              omega
            · right
              have h2 : (j + 1) * H.size e ≤ i * H.size e := Nat.mul_le_mul_right _ hlt
              rw [Nat.add_mul, Nat.one_mul] at h2
              show l.1 + j * H.size e + H.size e ≤ l.1 + i * H.size e
              omega
          · cases h'
        · cases h
      | _ => cases h'
    | _ => rw [hk] at h; cases h

theorem inner_same {H : Heap} {m : Mem} {l k k' : Loc} {st st' : Step} (hi : st.inner = true)
    (h : stepTo H m l st = some k) (h' : stepTo H m l st' = some k') : st'.inner = true := by
  unfold stepTo at h h'
  cases hk : H.kind l.2 <;> rw [hk] at h h' <;> cases st <;> cases st' <;>
    first | rfl | (exfalso; cases hi; done) | (exfalso; cases h; done) | (exfalso; cases h'; done)

/-- **C42** (no byte twice). Two different leaves of the same object do not share memory, if the definitions fit and
fields do not overlap. -/
theorem C42_disjoint (H : Heap) (m : Mem) (hF : Fits H) (hN : NoOverlap H) : ∀ (p q : List Step) (l k k' : Loc),
    (∀ st ∈ p, st.inner = true) → (∀ st ∈ q, st.inner = true) → p ≠ q →
    follow H m l p = some k → follow H m l q = some k' → IsLeaf H k → IsLeaf H k' →
    k.1 + H.size k.2 ≤ k'.1 ∨ k'.1 + H.size k'.2 ≤ k.1
  | [], [], _, _, _, _, _, hne, _, _, _, _ => absurd rfl hne
  | [], st :: q, l, k, k', _, _, _, h, h', hl, _ => by
    cases h
    rw [follow] at h'
    rcases hs : stepTo H m l st with _ | x
    · rw [hs] at h'; cases h'
    · have := (kids_iff H m l st x).mpr hs
      rw [isLeaf_kids hl] at this; cases this
  | st :: p, [], l, k, k', _, _, _, h, h', _, hl => by
    cases h'
    rw [follow] at h
    rcases hs : stepTo H m l st with _ | x
    · rw [hs] at h; cases h
    · have := (kids_iff H m l st x).mpr hs
      rw [isLeaf_kids hl] at this; cases this
  | st :: p, st' :: q, l, k, k', hp, hq, hne, h, h', hl, hl' => by
    rw [follow] at h h'
    rcases hs : stepTo H m l st with _ | x
    · rw [hs] at h; cases h
    rcases hs' : stepTo H m l st' with _ | x'
    · rw [hs'] at h'; cases h'
    rw [hs] at h; rw [hs'] at h'
    by_cases he : st = st'
    · subst he
      rw [hs] at hs'; cases hs'
      exact C42_disjoint H m hF hN p q x k k' (fun s hs => hp s (by simp [hs])) (fun s hs => hq s (by simp [hs]))
        (fun e => hne (by rw [e])) h h' hl hl'
    · have hd := steps_disjoint hN (hp st (by simp)) he hs hs'
      have h1 := C42_inside H m hF p x k (fun s hs => hp s (by simp [hs])) h
      have h2 := C42_inside H m hF q x' k' (fun s hs => hq s (by simp [hs])) h'
      omega

/-- The bytes that the visitor gets a reference to: a numeric leaf gives a reference to an integer or a float of the
size of the type (value.cc:17-50); an enum gives a `int&` (value.cc:53-57, typemodel.hh:311), four bytes, whatever the
size of the enum; an opaque gives a `Value`, no typed access. -/
def accessWidth (H : Heap) (t : TId) : Nat :=
  match H.kind t with
  | .num _ => H.size t
  | .enum _ => 4
  | _ => 0

/-- **C42** (accesses inside the value): with enums of at least four bytes, what the visitor is given access to is
within the object that contains the leaf. -/
theorem C42_access_inside (H : Heap) (m : Mem) (hF : Fits H)
    (hE : ∀ t syms, H.kind t = .enum syms → 4 ≤ H.size t) (p : List Step) (l k : Loc)
    (hp : ∀ st ∈ p, st.inner = true) (h : follow H m l p = some k) :
    l.1 ≤ k.1 ∧ k.1 + accessWidth H k.2 ≤ l.1 + H.size l.2 := by
  have h1 := C42_inside H m hF p l k hp h
  have : accessWidth H k.2 ≤ H.size k.2 := by
    unfold accessWidth
    cases hk : H.kind k.2 with
    | num c => exact Nat.le_refl _
    | «enum» c => exact hE k.2 c hk
    | _ => exact Nat.zero_le _
  omega

/-! ### value_get_field -/

theorem getter_loop (rec : Nat → TId → Nat × Option TId → Res (Bool × (Nat × Option TId))) (a : Nat) (name : Str) :
    ∀ (fs : List FieldD) (s : Nat × Option TId),
    fieldLoop (fieldRec (fieldGetter name) rec) a fs s =
      match fs.find? (fun fd => fd.name = name) with
      | some fd => .ok (false, (a + fd.offset, some fd.ty))
      | none => .ok (true, s)
  | [], s => rfl
  | fd :: fs, s => by
    rw [fieldLoop, List.find?_cons]
    by_cases hn : fd.name = name
    · simp [fieldRec, fieldGetter, hn]
    · have := getter_loop rec a name fs s
      simp only [fieldRec, fieldGetter, hn, if_false, Res.bind_ok, if_true, decide_false] at this ⊢
      exact this

/-- **C42** (`value_get_field`): on a compound it gives the address and type of the first field with that name, and
`FieldNotFound` if there is none. -/
theorem C42_get_field (H : Heap) (m : Mem) (f a : Nat) (t : TId) (fs : List FieldD) (name : Str)
    (hk : H.kind t = .comp fs) (ha : a ≠ 0) :
    getField H m (f + 1) a t name =
      match fs.find? (fun fd => fd.name = name) with
      | some fd => .ok (a + fd.offset, some fd.ty)
      | none => .exn .exception := by
  unfold getField apply
  rw [visit]
  simp only [hk]
  rw [getter_loop _ a name fs (0, none)]
  cases hfd : fs.find? (fun fd => fd.name = name) with
  | none => simp
  | some fd => simp [ha]

/-- **C42** (`value_get_field` on anything without fields throws, instead of returning something): numeric, enum and
opaque values. -/
theorem C42_get_field_leaf (H : Heap) (m : Mem) (f a : Nat) (t : TId) (name : Str)
    (hk : IsLeaf H (a, t)) : getField H m (f + 1) a t name = .exn .exception := by
  unfold getField apply
  rw [visit]
  unfold IsLeaf at hk
  simp only at hk
  cases hkk : H.kind t with
  | num c =>
    simp only
    split <;> rfl
  | «enum» c => rfl
  | «opaque» => rfl
  | _ => rw [hkk] at hk; cases hk

/-! ### Examples -/

/-- `/S { int32 a; int16 b[2]; /S2* p; std::vector<int16> v }` and `/S2 { uint8 x; enum e }` -/
def vHeap : Heap := ⟨10, fun
  | 0 => ⟨"/int32_t".toList, 4, .num .sint⟩
  | 1 => ⟨"/int16_t".toList, 2, .num .sint⟩
  | 2 => ⟨"/int16_t[2]".toList, 4, .arr 2 1⟩
  | 3 => ⟨"/S2*".toList, 8, .ptr 4⟩
  | 4 => ⟨"/S2".toList, 8, .comp [⟨"x".toList, 0, 6⟩, ⟨"e".toList, 4, 7⟩]⟩
  | 5 => ⟨"/std/vector</int16_t>".toList, 24, .vec 1⟩
  | 6 => ⟨"/uint8_t".toList, 1, .num .uint⟩
  | 7 => ⟨"/E".toList, 4, .enum [("A".toList, 1)]⟩
  | 8 => ⟨"/S".toList, 40, .comp [⟨"a".toList, 0, 0⟩, ⟨"b".toList, 4, 2⟩, ⟨"p".toList, 8, 3⟩, ⟨"v".toList, 16, 5⟩]⟩
  | _ => ⟨"/nil".toList, 0, .null⟩⟩

/-- a value of type `/S` at 1000, whose pointer points to 2000 and whose vector has three elements at 3000 -/
def vMem : Mem := ⟨fun a => if a = 1008 then 2000 else 0, fun a => if a = 1016 then (3000, 6) else (0, 0), fun _ => (0, 0)⟩

def vCalls : List Loc :=
  [(1000, 0), (1004, 1), (1006, 1), (2000, 6), (2004, 7), (3000, 1), (3002, 1), (3004, 1)]

/-- the hypotheses of `C42_visits` and `C42_calls` are satisfiable -/
theorem C42_example : apply vHeap vMem recorder 5 1000 8 [] = .ok vCalls := by decide

/-- the hypotheses of `C42_completes` are satisfiable -/
theorem C42_example_completes : ∃ rank : TId → Nat, (∀ u x, x ∈ vHeap.deps u → rank x < rank u) ∧
    ∀ p l, follow vHeap vMem (1000, 8) p = some l → Passable vHeap vMem l := by
  refine ⟨fun t => if t = 8 then 3 else if t = 3 then 2 else if t = 2 ∨ t = 4 ∨ t = 5 then 1 else 0, ?_,
    C42_completes_only vHeap vMem recorder 5 1000 8 [] vCalls (fun _ _ _ => rfl) rfl C42_example⟩
  intro u
  match u with
  | 0 | 1 | 2 | 3 | 4 | 5 | 6 | 7 | 8 => decide
  | n + 9 => intro x hx; cases hx

/-- the hypotheses of `C42_inside`, `C42_disjoint`, `C42_access_inside` are satisfiable -/
theorem C42_example_fits : Fits vHeap ∧ NoOverlap vHeap ∧
    (∀ t syms, vHeap.kind t = .enum syms → 4 ≤ vHeap.size t) ∧
    follow vHeap vMem (1000, 8) [.field 1, .idx 1] = some (1006, 1) := by
  refine ⟨⟨?_, ?_⟩, ?_, ?_, by decide⟩
  · intro t fs h
    match t with
    | 0 | 1 | 2 | 3 | 5 | 6 | 7 => cases h
    | 4 => cases h; decide
    | 8 => cases h; decide
    | n + 9 => cases h
  · intro t d e h
    match t with
    | 0 | 1 | 3 | 4 | 5 | 6 | 7 | 8 => cases h
    | 2 => cases h; decide
    | n + 9 => cases h
  · intro t fs h i j f g hf hg hne
    match t with
    | 0 | 1 | 2 | 3 | 5 | 6 | 7 => cases h
    | 4 =>
      cases h
      match i, j with
      | 0, 0 | 1, 1 => exact absurd rfl hne
      | 0, 1 | 1, 0 => cases hf; cases hg; decide
      | n + 2, _ => cases hf
      | 0, n + 2 | 1, n + 2 => cases hg
    | 8 =>
      cases h
      match i, j with
      | 0, 0 | 1, 1 | 2, 2 | 3, 3 => exact absurd rfl hne
      | 0, 1 | 1, 0 | 0, 2 | 2, 0 | 0, 3 | 3, 0 | 1, 2 | 2, 1 | 1, 3 | 3, 1 | 2, 3 | 3, 2 => cases hf; cases hg; decide
      | n + 4, _ => cases hf
      | 0, n + 4 | 1, n + 4 | 2, n + 4 | 3, n + 4 => cases hg
    | n + 9 => cases h
  · intro t syms h
    match t with
    | 0 | 1 | 2 | 3 | 4 | 5 | 6 | 8 => cases h
    | 7 => decide
    | n + 9 => cases h

theorem C42_example_get_field :
    getField vHeap vMem 3 1000 8 "p".toList = .ok (1008, some 3) ∧
    getField vHeap vMem 3 1000 8 "q".toList = .exn .exception := by decide

/-- The visitor of `ValueVisitor(false)` (the default constructor argument), recording the calls. -/
def stopper : Visitor (List Loc) := ⟨fun a t s => (false, s ++ [(a, t)]), none⟩

/-- **C42, the default visitor does not visit every leaf**: with the default value of the constructor argument
(value.hh:74) the numeric overloads return false, and the visit of a structure stops after its first numeric field. -/
theorem C42_default_counterexample : apply vHeap vMem stopper 5 1000 8 [] = .ok [(1000, 0)] := by decide

/-- **C42, returning false inside an array does not stop the visit**: the visit leaves the array (value.cc:122), and
goes on with the next field. Here the visitor stops at the first 16-bit number, and is called again afterwards. -/
theorem C42_stop_counterexample :
    apply vHeap vMem ⟨fun a t s => (t != 1, s ++ [(a, t)]), none⟩ 5 1000 8 [] =
      .ok [(1000, 0), (1004, 1), (2000, 6), (2004, 7), (3000, 1), (3002, 1), (3004, 1)] := by decide

/-- **C42, null pointers are followed.** -/
theorem C42_null_pointer_counterexample : apply vHeap ⟨fun _ => 0, vMem.vec, vMem.str⟩ recorder 5 1000 8 [] = .ub := by
  decide

/-- a one-byte enum -/
def eHeap : Heap := ⟨1, fun _ => ⟨"/E".toList, 1, .enum [("A".toList, 1)]⟩⟩

/-- **C42, small enums are read beyond the value**: the visitor of a one-byte enum gets a reference to four bytes. -/
theorem C42_small_enum_counterexample :
    apply eHeap vMem recorder 1 1000 0 [] = .ok [(1000, 0)] ∧ ¬ 1000 + accessWidth eHeap 0 ≤ 1000 + eHeap.size 0 := by
  decide

/-- a structure with a vector of itself -/
def loopHeap : Heap := ⟨2, fun
  | 0 => ⟨"/N".toList, 8, .comp [⟨"next".toList, 0, 1⟩]⟩
  | _ => ⟨"/N*".toList, 8, .ptr 0⟩⟩

/-- **C42, cyclic data make the visit infinite**: no amount of fuel is enough for a list node that points to itself. -/
theorem C42_cycle_counterexample : ∀ fuel a, visit loopHeap ⟨fun _ => 1000, vMem.vec, vMem.str⟩ recorder fuel a 0 [] = .fuel ∧
    visit loopHeap ⟨fun _ => 1000, vMem.vec, vMem.str⟩ recorder fuel a 1 [] = .fuel := by
  intro fuel
  induction fuel with
  | zero => intro a; exact ⟨rfl, rfl⟩
  | succ f ih =>
    intro a
    constructor
    · show fieldLoop _ a [⟨"next".toList, 0, 1⟩] [] = _
      rw [fieldLoop]
      show (visit loopHeap _ recorder f (a + 0) 1 [] >>= _) = _
      rw [(ih _).2]; rfl
    · show visit loopHeap _ recorder f 1000 0 [] = _
      exact (ih 1000).1

/-! ### The theorems on concrete cases -/

example := C42_visits vHeap vMem recorder 5 1000 8 [] vCalls (fun _ _ _ => rfl) rfl C42_example

example := C42_calls vHeap vMem 5 1000 8 vCalls C42_example

example : ∃ fuel s', apply vHeap vMem recorder fuel 1000 8 [] = .ok s' := by
  obtain ⟨rank, hr, hp⟩ := C42_example_completes
  exact C42_completes vHeap vMem recorder rank 1000 8 [] hr hp

example := C42_inside vHeap vMem C42_example_fits.1 [.field 1, .idx 1] (1000, 8) (1006, 1) (by decide)
  C42_example_fits.2.2.2

example := C42_element_inside vHeap vMem (1016, 5) (3002, 1) 1 (by decide)

example := C42_disjoint vHeap vMem C42_example_fits.1 C42_example_fits.2.1 [.field 1, .idx 1] [.field 0] (1000, 8) (1006, 1)
  (1000, 0) (by decide) (by decide) (by decide) C42_example_fits.2.2.2 (by decide) rfl rfl

example := C42_access_inside vHeap vMem C42_example_fits.1 C42_example_fits.2.2.1 [.field 1, .idx 1] (1000, 8) (1006, 1)
  (by decide) C42_example_fits.2.2.2

example := C42_get_field vHeap vMem 2 1000 8 _ "p".toList rfl (by decide)

example := C42_get_field_leaf vHeap vMem 2 1000 0 "p".toList rfl

end Verif.Visitor
