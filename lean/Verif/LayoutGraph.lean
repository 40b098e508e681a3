import Verif.LayoutProps
import Verif.MergeSpec
import Verif.ResizeExamples

/-!
C57: memory layouts of types as they are in a registry, that is of a graph of type objects (memory_layout.cc:546-625,
lang/csupport/containers.cc:20-46). The other modules about layouts and values work on trees (`Layout.Ty`): here is shown that this
is all there is, and what happens with types that contain themselves.
-/

namespace Verif.LayoutGraph
open Verif Verif.Graph Verif.Layout

/-! ### Model -/

/-- the field loop of `visit_(Compound const&)` (memory_layout.cc:594-600) -/
def gfields (H : Heap) (rec : ML → TId → Res ML) : List FieldD → ML → Nat → Res (ML × Nat)
  | [], l, cur => .ok (l, cur)
  | f :: fs, l, cur =>
    rec (pushSkip l (wsub f.offset cur)) f.ty >>= fun l => gfields H rec fs l (wadd f.offset (H.size f.ty))

/-- `MemLayout::Visitor` (memory_layout.cc:546-625) on type objects. `tag t` stands for the address of the container `t`, which
is stored in the layout. `NullType` throws (typevisitor.cc). -/
def gvisit (H : Heap) (tag : TId → Ty) : Nat → Bool → Bool → ML → TId → Res ML
  | 0, _, _, _, _ => .fuel
  | f + 1, ap, ao, l, t =>
    match H.kind t with
    | .null => .exn .exception
    | .num _ => pushMemcpy l (H.size t) []
    | .enum syms => if H.size t > 8 then .exn .runtime else pushMemcpy l (H.size t) (enumInit (H.size t) (syms.map (·.2)))
    | .arr d e => gvisit H tag f false false ⟨[], []⟩ e >>= fun sub => .ok (pushArray l d sub)
    | .vec e => gvisit H tag f false false ⟨[], []⟩ e >>= fun sub => .ok (pushContainer l (tag t) sub)
    | .str e => gvisit H tag f false false ⟨[], []⟩ e >>= fun sub => .ok (pushContainer l (tag t) sub)
    | .comp fs => gfields H (gvisit H tag f ap ao) fs l 0 >>= fun r => .ok (pushSkip r.1 (wsub (H.size t) r.2))
    | .ptr _ => if ap then pushMemcpy l (H.size t) [] else .exn .noLayout
    | .opaque => if ao then .ok (pushSkip l (H.size t)) else .exn .noLayout

/-- `layout_of` (memory_layout.hh:180-184) -/
def glayout (H : Heap) (tag : TId → Ty) (fuel : Nat) (ap ao merge rem : Bool) (t : TId) : Res ML :=
  gvisit H tag fuel ap ao ⟨[], []⟩ t >>= simplify merge rem

/-- `Vector::element_layout` (containers.cc:20-24, 36-46): computed when the vector type is created, from the element type as it
is then; empty if there is no layout. Only `std::runtime_error` is caught, `std::length_error` is not one. -/
def elementLayout (H : Heap) (tag : TId → Ty) (fuel : Nat) (e : TId) : Res ML :=
  match glayout H tag fuel false false true true e with
  | .exn .lengthError => .exn .lengthError
  | .exn _ => .ok ⟨[], []⟩
  | r => r

/-! ### Specification -/

/-- values of type `u` are made of values of type `v` (pointers do not count) -/
inductive Contains (H : Heap) : TId → TId → Prop
  | field {u fs f} : H.kind u = .comp fs → f ∈ fs → Contains H u f.ty
  | arr {u d e} : H.kind u = .arr d e → Contains H u e
  | vec {u e} : H.kind u = .vec e → Contains H u e
  | str {u e} : H.kind u = .str e → Contains H u e

/-- parts, at any depth -/
inductive Part (H : Heap) : TId → TId → Prop
  | refl (t) : Part H t t
  | step {t u v} : Contains H t u → Part H u v → Part H t v

/-- some part of `t` (or `t` itself) contains itself -/
def Recursive (H : Heap) (t : TId) : Prop := ∃ u v, Part H t u ∧ Contains H u v ∧ Part H v u

/-- the definition of `t` with the definitions of its parts put in their places; none if it takes more than `f` levels -/
def unfoldFields (rec : TId → Option Ty) : List FieldD → Option Fields
  | [] => some .nil
  | f :: fs =>
    match rec f.ty, unfoldFields rec fs with
    | some t, some r => some (.cons f.offset t r)
    | _, _ => none

def unfold (H : Heap) : Nat → TId → Option Ty
  | 0, _ => none
  | f + 1, t =>
    match H.kind t with
    | .null => none
    | .num _ => some (.num (H.size t))
    | .enum syms => some (.enum (H.size t) (syms.map (·.2)))
    | .arr d e => (unfold H f e).map (.arr d)
    | .vec e => (unfold H f e).map (.vec (H.size t))
    | .str e => (unfold H f e).map fun _ => .str (H.size t)
    | .comp fs => (unfoldFields (unfold H f) fs).map (.comp (H.size t))
    | .ptr _ => some (.ptr (H.size t))
    | .opaque => some (.opaq (H.size t))

/-- `ty` is the tree of `t` -/
def IsTree (H : Heap) (t : TId) (ty : Ty) : Prop := ∃ f, unfold H f t = some ty

/-- arrays have the size of their elements, strings are made of characters -/
structure Sane (H : Heap) : Prop where
  arr : ∀ t d e, H.kind t = .arr d e → H.size t = wmul d (H.size e)
  str : ∀ t e, H.kind t = .str e → (∃ c, H.kind e = .num c) ∧ H.size e = 1

/-! ### Lemmas -/

theorem Part.trans {H : Heap} {a b c : TId} (h : Part H a b) (h' : Part H b c) : Part H a c := by
  induction h with
  | refl => exact h'
  | step s _ ih => exact .step s (ih h')

theorem unfoldFields_mono {r r' : TId → Option Ty} {fs : List FieldD} {x : Fields}
    (h : ∀ f ∈ fs, ∀ t, r f.ty = some t → r' f.ty = some t) (hx : unfoldFields r fs = some x) : unfoldFields r' fs = some x := by
  induction fs generalizing x with
  | nil => exact hx
  | cons f fs ih =>
    simp only [unfoldFields] at hx ⊢
    cases h1 : r f.ty with
    | none => rw [h1] at hx; cases hx
    | some t =>
      cases h2 : unfoldFields r fs with
      | none => rw [h1, h2] at hx; cases hx
      | some y =>
        rw [h1, h2] at hx
        rw [h f (by simp) t h1, ih (fun g hg => h g (by simp [hg])) h2]
        exact hx

theorem unfold_mono {H : Heap} : ∀ {f g : Nat} {t : TId} {ty : Ty}, f ≤ g → unfold H f t = some ty → unfold H g t = some ty := by
  intro f
  induction f with
  | zero => intro g t ty _ h; cases h
  | succ f ih =>
    intro g t ty hg h
    obtain ⟨g, rfl⟩ : ∃ k, g = k + 1 := ⟨g - 1, by omega⟩
    have hfg : f ≤ g := by omega
    simp only [unfold] at h ⊢
    cases hk : H.kind t <;> rw [hk] at h <;> simp only at h ⊢ <;> try exact h
    all_goals
      simp only [Option.map_eq_some_iff] at h ⊢
      obtain ⟨x, hx, rfl⟩ := h
    · exact ⟨x, ih hfg hx, rfl⟩
    · exact ⟨x, ih hfg hx, rfl⟩
    · exact ⟨x, ih hfg hx, rfl⟩
    · exact ⟨x, unfoldFields_mono (fun _ _ _ h => ih hfg h) hx, rfl⟩

theorem tree_unique {H : Heap} {t : TId} {a b : Ty} (ha : IsTree H t a) (hb : IsTree H t b) : a = b := by
  obtain ⟨f, hf⟩ := ha
  obtain ⟨g, hg⟩ := hb
  have h1 := unfold_mono (Nat.le_max_left f g) hf
  have h2 := unfold_mono (Nat.le_max_right f g) hg
  rw [h1] at h2
  exact Option.some.inj h2

theorem unfoldFields_mem {r : TId → Option Ty} {fs : List FieldD} {x : Fields} (hx : unfoldFields r fs = some x) :
    ∀ f ∈ fs, ∃ t, r f.ty = some t := by
  induction fs generalizing x with
  | nil => intro f hf; simp at hf
  | cons g fs ih =>
    simp only [unfoldFields] at hx
    cases h1 : r g.ty with
    | none => rw [h1] at hx; cases hx
    | some t =>
      cases h2 : unfoldFields r fs with
      | none => rw [h1, h2] at hx; cases hx
      | some y =>
        intro f hf
        rcases List.mem_cons.mp hf with rfl | hf
        · exact ⟨t, h1⟩
        · exact ih h2 f hf

theorem unfoldFields_of {r : TId → Option Ty} {fs : List FieldD} (h : ∀ f ∈ fs, ∃ t, r f.ty = some t) :
    ∃ x, unfoldFields r fs = some x := by
  induction fs with
  | nil => exact ⟨.nil, rfl⟩
  | cons g fs ih =>
    obtain ⟨t, ht⟩ := h g (by simp)
    obtain ⟨x, hx⟩ := ih fun f hf => h f (by simp [hf])
    exact ⟨.cons g.offset t x, by simp [unfoldFields, ht, hx]⟩

/-- the parts of what unfolds in `f + 1` levels unfold in `f` levels -/
theorem unfold_part {H : Heap} {f : Nat} {t u : TId} {ty : Ty} (h : unfold H (f + 1) t = some ty) (hc : Contains H t u) :
    ∃ uy, unfold H f u = some uy := by
  simp only [unfold] at h
  cases hc with
  | field hk hm =>
    rw [hk] at h
    simp only [Option.map_eq_some_iff] at h
    obtain ⟨x, hx, _⟩ := h
    exact unfoldFields_mem hx _ hm
  | arr hk => rw [hk] at h; simp only [Option.map_eq_some_iff] at h; obtain ⟨x, hx, _⟩ := h; exact ⟨x, hx⟩
  | vec hk => rw [hk] at h; simp only [Option.map_eq_some_iff] at h; obtain ⟨x, hx, _⟩ := h; exact ⟨x, hx⟩
  | str hk => rw [hk] at h; simp only [Option.map_eq_some_iff] at h; obtain ⟨x, hx, _⟩ := h; exact ⟨x, hx⟩

theorem unfold_parts {H : Heap} {t u : TId} (hp : Part H t u) : ∀ {f : Nat} {ty : Ty}, unfold H f t = some ty →
    ∃ uy, unfold H f u = some uy := by
  induction hp with
  | refl t => intro f ty h; exact ⟨ty, h⟩
  | step hc _ ih =>
    intro f ty h
    cases f with
    | zero => cases h
    | succ f =>
      obtain ⟨uy, hu⟩ := unfold_part h hc
      exact ih (unfold_mono (Nat.le_succ f) hu)

theorem not_recursive_of_unfold {H : Heap} {f : Nat} {t : TId} {ty : Ty} (h : unfold H f t = some ty) : ¬ Recursive H t := by
  rintro ⟨u, v, hp, hc, hq⟩
  obtain ⟨uy, hu⟩ := unfold_parts hp h
  clear h hp
  -- the least number of levels of `u` cannot be
  have key : ∀ f, ∀ uy, unfold H f u = some uy → False := by
    intro f
    induction f with
    | zero => intro uy h; cases h
    | succ f ih =>
      intro uy h
      obtain ⟨vy, hv⟩ := unfold_part h hc
      obtain ⟨uy', hu'⟩ := unfold_parts hq hv
      exact ih _ hu'
  exact key f uy hu

theorem unfold_of_not_recursive {H : Heap} (hd : ∀ t, t < H.next → ∀ u, Contains H t u → u < H.next) :
    ∀ (f : Nat) (t : TId) (seen : List TId), seen.Nodup → (∀ s ∈ seen, s < H.next) → t < H.next →
      (∀ s ∈ seen, ∃ v, Contains H s v ∧ Part H v t) → ¬ Recursive H t → (∀ u, Part H t u → H.kind u ≠ .null) →
      H.next < seen.length + f → ∃ ty, unfold H f t = some ty := by
  intro f
  induction f with
  | zero =>
    intro t seen hn hlt _ _ _ _ hlen
    have := Merge.length_le_of_nodup H.next seen hn hlt
    omega
  | succ f ih =>
    intro t seen hn hlt ht hs hr hnull hlen
    have hts : t ∉ seen := by
      intro hm
      obtain ⟨v, h1, h2⟩ := hs t hm
      exact hr ⟨t, v, .refl t, h1, h2⟩
    have hrec : ∀ u, Contains H t u → ∃ ty, unfold H f u = some ty := by
      intro u hc
      refine ih u (t :: seen) (List.nodup_cons.mpr ⟨hts, hn⟩) ?_ (hd t ht u hc) ?_ ?_ ?_ ?_
      · intro s hs'
        rcases List.mem_cons.mp hs' with rfl | hs'
        · exact ht
        · exact hlt s hs'
      · intro s hs'
        rcases List.mem_cons.mp hs' with rfl | hs'
        · exact ⟨u, hc, .refl u⟩
        · obtain ⟨v, h1, h2⟩ := hs s hs'
          exact ⟨v, h1, h2.trans (.step hc (.refl u))⟩
      · rintro ⟨x, y, h1, h2, h3⟩
        exact hr ⟨x, y, .step hc h1, h2, h3⟩
      · intro x hx
        exact hnull x (.step hc hx)
      · simp only [List.length_cons]; omega
    simp only [unfold]
    cases hk : H.kind t with
    | null => exact absurd hk (hnull t (.refl t))
    | num c => exact ⟨_, rfl⟩
    | enum s => exact ⟨_, rfl⟩
    | ptr e => exact ⟨_, rfl⟩
    | «opaque» => exact ⟨_, rfl⟩
    | arr d e => obtain ⟨x, hx⟩ := hrec e (.arr hk); exact ⟨_, by dsimp only; rw [hx]; rfl⟩
    | vec e => obtain ⟨x, hx⟩ := hrec e (.vec hk); exact ⟨_, by dsimp only; rw [hx]; rfl⟩
    | str e => obtain ⟨x, hx⟩ := hrec e (.str hk); exact ⟨_, by dsimp only; rw [hx]; rfl⟩
    | comp fs =>
      obtain ⟨x, hx⟩ := unfoldFields_of (r := unfold H f) fun g hg => hrec g.ty (.field hk hg)
      exact ⟨_, by simp only [hx]; rfl⟩

theorem tree_size {H : Heap} (hs : Sane H) : ∀ {f : Nat} {t : TId} {ty : Ty}, unfold H f t = some ty → ty.size = H.size t := by
  intro f
  induction f with
  | zero => intro t ty h; cases h
  | succ f ih =>
    intro t ty h
    simp only [unfold] at h
    cases hk : H.kind t <;> rw [hk] at h <;> simp only [Option.map_eq_some_iff, reduceCtorEq, Option.some.injEq] at h
    all_goals try (subst h; rfl)
    · obtain ⟨x, hx, rfl⟩ := h
      rw [Ty.size, ih hx, hs.arr t _ _ hk]
    all_goals
      obtain ⟨x, hx, rfl⟩ := h
      rfl

/-- the tag of each container is its tree -/
def Tagged (H : Heap) (tag : TId → Ty) : Prop := ∀ t ty, IsTree H t ty → tag t = ty

theorem gfields_eq {H : Heap} (hs : Sane H) {rec : ML → TId → Res ML} {ap ao : Bool} {g : Nat} : ∀ {fs : List FieldD} {x : Fields},
    unfoldFields (unfold H g) fs = some x →
    (∀ f ∈ fs, ∀ ty, unfold H g f.ty = some ty → ∀ l, rec l f.ty = visit ap ao l ty) →
    ∀ l cur, gfields H rec fs l cur = visitFields ap ao l cur x := by
  intro fs
  induction fs with
  | nil => intro x hx _ l cur; cases hx; rfl
  | cons f fs ih =>
    intro x hx hr l cur
    simp only [unfoldFields] at hx
    cases h1 : unfold H g f.ty with
    | none => rw [h1] at hx; cases hx
    | some t =>
      cases h2 : unfoldFields (unfold H g) fs with
      | none => rw [h1, h2] at hx; cases hx
      | some y =>
        rw [h1, h2] at hx
        cases hx
        rw [gfields, visitFields, hr f (by simp) t h1]
        congr 1
        funext l'
        rw [tree_size hs h1]
        exact ih h2 (fun f' hf' => hr f' (by simp [hf'])) _ _

theorem gvisit_eq {H : Heap} (hs : Sane H) {tag : TId → Ty} (ht : Tagged H tag) : ∀ {f : Nat} {t : TId} {ty : Ty},
    unfold H f t = some ty → ∀ {g : Nat}, f ≤ g → ∀ ap ao l, gvisit H tag g ap ao l t = visit ap ao l ty := by
  intro f
  induction f with
  | zero => intro t ty h; cases h
  | succ f ih =>
    intro t ty h g hg ap ao l
    obtain ⟨g, rfl⟩ : ∃ k, g = k + 1 := ⟨g - 1, by omega⟩
    have hfg : f ≤ g := by omega
    have htag := ht t ty ⟨f + 1, h⟩
    simp only [unfold] at h
    rw [gvisit]
    cases hk : H.kind t <;> rw [hk] at h <;> simp only [Option.map_eq_some_iff, reduceCtorEq, Option.some.injEq] at h
    · subst h; simp only [visit]
    · subst h; simp only [visit]
    · subst h; simp only [visit]
    · obtain ⟨x, hx, rfl⟩ := h
      simp only [visit]
      rw [ih hx hfg]
    · subst h; simp only [visit]
    · obtain ⟨x, hx, rfl⟩ := h
      simp only [visit]
      rw [ih hx hfg, htag]
    · obtain ⟨x, hx, rfl⟩ := h
      obtain ⟨⟨c, hc⟩, h1⟩ := hs.str t _ hk
      simp only [visit]
      rw [htag]
      cases f with
      | zero => cases hx
      | succ f =>
        simp only [unfold, hc, h1, Option.some.injEq] at hx
        obtain ⟨g, rfl⟩ : ∃ k, g = k + 1 := ⟨g - 1, by omega⟩
        rw [gvisit, hc, h1]
    · obtain ⟨x, hx, rfl⟩ := h
      simp only [visit]
      rw [gfields_eq hs hx (fun f' _ ty' hty l' => ih hty hfg ap ao l')]

theorem gfields_unfolds {H : Heap} {rec : ML → TId → Res ML} {r : TId → Option Ty} : ∀ {fs : List FieldD},
    (∀ f ∈ fs, ∀ l x, rec l f.ty = .ok x → ∃ ty, r f.ty = some ty) → ∀ {l : ML} {cur : Nat} {y : ML × Nat},
    gfields H rec fs l cur = .ok y → ∀ f ∈ fs, ∃ ty, r f.ty = some ty := by
  intro fs
  induction fs with
  | nil => intro _ l cur y _ f hf; simp at hf
  | cons g fs ih =>
    intro hr l cur y hy f hf
    rw [gfields] at hy
    obtain ⟨x, h1, h2⟩ := Res.bind_eq_ok.mp hy
    rcases List.mem_cons.mp hf with rfl | hf
    · exact hr _ (by simp) _ _ h1
    · exact ih (fun f hf => hr f (by simp [hf])) h2 f hf

theorem unfold_of_gvisit {H : Heap} {tag : TId → Ty} : ∀ {f : Nat} {ap ao : Bool} {l : ML} {t : TId} {x : ML},
    gvisit H tag f ap ao l t = .ok x → ∃ ty, unfold H f t = some ty := by
  intro f
  induction f with
  | zero => intro ap ao l t x h; cases h
  | succ f ih =>
    intro ap ao l t x h
    rw [gvisit] at h
    simp only [unfold]
    cases hk : H.kind t with
    | null => rw [hk] at h; cases h
    | num c => exact ⟨_, rfl⟩
    | enum s => exact ⟨_, rfl⟩
    | ptr e => exact ⟨_, rfl⟩
    | «opaque» => exact ⟨_, rfl⟩
    | arr d e =>
      rw [hk] at h
      obtain ⟨y, hy, _⟩ := Res.bind_eq_ok.mp h
      obtain ⟨z, hz⟩ := ih hy
      exact ⟨_, by dsimp only; rw [hz]; rfl⟩
    | vec e =>
      rw [hk] at h
      obtain ⟨y, hy, _⟩ := Res.bind_eq_ok.mp h
      obtain ⟨z, hz⟩ := ih hy
      exact ⟨_, by dsimp only; rw [hz]; rfl⟩
    | str e =>
      rw [hk] at h
      obtain ⟨y, hy, _⟩ := Res.bind_eq_ok.mp h
      obtain ⟨z, hz⟩ := ih hy
      exact ⟨_, by dsimp only; rw [hz]; rfl⟩
    | comp fs =>
      rw [hk] at h
      obtain ⟨y, hy, _⟩ := Res.bind_eq_ok.mp h
      obtain ⟨z, hz⟩ := unfoldFields_of (gfields_unfolds (r := unfold H f) (fun g _ l x hx => ih hx) hy)
      exact ⟨_, by dsimp only; rw [hz]; rfl⟩

/-- a visit that ends, ends the same way with more fuel -/
theorem gfields_mono {H : Heap} {rec rec' : ML → TId → Res ML} (hr : ∀ l t, rec l t ≠ .fuel → rec' l t = rec l t) :
    ∀ (fs : List FieldD) (l : ML) (cur : Nat), gfields H rec fs l cur ≠ .fuel → gfields H rec' fs l cur = gfields H rec fs l cur := by
  intro fs
  induction fs with
  | nil => intro l cur _; rfl
  | cons f fs ih =>
    intro l cur h
    rw [gfields] at h ⊢
    rw [gfields]
    cases hx : rec (pushSkip l (wsub f.offset cur)) f.ty with
    | ok x =>
      rw [hr _ _ (by rw [hx]; simp), hx]
      rw [hx] at h
      exact ih _ _ h
    | exn e => rw [hr _ _ (by rw [hx]; simp), hx]; rfl
    | ub => rw [hr _ _ (by rw [hx]; simp), hx]; rfl
    | fuel => rw [hx] at h; exact absurd rfl h

theorem gvisit_null {H : Heap} {tag : TId → Ty} {t : TId} (hk : H.kind t = .null) (f : Nat) (ap ao : Bool) (l : ML) :
    gvisit H tag (f + 1) ap ao l t = .exn .exception := by rw [gvisit, hk]

theorem bind_ne_fuel {α β : Type} {x : Res α} {k : α → Res β} (h1 : x ≠ .fuel) (h2 : ∀ a, k a ≠ .fuel) : (x >>= k) ≠ .fuel := by
  cases x with
  | ok a => exact h2 a
  | exn e => intro h; cases h
  | ub => intro h; cases h
  | fuel => exact absurd rfl h1

theorem pushMemcpy_ne_fuel (l : ML) (n : Nat) (d : List UInt8) : pushMemcpy l n d ≠ .fuel := by
  unfold pushMemcpy
  split
  · simp
  · split <;> simp

theorem gfields_ne_fuel {H : Heap} {rec : ML → TId → Res ML} : ∀ {fs : List FieldD}, (∀ f ∈ fs, ∀ l, rec l f.ty ≠ .fuel) →
    ∀ (l : ML) (cur : Nat), gfields H rec fs l cur ≠ .fuel := by
  intro fs
  induction fs with
  | nil => intro _ l cur h; cases h
  | cons f fs ih =>
    intro hr l cur
    rw [gfields]
    exact bind_ne_fuel (hr f (by simp) _) fun a => ih (fun g hg => hr g (by simp [hg])) _ _

/-- the visit of a type that is not recursive ends, after at most as many levels as there are types -/
theorem gvisit_ends {H : Heap} {tag : TId → Ty} (hd : ∀ t, t < H.next → ∀ u, Contains H t u → u < H.next) :
    ∀ (f : Nat) (t : TId) (seen : List TId), seen.Nodup → (∀ s ∈ seen, s < H.next) → t < H.next →
      (∀ s ∈ seen, ∃ v, Contains H s v ∧ Part H v t) → ¬ Recursive H t →
      H.next < seen.length + f → ∀ ap ao l, gvisit H tag f ap ao l t ≠ .fuel := by
  intro f
  induction f with
  | zero =>
    intro t seen hn hlt _ _ _ hlen
    have := Merge.length_le_of_nodup H.next seen hn hlt
    omega
  | succ f ih =>
    intro t seen hn hlt ht hs hr hlen ap ao l
    have hts : t ∉ seen := by
      intro hm
      obtain ⟨v, h1, h2⟩ := hs t hm
      exact hr ⟨t, v, .refl t, h1, h2⟩
    have hrec : ∀ u, Contains H t u → ∀ ap ao l, gvisit H tag f ap ao l u ≠ .fuel := by
      intro u hc
      refine ih u (t :: seen) (List.nodup_cons.mpr ⟨hts, hn⟩) ?_ (hd t ht u hc) ?_ ?_ ?_
      · intro s hs'
        rcases List.mem_cons.mp hs' with rfl | hs'
        · exact ht
        · exact hlt s hs'
      · intro s hs'
        rcases List.mem_cons.mp hs' with rfl | hs'
        · exact ⟨u, hc, .refl u⟩
        · obtain ⟨v, h1, h2⟩ := hs s hs'
          exact ⟨v, h1, h2.trans (.step hc (.refl u))⟩
      · rintro ⟨x, y, h1, h2, h3⟩
        exact hr ⟨x, y, .step hc h1, h2, h3⟩
      · simp only [List.length_cons]; omega
    rw [gvisit]
    cases hk : H.kind t with
    | null => simp
    | num c => exact pushMemcpy_ne_fuel _ _ _
    | enum s =>
      dsimp only
      split
      · simp
      · exact pushMemcpy_ne_fuel _ _ _
    | ptr e =>
      dsimp only
      split
      · exact pushMemcpy_ne_fuel _ _ _
      · simp
    | «opaque» => dsimp only; split <;> simp
    | arr d e => exact bind_ne_fuel (hrec e (.arr hk) _ _ _) fun a => by simp
    | vec e => exact bind_ne_fuel (hrec e (.vec hk) _ _ _) fun a => by simp
    | str e => exact bind_ne_fuel (hrec e (.str hk) _ _ _) fun a => by simp
    | comp fs => exact bind_ne_fuel (gfields_ne_fuel (fun g hg l => hrec g.ty (.field hk hg) _ _ _) _ _) fun a => by simp

theorem gfields_frame {H H' : Heap} {rec rec' : ML → TId → Res ML} : ∀ {fs : List FieldD},
    (∀ f ∈ fs, H'.size f.ty = H.size f.ty ∧ ∀ l, rec' l f.ty = rec l f.ty) →
    ∀ (l : ML) (cur : Nat), gfields H' rec' fs l cur = gfields H rec fs l cur := by
  intro fs
  induction fs with
  | nil => intro _ l cur; rfl
  | cons f fs ih =>
    intro h l cur
    obtain ⟨h1, h2⟩ := h f (by simp)
    rw [gfields, gfields, h1, h2]
    congr 1
    funext l'
    exact ih (fun g hg => h g (by simp [hg])) _ _

theorem gvisit_frame {H H' : Heap} {tag : TId → Ty} : ∀ (f : Nat) (t : TId), (∀ u, Part H t u → H'.get u = H.get u) →
    ∀ ap ao l, gvisit H' tag f ap ao l t = gvisit H tag f ap ao l t := by
  intro f
  induction f with
  | zero => intro t _ ap ao l; rfl
  | succ f ih =>
    intro t h ap ao l
    have h0 := h t (.refl t)
    have hk : H'.kind t = H.kind t := by unfold Heap.kind; rw [h0]
    have hsz : H'.size t = H.size t := by unfold Heap.size; rw [h0]
    have hrec : ∀ u, Contains H t u → ∀ ap ao l, gvisit H' tag f ap ao l u = gvisit H tag f ap ao l u :=
      fun u hc => ih u fun v hv => h v (.step hc hv)
    rw [gvisit, gvisit, hk, hsz]
    cases hkk : H.kind t with
    | null => rfl
    | num c => rfl
    | enum s => rfl
    | ptr e => rfl
    | «opaque» => rfl
    | arr d e => dsimp only; rw [hrec e (.arr hkk)]
    | vec e => dsimp only; rw [hrec e (.vec hkk)]
    | str e => dsimp only; rw [hrec e (.str hkk)]
    | comp fs =>
      dsimp only
      rw [gfields_frame (H := H) (rec := gvisit H tag f ap ao)]
      intro g hg
      have hc : Contains H t g.ty := .field hkk hg
      refine ⟨?_, fun l => hrec _ hc _ _ _⟩
      have := h g.ty (.step hc (.refl _))
      unfold Heap.size
      rw [this]

/-! ### C57 -/

/-- a tag for every container: its tree -/
noncomputable def treeTag (H : Heap) (t : TId) : Ty :=
  open Classical in if h : ∃ ty, IsTree H t ty then h.choose else .num 0

theorem tagged (H : Heap) : Tagged H (treeTag H) := by
  intro t ty h
  have hex : ∃ ty, IsTree H t ty := ⟨ty, h⟩
  unfold treeTag
  rw [dif_pos hex]
  exact tree_unique hex.choose_spec h

/-- **C57, trees**: a type has a tree exactly if none of its parts is null and none contains itself. -/
theorem C57_tree (H : Heap) (hd : ∀ t, t < H.next → ∀ u, Contains H t u → u < H.next) (t : TId) (ht : t < H.next) :
    (∃ ty, IsTree H t ty) ↔ ¬ Recursive H t ∧ ∀ u, Part H t u → H.kind u ≠ .null := by
  constructor
  · rintro ⟨ty, f, hf⟩
    refine ⟨not_recursive_of_unfold hf, fun u hu hk => ?_⟩
    obtain ⟨uy, h⟩ := unfold_parts hu hf
    cases f with
    | zero => cases h
    | succ f => simp [unfold, hk] at h
  · rintro ⟨h1, h2⟩
    obtain ⟨ty, h⟩ := unfold_of_not_recursive hd (H.next + 1) t [] List.nodup_nil (by simp) ht (by simp) h1 h2 (by simp)
    exact ⟨ty, _, h⟩

/-- **C57, layouts**: the layout of a type object is the layout of its tree, for all options. -/
theorem C57_layout (H : Heap) (hs : Sane H) (t : TId) (ty : Ty) (h : IsTree H t ty) (ap ao merge rem : Bool) :
    ∃ f0, ∀ f, f0 ≤ f → glayout H (treeTag H) f ap ao merge rem t = layoutOf ap ao merge rem ty := by
  obtain ⟨f0, hf⟩ := h
  refine ⟨f0, fun f hle => ?_⟩
  unfold glayout layoutOf rawLayoutOf
  rw [gvisit_eq hs (tagged H) hf hle]

/-- **C57, termination**: `layout_of` ends, with a layout or an exception, for every type that is not recursive. Pointers to the
type itself do not matter. -/
theorem C57_terminates (H : Heap) (hd : ∀ t, t < H.next → ∀ u, Contains H t u → u < H.next) (t : TId) (ht : t < H.next)
    (hr : ¬ Recursive H t) (tag : TId → Ty) (ap ao : Bool) (l : ML) :
    ∀ f, H.next < f → gvisit H tag f ap ao l t ≠ .fuel := by
  intro f hf
  exact gvisit_ends hd f t [] List.nodup_nil (by simp) ht (by simp) hr (by simpa using hf) ap ao l

/-- **C57, recursive types**: a type that contains itself, even through a container, never gets a layout. -/
theorem C57_recursive (H : Heap) (t : TId) (hr : Recursive H t) (tag : TId → Ty) (f : Nat) (ap ao merge rem : Bool) (l : ML) :
    glayout H tag f ap ao merge rem t ≠ .ok l := by
  intro h
  unfold glayout at h
  obtain ⟨x, hx, _⟩ := Res.bind_eq_ok.mp h
  obtain ⟨ty, hty⟩ := unfold_of_gvisit hx
  exact not_recursive_of_unfold hty hr

/-- **C57, vectors**: the layout of the elements that a vector keeps from its creation on is the one they have now, as long as no
part of the element type was changed. -/
theorem C57_element_layout (H H' : Heap) (tag : TId → Ty) (e : TId) (h : ∀ u, Part H e u → H'.get u = H.get u) (f : Nat) :
    elementLayout H' tag f e = elementLayout H tag f e := by
  unfold elementLayout glayout
  rw [gvisit_frame f e h]

/-- **C57, vector types can be created**: on any element type that is not recursive, well formed, the constructor of the vector
ends normally; the vector keeps the layout of the elements if they have one, and none (so that `init`, `copy`, ... throw later) if
they are, or contain, pointers, opaque types or enums of more than 8 bytes. -/
theorem C57_vector_creation (H : Heap) (hs : Sane H) (e : TId) (ty : Ty) (h : IsTree H e ty) (hw : ty.WF) :
    ∃ f0, ∀ f, f0 ≤ f → ∃ ml, elementLayout H (treeTag H) f e = .ok ml ∧
      (ty.HasLayout false false → layoutOf false false true true ty = .ok ml) ∧
      (¬ ty.HasLayout false false → ml = ⟨[], []⟩) := by
  obtain ⟨f0, hf⟩ := C57_layout H hs e ty h false false true true
  refine ⟨f0, fun f hle => ?_⟩
  unfold elementLayout
  rw [hf f hle]
  by_cases hl : ty.HasLayout false false
  · rw [layoutOf_eq false false true true ty hw hl]
    exact ⟨_, rfl, fun _ => rfl, fun h => (h hl).elim⟩
  · refine ⟨⟨[], []⟩, ?_, fun h => (hl h).elim, fun _ => rfl⟩
    unfold layoutOf rawLayoutOf
    rcases visit_ok_hasLayout false false ty ⟨[], []⟩ hl with h' | h' <;> rw [h'] <;> rfl

/-- The elements of a vector of arrays of empty arrays: the constructor throws, as only runtime errors are caught. -/
theorem C57_creation_counterexample (tag : TId → Ty) :
    elementLayout ⟨3, fun
      | 0 => ⟨"/int32_t".toList, 4, .num .sint⟩
      | 1 => ⟨"/int32_t[0]".toList, 0, .arr 0 0⟩
      | _ => ⟨"/int32_t[0][2]".toList, 0, .arr 2 1⟩⟩ tag 5 2 = .exn .lengthError := rfl

/-! ### Examples and counterexamples -/

/-- `struct Node { int value; std::vector<Node> children; }` and `struct List { int value; List* next; }` -/
def nodeHeap : Heap := ⟨5, fun
  | 0 => ⟨"/int32_t".toList, 4, .num .sint⟩
  | 1 => ⟨"/Node".toList, 32, .comp [⟨"value".toList, 0, 0⟩, ⟨"children".toList, 8, 2⟩]⟩
  | 2 => ⟨"/std/vector</Node>".toList, 24, .vec 1⟩
  | 3 => ⟨"/List".toList, 16, .comp [⟨"value".toList, 0, 0⟩, ⟨"next".toList, 8, 4⟩]⟩
  | _ => ⟨"/List*".toList, 8, .ptr 3⟩⟩

theorem node_recursive : Recursive nodeHeap 1 :=
  ⟨1, 2, .refl 1, .field (f := ⟨"children".toList, 8, 2⟩) rfl (List.mem_of_getElem? (i := 1) rfl),
    .step (.vec (e := 1) rfl) (.refl 1)⟩

theorem list_tree : IsTree nodeHeap 3 (.comp 16 (.cons 0 (.num 4) (.cons 8 (.ptr 8) .nil))) := ⟨2, rfl⟩

theorem list_not_recursive : ¬ Recursive nodeHeap 3 := not_recursive_of_unfold (f := 2) (ty := _) rfl

theorem node_sane : Sane nodeHeap := by
  constructor
  · intro t d e h
    match t with
    | 0 | 1 | 2 | 3 => cases h
    | (_ + 4) => cases h
  · intro t e h
    match t with
    | 0 | 1 | 2 | 3 => cases h
    | (_ + 4) => cases h

/-- **C57**: a structure with a vector of itself is valid C++, and can be registered. Its layout (needed to copy, compare, dump or
load it) is computed by a recursion that never ends: the program overflows the stack. -/
theorem C57_recursive_counterexample (tag : TId → Ty) : ∀ f ap ao l, gvisit nodeHeap tag f ap ao l 1 = .fuel := by
  have key : ∀ f, (∀ ap ao l, gvisit nodeHeap tag f ap ao l 1 = .fuel) ∧ (∀ ap ao l, gvisit nodeHeap tag f ap ao l 2 = .fuel) := by
    intro f
    induction f with
    | zero => exact ⟨fun _ _ _ => rfl, fun _ _ _ => rfl⟩
    | succ f ih =>
      constructor
      · intro ap ao l
        cases f with
        | zero => rfl
        | succ f =>
          show (gvisit nodeHeap tag (f + 1) ap ao
            (pushSkip { ops := (pushSkip l (wsub 0 0)).ops ++ [.n FLAG_MEMCPY, .n 4],
                        init := (pushSkip l (wsub 0 0)).init ++ [.n FLAG_INIT_SKIP, .n 4] }
              (wsub 8 (wadd 0 4))) 2 >>= _) >>= _ = Res.fuel
          rw [ih.2]
          rfl
      · intro ap ao l
        rw [gvisit]
        show (gvisit nodeHeap tag f false false ⟨[], []⟩ 1 >>= _) = Res.fuel
        rw [ih.1]
        rfl
  exact fun f => (key f).1

/-- `struct P { int a; std::string s; }`, and `std::vector<P>` -/
def staleHeap : Heap := ⟨5, fun
  | 0 => ⟨"/int".toList, 4, .num .sint⟩
  | 1 => ⟨"/char".toList, 1, .num .sint⟩
  | 2 => ⟨"/std/string".toList, 32, .str 1⟩
  | 3 => ⟨"/P".toList, 36, .comp [⟨"a".toList, 0, 0⟩, ⟨"s".toList, 4, 2⟩]⟩
  | 4 => ⟨"/std/vector</P>".toList, 24, .vec 3⟩
  | _ => ⟨[], 0, .null⟩⟩

def staleReg : Registry.Reg := Registry.run Registry.ascii staleHeap Registry.Reg.empty
  [.addAuto 0 [], .addAuto 1 [], .addAuto 2 [], .addAuto 3 [], .addAuto 4 []]

/-- how far the first block of the layout goes -/
def firstBlock : Res ML → Option Nat
  | .ok ⟨_ :: .n k :: _, _⟩ => some k
  | _ => none

/-- **C57**: `Registry::resize` changes the element type of a vector; the vector type goes on with the layout of the elements that it
kept from its creation. Here 4 bytes of each element would be copied before the string, which now is at offset 8. -/
theorem C57_stale_counterexample :
    let tag : TId → Ty := fun _ => .str 32
    let H' := (Resize.resize 10 staleHeap staleReg [("/int".toList, 8)]).1
    H'.kind 3 = .comp [⟨"a".toList, 0, 0⟩, ⟨"s".toList, 8, 2⟩] ∧ H'.size 3 = 40 ∧
    firstBlock (elementLayout staleHeap tag 5 3) = some 4 ∧ firstBlock (elementLayout H' tag 5 3) = some 8 := by
  decide +kernel

/-! ### The theorems on concrete cases -/

theorem node_closed : ∀ t, t < nodeHeap.next → ∀ u, Contains nodeHeap t u → u < nodeHeap.next := by
  intro t ht u h
  have hu : u ∈ nodeHeap.deps t := by
    unfold Heap.deps
    cases h with
    | field hk hf => rw [hk]; exact List.mem_map.mpr ⟨_, hf, rfl⟩
    | arr hk | vec hk | str hk => rw [hk]; exact List.mem_singleton_self _
  clear h
  revert u
  match t, ht with
  | 0, _ | 1, _ | 2, _ | 3, _ | 4, _ => decide

example := C57_tree nodeHeap node_closed 3 (by decide)

example := C57_layout nodeHeap node_sane 3 _ list_tree false false true true

example := C57_terminates nodeHeap node_closed 3 (by decide) list_not_recursive (treeTag nodeHeap) true false ⟨[], []⟩

example := C57_recursive nodeHeap 1 node_recursive

example := C57_vector_creation nodeHeap node_sane 3 _ list_tree
  (by simp [Ty.WF, Fields.WF, Ty.size, W])

/-- the layout of the elements of a vector does not depend on types that are not parts of them -/
example (f : Nat) := C57_element_layout nodeHeap (nodeHeap.alloc ⟨"/X".toList, 4, .num .sint⟩) (treeTag nodeHeap) 0
  (fun u h => by
    have : u = 0 := by
      cases h with
      | refl => rfl
      | step h _ =>
        cases h with
        | field hk _ | arr hk | vec hk | str hk => cases hk
    subst this
    rfl) f

end Verif.LayoutGraph
