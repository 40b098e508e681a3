import Verif.LayoutGraph

/-!
C63: accessors, which collect all the parts of a value that have a wanted type (bindings/ruby/lib/typelib/accessor.rb,
bindings/ruby/lib/typelib/path.rb), with the default getter `raw_get` and the default iterator `raw_each`.
-/

namespace Verif.RubyAccessor
open Verif Verif.Names Verif.Graph Verif.LayoutGraph

/-! ### Model -/

mutual
/-- a value seen from Ruby: each part is an object (`id`) with its type -/
inductive V where
  | leaf (ty : TId) (id : Nat)
  | comp (ty : TId) (id : Nat) (fs : Fs)
  | seq (ty : TId) (id : Nat) (es : Es)
/-- the fields of a compound -/
inductive Fs where
  | nil
  | cons (name : Str) (v : V) (rest : Fs)
/-- the elements of an array or container -/
inductive Es where
  | nil
  | cons (v : V) (rest : Es)
end

def V.ty : V → TId
  | .leaf t _ => t
  | .comp t _ _ => t
  | .seq t _ _ => t

def V.id : V → Nat
  | .leaf _ i => i
  | .comp _ i _ => i
  | .seq _ i _ => i

def Es.toList : Es → List V
  | .nil => []
  | .cons v r => v :: r.toList

def Fs.toList : Fs → List (Str × V)
  | .nil => []
  | .cons n v r => (n, v) :: r.toList

/-- elements of a path: `[:call, [:raw_get, name]]`, `[:iterate, [:raw_each]]` (path.rb:28-46) -/
inductive Op where
  | call (name : Str)
  | iterate
  deriving DecidableEq

abbrev Path := List Op

/-- the loop on the fields (accessor.rb:33-43) -/
def traverseFields (rec : TId → Res (List Path)) : List FieldD → Res (List Path)
  | [] => .ok []
  | f :: r => do
    let ms ← rec f.ty
    let rest ← traverseFields rec r
    .ok (ms.map (.call f.name :: ·) ++ rest)

/-- `traverse_and_find_in_type` (accessor.rb:20-55); the fuel bounds the depth of the recursion, the block is `P` -/
def traverse (H : Heap) (P : TId → Bool) : Nat → TId → Res (List Path)
  | 0, _ => .fuel
  | f + 1, t =>
    let own : List Path := if P t then [[]] else []
    match H.kind t with
    | .comp fs => do
      let ms ← traverseFields (traverse H P f) fs
      .ok (own ++ ms)
    | .arr _ e | .vec e | .str e => do
      let ms ← traverse H P f e
      .ok (own ++ ms.map (.iterate :: ·))
    | _ => .ok own

/-- `matches.sort_by { |p| p.size }` (accessor.rb:16): Ruby does not say in which order it puts paths of the same size -/
def SortBy (ms ms' : List Path) : Prop := ms'.Perm ms ∧ ms'.Pairwise (fun a b => a.length ≤ b.length)

/-- `CompoundType#raw_get(name)`: the first field of that name (compound_type.rb:443-445, specialized_types.cc:42-61, value.cc,
typemodel.cc `Compound::getField`) -/
def rawGet (n : Str) : Fs → Res V
  | .nil => .exn .rbArg
  | .cons m v r => if m = n then .ok v else rawGet n r

/-- `raw_each` on an array or container (array_type.rb:81-89, container_type.rb:151-156, 337-345): the elements in order; on something
else `NoMethodError` -/
def rawEach : V → Res (List V)
  | .seq _ _ es => .ok es.toList
  | _ => .exn .exception

def collect (rec : V → Res (List V)) : List V → Res (List V)
  | [] => .ok []
  | v :: r => do
    let a ← rec v
    let b ← collect rec r
    .ok (a ++ b)

/-- `Path#resolve`, `call` and `iterate` (path.rb:49-81) -/
def resolve : Path → V → Res (List V)
  | [], v => .ok [v]
  | .call n :: p, v =>
    match v with
    | .comp _ _ fs => rawGet n fs >>= fun v => resolve p v
    | _ => .exn .exception
  | .iterate :: p, v => rawEach v >>= fun l => collect (resolve p) l

/-- `Accessor#each` (accessor.rb:57-66): the objects that are yielded -/
def each (paths : List Path) (root : V) : Res (List V) :=
  match paths with
  | [] => .ok []
  | p :: r => do
    let a ← resolve p root
    let b ← each r root
    .ok (a ++ b)

/-! ### Specification -/

mutual
/-- all the parts of a value, the value itself included, with their depths -/
def V.parts (d : Nat) : V → List (Nat × V)
  | .leaf t i => [(d, .leaf t i)]
  | .comp t i fs => (d, .comp t i fs) :: fs.parts (d + 1)
  | .seq t i es => (d, .seq t i es) :: es.parts (d + 1)
def Fs.parts (d : Nat) : Fs → List (Nat × V)
  | .nil => []
  | .cons _ v r => v.parts d ++ r.parts d
def Es.parts (d : Nat) : Es → List (Nat × V)
  | .nil => []
  | .cons v r => v.parts d ++ r.parts d
end

/-- types whose values have no parts -/
def Kind.Leaf : Kind → Prop
  | .comp _ | .arr _ _ | .vec _ | .str _ => False
  | _ => True

/-- the type of the elements -/
def Kind.Seq (k : Kind) (n : Nat) (e : TId) : Prop := k = .arr n e ∨ k = .vec e ∨ k = .str e

mutual
/-- a value of a type -/
inductive HasType (H : Heap) : V → TId → Prop
  | leaf {t i} : Kind.Leaf (H.kind t) → HasType H (.leaf t i) t
  | comp {t i fs vs} : H.kind t = .comp fs → FieldsOk H fs vs → HasType H (.comp t i vs) t
  | seq {t i e es} : Kind.Seq (H.kind t) es.toList.length e → ElemsOk H e es → HasType H (.seq t i es) t
inductive FieldsOk (H : Heap) : List FieldD → Fs → Prop
  | nil : FieldsOk H [] .nil
  | cons {f fs v r} : HasType H v f.ty → FieldsOk H fs r → FieldsOk H (f :: fs) (.cons f.name v r)
inductive ElemsOk (H : Heap) : TId → Es → Prop
  | nil {e} : ElemsOk H e .nil
  | cons {e v r} : HasType H v e → ElemsOk H e r → ElemsOk H e (.cons v r)
end

/-- no compound inside the type has two fields of the same name -/
def Distinct (H : Heap) (t : TId) : Prop := ∀ u fs, Part H t u → H.kind u = .comp fs → (fs.map (·.name)).Nodup

/-! ### Proofs -/

variable {H : Heap} {P : TId → Bool}

theorem collect_ok {rec : V → Res (List V)} {g : V → List V} : ∀ (l : List V), (∀ v ∈ l, rec v = .ok (g v)) →
    collect rec l = .ok (l.flatMap g)
  | [], _ => rfl
  | v :: r, h => by
    unfold collect
    rw [h v (by simp), collect_ok r (fun w hw => h w (List.mem_cons_of_mem _ hw))]
    rfl

theorem each_ok {g : Path → List V} {root : V} : ∀ (l : List Path), (∀ p ∈ l, resolve p root = .ok (g p)) →
    each l root = .ok (l.flatMap g)
  | [], _ => rfl
  | v :: r, h => by
    unfold each
    rw [h v (by simp), each_ok r (fun w hw => h w (List.mem_cons_of_mem _ hw))]
    rfl

/-- the objects a path leads to, with their depth -/
def reach (d : Nat) (p : Path) (v : V) : List (Nat × V) :=
  match resolve p v with
  | .ok l => l.map (fun w => (d + p.length, w))
  | _ => []

theorem flatMap_congr' {α β : Type} {f g : α → List β} : ∀ {l : List α}, (∀ a ∈ l, f a = g a) → l.flatMap f = l.flatMap g
  | [], _ => rfl
  | a :: l, h => by
    rw [List.flatMap_cons, List.flatMap_cons, h a (by simp), flatMap_congr' (fun b hb => h b (List.mem_cons_of_mem _ hb))]

theorem flatMap_append_perm {α β : Type} (f g : α → List β) : ∀ (l : List α),
    (l.flatMap f ++ l.flatMap g).Perm (l.flatMap (fun a => f a ++ g a))
  | [] => .nil
  | a :: l => by
    simp only [List.flatMap_cons]
    have ih := flatMap_append_perm f g l
    refine List.Perm.trans ?_ (ih.append_left (f a ++ g a))
    simp only [List.append_assoc]
    refine List.Perm.append_left _ ?_
    rw [← List.append_assoc, ← List.append_assoc]
    exact List.perm_append_comm.append_right _

theorem flatMap_swap {α β γ : Type} (f : α → β → List γ) : ∀ (l : List α) (m : List β),
    (l.flatMap (fun a => m.flatMap (f a))).Perm (m.flatMap (fun b => l.flatMap (fun a => f a b)))
  | [], m => by simp
  | a :: l, m => by
    simp only [List.flatMap_cons]
    exact ((flatMap_swap f l m).append_left _).trans (flatMap_append_perm _ _ m)

/-- the paths are all right for the value, and lead exactly to its wanted parts -/
def Good (P : TId → Bool) (ms : List Path) (v : V) : Prop :=
  (∀ p ∈ ms, ∃ l, resolve p v = .ok l) ∧
  ∀ d, (ms.flatMap (fun p => reach d p v)).Perm ((v.parts d).filter (fun x => P x.2.ty))

theorem parts_own (d : Nat) (v : V) : ∃ rest, v.parts d = (d, v) :: rest := by
  cases v <;> exact ⟨_, rfl⟩

theorem own_reach (v : V) (d : Nat) : ((if P v.ty then [[]] else [] : List Path).flatMap (fun p => reach d p v)) =
    [(d, v)].filter (fun x => P x.2.ty) := by
  by_cases h : P v.ty <;> simp [h, reach, resolve]

theorem own_ok (v : V) : ∀ p ∈ (if P v.ty then [[]] else [] : List Path), ∃ l, resolve p v = .ok l := by
  intro p hp
  by_cases h : P v.ty
  · simp only [h, if_true, List.mem_singleton] at hp
    subst hp
    exact ⟨_, rfl⟩
  · simp [h] at hp

/-- the objects of the fields, reached by name -/
theorem fields_good {rec : TId → Res (List Path)} {t : TId} {i : Nat} {all : Fs} : ∀ {fs : List FieldD} {vs : Fs} {ms : List Path},
    FieldsOk H fs vs → (fs.map (·.name)).Nodup →
    (∀ f ∈ fs, ∀ v l, HasType H v f.ty → rec f.ty = .ok l → Good P l v) →
    (∀ n v, (n, v) ∈ vs.toList → rawGet n all = .ok v) → traverseFields rec fs = .ok ms →
    (∀ p ∈ ms, ∃ l, resolve p (.comp t i all) = .ok l) ∧
    ∀ d, (ms.flatMap (fun p => reach d p (.comp t i all))).Perm ((vs.parts (d + 1)).filter (fun x => P x.2.ty))
  | [], vs, ms, hok, _, _, _, h => by
    cases hok
    injection h with h
    subst h
    exact ⟨(fun p hp => by cases hp), (fun d => List.Perm.nil)⟩
  | f :: fs, vs, ms, hok, hnd, hrec, hget, h => by
    cases hok with
    | cons hv hr =>
      rename_i v r
      obtain ⟨l, hl, h⟩ := Res.bind_eq_ok.mp h
      obtain ⟨rest, hrest, h⟩ := Res.bind_eq_ok.mp h
      injection h with h
      subst h
      have hg := hrec f (by simp) v l hv hl
      have hgf : rawGet f.name all = .ok v := hget _ _ (by simp [Fs.toList])
      obtain ⟨ih1, ih2⟩ := fields_good (t := t) (i := i) (all := all) hr (List.nodup_cons.mp hnd).2
        (fun g hg => hrec g (List.mem_cons_of_mem _ hg)) (fun n w hw => hget n w (by simp [Fs.toList, hw])) hrest
      have hres : ∀ p, resolve (.call f.name :: p) (.comp t i all) = resolve p v := by
        intro p
        show (rawGet f.name all >>= fun v => resolve p v) = _
        rw [hgf]
        rfl
      refine ⟨fun p hp => ?_, fun d => ?_⟩
      · rcases List.mem_append.mp hp with hp | hp
        · obtain ⟨q, hq, rfl⟩ := List.mem_map.mp hp
          obtain ⟨x, hx⟩ := hg.1 q hq
          exact ⟨x, by rw [hres, hx]⟩
        · exact ih1 p hp
      · simp only [List.flatMap_append, Fs.parts, List.filter_append]
        refine List.Perm.append ?_ (ih2 d)
        rw [List.flatMap_map]
        have : ∀ q, reach d (.call f.name :: q) (.comp t i all) = reach (d + 1) q v := by
          intro q
          unfold reach
          rw [hres]
          simp only [List.length_cons]
          rw [show d + (q.length + 1) = d + 1 + q.length by omega]
        simp only [this]
        exact hg.2 (d + 1)

theorem rawGet_mem : ∀ {vs : Fs} {n : Str} {v : V}, (vs.toList.map (·.1)).Nodup → (n, v) ∈ vs.toList → rawGet n vs = .ok v
  | .nil, _, _, _, h => by cases h
  | .cons m w r, n, v, hnd, h => by
    simp only [Fs.toList, List.map_cons, List.nodup_cons] at hnd
    simp only [Fs.toList, List.mem_cons, Prod.mk.injEq] at h
    unfold rawGet
    rcases h with ⟨rfl, rfl⟩ | h
    · rw [if_pos rfl]
    · rw [if_neg, rawGet_mem hnd.2 h]
      rintro rfl
      exact hnd.1 (List.mem_map.mpr ⟨_, h, rfl⟩)

theorem fieldsOk_names : ∀ {fs : List FieldD} {vs : Fs}, FieldsOk H fs vs → vs.toList.map (·.1) = fs.map (·.name)
  | [], _, h => by cases h; rfl
  | f :: fs, _, h => by
    cases h with
    | cons hv hr => simp only [Fs.toList, List.map_cons]; rw [fieldsOk_names hr]

theorem elems_mem : ∀ {es : Es} {e : TId}, ElemsOk H e es → ∀ v ∈ es.toList, HasType H v e
  | .nil, _, _, v, hv => by cases hv
  | .cons w r, e, h, v, hv => by
    cases h with
    | cons h1 h2 =>
      rcases List.mem_cons.mp hv with rfl | hv
      · exact h1
      · exact elems_mem h2 v hv

theorem es_parts (d : Nat) : ∀ (es : Es), es.parts d = es.toList.flatMap (V.parts d)
  | .nil => rfl
  | .cons v r => by simp only [Es.parts, Es.toList, List.flatMap_cons]; rw [es_parts d r]

theorem elems_good {e t : TId} {i : Nat} {es : Es} {ms : List Path} (h : ∀ v ∈ es.toList, Good P ms v) :
    (∀ p ∈ ms.map (.iterate :: ·), ∃ l, resolve p (.seq t i es) = .ok l) ∧
    ∀ d, ((ms.map (Op.iterate :: ·)).flatMap (fun p => reach d p (.seq t i es))).Perm
      ((es.parts (d + 1)).filter (fun x => P x.2.ty)) := by
  have hres : ∀ p ∈ ms, resolve (.iterate :: p) (.seq t i es) =
      .ok (es.toList.flatMap (fun v => (reach 0 p v).map (·.2))) := by
    intro p hp
    show (Res.ok es.toList >>= fun l => collect (resolve p) l) = _
    rw [Res.bind_ok]
    refine collect_ok _ (fun v hv => ?_)
    obtain ⟨l, hl⟩ := (h v hv).1 p hp
    unfold reach
    rw [hl]
    simp [Function.comp_def]
  refine ⟨fun p hp => ?_, fun d => ?_⟩
  · obtain ⟨q, hq, rfl⟩ := List.mem_map.mp hp
    exact ⟨_, hres q hq⟩
  · rw [List.flatMap_map]
    have e1 : ∀ p ∈ ms, reach d (.iterate :: p) (.seq t i es) = es.toList.flatMap (fun v => reach (d + 1) p v) := by
      intro p hp
      unfold reach
      rw [hres p hp]
      simp only [List.map_flatMap, List.length_cons]
      refine flatMap_congr' (fun v hv => ?_)
      obtain ⟨l, hl⟩ := (h v hv).1 p hp
      simp only [reach, hl, List.map_map]
      refine List.map_congr_left (fun w _ => ?_)
      simp only [Function.comp]
      rw [show d + (p.length + 1) = d + 1 + p.length by omega]
    rw [flatMap_congr' e1, es_parts, List.filter_flatMap]
    refine (flatMap_swap (fun p v => reach (d + 1) p v) ms es.toList).trans ?_
    have : ∀ (l : List V), (∀ v ∈ l, Good P ms v) → (l.flatMap (fun v => ms.flatMap (fun p => reach (d + 1) p v))).Perm
        (l.flatMap (fun v => (v.parts (d + 1)).filter (fun x => P x.2.ty))) := by
      intro l
      induction l with
      | nil => intro _; exact .nil
      | cons v r ih =>
        intro hl
        simp only [List.flatMap_cons]
        exact ((hl v (by simp)).2 (d + 1)).append (ih (fun w hw => hl w (List.mem_cons_of_mem _ hw)))
    exact this _ h

theorem good_own {own ms : List Path} {v : V} {rest : Nat → List (Nat × V)} (ho : own = if P v.ty then [[]] else [])
    (hp : ∀ d, v.parts d = (d, v) :: rest d) (h1 : ∀ p ∈ ms, ∃ l, resolve p v = .ok l)
    (h2 : ∀ d, (ms.flatMap (fun p => reach d p v)).Perm ((rest d).filter (fun x => P x.2.ty))) : Good P (own ++ ms) v := by
  subst ho
  refine ⟨fun p hm => ?_, fun d => ?_⟩
  · rcases List.mem_append.mp hm with hm | hm
    · exact own_ok v p hm
    · exact h1 p hm
  · rw [List.flatMap_append, own_reach, hp d, show (d, v) :: rest d = [(d, v)] ++ rest d from rfl, List.filter_append]
    exact (h2 d).append_left _

theorem traverse_good : ∀ (f : Nat) {t : TId} {ms : List Path} {v : V}, Distinct H t → traverse H P f t = .ok ms →
    HasType H v t → Good P ms v
  | 0, _, _, _, _, h, _ => by cases h
  | f + 1, t, ms, v, hd, h, hv => by
    have hsub : ∀ u, Contains H t u → Distinct H u := fun u hu w fs hw => hd w fs (.step hu hw)
    cases hv with
    | leaf hl =>
      rename_i i
      have h' : traverse H P (f + 1) t = .ok (if P t then [[]] else []) := by
        unfold traverse
        cases hk : H.kind t <;> rw [hk] at hl <;> first | exact hl.elim | rfl
      rw [h'] at h
      injection h with h
      subst h
      have := good_own (P := P) (own := if P t then [[]] else []) (ms := []) (v := .leaf t i) (rest := fun _ => []) rfl (fun d => rfl)
        (fun p hp => by cases hp) (fun d => .nil)
      rwa [List.append_nil] at this
    | comp hk hok =>
      rename_i i fs vs
      simp only [traverse, hk] at h
      obtain ⟨l, hl, h⟩ := Res.bind_eq_ok.mp h
      injection h with h
      subst h
      have hnd := hd t fs (.refl t) hk
      obtain ⟨g1, g2⟩ := fields_good (P := P) (t := t) (i := i) (all := vs) hok hnd
        (fun fd hfd w l hw hl => traverse_good f (hsub _ (.field hk hfd)) hl hw)
        (fun n w hw => rawGet_mem (by rw [fieldsOk_names hok]; exact hnd) hw) hl
      exact good_own (v := .comp t i vs) (rest := fun d => vs.parts (d + 1)) rfl (fun d => rfl) g1 g2
    | seq hs hok =>
      rename_i i e es
      have hc : Contains H t e := by
        rcases hs with h | h | h
        · exact .arr h
        · exact .vec h
        · exact .str h
      have h' : traverse H P (f + 1) t = (traverse H P f e >>= fun ms =>
          .ok ((if P t then [[]] else []) ++ ms.map (.iterate :: ·))) := by
        rcases hs with h | h | h <;> simp only [traverse, h]
      rw [h'] at h
      obtain ⟨l, hl, h⟩ := Res.bind_eq_ok.mp h
      injection h with h
      subst h
      obtain ⟨g1, g2⟩ := elems_good (P := P) (e := e) (t := t) (i := i) (es := es) (ms := l)
        (fun w hw => traverse_good f (hsub e hc) hl (elems_mem hok w hw))
      exact good_own (v := .seq t i es) (rest := fun d => es.parts (d + 1)) rfl (fun d => rfl) g1 g2

theorem reach_depth {d : Nat} {p : Path} {v : V} {x : Nat × V} (h : x ∈ reach d p v) : x.1 = d + p.length := by
  unfold reach at h
  split at h
  · obtain ⟨w, _, rfl⟩ := List.mem_map.mp h
    rfl
  · cases h

/-- **C63, completeness**: whatever the type (as long as field names are distinct) and the value: `each` gives exactly the parts of
the value that have a wanted type, each object once, from the outside to the inside. -/
theorem C63_each {f : Nat} {t : TId} {ms ms' : List Path} {v : V} (hd : Distinct H t) (h : traverse H P f t = .ok ms)
    (hs : SortBy ms ms') (hv : HasType H v t) :
    ∃ l : List (Nat × V), each ms' v = .ok (l.map (·.2)) ∧ l.Perm ((v.parts 0).filter (fun x => P x.2.ty)) ∧ l.Pairwise (fun a b => a.1 ≤ b.1) := by
  obtain ⟨g1, g2⟩ := traverse_good f hd h hv
  have g1' : ∀ p ∈ ms', ∃ l, resolve p v = .ok l := fun p hp => g1 p (hs.1.mem_iff.mp hp)
  refine ⟨ms'.flatMap (fun p => reach 0 p v), ?_, ?_, ?_⟩
  · rw [List.map_flatMap]
    refine each_ok ms' (fun p hp => ?_)
    obtain ⟨l, hl⟩ := g1' p hp
    simp [reach, hl, Function.comp_def]
  · exact (hs.1.flatMap_right _).trans (g2 0)
  · have hs2 := hs.2
    clear hs g1' g2 h
    induction ms' with
    | nil => exact .nil
    | cons p r ih =>
      rw [List.pairwise_cons] at hs2
      rw [List.flatMap_cons, List.pairwise_append]
      refine ⟨?_, ih hs2.2, ?_⟩
      · refine List.pairwise_of_forall_mem_list (fun a ha b hb => ?_)
        rw [reach_depth ha, reach_depth hb]
        exact Nat.le_refl _
      · intro a ha b hb
        obtain ⟨q, hq, hb⟩ := List.mem_flatMap.mp hb
        rw [reach_depth ha, reach_depth hb]
        have := hs2.1 q hq
        omega

theorem traverseFields_ok {rec : TId → Res (List Path)} : ∀ {fs : List FieldD}, (∀ f ∈ fs, ∃ l, rec f.ty = .ok l) →
    ∃ l, traverseFields rec fs = .ok l
  | [], _ => ⟨_, rfl⟩
  | f :: fs, h => by
    obtain ⟨a, ha⟩ := h f (by simp)
    obtain ⟨b, hb⟩ := traverseFields_ok (fun g hg => h g (List.mem_cons_of_mem _ hg))
    exact ⟨a.map (.call f.name :: ·) ++ b, by unfold traverseFields; rw [ha, Res.bind_ok, hb]; rfl⟩

theorem traverse_step {f : Nat} {t : TId} (h : ∀ u, Contains H t u → ∃ l, traverse H P f u = .ok l) :
    ∃ l, traverse H P (f + 1) t = .ok l := by
  unfold traverse
  cases hk : H.kind t with
  | comp fs =>
    obtain ⟨l, hl⟩ := traverseFields_ok (rec := traverse H P f) (fs := fs) (fun g hg => h _ (.field hk hg))
    exact ⟨(if P t then [[]] else []) ++ l, by simp only [hl]; rfl⟩
  | arr d e => obtain ⟨l, hl⟩ := h e (.arr hk); exact ⟨(if P t then [[]] else []) ++ l.map (.iterate :: ·), by simp only [hl]; rfl⟩
  | vec e => obtain ⟨l, hl⟩ := h e (.vec hk); exact ⟨(if P t then [[]] else []) ++ l.map (.iterate :: ·), by simp only [hl]; rfl⟩
  | str e => obtain ⟨l, hl⟩ := h e (.str hk); exact ⟨(if P t then [[]] else []) ++ l.map (.iterate :: ·), by simp only [hl]; rfl⟩
  | _ => exact ⟨_, rfl⟩

theorem traverse_ends (hd : ∀ t, t < H.next → ∀ u, Contains H t u → u < H.next) :
    ∀ (f : Nat) (t : TId) (seen : List TId), seen.Nodup → (∀ s ∈ seen, s < H.next) → t < H.next →
      (∀ s ∈ seen, ∃ v, Contains H s v ∧ Part H v t) → ¬ Recursive H t →
      H.next < seen.length + f → ∃ l, traverse H P f t = .ok l := by
  intro f
  induction f with
  | zero =>
    intro t seen hn hlt _ _ _ hlen
    have := Merge.length_le_of_nodup H.next seen hn hlt
    omega
  | succ f ih =>
    intro t seen hn hlt ht hs hr hlen
    have hts : t ∉ seen := by
      intro hm
      obtain ⟨v, h1, h2⟩ := hs t hm
      exact hr ⟨t, v, .refl t, h1, h2⟩
    refine traverse_step (fun u hc => ih u (t :: seen) (List.nodup_cons.mpr ⟨hts, hn⟩) ?_ (hd t ht u hc) ?_ ?_ ?_)
    · intro s hs'
      rcases List.mem_cons.mp hs' with rfl | hs'
      · exact ht
      · exact hlt s hs'
    · intro s hs'
      rcases List.mem_cons.mp hs' with rfl | hs'
      · exact ⟨u, hc, .refl u⟩
      · obtain ⟨v, h1, h2⟩ := hs s hs'
        exact ⟨v, h1, h2.trans (.step hc (.refl u))⟩
    · rintro ⟨x, y, h1, h2, h3⟩
      exact hr ⟨x, y, .step hc h1, h2, h3⟩
    · simp only [List.length_cons]; omega

/-- **C63, termination**: an accessor can be built on every type that does not contain itself. -/
theorem C63_terminates (hd : ∀ t, t < H.next → ∀ u, Contains H t u → u < H.next) (t : TId) (ht : t < H.next)
    (hr : ¬ Recursive H t) : ∃ f ms, traverse H P f t = .ok ms := by
  obtain ⟨l, hl⟩ := traverse_ends (P := P) hd (H.next + 1) t [] .nil (fun s hs => by cases hs) ht (fun s hs => by cases hs) hr
    (by simp)
  exact ⟨_, l, hl⟩

theorem traverseFields_mem {rec : TId → Res (List Path)} : ∀ {fs : List FieldD} {l : List Path}, traverseFields rec fs = .ok l →
    ∀ f ∈ fs, ∃ l, rec f.ty = .ok l
  | [], _, _, f, hf => by cases hf
  | g :: fs, l, h, f, hf => by
    obtain ⟨a, ha, h⟩ := Res.bind_eq_ok.mp h
    obtain ⟨b, hb, _⟩ := Res.bind_eq_ok.mp h
    rcases List.mem_cons.mp hf with rfl | hf
    · exact ⟨a, ha⟩
    · exact traverseFields_mem hb f hf

theorem traverse_part {f : Nat} {t u : TId} {l : List Path} (h : traverse H P (f + 1) t = .ok l) (hc : Contains H t u) :
    ∃ l, traverse H P f u = .ok l := by
  simp only [traverse] at h
  cases hc with
  | field hk hm => rw [hk] at h; obtain ⟨x, hx, _⟩ := Res.bind_eq_ok.mp h; exact traverseFields_mem hx _ hm
  | arr hk => rw [hk] at h; obtain ⟨x, hx, _⟩ := Res.bind_eq_ok.mp h; exact ⟨x, hx⟩
  | vec hk => rw [hk] at h; obtain ⟨x, hx, _⟩ := Res.bind_eq_ok.mp h; exact ⟨x, hx⟩
  | str hk => rw [hk] at h; obtain ⟨x, hx, _⟩ := Res.bind_eq_ok.mp h; exact ⟨x, hx⟩

theorem traverse_part' {t u : TId} (h : Part H t u) : ∀ {f : Nat} {l : List Path}, traverse H P f t = .ok l →
    ∃ g l, g ≤ f ∧ traverse H P g u = .ok l := by
  induction h with
  | refl t => exact fun {f l} h => ⟨f, l, Nat.le_refl _, h⟩
  | step hc _ ih =>
    intro f l h
    cases f with
    | zero => cases h
    | succ f =>
      obtain ⟨l', hl'⟩ := traverse_part h hc
      obtain ⟨g, l2, hg, h2⟩ := ih hl'
      exact ⟨g, l2, by omega, h2⟩

/-- **C63 fails for recursive types** (`struct Node { std::vector<Node> children; }`): looking for parts never ends, in Ruby with a
`SystemStackError`. -/
theorem C63_recursive_counterexample {t : TId} (hr : Recursive H t) (f : Nat) (ms : List Path) : traverse H P f t ≠ .ok ms := by
  obtain ⟨u, v, h1, h2, h3⟩ := hr
  have : ∀ f l, traverse H P f u ≠ .ok l := by
    intro f
    induction f using Nat.strongRecOn with
    | ind f ih =>
      intro l h
      cases f with
      | zero => cases h
      | succ f =>
        obtain ⟨l', hl'⟩ := traverse_part h h2
        obtain ⟨g, l2, hg, h4⟩ := traverse_part' h3 hl'
        exact ih g (by omega) l2 h4
  intro h
  obtain ⟨g, l, _, hl⟩ := traverse_part' h1 h
  exact this g l hl

theorem collect_append {rec : V → Res (List V)} : ∀ (a b : List V), collect rec (a ++ b) = (do
    let x ← collect rec a
    let y ← collect rec b
    .ok (x ++ y))
  | [], b => by
    simp only [List.nil_append, collect, Res.bind_ok, List.nil_append]
    cases collect rec b <;> rfl
  | v :: a, b => by
    simp only [List.cons_append, collect]
    rw [collect_append a b]
    cases rec v <;> try rfl
    cases collect rec a <;> try rfl
    cases collect rec b <;> try rfl
    simp only [Res.bind_ok, List.append_assoc]

theorem collect_bind {r1 r2 : V → Res (List V)} : ∀ (l : List V) (r : List V),
    collect (fun v => r1 v >>= collect r2) l = .ok r ↔ ∃ m, collect r1 l = .ok m ∧ collect r2 m = .ok r
  | [], r => by
    constructor
    · intro h; exact ⟨[], rfl, h⟩
    · rintro ⟨m, h1, h2⟩
      injection h1 with h1
      subst h1
      exact h2
  | v :: l, r => by
    constructor
    · intro h
      obtain ⟨x, hx, h⟩ := Res.bind_eq_ok.mp h
      obtain ⟨a, ha, hx⟩ := Res.bind_eq_ok.mp hx
      obtain ⟨y, hy, h⟩ := Res.bind_eq_ok.mp h
      obtain ⟨b, hb, hy⟩ := (collect_bind l y).mp hy
      refine ⟨a ++ b, ?_, ?_⟩
      · simp only [collect, ha, hb, Res.bind_ok]
      · rw [collect_append, hx, hy]
        exact h
    · rintro ⟨m, h1, h2⟩
      obtain ⟨a, ha, h1⟩ := Res.bind_eq_ok.mp h1
      obtain ⟨b, hb, h1⟩ := Res.bind_eq_ok.mp h1
      injection h1 with h1
      subst h1
      rw [collect_append] at h2
      obtain ⟨x, hx, h2⟩ := Res.bind_eq_ok.mp h2
      obtain ⟨y, hy, h2⟩ := Res.bind_eq_ok.mp h2
      have := (collect_bind l y).mpr ⟨b, hb, hy⟩
      simp only [collect, ha, Res.bind_ok, hx, this]
      exact h2

/-- **C63, paths**: following the sum of two paths (`Path#+`, path.rb:28-30) is following the first and then, from each object, the
second. -/
theorem C63_concat : ∀ (p q : Path) (v : V) (r : List V),
    resolve (p ++ q) v = .ok r ↔ ∃ l, resolve p v = .ok l ∧ collect (resolve q) l = .ok r
  | [], q, v, r => by
    simp only [List.nil_append, resolve, Res.ok.injEq]
    constructor
    · intro h; exact ⟨[v], rfl, by simp only [collect, h, Res.bind_ok, List.append_nil]⟩
    · rintro ⟨l, rfl, h⟩
      obtain ⟨x, hx, h⟩ := Res.bind_eq_ok.mp h
      simp only [collect, Res.bind_ok, List.append_nil] at h
      rw [hx]; exact h
  | .call n :: p, q, v, r => by
    cases v with
    | comp t i fs =>
      show (rawGet n fs >>= fun v => resolve (p ++ q) v) = .ok r ↔ ∃ l, (rawGet n fs >>= fun v => resolve p v) = .ok l ∧ _
      cases hg : rawGet n fs with
      | ok w => simp only [Res.bind_ok]; exact C63_concat p q w r
      | exn e => exact ⟨(fun h => by cases h), (fun h => by obtain ⟨l, h, _⟩ := h; cases h)⟩
      | ub => exact ⟨(fun h => by cases h), (fun h => by obtain ⟨l, h, _⟩ := h; cases h)⟩
      | fuel => exact ⟨(fun h => by cases h), (fun h => by obtain ⟨l, h, _⟩ := h; cases h)⟩
    | leaf t i => exact ⟨(fun h => by cases h), (fun h => by obtain ⟨l, h, _⟩ := h; cases h)⟩
    | seq t i es => exact ⟨(fun h => by cases h), (fun h => by obtain ⟨l, h, _⟩ := h; cases h)⟩
  | .iterate :: p, q, v, r => by
    cases v with
    | comp t i fs => exact ⟨(fun h => by cases h), (fun h => by obtain ⟨l, h, _⟩ := h; cases h)⟩
    | leaf t i => exact ⟨(fun h => by cases h), (fun h => by obtain ⟨l, h, _⟩ := h; cases h)⟩
    | seq t i es =>
      show collect (resolve (p ++ q)) es.toList = .ok r ↔ ∃ l, collect (resolve p) es.toList = .ok l ∧ _
      rw [← collect_bind]
      have : ∀ l : List V, collect (resolve (p ++ q)) l = .ok r ↔ collect (fun v => resolve p v >>= collect (resolve q)) l = .ok r := by
        intro l
        induction l generalizing r with
        | nil => exact Iff.rfl
        | cons w l ih =>
          have hw : ∀ x, resolve (p ++ q) w = .ok x ↔ (resolve p w >>= collect (resolve q)) = .ok x := fun x => by
            rw [C63_concat p q w x, Res.bind_eq_ok]
          simp only [collect, Res.bind_eq_ok, hw, ih]
      exact this es.toList

/-! ### Examples -/

/-- `struct S { int a; int b[2]; std::vector<T> c; }`, `struct T { int x; double y; }` -/
def accHeap : Heap where
  next := 6
  get := fun t =>
    match t with
    | 0 => ⟨"/int".toList, 4, .num .sint⟩
    | 1 => ⟨"/double".toList, 8, .num .float⟩
    | 2 => ⟨"/int[2]".toList, 8, .arr 2 0⟩
    | 3 => ⟨"/T".toList, 16, .comp [⟨"x".toList, 0, 0⟩, ⟨"y".toList, 8, 1⟩]⟩
    | 4 => ⟨"/std/vector</T>".toList, 24, .vec 3⟩
    | _ => ⟨"/S".toList, 40, .comp [⟨"a".toList, 0, 0⟩, ⟨"b".toList, 4, 2⟩, ⟨"c".toList, 16, 4⟩]⟩

def exT (i : Nat) : V := .comp 3 i (.cons "x".toList (.leaf 0 (i + 1)) (.cons "y".toList (.leaf 1 (i + 2)) .nil))

def exS : V := .comp 5 0 (.cons "a".toList (.leaf 0 1) (.cons "b".toList (.seq 2 2 (.cons (.leaf 0 3) (.cons (.leaf 0 4) .nil)))
  (.cons "c".toList (.seq 4 5 (.cons (exT 10) (.cons (exT 20) .nil))) .nil)))

theorem exT_ok (i : Nat) : HasType accHeap (exT i) 3 :=
  .comp rfl (.cons (f := ⟨"x".toList, 0, 0⟩) (.leaf trivial) (.cons (f := ⟨"y".toList, 8, 1⟩) (.leaf trivial) .nil))

theorem exS_ok : HasType accHeap exS 5 :=
  .comp rfl (.cons (f := ⟨"a".toList, 0, 0⟩) (.leaf trivial) (.cons (f := ⟨"b".toList, 4, 2⟩)
    (.seq (e := 0) (.inl rfl) (.cons (.leaf trivial) (.cons (.leaf trivial) .nil)))
    (.cons (f := ⟨"c".toList, 16, 4⟩) (.seq (e := 3) (.inr (.inl rfl)) (.cons (exT_ok _) (.cons (exT_ok _) .nil))) .nil)))

/-- all the integers of the value -/
example : ∃ ms, traverse accHeap (fun t => t = (0 : Nat)) 4 5 = .ok ms ∧ SortBy ms ms ∧
    (∃ l, each ms exS = .ok l ∧ l.map V.id = [1, 3, 4, 11, 21]) := by
  refine ⟨[[.call "a".toList], [.call "b".toList, .iterate], [.call "c".toList, .iterate, .call "x".toList]], rfl,
    ⟨.refl _, by decide⟩, ⟨_, rfl, rfl⟩⟩

example : Distinct accHeap 5 := by
  intro u fs _ hk
  match u with
  | 0 | 1 | 2 | 4 => cases hk
  | 3 => injection hk with hk; subst hk; decide
  | (n + 5) => injection hk with hk; subst hk; decide

/-- **C63 fails for fields of the same name**: the first one is given for both. -/
theorem C63_same_name_counterexample : ∃ (H : Heap) (v : V) (ms : List Path), HasType H v 1 ∧
    traverse H (fun t => t = (0 : Nat)) 2 1 = .ok ms ∧ SortBy ms ms ∧
    ∃ l, each ms v = .ok l ∧ l.map V.id = [1, 1] ∧ ((v.parts 0).filter (fun x => x.2.ty = (0 : Nat))).map (·.2.id) = [1, 2] := by
  refine ⟨⟨2, fun t => if t = (0 : Nat) then ⟨"/int".toList, 4, .num .sint⟩ else
      ⟨"/S".toList, 8, .comp [⟨['a'], 0, (0 : Nat)⟩, ⟨['a'], 4, (0 : Nat)⟩]⟩⟩,
    .comp 1 0 (.cons ['a'] (.leaf 0 1) (.cons ['a'] (.leaf 0 2) .nil)), [[.call ['a']], [.call ['a']]],
    .comp rfl (.cons (f := ⟨['a'], 0, (0 : Nat)⟩) (.leaf trivial) (.cons (f := ⟨['a'], 4, (0 : Nat)⟩) (.leaf trivial) .nil)), rfl,
    ⟨.refl _, by decide⟩, _, rfl, rfl, rfl⟩

/-! ### The theorems on concrete cases -/

theorem accHeap_distinct : Distinct accHeap 5 := by
  intro u fs _ hk
  match u with
  | 0 | 1 | 2 | 4 => cases hk
  | 3 => injection hk with hk; subst hk; decide
  | (n + 5) => injection hk with hk; subst hk; decide

example := C63_each (P := fun t => t = (0 : Nat)) (f := 4) (ms := [[.call "a".toList], [.call "b".toList, .iterate],
  [.call "c".toList, .iterate, .call "x".toList]]) (ms' := [[.call "a".toList], [.call "b".toList, .iterate],
  [.call "c".toList, .iterate, .call "x".toList]]) accHeap_distinct rfl ⟨.refl _, by decide⟩ exS_ok

end Verif.RubyAccessor
