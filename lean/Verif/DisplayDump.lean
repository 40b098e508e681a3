import Verif.DisplayProps

/-! C80: what a display and a dump tell. -/

namespace Verif.Display
open Verif Verif.Graph Verif.Registry

theorem kind_vec : Word "/std/vector".toList ∧ '<' ∉ "/std/vector".toList := by
  constructor
  · intro c hc
    revert c
    decide
  · decide

theorem kind_str : Word "/std/string".toList ∧ '<' ∉ "/std/string".toList := by
  constructor
  · intro c hc
    revert c
    decide
  · decide

mutual
theorem shows_good {H : Heap} (hp : Plain H) : ∀ {t : TId} {d : Shown}, Shows H t d → Good d
  | _, _, .null _ => trivial
  | _, _, .opaque _ => hp.names _
  | _, _, .num _ => hp.names _
  | _, _, .enum h => ⟨hp.names _, hp.symbols _ _ h⟩
  | _, _, .ptr _ => hp.names _
  | _, _, .arr _ h => by have := shows_good hp h; simpa only [Good] using this
  | _, _, .vec _ => ⟨kind_vec.1, kind_vec.2, hp.names _⟩
  | _, _, .str _ => ⟨kind_str.1, kind_str.2, hp.names _⟩
  | _, _, .comp hk h => ⟨hp.names _, showsAll_good hp (hp.fields _ _ hk) h⟩
theorem showsAll_good {H : Heap} (hp : Plain H) : ∀ {fs : List FieldD} {ds : ShownFields}, (∀ f ∈ fs, Line f.name) →
    ShowsAll H fs ds → GoodF ds
  | _, _, _, .nil => trivial
  | _, _, hf, .cons h hs => ⟨shows_good hp h, hf _ List.mem_cons_self,
      showsAll_good hp (fun f h => hf f (List.mem_cons_of_mem _ h)) hs⟩
end

mutual
theorem shows_unique {H : Heap} : ∀ {t : TId} {d d' : Shown}, Shows H t d → Shows H t d' → d = d'
  | _, _, d', .null h, h' => by cases h' <;> simp_all
  | _, _, d', .opaque h, h' => by cases h' <;> simp_all
  | _, _, d', .num h, h' => by cases h' <;> simp_all
  | _, _, d', .enum h, h' => by cases h' <;> simp_all
  | _, _, d', .ptr h, h' => by cases h' <;> simp_all
  | _, _, d', .vec h, h' => by cases h' <;> simp_all
  | _, _, d', .str h, h' => by cases h' <;> simp_all
  | _, _, d', .arr h hs, h' => by
    cases h' with
    | arr h2 hs2 =>
      rw [h] at h2
      injection h2 with h2 h3
      subst h2 h3
      rw [shows_unique hs hs2]
    | _ => simp_all
  | _, _, d', .comp h hs, h' => by
    cases h' with
    | comp h2 hs2 =>
      rw [h] at h2
      injection h2 with h2
      subst h2
      rw [showsAll_unique hs hs2]
    | _ => simp_all
theorem showsAll_unique {H : Heap} : ∀ {fs : List FieldD} {d d' : ShownFields}, ShowsAll H fs d → ShowsAll H fs d' → d = d'
  | _, _, _, .nil, .nil => rfl
  | _, _, _, .cons h hs, .cons h' hs' => by rw [shows_unique h h', showsAll_unique hs hs']
end

/-- Two types, of the same registry or of two, that are displayed alike are the same in everything that is told: the text of a
type determines, for the type and all that it contains, names, numeric categories, sizes of numerics and compounds,
enumeration symbols and values, dimensions, offsets, field names and their order. -/
theorem C80_display_partial {H H' : Heap} {f f' : Nat} {ind : Str} {t t' : TId} {s : Str} (hp : Plain H) (hp' : Plain H')
    (h : disp H f ind t = .ok s) (h' : disp H' f' ind t' = .ok s) : ∃ d, Shows H t d ∧ Shows H' t' d := by
  obtain ⟨d, h1, h2⟩ := disp_text f ind t s h
  obtain ⟨d', h3, h4⟩ := disp_text f' ind t' s h'
  obtain ⟨e, _⟩ := text_cut ind d d' (shows_good hp h1) (shows_good hp' h3) [] [] (Or.inl rfl) (Or.inl rfl)
    (by rw [List.append_nil, List.append_nil, ← h2, h4])
  exact ⟨d, h1, e ▸ h3⟩

/-! ### the display ends -/

/-- the types displayed inside another one -/
def inside : Kind → List TId
  | .arr _ e => [e]
  | .comp fs => fs.map FieldD.ty
  | _ => []

theorem fields_ends {H : Heap} {f : Nat} {ind : Str} : ∀ (fs : List FieldD),
    (∀ g ∈ fs, ∃ s, disp H f ind g.ty = .ok s) → ∃ s, fieldsTxt (disp H f) ind fs = .ok s
  | [], _ => ⟨[], rfl⟩
  | g :: fs, h => by
    obtain ⟨a, h1⟩ := h g List.mem_cons_self
    obtain ⟨b, h2⟩ := fields_ends fs (fun x hx => h x (List.mem_cons_of_mem _ hx))
    simp only [fieldsTxt, h1, h2]
    exact ⟨_, rfl⟩

theorem disp_ends {H : Heap} {rank : TId → Nat} (hr : ∀ t, ∀ e ∈ inside (H.kind t), rank e < rank t) :
    ∀ (f : Nat) (ind : Str) (t : TId), rank t < f → ∃ s, disp H f ind t = .ok s := by
  intro f
  induction f with
  | zero => intro ind t h; omega
  | succ f ih =>
    intro ind t h
    have hr' := hr t
    simp only [disp]
    cases hk : H.kind t with
    | arr d e =>
      rw [hk] at hr'
      obtain ⟨s, hs⟩ := ih (ind ++ [' ', ' ']) e (by have := hr' e List.mem_cons_self; omega)
      simp only [hs]
      exact ⟨_, rfl⟩
    | comp fs =>
      rw [hk] at hr'
      obtain ⟨s, hs⟩ := fields_ends (H := H) (f := f) (ind := ind ++ [' ', ' ']) fs
        (fun g hg => ih _ _ (by have := hr' g.ty (List.mem_map.mpr ⟨g, hg, rfl⟩); omega))
      simp only [hs]
      exact ⟨_, rfl⟩
    | _ => exact ⟨_, rfl⟩

/-- If no type contains itself, directly or through arrays and fields, a display ends. (Pointers and containers are named,
not followed.) -/
theorem C80_ends_partial {H : Heap} {rank : TId → Nat} (hr : ∀ t, ∀ e ∈ inside (H.kind t), rank e < rank t) (t : TId) :
    ∃ f, ∃ s : Str → Str, ∀ ind, disp H f ind t = .ok (s ind) := by
  refine ⟨rank t + 1, fun ind => (disp_ends hr (rank t + 1) ind t (Nat.lt_succ_self _)).choose, fun ind => ?_⟩
  exact (disp_ends hr (rank t + 1) ind t (Nat.lt_succ_self _)).choose_spec

/-- More room for the recursion changes nothing: what is displayed is a function of the type and the indentation. -/
theorem C80_deterministic {H : Heap} {f f' : Nat} {ind : Str} {t : TId} {s s' : Str} (h : disp H f ind t = .ok s)
    (h' : disp H f' ind t = .ok s') : s = s' := by
  obtain ⟨d, h1, h2⟩ := disp_text f ind t s h
  obtain ⟨d', h3, h4⟩ := disp_text f' ind t s' h'
  rw [h2, h4, shows_unique h1 h3]

/-! ### dumps -/

/-- the text of an item -/
def itemTxt : Item → Str
  | .type d => text [] d ++ ['\n']
  | .alias n t => aliasTxt n t

def itemsTxt (is : List Item) : Str := is.flatMap itemTxt

theorem entries_items {H : Heap} {f : Nat} : ∀ (l : List (Str × Entry)) (s : Str), entriesTxt H f false true l = .ok s →
    ∃ is, Items H l is ∧ s = itemsTxt is
  | [], s, h => by cases h; exact ⟨[], .nil, rfl⟩
  | p :: ps, s, h => by
    simp only [entriesTxt] at h
    cases h1 : entryTxt H f false true p with
    | ok a =>
      rw [h1] at h
      simp only at h
      cases h2 : entriesTxt H f false true ps with
      | ok b =>
        rw [h2] at h
        injection h with h
        obtain ⟨is, h3, h4⟩ := entries_items ps b h2
        unfold entryTxt at h1
        simp only [Bool.false_eq_true, if_false, if_true] at h1
        by_cases hn : H.name p.2.ty = p.1
        · rw [if_pos hn] at h1
          cases hd : disp H f [] p.2.ty with
          | ok x =>
            rw [hd] at h1
            injection h1 with h1
            obtain ⟨d, h5, h6⟩ := disp_text f [] _ x hd
            refine ⟨.type d :: is, .type hn h5 h3, ?_⟩
            rw [← h, ← h1, h4, h6]
            rfl
          | exn e => rw [hd] at h1; cases h1
          | ub => rw [hd] at h1; cases h1
          | fuel => rw [hd] at h1; cases h1
        · rw [if_neg hn] at h1
          injection h1 with h1
          refine ⟨.alias p.1 (H.name p.2.ty) :: is, .alias hn h3, ?_⟩
          rw [← h, ← h1, h4]
          rfl
      | exn e => rw [h2] at h; cases h
      | ub => rw [h2] at h; cases h
      | fuel => rw [h2] at h; cases h
    | exn e => rw [h1] at h; cases h
    | ub => rw [h1] at h; cases h
    | fuel => rw [h1] at h; cases h

def GoodI : Item → Prop
  | .type d => Good d
  | .alias n t => (∃ x, n = '/' :: x) ∧ Line n ∧ Word t

theorem text_head (ind : Str) (d : Shown) : ∃ c x, text ind d = c :: x ∧ c ≠ '/' ∧ c ≠ ' ' := by
  cases d with
  | num c k n => cases c <;> exact ⟨_, _, rfl, by decide, by decide⟩
  | _ => exact ⟨_, _, rfl, by decide, by decide⟩

theorem items_head {is : List Item} (hg : ∀ i ∈ is, GoodI i) : ∀ y, itemsTxt is ≠ ' ' :: y := by
  intro y e
  cases is with
  | nil => cases e
  | cons i is =>
    have hi := hg i List.mem_cons_self
    cases i with
    | type d =>
      obtain ⟨c, x, h1, _, h3⟩ := text_head [] d
      simp only [itemsTxt, List.flatMap_cons, itemTxt, h1, List.cons_append] at e
      injection e with e _
      exact h3 e
    | alias n t =>
      obtain ⟨⟨x, rfl⟩, _⟩ := hi
      simp only [itemsTxt, List.flatMap_cons, itemTxt, aliasTxt, List.cons_append] at e
      injection e with e _
      revert e; decide

theorem rest_items {is : List Item} (hg : ∀ i ∈ is, GoodI i) : Rest ('\n' :: itemsTxt is) :=
  Or.inr (Or.inr ⟨_, rfl, items_head hg⟩)

/-- two texts that end with a word after a space -/
theorem cut_last {a b w w' : Str} (hw : Word w) (hw' : Word w') (h : a ++ ' ' :: w = b ++ ' ' :: w') : a = b ∧ w = w' := by
  have h' : w.reverse ++ ' ' :: a.reverse = w'.reverse ++ ' ' :: b.reverse := by
    have := congrArg List.reverse h
    simpa using this
  obtain ⟨h1, h2⟩ := cut (P := fun c => c ≠ ' ' ∧ c ≠ '\n')
    (fun c hc => hw c (List.mem_reverse.mp hc)) (fun c hc => hw' c (List.mem_reverse.mp hc))
    (fun c x h => by injection h with h _; rw [← h]; simp)
    (fun c x h => by injection h with h _; rw [← h]; simp) h'
  refine ⟨?_, ?_⟩
  · have := congrArg List.reverse (List.cons.inj h2).2
    simpa using this
  · have := congrArg List.reverse h1
    simpa using this

/-- the words between the two names of an alias, without the last space -/
def between : Str := [' ', 'i', 's', ' ', 'a', 'n', ' ', 'a', 'l', 'i', 'a', 's', ' ', 'f', 'o', 'r']

theorem between_line : ∀ c ∈ between, c ≠ '\n' := by decide

theorem alias_cut {n t n' t' r r' : Str} (hn : Line n) (hn' : Line n') (ht : Word t) (ht' : Word t')
    (h : aliasTxt n t ++ r = aliasTxt n' t' ++ r') : n = n' ∧ t = t' ∧ r = r' := by
  have line : ∀ {n t : Str}, Line n → Word t → Line ((n ++ between) ++ ' ' :: t) := by
    intro n t hn ht c hc
    rcases List.mem_append.mp hc with h | h
    · rcases List.mem_append.mp h with h | h
      · exact hn c h
      · exact between_line c h
    · rcases List.mem_cons.mp h with h | h
      · rw [h]; decide
      · exact (ht c h).2
  have e : ((n ++ between) ++ ' ' :: t) ++ '\n' :: r = ((n' ++ between) ++ ' ' :: t') ++ '\n' :: r' := by
    simpa [aliasTxt, between] using h
  obtain ⟨e1, e2⟩ := cut (P := fun c => c ≠ '\n') (line hn ht) (line hn' ht')
    (fun c x h => by injection h with h _; rw [← h]; simp)
    (fun c x h => by injection h with h _; rw [← h]; simp) e
  obtain ⟨e3, e4⟩ := cut_last ht ht' e1
  exact ⟨List.append_cancel_right e3, e4, (List.cons.inj e2).2⟩

theorem items_cut : ∀ (is is' : List Item), (∀ i ∈ is, GoodI i) → (∀ i ∈ is', GoodI i) → itemsTxt is = itemsTxt is' → is = is'
  | [], [], _, _, _ => rfl
  | [], i :: is, _, _, e => by
    exfalso
    cases i with
    | type d =>
      obtain ⟨c, x, h1, _⟩ := text_head [] d
      simp only [itemsTxt, List.flatMap_cons, itemTxt, h1, List.cons_append] at e
      cases e
    | alias n t => simp [itemsTxt, itemTxt, aliasTxt] at e
  | i :: is, [], _, _, e => by
    exfalso
    cases i with
    | type d =>
      obtain ⟨c, x, h1, _⟩ := text_head [] d
      simp only [itemsTxt, List.flatMap_cons, itemTxt, h1, List.cons_append] at e
      cases e
    | alias n t => simp [itemsTxt, itemTxt, aliasTxt] at e
  | i :: is, i' :: is', hg, hg', e => by
    have hi := hg i List.mem_cons_self
    have hi' := hg' i' List.mem_cons_self
    have hgt : ∀ j ∈ is, GoodI j := fun j hj => hg j (List.mem_cons_of_mem _ hj)
    have hgt' : ∀ j ∈ is', GoodI j := fun j hj => hg' j (List.mem_cons_of_mem _ hj)
    cases i with
    | type d =>
      cases i' with
      | type d' =>
        have e1 : text [] d ++ '\n' :: itemsTxt is = text [] d' ++ '\n' :: itemsTxt is' := by
          simpa [itemsTxt, itemTxt] using e
        obtain ⟨e2, e3⟩ := text_cut [] d d' hi hi' _ _ (rest_items hgt) (rest_items hgt') e1
        rw [e2, items_cut is is' hgt hgt' (List.cons.inj e3).2]
      | alias n' t' =>
        exfalso
        obtain ⟨c, x, h1, h2, _⟩ := text_head [] d
        obtain ⟨⟨y, rfl⟩, _⟩ := hi'
        simp only [itemsTxt, List.flatMap_cons, itemTxt, aliasTxt, h1, List.cons_append] at e
        injection e with e _
        exact h2 e
    | alias n t =>
      cases i' with
      | type d' =>
        exfalso
        obtain ⟨c, x, h1, h2, _⟩ := text_head [] d'
        obtain ⟨⟨y, rfl⟩, _⟩ := hi
        simp only [itemsTxt, List.flatMap_cons, itemTxt, aliasTxt, h1, List.cons_append] at e
        injection e with e _
        exact h2 e.symm
      | alias n' t' =>
        have e1 : aliasTxt n t ++ itemsTxt is = aliasTxt n' t' ++ itemsTxt is' := by
          simpa [itemsTxt, itemTxt] using e
        obtain ⟨e2, e3, e4⟩ := alias_cut hi.2.1 hi'.2.1 hi.2.2 hi'.2.2 e1
        rw [e2, e3, items_cut is is' hgt hgt' e4]

theorem items_good {H : Heap} (hp : Plain H) : ∀ {l : List (Str × Entry)} {is : List Item},
    (∀ p ∈ l, (∃ x, p.1 = '/' :: x) ∧ Line p.1) → Items H l is → ∀ i ∈ is, GoodI i := by
  intro l is hl h
  induction h with
  | nil => intro i hi; cases hi
  | type _ hs _ ih =>
    intro i hi
    rcases List.mem_cons.mp hi with rfl | hi
    · exact shows_good hp hs
    · exact ih (fun q hq => hl q (List.mem_cons_of_mem _ hq)) i hi
  | alias _ _ ih =>
    intro i hi
    rcases List.mem_cons.mp hi with rfl | hi
    · have := hl _ List.mem_cons_self
      exact ⟨this.1, this.2, hp.names _⟩
    · exact ih (fun q hq => hl q (List.mem_cons_of_mem _ hq)) i hi

/-- A full dump (of all the types or of those of one source) tells, for each listed entry in the order of the registry,
what is to be told of the type, or that the name is an alias of which type: two registries with the same dump have the same
items. -/
theorem C80_dump_partial {H H' : Heap} {f f' : Nat} {R R' : Reg} {filter s : Str} (hp : Plain H) (hp' : Plain H')
    (hn : ∀ p ∈ R.global, (∃ x, p.1 = '/' :: x) ∧ Line p.1) (hn' : ∀ p ∈ R'.global, (∃ x, p.1 = '/' :: x) ∧ Line p.1)
    (h : dump H f R false true filter = .ok s) (h' : dump H' f' R' false true filter = .ok s) :
    ∃ is, Items H (R.global.filter fun p => p.2.persistent && (filter == ['*'] || filter == p.2.source)) is ∧
      Items H' (R'.global.filter fun p => p.2.persistent && (filter == ['*'] || filter == p.2.source)) is := by
  unfold dump at h h'
  cases h1 : entriesTxt H f false true (listed filter R.global) with
  | ok a =>
    cases h2 : entriesTxt H' f' false true (listed filter R'.global) with
    | ok b =>
      rw [h1] at h
      rw [h2] at h'
      injection h with h
      injection h' with h'
      have e : a = b := List.append_cancel_left (h.trans h'.symm)
      obtain ⟨is, h3, h4⟩ := entries_items _ a h1
      obtain ⟨is', h5, h6⟩ := entries_items _ b h2
      have g := items_good hp (fun p hq => hn p (List.mem_filter.mp hq).1) h3
      have g' := items_good hp' (fun p hq => hn' p (List.mem_filter.mp hq).1) h5
      have := items_cut is is' g g' (by rw [← h4, ← h6, e])
      exact ⟨is, h3, this ▸ h5⟩
    | exn e => rw [h2] at h'; cases h'
    | ub => rw [h2] at h'; cases h'
    | fuel => rw [h2] at h'; cases h'
  | exn e => rw [h1] at h; cases h
  | ub => rw [h1] at h; cases h
  | fuel => rw [h1] at h; cases h

end Verif.Display
