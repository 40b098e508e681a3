import Verif.RubyCustom

/-! C68: proofs. -/

namespace Verif.RubyCustom
open Verif Verif.Graph Verif.LayoutGraph

variable {α : Type}

/-! ### Hashes -/

section
variable {κ β : Type} [DecidableEq κ]

theorem hget_hput (h : RHash κ β) (x y : κ) (w : β) : hget (hput h x w) y = if x = y then some w else hget h y := by
  induction h with
  | nil => simp [hput, hget]
  | cons p h ih =>
    obtain ⟨k, v⟩ := p
    by_cases e : k = x
    · subst e; simp only [hput, if_pos]
      by_cases e' : k = y <;> simp [hget, e']
    · by_cases e' : x = y
      · subst e'; simp [hput, hget, e, ih]
      · by_cases e'' : k = y
        · subst e''; simp only [hput, if_neg e, hget, if_pos, if_neg e']
        · simp [hput, hget, e, e', e'', ih]

theorem hput_keys (h : RHash κ β) (x : κ) (w : β) :
    (hput h x w).map (·.1) = if x ∈ h.map (·.1) then h.map (·.1) else h.map (·.1) ++ [x] := by
  induction h with
  | nil => simp [hput]
  | cons p h ih =>
    obtain ⟨k, v⟩ := p
    by_cases e : k = x
    · subst e; simp [hput]
    · rw [hput, if_neg e, List.map_cons, ih]
      by_cases e' : x ∈ h.map (·.1)
      · rw [if_pos e', if_pos (by rw [List.map_cons]; exact List.mem_cons_of_mem _ e')]
        rfl
      · rw [if_neg e', if_neg]
        · simp
        · simp only [List.map_cons, List.mem_cons]
          rintro (h | h)
          · exact e h.symm
          · exact e' h

theorem flatMap_keys {γ : Type} (f : κ → Bool) (g : κ → List γ) : ∀ (h : RHash κ (List γ)), (h.map (·.1)).Nodup →
    (∀ k, (hget h k).getD [] = g k) → h.flatMap (fun p => if f p.1 then p.2 else []) = ((h.map (·.1)).filter f).flatMap g
  | [], _, _ => rfl
  | (k, v) :: h, hn, hg => by
    have hn' := List.nodup_cons.mp hn
    have hv : v = g k := by simpa [hget] using hg k
    have ih := flatMap_keys f (fun x => if x = k then [] else g x) h hn'.2 (by
      intro x
      by_cases e : x = k
      · subst e
        have : hget h x = none := by
          have : ∀ (h : RHash κ (List γ)), x ∉ h.map (·.1) → hget h x = none := by
            intro h
            induction h with
            | nil => intro _; rfl
            | cons p h ih =>
              intro hx
              simp only [List.map_cons, List.mem_cons, not_or] at hx
              simp only [hget, if_neg (Ne.symm hx.1)]
              exact ih hx.2
          exact this h hn'.1
        simp [this]
      · have := hg x
        simp only [hget, if_neg (Ne.symm e)] at this
        simp [e, this])
    have hcongr : ((h.map (·.1)).filter f).flatMap (fun x => if x = k then [] else g x) = ((h.map (·.1)).filter f).flatMap g := by
      have : ∀ l : List κ, k ∉ l → l.flatMap (fun x => if x = k then [] else g x) = l.flatMap g := by
        intro l
        induction l with
        | nil => intro _; rfl
        | cons a l ih =>
          intro h
          simp only [List.mem_cons, not_or] at h
          simp [ih h.2, Ne.symm h.1]
      exact this _ (fun h => hn'.1 (List.mem_filter.mp h).1)
    simp only [List.flatMap_cons, List.map_cons]
    rw [ih, hcongr]
    by_cases e : f k = true
    · simp [e, hv]
    · simp [e]

end

/-! ### Keys -/

theorem suffix2_append (a : Str) (x y : Char) : suffix2 (a ++ [x, y]) = some [x, y] ∧ chop2 (a ++ [x, y]) = a := by
  constructor
  · simp [suffix2]
  · simp [chop2]

theorem suffix2_some {s : Str} {x y : Char} (h : suffix2 s = some [x, y]) : s = chop2 s ++ [x, y] := by
  unfold suffix2 at h
  split at h
  · cases h
  · injection h with h
    unfold chop2
    rw [← h, List.take_append_drop]

theorem slot_container (k : Key) (n : Str) : slotOf k = .container n ↔ k = .str (n ++ "<>".toList) := by
  constructor
  · intro h
    cases k with
    | regexp r => cases h
    | str s =>
      simp only [slotOf] at h
      split at h
      · rename_i h1
        injection h with h
        rw [suffix2_some h1, h]; rfl
      · split at h <;> cases h
  · rintro rfl
    have : suffix2 (n ++ "<>".toList) = some "<>".toList ∧ chop2 (n ++ "<>".toList) = n := suffix2_append n '<' '>'
    simp only [slotOf]
    rw [if_pos this.1, this.2]

theorem slot_array (k : Key) (n : Str) : slotOf k = .array n ↔ k = .str (n ++ "[]".toList) := by
  constructor
  · intro h
    cases k with
    | regexp r => cases h
    | str s =>
      simp only [slotOf] at h
      split at h
      · cases h
      · split at h
        · rename_i h1
          injection h with h
          rw [suffix2_some h1, h]; rfl
        · cases h
  · rintro rfl
    have : suffix2 (n ++ "[]".toList) = some "[]".toList ∧ chop2 (n ++ "[]".toList) = n := suffix2_append n '[' ']'
    simp only [slotOf]
    rw [if_neg (by rw [this.1]; decide), if_pos this.1, this.2]

theorem slot_name {n : Str} (hn : PlainName n) (k : Key) : slotOf k = .name n ↔ k = .str n := by
  constructor
  · intro h
    cases k with
    | regexp r => cases h
    | str s =>
      simp only [slotOf] at h
      split at h
      · cases h
      · split at h
        · cases h
        · injection h with h; rw [h]
  · rintro rfl
    simp only [slotOf]
    have h1 : suffix2 n ≠ some "<>".toList := fun h => (hn _).1 (suffix2_some (x := '<') (y := '>') h)
    have h2 : suffix2 n ≠ some "[]".toList := fun h => (hn _).2 (suffix2_some (x := '[') (y := ']') h)
    rw [if_neg h1, if_neg h2]

theorem slot_regexp (k : Key) (r : Nat) : slotOf k = .regexp r ↔ k = .regexp r := by
  constructor
  · intro h
    cases k with
    | regexp r => injection h with h; rw [h]
    | str s =>
      simp only [slotOf] at h
      split at h
      · cases h
      · split at h <;> cases h
  · rintro rfl; rfl

/-! ### The declarations in the mapping -/

def Decl.entry (d : Decl α) : Entry α := ⟨d.cond, d.value⟩

/-- the declarations of a key -/
def entriesOf (ds : List (Decl α)) (s : Slot) : List (Entry α) := (ds.filter (fun d => slotOf d.key = s)).map Decl.entry

theorem entriesOf_snoc (ds : List (Decl α)) (d : Decl α) (s : Slot) :
    entriesOf (ds ++ [d]) s = entriesOf ds s ++ if slotOf d.key = s then [d.entry] else [] := by
  unfold entriesOf
  by_cases h : slotOf d.key = s <;> simp [List.filter_append, h]

theorem regexpsOf_mem (ds : List (Decl α)) (r : Nat) : r ∈ regexpsOf ds ↔ ∃ d ∈ ds, d.key = .regexp r := by
  induction ds with
  | nil => simp [regexpsOf]
  | cons d ds ih =>
    cases hk : d.key with
    | str s => simp [regexpsOf, hk, ih]
    | regexp q =>
      simp only [regexpsOf, hk, List.mem_cons, List.mem_filter, ih, exists_eq_or_imp]
      by_cases e : r = q
      · simp [e]
      · simp [e, Ne.symm e]

theorem regexpsOf_nodup (ds : List (Decl α)) : (regexpsOf ds).Nodup := by
  induction ds with
  | nil => exact .nil
  | cons d ds ih =>
    unfold regexpsOf
    split
    · refine List.nodup_cons.mpr ⟨?_, ih.filter _⟩
      simp [List.mem_filter]
    · exact ih

theorem regexpsOf_snoc (ds : List (Decl α)) (d : Decl α) : regexpsOf (ds ++ [d]) =
    match d.key with
    | .regexp r => if r ∈ regexpsOf ds then regexpsOf ds else regexpsOf ds ++ [r]
    | .str _ => regexpsOf ds := by
  induction ds with
  | nil => cases h : d.key <;> simp [regexpsOf, h]
  | cons e ds ih =>
    cases he : e.key with
    | str s =>
      simp only [List.cons_append, regexpsOf, he, ih]
    | regexp q =>
      simp only [List.cons_append, regexpsOf, he, ih]
      cases hd : d.key with
      | str s => rfl
      | regexp r =>
        by_cases e1 : r = q
        · subst e1
          by_cases e2 : r ∈ regexpsOf ds
          · simp [e2]
          · simp [e2]
        · by_cases e2 : r ∈ regexpsOf ds
          · simp [e2, e1]
          · simp [e2, e1]

/-- what the mapping holds after the declarations `ds` -/
structure Holds (m : Mapping α) (ds : List (Decl α)) : Prop where
  containers : ∀ s, (hget m.containers s).getD [] = entriesOf ds (.container s)
  arrays : ∀ s, (hget m.arrays s).getD [] = entriesOf ds (.array s)
  typename : ∀ s, (hget m.typename s).getD [] = entriesOf ds (.name s)
  regexps : ∀ r, (hget m.regexps r).getD [] = entriesOf ds (.regexp r)
  order : m.regexps.map (·.1) = regexpsOf ds

theorem holds_new : Holds (Mapping.new : Mapping α) [] := ⟨fun _ => rfl, fun _ => rfl, fun _ => rfl, fun _ => rfl, rfl⟩

theorem holds_add {m : Mapping α} {ds : List (Decl α)} (h : Holds m ds) (k : Key) (c : TId → Bool) (v : α) :
    Holds (m.add k ⟨c, v⟩) (ds ++ [⟨k, c, v⟩]) := by
  have hreg : ∀ (hk : ∀ r, k ≠ .regexp r), regexpsOf (ds ++ [⟨k, c, v⟩]) = regexpsOf ds := by
    intro hk
    rw [regexpsOf_snoc]
    cases k with
    | str s => rfl
    | regexp r => exact absurd rfl (hk r)
  unfold Mapping.add
  cases hs : slotOf k with
  | container n =>
    have hk : ∀ r, k ≠ .regexp r := by rintro r rfl; cases hs
    refine ⟨fun s => ?_, fun s => ?_, fun s => ?_, fun s => ?_, ?_⟩
    · rw [entriesOf_snoc, hget_hput, hs]
      by_cases e : n = s
      · subst e; simp [h.containers, Decl.entry]
      · simp [e, h.containers]
    · rw [entriesOf_snoc, hs]; simp [h.arrays]
    · rw [entriesOf_snoc, hs]; simp [h.typename]
    · rw [entriesOf_snoc, hs]; simp [h.regexps]
    · rw [hreg hk]; exact h.order
  | array n =>
    have hk : ∀ r, k ≠ .regexp r := by rintro r rfl; cases hs
    refine ⟨fun s => ?_, fun s => ?_, fun s => ?_, fun s => ?_, ?_⟩
    · rw [entriesOf_snoc, hs]; simp [h.containers]
    · rw [entriesOf_snoc, hget_hput, hs]
      by_cases e : n = s
      · subst e; simp [h.arrays, Decl.entry]
      · simp [e, h.arrays]
    · rw [entriesOf_snoc, hs]; simp [h.typename]
    · rw [entriesOf_snoc, hs]; simp [h.regexps]
    · rw [hreg hk]; exact h.order
  | name n =>
    have hk : ∀ r, k ≠ .regexp r := by rintro r rfl; cases hs
    refine ⟨fun s => ?_, fun s => ?_, fun s => ?_, fun s => ?_, ?_⟩
    · rw [entriesOf_snoc, hs]; simp [h.containers]
    · rw [entriesOf_snoc, hs]; simp [h.arrays]
    · rw [entriesOf_snoc, hget_hput, hs]
      by_cases e : n = s
      · subst e; simp [h.typename, Decl.entry]
      · simp [e, h.typename]
    · rw [entriesOf_snoc, hs]; simp [h.regexps]
    · rw [hreg hk]; exact h.order
  | regexp n =>
    have hk : k = .regexp n := (slot_regexp k n).mp hs
    subst hk
    refine ⟨fun s => ?_, fun s => ?_, fun s => ?_, fun s => ?_, ?_⟩
    · rw [entriesOf_snoc, hs]; simp [h.containers]
    · rw [entriesOf_snoc, hs]; simp [h.arrays]
    · rw [entriesOf_snoc, hs]; simp [h.typename]
    · rw [entriesOf_snoc, hget_hput, hs]
      by_cases e : n = s
      · subst e; simp [h.regexps, Decl.entry]
      · simp [e, h.regexps]
    · rw [regexpsOf_snoc, hput_keys, h.order]

theorem entries_filter (ds : List (Decl α)) (t : TId) (s : Slot) (p : Decl α → Prop) [DecidablePred p]
    (hp : ∀ d, slotOf d.key = s ↔ p d) :
    ((entriesOf ds s).filter (fun e => e.cond t)).map (·.value) = ((ds.filter (fun d => d.cond t)).filter (fun d => p d)).map (·.value) := by
  unfold entriesOf
  induction ds with
  | nil => rfl
  | cons d ds ih =>
    by_cases h1 : slotOf d.key = s
    · have h2 := (hp d).mp h1
      by_cases h3 : d.cond t = true
      · simp [h1, h2, h3, Decl.entry] at ih ⊢; exact ih
      · simp [h1, h3, Decl.entry] at ih ⊢; exact ih
    · have h2 : ¬ p d := fun h => h1 ((hp d).mpr h)
      by_cases h3 : d.cond t = true
      · simp [h1, h2, h3] at ih ⊢; exact ih
      · simp [h1, h3] at ih ⊢; exact ih

/-- **C68, declarations**: `find_all` gives the declarations that apply to the type, by precedence. -/
theorem findAll_eq {H : Heap} {rx : Nat → Str → Bool} {m : Mapping α} {ds : List (Decl α)} (h : Holds m ds) {t : TId}
    (hn : PlainName (H.name t)) : m.findAll H rx t = applicable H rx ds t := by
  unfold Mapping.findAll applicable
  have hgen : ((genericEntries H m t).filter (fun e => e.cond t)).map (·.value) =
      ((ds.filter (fun d => d.cond t)).filter (fun d => d.key.Generic H t)).map (·.value) := by
    unfold genericEntries
    have hnone : (∀ d : Decl α, ¬ d.key.Generic H t) →
        (([] : List (Entry α)).filter (fun e => e.cond t)).map (·.value) =
          ((ds.filter (fun d => d.cond t)).filter (fun d => d.key.Generic H t)).map (·.value) := by
      intro hno
      have : (ds.filter (fun d => d.cond t)).filter (fun d => d.key.Generic H t) = [] := by
        rw [List.filter_eq_nil_iff]
        intro d _
        simpa using hno d
      rw [this]; rfl
    cases hk : containerKind (H.kind t) with
    | some kind =>
      simp only
      rw [h.containers]
      refine entries_filter ds t _ _ (fun d => ?_)
      rw [slot_container, Key.generic_iff]
      constructor
      · exact fun e => .inl ⟨kind, hk, e⟩
      · rintro (⟨k', h1, h2⟩ | ⟨d', e', h1, _⟩)
        · rw [hk] at h1; cases h1; exact h2
        · rw [h1] at hk; cases hk
    | none =>
      simp only
      cases hk' : H.kind t with
      | arr d e =>
        simp only
        rw [h.arrays]
        refine entries_filter ds t _ _ (fun x => ?_)
        rw [slot_array, Key.generic_iff]
        constructor
        · exact fun h => .inr ⟨d, e, hk', h⟩
        · rintro (⟨k', h1, h2⟩ | ⟨d', e', h1, h2⟩)
          · rw [hk] at h1; cases h1
          · rw [hk'] at h1; cases h1; exact h2
      | _ =>
        simp only
        refine hnone (fun d => ?_)
        rw [Key.generic_iff]
        rintro (⟨k', h1, h2⟩ | ⟨d', e', h1, h2⟩)
        · rw [hk] at h1; cases h1
        · rw [hk'] at h1; cases h1
  have hname := entries_filter ds t (.name (H.name t)) (fun d => d.key = .str (H.name t)) (fun d => slot_name hn d.key)
  rw [← h.typename] at hname
  have hreg := flatMap_keys (fun r => rx r (H.name t)) (fun r => entriesOf ds (.regexp r)) m.regexps
    (by rw [h.order]; exact regexpsOf_nodup ds) h.regexps
  rw [h.order] at hreg
  simp only [List.filter_append, List.map_append, hgen, hname, hreg]
  congr 1
  have : ∀ (l : List Nat), ((l.flatMap (fun r => entriesOf ds (.regexp r))).filter (fun e => e.cond t)).map (·.value) =
      (l.flatMap (fun r => (ds.filter (fun d => d.cond t)).filter (fun d => d.key = .regexp r))).map (·.value) := by
    intro l
    induction l with
    | nil => rfl
    | cons r l ih =>
      simp only [List.flatMap_cons, List.filter_append, List.map_append, ih]
      rw [entries_filter ds t (.regexp r) (fun d => d.key = .regexp r) (fun d => slot_regexp d.key r)]
  exact this _

/-- the declarations that apply are those whose key designates the type and whose condition accepts it -/
theorem applicable_iff (H : Heap) (rx : Nat → Str → Bool) (ds : List (Decl α)) (t : TId) (v : α) :
    v ∈ applicable H rx ds t ↔ ∃ d ∈ ds, d.value = v ∧ d.cond t = true ∧ d.key.Matches H rx t := by
  unfold applicable Key.Matches
  simp only [List.mem_map, List.mem_append, List.mem_flatMap, List.mem_filter, decide_eq_true_eq]
  constructor
  · rintro ⟨d, (⟨⟨h1, h2⟩, h3⟩ | ⟨⟨h1, h2⟩, h3⟩) | ⟨r, ⟨_, h4⟩, ⟨h1, h2⟩, h3⟩, rfl⟩
    · exact ⟨d, h1, rfl, h2, .inl h3⟩
    · exact ⟨d, h1, rfl, h2, .inr (.inl h3)⟩
    · exact ⟨d, h1, rfl, h2, .inr (.inr ⟨r, h3, h4⟩)⟩
  · rintro ⟨d, h1, rfl, h2, h3 | h3 | ⟨r, h3, h4⟩⟩
    · exact ⟨d, .inl (.inl ⟨⟨h1, h2⟩, h3⟩), rfl⟩
    · exact ⟨d, .inl (.inr ⟨⟨h1, h2⟩, h3⟩), rfl⟩
    · exact ⟨d, .inr ⟨r, ⟨(regexpsOf_mem ds r).mpr ⟨d, h1, h3⟩, h4⟩, ⟨h1, h2⟩, h3⟩, rfl⟩

/-! ### The classes -/

variable {H : Heap} {rx : Nat → Str → Bool}

theorem classOf_congr {cu : Cust} {cls cls' : TId → Cls} {t : TId} (h : ∀ v, Contains H t v → cls v = cls' v) :
    classOf H rx cu cls t = classOf H rx cu cls' t := by
  unfold classOf
  cases hk : H.kind t with
  | arr d e => simp only [h e (.arr hk)]
  | vec e => simp only [h e (.vec hk)]
  | str e => simp only [h e (.str hk)]
  | comp fs =>
    simp only
    congr 1
    have : ∀ l : List FieldD, (∀ f ∈ l, f ∈ fs) → (l.any fun f => (cls f.ty).contains) = l.any fun f => (cls' f.ty).contains := by
      intro l
      induction l with
      | nil => intro _; rfl
      | cons f l ih =>
        intro hl
        simp only [List.any_cons]
        rw [ih (fun g hg => hl g (List.mem_cons_of_mem _ hg)), h _ (.field hk (hl f (List.mem_cons_self ..)))]
    exact this fs (fun _ h => h)
  | _ => rfl

theorem part_cases {t u : TId} (h : Part H t u) : u = t ∨ ∃ v, Contains H t v ∧ Part H v u := by
  cases h with
  | refl => exact .inl rfl
  | step hc hp => exact .inr ⟨_, hc, hp⟩

/-- the classes of the parts exist -/
def Closed (H : Heap) (s : St) : Prop := ∀ u v, (s.classes u).isSome → Contains H u v → (s.classes v).isSome

/-- the classes that exist are those of types that do not contain themselves -/
def NoRec (H : Heap) (s : St) : Prop := ∀ u, (s.classes u).isSome → Acc (fun v u => Contains H u v) u

theorem acc_part {t u : TId} (h : Acc (fun v u => Contains H u v) t) (hp : Part H t u) : Acc (fun v u => Contains H u v) u := by
  induction hp with
  | refl => exact h
  | step hc _ ih => exact ih (h.inv hc)

/-- a type that contains itself cannot be reached by making classes bottom up -/
theorem acc_norec {t : TId} (h : Acc (fun v u => Contains H u v) t) : ¬ Recursive H t := by
  rintro ⟨x, y, h1, h2, h3⟩
  have hx := acc_part h h1
  clear h h1 t
  revert y
  induction hx with
  | intro x _ ih =>
    intro y h2 h3
    rcases part_cases h3 with rfl | ⟨v, hv, hp⟩
    · exact ih x h2 x h2 (.refl x)
    · exact ih y h2 v hv (hp.trans (.step h2 (.refl y)))

theorem Closed.part {s : St} (h : Closed H s) {u v : TId} (hp : Part H u v) : (s.classes u).isSome → (s.classes v).isSome := by
  induction hp with
  | refl => exact id
  | step hc _ ih => exact fun hu => ih (h _ _ hu hc)

/-- what making the classes of `ts` does -/
structure Made (H : Heap) (rx : Nat → Str → Bool) (s : St) (P : TId → Prop) (s' : St) : Prop where
  cust : s'.cust = s.cust
  keep : ∀ u c, s.classes u = some c → s'.classes u = some c
  made : ∀ u, (s'.classes u).isSome ↔ (s.classes u).isSome ∨ P u
  new : ∀ u c, s.classes u = none → s'.classes u = some c → c = classOf H rx s.cust s'.cls u
  closed : Closed H s'
  norec : NoRec H s'

theorem Made.refl {s : St} (hc : Closed H s) (hn : NoRec H s) {P : TId → Prop} (hP : ∀ u, P u → (s.classes u).isSome) : Made H rx s P s :=
  ⟨rfl, fun _ _ h => h, fun u => ⟨.inl, fun h => h.elim id (hP u)⟩, (fun u c h h' => by rw [h] at h'; cases h'), hc, hn⟩

theorem cls_eq {s : St} {u : TId} {c : Cls} (h : s.classes u = some c) : s.cls u = c := by simp [St.cls, h]

theorem Made.trans {s s1 s2 : St} {P Q R : TId → Prop} (h1 : Made H rx s P s1) (h2 : Made H rx s1 Q s2) (hR : ∀ u, R u ↔ P u ∨ Q u) :
    Made H rx s R s2 := by
  refine ⟨h2.cust.trans h1.cust, fun u c h => h2.keep u c (h1.keep u c h), fun u => ?_, fun u c h h' => ?_, h2.closed, h2.norec⟩
  · rw [h2.made, h1.made, hR, or_assoc]
  · cases hu : s1.classes u with
    | none => rw [← h1.cust]; exact h2.new u c hu h'
    | some c1 =>
      have e := h2.keep u c1 hu
      rw [e] at h'; injection h' with h'; subst h'
      rw [h1.new u c1 h hu]
      refine classOf_congr (fun v hv => ?_)
      have hv := h1.closed u v (by rw [hu]; rfl) hv
      obtain ⟨cv, hcv⟩ := Option.isSome_iff_exists.mp hv
      rw [cls_eq hcv, cls_eq (h2.keep v cv hcv)]

/-- the class of `t` on top of those of its parts -/
theorem Made.insert {s s1 : St} {t : TId} (hs : s.classes t = none) (h : Made H rx s (fun u => ∃ v, Contains H t v ∧ Part H v u) s1) :
    Made H rx s (Part H t) (s1.insert t (classOf H rx s1.cust s1.cls t)) := by
  have hparts : ∀ v, Contains H t v → (s1.classes v).isSome := fun v hv => (h.made v).mpr (.inr ⟨v, hv, .refl v⟩)
  have hacc : Acc (fun v u => Contains H u v) t := .intro t (fun v hv => h.norec v (hparts v hv))
  have hnr : ¬ Recursive H t := acc_norec hacc
  have ht : s1.classes t = none := by
    cases hc : s1.classes t with
    | none => rfl
    | some c =>
      rcases (h.made t).mp (by rw [hc]; rfl) with h' | ⟨v, hv, hp⟩
      · rw [hs] at h'; cases h'
      · exact absurd ⟨t, v, .refl t, hv, hp⟩ hnr
  have hne : ∀ v, (s1.classes v).isSome → v ≠ t := by rintro v hv rfl; rw [ht] at hv; cases hv
  have hcls : ∀ v, (s1.classes v).isSome → (s1.insert t (classOf H rx s1.cust s1.cls t)).cls v = s1.cls v := by
    intro v hv
    simp [St.cls, St.insert, hne v hv]
  refine ⟨h.cust, fun u c hu => ?_, fun u => ?_, fun u c hu hc => ?_, fun u v hu hv => ?_, fun u hu => ?_⟩
  · have : u ≠ t := by rintro rfl; rw [hs] at hu; cases hu
    simp only [St.insert, if_neg this]
    exact h.keep u c hu
  · by_cases e : u = t
    · subst e
      simp [St.insert, Part.refl]
    · simp only [St.insert, if_neg e]
      rw [h.made]
      constructor
      · rintro (h | ⟨v, hv, hp⟩)
        · exact .inl h
        · exact .inr (.step hv hp)
      · rintro (h | hp)
        · exact .inl h
        · rcases part_cases hp with h | h
          · exact absurd h e
          · exact .inr h
  · by_cases e : u = t
    · subst e
      simp only [St.insert, if_true] at hc
      injection hc with hc
      subst hc
      rw [← h.cust]
      exact classOf_congr (fun v hv => (hcls v (hparts v hv)).symm)
    · simp only [St.insert, if_neg e] at hc
      rw [h.new u c hu hc]
      exact classOf_congr (fun v hv => (hcls v (h.closed u v (by rw [hc]; rfl) hv)).symm)
  · have hv' : (s1.classes v).isSome := by
      by_cases e : u = t
      · subst e; exact hparts v hv
      · simp only [St.insert, if_neg e] at hu
        exact h.closed u v hu hv
    simp only [St.insert, if_neg (hne v hv')]
    exact hv'
  · by_cases e : u = t
    · subst e; exact hacc
    · simp only [St.insert, if_neg e] at hu
      exact h.norec u hu

theorem wrapFields_made {rec : St → TId → Res St} (hrec : ∀ s s' u, Closed H s → NoRec H s → rec s u = .ok s' → Made H rx s (Part H u) s') :
    ∀ (fs : List FieldD) (s s' : St), Closed H s → NoRec H s → wrapFields rec s fs = .ok s' →
      Made H rx s (fun u => ∃ f ∈ fs, Part H f.ty u) s'
  | [], s, s', hc, hn, h => by
    injection h with h; subst h
    exact Made.refl hc hn (by rintro u ⟨f, hf, _⟩; cases hf)
  | f :: fs, s, s', hc, hn, h => by
    obtain ⟨s1, h1, h⟩ := Res.bind_eq_ok.mp h
    have m1 := hrec s s1 f.ty hc hn h1
    have m2 := wrapFields_made hrec fs s1 s' m1.closed m1.norec h
    exact m1.trans m2 (fun u => by simp)

theorem wrap_made : ∀ (f : Nat) (s s' : St) (t : TId), Closed H s → NoRec H s → wrap H rx f s t = .ok s' → Made H rx s (Part H t) s'
  | 0, _, _, _, _, _, h => by cases h
  | f + 1, s, s', t, hc, hn, h => by
    unfold wrap at h
    by_cases hs : (s.classes t).isSome
    · rw [if_pos hs] at h
      injection h with h; subst h
      exact Made.refl hc hn (fun u hp => hc.part hp hs)
    · rw [if_neg hs] at h
      have hs : s.classes t = none := by cases h' : s.classes t <;> simp [h'] at hs ⊢
      obtain ⟨s1, h1, h⟩ := Res.bind_eq_ok.mp h
      injection h with h; subst h
      refine Made.insert hs ?_
      have hone : ∀ e, (∀ v, Contains H t v ↔ v = e) → wrap H rx f s e = .ok s1 →
          Made H rx s (fun u => ∃ v, Contains H t v ∧ Part H v u) s1 := by
        intro e he h
        have m := wrap_made f s s1 e hc hn h
        have := m.trans (Made.refl m.closed m.norec (P := fun _ => False) (fun _ h => h.elim))
          (R := fun u => ∃ v, Contains H t v ∧ Part H v u) (fun u => by simp [he])
        exact this
      have hnone : (∀ v, ¬ Contains H t v) → .ok s = (.ok s1 : Res St) → Made H rx s (fun u => ∃ v, Contains H t v ∧ Part H v u) s1 := by
        intro hno h
        injection h with h; subst h
        exact Made.refl hc hn (fun u ⟨v, hv, _⟩ => absurd hv (hno v))
      cases hk : H.kind t with
      | arr d e =>
        simp only [hk] at h1
        exact hone e (fun v => ⟨fun h => by cases h <;> simp_all, fun h => h ▸ .arr hk⟩) h1
      | vec e =>
        simp only [hk] at h1
        exact hone e (fun v => ⟨fun h => by cases h <;> simp_all, fun h => h ▸ .vec hk⟩) h1
      | str e =>
        simp only [hk] at h1
        exact hone e (fun v => ⟨fun h => by cases h <;> simp_all, fun h => h ▸ .str hk⟩) h1
      | comp fs =>
        simp only [hk] at h1
        have m := wrapFields_made (fun s s' u hc hn h => wrap_made f s s' u hc hn h) fs s s1 hc hn h1
        have := m.trans (Made.refl m.closed m.norec (P := fun _ => False) (fun _ h => h.elim))
          (R := fun u => ∃ v, Contains H t v ∧ Part H v u) (fun u => by
            simp only [or_false]
            constructor
            · rintro ⟨v, hv, hp⟩
              cases hv with
              | field hk' hm => rw [hk] at hk'; cases hk'; exact ⟨_, hm, hp⟩
              | arr hk' => rw [hk] at hk'; cases hk'
              | vec hk' => rw [hk] at hk'; cases hk'
              | str hk' => rw [hk] at hk'; cases hk'
            · rintro ⟨g, hg, hp⟩
              exact ⟨_, .field hk hg, hp⟩)
        exact this
      | null => simp only [hk] at h1; exact hnone (fun v h => by cases h <;> simp_all) h1
      | «opaque» => simp only [hk] at h1; exact hnone (fun v h => by cases h <;> simp_all) h1
      | num c => simp only [hk] at h1; exact hnone (fun v h => by cases h <;> simp_all) h1
      | «enum» l => simp only [hk] at h1; exact hnone (fun v h => by cases h <;> simp_all) h1
      | ptr e => simp only [hk] at h1; exact hnone (fun v h => by cases h <;> simp_all) h1

/-! ### Histories -/

/-- what the declarations of a history leave in the module -/
structure CustHolds (cu : Cust) (ops : List Op) : Prop where
  models : Holds cu.models (modelDecls ops)
  values : Holds cu.values (valueDecls ops)
  froms : Holds cu.froms (fromDecls ops)
  tos : Holds cu.tos (toDecls ops)

structure Inv (H : Heap) (rx : Nat → Str → Bool) (ops : List Op) (s : St) : Prop where
  cust : CustHolds s.cust ops
  closed : Closed H s
  norec : NoRec H s
  made : ∀ t, (s.classes t).isSome ↔ ∃ w, Op.wrap w ∈ ops ∧ Part H w t
  classes : ∀ t c, s.classes t = some c → ∃ pre cu, FirstUse H ops t pre ∧ CustHolds cu pre ∧ c = classOf H rx cu s.cls t

theorem inv_new : Inv H rx [] St.new :=
  ⟨⟨holds_new, holds_new, holds_new, holds_new⟩, (fun u v h => by cases h), (fun u h => by cases h),
    (fun t => ⟨fun h => (by cases h), fun ⟨w, h, _⟩ => by cases h⟩), (fun t c h => by cases h)⟩

theorem FirstUse.snoc {ops : List Op} {t : TId} {pre : List Op} (h : FirstUse H ops t pre) (o : Op) : FirstUse H (ops ++ [o]) t pre := by
  obtain ⟨w, post, h1, h2, h3⟩ := h
  exact ⟨w, post ++ [o], by rw [h1]; simp, h2, h3⟩

theorem inv_decl {ops : List Op} {s : St} (h : Inv H rx ops s) (o : Op) (ho : ∀ w, o ≠ .wrap w) (cu : Cust) (hc : CustHolds cu (ops ++ [o])) :
    Inv H rx (ops ++ [o]) { s with cust := cu } := by
  refine ⟨hc, h.closed, h.norec, fun t => ?_, fun t c hc => ?_⟩
  · rw [h.made]
    constructor
    · rintro ⟨w, h1, h2⟩; exact ⟨w, List.mem_append_left _ h1, h2⟩
    · rintro ⟨w, h1, h2⟩
      rcases List.mem_append.mp h1 with h1 | h1
      · exact ⟨w, h1, h2⟩
      · exact absurd (List.mem_singleton.mp h1).symm (ho w)
  · obtain ⟨pre, cu', h1, h2, h3⟩ := h.classes t c hc
    exact ⟨pre, cu', h1.snoc o, h2, h3⟩

theorem decls_snoc (ops : List Op) (o : Op) : modelDecls (ops ++ [o]) = modelDecls ops ++ modelDecls [o] ∧
    valueDecls (ops ++ [o]) = valueDecls ops ++ valueDecls [o] ∧ fromDecls (ops ++ [o]) = fromDecls ops ++ fromDecls [o] ∧
    toDecls (ops ++ [o]) = toDecls ops ++ toDecls [o] := by
  simp [modelDecls, valueDecls, fromDecls, toDecls, List.filterMap_append]

theorem inv_step {ops : List Op} {s s' : St} {fuel : Nat} (h : Inv H rx ops s) (o : Op) (ho : NoOpts [o]) (hs : step H rx fuel s o = .ok s') :
    Inv H rx (ops ++ [o]) s' := by
  obtain ⟨e1, e2, e3, e4⟩ := decls_snoc ops o
  cases o with
  | specializeModel k c m =>
    injection hs with hs; subst hs
    refine inv_decl h _ (fun w h => by cases h) _ ⟨?_, ?_, ?_, ?_⟩
    · rw [e1]; exact holds_add h.cust.models k c m
    · rw [e2]; simpa [valueDecls] using h.cust.values
    · rw [e3]; simpa [fromDecls] using h.cust.froms
    · rw [e4]; simpa [toDecls] using h.cust.tos
  | specialize k c m =>
    injection hs with hs; subst hs
    refine inv_decl h _ (fun w h => by cases h) _ ⟨?_, ?_, ?_, ?_⟩
    · rw [e1]; simpa [modelDecls] using h.cust.models
    · rw [e2]; exact holds_add h.cust.values k c m
    · rw [e3]; simpa [fromDecls] using h.cust.froms
    · rw [e4]; simpa [toDecls] using h.cust.tos
  | convertFrom cls k c b =>
    injection hs with hs; subst hs
    refine inv_decl h _ (fun w h => by cases h) _ ⟨?_, ?_, ?_, ?_⟩
    · rw [e1]; simpa [modelDecls] using h.cust.models
    · rw [e2]; simpa [valueDecls] using h.cust.values
    · rw [e3]; exact holds_add h.cust.froms k c (cls, b)
    · rw [e4]; simpa [toDecls] using h.cust.tos
  | convertTo k cls c b =>
    injection hs with hs; subst hs
    refine inv_decl h _ (fun w h => by cases h) _ ⟨?_, ?_, ?_, ?_⟩
    · rw [e1]; simpa [modelDecls] using h.cust.models
    · rw [e2]; simpa [valueDecls] using h.cust.values
    · rw [e3]; simpa [fromDecls] using h.cust.froms
    · rw [e4]; exact holds_add h.cust.tos k c (cls, b)
  | convertToOpts k c b =>
    have hc := ho k c b (List.mem_singleton.mpr rfl)
    subst hc
    injection hs with hs; subst hs
    refine inv_decl h _ (fun w h => by cases h) _ ⟨?_, ?_, ?_, ?_⟩
    · rw [e1]; simpa [modelDecls] using h.cust.models
    · rw [e2]; simpa [valueDecls] using h.cust.values
    · rw [e3]; simpa [fromDecls] using h.cust.froms
    · rw [e4]; exact holds_add h.cust.tos k _ (none, b)
  | wrap w =>
    have m := wrap_made fuel s s' w h.closed h.norec hs
    refine ⟨?_, m.closed, m.norec, fun t => ?_, fun t c hc => ?_⟩
    · rw [m.cust]
      exact ⟨by rw [e1]; simpa [modelDecls] using h.cust.models, by rw [e2]; simpa [valueDecls] using h.cust.values,
        by rw [e3]; simpa [fromDecls] using h.cust.froms, by rw [e4]; simpa [toDecls] using h.cust.tos⟩
    · rw [m.made, h.made]
      constructor
      · rintro (⟨x, h1, h2⟩ | h2)
        · exact ⟨x, List.mem_append_left _ h1, h2⟩
        · exact ⟨w, List.mem_append_right _ (List.mem_singleton.mpr rfl), h2⟩
      · rintro ⟨x, h1, h2⟩
        rcases List.mem_append.mp h1 with h1 | h1
        · exact .inl ⟨x, h1, h2⟩
        · cases List.mem_singleton.mp h1; exact .inr h2
    · cases hn : s.classes t with
      | some c0 =>
        have e := m.keep t c0 hn
        rw [e] at hc; injection hc with hc; subst hc
        obtain ⟨pre, cu, h1, h2, h3⟩ := h.classes t c0 hn
        refine ⟨pre, cu, h1.snoc _, h2, h3.trans (classOf_congr (fun v hv => ?_))⟩
        obtain ⟨cv, hcv⟩ := Option.isSome_iff_exists.mp (h.closed t v (by rw [hn]; rfl) hv)
        rw [cls_eq hcv, cls_eq (m.keep v cv hcv)]
      | none =>
        have hnot : ¬ ∃ x, Op.wrap x ∈ ops ∧ Part H x t := by
          rw [← h.made]; rw [hn]; simp
        have hp : Part H w t := by
          rcases (m.made t).mp (by rw [hc]; rfl) with h' | h'
          · rw [hn] at h'; cases h'
          · exact h'
        exact ⟨ops, s.cust, ⟨w, [], rfl, hp, fun x hx hpx => hnot ⟨x, hx, hpx⟩⟩, h.cust, m.new t c hn hc⟩

theorem inv_run {fuel : Nat} : ∀ (os : List Op) {ops : List Op} {s s' : St}, Inv H rx ops s → NoOpts os → run H rx fuel s os = .ok s' →
    Inv H rx (ops ++ os) s'
  | [], ops, s, s', h, _, hr => by injection hr with hr; subst hr; simpa using h
  | o :: os, ops, s, s', h, hno, hr => by
    obtain ⟨s1, h1, hr⟩ := Res.bind_eq_ok.mp hr
    have i1 := inv_step h o (fun k c b hm => hno k c b (by rw [List.mem_singleton] at hm; rw [hm]; exact List.mem_cons_self ..)) h1
    have := inv_run os i1 (fun k c b hm => hno k c b (List.mem_cons_of_mem _ hm)) hr
    simpa using this

/-- there is one first use -/
theorem FirstUse.unique {ops : List Op} {t : TId} {p q : List Op} (h1 : FirstUse H ops t p) (h2 : FirstUse H ops t q) : p = q := by
  obtain ⟨w, a, e1, g1, n1⟩ := h1
  obtain ⟨x, b, e2, g2, n2⟩ := h2
  have key : ∀ (p q : List Op) (w x : TId) (a b : List Op), p ++ .wrap w :: a = q ++ .wrap x :: b → Part H w t → Part H x t →
      (∀ w', Op.wrap w' ∈ p → ¬ Part H w' t) → (∀ w', Op.wrap w' ∈ q → ¬ Part H w' t) → p = q := by
    intro p
    induction p with
    | nil =>
      intro q w x a b e g1 g2 n1 n2
      cases q with
      | nil => rfl
      | cons o q =>
        simp only [List.nil_append, List.cons_append, List.cons.injEq] at e
        exact absurd g1 (n2 w (by rw [e.1]; exact List.mem_cons_self ..))
    | cons o p ih =>
      intro q w x a b e g1 g2 n1 n2
      cases q with
      | nil =>
        simp only [List.nil_append, List.cons_append, List.cons.injEq] at e
        exact absurd g2 (n1 x (by rw [← e.1]; exact List.mem_cons_self ..))
      | cons o' q =>
        simp only [List.cons_append, List.cons.injEq] at e
        rw [e.1, ih q w x a b e.2 g1 g2 (fun w' h => n1 w' (List.mem_cons_of_mem _ h)) (fun w' h => n2 w' (List.mem_cons_of_mem _ h))]
  exact key p q w x a b (e1.symm.trans e2) g1 g2 n1 n2

/-! ### What the class holds -/

theorem foldFrom (l : List (RClass × Nat)) : ∀ (c : Cls),
    let c' := l.foldl (fun c p => c.convertFrom p.1 (.user p.2)) c
    c'.extended = c.extended ∧ c'.included = c.included ∧ c'.conv = c.conv ∧ c'.toRuby = c.toRuby ∧ c'.contains = c.contains ∧
      ∀ k, hget c'.froms k = (((l.filter (fun p => p.1 = k)).getLast?).map (fun p => Block.user p.2)).or (hget c.froms k) := by
  induction l with
  | nil => intro c; simp
  | cons p l ih =>
    intro c
    obtain ⟨h1, h2, h3, h4, h5, h6⟩ := ih (c.convertFrom p.1 (.user p.2))
    refine ⟨h1, h2, h3, h4, h5, fun k => ?_⟩
    simp only [List.foldl_cons]
    rw [h6 k]
    by_cases e : p.1 = k
    · subst e
      simp only [List.filter_cons, decide_true, if_pos]
      cases hl : (l.filter (fun q => decide (q.1 = p.1))).getLast? with
      | none => simp [List.getLast?_cons, hl, Cls.convertFrom, hget_hput]
      | some q => simp [List.getLast?_cons, hl]
    · simp [Cls.convertFrom, hget_hput, e]

/-- the class after `Type.subclass_initialize`, without the parts -/
theorem typeInit_spec {cu : Cust} {pre : List Op} (h : CustHolds cu pre) {t : TId} (hn : PlainName (H.name t)) {c : Cls}
    (hc : c = typeInit H rx cu t .blank) :
    c.extended = applicable H rx (modelDecls pre) t ∧ c.included = applicable H rx (valueDecls pre) t ∧
    (∀ k, hget c.froms k = declaredFrom H rx pre t k) ∧
    c.toRuby = (declaredTo H rx pre t).map (·.2) ∧ c.conv = (declaredTo H rx pre t).map (fun p => ⟨p.1, false⟩) ∧
    (c.contains = true ↔ applicable H rx (toDecls pre) t ≠ []) := by
  simp only [typeInit, findAll_eq h.models hn, findAll_eq h.values hn, findAll_eq h.froms hn, findAll_eq h.tos hn] at hc
  obtain ⟨h1, h2, h3, h4, h5, h6⟩ := foldFrom (applicable H rx (fromDecls pre) t) (Cls.mk (Cls.blank.extended ++ applicable H rx (modelDecls pre) t)
    (Cls.blank.included ++ applicable H rx (valueDecls pre) t) [] none none false false false)
  have hf : ∀ k, declaredFrom H rx pre t k = (((applicable H rx (fromDecls pre) t).filter (fun p => p.1 = k)).getLast?).map
    (fun p => Block.user p.2) := fun k => rfl
  cases ha : applicable H rx (toDecls pre) t with
  | nil =>
    simp only [ha, List.head?_nil] at hc
    subst hc
    refine ⟨h1, h2, fun k => ?_, h4.trans ?_, h3.trans ?_, ?_⟩
    · rw [hf]; refine (h6 k).trans ?_
      simp [hget]
    · simp [declaredTo, ha]
    · simp [declaredTo, ha]
    · exact ⟨fun h => absurd (h5.symm.trans h) (by simp), fun h => absurd rfl h⟩
  | cons p l =>
    simp only [ha, List.head?_cons] at hc
    subst hc
    refine ⟨h1, h2, fun k => ?_, ?_, ?_, ?_⟩
    · rw [hf]; refine (h6 k).trans ?_
      simp [hget]
    · simp [declaredTo, ha, Cls.convertTo]
    · simp [declaredTo, ha, Cls.convertTo]
    · simp [Cls.convertTo]

end Verif.RubyCustom
