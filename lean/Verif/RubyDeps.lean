import Verif.TypeGraph

/-!
C64: `Type.recursive_dependencies` (bindings/ruby/lib/typelib/type.rb:152-183), which remembers its results in the classes.
-/

namespace Verif.RubyDeps
open Verif Verif.Graph

/-! ### Model -/

/-- `@recursive_dependencies` of all the classes; only membership in the sets is used -/
abbrev Memo := TId → Option (List TId)

def Memo.new : Memo := fun _ => none

/-- the set of `t` gets new members -/
def Memo.add (M : Memo) (t : TId) (l : List TId) : Memo := fun u => if u = t then some ((M t).getD [] ++ l) else M u

/-- `direct_dependencies.each` (type.rb:172-175): `set.merge` at the end of the call for the dependency (type.rb:179) -/
def loop (visit : Memo → TId → Res Memo) (t : TId) : Memo → List TId → Res Memo
  | M, [] => .ok M
  | M, d :: ds => do
    let M1 := M.add t [d]
    let M2 ← visit M1 d
    loop visit t (M2.add t ((M2 d).getD [])) ds

/-- `recursive_dependencies` (type.rb:169-183). `D t` enumerates the direct dependencies of `t`, a `std::set` of pointers
(value.cc:239-251, type.rb:158-160). The fuel bounds the depth of the recursion. -/
def visit (D : TId → List TId) : Nat → Memo → TId → Res Memo
  | 0, _, _ => .fuel
  | f + 1, M, t =>
    match M t with
    | some _ => .ok M
    | none => loop (visit D f) t (M.add t []) (D t)

/-- a program calls `recursive_dependencies` on some types; the results are what the memo has for them at that time -/
def history (D : TId → List TId) (f : Nat) : Memo → List TId → Res (Memo × List (TId × List TId))
  | M, [] => .ok (M, [])
  | M, t :: ts => do
    let M1 ← visit D f M t
    let r ← history D f M1 ts
    .ok (r.1, (t, (M1 t).getD []) :: r.2)

/-! ### Specification -/

/-- `u` is needed to define `t` -/
inductive Needs (H : Heap) : TId → TId → Prop
  | direct {t u} : u ∈ H.deps t → Needs H t u
  | step {t u v} : u ∈ H.deps t → Needs H u v → Needs H t v

/-- no type that is needed to define `t` is needed to define itself -/
def NoCycle (H : Heap) : Prop := ∀ t, ¬ Needs H t t

/-- the order in which the dependencies are enumerated is that of their addresses -/
def Enumerates (H : Heap) (D : TId → List TId) : Prop := ∀ t u, u ∈ D t ↔ u ∈ H.deps t

/-! ### Proofs -/

variable {H : Heap} {D : TId → List TId}

theorem Needs.trans {t u v : TId} (h : Needs H t u) (h2 : Needs H u v) : Needs H t v := by
  induction h with
  | direct h => exact .step h h2
  | step h _ ih => exact .step h (ih h2)

theorem add_self (M : Memo) (t : TId) (l : List TId) : M.add t l t = some ((M t).getD [] ++ l) := by simp [Memo.add]

theorem add_other (M : Memo) {t u : TId} (l : List TId) (h : u ≠ t) : M.add t l u = M u := by simp [Memo.add, h]

/-- what a memo holds is needed -/
def Sound (H : Heap) (M : Memo) : Prop := ∀ t s, M t = some s → ∀ u ∈ s, Needs H t u

theorem sound_add {M : Memo} {t : TId} {l : List TId} (h : Sound H M) (hl : ∀ u ∈ l, Needs H t u) : Sound H (M.add t l) := by
  intro x s hx u hu
  by_cases e : x = t
  · subst e
    rw [add_self] at hx
    injection hx with hx
    subst hx
    rcases List.mem_append.mp hu with hu | hu
    · cases hm : M x with
      | none => rw [hm] at hu; cases hu
      | some s => rw [hm] at hu; exact h x s hm u hu
    · exact hl u hu
  · rw [add_other M l e] at hx
    exact h x s hx u hu

theorem loop_sound {vis : Memo → TId → Res Memo} (hv : ∀ M d M', Sound H M → vis M d = .ok M' → Sound H M') {t : TId} :
    ∀ {ds : List TId} {M M' : Memo}, (∀ d ∈ ds, d ∈ H.deps t) → Sound H M → loop vis t M ds = .ok M' → Sound H M'
  | [], M, M', _, hs, h => by injection h with h; subst h; exact hs
  | d :: ds, M, M', hd, hs, h => by
    obtain ⟨M2, h2, h⟩ := Res.bind_eq_ok.mp h
    have hdd := hd d (by simp)
    have s2 : Sound H M2 := hv _ _ _ (sound_add hs (fun u hu => by
      rw [List.mem_singleton.mp hu]; exact .direct hdd)) h2
    refine loop_sound hv (fun x hx => hd x (List.mem_cons_of_mem _ hx)) (sound_add s2 (fun u hu => ?_)) h
    cases hm : M2 d with
    | none => rw [hm] at hu; cases hu
    | some s => rw [hm] at hu; exact .step hdd (s2 d s hm u hu)

theorem visit_sound (hD : Enumerates H D) : ∀ (f : Nat) (M : Memo) (t : TId) (M' : Memo), Sound H M → visit D f M t = .ok M' →
    Sound H M'
  | 0, _, _, _, _, h => by cases h
  | f + 1, M, t, M', hs, h => by
    unfold visit at h
    cases hm : M t with
    | some s => rw [hm] at h; injection h with h; subst h; exact hs
    | none =>
      rw [hm] at h
      exact loop_sound (visit_sound hD f) (fun d hd => (hD t d).mp hd) (sound_add hs (fun u hu => by cases hu)) h

theorem sound_new : Sound H Memo.new := fun t s h => by cases h

/-- a call on `t` gave the types between `M` and `M'` their sets; all of them, and what they depend on, are in `S`, which is the set
of `t` -/
structure Step (D : TId → List TId) (M M' : Memo) (t : TId) (S : List TId) : Prop where
  keep : ∀ x s, x ≠ t → M x = some s → M' x = some s
  set : M' t = some S
  fresh : ∀ x, x ≠ t → M x = none → M' x ≠ none → x ∈ S ∧ ∀ d ∈ D x, d ∈ S ∧ M' d ≠ none

theorem loop_step {vis : Memo → TId → Res Memo} {t : TId}
    (hv : ∀ M d M', vis M d = .ok M' → (∃ s, M d = some s ∧ M' = M) ∨
      (M d = none ∧ ∃ S, Step D M M' d S ∧ ∀ x ∈ D d, x ∈ S ∧ M' x ≠ none)) :
    ∀ {ds : List TId} {M M' : Memo} {S0 : List TId}, M t = some S0 → loop vis t M ds = .ok M' →
      ∃ S, Step D M M' t S ∧ (∀ x ∈ S0, x ∈ S) ∧ ∀ d ∈ ds, d ∈ S ∧ M' d ≠ none
  | [], M, M', S0, hS, h => by
    injection h with h
    subst h
    exact ⟨S0, ⟨fun x s _ h => h, hS, fun x _ h1 h2 => absurd h1 h2⟩, fun x hx => hx, fun d hd => by cases hd⟩
  | d :: ds, M, M', S0, hS, h => by
    obtain ⟨M2, h2, h⟩ := Res.bind_eq_ok.mp h
    have hM1 : (M.add t [d]) t = some (S0 ++ [d]) := by rw [add_self, hS]; rfl
    have k2 : M2 t = some (S0 ++ [d]) := by
      rcases hv _ _ _ h2 with ⟨s, _, e⟩ | ⟨hn, S, hst, _⟩
      · rw [e]; exact hM1
      · by_cases e : t = d
        · subst e; rw [hM1] at hn; cases hn
        · exact hst.keep t _ e hM1
    have hM3 : (M2.add t ((M2 d).getD [])) t = some (S0 ++ [d] ++ (M2 d).getD []) := by rw [add_self, k2]; rfl
    obtain ⟨S, hst, hsub, hds⟩ := loop_step hv hM3 h
    have hM3o : ∀ x, x ≠ t → (M2.add t ((M2 d).getD [])) x = M2 x := fun x hx => add_other M2 _ hx
    have hM1o : ∀ x, x ≠ t → (M.add t [d]) x = M x := fun x hx => add_other M _ hx
    have keep2 : ∀ x s, x ≠ t → M x = some s → M2 x = some s := by
      intro x s hx hm
      rcases hv _ _ _ h2 with ⟨s', _, e⟩ | ⟨hn, S', hst', _⟩
      · rw [e, hM1o x hx]; exact hm
      · by_cases e : x = d
        · subst e; rw [hM1o x hx, hm] at hn; cases hn
        · exact hst'.keep x s e (by rw [hM1o x hx]; exact hm)
    have mono : ∀ x, M2 x ≠ none → M' x ≠ none := by
      intro x hx
      by_cases e : x = t
      · subst e; rw [hst.set]; exact fun h => by cases h
      · cases hm : M2 x with
        | none => exact absurd hm hx
        | some s => rw [hst.keep x s e (by rw [hM3o x e]; exact hm)]; exact fun h => by cases h
    have hdm : M2 d ≠ none := by
      rcases hv _ _ _ h2 with ⟨s', hs', e⟩ | ⟨hn, S', hst', _⟩
      · rw [e, hs']; exact fun h => by cases h
      · rw [hst'.set]; exact fun h => by cases h
    refine ⟨S, ⟨fun x s hx hm => hst.keep x s hx (by rw [hM3o x hx]; exact keep2 x s hx hm), hst.set, ?_⟩, ?_, ?_⟩
    · intro x hx hn hne
      cases hm2 : M2 x with
      | none => exact hst.fresh x hx (by rw [hM3o x hx]; exact hm2) hne
      | some s =>
        rcases hv _ _ _ h2 with ⟨s', _, e⟩ | ⟨hnd, S', hst', hdd⟩
        · rw [e, hM1o x hx, hn] at hm2; cases hm2
        · have hS' : ∀ y ∈ S', y ∈ S := fun y hy => hsub y (by rw [hst'.set]; simp [hy])
          by_cases e : x = d
          · subst e
            exact ⟨hsub x (by simp), fun y hy => ⟨hS' y (hdd y hy).1, mono y (hdd y hy).2⟩⟩
          · obtain ⟨g1, g2⟩ := hst'.fresh x e (by rw [hM1o x hx]; exact hn) (by rw [hm2]; exact fun h => by cases h)
            exact ⟨hS' x g1, fun y hy => ⟨hS' y (g2 y hy).1, mono y (g2 y hy).2⟩⟩
    · intro x hx
      exact hsub x (by simp [hx])
    · intro y hy
      rcases List.mem_cons.mp hy with rfl | hy
      · exact ⟨hsub y (by simp), mono y hdm⟩
      · exact hds y hy

theorem visit_step : ∀ (f : Nat) (M : Memo) (t : TId) (M' : Memo), visit D f M t = .ok M' →
    (∃ s, M t = some s ∧ M' = M) ∨ (M t = none ∧ ∃ S, Step D M M' t S ∧ ∀ x ∈ D t, x ∈ S ∧ M' x ≠ none)
  | 0, _, _, _, h => by cases h
  | f + 1, M, t, M', h => by
    unfold visit at h
    cases hm : M t with
    | some s => rw [hm] at h; injection h with h; exact .inl ⟨s, rfl, h.symm⟩
    | none =>
      rw [hm] at h
      obtain ⟨S, hst, _, hds⟩ := loop_step (D := D) (visit_step f) (S0 := []) (by rw [add_self, hm]; rfl) h
      refine .inr ⟨rfl, S, ⟨fun x s hx hs => hst.keep x s hx (by rw [add_other M _ hx]; exact hs), hst.set,
        fun x hx hn => hst.fresh x hx (by rw [add_other M _ hx]; exact hn)⟩, hds⟩

/-- the memo is right for `t` -/
def Right (H : Heap) (M : Memo) (t : TId) : Prop := ∀ s, M t = some s → ∀ u, u ∈ s ↔ Needs H t u

theorem closed_needs {M M' : Memo} {t : TId} {S : List TId} (hD : Enumerates H D) (hst : Step D M M' t S)
    (hdd : ∀ x ∈ D t, x ∈ S ∧ M' x ≠ none) (hn : M t = none) (hr : ∀ u, Needs H t u → Right H M u)
    (hmerged : ∀ u s, Needs H t u → M u = some s → u ∈ S → ∀ v ∈ s, v ∈ S) {u v : TId} (h : Needs H u v) :
    (u = t ∨ (Needs H t u ∧ u ∈ S ∧ M' u ≠ none)) → v ∈ S := by
  induction h with
  | @direct u v hm =>
    rintro (rfl | ⟨h1, h2, h3⟩)
    · exact (hdd v ((hD u v).mpr hm)).1
    · cases hmu : M u with
      | some s => exact hmerged u s h1 hmu h2 v ((hr u h1 s hmu v).mpr (.direct hm))
      | none =>
        by_cases e : u = t
        · subst e; exact (hdd v ((hD u v).mpr hm)).1
        · exact ((hst.fresh u e hmu h3).2 v ((hD u v).mpr hm)).1
  | @step u w v hm hwv ih =>
    intro hu
    have hneed : Needs H t w := by
      rcases hu with rfl | ⟨h1, _, _⟩
      · exact .direct hm
      · exact h1.trans (.direct hm)
    rcases hu with rfl | ⟨h1, h2, h3⟩
    · have := hdd w ((hD u w).mpr hm)
      exact ih (.inr ⟨hneed, this.1, this.2⟩)
    · cases hmu : M u with
      | some s => exact hmerged u s h1 hmu h2 v ((hr u h1 s hmu v).mpr (.step hm hwv))
      | none =>
        by_cases e : u = t
        · subst e
          have := hdd w ((hD u w).mpr hm)
          exact ih (.inr ⟨hneed, this.1, this.2⟩)
        · have := (hst.fresh u e hmu h3).2 w ((hD u w).mpr hm)
          exact ih (.inr ⟨hneed, this.1, this.2⟩)

/-- **C64, first call**: when nothing is remembered yet, the result is exactly the set of the types needed to define the type,
recursive types included. -/
theorem C64_first (hD : Enumerates H D) {f : Nat} {t : TId} {M' : Memo} (h : visit D f Memo.new t = .ok M') :
    ∃ s, M' t = some s ∧ ∀ u, u ∈ s ↔ Needs H t u := by
  rcases visit_step f _ _ _ h with ⟨s, hs, _⟩ | ⟨hn, S, hst, hdd⟩
  · cases hs
  · refine ⟨S, hst.set, fun u => ⟨visit_sound hD f _ _ _ sound_new h t S hst.set u, fun hu => ?_⟩⟩
    exact closed_needs hD hst hdd hn (fun x _ s hs => by cases hs) (fun x s _ hs => by cases hs) hu (.inl rfl)

/-- **C64, soundness**: whatever was called before, the result only has types that are needed. -/
theorem C64_sound (hD : Enumerates H D) {f : Nat} : ∀ {ts : List TId} {M M' : Memo} {rs : List (TId × List TId)}, Sound H M →
    history D f M ts = .ok (M', rs) → ∀ r ∈ rs, ∀ u ∈ r.2, Needs H r.1 u
  | [], _, _, _, _, h, r, hr => by injection h with h; injection h with _ h; subst h; cases hr
  | t :: ts, M, M', rs, hs, h, r, hr => by
    obtain ⟨M1, h1, h⟩ := Res.bind_eq_ok.mp h
    obtain ⟨⟨M2, rs2⟩, h2, h⟩ := Res.bind_eq_ok.mp h
    injection h with h
    injection h with _ h
    subst h
    have s1 := visit_sound hD f _ _ _ hs h1
    rcases List.mem_cons.mp hr with rfl | hr
    · intro u hu
      cases hm : M1 t with
      | none => simp only [hm] at hu; cases hu
      | some s => simp only [hm] at hu; exact s1 t s hm u hu
    · exact C64_sound hD s1 h2 r hr

/-! #### without cycles -/

theorem loop_right (hD : Enumerates H D) (hc : NoCycle H) {vis : Memo → TId → Res Memo} {t : TId}
    (hv : ∀ M d M', (∀ x, Needs H d x → Right H M x) → Right H M d → vis M d = .ok M' →
      (∀ x, (x = d ∨ Needs H d x) → Right H M' x) ∧ (∃ s, M' d = some s) ∧ ∀ x, ¬ (x = d ∨ Needs H d x) → M' x = M x) :
    ∀ {ds done : List TId} {M M' : Memo} {S0 : List TId}, (∀ x, x ∈ done ++ ds ↔ x ∈ H.deps t) →
      (∀ x, Needs H t x → Right H M x) → M t = some S0 → (∀ u, u ∈ S0 ↔ ∃ d ∈ done, u = d ∨ Needs H d u) →
      loop vis t M ds = .ok M' →
      (∀ x, (x = t ∨ Needs H t x) → Right H M' x) ∧ (∃ s, M' t = some s) ∧ ∀ x, ¬ (x = t ∨ Needs H t x) → M' x = M x
  | [], done, M, M', S0, hdone, hr, hS, hS0, h => by
    injection h with h
    subst h
    refine ⟨fun x hx => ?_, ⟨S0, hS⟩, fun x _ => rfl⟩
    rcases hx with rfl | hx
    · intro s hs u
      rw [hS] at hs
      injection hs with hs
      subst hs
      rw [hS0]
      constructor
      · rintro ⟨d, hd, rfl | hn⟩
        · exact .direct ((hdone u).mp (by simpa using hd))
        · exact .step ((hdone d).mp (by simpa using hd)) hn
      · intro hn
        cases hn with
        | direct hm => exact ⟨u, by simpa using (hdone u).mpr hm, .inl rfl⟩
        | step hm hn => exact ⟨_, by simpa using (hdone _).mpr hm, .inr hn⟩
    · exact hr x hx
  | d :: ds, done, M, M', S0, hdone, hr, hS, hS0, h => by
    obtain ⟨M2, h2, h⟩ := Res.bind_eq_ok.mp h
    have hdt : d ∈ H.deps t := (hdone d).mp (by simp)
    have hnd : ∀ x, (x = d ∨ Needs H d x) → x ≠ t := by
      rintro x (rfl | hx) rfl
      · exact hc _ (.direct hdt)
      · exact hc _ (.step hdt hx)
    have hM1o : ∀ x, x ≠ t → (M.add t [d]) x = M x := fun x hx => add_other M _ hx
    have hr1 : ∀ x, (x = d ∨ Needs H d x) → Right H (M.add t [d]) x := by
      intro x hx s hs
      rw [hM1o x (hnd x hx)] at hs
      refine hr x ?_ s hs
      rcases hx with rfl | hx
      · exact .direct hdt
      · exact .step hdt hx
    obtain ⟨g1, ⟨s, gs⟩, g3⟩ := hv _ d M2 (fun x hx => hr1 x (.inr hx)) (hr1 d (.inl rfl)) h2
    have k2 : M2 t = some (S0 ++ [d]) := by
      rw [g3 t (fun e => hnd t e rfl), add_self, hS]
      rfl
    have hM3 : (M2.add t ((M2 d).getD [])) t = some (S0 ++ [d] ++ s) := by rw [add_self, k2, gs]; rfl
    have hM3o : ∀ x, x ≠ t → (M2.add t ((M2 d).getD [])) x = M2 x := fun x hx => add_other M2 _ hx
    obtain ⟨f1, f2, f3⟩ := loop_right hD hc hv (ds := ds) (done := done ++ [d]) (by simpa using hdone) (fun x hx => by
        have hxt : x ≠ t := fun e => hc t (e ▸ hx)
        intro s' hs'
        rw [hM3o x hxt] at hs'
        by_cases hxd : x = d ∨ Needs H d x
        · exact g1 x hxd s' hs'
        · rw [g3 x hxd, hM1o x hxt] at hs'
          exact hr x hx s' hs') hM3 (fun u => by
        simp only [List.mem_append, List.mem_singleton, hS0 u]
        have := g1 d (.inl rfl) s gs u
        constructor
        · rintro ((⟨y, hy, h⟩ | h) | h)
          · exact ⟨y, .inl hy, h⟩
          · exact ⟨d, .inr rfl, .inl h⟩
          · exact ⟨d, .inr rfl, .inr (this.mp h)⟩
        · rintro ⟨y, hy | hy, hu⟩
          · exact .inl (.inl ⟨y, hy, hu⟩)
          · rw [hy] at hu
            rcases hu with hu | hu
            · exact .inl (.inr hu)
            · exact .inr (this.mpr hu)) h
    refine ⟨f1, f2, fun x hx => ?_⟩
    have hxt : x ≠ t := fun e => hx (.inl e)
    rw [f3 x hx, hM3o x hxt, g3 x ?_, hM1o x hxt]
    rintro (rfl | h')
    · exact hx (.inr (.direct hdt))
    · exact hx (.inr (.step hdt h'))

theorem visit_right (hD : Enumerates H D) (hc : NoCycle H) : ∀ (f : Nat) (M : Memo) (t : TId) (M' : Memo),
    (∀ x, Needs H t x → Right H M x) → Right H M t → visit D f M t = .ok M' →
    (∀ x, (x = t ∨ Needs H t x) → Right H M' x) ∧ (∃ s, M' t = some s) ∧ ∀ x, ¬ (x = t ∨ Needs H t x) → M' x = M x
  | 0, _, _, _, _, _, h => by cases h
  | f + 1, M, t, M', hr, hrt, h => by
    unfold visit at h
    cases hm : M t with
    | some s =>
      rw [hm] at h
      injection h with h
      subst h
      refine ⟨fun x hx => ?_, ⟨s, hm⟩, fun x _ => rfl⟩
      rcases hx with rfl | hx
      · exact hrt
      · exact hr x hx
    | none =>
      rw [hm] at h
      have ho : ∀ x, x ≠ t → (M.add t []) x = M x := fun x hx => add_other M _ hx
      obtain ⟨g1, g2, g3⟩ := loop_right hD hc (visit_right hD hc f) (done := []) (S0 := []) (fun x => by simpa using hD t x)
        (fun x hx s hs => by
          rw [ho x (fun e => hc t (e ▸ hx))] at hs
          exact hr x hx s hs) (by rw [add_self, hm]; rfl) (fun u => by simp) h
      refine ⟨g1, g2, fun x hx => ?_⟩
      rw [g3 x hx, ho x (fun e => hx (.inl e))]

/-- **C64, without cycles**: if no type is needed to define itself, every call gives exactly the types that are needed, whatever was
called before. -/
theorem C64_acyclic (hD : Enumerates H D) (hc : NoCycle H) {f : Nat} : ∀ {ts : List TId} {M M' : Memo} {rs : List (TId × List TId)},
    (∀ x, Right H M x) → history D f M ts = .ok (M', rs) → rs.map (·.1) = ts ∧ ∀ r ∈ rs, ∀ u, u ∈ r.2 ↔ Needs H r.1 u
  | [], _, _, _, _, h => by
    injection h with h; injection h with _ h; subst h
    exact ⟨rfl, fun r hr => by cases hr⟩
  | t :: ts, M, M', rs, hr, h => by
    obtain ⟨M1, h1, h⟩ := Res.bind_eq_ok.mp h
    obtain ⟨⟨M2, rs2⟩, h2, h⟩ := Res.bind_eq_ok.mp h
    injection h with h
    injection h with _ h
    subst h
    obtain ⟨g1, ⟨s, gs⟩, g3⟩ := visit_right hD hc f M t M1 (fun x _ => hr x) (hr t) h1
    obtain ⟨i1, i2⟩ := C64_acyclic hD hc (fun x => by
      by_cases hx : x = t ∨ Needs H t x
      · exact g1 x hx
      · intro s hs; rw [g3 x hx] at hs; exact hr x s hs) h2
    refine ⟨by simp [i1], fun r hm u => ?_⟩
    rcases List.mem_cons.mp hm with rfl | hm
    · simp only [gs, Option.getD_some]
      exact g1 t (.inl rfl) s gs u
    · exact i2 r hm u

theorem right_new : ∀ x, Right H Memo.new x := fun x s h => by cases h

/-! #### termination -/

theorem loop_ends {n : Nat} {vis : Memo → TId → Res Memo} {t : TId} {f : Nat}
    (hmono : ∀ M d M', vis M d = .ok M' → ∀ x, M x ≠ none → M' x ≠ none)
    (hv : ∀ M d, d < n → ((List.range n).filter (fun x => (M x).isNone)).length < f → ∃ M', vis M d = .ok M') :
    ∀ {ds : List TId} {M : Memo}, (∀ d ∈ ds, d < n) → M t ≠ none →
      ((List.range n).filter (fun x => (M x).isNone)).length < f → ∃ M', loop vis t M ds = .ok M'
  | [], M, _, _, _ => ⟨M, rfl⟩
  | d :: ds, M, hd, ht, hf => by
    have cnt : ∀ (A B : Memo), (∀ x, A x ≠ none → B x ≠ none) →
        ((List.range n).filter (fun x => (B x).isNone)).length ≤ ((List.range n).filter (fun x => (A x).isNone)).length := by
      intro A B hAB
      simp only [← List.countP_eq_length_filter]
      refine List.countP_mono_left (fun x _ hx => ?_)
      cases hA : A x with
      | none => rfl
      | some s => cases hB : B x with
        | none => exact absurd hB (hAB x (by rw [hA]; exact fun h => by cases h))
        | some s' => rw [hB] at hx; cases hx
    have madd : ∀ (A : Memo) l x, A x ≠ none → (A.add t l) x ≠ none := by
      intro A l x hx
      by_cases e : x = t
      · subst e; rw [add_self]; exact fun h => by cases h
      · rw [add_other A l e]; exact hx
    obtain ⟨M2, h2⟩ := hv (M.add t [d]) d (hd d (by simp)) (Nat.lt_of_le_of_lt (cnt _ _ (madd M _)) hf)
    have m2 : ∀ x, M x ≠ none → (M2.add t ((M2 d).getD [])) x ≠ none := fun x hx => madd M2 _ x (hmono _ _ _ h2 x (madd M _ x hx))
    obtain ⟨M', h'⟩ := loop_ends hmono hv (ds := ds) (M := M2.add t ((M2 d).getD [])) (fun x hx => hd x (List.mem_cons_of_mem _ hx))
      (m2 t ht) (Nat.lt_of_le_of_lt (cnt _ _ m2) hf)
    exact ⟨M', by simp only [loop, h2, Res.bind_ok]; exact h'⟩

theorem visit_mono (f : Nat) (M : Memo) (d : TId) (M' : Memo) (h : visit D f M d = .ok M') (x : TId) (hx : M x ≠ none) :
    M' x ≠ none := by
  rcases visit_step f M d M' h with ⟨s, _, rfl⟩ | ⟨hn, S, hst, _⟩
  · exact hx
  · cases hm : M x with
    | none => exact absurd hm hx
    | some s =>
      by_cases e : x = d
      · subst e; rw [hn] at hm; cases hm
      · rw [hst.keep x s e hm]; exact fun h => by cases h

theorem visit_ends {n : Nat} (hd : ∀ t, t < n → ∀ u ∈ D t, u < n) : ∀ (f : Nat) (M : Memo) (t : TId), t < n →
    ((List.range n).filter (fun x => (M x).isNone)).length < f → ∃ M', visit D f M t = .ok M'
  | 0, _, _, _, h => by cases h
  | f + 1, M, t, ht, h => by
    unfold visit
    cases hm : M t with
    | some s => exact ⟨M, rfl⟩
    | none =>
      refine loop_ends (n := n) (f := f) (fun M d M' h x hx => visit_mono f M d M' h x hx) (fun M d hd' hf => visit_ends hd f M d hd' hf)
        (hd t ht) (by rw [add_self]; exact fun h => by cases h) ?_
      have hlt : ((List.range n).filter (fun x => ((M.add t []) x).isNone)).length <
          ((List.range n).filter (fun x => (M x).isNone)).length := by
        have hsub : (List.range n).filter (fun x => ((M.add t []) x).isNone) =
            ((List.range n).filter (fun x => (M x).isNone)).filter (fun x => x ≠ t) := by
          rw [List.filter_filter]
          refine List.filter_congr (fun x _ => ?_)
          by_cases e : x = t
          · subst e; simp [add_self]
          · simp [add_other M _ e, e]
        rw [hsub]
        have hmem : t ∈ (List.range n).filter (fun x => (M x).isNone) := by
          simp only [List.mem_filter, List.mem_range]; exact ⟨ht, by rw [hm]; rfl⟩
        refine Nat.lt_of_le_of_ne (List.length_filter_le _ _) (fun e => ?_)
        have := List.length_filter_eq_length_iff.mp e t hmem
        simp at this
      omega

/-- **C64, termination**: `recursive_dependencies` ends for every type, recursive types included, whatever was called before. -/
theorem C64_terminates (hd : ∀ t, t < H.next → ∀ u ∈ H.deps t, u < H.next) (hD : Enumerates H D) (M : Memo) (t : TId)
    (ht : t < H.next) : ∃ f M', visit D f M t = .ok M' := by
  obtain ⟨M', h⟩ := visit_ends (D := D) (n := H.next) (fun t ht u hu => hd t ht u ((hD t u).mp hu))
    (((List.range H.next).filter (fun x => (M x).isNone)).length + 1) M t ht (Nat.lt_succ_self _)
  exact ⟨_, M', h⟩

/-! ### Example and counterexample -/

/-- `struct Node { Node* next; int value; }` -/
def nodeHeap : Heap where
  next := 3
  get := fun t =>
    if t = (0 : Nat) then ⟨"/Node".toList, 16, .comp [⟨"next".toList, 0, (1 : Nat)⟩, ⟨"value".toList, 8, (2 : Nat)⟩]⟩
    else if t = (1 : Nat) then ⟨"/Node*".toList, 8, .ptr (0 : Nat)⟩
    else ⟨"/int".toList, 4, .num .sint⟩

example : Enumerates nodeHeap nodeHeap.deps := fun _ _ => Iff.rfl

/-- **C64 fails after other calls**: once `recursive_dependencies` was called on `/Node`, that of `/Node*` lacks `/int`; called first, it
has it. -/
theorem C64_order_counterexample :
    (∃ M rs, history nodeHeap.deps 4 Memo.new [0, 1] = .ok (M, rs) ∧ rs = [(0, [1, 0, 1, 2]), (1, [0, 1])]) ∧
    (∃ M rs, history nodeHeap.deps 4 Memo.new [1] = .ok (M, rs) ∧ rs = [(1, [0, 1, 0, 2])]) ∧ Needs nodeHeap 1 2 := by
  refine ⟨⟨_, _, rfl, by decide⟩, ⟨_, _, rfl, by decide⟩, ?_⟩
  exact .step (u := (0 : Nat)) (by decide) (.direct (by decide))

/-- without the pointer: no cycles -/
example : ∃ H : Heap, NoCycle H ∧ Needs H 0 1 ∧ Needs H 0 2 := by
  refine ⟨⟨3, fun t => if t = (0 : Nat) then ⟨"/A".toList, 4, .comp [⟨"a".toList, 0, (1 : Nat)⟩]⟩ else
    if t = (1 : Nat) then ⟨"/B".toList, 4, .comp [⟨"b".toList, 0, (2 : Nat)⟩]⟩ else ⟨"/int".toList, 4, .num .sint⟩⟩, ?_, ?_, ?_⟩
  · intro t h
    have key : ∀ a b : Nat, Needs (⟨3, fun t => if t = (0 : Nat) then ⟨"/A".toList, 4, .comp [⟨"a".toList, 0, (1 : Nat)⟩]⟩ else
        if t = (1 : Nat) then ⟨"/B".toList, 4, .comp [⟨"b".toList, 0, (2 : Nat)⟩]⟩ else ⟨"/int".toList, 4, .num .sint⟩⟩ : Heap) a b → a < b := by
      have one : ∀ a b : Nat, b ∈ (⟨3, fun t => if t = (0 : Nat) then ⟨"/A".toList, 4, .comp [⟨"a".toList, 0, (1 : Nat)⟩]⟩ else
          if t = (1 : Nat) then ⟨"/B".toList, 4, .comp [⟨"b".toList, 0, (2 : Nat)⟩]⟩ else
          ⟨"/int".toList, 4, .num .sint⟩⟩ : Heap).deps a → a < b := by
        intro a b hm
        match a with
        | 0 => simp [Heap.deps, Heap.kind, Kind.deps] at hm; omega
        | 1 => simp [Heap.deps, Heap.kind, Kind.deps] at hm; omega
        | (n + 2) => simp [Heap.deps, Heap.kind, Kind.deps, Kind.elem?] at hm
      intro a b h
      induction h with
      | direct h => exact one _ _ h
      | step h _ ih => exact Nat.lt_trans (one _ _ h) ih
    exact absurd (key t t h) (Nat.lt_irrefl _)
  · exact .direct (by decide)
  · exact .step (u := (1 : Nat)) (by decide) (.direct (by decide))

end Verif.RubyDeps
