import Verif.Resize

/-! Properties of `Registry::resize` (C32). -/

namespace Verif.Resize
open Verif Verif.Names Verif.Graph Verif.Registry

/-- the new offsets: each field is shifted by the growth of the fields before it (`acc` to start with) -/
def shiftL (g sz : TId → Nat) : Nat → List FieldD → List FieldD
  | _, [] => []
  | acc, f :: fs => { f with offset := wadd f.offset acc } :: shiftL g sz (wadd acc (wsub (g f.ty) (sz f.ty))) fs

def accL (g sz : TId → Nat) : Nat → List FieldD → Nat
  | acc, [] => acc
  | acc, f :: fs => accL g sz (wadd acc (wsub (g f.ty) (sz f.ty))) fs

theorem wadd_lt (a b : Nat) : wadd a b < W := Nat.mod_lt _ (by decide)

theorem accL_lt (g sz : TId → Nat) {acc : Nat} (h : acc < W) (fs : List FieldD) : accL g sz acc fs < W := by
  induction fs generalizing acc with
  | nil => exact h
  | cons f fs ih => exact ih (wadd_lt _ _)

theorem step_mod (acc a b : Nat) : (wadd acc (wsub a b) + b) % W = (acc + a) % W := by
  unfold wadd wsub W at *
  omega

theorem accL_sum (g sz : TId → Nat) (acc : Nat) (fs : List FieldD) :
    (accL g sz acc fs + sumOf sz fs) % W = (acc + sumOf g fs) % W := by
  induction fs generalizing acc with
  | nil => rfl
  | cons f fs ih =>
    have h1 := ih (wadd acc (wsub (g f.ty) (sz f.ty)))
    have h2 := step_mod acc (g f.ty) (sz f.ty)
    simp only [sumOf, List.map_cons, List.sum_cons, accL] at h1 ⊢
    generalize accL g sz (wadd acc (wsub (g f.ty) (sz f.ty))) fs = x at h1 ⊢
    generalize (fs.map (fun f => sz f.ty)).sum = y at h1 ⊢
    generalize (fs.map (fun f => g f.ty)).sum = z at h1 ⊢
    generalize wadd acc (wsub (g f.ty) (sz f.ty)) = a at h1 h2
    generalize g f.ty = p at h2 ⊢
    generalize sz f.ty = q at h2 ⊢
    unfold W at *
    omega

theorem wadd_zero {a : Nat} (h : a < W) : wadd a 0 = a := by unfold wadd; exact Nat.mod_eq_of_lt h

theorem wsub_self (a : Nat) : wsub a a = 0 := by unfold wsub W; omega

theorem shiftL_id (g sz : TId → Nat) (fs : List FieldD)
    (ho : ∀ f ∈ fs, f.offset < W) (he : ∀ f ∈ fs, g f.ty = sz f.ty) : shiftL g sz 0 fs = fs := by
  induction fs with
  | nil => rfl
  | cons f fs ih =>
    have h1 : wadd f.offset 0 = f.offset := wadd_zero (ho f (by simp))
    have h2 : wadd 0 (wsub (g f.ty) (sz f.ty)) = 0 := by
      rw [he f (by simp), wsub_self]; rfl
    simp only [shiftL, h1, h2]
    rw [ih (fun f hf => ho f (by simp [hf])) (fun f hf => he f (by simp [hf]))]

theorem shiftL_length (g sz : TId → Nat) (acc : Nat) (fs : List FieldD) : (shiftL g sz acc fs).length = fs.length := by
  induction fs generalizing acc with
  | nil => rfl
  | cons f fs ih => simp [shiftL, ih]

section
variable {key : Char → Int} {H : Heap} {R : Reg} {req : List (Str × Nat)} {g rk : TId → Nat}

open Classical in
/-- the final state of every object -/
noncomputable def fin (H : Heap) (R : Reg) (req : List (Str × Nat)) (g : TId → Nat) (u : TId) : TypeDef :=
  if Explicit R req u then { H.get u with size := g u }
  else match H.kind u with
    | .comp fs => { H.get u with size := g u, kind := .comp (shiftL g H.size 0 fs) }
    | _ => { H.get u with size := g u }

theorem fin_name (u : TId) : (fin H R req g u).name = H.name u := by
  unfold fin
  split
  · rfl
  · split <;> rfl

theorem fin_size (u : TId) : (fin H R req g u).size = g u := by
  unfold fin
  split
  · rfl
  · split <;> rfl

/-- an object is untouched, or done and recorded -/
def C (H : Heap) (R : Reg) (req : List (Str × Nat)) (g : TId → Nat) (s : St) (u : TId) : Prop :=
  (¬ Explicit R req u ∧ s.memo (H.name u) = none ∧ s.H.get u = H.get u) ∨
  (∃ x, s.memo (H.name u) = some (H.size u, x)) ∧ s.H.get u = fin H R req g u

theorem C.name {s : St} {u : TId} (h : C H R req g s u) : s.H.name u = H.name u := by
  unfold Heap.name
  rcases h with ⟨_, _, h⟩ | ⟨_, h⟩
  · rw [h]
  · rw [h]; exact fin_name u

theorem C.congr {s s' : St} {u : TId} (h : C H R req g s u) (h1 : s'.H.get u = s.H.get u)
    (h2 : s'.memo (H.name u) = s.memo (H.name u)) : C H R req g s' u := by
  unfold C at *
  rw [h1, h2]
  exact h

/-- objects of rank `n` and above (and unregistered ones) are left alone -/
structure Frame (H : Heap) (R : Reg) (rk : TId → Nat) (n : Nat) (s s' : St) : Prop where
  heap : ∀ u, (¬ R.regd H u ∨ n ≤ rk u) → s'.H.get u = s.H.get u
  memo : ∀ u, R.regd H u → n ≤ rk u → s'.memo (H.name u) = s.memo (H.name u)

theorem Frame.refl (n : Nat) (s : St) : Frame H R rk n s s := ⟨fun _ _ => rfl, fun _ _ _ => rfl⟩

theorem Frame.trans {n : Nat} {s s' s'' : St} (h : Frame H R rk n s s') (h' : Frame H R rk n s' s'') :
    Frame H R rk n s s'' :=
  ⟨fun u hu => (h'.heap u hu).trans (h.heap u hu), fun u hu hn => (h'.memo u hu hn).trans (h.memo u hu hn)⟩

theorem Frame.mono {n m : Nat} (hnm : n ≤ m) {s s' : St} (h : Frame H R rk n s s') : Frame H R rk m s s' :=
  ⟨fun u hu => h.heap u (hu.imp id (fun x => Nat.le_trans hnm x)), fun u hu hn => h.memo u hu (Nat.le_trans hnm hn)⟩

theorem regd_inj {u v : TId} (hu : R.regd H u) (hv : R.regd H v) (h : H.name u = H.name v) : u = v := by
  unfold Reg.regd at *
  rw [h, hv] at hu
  exact (Option.some.inj hu).symm

theorem get_regd (hi : Inv key H R) {u : TId} (hu : R.regd H u) : R.get (H.name u) = some u := by
  rw [hi.abs _ (hi.toGInv.reg_name hu).2.1]; exact hu

theorem regd_of_get (hi : Inv key H R) {n : Str} {u : TId} (h : R.get n = some u) : R.regd H u := by
  cases ha : isAbsoluteName n with
  | true => rw [hi.abs n ha] at h; exact (hi.toGInv.reg_name h).2.2.1
  | false =>
    obtain ⟨p, _, hr⟩ := hi.rel n u ha h
    exact (hi.toGInv.reg_name hr).2.2.1

/-- the recursive call, on objects of rank below `n` -/
def RecOk (H : Heap) (R : Reg) (req : List (Str × Nat)) (g rk : TId → Nat) (n : Nat)
    (rec : St → TId → St × Res Bool) : Prop :=
  ∀ (s : St) (t : TId), R.regd H t → rk t < n → (∀ u, R.regd H u → rk u ≤ rk t → C H R req g s u) →
    ∃ s' b, rec s t = (s', .ok b) ∧ (∀ u, R.regd H u → rk u ≤ rk t → C H R req g s' u) ∧
      Frame H R rk (rk t + 1) s s' ∧
      (b = true → ∃ x, s'.memo (H.name t) = some (H.size t, x)) ∧
      (b = false → fin H R req g t = H.get t)

theorem C.of_memo {s : St} {u : TId} (h : C H R req g s u) {v : Nat × Nat} (hm : s.memo (H.name u) = some v) :
    s.H.get u = fin H R req g u := by
  rcases h with ⟨_, h, _⟩ | ⟨_, h⟩
  · rw [h] at hm; cases hm
  · exact h

theorem fieldLoop_ok (hi : Inv key H R) (hsane : Sane H R) {n : Nat} {rec : St → TId → St × Res Bool}
    (hrec : RecOk H R req g rk n rec) {t : TId} (ht : R.regd H t) (hn : rk t = n)
    {fs : List FieldD} (hfs : H.kind t = .comp fs) (hr : ∀ f ∈ fs, rk f.ty < rk t) :
    ∀ (rest pre done : List FieldD) (acc : Nat) (s : St), fs = pre ++ rest → done.length = pre.length → acc < W →
      s.H.get t = { H.get t with kind := .comp (done ++ rest) } →
      (∀ u, R.regd H u → rk u < rk t → C H R req g s u) →
      ∃ s', fieldLoop rec R t (List.range' pre.length rest.length) acc s = (s', .ok (accL g H.size acc rest)) ∧
        s'.H.get t = { H.get t with kind := .comp (done ++ shiftL g H.size acc rest) } ∧
        (∀ u, R.regd H u → rk u < rk t → C H R req g s' u) ∧
        (∀ u, u ≠ t → (¬ R.regd H u ∨ rk t ≤ rk u) → s'.H.get u = s.H.get u) ∧
        (∀ u, R.regd H u → rk t ≤ rk u → s'.memo (H.name u) = s.memo (H.name u)) := by
  intro rest
  induction rest with
  | nil =>
    intro pre done acc s _ _ _ hget hC
    exact ⟨s, rfl, by simpa [shiftL] using hget, hC, fun _ _ _ => rfl, fun _ _ _ => rfl⟩
  | cons f rest ih =>
    intro pre done acc s hpre hlen hacc hget hC
    have hfmem : f ∈ fs := by rw [hpre]; simp
    have hfr : R.regd H f.ty := hsane.closed t f.ty ht (by unfold Heap.deps; rw [hfs]; simp only [Kind.deps, List.mem_map]; exact ⟨f, hfmem, rfl⟩)
    have hrkf := hr f hfmem
    have hne : f.ty ≠ t := fun e => by rw [e] at hrkf; omega
    rw [List.length_cons, List.range'_succ]
    have hk : s.H.kind t = .comp (done ++ f :: rest) := by unfold Heap.kind; rw [hget]
    have hidx : (done ++ f :: rest)[pre.length]? = some f := by
      rw [← hlen]; simp
    unfold fieldLoop
    rw [hk]
    simp only [hidx]
    have hset : setOff (done ++ f :: rest) pre.length (wadd f.offset acc) =
        (done ++ [{ f with offset := wadd f.offset acc }]) ++ rest := by
      unfold setOff
      rw [hidx]
      simp only
      rw [← hlen, List.set_append_right _ _ (Nat.le_refl _)]
      simp
    have hs1 : s.setOffset t pre.length (wadd f.offset acc) =
        { s with H := setDef s.H t { H.get t with kind := .comp ((done ++ [{ f with offset := wadd f.offset acc }]) ++ rest) } } := by
      unfold St.setOffset
      rw [hk]
      simp only [hset, hget]
    rw [hs1]
    generalize hS1 : ({ s with H := setDef s.H t { H.get t with kind := .comp ((done ++ [{ f with offset := wadd f.offset acc }]) ++ rest) } } : St) = s1
    have h1get : ∀ u, u ≠ t → s1.H.get u = s.H.get u := by
      intro u hu; rw [← hS1]; simp [setDef, hu]
    have h1t : s1.H.get t = { H.get t with kind := .comp ((done ++ [{ f with offset := wadd f.offset acc }]) ++ rest) } := by
      rw [← hS1]; simp [setDef]
    have h1m : s1.memo = s.memo := by rw [← hS1]
    have hC1 : ∀ u, R.regd H u → rk u < rk t → C H R req g s1 u := by
      intro u hu hlt
      exact (hC u hu hlt).congr (h1get u (fun e => by rw [e] at hlt; omega)) (by rw [h1m])
    have hname : s1.H.name f.ty = H.name f.ty := (hC1 f.ty hfr hrkf).name
    rw [hname, get_regd hi hfr]
    simp only
    obtain ⟨s2, b, he, hC2, hfr2, hb1, hb2⟩ := hrec s1 f.ty hfr (by omega) (fun u hu hle => hC1 u hu (by omega))
    rw [he]
    simp only [andThen_ok]
    have h2t : s2.H.get t = { H.get t with kind := .comp ((done ++ [{ f with offset := wadd f.offset acc }]) ++ rest) } := by
      rw [hfr2.heap t (Or.inr hrkf), h1t]
    have hC2' : ∀ u, R.regd H u → rk u < rk t → C H R req g s2 u := by
      intro u hu hlt
      by_cases hle : rk u ≤ rk f.ty
      · exact hC2 u hu hle
      · exact (hC1 u hu hlt).congr (hfr2.heap u (Or.inr (by omega))) (hfr2.memo u hu (by omega))
    have hpre' : fs = (pre ++ [f]) ++ rest := by rw [hpre]; simp
    have hlen' : (done ++ [{ f with offset := wadd f.offset acc }]).length = (pre ++ [f]).length := by simp [hlen]
    have hcont : ∀ acc', acc' = wadd acc (wsub (g f.ty) (H.size f.ty)) →
        ∃ s', fieldLoop rec R t (List.range' (pre.length + 1) rest.length) acc' s2 =
            (s', .ok (accL g H.size acc (f :: rest))) ∧
          s'.H.get t = { H.get t with kind := .comp (done ++ shiftL g H.size acc (f :: rest)) } ∧
          (∀ u, R.regd H u → rk u < rk t → C H R req g s' u) ∧
          (∀ u, u ≠ t → (¬ R.regd H u ∨ rk t ≤ rk u) → s'.H.get u = s.H.get u) ∧
          (∀ u, R.regd H u → rk t ≤ rk u → s'.memo (H.name u) = s.memo (H.name u)) := by
      intro acc' hacc'
      obtain ⟨s', e1, e2, e3, e4, e5⟩ := ih (pre ++ [f]) (done ++ [{ f with offset := wadd f.offset acc }]) acc' s2 hpre' hlen'
        (by rw [hacc']; exact wadd_lt _ _) h2t hC2'
      have hl : (pre ++ [f]).length = pre.length + 1 := by simp
      rw [hl] at e1
      refine ⟨s', ?_, ?_, e3, ?_, ?_⟩
      · rw [e1, hacc']; rfl
      · rw [e2, hacc']; simp [shiftL]
      · intro u hu hor
        rw [e4 u hu hor, hfr2.heap u (hor.imp id (fun h => by omega)), h1get u hu]
      · intro u hu hge
        rw [e5 u hu hge, hfr2.memo u hu (by omega), h1m]
    cases b with
    | true =>
      obtain ⟨x, hx⟩ := hb1 rfl
      have hC2f := hC2 f.ty hfr (Nat.le_refl _)
      have hfin := hC2f.of_memo hx
      have hn2 : s2.H.name f.ty = H.name f.ty := hC2f.name
      simp only [if_true]
      rw [hn2, hx]
      simp only
      have hsz : s2.H.size f.ty = g f.ty := by
        unfold Heap.size; rw [hfin, fin_size]
      rw [hsz]
      exact hcont _ rfl
    | false =>
      have hg := hb2 rfl
      have hgs : g f.ty = H.size f.ty := by
        have := congrArg TypeDef.size hg
        rw [fin_size] at this
        exact this
      simp only [Bool.false_eq_true, if_false]
      apply hcont
      rw [hgs, wsub_self, wadd_zero hacc]

theorem indirect_ok (hi : Inv key H R) (hsane : Sane H R) {n : Nat} {rec : St → TId → St × Res Bool}
    (hrec : RecOk H R req g rk n rec) {t e : TId} (ht : R.regd H t) (hn : rk t = n)
    (he : e ∈ H.deps t) (hr : rk e < rk t) {s : St} (hm : s.memo (H.name t) = none)
    (hC : ∀ u, R.regd H u → rk u ≤ rk t → C H R req g s u) :
    ∃ s' b, indirectDoResize rec R t e s = (s', .ok b) ∧ (∀ u, R.regd H u → rk u ≤ rk t → C H R req g s' u) ∧
      Frame H R rk (rk e + 1) s s' ∧ (b = true → ∃ x, s'.memo (H.name e) = some (H.size e, x)) ∧
      (b = false → fin H R req g e = H.get e) := by
  have her := hsane.closed t e ht he
  unfold indirectDoResize
  have h1 : typeDoResize s t = (s, false) := by
    unfold typeDoResize
    rw [(hC t ht (Nat.le_refl _)).name, hm]
  rw [h1]
  simp only
  rw [(hC e her (by omega)).name, get_regd hi her]
  simp only
  obtain ⟨s2, b, h2, hC2, hf2, hb1, hb2⟩ := hrec s e her (by omega) (fun u hu hle => hC u hu (by omega))
  rw [h2]
  refine ⟨s2, b, by simp, ?_, hf2, hb1, hb2⟩
  intro u hu hle
  by_cases hue : rk u ≤ rk e
  · exact hC2 u hu hue
  · exact (hC u hu hle).congr (hf2.heap u (Or.inr (by omega))) (hf2.memo u hu (by omega))

/-- recording an object that has reached its final state -/
theorem record_ok {n : Nat} {s s1 : St} {t : TId} (ht : R.regd H t) (hn : rk t = n)
    (hC : ∀ u, R.regd H u → u ≠ t → rk u ≤ n → C H R req g s1 u)
    (hf : ∀ u, u ≠ t → (¬ R.regd H u ∨ n + 1 ≤ rk u) → s1.H.get u = s.H.get u)
    (hfm : ∀ u, R.regd H u → n + 1 ≤ rk u → s1.memo (H.name u) = s.memo (H.name u))
    (hm : s1.memo (H.name t) = none) (hfin : s1.H.get t = fin H R req g t) {y : Nat} :
    let s' : St := { s1 with memo := minsert s1.memo (H.name t) (H.size t, y) }
    (∀ u, R.regd H u → rk u ≤ n → C H R req g s' u) ∧ Frame H R rk (n + 1) s s' ∧
      ∃ x, s'.memo (H.name t) = some (H.size t, x) := by
  have hmt : minsert s1.memo (H.name t) (H.size t, y) (H.name t) = some (H.size t, y) := by
    simp [minsert, hm]
  have hmu : ∀ u, R.regd H u → u ≠ t → minsert s1.memo (H.name t) (H.size t, y) (H.name u) = s1.memo (H.name u) := by
    intro u hu hne
    unfold minsert
    rw [if_neg (fun e => hne (regd_inj hu ht e))]
  refine ⟨?_, ⟨?_, ?_⟩, y, hmt⟩
  · intro u hu hle
    by_cases hut : u = t
    · subst hut
      exact Or.inr ⟨⟨y, hmt⟩, hfin⟩
    · exact (hC u hu hut hle).congr rfl (hmu u hu hut)
  · intro u hu
    by_cases hut : u = t
    · subst hut
      rcases hu with hu | hu
      · exact absurd ht hu
      · omega
    · exact hf u hut hu
  · intro u hu hge
    have hut : u ≠ t := fun e => by rw [e] at hge; omega
    show minsert _ _ _ _ = _
    rw [hmu u hu hut]
    exact hfm u hu hge

theorem resizeType_ok (hi : Inv key H R) (hsane : Sane H R) (hg : Sizing H R req g)
    (hnc : NoCancel H R req g) (hrk : Ranked H R req rk) (fuel : Nat) :
    RecOk H R req g rk fuel (resizeType R fuel) := by
  induction fuel with
  | zero => intro s t _ h; omega
  | succ n ih =>
    intro s t ht hlt hC
    have hCt := hC t ht (Nat.le_refl _)
    unfold resizeType
    rw [hCt.name]
    cases hm : s.memo (H.name t) with
    | some v =>
      refine ⟨s, true, rfl, hC, Frame.refl _ _, ?_, by simp⟩
      intro _
      rcases hCt with ⟨_, h, _⟩ | ⟨⟨x, h⟩, _⟩
      · rw [h] at hm; cases hm
      · exact ⟨x, h⟩
    | none =>
      have hCt' : ¬ Explicit R req t ∧ s.H.get t = H.get t := by
        rcases hCt with ⟨h1, _, h⟩ | ⟨⟨x, h⟩, _⟩
        · exact ⟨h1, h⟩
        · rw [h] at hm; cases hm
      obtain ⟨hne, hget⟩ := hCt'
      have hkind : s.H.kind t = H.kind t := by unfold Heap.kind; rw [hget]
      have hsz : s.H.size t = H.size t := by unfold Heap.size; rw [hget]
      have ih' : RecOk H R req g rk (rk t) (resizeType R n) := by
        intro s u hu hlt' hC'; exact ih s u hu (by omega) hC'
      simp only
      -- objects with an element
      have hind : ∀ e, e ∈ H.deps t → ∃ s' b, indirectDoResize (resizeType R n) R t e s = (s', .ok b) ∧
          (∀ u, R.regd H u → rk u ≤ rk t → C H R req g s' u) ∧ Frame H R rk (rk t) s s' ∧
          (b = true → ∃ x, s'.memo (H.name e) = some (H.size e, x)) ∧ (b = false → fin H R req g e = H.get e) := by
        intro e he
        have hr := hrk t e ht hne he
        obtain ⟨s', b, h1, h2, h3, h4, h5⟩ := indirect_ok hi hsane ih' ht rfl he hr hm hC
        exact ⟨s', b, h1, h2, h3.mono (by omega), h4, h5⟩
      -- objects whose size does not depend on their element: pointers, containers
      have hplain : ∀ e, e ∈ H.deps t → fin H R req g t = H.get t →
          ∃ s' b, (andThen (indirectDoResize (resizeType R n) R t e s) fun s1 r =>
              if r then ({ s1 with memo := minsert s1.memo (H.name t) (s.H.size t, s1.H.size t) }, .ok true)
              else (s1, .ok false)) = (s', Res.ok b) ∧
            (∀ u, R.regd H u → rk u ≤ rk t → C H R req g s' u) ∧ Frame H R rk (rk t + 1) s s' ∧
            (b = true → ∃ x, s'.memo (H.name t) = some (H.size t, x)) ∧ (b = false → fin H R req g t = H.get t) := by
        intro e he hfin
        obtain ⟨s', b, h1, h2, h3, h4, h5⟩ := hind e he
        rw [h1]
        simp only [andThen_ok]
        cases b with
        | false => exact ⟨s', false, rfl, h2, h3.mono (by omega), by simp, fun _ => hfin⟩
        | true =>
          have hmt : s'.memo (H.name t) = none := by rw [h3.memo t ht (Nat.le_refl _)]; exact hm
          have := record_ok (H := H) (R := R) (req := req) (g := g) (rk := rk) (s := s) (s1 := s') (y := s'.H.size t) ht rfl
            (fun u hu _ hle => h2 u hu hle) (fun u _ hu => h3.heap u (hu.imp id (fun h => by omega)))
            (fun u hu hge => h3.memo u hu (by omega)) hmt (by rw [h3.heap t (Or.inr (Nat.le_refl _)), hget, hfin])
          rw [hsz]
          exact ⟨_, true, by simp, this.1, this.2.1, fun _ => this.2.2, by simp⟩
      have hfin_other : (match H.kind t with | .comp _ => False | .arr .. => False | _ => True) →
          fin H R req g t = H.get t := by
        intro hk
        have hgt := hg.other t ht hne hk
        unfold fin
        rw [if_neg hne]
        cases hkt : H.kind t with
        | comp fs => rw [hkt] at hk; exact absurd hk (by simp)
        | _ => rw [hgt]; rfl
      have hleaf : (match H.kind t with | .comp _ => False | .arr .. => False | _ => True) →
          ∃ s' b, (andThen (let (s1, r) := typeDoResize s t; ((s1, .ok r) : St × Res Bool)) fun s1 r =>
              if r then ({ s1 with memo := minsert s1.memo (H.name t) (s.H.size t, s1.H.size t) }, .ok true)
              else (s1, .ok false)) = (s', Res.ok b) ∧
            (∀ u, R.regd H u → rk u ≤ rk t → C H R req g s' u) ∧ Frame H R rk (rk t + 1) s s' ∧
            (b = true → ∃ x, s'.memo (H.name t) = some (H.size t, x)) ∧ (b = false → fin H R req g t = H.get t) := by
        intro hk
        have h1 : typeDoResize s t = (s, false) := by
          unfold typeDoResize
          rw [hCt.name, hm]
        rw [h1]
        exact ⟨s, false, rfl, hC, Frame.refl _ _, by simp, fun _ => hfin_other hk⟩
      unfold doResize
      rw [hkind]
      cases hk : H.kind t with
      | null => exact hleaf (by rw [hk]; trivial)
      | «opaque» => exact hleaf (by rw [hk]; trivial)
      | num c => exact hleaf (by rw [hk]; trivial)
      | enum c => exact hleaf (by rw [hk]; trivial)
      | ptr e => exact hplain e (by unfold Heap.deps; rw [hk]; simp [Kind.deps, Kind.elem?]) (hfin_other (by rw [hk]; trivial))
      | vec e => exact hplain e (by unfold Heap.deps; rw [hk]; simp [Kind.deps, Kind.elem?]) (hfin_other (by rw [hk]; trivial))
      | str e => exact hplain e (by unfold Heap.deps; rw [hk]; simp [Kind.deps, Kind.elem?]) (hfin_other (by rw [hk]; trivial))
      | arr d e =>
        have hed : e ∈ H.deps t := by unfold Heap.deps; rw [hk]; simp [Kind.deps, Kind.elem?]
        have her := hsane.closed t e ht hed
        have hgt := hg.arr t d e ht hne hk
        have hszt := hsane.arrays t d e ht hk
        obtain ⟨s', b, h1, h2, h3, h4, h5⟩ := hind e hed
        simp only
        rw [h1]
        simp only [andThen_ok]
        have hrl := hrk t e ht hne hed
        cases b with
        | false =>
          have hge : g e = H.size e := by
            have := congrArg TypeDef.size (h5 rfl)
            rw [fin_size] at this; exact this
          refine ⟨s', false, rfl, h2, h3.mono (by omega), by simp, fun _ => ?_⟩
          unfold fin
          rw [if_neg hne, hk]
          simp only
          rw [hgt, hge, ← hszt]
          rfl
        | true =>
          obtain ⟨x, hx⟩ := h4 rfl
          have hfe := (h2 e her (by omega)).of_memo hx
          have hse : s'.H.size e = g e := by unfold Heap.size; rw [hfe, fin_size]
          have hw : wmul d (s'.H.size e) = g t := by
            rw [hse, wmul_eq (by rw [← hgt]; exact hg.range t), hgt]
          have hgt' : s'.H.get t = H.get t := by rw [h3.heap t (Or.inr (Nat.le_refl _)), hget]
          have hmt : s'.memo (H.name t) = none := by rw [h3.memo t ht (Nat.le_refl _)]; exact hm
          simp only [if_true, andThen_ok]
          rw [hw, hsz]
          have := record_ok (H := H) (R := R) (req := req) (g := g) (rk := rk) (s := s) (s1 := s'.setSize t (g t)) (y := (s'.setSize t (g t)).H.size t) ht rfl
            (fun u hu hut hle => (h2 u hu hle).congr (by simp [St.setSize, setDef, hut]) rfl)
            (fun u hut hu => by
              have : (s'.setSize t (g t)).H.get u = s'.H.get u := by simp [St.setSize, setDef, hut]
              rw [this]; exact h3.heap u (hu.imp id (fun h => by omega)))
            (fun u hu hge => h3.memo u hu (by omega)) hmt (by
              have : (s'.setSize t (g t)).H.get t = { H.get t with size := g t } := by
                simp [St.setSize, setDef, hgt']
              rw [this]
              unfold fin
              rw [if_neg hne, hk])
          exact ⟨_, true, rfl, this.1, this.2.1, fun _ => this.2.2, by simp⟩
      | comp fs =>
        have hr : ∀ f ∈ fs, rk f.ty < rk t := by
          intro f hf
          exact hrk t f.ty ht hne (by unfold Heap.deps; rw [hk]; simp only [Kind.deps, List.mem_map]; exact ⟨f, hf, rfl⟩)
        obtain ⟨s', h1, h2, h3, h4, h5⟩ := fieldLoop_ok hi hsane ih' ht rfl hk hr fs [] [] 0 s rfl rfl (by decide)
          (by rw [hget]; simp only [List.nil_append]; rw [← hk]; rfl) (fun u hu hlt => hC u hu (by omega))
        simp only [List.length_nil, List.nil_append] at h1 h2
        simp only
        rw [List.range_eq_range', h1]
        simp only [andThen_ok]
        have hsum := accL_sum g H.size 0 fs
        have hacc := accL_lt g H.size (acc := 0) (by decide) fs
        have hcomp := hg.comp t fs ht hne hk
        have hrange := hg.range t
        have hszr := hsane.sizes t
        generalize accL g H.size 0 fs = acc at h1 hsum hacc ⊢
        have hst : s'.H.size t = H.size t := by unfold Heap.size; rw [h2]
        have hmt : s'.memo (H.name t) = none := by rw [h5 t ht (Nat.le_refl _)]; exact hm
        by_cases ha : acc = 0
        · subst ha
          simp only [ne_eq, not_true, if_false, andThen_ok, Bool.false_eq_true]
          have hgs : g t = H.size t := by unfold W at *; omega
          have hall := hnc t fs ht hne hk hgs
          have hid := shiftL_id g H.size fs (hsane.offsets t fs hk) hall
          rw [hid] at h2
          have h2' : s'.H.get t = H.get t := by rw [h2, ← hk]; rfl
          refine ⟨s', false, rfl, ?_, ⟨?_, ?_⟩, by simp, fun _ => ?_⟩
          · intro u hu hle
            by_cases hut : u = t
            · subst hut; exact Or.inl ⟨hne, hmt, h2'⟩
            · by_cases hlt' : rk u < rk t
              · exact h3 u hu hlt'
              · exact (hC u hu hle).congr (h4 u hut (Or.inr (by omega))) (h5 u hu (by omega))
          · intro u hu
            by_cases hut : u = t
            · subst hut; rw [h2', hget]
            · exact h4 u hut (hu.imp id (fun h => by omega))
          · intro u hu hge; exact h5 u hu (by omega)
          · unfold fin
            rw [if_neg hne, hk]
            simp only
            rw [hid, hgs, ← hk]
            rfl
        · simp only [ne_eq, ha, not_false_eq_true, if_true, andThen_ok]
          rw [hst, hsz]
          have hw : wadd (H.size t) acc = g t := by unfold wadd W at *; omega
          rw [hw]
          have := record_ok (H := H) (R := R) (req := req) (g := g) (rk := rk) (s := s) (s1 := s'.setSize t (g t)) (y := (s'.setSize t (g t)).H.size t) ht rfl
            (fun u hu hut hle => by
              have hcg : (s'.setSize t (g t)).H.get u = s'.H.get u := by simp [St.setSize, setDef, hut]
              by_cases hlt' : rk u < rk t
              · exact (h3 u hu hlt').congr hcg rfl
              · exact (hC u hu hle).congr (hcg.trans (h4 u hut (Or.inr (by omega)))) (h5 u hu (by omega)))
            (fun u hut hu => by
              have : (s'.setSize t (g t)).H.get u = s'.H.get u := by simp [St.setSize, setDef, hut]
              rw [this]; exact h4 u hut (hu.imp id (fun h => by omega)))
            (fun u hu hge => h5 u hu (by omega)) hmt (by
              have : (s'.setSize t (g t)).H.get t = { H.get t with size := g t, kind := .comp (shiftL g H.size 0 fs) } := by
                simp [St.setSize, setDef, h2]
              rw [this]
              unfold fin
              rw [if_neg hne, hk])
          exact ⟨_, true, rfl, this.1, this.2.1, fun _ => this.2.2, by simp⟩

/-- records are never lost or changed -/
def MM (s s' : St) : Prop := ∀ n v, s.memo n = some v → s'.memo n = some v

theorem MM.refl (s : St) : MM s s := fun _ _ h => h
theorem MM.trans {a b c : St} (h : MM a b) (h' : MM b c) : MM a c := fun n v hv => h' n v (h n v hv)

theorem mm_andThen {α β : Type} {s : St} {x : St × Res α} {f : St → α → St × Res β} (h : MM s x.1)
    (hf : ∀ s1 a, MM s1 (f s1 a).1) : MM s (andThen x f).1 := by
  obtain ⟨s1, r⟩ := x
  cases r with
  | ok a => exact h.trans (hf s1 a)
  | exn e => exact h
  | ub => exact h
  | fuel => exact h

theorem mm_setOffset (s : St) (t : TId) (i o : Nat) : MM s (s.setOffset t i o) := by
  unfold St.setOffset
  split <;> exact MM.refl _

theorem mm_typeDoResize (s : St) (t : TId) : MM s (typeDoResize s t).1 := by
  unfold typeDoResize
  split
  · split <;> exact MM.refl _
  · exact MM.refl _

theorem mm_fieldLoop {rec : St → TId → St × Res Bool} (hrec : ∀ s t, MM s (rec s t).1) (R : Reg) (t : TId)
    (is : List Nat) (g : Nat) (s : St) : MM s (fieldLoop rec R t is g s).1 := by
  induction is generalizing g s with
  | nil => exact MM.refl _
  | cons i is ih =>
    unfold fieldLoop
    split
    · split
      · exact MM.refl _
      · simp only
        split
        · exact mm_setOffset _ _ _ _
        · refine (mm_setOffset _ _ _ _).trans (mm_andThen (hrec _ _) ?_)
          intro s2 b
          cases b with
          | false => exact ih _ _
          | true =>
            simp only [if_true]
            split
            · exact MM.refl _
            · exact ih _ _
    · exact MM.refl _

theorem mm_indirect {rec : St → TId → St × Res Bool} (hrec : ∀ s t, MM s (rec s t).1) (R : Reg) (t e : TId)
    (s : St) : MM s (indirectDoResize rec R t e s).1 := by
  unfold indirectDoResize
  simp only
  split
  · exact mm_typeDoResize s t
  · exact (mm_typeDoResize s t).trans (mm_andThen (hrec _ _) (fun _ _ => MM.refl _))

theorem mm_doResize {rec : St → TId → St × Res Bool} (hrec : ∀ s t, MM s (rec s t).1) (R : Reg) (t : TId)
    (s : St) : MM s (doResize rec R t s).1 := by
  unfold doResize
  split
  · refine mm_andThen (mm_fieldLoop hrec R t _ _ s) ?_
    intro s1 g
    split <;> exact MM.refl _
  · refine mm_andThen (mm_indirect hrec R t _ s) ?_
    intro s1 g
    split <;> exact MM.refl _
  · exact mm_indirect hrec R t _ s
  · exact mm_indirect hrec R t _ s
  · exact mm_indirect hrec R t _ s
  · exact mm_typeDoResize s t

theorem mm_minsert (s : St) (n : Str) (v : Nat × Nat) : MM s { s with memo := minsert s.memo n v } := by
  intro k w hk
  unfold minsert
  by_cases h : k = n
  · subst h; simp [hk]
  · simp [h, hk]

theorem mm_resizeType (R : Reg) (fuel : Nat) (s : St) (t : TId) : MM s (resizeType R fuel s t).1 := by
  induction fuel generalizing s t with
  | zero => exact MM.refl _
  | succ n ih =>
    unfold resizeType
    split
    · exact MM.refl _
    · refine mm_andThen (mm_doResize ih R t s) ?_
      intro s1 b
      cases b
      · exact MM.refl _
      · exact mm_minsert _ _ _

theorem mm_resizeAll (R : Reg) (fuel : Nat) (l : List (Str × Entry)) (s : St) : MM s (resizeAll R fuel l s).1 := by
  induction l generalizing s with
  | nil => exact MM.refl _
  | cons p l ih =>
    unfold resizeAll
    split
    · exact ih s
    · exact mm_andThen (mm_resizeType R fuel s _) (fun s1 _ => ih s1)

theorem startSizes_ok (hi : Inv key H R) (hg : Sizing H R req g) :
    ∀ (todo before : List (Str × Nat)) (s : St), req = before ++ todo →
      (∀ u, R.regd H u → Explicit R before u →
        (∃ x, s.memo (H.name u) = some (H.size u, x)) ∧ s.H.get u = { H.get u with size := g u }) →
      (∀ u, R.regd H u → ¬ Explicit R before u → s.memo (H.name u) = none) →
      (∀ u, ¬ Explicit R before u → s.H.get u = H.get u) →
      ∃ s', startSizes R todo s = (s', .ok ()) ∧
        (∀ u, R.regd H u → Explicit R req u →
          (∃ x, s'.memo (H.name u) = some (H.size u, x)) ∧ s'.H.get u = { H.get u with size := g u }) ∧
        (∀ u, R.regd H u → ¬ Explicit R req u → s'.memo (H.name u) = none) ∧
        (∀ u, ¬ Explicit R req u → s'.H.get u = H.get u) := by
  intro todo
  induction todo with
  | nil =>
    intro before s hb h1 h2 h3
    simp only [List.append_nil] at hb
    subst hb
    exact ⟨s, rfl, h1, h2, h3⟩
  | cons p todo ih =>
    intro before s hb h1 h2 h3
    obtain ⟨n, v⟩ := p
    have hmem : (n, v) ∈ req := by rw [hb]; simp
    obtain ⟨t, ht⟩ := hg.known _ hmem
    have hgt := hg.explicit _ hmem t ht
    simp only at ht hgt
    have htr := regd_of_get hi ht
    unfold startSizes
    rw [ht]
    simp only
    have hex : ∀ u, Explicit R (before ++ [(n, v)]) u ↔ Explicit R before u ∨ u = t := by
      intro u
      unfold Explicit
      constructor
      · rintro ⟨p, hp, hpu⟩
        rcases List.mem_append.mp hp with hp | hp
        · exact Or.inl ⟨p, hp, hpu⟩
        · simp only [List.mem_singleton] at hp
          subst hp
          rw [ht] at hpu
          exact Or.inr (Option.some.inj hpu).symm
      · rintro (⟨p, hp, hpu⟩ | rfl)
        · exact ⟨p, by simp [hp], hpu⟩
        · exact ⟨(n, v), by simp, ht⟩
    have hname : s.H.name t = H.name t := by
      unfold Heap.name
      by_cases he : Explicit R before t
      · rw [(h1 t htr he).2]
      · rw [h3 t he]
    rw [hname]
    apply ih (before ++ [(n, v)]) _ (by rw [hb]; simp)
    · intro u hu he
      by_cases hut : u = t
      · subst hut
        by_cases hb' : Explicit R before u
        · obtain ⟨⟨x, hx⟩, hgu⟩ := h1 u hu hb'
          refine ⟨⟨x, ?_⟩, ?_⟩
          · simp [St.setSize, minsert, hx]
          · simp [St.setSize, setDef, hgu, hgt]
        · have hm := h2 u hu hb'
          have hgu := h3 u hb'
          refine ⟨⟨v, ?_⟩, ?_⟩
          · simp only [St.setSize, minsert, if_true, hm]
            unfold Heap.size; rw [hgu]
          · simp [St.setSize, setDef, hgu, hgt]
      · have hb' : Explicit R before u := ((hex u).mp he).resolve_right hut
        obtain ⟨⟨x, hx⟩, hgu⟩ := h1 u hu hb'
        refine ⟨⟨x, ?_⟩, ?_⟩
        · simp only [St.setSize, minsert]
          rw [if_neg (fun e => hut (regd_inj hu htr e))]; exact hx
        · simp [St.setSize, setDef, hut, hgu]
    · intro u hu he
      have hno : ¬ Explicit R before u := fun h => he ((hex u).mpr (Or.inl h))
      have hut : u ≠ t := fun h => he ((hex u).mpr (Or.inr h))
      simp only [St.setSize, minsert]
      rw [if_neg (fun e => hut (regd_inj hu htr e))]
      exact h2 u hu hno
    · intro u he
      have hno : ¬ Explicit R before u := fun h => he ((hex u).mpr (Or.inl h))
      have hut : u ≠ t := fun h => he ((hex u).mpr (Or.inr h))
      simp only [St.setSize, setDef]
      rw [if_neg hut]
      exact h3 u hno

theorem resizeAll_ok {fuel : Nat} (hi : Inv key H R) (hrec : RecOk H R req g rk fuel (resizeType R fuel))
    (hfuel : ∀ t, R.regd H t → rk t < fuel) :
    ∀ (l : List (Str × Entry)) (s : St), (∀ p ∈ l, p ∈ R.global) → (∀ u, R.regd H u → C H R req g s u) →
      ∃ s', resizeAll R fuel l s = (s', .ok ()) ∧ (∀ u, R.regd H u → C H R req g s' u) ∧
        (∀ u, ¬ R.regd H u → s'.H.get u = s.H.get u) ∧
        (∀ p ∈ l, p.1 = H.name p.2.ty → s'.H.get p.2.ty = fin H R req g p.2.ty) := by
  intro l
  induction l with
  | nil => intro s _ hC; exact ⟨s, rfl, hC, fun _ _ => rfl, by simp⟩
  | cons p l ih =>
    intro s hl hC
    have hp := hl p (by simp)
    have hpr : R.regd H p.2.ty := hi.prim p hp
    have hl' : ∀ q ∈ l, q ∈ R.global := fun q hq => hl q (by simp [hq])
    unfold resizeAll
    have hname := (hC _ hpr).name
    by_cases ha : isAlias s.H p = true
    · rw [if_pos ha]
      obtain ⟨s', h1, h2, h3, h4⟩ := ih s hl' hC
      refine ⟨s', h1, h2, h3, ?_⟩
      intro q hq hn
      rcases List.mem_cons.mp hq with hq | hq
      · subst hq
        unfold isAlias at ha
        rw [hname] at ha
        simp [hn] at ha
      · exact h4 q hq hn
    · rw [if_neg ha]
      obtain ⟨s1, b, h1, h2, h3, h4, h5⟩ := hrec s p.2.ty hpr (hfuel _ hpr) (fun u hu _ => hC u hu)
      rw [h1]
      simp only [andThen_ok]
      have hC1 : ∀ u, R.regd H u → C H R req g s1 u := by
        intro u hu
        by_cases hle : rk u ≤ rk p.2.ty
        · exact h2 u hu hle
        · exact (hC u hu).congr (h3.heap u (Or.inr (by omega))) (h3.memo u hu (by omega))
      obtain ⟨s', e1, e2, e3, e4⟩ := ih s1 hl' hC1
      refine ⟨s', e1, e2, fun u hu => (e3 u hu).trans (h3.heap u (Or.inl hu)), ?_⟩
      intro q hq hn
      rcases List.mem_cons.mp hq with hq | hq
      · subst hq
        cases b with
        | false =>
          have hf := h5 rfl
          rcases e2 _ hpr with ⟨_, _, h⟩ | ⟨_, h⟩
          · rw [h, hf]
          · exact h
        | true =>
          obtain ⟨x, hx⟩ := h4 rfl
          have hmm := mm_resizeAll R fuel l s1
          rw [e1] at hmm
          exact (e2 _ hpr).of_memo (hmm _ _ hx)
      · exact e4 q hq hn

/-- the whole operation brings every registered object to its final state -/
theorem resize_fin (hi : Inv key H R) (hsane : Sane H R) (hg : Sizing H R req g)
    (hnc : NoCancel H R req g) (hrk : Ranked H R req rk) {fuel : Nat} (hfuel : ∀ t, R.regd H t → rk t < fuel) :
    ∃ H', resize fuel H R req = (H', .ok ()) ∧ (∀ t, R.regd H t → H'.get t = fin H R req g t) ∧
      (∀ t, ¬ R.regd H t → H'.get t = H.get t) := by
  obtain ⟨s0, h0, h1, h2, h3⟩ := startSizes_ok hi hg req [] ⟨H, fun _ => none⟩ rfl
    (by rintro u _ ⟨p, hp, _⟩; simp at hp) (fun _ _ _ => rfl) (fun _ _ => rfl)
  have hC0 : ∀ u, R.regd H u → C H R req g s0 u := by
    intro u hu
    by_cases he : Explicit R req u
    · obtain ⟨hx, hgu⟩ := h1 u hu he
      refine Or.inr ⟨hx, ?_⟩
      rw [hgu]; unfold fin; rw [if_pos he]
    · exact Or.inl ⟨he, h2 u hu he, h3 u he⟩
  obtain ⟨s', e1, e2, e3, e4⟩ := resizeAll_ok hi (resizeType_ok hi hsane hg hnc hrk fuel) hfuel R.global s0
    (fun p hp => hp) hC0
  refine ⟨s'.H, ?_, ?_, ?_⟩
  · unfold resize
    rw [h0]
    simp only [andThen_ok]
    rw [e1]
  · intro t ht
    obtain ⟨e, hm, he⟩ := reg_mem (show R.reg (H.name t) = some t from ht)
    have := e4 _ hm (by simp only; rw [he])
    simp only [he] at this
    exact this
  · intro t ht
    rw [e3 t ht]
    apply h3
    rintro ⟨p, _, hp⟩
    exact ht (regd_of_get hi hp)

theorem shiftL_get (g sz : TId → Nat) (fs : List FieldD) (acc i : Nat) (f : FieldD) (h : fs[i]? = some f) :
    (shiftL g sz acc fs)[i]? = some { f with offset := wadd f.offset (accL g sz acc (fs.take i)) } := by
  induction fs generalizing acc i with
  | nil => simp at h
  | cons a fs ih =>
    cases i with
    | zero => simp at h; subst h; simp [shiftL, accL]
    | succ i =>
      simp only [List.getElem?_cons_succ] at h
      simp only [shiftL, List.getElem?_cons_succ, List.take_succ_cons, accL]
      exact ih _ i h

/-- **C32**, for every registry and every consistent assignment of sizes: the call succeeds, every registered
type gets the size that the specification gives, the fields of compounds are shifted by the growth of the
fields before them (in `size_t` arithmetic), and nothing else changes. Missing for the full claim: compounds
whose own size is requested keep their offsets, cyclic types make it diverge, growths that cancel are applied
several times (see the counterexamples). -/
theorem C32_resize_partial (hkey : ∀ a b, key a = key b → a = b) (hac : Acyclic H) (hr : Reachable key H R)
    (hsane : Sane H R) (hg : Sizing H R req g) (hnc : NoCancel H R req g) (hrk : Ranked H R req rk) {fuel : Nat}
    (hfuel : ∀ t, R.regd H t → rk t < fuel) :
    ∃ H', resize fuel H R req = (H', .ok ()) ∧
      (∀ t, ¬ R.regd H t → H'.get t = H.get t) ∧
      (∀ t, R.regd H t → H'.name t = H.name t ∧ H'.size t = g t) ∧
      (∀ t, R.regd H t → Explicit R req t → H'.kind t = H.kind t) ∧
      (∀ t, R.regd H t → H.cat t ≠ .compound → H'.kind t = H.kind t) ∧
      (∀ t fs, R.regd H t → ¬ Explicit R req t → H.kind t = .comp fs →
        ∃ fs', H'.kind t = .comp fs' ∧ fs'.length = fs.length ∧
          ∀ (i : Nat) (f : FieldD), fs[i]? = some f → ∃ f', fs'[i]? = some f' ∧ f'.name = f.name ∧ f'.ty = f.ty ∧
            f'.offset < W ∧
            (f'.offset + sumOf H.size (fs.take i)) % W = (f.offset + sumOf g (fs.take i)) % W) := by
  obtain ⟨H', h1, h2, h3⟩ := resize_fin (inv_reachable hkey hac hr) hsane hg hnc hrk hfuel
  refine ⟨H', h1, h3, ?_, ?_, ?_, ?_⟩
  · intro t ht
    unfold Heap.name Heap.size
    rw [h2 t ht]
    exact ⟨fin_name t, fin_size t⟩
  · intro t ht he
    unfold Heap.kind
    rw [h2 t ht]
    unfold fin
    rw [if_pos he]
  · intro t ht hc
    unfold Heap.kind
    rw [h2 t ht]
    unfold fin
    split
    · rfl
    · split
      · rename_i fs hk
        unfold Heap.cat at hc
        rw [hk] at hc
        exact absurd rfl hc
      · rfl
  · intro t fs ht hne hk
    refine ⟨shiftL g H.size 0 fs, ?_, shiftL_length _ _ _ _, ?_⟩
    · unfold Heap.kind
      rw [h2 t ht]
      unfold fin
      rw [if_neg hne, hk]
    · intro i f hf
      refine ⟨_, shiftL_get g H.size fs 0 i f hf, rfl, rfl, wadd_lt _ _, ?_⟩
      have := accL_sum g H.size 0 (fs.take i)
      simp only
      generalize accL g H.size 0 (fs.take i) = a at this ⊢
      generalize sumOf H.size (fs.take i) = b at this ⊢
      generalize sumOf g (fs.take i) = c at this ⊢
      unfold wadd W at *
      omega

theorem sumOf_le {a b : TId → Nat} {fs : List FieldD} (h : ∀ f ∈ fs, a f.ty ≤ b f.ty) : sumOf a fs ≤ sumOf b fs := by
  induction fs with
  | nil => exact Nat.le_refl _
  | cons f fs ih =>
    have h1 := h f (by simp)
    have h2 := ih (fun f hf => h f (by simp [hf]))
    simp only [sumOf, List.map_cons, List.sum_cons] at *
    omega

theorem sumOf_eq {a b : TId → Nat} {fs : List FieldD} (h : ∀ f ∈ fs, a f.ty ≤ b f.ty) (he : sumOf a fs = sumOf b fs) :
    ∀ f ∈ fs, b f.ty = a f.ty := by
  induction fs with
  | nil => simp
  | cons f fs ih =>
    have h1 := h f (by simp)
    have h2 := sumOf_le (fun f hf => h f (List.mem_cons_of_mem _ hf)) (a := a) (b := b) (fs := fs)
    simp only [sumOf, List.map_cons, List.sum_cons] at he h2
    intro x hx
    rcases List.mem_cons.mp hx with hx | hx
    · subst hx; omega
    · exact ih (fun f hf => h f (by simp [hf])) (by unfold sumOf; omega) x hx

/-- when sizes only grow, every type grows -/
theorem sizing_grows (hsane : Sane H R) (hg : Sizing H R req g) (hrk : Ranked H R req rk)
    (hgrow : ∀ p ∈ req, ∀ t, R.get p.1 = some t → H.size t ≤ p.2) :
    ∀ (n : Nat) (t : TId), rk t < n → R.regd H t → H.size t ≤ g t := by
  intro n
  induction n with
  | zero => intro t h; omega
  | succ n ih =>
    intro t hlt ht
    by_cases he : Explicit R req t
    · obtain ⟨p, hp, hpt⟩ := he
      rw [hg.explicit p hp t hpt]
      exact hgrow p hp t hpt
    · have hdep : ∀ d ∈ H.deps t, H.size d ≤ g d := by
        intro d hd
        have := hrk t d ht he hd
        exact ih d (by omega) (hsane.closed t d ht hd)
      cases hk : H.kind t with
      | comp fs =>
        have h1 := hg.comp t fs ht he hk
        have h2 : sumOf H.size fs ≤ sumOf g fs := sumOf_le (fun f hf => hdep f.ty (by
          unfold Heap.deps; rw [hk]; simp only [Kind.deps, List.mem_map]; exact ⟨f, hf, rfl⟩))
        omega
      | arr d e =>
        rw [hg.arr t d e ht he hk, hsane.arrays t d e ht hk]
        exact Nat.mul_le_mul_left d (hdep e (by unfold Heap.deps; rw [hk]; simp [Kind.deps, Kind.elem?]))
      | _ => rw [hg.other t ht he (by rw [hk]; trivial)]; exact Nat.le_refl _

/-- growth is enough for `NoCancel` -/
theorem noCancel_of_growth (hsane : Sane H R) (hg : Sizing H R req g) (hrk : Ranked H R req rk)
    (hgrow : ∀ p ∈ req, ∀ t, R.get p.1 = some t → H.size t ≤ p.2) : NoCancel H R req g := by
  intro t fs ht he hk heq
  have h1 := hg.comp t fs ht he hk
  have hdep : ∀ f ∈ fs, H.size f.ty ≤ g f.ty := by
    intro f hf
    exact sizing_grows hsane hg hrk hgrow _ f.ty (Nat.lt_succ_self _) (hsane.closed t f.ty ht (by
      unfold Heap.deps; rw [hk]; simp only [Kind.deps, List.mem_map]; exact ⟨f, hf, rfl⟩))
  exact sumOf_eq hdep (by omega)

/-- the total growth of a list of fields -/
def growth (H H' : Heap) (fs : List FieldD) : Nat := (fs.map (fun f => H'.size f.ty - H.size f.ty)).sum

theorem growth_sum {H H' : Heap} {fs : List FieldD} (h : ∀ f ∈ fs, H.size f.ty ≤ H'.size f.ty) :
    growth H H' fs + sumOf H.size fs = sumOf H'.size fs := by
  induction fs with
  | nil => rfl
  | cons f fs ih =>
    have h1 := h f (by simp)
    have h2 := ih (fun f hf => h f (by simp [hf]))
    simp only [growth, sumOf, List.map_cons, List.sum_cons] at *
    omega

/-- **C32** for requests that only enlarge types, entirely in terms of the objects before and after: each
field is shifted by the total growth of the fields listed before it, the compound grows by the total growth
of its fields, arrays are `dimension * element size`, and fields listed in order of their offsets that did not
overlap still do not. -/
theorem C32_growth_partial (hkey : ∀ a b, key a = key b → a = b) (hac : Acyclic H) (hr : Reachable key H R)
    (hsane : Sane H R) (hg : Sizing H R req g) (hrk : Ranked H R req rk) {fuel : Nat}
    (hfuel : ∀ t, R.regd H t → rk t < fuel)
    (hgrow : ∀ p ∈ req, ∀ t, R.get p.1 = some t → H.size t ≤ p.2)
    (hover : ∀ t fs, R.regd H t → H.kind t = .comp fs → ∀ f ∈ fs, f.offset + sumOf g fs < W) :
    ∃ H', resize fuel H R req = (H', .ok ()) ∧
      (∀ p ∈ req, ∀ t, R.get p.1 = some t → H'.size t = p.2) ∧
      (∀ t d e, R.regd H t → ¬ Explicit R req t → H.kind t = .arr d e → H'.size t = d * H'.size e) ∧
      (∀ t fs, R.regd H t → ¬ Explicit R req t → H.kind t = .comp fs →
        H'.size t = H.size t + growth H H' fs ∧
        ∃ fs', H'.kind t = .comp fs' ∧ fs'.length = fs.length ∧
          (∀ (i : Nat) (f : FieldD), fs[i]? = some f → ∃ f', fs'[i]? = some f' ∧ f'.name = f.name ∧ f'.ty = f.ty ∧
            f'.offset = f.offset + growth H H' (fs.take i)) ∧
          (∀ (i j : Nat) (a b a' b' : FieldD), i < j → fs[i]? = some a → fs[j]? = some b →
            fs'[i]? = some a' → fs'[j]? = some b' → a.offset + H.size a.ty ≤ b.offset →
            a'.offset + H'.size a'.ty ≤ b'.offset)) ∧
      (∀ t, R.regd H t → ¬ Explicit R req t → H.cat t ≠ .compound → H.cat t ≠ .array → H'.get t = H.get t) := by
  have hnc := noCancel_of_growth hsane hg hrk hgrow
  obtain ⟨H', h1, h2, h3, h4, h5, h6⟩ := C32_resize_partial hkey hac hr hsane hg hnc hrk hfuel
  have hi := inv_reachable hkey hac hr
  have hle : ∀ t, R.regd H t → H.size t ≤ H'.size t := by
    intro t ht
    rw [(h3 t ht).2]
    exact sizing_grows hsane hg hrk hgrow _ t (Nat.lt_succ_self _) ht
  have hfield : ∀ t fs, R.regd H t → H.kind t = .comp fs → ∀ f ∈ fs, R.regd H f.ty := by
    intro t fs ht hk f hf
    exact hsane.closed t f.ty ht (by
      unfold Heap.deps; rw [hk]; simp only [Kind.deps, List.mem_map]; exact ⟨f, hf, rfl⟩)
  have hsumeq : ∀ fs : List FieldD, (∀ f ∈ fs, R.regd H f.ty) → sumOf H'.size fs = sumOf g fs := by
    intro fs hfs
    unfold sumOf
    congr 1
    apply List.map_congr_left
    intro f hf
    exact (h3 _ (hfs f hf)).2
  refine ⟨H', h1, ?_, ?_, ?_, ?_⟩
  · intro p hp t ht
    rw [(h3 t (regd_of_get hi ht)).2]
    exact hg.explicit p hp t ht
  · intro t d e ht he hk
    have her := hsane.closed t e ht (by unfold Heap.deps; rw [hk]; simp [Kind.deps, Kind.elem?])
    rw [(h3 t ht).2, (h3 e her).2]
    exact hg.arr t d e ht he hk
  · intro t fs ht he hk
    have hfs := hfield t fs ht hk
    have hgr : ∀ l : List FieldD, (∀ f ∈ l, f ∈ fs) → growth H H' l + sumOf H.size l = sumOf g l := by
      intro l hl
      rw [growth_sum (fun f hf => hle _ (hfs f (hl f hf))), hsumeq l (fun f hf => hfs f (hl f hf))]
    have hoff : ∀ (i : Nat) (f f' : FieldD), fs[i]? = some f → f'.offset < W →
        (f'.offset + sumOf H.size (fs.take i)) % W = (f.offset + sumOf g (fs.take i)) % W →
        f'.offset = f.offset + growth H H' (fs.take i) := by
      intro i f f' hf hlt hmod
      have e1 := hgr (fs.take i) (fun f hf => List.mem_of_mem_take hf)
      have e2 : growth H H' (fs.take i) ≤ sumOf g fs := by
        have a1 : sumOf g fs = sumOf g (fs.take i) + sumOf g (fs.drop i) := by
          have := congrArg (sumOf g) (List.take_append_drop i fs).symm
          rw [this]; simp only [sumOf, List.map_append, List.sum_append]
        omega
      have e3 := hover t fs ht hk f (List.mem_of_getElem? hf)
      generalize growth H H' (fs.take i) = a at *
      generalize sumOf H.size (fs.take i) = b at *
      generalize sumOf g (fs.take i) = c at *
      unfold W at *
      omega
    refine ⟨?_, ?_⟩
    · have e1 := hgr fs (fun f hf => hf)
      have e2 := hg.comp t fs ht he hk
      rw [(h3 t ht).2]
      omega
    · obtain ⟨fs', hk', hlen, hf'⟩ := h6 t fs ht he hk
      have hall : ∀ (i : Nat) (f : FieldD), fs[i]? = some f → ∃ f', fs'[i]? = some f' ∧ f'.name = f.name ∧ f'.ty = f.ty ∧
            f'.offset = f.offset + growth H H' (fs.take i) := by
        intro i f hf
        obtain ⟨f', a1, a2, a3, a4, a5⟩ := hf' i f hf
        exact ⟨f', a1, a2, a3, hoff i f f' hf a4 a5⟩
      refine ⟨fs', hk', hlen, hall, ?_⟩
      intro i j a b a' b' hij ha hb ha' hb' hno
      obtain ⟨x, x1, _, x3, x4⟩ := hall i a ha
      obtain ⟨y, y1, _, _, y4⟩ := hall j b hb
      rw [ha'] at x1
      rw [hb'] at y1
      cases x1
      cases y1
      rw [x3, x4, y4]
      have e1 : growth H H' (fs.take i) + (H'.size a.ty - H.size a.ty) ≤ growth H H' (fs.take j) := by
        have hj : fs.take (i + 1) = fs.take i ++ [a] := by
          rw [List.take_add_one, ha]; rfl
        have hjj : fs.take j = fs.take (i + 1) ++ (fs.take j).drop (i + 1) := by
          have := (List.take_append_drop (i + 1) (fs.take j)).symm
          rw [List.take_take, Nat.min_eq_left (by omega)] at this
          exact this
        rw [hjj, hj]
        simp only [growth, List.map_append, List.sum_append, List.map_cons, List.map_nil, List.sum_cons, List.sum_nil]
        omega
      have e2 := hle a.ty (hfs a (List.mem_of_getElem? ha))
      omega
  · intro t ht he hc ha
    have hk := h5 t ht hc
    have hn := h3 t ht
    have hs : g t = H.size t := by
      apply hg.other t ht he
      unfold Heap.cat at hc ha
      cases hk : H.kind t with
      | comp fs => rw [hk] at hc; exact absurd rfl hc
      | arr d e => rw [hk] at ha; exact absurd rfl ha
      | _ => trivial
    rw [hs] at hn
    unfold Heap.name Heap.size at hn
    unfold Heap.kind at hk
    cases hx : H'.get t
    cases hy : H.get t
    rw [hx, hy] at hn hk
    simp only at hn hk
    rw [hn.1, hn.2, hk]

end
end Verif.Resize
