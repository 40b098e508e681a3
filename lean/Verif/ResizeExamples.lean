import Verif.ResizeProps
import Verif.RegistryExamples

/-! A concrete case for the theorems on `Registry::resize` and the counterexamples to C32. -/

namespace Verif.Resize
open Verif Verif.Names Verif.Graph Verif.Registry

/-- `/A`, `/A[3]`, `/A*`, `/B`, `/S { A x; A[3] y; A* p; B z }` -/
def rzGet : TId → TypeDef
  | 0 => ⟨"/A".toList, 4, .num .sint⟩
  | 1 => ⟨"/A[3]".toList, 12, .arr 3 0⟩
  | 2 => ⟨"/A*".toList, 8, .ptr 0⟩
  | 3 => ⟨"/B".toList, 8, .num .sint⟩
  | 4 => ⟨"/S".toList, 32, .comp [⟨"x".toList, 0, 0⟩, ⟨"y".toList, 4, 1⟩, ⟨"p".toList, 16, 2⟩, ⟨"z".toList, 24, 3⟩]⟩
  | _ => ⟨[], 0, .null⟩

def rzHeap : Heap := ⟨5, rzGet⟩

def rzReg : Reg := run ascii rzHeap Reg.empty
  [.addAuto 0 [], .addAuto 1 [], .addAuto 2 [], .addAuto 3 [], .addAuto 4 [], .alias "/A".toList "/Alias".toList true []]

def rzReq : List (Str × Nat) := [("/Alias".toList, 8)]

def rzNew : TId → Nat
  | 0 => 8 | 1 => 24 | 2 => 8 | 3 => 8 | 4 => 48 | _ => 0

def rzRank : TId → Nat
  | 0 => 0 | 1 => 1 | 2 => 1 | 3 => 0 | 4 => 2 | _ => 0

theorem rzAcyclic : Acyclic rzHeap := by
  intro u x h
  match u with
  | 0 | 3 | 4 => cases h
  | 1 => cases h; show (0 : Nat) < 1; decide
  | 2 => cases h; show (0 : Nat) < 2; decide
  | n + 5 => cases h

theorem rzReachable : Reachable ascii rzHeap rzReg := by
  refine reachable_ops rzAcyclic _ ?_
  intro o ho
  simp only [List.mem_cons, List.mem_nil_iff, or_false] at ho
  rcases ho with rfl | rfl | rfl | rfl | rfl | rfl
  all_goals first | exact ⟨by decide, by decide⟩ | (show isAbsoluteName _ = true; decide)

theorem rz_lt {t : TId} (h : rzReg.regd rzHeap t) : @LT.lt Nat _ t 5 :=
  ((inv_reachable ascii_inj rzAcyclic rzReachable).toGInv.reg_name h).2.2.2

theorem rz_explicit (t : TId) : Explicit rzReg rzReq t ↔ t = 0 := by
  have hg : rzReg.get "/Alias".toList = some 0 := by decide +kernel
  constructor
  · rintro ⟨p, hp, h⟩
    simp only [rzReq, List.mem_singleton] at hp
    subst hp
    simp only at h
    rw [hg] at h
    exact (Option.some.inj h).symm
  · rintro rfl
    exact ⟨("/Alias".toList, 8), List.mem_singleton.mpr rfl, hg⟩

theorem rzSane : Sane rzHeap rzReg where
  closed := by
    intro t d ht hd
    have hlt := rz_lt ht
    match t, hlt with
    | 0, _ | 3, _ => cases hd
    | 1, _ | 2, _ =>
      have : d = 0 := by simpa [Heap.deps, Heap.kind, rzHeap, rzGet, Kind.deps, Kind.elem?] using hd
      subst this
      show rzReg.reg _ = _
      decide +kernel
    | 4, _ =>
      have : d = 0 ∨ d = 1 ∨ d = 2 ∨ d = 3 := by
        simpa [Heap.deps, Heap.kind, rzHeap, rzGet, Kind.deps, Kind.elem?] using hd
      rcases this with rfl | rfl | rfl | rfl <;> (show rzReg.reg _ = _) <;> decide +kernel
  sizes := by
    intro t
    match t with
    | 0 | 1 | 2 | 3 | 4 => decide
    | n + 5 => show (0 : Nat) < W; decide
  offsets := by
    intro t fs hk
    match t with
    | 0 | 1 | 2 | 3 => cases hk
    | 4 => cases hk; decide
    | n + 5 => cases hk
  arrays := by
    intro t d e _ hk
    match t with
    | 0 | 2 | 3 | 4 => cases hk
    | 1 => cases hk; rfl
    | n + 5 => cases hk

theorem rzSizing : Sizing rzHeap rzReg rzReq rzNew where
  known := by
    intro p hp
    simp only [rzReq, List.mem_singleton] at hp
    subst hp
    exact ⟨0, by decide +kernel⟩
  explicit := by
    intro p hp t ht
    have := (rz_explicit t).mp ⟨p, hp, ht⟩
    subst this
    simp only [rzReq, List.mem_singleton] at hp
    subst hp
    rfl
  comp := by
    intro t fs ht _ hk
    have hlt := rz_lt ht
    match t, hlt with
    | 0, _ | 1, _ | 2, _ | 3, _ => cases hk
    | 4, _ => cases hk; decide
  arr := by
    intro t d e ht _ hk
    have hlt := rz_lt ht
    match t, hlt with
    | 0, _ | 2, _ | 3, _ | 4, _ => cases hk
    | 1, _ => cases hk; rfl
  other := by
    intro t ht he hk
    have hlt := rz_lt ht
    match t, hlt with
    | 0, _ => exact absurd ((rz_explicit 0).mpr rfl) he
    | 1, _ => exact absurd hk (by simp [Heap.kind, rzHeap, rzGet])
    | 2, _ | 3, _ => rfl
    | 4, _ => exact absurd hk (by simp [Heap.kind, rzHeap, rzGet])
  range := by
    intro t
    match t with
    | 0 | 1 | 2 | 3 | 4 => decide
    | n + 5 => show (0 : Nat) < W; decide

theorem rzRanked : Ranked rzHeap rzReg rzReq rzRank := by
  intro t d ht _ hd
  have hlt := rz_lt ht
  match t, hlt with
  | 0, _ | 3, _ => cases hd
  | 1, _ | 2, _ =>
    have : d = 0 := by simpa [Heap.deps, Heap.kind, rzHeap, rzGet, Kind.deps, Kind.elem?] using hd
    subst this
    decide
  | 4, _ =>
    have : d = 0 ∨ d = 1 ∨ d = 2 ∨ d = 3 := by
      simpa [Heap.deps, Heap.kind, rzHeap, rzGet, Kind.deps, Kind.elem?] using hd
    rcases this with rfl | rfl | rfl | rfl <;> decide

/-- the hypotheses of `C32_growth_partial` hold of this registry and request -/
example : ∃ H', resize 3 rzHeap rzReg rzReq = (H', .ok ()) ∧ H'.size 4 = 48 := by
  have hfuel : ∀ t, rzReg.regd rzHeap t → rzRank t < 3 := by
    intro t ht
    have hlt := rz_lt ht
    match t, hlt with
    | 0, _ | 1, _ | 2, _ | 3, _ | 4, _ => decide
  have hgrow : ∀ p ∈ rzReq, ∀ t, rzReg.get p.1 = some t → rzHeap.size t ≤ p.2 := by
    intro p hp t ht
    have := (rz_explicit t).mp ⟨p, hp, ht⟩
    subst this
    simp only [rzReq, List.mem_singleton] at hp
    subst hp
    decide
  have hover : ∀ t fs, rzReg.regd rzHeap t → rzHeap.kind t = .comp fs →
      ∀ f ∈ fs, f.offset + sumOf rzNew fs < W := by
    intro t fs ht hk
    have hlt := rz_lt ht
    match t, hlt with
    | 0, _ | 1, _ | 2, _ | 3, _ => cases hk
    | 4, _ => cases hk; decide
  obtain ⟨H', h1, _, _, h4, _⟩ := C32_growth_partial ascii_inj rzAcyclic rzReachable rzSane rzSizing rzRanked hfuel hgrow hover
  have := h4 4 _ (by show rzReg.reg _ = _; decide +kernel) (by rw [rz_explicit]; decide) rfl
  refine ⟨H', h1, ?_⟩
  have h := C32_resize_partial ascii_inj rzAcyclic rzReachable rzSane rzSizing
    (noCancel_of_growth rzSane rzSizing rzRanked hgrow) rzRanked hfuel
  obtain ⟨H2, e1, _, e3, _⟩ := h
  rw [h1] at e1
  cases e1
  exact (e3 4 (by show rzReg.reg _ = _; decide +kernel)).2

/-- and the computation itself gives these offsets -/
example : ((resize 3 rzHeap rzReg rzReq).1.kind 4) =
    .comp [⟨"x".toList, 0, 0⟩, ⟨"y".toList, 8, 1⟩, ⟨"p".toList, 32, 2⟩, ⟨"z".toList, 40, 3⟩] := by
  decide +kernel

/-! ### Counterexamples -/

/-- `/A`, `/B`, `/S { A a; B b }`, `/R { S s }`, `/U { A second @4; A first @0 }` -/
def cxGet : TId → TypeDef
  | 0 => ⟨"/A".toList, 4, .num .sint⟩
  | 1 => ⟨"/B".toList, 8, .num .sint⟩
  | 2 => ⟨"/S".toList, 12, .comp [⟨"a".toList, 0, 0⟩, ⟨"b".toList, 4, 1⟩]⟩
  | 3 => ⟨"/R".toList, 12, .comp [⟨"s".toList, 0, 2⟩]⟩
  | 4 => ⟨"/U".toList, 8, .comp [⟨"second".toList, 4, 0⟩, ⟨"first".toList, 0, 0⟩]⟩
  | _ => ⟨[], 0, .null⟩

def cxHeap : Heap := ⟨5, cxGet⟩

def cxReg : Reg := run ascii cxHeap Reg.empty [.addAuto 0 [], .addAuto 1 [], .addAuto 2 [], .addAuto 3 [], .addAuto 4 []]

/-- Growths that cancel: `/A` grows by 4 and `/B` shrinks by 4. `/S` keeps its size, so it is not recorded as
resized and its field `b` is shifted twice (once from `/R`, once for itself): it ends at offset 12, out of
the 12 bytes of `/S`. -/
theorem C32_cancel_counterexample :
    let r := resize 10 cxHeap cxReg [("/A".toList, 8), ("/B".toList, 4)]
    r.2 = .ok () ∧ r.1.size 2 = 12 ∧ r.1.kind 2 = .comp [⟨"a".toList, 0, 0⟩, ⟨"b".toList, 12, 1⟩] := by
  decide +kernel

/-- Fields that are not listed in the order of their offsets: `first` and `second` did not overlap and do
after the resize (both at offset 4). -/
theorem C32_unordered_counterexample :
    let r := resize 10 cxHeap cxReg [("/A".toList, 8)]
    r.2 = .ok () ∧ r.1.kind 4 = .comp [⟨"second".toList, 4, 0⟩, ⟨"first".toList, 4, 0⟩] := by
  decide +kernel

/-- A compound whose size is part of the request keeps its offsets: `a` now overlaps `b`. -/
theorem C32_explicit_compound_counterexample :
    let r := resize 10 cxHeap cxReg [("/A".toList, 8), ("/S".toList, 16)]
    r.2 = .ok () ∧ r.1.size 0 = 8 ∧ r.1.kind 2 = .comp [⟨"a".toList, 0, 0⟩, ⟨"b".toList, 4, 1⟩] := by
  decide +kernel

/-- An unknown name in the request is undefined behaviour (null pointer dereferenced, registry.cc:581). -/
theorem C32_unknown_name_ub (R : Reg) (H : Heap) (fuel : Nat) (n : Str) (v : Nat) (r : List (Str × Nat))
    (h : R.get n = none) : (resize fuel H R ((n, v) :: r)).2 = .ub := by
  unfold resize startSizes
  rw [h]
  rfl

/-- `/L { L* next }`: a linked list -/
def llGet : TId → TypeDef
  | 0 => ⟨"/L".toList, 8, .comp [⟨"next".toList, 0, 1⟩]⟩
  | 1 => ⟨"/L*".toList, 8, .ptr 0⟩
  | _ => ⟨[], 0, .null⟩

def llHeap : Heap := ⟨2, llGet⟩

def llReg : Reg := run ascii llHeap Reg.empty [.addAuto 0 [], .addAuto 1 []]

/-- the relevant part of the state during the recursion -/
structure LL (s : St) : Prop where
  memo0 : s.memo "/L".toList = none
  memo1 : s.memo "/L*".toList = none
  name0 : s.H.name 0 = "/L".toList
  kind1 : s.H.get 1 = ⟨"/L*".toList, 8, .ptr 0⟩
  kind0 : s.H.kind 0 = .comp [⟨"next".toList, 0, 1⟩]

theorem ll_diverges (fuel : Nat) : ∀ s, LL s →
    (resizeType llReg fuel s 0).2 = .fuel ∧ (resizeType llReg fuel s 1).2 = .fuel := by
  have g0 : llReg.get "/L".toList = some 0 := by decide +kernel
  have g1 : llReg.get "/L*".toList = some 1 := by decide +kernel
  have key : ∀ {α β : Type} (x : St × Res α) (f : St → α → St × Res β), x.2 = .fuel → (andThen x f).2 = .fuel := by
    intro α β x f h
    obtain ⟨s, r⟩ := x
    simp only at h
    subst h
    rfl
  induction fuel with
  | zero => intro s _; exact ⟨rfl, rfl⟩
  | succ n ih =>
    intro s hs
    have n1 : s.H.name 1 = "/L*".toList := by unfold Heap.name; rw [hs.kind1]
    have k1 : s.H.kind 1 = .ptr 0 := by unfold Heap.kind; rw [hs.kind1]
    constructor
    · unfold resizeType
      rw [hs.name0, hs.memo0]
      simp only
      apply key
      unfold doResize
      rw [hs.kind0]
      simp only
      apply key
      show (fieldLoop _ _ _ [0] 0 s).2 = _
      unfold fieldLoop
      rw [hs.kind0]
      simp only [List.getElem?_cons_zero]
      have hset : s.setOffset 0 0 (wadd 0 0) = { s with H := setDef s.H 0 (s.H.get 0) } := by
        unfold St.setOffset
        rw [hs.kind0]
        simp only [setOff, List.getElem?_cons_zero]
        have e : { s.H.get 0 with kind := Kind.comp [⟨"next".toList, 0, 1⟩] } = s.H.get 0 := by
          have := hs.kind0
          unfold Heap.kind at this
          cases hx : s.H.get 0
          rw [hx] at this
          simp only at this
          rw [this]
        have e2 : wadd 0 0 = 0 := rfl
        rw [e2]
        simp only [List.set_cons_zero]
        rw [e]
      rw [hset]
      have hd : setDef s.H 0 (s.H.get 0) = s.H := by
        unfold setDef
        cases hh : s.H
        simp only [Heap.mk.injEq, true_and]
        funext u
        by_cases hu : u = 0
        · subst hu; simp
        · simp [hu]
      rw [hd]
      simp only
      rw [n1, g1]
      simp only
      exact key _ _ (ih s hs).2
    · unfold resizeType
      rw [n1, hs.memo1]
      simp only
      apply key
      unfold doResize
      rw [k1]
      simp only
      unfold indirectDoResize typeDoResize
      rw [n1, hs.memo1]
      simp only
      rw [hs.name0, g0]
      simp only
      exact key _ _ (ih s hs).1

/-- `resize` does not terminate on a type that contains a pointer to itself, whatever is asked of it (here
nothing at all): no amount of fuel is enough. -/
theorem C32_recursive_type_diverges (fuel : Nat) : (resize fuel llHeap llReg []).2 = .fuel := by
  have hg : llReg.global = [("/L".toList, ⟨0, true, []⟩), ("/L*".toList, ⟨1, false, []⟩)] := by decide +kernel
  have hl := ll_diverges fuel ⟨llHeap, fun _ => none⟩ ⟨rfl, rfl, rfl, rfl, rfl⟩
  unfold resize startSizes
  simp only [andThen_ok]
  rw [hg]
  unfold resizeAll
  have ha : isAlias llHeap ("/L".toList, (⟨0, true, []⟩ : Entry)) = false := by decide
  rw [ha]
  simp only [Bool.false_eq_true, if_false]
  cases hx : resizeType llReg fuel ⟨llHeap, fun _ => none⟩ 0 with
  | mk s r =>
    rw [hx] at hl
    have := hl.1
    simp only at this
    subst this
    rfl

end Verif.Resize
