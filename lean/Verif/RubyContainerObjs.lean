import Verif.RubyContainerProps

/-!
C73: the Ruby objects of elements of a vector. An object refers to the memory of its element; none is kept whose memory is gone.
-/

namespace Verif.Container
open Verif Verif.Layout Verif.Value

/-- all objects kept are for elements of the vector -/
def InRange (e : Ty) (c : Cont) : Prop := ∀ (i : Nat), i ∈ c.objs → (i : Int) < rbSize e c.v

theorem settle_objs {e : Ty} {old c c' : Cont} (h : settle e old c = some c') : InRange e c' ∧ c'.gen = c.gen ∧
    (∀ i, i ∈ c'.objs → i ∈ c.objs) ∧ (old.v.buf ≠ [] → c.gen ≠ old.gen → c'.objs = []) := by
  unfold settle at h
  by_cases h1 : old.v.buf ≠ [] ∧ (c.v.buf = [] ∨ c.gen ≠ old.gen)
  · rw [if_pos h1] at h
    cases h
    exact ⟨fun i hi => by simp at hi, rfl, fun i hi => by simp at hi, fun _ _ => rfl⟩
  · rw [if_neg h1] at h
    by_cases h2 : rbSize e c.v < 0
    · rw [if_pos h2] at h; cases h
    · rw [if_neg h2] at h
      cases h
      refine ⟨fun i hi => ?_, rfl, fun i hi => ?_, fun h3 h4 => absurd ⟨h3, .inr h4⟩ h1⟩
      · simpa using (List.mem_filter.mp hi).2
      · exact (List.mem_filter.mp hi).1

theorem settled_objs {e : Ty} {old c' : Cont} {x : Out Cont Rep} {r : Rep} (h : settled e old x = .ok r c') : ∃ c, x = .ok r c ∧ InRange e c' ∧
    c'.gen = c.gen ∧ (∀ i, i ∈ c'.objs → i ∈ c.objs) ∧ (old.v.buf ≠ [] → c.gen ≠ old.gen → c'.objs = []) := by
  cases x with
  | ok r0 c =>
    simp only [settled] at h
    cases hs : settle e old c with
    | none => rw [hs] at h; cases h
    | some c1 =>
      rw [hs] at h
      cases h
      exact ⟨c, rfl, settle_objs hs⟩
  | exn er c => cases h
  | ub => cases h
  | fuel => cases h

theorem empty_size {e : Ty} {v : Vec} (h : v.buf = []) : rbSize e v = 0 := by
  have : vecCount e v = 0 := by unfold vecCount; rw [h]; simp
  unfold rbSize
  rw [this]
  rfl

/-- an empty vector has no objects -/
theorem InRange.empty {e : Ty} {c : Cont} (h : InRange e c) (hb : c.v.buf = []) : c.objs = [] := by
  rcases hc : c.objs with _ | ⟨i, l⟩
  · rfl
  · have := h i (by rw [hc]; simp)
    rw [empty_size hb] at this
    omega

/-- the calls that change the number of elements -/
theorem settled_step {e : Ty} {c c' : Cont} {x : Out Cont Rep} {r : Rep} (hc : InRange e c) (h : settled e c x = .ok r c')
    (hk : ∀ c1, x = .ok r c1 → c1.objs = c.objs) : InRange e c' ∧ (c'.gen ≠ c.gen → c'.objs = []) := by
  obtain ⟨c1, h1, h2, h3, h4, h5⟩ := settled_objs h
  refine ⟨h2, fun hg => ?_⟩
  rw [h3] at hg
  by_cases hb : c.v.buf = []
  · have : c1.objs = [] := by rw [hk c1 h1]; exact hc.empty hb
    rw [this] at h4
    exact List.eq_nil_iff_forall_not_mem.mpr (fun i hi => by simpa using h4 i hi)
  · exact h5 hb hg

theorem doErase_objs {env : Env} {e : Ty} {s : Src} {c c' : Cont} {r : Rep} (h : doErase env e s c = .ok r c') : c'.objs = c.objs := by
  have key : (∀ x, ((vecErase env (elemOps env e) e x c.v).conv fun v => (⟨v, c.gen, c.objs⟩ : Cont)).bind (fun b c => .ok (.bool b) c) =
      .ok r c' → c'.objs = c.objs) := by
    intro x hx
    generalize vecErase env (elemOps env e) e x c.v = y at hx
    cases y <;> cases hx <;> rfl
  cases s with
  | bad er => cases h; rfl
  | mem x => exact key x h
  | at_ g i =>
    simp only [doErase] at h
    cases hb : bytesOf e c (.at_ g i) with
    | none => rw [hb] at h; cases h
    | some x => rw [hb] at h; exact key x h

theorem doSet_objs {env : Env} {e : Ty} {i : Int} {s : Src} {c c' : Cont} {r : Rep} (h : doSet env e i s c = .ok r c') :
    c'.objs = c.objs ∧ c'.gen = c.gen := by
  unfold doSet at h
  split at h
  · cases h; exact ⟨rfl, rfl⟩
  · have key : ∀ m off, ((((elemOps env e).copy e m off c.v.buf (wmul i.toNat e.size)).conv fun b => (⟨⟨c.v.cap, b⟩, c.gen, c.objs⟩ : Cont)).bind
        fun _ c => .ok .done c) = .ok r c' → c'.objs = c.objs ∧ c'.gen = c.gen := by
      intro m off hx
      generalize (elemOps env e).copy e m off c.v.buf (wmul i.toNat e.size) = y at hx
      cases y <;> cases hx <;> exact ⟨rfl, rfl⟩
    split at h
    · cases h; exact ⟨rfl, rfl⟩
    · split at h
      · cases h
      · exact key _ _ h

theorem withArgs_objs {α : Type} {c c' : Cont} {x : Res α} {f : α → Out Cont Rep} {r : Rep} {P : Cont → Prop} (h : withArgs c x f = .ok r c')
    (h0 : P c) (h1 : ∀ a, x = .ok a → f a = .ok r c' → P c') : P c' := by
  cases x with
  | ok a => exact h1 a rfl h
  | exn er => cases h; exact h0
  | ub => cases h
  | fuel => cases h

section
variable {env : Env} {e : Ty} (he : ElemOk e) (hbig : env.maxAlloc < 2147483648 * e.size)
include he hbig

/-- **C73, objects**: every call leaves objects for elements of the vector only, and if the call reallocated the buffer there are none: no
object refers to memory that is not the vector's. -/
theorem C73_objects_partial (hsz : e.size < HALF) {st : Bool} {c : Cont} (hcl : Clean st e c) {xs : List (List AV)} (hv : Holds env e c.v xs)
    (o : Op) (ho : OkOp env st e o) (hr : InRange e c) {rep : Rep} {c' : Cont} (h : step env e c o = .ok rep c') :
    InRange e c' ∧ (c'.gen ≠ c.gen → c'.objs = []) := by
  have hsame : InRange e c ∧ (c.gen ≠ c.gen → c.objs = []) := ⟨hr, fun h => absurd rfl h⟩
  cases o with
  | size => cases h; exact hsame
  | empty => cases h; exact hsame
  | get i =>
    simp only [step, doGet] at h
    split at h
    · cases h; exact hsame
    · split at h
      · cases h
      · cases h; exact hsame
  | rawGet i =>
    simp only [step, doRawGet] at h
    split at h
    · cases h; exact hsame
    · rename_i hout
      split at h
      · cases h
      · cases h
        refine ⟨fun j hj => ?_, fun h => absurd rfl h⟩
        simp only [outside, Bool.or_eq_true, decide_eq_true_eq] at hout
        rcases List.mem_cons.mp hj with hj | hj
        · subst hj
          show ((i.toNat : Nat) : Int) < rbSize e c.v
          omega
        · exact hr j hj
  | slice i n =>
    simp only [step, doSlice] at h
    split at h
    · cases h; exact hsame
    · split at h
      · cases h; exact hsame
      · split at h
        · cases h
          refine ⟨fun j hj => ?_, fun h => absurd rfl h⟩
          rcases List.mem_append.mp hj with hj | hj
          · obtain ⟨k, hk1, hk2⟩ := List.mem_map.mp hj
            have hk1 := List.mem_range.mp hk1
            subst hk2
            show ((i.toNat + k : Nat) : Int) < rbSize e c.v
            omega
          · exact hr j hj
        · cases h
        · cases h
        · cases h
  | each =>
    simp only [step, doEach] at h
    split at h
    · cases h
    · cases h; exact hsame
  | set i a =>
    obtain ⟨ys, r, c2, zs, h1, h2, h3, h4⟩ := C73_call_partial he hbig hsz hcl hv (.set i a) ho
    rcases h4 with ⟨_, rep2, h5, _⟩ | ⟨_, h5⟩
    · rw [h] at h5
      cases h5
      have hlen : ys.length = xs.length := by cases h1 <;> simp
      have hsz2 : rbSize e c'.v = rbSize e c.v := by
        rw [size_eq he hbig h2, size_eq he hbig hv, h3.length, hlen]
      refine withArgs_objs (P := fun c' => rbSize e c'.v = rbSize e c.v → InRange e c' ∧ (c'.gen ≠ c.gen → c'.objs = [])) h
        (fun _ => hsame) (fun s _ h6 hs => ?_) hsz2
      obtain ⟨g1, g2⟩ := doSet_objs h6
      exact ⟨fun j hj => by rw [hs]; exact hr j (by rw [← g1]; exact hj), fun h => absurd g2 h⟩
    · rw [h] at h5; cases h5
  | concat as =>
    refine withArgs_objs (P := fun c' => InRange e c' ∧ (c'.gen ≠ c.gen → c'.objs = [])) h hsame (fun ss _ h6 => ?_)
    exact settled_step hr h6 (fun c1 h1 => concat_objs h1)
  | erase a =>
    refine withArgs_objs (P := fun c' => InRange e c' ∧ (c'.gen ≠ c.gen → c'.objs = [])) h hsame (fun ss _ h6 => ?_)
    exact settled_step hr h6 (fun c1 h1 => doErase_objs h1)
  | deleteIf p =>
    refine settled_step hr h (fun c1 h1 => ?_)
    generalize vecDeleteIf env (elemOps env e) e p c.v = y at h1
    cases y <;> cases h1 <;> rfl
  | clear =>
    simp only [step] at h
    generalize vecClear env (elemOps env e) e c.v = y at h
    cases y <;> cases h
    exact ⟨fun i hi => by simp at hi, fun _ => rfl⟩

/-- **C73, objects, histories**: after any sequence of calls on a vector without objects, objects exist for elements of the vector only. -/
theorem C73_objects_history_partial (hsz : e.size < HALF) {st : Bool} : ∀ (os : List Op) {c : Cont} {xs : List (List AV)}, Clean st e c →
    Holds env e c.v xs → (∀ o ∈ os, OkOp env st e o) → InRange e c → ∀ {reps c'}, runAll env e os c = .ok reps c' → InRange e c'
  | [], c, xs, _, _, _, hr, _, _, h => by cases h; exact hr
  | o :: os, c, xs, hcl, hv, hok, hr, reps, c', h => by
    obtain ⟨ys, r, c1, zs, h1, h2, h3, h4⟩ := C73_call_partial he hbig hsz hcl hv o (hok o (by simp))
    rcases h4 with ⟨h4, rep, h5, h6, h7⟩ | ⟨h4, h5⟩
    · have hr1 := (C73_objects_partial he hbig hsz hcl hv o (hok o (by simp)) hr h5).1
      simp only [runAll, h5, Out.bind] at h
      cases h8 : runAll env e os c1 with
      | ok rs c2 =>
        rw [h8] at h
        cases h
        exact C73_objects_history_partial hsz os h7 h2 (fun o' ho' => hok o' (by simp [ho'])) hr1 h8
      | exn er c2 => rw [h8] at h; cases h
      | ub => rw [h8] at h; cases h
      | fuel => rw [h8] at h; cases h
    · simp only [runAll, h5, Out.bind] at h; cases h

end
end Verif.Container
