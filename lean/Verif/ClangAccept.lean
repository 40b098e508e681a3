import Verif.ClangTotal

/-!
Property C66: what the importer does not refuse.
-/

namespace Verif.Clang
open Verif Verif.Names Verif.Graph Verif.Registry Verif.TypeBuilder Verif.Merge Verif.CompoundModel

variable {key : Char → Int} {A : AST}

/-- not a refusal -/
def Acc {α : Type} (r : Res (Option α)) : Prop := r ≠ .ok none

theorem Acc.some {α : Type} (a : α) : Acc (.ok (some a)) := nofun

theorem Acc.then {α β : Type} {x : World × Res α} {f : World → α → World × Res (Option β)}
    (hf : ∀ w' a, x.1 = w' → x.2 = .ok a → Acc (f w' a).2) : Acc (thenW x f).2 := by
  obtain ⟨w', r⟩ := x
  cases r with
  | ok a => exact hf w' a rfl rfl
  | exn e => exact nofun
  | ub => exact nofun
  | fuel => exact nofun

theorem Acc.then' {α β : Type} {x : World × Res (Option α)} {f : World → Option α → World × Res (Option β)} (hx : Acc x.2)
    (hf : ∀ w' a, Acc (f w' (.some a)).2) : Acc (thenW x f).2 := by
  refine Acc.then ?_
  intro w' o _ h
  cases o with
  | none => exact absurd h hx
  | some a => exact hf w' a

/-- what is asked from the recursive calls -/
def RecAcc (A : AST) (rec : World → Str → CT → World × Res (Option TId)) : Prop :=
  ∀ w n ty, Importable A ty → Acc (rec w n ty).2

theorem addArgs_acc {rec : World → Str → CT → World × Res (Option TId)} (hrec : RecAcc A rec) (c : Cont) :
    ∀ (args : List (Str × CT)) (w : World) (acc : List TId), (∀ a ∈ args, detailArg a.1 = false → Importable A a.2) →
    (c = .string → ∀ a ∈ args, detailArg a.1 = false → a.1 = "/char".toList) → Acc (addArgs rec c w args acc).2 := by
  intro args
  induction args with
  | nil => intro w acc _ _; exact .some _
  | cons x args ih =>
    obtain ⟨n, ty⟩ := x
    intro w acc h1 h2
    have h1' := fun a ha => h1 a (List.mem_cons_of_mem _ ha)
    have h2' := fun hc a ha => h2 hc a (List.mem_cons_of_mem _ ha)
    rw [addArgs, argIgnored_eq]
    by_cases hi : detailArg n = true
    · rw [if_pos hi]; exact ih w acc h1' h2'
    · rw [if_neg hi]
      have hi' : detailArg n = false := by simpa using hi
      rw [if_neg (fun h => h.2 (h2 h.1 (n, ty) (List.mem_cons_self ..) hi'))]
      exact Acc.then' (hrec w n ty (h1 (n, ty) (List.mem_cons_self ..) hi')) fun w' t => ih w' _ h1' h2'

theorem checkRegisterContainer_acc {rec : World → Str → CT → World × Res (Option TId)} (hrec : RecAcc A rec) (w : World) (n : Str)
    {r : CRecord} {tn : Str} {args : List (Str × CT)} {c : Cont} (ht : r.tmpl = some (tn, args)) (hc : findContainer tn = some c)
    (h1 : ∀ a ∈ args, detailArg a.1 = false → Importable A a.2)
    (h2 : c = .string → ∀ a ∈ args, detailArg a.1 = false → a.1 = "/char".toList) :
    Acc (checkRegisterContainer key rec w n r).2 := by
  unfold checkRegisterContainer
  simp only [ht, hc]
  refine Acc.then' (addArgs_acc hrec c args w [] h1 h2) ?_
  intro w1 l
  refine Acc.then ?_
  intro w2 t _ _
  split
  · exact Acc.then fun _ _ _ _ => .some _
  · exact .some _

theorem addFields_acc {rec : World → Str → CT → World × Res (Option TId)} (hrec : RecAcc A rec) :
    ∀ (fs : List CField) (w : World) (c : Comp),
    (∀ f ∈ fs, (f.anonymous = false ∧ f.priv = false ∧ f.offset % 8 = 0) ∧ Importable A f.ty) →
    Acc (addFields rec w c fs).2 := by
  intro fs
  induction fs with
  | nil => intro w c _; exact .some _
  | cons f fs ih =>
    intro w c h
    obtain ⟨⟨h1, h2, h3⟩, h4⟩ := h f (List.mem_cons_self ..)
    rw [addFields, if_neg (by simp [h1]), if_neg (by simp [h2])]
    refine Acc.then' (hrec w _ _ h4) ?_
    intro w' t
    simp only [h3, ne_eq, not_true, if_false]
    exact ih w' _ fun f' hf' => h f' (List.mem_cons_of_mem _ hf')

theorem addFields_grow {rec : World → Str → CT → World × Res (Option TId)} : ∀ (fs : List CField) (w : World) (c c' : Comp),
    (addFields rec w c fs).2 = .ok (some c') → (c.fields ≠ [] ∨ fs ≠ []) → c'.fields ≠ [] := by
  intro fs
  induction fs with
  | nil =>
    intro w c c' h hne
    rcases hne with hne | hne
    · simp only [addFields, Res.ok.injEq, Option.some.injEq] at h; rw [← h]; exact hne
    · exact absurd rfl hne
  | cons f fs ih =>
    intro w c c' h _
    rw [addFields] at h
    split at h
    · cases h
    split at h
    · cases h
    generalize rec w f.tyName f.ty = x at h
    obtain ⟨w1, o⟩ := x
    cases o with
    | ok o =>
      cases o with
      | none => cases h
      | some t =>
        simp only [thenW] at h
        split at h
        · cases h
        · refine ih _ _ _ h (Or.inl ?_)
          show c.fields ++ [_] ≠ []
          simp
    | exn e => cases h
    | ub => cases h
    | fuel => cases h

theorem addMembers_grow {rec : World → Str → CT → World × Res (Option TId)} : ∀ (g : Nat) (w : World) (c c' : Comp) (d : Nat),
    (addMembers A rec g w c d).2 = .ok (some c') →
    (c.fields ≠ [] ∨ ∃ d' r', Anc A d d' ∧ A.records[d']? = some r' ∧ r'.fields ≠ []) → c'.fields ≠ [] := by
  intro g
  induction g with
  | zero => intro w c c' d h; cases h
  | succ g ih =>
    intro w c c' d h hne
    rw [addMembers] at h
    cases hr : A.records[d]? with
    | none => rw [hr] at h; cases h
    | some r =>
      rw [hr] at h
      simp only at h
      have hfg := addFields_grow (rec := rec) r.fields w c
      generalize addFields rec w c r.fields = x at h hfg
      obtain ⟨w1, o⟩ := x
      cases o with
      | exn e => cases h
      | ub => cases h
      | fuel => cases h
      | ok o =>
        cases o with
        | none => cases h
        | some c1 =>
          simp only [thenW] at h hfg
          have key2 : ∀ (bs : List CBase) (w : World) (c c' : Comp), (addBases (addMembers A rec g) w c bs).2 = .ok (some c') →
              (c.fields ≠ [] ∨ ∃ b ∈ bs, ∃ d1 d' r', b.decl = some d1 ∧ Anc A d1 d' ∧ A.records[d']? = some r' ∧ r'.fields ≠ []) →
              c'.fields ≠ [] := by
            intro bs
            induction bs with
            | nil =>
              intro w c c' h hne
              simp only [addBases, Res.ok.injEq, Option.some.injEq] at h
              rcases hne with hne | ⟨b, hb, _⟩
              · rw [← h]; exact hne
              · cases hb
            | cons b bs ihb =>
              intro w c c' h hne
              rw [addBases] at h
              cases hd : b.decl with
              | none => rw [hd] at h; cases h
              | some d1 =>
                rw [hd] at h
                simp only at h
                have i2 := ih w c
                cases hm : addMembers A rec g w c d1 with
                | mk w2 o =>
                  rw [hm] at h
                  cases o with
                  | exn e => cases h
                  | ub => cases h
                  | fuel => cases h
                  | ok o =>
                    cases o with
                    | none => cases h
                    | some c2 =>
                      simp only [thenW] at h
                      refine ihb w2 c2 c' h ?_
                      rcases hne with hne | ⟨b', hb', d2, d', r', e1, e2, e3, e4⟩
                      · exact Or.inl (i2 c2 d1 (by rw [hm]) (Or.inl hne))
                      · rcases List.mem_cons.mp hb' with rfl | hb'
                        · rw [hd] at e1
                          injection e1 with e1
                          subst e1
                          exact Or.inl (i2 c2 d1 (by rw [hm]) (Or.inr ⟨d', r', e2, e3, e4⟩))
                        · exact Or.inr ⟨b', hb', d2, d', r', e1, e2, e3, e4⟩
          refine key2 r.bases w1 c1 c' h ?_
          rcases hne with hne | ⟨d', r', e1, e2, e3⟩
          · exact Or.inl (hfg c1 rfl (Or.inl hne))
          · cases e1 with
            | refl =>
              rw [hr] at e2
              injection e2 with e2
              subst e2
              exact Or.inl (hfg c1 rfl (Or.inr e3))
            | step k1 k2 k3 k4 =>
              rw [hr] at k1
              injection k1 with k1
              subst k1
              exact Or.inr ⟨_, k2, _, d', r', k3, k4, e2, e3⟩

theorem addMembers_acc {rec : World → Str → CT → World × Res (Option TId)} (hrec : RecAcc A rec) :
    ∀ (g : Nat) (w : World) (c : Comp) (d : Nat),
    (∀ d' r', Anc A d d' → A.records[d']? = some r' → ∀ f ∈ r'.fields,
      (f.anonymous = false ∧ f.priv = false ∧ f.offset % 8 = 0) ∧ Importable A f.ty) →
    Acc (addMembers A rec g w c d).2 := by
  intro g
  induction g with
  | zero => intro w c d _; exact nofun
  | succ g ih =>
    intro w c d h
    rw [addMembers]
    cases hr : A.records[d]? with
    | none => exact nofun
    | some r =>
      simp only
      refine Acc.then' (addFields_acc hrec r.fields w c (h d r (.refl d) hr)) ?_
      intro w1 c1
      have key2 : ∀ (bs : List CBase) (w : World) (c : Comp), (∀ b ∈ bs, b ∈ r.bases) →
          Acc (addBases (addMembers A rec g) w c bs).2 := by
        intro bs
        induction bs with
        | nil => intro w c _; exact .some _
        | cons b bs ihb =>
          intro w c hs
          rw [addBases]
          cases hd : b.decl with
          | none => exact nofun
          | some d1 =>
            simp only
            refine Acc.then' (ih w c d1 ?_) fun w' c' => ihb w' c' fun b' hb' => hs b' (List.mem_cons_of_mem _ hb')
            intro d' r' ha
            exact h d' r' (.step hr (hs b (List.mem_cons_self ..)) hd ha)
      exact key2 r.bases w1 c1 fun _ h => h

theorem registerBases_true {rec : World → Str → CT → World × Res (Option TId)} : ∀ (bs : List CBase) (w : World),
    (∀ b ∈ bs, b.priv = false) → (registerBases rec w bs).2 ≠ .ok false := by
  intro bs
  induction bs with
  | nil => intro w _; exact nofun
  | cons b bs ih =>
    intro w h
    have h' := fun b' hb' => h b' (List.mem_cons_of_mem _ hb')
    rw [registerBases]
    cases b.decl with
    | none => exact ih w h'
    | some d =>
      simp only [h b (List.mem_cons_self ..), Bool.false_eq_true, if_false]
      cases hx : rec w b.name b.ty with
      | mk w1 o =>
        cases o with
        | ok o => exact ih w1 h'
        | exn e => exact nofun
        | ub => exact nofun
        | fuel => exact nofun

theorem registerType_acc : ∀ f, RecAcc A (registerType key A f) := by
  intro f
  induction f with
  | zero => intro w n ty _; exact nofun
  | succ f ih =>
    intro w n ty hi
    rw [registerType.eq_def]
    simp only
    cases hget : w.2.get n with
    | some t => exact .some _
    | none =>
      simp only
      have hcont : ∀ d r tn args c, A.records[d]? = some r → r.usable → r.tmpl = some (tn, args) → findContainer tn = some c →
          (∀ a ∈ args, detailArg a.1 = false → Importable A a.2) →
          (c = .string → ∀ a ∈ args, detailArg a.1 = false → a.1 = "/char".toList) →
          Acc (addRecord key A (registerType key A f) f w n (some d)).2 := by
        intro d r tn args c hr hu ht hc h1 h2
        unfold addRecord
        simp only [hget, hr, hu.1, hu.2.1, hu.2.2, Bool.not_true, Bool.or_false, Bool.false_eq_true, if_false]
        exact Acc.then' (checkRegisterContainer_acc ih w n ht hc h1 h2) fun _ _ => .some _
      cases hi with
      | @builtin bits k h8 hk =>
        unfold registerBuiltIn
        simp only [hget, h8, ne_eq, not_true, if_false]
        cases hd : numDef n bits k with
        | none =>
          cases k with
          | other => exact absurd rfl hk
          | float => cases hd
          | sint => cases hd
          | uint => cases hd
        | some d =>
          simp only
          cases w.2.get d.name with
          | none => exact Acc.then fun _ _ _ _ => Acc.then fun _ _ _ _ => .some _
          | some t => exact Acc.then fun _ _ _ _ => .some _
      | @enum d r hr h1 h2 =>
        simp only [addEnum, hr, h1, h2, Bool.not_true, Bool.or_false, Bool.false_eq_true, if_false]
        cases addSyms r.width ⟨-1, []⟩ r.syms with
        | ok e => exact Acc.then fun _ _ _ _ => .some _
        | exn e => exact nofun
        | ub => exact nofun
        | fuel => exact nofun
      | @arr en e k h1 h2 =>
        simp only [addArray, h1, Bool.false_eq_true, if_false]
        exact Acc.then' (ih w en e h2) fun _ _ => Acc.then fun _ _ _ _ => .some _
      | @typedef d td h1 h2 =>
        simp only [registerTypedef, h1]
        split
        · exact nofun
        · exact Acc.then' (ih w _ _ h2) fun _ _ => Acc.then fun _ _ _ _ => .some _
      | elaborated h => exact ih w n _ h
      | @vector d r tn args hr hu ht hc h1 => exact hcont d r tn args .vector hr hu ht hc h1 (fun h => by cases h)
      | @string d r tn args hr hu ht hc h2 h1 => exact hcont d r tn args .string hr hu ht hc h1 (fun _ => h2)
      | @record d r hr hu hd hp hne hb hf1 hf2 =>
        simp only [addRecord, hget, hr, hu.1, hu.2.1, hu.2.2, Bool.not_true, Bool.or_false, Bool.false_eq_true, if_false]
        refine Acc.then ?_
        intro w1 o _ _
        cases o with
        | some t => exact .some _
        | none =>
          simp only [hd, hp, Bool.not_true, Bool.or_false, Bool.false_eq_true, if_false]
          have hm := addMembers_grow (A := A) (rec := registerType key A f) f w1 (Comp.new.setSize r.size)
          have ha := addMembers_acc ih f w1 (Comp.new.setSize r.size) d
            (fun d' r' h1 h2 f' hf' => ⟨hf1 d' r' h1 h2 f' hf', hf2 d' r' h1 h2 f' hf'⟩)
          refine Acc.then ?_
          intro w2 o _ ho
          cases o with
          | none => exact absurd ho ha
          | some c =>
            have hce := hm c d ho (Or.inr hne)
            simp only
            rw [if_neg (by simpa using hce)]
            have hbt := registerBases_true (rec := registerType key A f) r.bases w2 hb
            refine Acc.then ?_
            intro w3 b _ hb3
            cases b with
            | false => exact absurd hb3 hbt
            | true => exact Acc.then fun _ _ _ _ => .some _

end Verif.Clang
