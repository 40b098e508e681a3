import Verif.ClangAccept

/-!
Property C66: the theorems.
-/

namespace Verif.Clang
open Verif Verif.Names Verif.Graph Verif.Registry Verif.TypeBuilder Verif.Merge Verif.CompoundModel

variable {key : Char → Int} {A : AST} {den : Str → Option CCT}

/-- the registry the importer starts with (`Registry registry`, TypelibBuilder.hpp; plugins add nothing when they are not
loaded) -/
def emptyWorld : World := (⟨0, fun _ => ⟨[], 0, .null⟩⟩, Reg.empty)

theorem good_empty : Good key A den emptyWorld := by
  have hac : Acyclic emptyWorld.1 := by intro u x h; cases h
  have hr : ∀ n t, emptyWorld.2.reg n = some t → False := by
    intro n t h
    cases h
  exact ⟨inv_empty, hac, fun u hu => absurd hu (Nat.not_lt_zero _), fun n t c h => (hr n t h).elim,
    fun n t c h => (hr n t h).elim, fun t h => (hr _ t h).elim⟩

/-- the name that a declaration gives to a type, and this type -/
inductive Declares (A : AST) : Decl → Str → CT → Prop
  | type (name : Str) (ty : CT) : Declares A (.type name (some ty) false false false false) name ty
  | typedef {d : Nat} {td : CTypedef} : A.typedefs[d]? = some td → Declares A (.typedef d) td.name td.ty

theorem registerDecl_post (hk : ∀ a b, key a = key b → a = b) (hN : Names A den) (hS : Supported A) (f : Nat) {w : World}
    (hg : Good key A den w) {d : Decl} (hd : d.In A den) :
    Post key A den w (registerDecl key A f w d) (fun w' o => ∀ n ty, Declares A d n ty → Spelled A → o ≠ none →
      ∃ t, w'.2.reg n = some t) := by
  have hrec := registerType_post (key := key) (A := A) hk hN hS f
  have hnone : ∀ {d : Decl}, Post key A den w (w, .ok none) (fun w' (o : Option TId) => ∀ n ty, Declares A d n ty → Spelled A → o ≠ none →
      ∃ t, w'.2.reg n = some t) := by
    intro d
    refine Post.ret hg ?_
    intro a ha n ty _ _ hne
    injection ha with ha
    exact absurd ha.symm hne
  cases d with
  | type name ty injected inFunction hidden anonNs =>
    rw [registerDecl.eq_def]
    simp only
    split
    · exact hnone
    cases ty with
    | none => exact hnone
    | some ty =>
      simp only
      split
      · exact hnone
      refine Post.mono (hrec w name ty hg (hd ty rfl)) ?_
      intro w' o g' _ hgot n ty' hdec hsp hne
      cases hdec with
      | type =>
        cases o with
        | none => exact absurd rfl hne
        | some t =>
          obtain ⟨_, ⟨h2, _⟩, _⟩ := hgot t rfl
          cases hr : w'.2.reg name with
          | none => exact absurd hr (h2 hsp)
          | some t' => exact ⟨t', rfl⟩
  | typedef i =>
    rw [registerDecl]
    refine Post.mono (registerTypedef_post hk hN hrec hg i) ?_
    intro w' o g' _ hgot n ty' hdec hsp hne
    cases hdec with
    | @typedef _ td h1 =>
      cases o with
      | none => exact absurd rfl hne
      | some t =>
        obtain ⟨_, h2, _⟩ := hgot t td rfl h1
        cases hr : w'.2.reg td.name with
        | none => exact absurd hr h2
        | some t' => exact ⟨t', rfl⟩
  | «opaque» name canon =>
    rw [registerDecl]
    obtain ⟨h1, h2⟩ := hd
    cases hget : w.2.get name with
    | none => exact hnone
    | some t =>
      cases canon with
      | none =>
        refine Post.ret hg ?_
        intro a _ n ty hdec
        cases hdec
      | some c =>
        simp only
        obtain ⟨h3, h4⟩ := h2 c rfl
        refine Post.then (aliasW_post hk hN hg h1 h3 (fun c' hc' => Or.inl (by rw [← h4]; exact hc'))) ?_
        intro w2 _ g2 _ _
        refine Post.ret g2 ?_
        intro a _ n ty hdec
        cases hdec

theorem importDecls_post (hk : ∀ a b, key a = key b → a = b) (hN : Names A den) (hS : Supported A) (f : Nat) :
    ∀ (ds : List Decl) (w : World), Good key A den w → (∀ d ∈ ds, d.In A den) →
    Post key A den w (importDecls key A f w ds) (fun _ _ => True) := by
  intro ds
  induction ds with
  | nil => intro w hg _; exact Post.ret hg fun _ _ => trivial
  | cons d ds ih =>
    intro w hg h
    rw [importDecls]
    exact Post.then (registerDecl_post hk hN hS f hg (h d (List.mem_cons_self ..)))
      fun w1 _ g1 _ _ => ih w1 g1 fun d' hd' => h d' (List.mem_cons_of_mem _ hd')

theorem registerDecl_acc (f : Nat) (w : World) {d : Decl} {n : Str} {ty : CT} (hd : Declares A d n ty) (hi : Importable A ty) :
    Acc (registerDecl key A f w d).2 := by
  cases hd with
  | type =>
    simp only [registerDecl, Bool.false_eq_true, if_false, Bool.or_false]
    exact registerType_acc f w n ty hi
  | @typedef d td h1 =>
    simp only [registerDecl, registerTypedef, h1]
    split
    · exact nofun
    · exact Acc.then' (registerType_acc f w _ _ hi) fun _ _ => Acc.then fun _ _ _ _ => .some _

/-- C66: import of any list of declarations in an empty registry: whether the import ends normally, by an exception or never
(`f` bounds the depth of the recursion; what is registered at this point is right too), all the types that are registered
under the name of a C++ type describe this C++ type, and have its size; none of the types made is opaque. -/
theorem C66_import_partial (hk : ∀ a b, key a = key b → a = b) (hN : Names A den) (hS : Supported A) (f : Nat) (ds : List Decl)
    (hd : ∀ d ∈ ds, d.In A den) :
    let w := (importDecls key A f emptyWorld ds).1
    (∀ t, t < w.1.next → w.1.kind t ≠ .opaque) ∧
    ∀ n t c, w.2.reg n = some t → den n = some c →
      Faithful A w.1 c t ∧ (sizeof A c < W → w.1.size t = sizeof A c) := by
  intro w
  obtain ⟨g, x, _⟩ := importDecls_post (key := key) hk hN hS f ds emptyWorld good_empty hd
  refine ⟨fun t ht => x.fresh t (Nat.zero_le _) ht, ?_⟩
  intro n t c hr hc
  have hf := g.honest n t c hr hc
  exact ⟨hf, hf.size_eq hS g.clo (fun t ht => x.fresh t (Nat.zero_le _) ht) (g.inv.reg_name hr).2.2.2⟩

/-- C66: import in a registry that has types already (for instance the opaque types loaded first) and describes the program:
what is there is not changed, and what is added describes the program. -/
theorem C66_import_more_partial (hk : ∀ a b, key a = key b → a = b) (hN : Names A den) (hS : Supported A) (f : Nat) {w : World}
    (hg : Good key A den w) (ds : List Decl) (hd : ∀ d ∈ ds, d.In A den) :
    let w' := (importDecls key A f w ds).1
    (∀ n t, w.2.reg n = some t → w'.2.reg n = some t ∧ w'.1.get t = w.1.get t) ∧
    (∀ n t c, w'.2.reg n = some t → den n = some c → Faithful A w'.1 c t) ∧ Good key A den w' := by
  intro w'
  obtain ⟨g, x, _⟩ := importDecls_post (key := key) hk hN hS f ds w hg hd
  exact ⟨fun n t h => ⟨x.names n t h, x.objects t (hg.inv.reg_name h).2.2.2⟩, g.honest, g⟩

/-- C66: after an import that ends normally, all the types that were declared and can be described are registered, under the
name they were declared with. -/
theorem C66_complete_partial (hk : ∀ a b, key a = key b → a = b) (hN : Names A den) (hS : Supported A) (hsp : Spelled A) (f : Nat)
    {w : World} (hg : Good key A den w) (ds : List Decl) (hd : ∀ d ∈ ds, d.In A den)
    (hok : (importDecls key A f w ds).2 = .ok ()) {d : Decl} (hin : d ∈ ds) {n : Str} {ty : CT} (hdec : Declares A d n ty)
    (hi : Importable A ty) : ∃ t, (importDecls key A f w ds).1.2.reg n = some t := by
  induction ds generalizing w with
  | nil => cases hin
  | cons d0 ds ih =>
    rw [importDecls] at hok ⊢
    have hp := registerDecl_post (key := key) hk hN hS f hg (hd d0 (List.mem_cons_self ..))
    have hacc : ∀ w : World, d0 = d → Acc (registerDecl key A f w d0).2 := fun w h => by rw [h]; exact registerDecl_acc f w hdec hi
    have ha := hacc w
    generalize registerDecl key A f w d0 = x at hok hp ha
    obtain ⟨w1, o⟩ := x
    obtain ⟨g1, x1, p1⟩ := hp
    have hd' := fun d' hd'' => hd d' (List.mem_cons_of_mem _ hd'')
    cases o with
    | exn e => cases hok
    | ub => cases hok
    | fuel => cases hok
    | ok o =>
      simp only [thenW] at hok ⊢
      rcases List.mem_cons.mp hin with h | h
      · obtain ⟨t, ht⟩ := p1 o rfl n ty (by rw [← h]; exact hdec) hsp (fun he => ha h.symm (by rw [he]))
        exact ⟨t, (importDecls_post (key := key) hk hN hS f ds w1 g1 hd').2.1.names n t ht⟩
      · exact ih g1 hd' hok h

theorem registerDecl_ends (hk : ∀ a b, key a = key b → a = b) (hN : Names A den) (hS : Supported A) (hB : BasesKnown A)
    {rk : CT → Nat} (hR : Ranked A rk) : ∀ (d : Decl), d.In A den → (∀ i, d = .typedef i → i < A.typedefs.length) →
    ∃ f0, ∀ f, f0 ≤ f → ∀ w, Good key A den w → Ends (registerDecl key A f w d).2 := by
  intro d hd hi
  cases d with
  | type name ty injected inFunction hidden anonNs =>
    cases ty with
    | none =>
      refine ⟨0, fun f _ w hg => ?_⟩
      rw [registerDecl]
      split <;> exact .ok _
    | some ty =>
      refine ⟨rk ty + 2, fun f hf w hg => ?_⟩
      rw [registerDecl]
      split
      · exact .ok _
      split
      · exact .ok _
      · exact registerType_ends hk hN hS hB hR f name ty (hd ty rfl) (by omega) w hg
  | typedef i =>
    have hlt := hi i rfl
    have htd : A.typedefs[i]? = some A.typedefs[i] := List.getElem?_eq_getElem hlt
    refine ⟨rk A.typedefs[i].ty + 2, fun f hf w hg => ?_⟩
    rw [registerDecl]
    exact registerTypedef_ends hk hN (registerType_post hk hN hS f) hg htd
      (registerType_ends hk hN hS hB hR f _ _ (.typedef (List.mem_of_getElem? htd)) (by omega))
  | «opaque» name canon =>
    refine ⟨0, fun f _ w hg => ?_⟩
    rw [registerDecl]
    obtain ⟨h1, h2⟩ := hd
    cases hget : w.2.get name with
    | none => exact .ok _
    | some t =>
      cases canon with
      | none => exact .ok _
      | some c =>
        obtain ⟨h3, _⟩ := h2 c rfl
        exact Ends.map (aliasW_ends hk hg h1 h3) fun _ _ => .ok _

/-- C66: when the types of the program are not nested in themselves, the import ends, normally or by an exception, and
follows no null pointer. -/
theorem C66_ends_partial (hk : ∀ a b, key a = key b → a = b) (hN : Names A den) (hS : Supported A) (hB : BasesKnown A)
    {rk : CT → Nat} (hR : Ranked A rk) (ds : List Decl) (hd : ∀ d ∈ ds, d.In A den)
    (hi : ∀ i, Decl.typedef i ∈ ds → i < A.typedefs.length) :
    ∃ f0, ∀ f, f0 ≤ f → ∀ w, Good key A den w →
      (importDecls key A f w ds).2 = .ok () ∨ ∃ e, (importDecls key A f w ds).2 = .exn e := by
  have main : ∃ f0, ∀ f, f0 ≤ f → ∀ w, Good key A den w → Ends (importDecls key A f w ds).2 := by
    induction ds with
    | nil => exact ⟨0, fun f _ w _ => .ok _⟩
    | cons d ds ih =>
      obtain ⟨f1, h1⟩ := registerDecl_ends (key := key) hk hN hS hB hR d (hd d (List.mem_cons_self ..))
        (fun i h => hi i (by rw [h]; exact List.mem_cons_self ..))
      obtain ⟨f2, h2⟩ := ih (fun d' hd' => hd d' (List.mem_cons_of_mem _ hd')) (fun i h => hi i (List.mem_cons_of_mem _ h))
      refine ⟨max f1 f2, fun f hf w hg => ?_⟩
      rw [importDecls]
      exact Ends.then (registerDecl_post hk hN hS f hg (hd d (List.mem_cons_self ..))) (h1 f (by omega) w hg)
        fun w1 _ g1 _ => h2 f (by omega) w1 g1
  obtain ⟨f0, h⟩ := main
  refine ⟨f0, fun f hf w hg => ?_⟩
  have h' := h f hf w hg
  cases hr : (importDecls key A f w ds).2 with
  | ok a => exact Or.inl rfl
  | exn e => exact Or.inr ⟨e, rfl⟩
  | ub => exact absurd hr h'.2
  | fuel => exact absurd hr h'.1

/-- a declaration the importer has to look at: not the name of a class inside itself, not inside a function, not hidden and not
in an anonymous namespace -/
def Decl.visible : Decl → Bool
  | .type _ ty injected inFunction hidden anonNs => ty.isSome && !injected && !inFunction && !hidden && !anonNs
  | _ => true

/-- C66: the declarations that are not visible outside of their file make no difference: the import registers the same types,
and ends the same way, as if they had not been there. -/
theorem C66_hidden (key : Char → Int) (A : AST) (f : Nat) (w : World) (ds : List Decl) :
    importDecls key A f w ds = importDecls key A f w (ds.filter Decl.visible) := by
  induction ds generalizing w with
  | nil => rfl
  | cons d ds ih =>
    rw [List.filter_cons]
    split
    next hv =>
      rw [importDecls, importDecls]
      generalize registerDecl key A f w d = x
      obtain ⟨w1, o⟩ := x
      cases o <;> simp only [thenW]
      exact ih w1
    next hv =>
      rw [importDecls, ← ih w]
      cases d with
      | type name ty injected inFunction hidden anonNs =>
        have hr : registerDecl key A f w (.type name ty injected inFunction hidden anonNs) = (w, .ok none) := by
          rw [registerDecl.eq_def]
          cases ty with
          | none => simp
          | some ty =>
            cases injected <;> cases inFunction <;> cases hidden <;> cases anonNs <;> simp [Decl.visible] at hv ⊢
        rw [hr]
        rfl
      | typedef d => exact absurd rfl hv
      | «opaque» n c => exact absurd rfl hv

/-- C66, the containers: `std::vector` and `std::basic_string`, also in the inline namespaces of the standard libraries -/
theorem C66_container_names :
    findContainer "/std/vector".toList = some .vector ∧ findContainer "/std/__1/vector".toList = some .vector ∧
    findContainer "/std/basic_string".toList = some .string ∧ findContainer "/std/string".toList = some .string ∧
    findContainer "/std/map".toList = none ∧ findContainer "/my/vector".toList = none := by
  decide +kernel

end Verif.Clang
