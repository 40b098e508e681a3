import Verif.GccxmlRecord

/-!
Property C71: the theorems.
-/

namespace Verif.Gccxml
open Verif Verif.Names Verif.Graph Verif.Registry Verif.TypeBuilder Verif.Merge Verif.RubyBuilder Verif.CompoundModel Verif.RubyNames
open Verif.Clang (kind_new size_new name_new abs_app)
open Verif.RubyConvert (num2int)

variable {key : Char → Int} {P : Prog} {S : Sem} {K : Str → Prop}

section
variable {rec : St → Nat → St × Res (Option Str)}

theorem createVector_post (hk : ∀ a b, key a = key b → a = b) (hM : Meaning P S) {s : St} (hg : SGood key P S K s) {a : Str}
    (ha : isAbsoluteName a = true) {c : CCT} (hc : S.den a = some c) :
    PostS key P S K s (createVector key s a) (fun s' t => Is P S (.vec c) s'.w t) := by
  unfold createVector
  refine (buildS_post hk hM hg ha).then ?_
  rintro s1 e g1 e1 ⟨c', hc', he⟩
  rw [hc] at hc'
  injection hc' with hc'
  subst hc'
  have h := vector_post hk hM g1.good he
  generalize Clang.onM (vectorFactory key ⟨s1.w.1, s1.w.2, []⟩ e) = o at h
  obtain ⟨w, r⟩ := o
  obtain ⟨h1, h2, h3⟩ := h
  cases r with
  | ok t =>
    refine ⟨g1.world h1 h2, h2, fun x hx => ?_⟩
    simp only [Res.ok.injEq] at hx
    rw [← hx]
    exact ⟨keep_world h2, h3 t rfl⟩
  | exn e => exact ⟨g1.world h1 h2, h2, fun x hx => by cases hx⟩
  | ub => exact ⟨g1.world h1 h2, h2, fun x hx => by cases hx⟩
  | fuel => exact ⟨g1.world h1 h2, h2, fun x hx => by cases hx⟩

theorem has_get (R : Reg) (n : Str) : R.has n = (R.get n).isSome := by
  unfold Reg.has Reg.get
  rw [Option.isSome_map]

theorem resolveElem_post (hr : RecOk key P S K rec) {s : St} (hg : SGood key P S K s) (a : Str) :
    PostS key P S K s (resolveElem P rec s a) (fun _ b => b = false → ∃ j, P.find a = some j ∧ Gone P S K j) := by
  unfold resolveElem
  split
  · exact .ok hg (fun h => by cases h)
  · cases hf : P.find a with
    | none => exact .exn hg
    | some j =>
      simp only
      split
      next hi => exact .ok hg (fun _ => ⟨j, rfl, hg.gone (hg.ign j hi)⟩)
      · refine (hr s j hg).then fun s' o g' _ hn => .ok g' fun h => ⟨j, rfl, g'.gone (hn.2 ?_)⟩
        cases o with
        | none => rfl
        | some _ => cases h

theorem resolveVector_post (hk : ∀ a b, key a = key b → a = b) (hM : Meaning P S) (hr : RecOk key P S K rec) {s : St}
    (hg : SGood key P S K s) {i : Nat} {r : GRecord} (hi : P.nodes[i]? = some (.record r)) {name : Str} (hnm : r.name = some name)
    (hun : Unknown P K i) (hv : (parseTemplate name).1 = some stdVector) (h1 : isAbsoluteName name = true) (h3 : S.den name = some (S.ty i)) :
    PostS key P S K s (resolveVector key P rec s i name (parseTemplate name).2) (fun s' o => Resolved P S K i name s' o) := by
  obtain ⟨l, hl⟩ : ∃ l, l = (parseTemplate name).2 := ⟨_, rfl⟩
  have hp : parseTemplate name = (some stdVector, l) := by rw [← hv, hl]
  rw [← hl]
  unfold resolveVector
  cases l with
  | nil => exact .exn hg
  | cons a l =>
    obtain ⟨ha, c, hc, hty⟩ := hM.vec i r name a l hi hnm hp
    refine (resolveElem_post hr hg a).then fun s1 b g1 _ hb => ?_
    cases b with
    | false =>
      obtain ⟨j, hj1, hj2⟩ := hb rfl
      have := Refused.elem hi hnm hp hj1 hj2 hun
      exact ignore_post g1 (Or.inl this) (fun _ _ => ⟨Named.none (Or.inl this), fun h => absurd rfl h⟩)
    | true =>
      simp only [Bool.not_true, Bool.false_eq_true, if_false]
      refine (createVector_post hk hM g1 ha hc).then fun s2 t g2 _ ht => ?_
      rw [← hty] at ht
      have ha2 := (g2.good.inv.reg_name ht.1).2.1
      refine PostS.then (aliasIf_post hk hM g2 h1 ha2 h3 ht.2.2) fun s3 _ g3 e3 hr3 => ?_
      have ht3 := ht.ext g2.good e3.ext
      have hreg : s3.w.2.reg name ≠ none := hr3 (by rw [ht.1]; simp)
      have hdone : Done P S K s3 i := Or.inr fun nd m k1 k2 => by
        rw [hi] at k1
        injection k1 with k1
        rw [← k1] at k2
        have k2 : r.name = some m := k2
        rw [hnm] at k2
        injection k2 with k2
        rw [← k2]
        exact hreg
      have ha3 := (g3.good.inv.reg_name ht3.1).2.1
      exact ⟨g3.setName ha3 ht3.2.2, Ext.refl _, fun x hx => by
        simp only [Res.ok.injEq] at hx
        rw [← hx]
        exact ⟨keep_setName hdone, Named.some ha3 ht3.2.2, fun _ => hreg⟩⟩

theorem resolveKind_post (hk : ∀ a b, key a = key b → a = b) (hM : Meaning P S) (hU : Supported P S) (hr : RecOk key P S K rec) {s : St}
    (hg : SGood key P S K s) {i : Nat} {nd : Node} (hi : P.nodes[i]? = some nd) (hpub : nd.pub = true)
    (hp1 : ∀ j, nd ≠ .ptr j) (hp2 : ∀ j m, nd ≠ .arr j m) (hp3 : ∀ j c v, nd ≠ .cv j c v) {name nn : Str} (hnm : nd.name = some name)
    (hun : Unknown P K i) (hns : ¬ StringClass P name) (h2 : isAbsoluteName nn = true) (h4 : S.den nn = some (S.ty i)) :
    PostS key P S K s (resolveKind key P rec s i nd name nn) (fun s' o => Resolved P S K i name s' o) := by
  obtain ⟨h1, h3⟩ := hM.named i nd name hi hnm
  cases nd with
  | record r =>
    simp only [resolveKind]
    split
    next h => exact absurd (Or.inl (hU.strings r name (List.mem_of_getElem? hi) hnm h)) hns
    · split
      next hv => exact resolveVector_post hk hM hr hg hi hnm hun hv h1 h3
      next hv =>
        have hty := hM.record i r hi (fun n hn => by
          have hn' : r.name = some name := hnm
          rw [hn'] at hn
          injection hn with hn
          rw [← hn]
          exact ⟨hv, hns⟩)
        have hnn : r.name ≠ none := by
          have hn' : r.name = some name := hnm
          rw [hn']; simp
        exact resolveRecord_post hk hM hU hr hg hi hty hun hpub hnn h1 h2 h3 h4
  | fund n bits k =>
    have hn' : n = name := by injection hnm
    subst hn'
    simp only [resolveKind]
    split
    next h =>
      refine .ok hg ⟨Named.some h2 h4, fun _ => ?_⟩
      rw [has_get, hg.good.inv.abs _ h1] at h
      intro hc
      rw [hc] at h
      cases h
    next h =>
      have : Refused P S K i := .unknown hi (fun hkn => h (by
        have := hg.known n hkn
        rw [has_get, hg.good.inv.abs _ h1]
        cases hc : s.w.2.reg n with
        | none => exact absurd hc this
        | some _ => rfl))
      exact ignore_post hg (Or.inl this) (fun _ _ => ⟨Named.none (Or.inl this), fun h => absurd rfl h⟩)
  | typedef m p j =>
    exact resolveTypedef_post hk hM hr hg hi hun (fun x hx => by
      have hn' : m = some name := hnm
      rw [hx] at hn'; injection hn') h1 h2 h3 h4
  | enum m p bits syms =>
    have hp : p = true := hpub
    subst hp
    exact resolveEnum_post hk hM hU hg hi h1 h2 h3 h4
  | ptr j => exact absurd rfl (hp1 j)
  | arr j m => exact absurd rfl (hp2 j m)
  | cv j c v => exact absurd rfl (hp3 j c v)
  | other m =>
    have : Refused P S K i := .other hi hun
    exact ignore_post hg (Or.inl this) (fun _ _ => ⟨Named.none (Or.inl this), fun h => absurd rfl h⟩)

theorem resolveNamed_post (hk : ∀ a b, key a = key b → a = b) (hM : Meaning P S) (hU : Supported P S) (hr : RecOk key P S K rec) {s : St}
    (hg : SGood key P S K s) {i : Nat} {nd : Node} (hi : P.nodes[i]? = some nd)
    (hp1 : ∀ j, nd ≠ .ptr j) (hp2 : ∀ j m, nd ≠ .arr j m) (hp3 : ∀ j c v, nd ≠ .cv j c v) :
    PostS key P S K s (resolveNamed key P rec s i nd) (fun s' o => Named P S K i s' o ∧ Done P S K s' i) := by
  unfold resolveNamed
  cases hnm : nd.name with
  | none => exact .ok hg ⟨Named.none (Or.inl (.unnamed hi hnm hp1 hp2 hp3)), Or.inl (.refused (.unnamed hi hnm hp1 hp2 hp3))⟩
  | some name =>
    obtain ⟨h1, h3⟩ := hM.named i nd name hi hnm
    have hreg : ∀ {s' : St}, s'.w.2.reg name ≠ none → Done P S K s' i := fun {s'} h => Or.inr fun nd' m k1 k2 => by
      rw [hi] at k1
      injection k1 with k1
      rw [← k1, hnm] at k2
      injection k2 with k2
      rw [← k2]
      exact h
    simp only
    split
    next hw0 =>
      have hw := (isWorkaround_iff _).mp hw0
      exact .ok hg ⟨Named.none (Or.inl (.workaround hi hnm hw)), Or.inl (.refused (.workaround hi hnm hw))⟩
    · cases hget : s.w.2.get name with
      | some t =>
        rw [hg.good.inv.abs _ h1] at hget
        have ht := is_reg hg.good hget h3
        have ha := (hg.good.inv.reg_name ht.1).2.1
        have hd : Done P S K s i := hreg (by rw [hget]; simp)
        exact ⟨hg.setName ha ht.2.2, Ext.refl _, fun x hx => by
          simp only [Res.ok.injEq] at hx
          rw [← hx]
          exact ⟨keep_setName hd, Named.some ha ht.2.2, hd.ext (Ext.refl _)⟩⟩
      | none =>
        rw [hg.good.inv.abs _ h1] at hget
        have hns : ¬ StringClass P name := fun h => hg.string name h hget
        have hun : Unknown P K i := fun nd' m k1 k2 hk => by
          rw [hi] at k1
          injection k1 with k1
          rw [← k1, hnm] at k2
          injection k2 with k2
          rw [← k2] at hk
          exact hg.known name hk hget
        simp only
        split
        next hpr =>
          have : Refused P S K i := by
            simp only [Bool.and_eq_true, Bool.not_eq_true'] at hpr
            exact .reserved hi hnm ((isPrivateName_iff _).mp hpr.2) hpr.1 hun
          exact ignore_post hg (Or.inl this) (fun _ _ => ⟨Named.none (Or.inl this), Or.inl (.refused this)⟩)
        · refine (normalize_post hk hM hr hg h1 h3).then ?_
          rintro s1 nn g1 e1 ⟨h2, h4⟩
          cases hpub : nd.pub with
          | false =>
            have : Refused P S K i := .hidden hi hpub hun
            exact PostS.ext (keep_setName (Or.inl (.refused this))) (ignore_post (g1.setName h2 h4) (Or.inl this)
              (fun _ _ => ⟨Named.none (Or.inl this), Or.inl (.refused this)⟩))
          | true =>
            simp only [Bool.not_true, Bool.false_eq_true, if_false]
            refine PostS.named ((resolveKind_post hk hM hU hr (g1.setName h2 h4) hi hpub hp1 hp2 hp3 hnm hun hns h2 h4).mono ?_)
            intro s2 o g2 _ hres
            have hd : Done P S K s2 i := by
              cases o with
              | none => exact Or.inl (g2.gone (hres.1.2 rfl))
              | some n => exact hreg (hres.2 (by simp))
            exact ⟨hd, hres.1, hd⟩

end

/-- `resolve_type_definition` -/
theorem resolveDef_post (hk : ∀ a b, key a = key b → a = b) (hM : Meaning P S) (hU : Supported P S) : ∀ (f : Nat) (s : St) (i : Nat),
    SGood key P S K s → PostS key P S K s (resolveDef key P f s i) (fun s' o => Named P S K i s' o ∧ (s.names i = none → Done P S K s' i)) := by
  intro f
  induction f with
  | zero => intro s i hg; exact .fuel hg
  | succ f ih =>
    intro s i hg
    have hr : RecOk key P S K (resolveDef key P f) := fun s i hg => (ih s i hg).mono (fun _ _ _ _ h => h.1)
    rw [resolveDef]
    cases hn : s.names i with
    | some n => exact .ok hg ⟨Named.some (hg.names _ _ hn).1 (hg.names _ _ hn).2, fun h => by cases h⟩
    | none =>
      simp only
      have un : ∀ {nd : Node}, P.nodes[i]? = some nd → nd.name = none → ∀ {s' : St}, Done P S K s' i := fun {nd} h1 h2 {s'} =>
        done_unnamed fun nd' n k1 k2 => by
          rw [h1] at k1
          injection k1 with k1
          rw [← k1, h2] at k2
          cases k2
      cases hi : P.nodes[i]? with
      | none => exact .ok hg ⟨Named.none (Or.inl (.missing hi)), fun _ => Or.inl (.refused (.missing hi))⟩
      | some nd =>
        cases nd with
        | ptr j => exact (resolvePtr_post hk hM hr hg hi).mono (fun _ _ _ _ h => ⟨h, fun _ => un hi rfl⟩)
        | arr j m => exact (resolveArr_post hk hM hr hg hi).mono (fun _ _ _ _ h => ⟨h, fun _ => un hi rfl⟩)
        | cv j c v => exact (resolveCv_post hk hM hr hg hi).mono (fun _ _ _ _ h => ⟨h, fun _ => un hi rfl⟩)
        | fund n b k => exact (resolveNamed_post hk hM hU hr hg hi (by simp) (by simp) (by simp)).mono (fun _ _ _ _ h => ⟨h.1, fun _ => h.2⟩)
        | typedef n p j => exact (resolveNamed_post hk hM hU hr hg hi (by simp) (by simp) (by simp)).mono (fun _ _ _ _ h => ⟨h.1, fun _ => h.2⟩)
        | enum n p b l => exact (resolveNamed_post hk hM hU hr hg hi (by simp) (by simp) (by simp)).mono (fun _ _ _ _ h => ⟨h.1, fun _ => h.2⟩)
        | record r => exact (resolveNamed_post hk hM hU hr hg hi (by simp) (by simp) (by simp)).mono (fun _ _ _ _ h => ⟨h.1, fun _ => h.2⟩)
        | other n => exact (resolveNamed_post hk hM hU hr hg hi (by simp) (by simp) (by simp)).mono (fun _ _ _ _ h => ⟨h.1, fun _ => h.2⟩)

/-- between the types: all that has a name is done -/
def AllDone (P : Prog) (S : Sem) (K : Str → Prop) (s : St) : Prop := ∀ i, s.names i ≠ none → Done P S K s i

theorem AllDone.keep {s s' : St} (h : AllDone P S K s) (hk : Keep P S K s s') : AllDone P S K s' := by
  intro i hi
  rcases hk.done i hi with h' | h'
  · exact (h i h').ext hk.ext
  · exact h'

theorem resolveAll_post (hk : ∀ a b, key a = key b → a = b) (hM : Meaning P S) (hU : Supported P S) (f : Nat) : ∀ (is : List Nat) {s : St},
    SGood key P S K s → AllDone P S K s →
    PostS key P S K s (resolveAll key P f s is) (fun s' _ => ∀ i ∈ is, Done P S K s' i) := by
  intro is
  induction is with
  | nil => intro s hg _; exact .ok hg (fun i h => by cases h)
  | cons i is ih =>
    intro s hg ha
    rw [resolveAll]
    refine (resolveDef_post hk hM hU f s i hg).then fun s1 o g1 e1 h1 => ?_
    have hd : Done P S K s1 i := by
      cases hn : s.names i with
      | none => exact h1.2 hn
      | some n => exact (ha i (by rw [hn]; simp)).ext e1.ext
    refine (ih g1 (ha.keep e1)).mono fun s2 _ _ e2 h2 j hj => ?_
    rcases List.mem_cons.mp hj with rfl | hj
    · exact hd.ext e2.ext
    · exact h2 j hj

/-- the opaque types are names of types that the user wants to be opaque -/
def OpaqueNames (S : Sem) (os : List Str) : Prop := ∀ o ∈ os, isAbsoluteName o = true ∧ ∃ c, S.den o = some c ∧ S.opq c

theorem bind_name {i : Nat} {n : Str} (h : (P.nodes[i]?).bind Node.name = some n) : ∃ nd, P.nodes[i]? = some nd ∧ nd.name = some n := by
  cases hi : P.nodes[i]? with
  | none => rw [hi] at h; cases h
  | some nd => rw [hi] at h; exact ⟨nd, rfl, h⟩

theorem resolveOpaques_post (hk : ∀ a b, key a = key b → a = b) (hM : Meaning P S) (hU : Supported P S) (f : Nat) :
    ∀ (os : List Str) {s : St}, OpaqueNames S os → SGood key P S K s →
    PostS key P S K s (resolveOpaques key P f s os) (fun _ _ => True) := by
  have hr : RecOk key P S K (resolveDef key P f) := fun s i hg => (resolveDef_post hk hM hU f s i hg).mono (fun _ _ _ _ h => h.1)
  intro os
  induction os with
  | nil => intro s _ hg; exact .ok hg trivial
  | cons o os ih =>
    intro s ho hg
    have ho' : OpaqueNames S os := fun x hx => ho x (List.mem_cons_of_mem _ hx)
    obtain ⟨h1, _⟩ := ho o (List.mem_cons_self ..)
    rw [resolveOpaques]
    cases hf : P.findTypedef o with
    | none => exact ih ho' hg
    | some i =>
      simp only
      cases hi : P.nodes[i]? with
      | none => exact .exn hg
      | some nd =>
        cases nd with
        | typedef n p j =>
          simp only
          have hd := hM.typedefs o i n p j hf hi
          cases hb : (P.nodes[j]?).bind Node.name with
          | none => exact .exn hg
          | some full =>
            obtain ⟨nd, hnd, hname⟩ := bind_name hb
            obtain ⟨a1, a2⟩ := hM.named j nd full hnd hname
            refine (normalize_post hk hM hr hg a1 a2).then ?_
            rintro s1 nn g1 _ ⟨b1, b2⟩
            refine (aliasS_post hk hM g1 h1 a1 a2 (fun t ht => den_same g1.good hd ht)).then fun s2 _ g2 _ _ => ?_
            exact (aliasS_post hk hM g2 h1 b1 b2 (fun t ht => den_same g2.good hd ht)).then fun s3 _ g3 _ _ => ih ho' g3
        | _ => exact .exn hg

/-- a part of the importer that keeps the registry right -/
def PostG {α : Type} (key : Char → Int) (P : Prog) (S : Sem) (w : World) (o : St × Res α) (Q : St → Prop) : Prop :=
  Good key P S o.1.w ∧ Ext w o.1.w ∧ ∀ a, o.2 = .ok a → Q o.1

theorem PostG.then {α β : Type} {w : World} {x : St × Res α} {Q Q' : St → Prop} {f : St → α → St × Res β}
    (hx : PostG key P S w x Q) (hf : ∀ s' a, Good key P S s'.w → Ext w s'.w → Q s' → PostG key P S s'.w (f s' a) Q') :
    PostG key P S w (thenS x f) Q' := by
  obtain ⟨s', r⟩ := x
  obtain ⟨h1, h2, h3⟩ := hx
  cases r with
  | ok a =>
    obtain ⟨k1, k2, k3⟩ := hf s' a h1 h2 (h3 a rfl)
    exact ⟨k1, h2.trans k2, k3⟩
  | exn e => exact ⟨h1, h2, fun a ha => by cases ha⟩
  | ub => exact ⟨h1, h2, fun a ha => by cases ha⟩
  | fuel => exact ⟨h1, h2, fun a ha => by cases ha⟩

/-- nothing is resolved yet -/
def Fresh (s : St) : Prop := (∀ i, s.names i = none) ∧ s.ign = [] ∧ s.empty = []

theorem aliasS_fresh (hk : ∀ a b, key a = key b → a = b) (hM : Meaning P S) {s : St} (hg : Good key P S s.w) (hfr : Fresh s)
    {new old : Str} (ho : isAbsoluteName old = true) (habs : isAbsoluteName new = true) {c : CCT} (hn : S.den new = some c)
    (hc : S.den old = some c) :
    PostG key P S s.w (aliasS key s new old) (fun s' => Fresh s' ∧ Ext s.w s'.w ∧ s'.w.2.reg new ≠ none) := by
  obtain ⟨h1, h2, h3⟩ := rbAlias_post hk hM hg ho habs hn (fun t ht => den_same hg hc ht)
  refine ⟨h1, h2, fun a ha => ⟨hfr, h2, ?_⟩⟩
  obtain ⟨_, t, _, ht⟩ := h3 a ha
  show (rbAlias key s.w.1 s.w.2 new old).1.reg new ≠ none
  rw [ht]; simp

theorem resolveStdString_fresh (hk : ∀ a b, key a = key b → a = b) (hM : Meaning P S) {s : St} (hg : Good key P S s.w) (hfr : Fresh s) :
    PostG key P S s.w (resolveStdString key P s) (fun s' => Fresh s' ∧ Ext s.w s'.w ∧
      ∀ n i m p j, P.findTypedef stringName = some i → P.nodes[i]? = some (.typedef m p j) → (P.nodes[j]?).bind Node.name = some n →
        s'.w.2.reg n ≠ none) := by
  unfold resolveStdString
  cases hf : P.findTypedef stringName with
  | none => exact ⟨hg, Ext.refl _, fun a ha => ⟨hfr, Ext.refl _, fun n i m p j h => by cases h⟩⟩
  | some i =>
    simp only
    cases hi : P.nodes[i]? with
    | none => exact ⟨hg, Ext.refl _, fun a ha => by cases ha⟩
    | some nd =>
      cases nd with
      | typedef n p j =>
        simp only
        have hd := hM.typedefs stringName i n p j hf hi
        cases hb : (P.nodes[j]?).bind Node.name with
        | none => exact ⟨hg, Ext.refl _, fun a ha => by cases ha⟩
        | some full =>
          obtain ⟨nd, hnd, hname⟩ := bind_name hb
          obtain ⟨a1, a2⟩ := hM.named j nd full hnd hname
          obtain ⟨h1, h2, h3⟩ := aliasS_fresh hk hM hg hfr (old := stringName) (by decide) a1 a2 hd
          refine ⟨h1, h2, fun a ha => ?_⟩
          obtain ⟨k1, k2, k3⟩ := h3 a ha
          refine ⟨k1, k2, fun n' i' m' p' j' e1 e2 e3 => ?_⟩
          injection e1 with e1
          rw [← e1, hi] at e2
          injection e2 with e2
          injection e2 with e2a e2b e2c
          rw [← e2c, hb] at e3
          injection e3 with e3
          rw [← e3]
          exact k3
      | _ => exact ⟨hg, Ext.refl _, fun a ha => by cases ha⟩

theorem createOpaques_fresh (hk : ∀ a b, key a = key b → a = b) (hM : Meaning P S) : ∀ (os : List Str) {s : St}, OpaqueNames S os →
    Good key P S s.w → Fresh s →
    PostG key P S s.w (createOpaques key s os) (fun s' => Fresh s' ∧ Ext s.w s'.w ∧ ∀ o ∈ os, s'.w.2.reg o ≠ none) := by
  intro os
  induction os with
  | nil => intro s _ hg hfr; exact ⟨hg, Ext.refl _, fun _ _ => ⟨hfr, Ext.refl _, fun o h => by cases h⟩⟩
  | cons o os ih =>
    intro s ho hg hfr
    obtain ⟨h1, c, h2, h3⟩ := ho o (List.mem_cons_self ..)
    have h0 : num2int 0 = .ok 0 := by unfold num2int; exact if_pos (by decide)
    have hd : Post key P S s.w (createOpaque key s.w o 0) (fun w _ => w.2.reg o ≠ none) := by
      rw [createOpaque, h0]
      exact (define_post hk hM hg (by intro x hx; cases hx) h1 h2 (.opaque h3 (kind_new _ _))
        (built_leaf (by rw [kind_new]; rfl))).mono (fun _ _ _ _ h => by
          have := h.1
          simp only at this
          rw [this]; simp)
    rw [createOpaques]
    refine PostG.then (Q := fun s' => Fresh s' ∧ s'.w.2.reg o ≠ none) ?_ ?_
    · obtain ⟨d1, d2, d3⟩ := hd
      exact ⟨d1, d2, fun a ha => ⟨hfr, d3 a ha⟩⟩
    · rintro s1 _ g1 e1 ⟨f1, r1⟩
      obtain ⟨k1, k2, k3⟩ := ih (fun x hx => ho x (List.mem_cons_of_mem _ hx)) g1 f1
      refine ⟨k1, k2, fun a ha => ?_⟩
      obtain ⟨m1, m2, m3⟩ := k3 a ha
      refine ⟨m1, e1.trans m2, fun x hx => ?_⟩
      rcases List.mem_cons.mp hx with rfl | hx
      · exact m2.reg r1
      · exact m3 x hx

/-- what is known before the program is read: what is in the registry, and the opaque types -/
def Known (w : World) (opaques : List Str) (n : Str) : Prop := w.2.reg n ≠ none ∨ n ∈ opaques

theorem load_post (hk : ∀ a b, key a = key b → a = b) (hM : Meaning P S) (hU : Supported P S) {w : World} (hs : Start key P S w)
    (f : Nat) (opaques : List Str) (ho : OpaqueNames S opaques) (types typedefs : List Nat) :
    PostG key P S w (load key P f w opaques types typedefs) (fun s' => (∀ o ∈ opaques, s'.w.2.reg o ≠ none) ∧
      ∀ i, i ∈ types ∨ i ∈ typedefs → Done P S (Known w opaques) s' i) := by
  have hg : Good key P S w := ⟨hs.inv, hs.ac, hs.clo, hs.honest, hs.derived⟩
  have hfr : Fresh (.start w) := ⟨fun _ => rfl, rfl, rfl⟩
  unfold load
  refine (aliasS_fresh hk hM (s := .start w) hg hfr (old := stringName) (by decide) (by decide) hM.str.2 hM.str.1).then ?_
  rintro s1 _ g1 e1 ⟨f1, _, r1⟩
  refine (resolveStdString_fresh hk hM g1 f1).then ?_
  rintro s2 _ g2 e2 ⟨f2, _, r2⟩
  refine (createOpaques_fresh hk hM opaques ho g2 f2).then ?_
  rintro s3 _ g3 e3 ⟨f3, _, r3⟩
  have sg : SGood key P S (Known w opaques) s3 := by
    refine ⟨g3, fun i n h => ?_, fun i h => ?_, fun i h => ?_, fun n hn => ?_, fun n hn => ?_⟩
    · rw [f3.1 i] at h; cases h
    · rw [f3.2.2] at h; cases h
    · rw [f3.2.1] at h; cases h
    · rcases hn with rfl | rfl | ⟨i, m, p, j, h1, h2, h3⟩
      · exact e3.reg (e2.reg (e1.reg hs.string))
      · exact e3.reg (e2.reg r1)
      · exact e3.reg (r2 n i m p j h1 h2 h3)
    · rcases hn with hn | hn
      · exact e3.reg (e2.reg (e1.reg hn))
      · exact r3 n hn
  have ad : AllDone P S (Known w opaques) s3 := fun i hi => absurd (f3.1 i) hi
  have hP : PostS key P S (Known w opaques) s3 (thenS (resolveOpaques key P f s3 opaques) fun s _ =>
      thenS (resolveAll key P f s types) fun s _ => resolveAll key P f s typedefs)
      (fun s' _ => (∀ o ∈ opaques, s'.w.2.reg o ≠ none) ∧
        ∀ i, i ∈ types ∨ i ∈ typedefs → Done P S (Known w opaques) s' i) := by
    refine (resolveOpaques_post hk hM hU f opaques ho sg).then fun s4 _ g4 k4 _ => ?_
    refine (resolveAll_post hk hM hU f types g4 (ad.keep k4)).then fun s5 _ g5 k5 h5 => ?_
    refine (resolveAll_post hk hM hU f typedefs g5 ((ad.keep k4).keep k5)).mono fun s6 _ g6 k6 h6 => ?_
    refine ⟨fun o hm => k6.ext.reg (k5.ext.reg (k4.ext.reg (r3 o hm))), fun i hi => ?_⟩
    rcases hi with hi | hi
    · exact (h5 i hi).ext k6.ext
    · exact h6 i hi
  exact ⟨hP.1.good, hP.2.1, fun a ha => (hP.2.2 a ha).2⟩

/-- **C71, soundness** (for the programs covered): after the import, whatever its outcome, each registered name denotes a C++ type and
the registered type describes it; what was registered before still is, and is unchanged. -/
theorem C71_sound_partial (hk : ∀ a b, key a = key b → a = b) (hM : Meaning P S) (hU : Supported P S) {w : World} (hs : Start key P S w)
    (f : Nat) (opaques : List Str) (ho : OpaqueNames S opaques) (types typedefs : List Nat) :
    let w' := (load key P f w opaques types typedefs).1.w
    (∀ n t, w'.2.reg n = some t → ∃ c, S.den n = some c ∧ Faithful P S w'.1 c t) ∧
    (∀ n t, w.2.reg n = some t → w'.2.reg n = some t) ∧ (∀ t, t < w.1.next → w'.1.get t = w.1.get t) ∧ Inv key w'.1 w'.2 := by
  obtain ⟨h1, h2, _⟩ := load_post hk hM hU hs f opaques ho types typedefs
  exact ⟨fun n t h => by obtain ⟨c, a, b, _⟩ := h1.honest n t h; exact ⟨c, a, b⟩, h2.names, h2.objects, h1.inv⟩

/-- **C71, completeness** (for the programs covered): if the import ends without an exception, each of the nodes asked for that has a
name is registered under this name, unless there is one of the reasons of `Gone`; all opaque types are registered. -/
theorem C71_complete_partial (hk : ∀ a b, key a = key b → a = b) (hM : Meaning P S) (hU : Supported P S) {w : World} (hs : Start key P S w)
    (f : Nat) (opaques : List Str) (ho : OpaqueNames S opaques) (types typedefs : List Nat)
    (hok : (load key P f w opaques types typedefs).2 = .ok ()) :
    (∀ i nd n, i ∈ types ∨ i ∈ typedefs → P.nodes[i]? = some nd → nd.name = some n → ¬ Gone P S (Known w opaques) i →
      (load key P f w opaques types typedefs).1.w.2.reg n ≠ none) ∧
    ∀ o ∈ opaques, (load key P f w opaques types typedefs).1.w.2.reg o ≠ none := by
  obtain ⟨_, _, h3⟩ := load_post hk hM hU hs f opaques ho types typedefs
  obtain ⟨k1, k2⟩ := h3 () hok
  refine ⟨fun i nd n hi h1 h2 hg => ?_, k1⟩
  rcases k2 i hi with h | h
  · exact absurd h hg
  · exact h nd n h1 h2

end Verif.Gccxml
