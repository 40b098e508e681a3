import Verif.ClangProps

/-!
Property C66: records and the theorems.
-/

namespace Verif.Clang
open Verif Verif.Names Verif.Graph Verif.Registry Verif.TypeBuilder Verif.Merge Verif.CompoundModel

variable {key : Char → Int} {A : AST} {den : Str → Option CCT}

/-- a type is not larger than what it describes -/
theorem Faithful.size_le (hS : Supported A) {H : Heap} {c : CCT} {t : TId} (h : Faithful A H c t) :
    sizeof A c < W → H.size t ≤ sizeof A c := by
  induction h with
  | «opaque» _ h2 => exact fun _ => h2
  | num _ _ h3 => intro _; simp only [sizeof]; omega
  | enum h1 _ _ h4 => intro _; simp only [sizeof, h1]; omega
  | @arr n c x t h1 h2 h3 ih =>
    intro hW
    simp only [sizeof] at hW ⊢
    rw [h2]
    rcases Nat.eq_zero_or_pos n with hn | hn
    · subst hn; simp [wmul]
    · have h5 : sizeof A c ≤ n * sizeof A c := Nat.le_mul_of_pos_left _ hn
      have h6 := ih (Nat.lt_of_le_of_lt h5 hW)
      have h7 : n * H.size x ≤ n * sizeof A c := Nat.mul_le_mul_left n h6
      rw [wmul_eq (Nat.lt_of_le_of_lt h7 hW)]
      exact h7
  | ptr _ h2 => intro _; rw [h2]; exact Nat.le_refl _
  | vec _ h2 => intro _; rw [h2]; exact Nat.le_refl _
  | str _ h2 => intro _; rw [h2]; exact Nat.le_refl _
  | @plain d r c ms cs fs t h1 hq hq' h2 h3 h4 h5 =>
    intro _
    rw [h5]
    cases h2 with
    | vec h1' h2' h3' => rw [hS.vector d r _ h1 (.vec h1' h2' h3')]; exact Nat.le_refl _
    | str h1' h2' => rw [hS.string d r h1 (.str h1' h2')]; exact Nat.le_refl _
    | record h1' => simp only [sizeof, h1]; exact Nat.le_refl _

/-- without opaque types, the sizes are exact -/
theorem Faithful.size_eq (hS : Supported A) {H : Heap} (clo : ∀ u, u < H.next → ∀ x ∈ H.deps u, x < H.next)
    (hop : ∀ t, t < H.next → H.kind t ≠ .opaque) {c : CCT} {t : TId}
    (h : Faithful A H c t) : t < H.next → sizeof A c < W → H.size t = sizeof A c := by
  induction h with
  | «opaque» h1 _ => exact fun ht => absurd h1 (hop _ ht)
  | num _ _ h3 => intro _ _; simp only [sizeof]; omega
  | enum h1 _ _ h4 => intro _ _; simp only [sizeof, h1]; omega
  | @arr n c x t h1 h2 h3 ih =>
    intro ht hW
    have hx : x < H.next := clo t ht x (by rw [Heap.deps, h1]; exact List.mem_singleton.mpr rfl)
    simp only [sizeof] at hW ⊢
    rw [h2]
    rcases Nat.eq_zero_or_pos n with hn | hn
    · subst hn; simp [wmul]
    · have h5 : sizeof A c ≤ n * sizeof A c := Nat.le_mul_of_pos_left _ hn
      rw [ih hx (Nat.lt_of_le_of_lt h5 hW), wmul_eq hW]
  | ptr _ h2 => intro _ _; rw [h2]; rfl
  | vec _ h2 => intro _ _; rw [h2]; rfl
  | str _ h2 => intro _ _; rw [h2]; rfl
  | @plain d r c ms cs fs t h1 hq hq' h2 h3 h4 h5 =>
    intro _ _
    rw [h5]
    cases h2 with
    | vec h1' h2' h3' => rw [hS.vector d r _ h1 (.vec h1' h2' h3')]; rfl
    | str h1' h2' => rw [hS.string d r h1 (.str h1' h2')]; rfl
    | record h1' => simp only [sizeof, h1]

/-- a compound under construction, started with the size `S`: its fields are the members `ms` -/
structure Match (A : AST) (w : World) (S : Nat) (c : Comp) (ms : List (Nat × CField)) : Prop where
  same : SameFields ms c.fields
  types : ∃ cs : List CCT, cs.length = ms.length ∧
    (∀ (i : Nat) (m : Nat × CField) (cc : CCT), ms[i]? = some m → cs[i]? = some cc → Canon A m.2.ty cc) ∧
    (∀ (i : Nat) (fd : FieldD) (cc : CCT), c.fields[i]? = some fd → cs[i]? = some cc → Faithful A w.1 cc fd.ty)
  alloc : ∀ fd ∈ c.fields, fd.ty < w.1.next
  size : S ≤ c.size ∧ (c.size = S ∨ ∃ fd ∈ c.fields, c.size = wadd fd.offset (w.1.size fd.ty))

theorem Match.ext {w w' : World} (hg : Good key A den w) (h : Ext w w') {S : Nat} {c : Comp} {ms : List (Nat × CField)}
    (hm : Match A w S c ms) : Match A w' S c ms := by
  obtain ⟨h1, ⟨cs, c1, c2, c3⟩, h3, h4, h5⟩ := hm
  refine ⟨h1, ⟨cs, c1, c2, fun i fd cc e1 e2 => ?_⟩, fun fd hfd => Nat.lt_of_lt_of_le (h3 fd hfd) h.next, h4, ?_⟩
  · exact h.faithful hg.clo (h3 fd (List.mem_of_getElem? e1)) (c3 i fd cc e1 e2)
  · rcases h5 with h5 | ⟨fd, hfd, h5⟩
    · exact Or.inl h5
    · refine Or.inr ⟨fd, hfd, ?_⟩
      rw [Heap.size, h.objects _ (h3 fd hfd)]; exact h5

theorem Match.snoc {w : World} {S : Nat} {c : Comp} {ms : List (Nat × CField)} (hm : Match A w S c ms) {f : CField} {t : TId}
    {cc : CCT} (hc : Canon A f.ty cc) (hf : Faithful A w.1 cc t) (ht : t < w.1.next) (ha : f.anonymous = false)
    (hp : f.priv = false) (hb : f.bits = none) (ho : f.offset % 8 = 0) :
    Match A w S (c.addField w.1.size f.name t (f.offset / 8)) (ms ++ [(0, f)]) := by
  obtain ⟨⟨l1, l2⟩, ⟨cs, c1, c2, c3⟩, h3, h4, h5⟩ := hm
  have hfl : (c.addField w.1.size f.name t (f.offset / 8)).fields = c.fields ++ [⟨f.name, f.offset / 8, t⟩] := rfl
  refine ⟨⟨by rw [hfl]; simp [l1], ?_⟩, ⟨cs ++ [cc], by simp [c1], ?_, ?_⟩, ?_, ?_⟩
  · intro i m fd e1 e2
    rw [hfl] at e2
    rcases snoc_get e1 with e1 | ⟨i1, e1⟩ <;> rcases snoc_get e2 with e2 | ⟨i2, e2⟩
    · exact l2 i m fd e1 e2
    · have := lt_of_get e1; rw [i2, l1] at this; exact absurd this (Nat.lt_irrefl _)
    · have := lt_of_get e2; rw [i1, l1] at this; exact absurd this (Nat.lt_irrefl _)
    · subst e1; subst e2
      exact ⟨rfl, by simp only; omega, hb, hp, ha⟩
  · intro i m c' e1 e2
    rcases snoc_get e1 with e1 | ⟨i1, e1⟩ <;> rcases snoc_get e2 with e2 | ⟨i2, e2⟩
    · exact c2 i m c' e1 e2
    · have := lt_of_get e1; rw [i2, c1] at this; exact absurd this (Nat.lt_irrefl _)
    · have := lt_of_get e2; rw [i1, c1] at this; exact absurd this (Nat.lt_irrefl _)
    · subst e1; subst e2; exact hc
  · intro i fd c' e1 e2
    rw [hfl] at e1
    rcases snoc_get e1 with e1 | ⟨i1, e1⟩ <;> rcases snoc_get e2 with e2 | ⟨i2, e2⟩
    · exact c3 i fd c' e1 e2
    · have := lt_of_get e1; rw [i2, c1, l1] at this; exact absurd this (Nat.lt_irrefl _)
    · have := lt_of_get e2; rw [i1, c1, l1] at this; exact absurd this (Nat.lt_irrefl _)
    · subst e1; subst e2; exact hf
  · intro fd hfd
    rw [hfl] at hfd
    rcases List.mem_append.mp hfd with h | h
    · exact h3 fd h
    · rw [List.mem_singleton.mp h]; exact ht
  · have hsz : (c.addField w.1.size f.name t (f.offset / 8)).size =
        if c.size < wadd (f.offset / 8) (w.1.size t) then wadd (f.offset / 8) (w.1.size t) else c.size := rfl
    rw [hfl, hsz]
    split
    · refine ⟨by omega, Or.inr ⟨⟨f.name, f.offset / 8, t⟩, by simp, rfl⟩⟩
    · refine ⟨h4, ?_⟩
      rcases h5 with h5 | ⟨fd, hfd, h5⟩
      · exact Or.inl h5
      · exact Or.inr ⟨fd, List.mem_append_left _ hfd, h5⟩

theorem addFields_post (hN : Names A den) {rec : World → Str → CT → World × Res (Option TId)} (hrec : RecOk key A den rec)
    {S : Nat} : ∀ (fs : List CField) (w : World) (c : Comp) (ms : List (Nat × CField)), Good key A den w →
    (∀ f ∈ fs, Occurs A f.tyName f.ty ∧ f.bits = none) → Match A w S c ms →
    Post key A den w (addFields rec w c fs) (fun w' o => ∀ c', o = some c' →
      Match A w' S c' (ms ++ fs.map (fun f => (0, f)))) := by
  intro fs
  induction fs with
  | nil =>
    intro w c ms hg _ hm
    refine Post.ret hg ?_
    intro a ha c' hc'
    injection ha with ha
    rw [← ha] at hc'
    injection hc' with hc'
    rw [← hc', List.map_nil, List.append_nil]; exact hm
  | cons f fs ih =>
    intro w c ms hg hocc hm
    have hnone : ∀ {w : World}, Good key A den w → Post key A den w (w, .ok none) (fun w' o => ∀ c', o = some c' →
        Match A w' S c' (ms ++ (f :: fs).map (fun f => (0, f)))) := by
      intro w hg
      refine Post.ret hg ?_
      intro a ha c' hc'
      injection ha with ha
      rw [← ha] at hc'; cases hc'
    obtain ⟨ho, hb⟩ := hocc f (List.mem_cons_self ..)
    rw [addFields]
    by_cases ha : f.anonymous = true
    · rw [if_pos ha]; exact hnone hg
    rw [if_neg ha]
    by_cases hp : f.priv = true
    · rw [if_pos hp]; exact hnone hg
    rw [if_neg hp]
    refine Post.then (hrec w _ _ hg ho) ?_
    intro w1 o g1 x1 hgot
    cases o with
    | none => exact hnone g1
    | some t =>
      simp only
      by_cases h8 : f.offset % 8 ≠ 0
      · rw [if_pos h8]; exact hnone g1
      · rw [if_neg h8]
        obtain ⟨q1, _, q3⟩ := hgot t rfl
        obtain ⟨_, cc, hcc, hdc⟩ := hN.occ _ _ ho
        have := ih w1 _ _ g1 (fun f' hf' => hocc f' (List.mem_cons_of_mem _ hf'))
          ((hm.ext hg x1).snoc hcc (q3 cc hdc).1 (g1.lt q1) (by simpa using ha) (by simpa using hp) hb (by omega))
        rw [List.append_assoc, List.singleton_append] at this
        exact this

theorem addMembers_post (hN : Names A den) (hS : Supported A) {rec : World → Str → CT → World × Res (Option TId)}
    (hrec : RecOk key A den rec) {S : Nat} : ∀ (g : Nat) (w : World) (c : Comp) (d : Nat) (ms : List (Nat × CField)),
    Good key A den w → Match A w S c ms →
    Post key A den w (addMembers A rec g w c d) (fun w' o => ∀ c', o = some c' →
      ∃ l, Members A d 0 l ∧ Match A w' S c' (ms ++ l)) := by
  intro g
  induction g with
  | zero => intro w c d ms hg _; exact ⟨hg, Ext.refl w, fun a h => by cases h⟩
  | succ g ih =>
    intro w c d ms hg hm
    rw [addMembers]
    cases hr : A.records[d]? with
    | none => exact ⟨hg, Ext.refl w, fun a h => by cases h⟩
    | some r =>
      simp only
      have hmem := List.mem_of_getElem? hr
      refine Post.then (addFields_post hN hrec r.fields w c ms hg (fun f hf => ⟨.field hmem hf, hS.bits r hmem f hf⟩) hm) ?_
      intro w1 o g1 x1 h1
      cases o with
      | none =>
        refine Post.ret g1 ?_
        intro a ha c' hc'
        injection ha with ha
        rw [← ha] at hc'; cases hc'
      | some c1 =>
        simp only
        have key2 : ∀ (bs : List CBase) (w : World) (c : Comp) (ms : List (Nat × CField)), Good key A den w →
            (∀ b ∈ bs, b.offset = 0) → Match A w S c ms →
            Post key A den w (addBases (addMembers A rec g) w c bs) (fun w' o => ∀ c', o = some c' →
              ∃ l, BaseMembers A 0 bs l ∧ Match A w' S c' (ms ++ l)) := by
          intro bs
          induction bs with
          | nil =>
            intro w c ms hg _ hm
            refine Post.ret hg ?_
            intro a ha c' hc'
            injection ha with ha
            rw [← ha] at hc'
            injection hc' with hc'
            rw [← hc']
            exact ⟨[], .nil, by rw [List.append_nil]; exact hm⟩
          | cons b bs ihb =>
            intro w c ms hg hoff hm
            rw [addBases]
            cases hd : b.decl with
            | none => exact ⟨hg, Ext.refl w, fun a h => by cases h⟩
            | some d' =>
              simp only
              refine Post.then (ih w c d' ms hg hm) ?_
              intro w2 o g2 x2 h2
              cases o with
              | none =>
                refine Post.ret g2 ?_
                intro a ha c' hc'
                injection ha with ha
                rw [← ha] at hc'; cases hc'
              | some c2 =>
                simp only
                obtain ⟨l, hl1, hl2⟩ := h2 c2 rfl
                refine Post.mono (ihb w2 c2 _ g2 (fun b' hb' => hoff b' (List.mem_cons_of_mem _ hb')) hl2) ?_
                intro w3 o _ _ h3 c' hc'
                obtain ⟨l', hl3, hl4⟩ := h3 c' hc'
                refine ⟨l ++ l', .cons hd ?_ hl3, by rw [← List.append_assoc]; exact hl4⟩
                rw [hoff b (List.mem_cons_self ..)]
                exact hl1
        refine Post.mono (key2 r.bases w1 c1 _ g1 (hS.bases r hmem) (h1 c1 rfl)) ?_
        intro w2 o _ _ h2 c' hc'
        obtain ⟨l, hl1, hl2⟩ := h2 c' hc'
        refine ⟨_, .mk hr hl1, ?_⟩
        rw [← List.append_assoc]
        exact hl2

theorem registerBases_post {rec : World → Str → CT → World × Res (Option TId)} (hrec : RecOk key A den rec) :
    ∀ (bs : List CBase) (w : World), Good key A den w → (∀ b ∈ bs, Occurs A b.name b.ty) →
    Post key A den w (registerBases rec w bs) (fun _ o => o = true → ∀ b ∈ bs, b.decl ≠ none → b.priv = false) := by
  intro bs
  induction bs with
  | nil => intro w hg _; exact Post.ret hg fun _ _ _ b hb => nomatch hb
  | cons b bs ih =>
    intro w hg ho
    have ho' : ∀ b ∈ bs, Occurs A b.name b.ty := fun b' hb' => ho b' (List.mem_cons_of_mem _ hb')
    rw [registerBases]
    cases hbd : b.decl with
    | none =>
      refine Post.mono (ih w hg ho') ?_
      intro w' o _ _ h hb b' hb' hne
      rcases List.mem_cons.mp hb' with rfl | hb'
      · exact absurd hbd hne
      · exact h hb b' hb' hne
    | some d =>
      simp only
      split
      · exact Post.ret hg fun a ha h => by injection ha with ha; rw [← ha] at h; cases h
      next hp =>
        refine Post.then (hrec w _ _ hg (ho b (List.mem_cons_self ..))) fun w1 o g1 x1 _ => Post.mono (ih w1 g1 ho') ?_
        intro w' o _ _ h hb b' hb' hne
        rcases List.mem_cons.mp hb' with rfl | hb'
        · simpa using hp
        · exact h hb b' hb' hne

theorem BaseMembers.decls {s : Nat} : ∀ {bs : List CBase} {l : List (Nat × CField)}, BaseMembers A s bs l → ∀ b ∈ bs, b.decl ≠ none
  | [], _, _ => fun b hb => nomatch hb
  | b0 :: bs, _, .cons h1 _ h3 => by
    intro b hb
    rcases List.mem_cons.mp hb with rfl | hb
    · rw [h1]; exact nofun
    · exact BaseMembers.decls h3 b hb

theorem Members.decls {d s : Nat} {r : CRecord} {l : List (Nat × CField)} (h : Members A d s l) (hr : A.records[d]? = some r) :
    ∀ b ∈ r.bases, b.decl ≠ none := by
  cases h with
  | mk h1 h2 =>
    rw [hr] at h1
    injection h1 with h1
    rw [h1]
    exact h2.decls

theorem wadd_le (a b : Nat) : wadd a b ≤ a + b := Nat.mod_le _ _

theorem addRecord_post (hk : ∀ a b, key a = key b → a = b) (hN : Names A den) (hS : Supported A)
    {rec : World → Str → CT → World × Res (Option TId)} (hrec : RecOk key A den rec) (f : Nat) {w : World}
    (hg : Good key A den w) {n : Str} {o : Option Nat} (ho : Occurs A n (.record o)) :
    Post key A den w (addRecord key A rec f w n o) (Got A den n (.record o)) := by
  obtain ⟨hab, c0, hc0, hd0⟩ := hN.occ _ _ ho
  unfold addRecord
  cases hget : w.2.get n with
  | some t => exact lookup_post hg hab hget
  | none =>
    simp only
    cases o with
    | none => exact none_post hg
    | some d =>
      simp only
      cases hr : A.records[d]? with
      | none => exact ⟨hg, Ext.refl w, fun a h => by cases h⟩
      | some r =>
        simp only
        have hmem := List.mem_of_getElem? hr
        split
        · exact none_post hg
        rename_i hus
        refine Post.then (checkRegisterContainer_post hk hN hrec hg hr ho) ?_
        intro w1 o1 g1 x1 h1
        cases o1 with
        | some t =>
          refine Post.ret g1 ?_
          intro a ha
          injection ha with ha
          rw [← ha]; exact h1
        | none =>
          simp only
          split
          · exact none_post g1
          rename_i hdef
          have m0 : Match A w1 r.size (Comp.new.setSize r.size) [] :=
            ⟨⟨rfl, fun i m fd h => nomatch h⟩, ⟨[], rfl, (fun i m cc h => nomatch h), (fun i fd cc h => nomatch h)⟩,
              (fun fd h => nomatch h), Nat.le_refl _, Or.inl rfl⟩
          refine Post.then (addMembers_post hN hS hrec f w1 _ d [] g1 m0) ?_
          intro w2 o2 g2 x2 h2
          cases o2 with
          | none => exact none_post g2
          | some c =>
            simp only
            obtain ⟨ms, hms, hmat⟩ := h2 c rfl
            rw [List.nil_append] at hmat
            split
            · exact none_post g2
            rename_i hne
            refine Post.then (registerBases_post hrec r.bases w2 g2 (fun b hb => .base hmem hb)) ?_
            intro w3 b g3 x3 hpb
            split
            · exact none_post g3
            rename_i hb
            have hdata : r.Data := by
              refine ⟨?_, ?_, ?_, fun b' hb' => hpb (by simpa using hb) b' hb' (hms.decls hr b' hb')⟩
              · unfold CRecord.usable
                cases h1 : r.ident <;> cases h2 : r.injected <;> cases h3 : r.dependent <;> simp [h1, h2, h3] at hus ⊢
              · cases h1 : r.hasDef <;> simp [h1] at hdef ⊢
              · cases h1 : r.poly <;> simp [h1] at hdef ⊢
            have hfs : c.fields ≠ [] := fun h => hne (by rw [h]; rfl)
            have hm3 := hmat.ext g2 x3
            have hsize : c.size = r.size := by
              obtain ⟨⟨l1, l2⟩, ⟨cs, c1, c2, c3⟩, _, h4, h5⟩ := hm3
              rcases h5 with h5 | ⟨fd, hfd, h5⟩
              · exact h5
              · obtain ⟨i, hi⟩ := List.getElem?_of_mem hfd
                have hil := lt_of_get hi
                have him : ms[i]? = some ms[i] := List.getElem?_eq_getElem (by omega)
                have hic : cs[i]? = some cs[i] := List.getElem?_eq_getElem (by omega)
                obtain ⟨_, q2, _⟩ := l2 i _ _ him hi
                have hcan := c2 i _ _ him hic
                have hin := hS.inside d r ms hr hms _ (List.mem_of_getElem? him) _ hcan
                have hsm := hS.small r hmem
                have hle := (c3 i _ _ hi hic).size_le hS (by omega)
                have hwa := wadd_le fd.offset (w3.1.size fd.ty)
                omega
            refine Post.then (addNew_post hk hN g3 ?_ hab ?_ (built_leaf (by rw [kind_new]; rfl))) ?_
            · intro x hx
              obtain ⟨fd, hfd, rfl⟩ := List.mem_map.mp hx
              exact hm3.alloc fd hfd
            · intro c1 hc1
              have hcan := hN.canon ho hc1
              obtain ⟨cs, c1', c2', c3'⟩ := hm3.types
              refine .plain hr hdata hfs hcan hms (kind_new _ _) (by rw [size_new]; exact hsize) hm3.same c1' c2' ?_
              intro i fd cc e1 e2
              exact (c3' i fd cc e1 e2).mono g3.clo (fun t ht => alloc_get_old _ _ ht) (hm3.alloc fd (List.mem_of_getElem? e1))
            · rintro w4 t g4 x4 ⟨e1, e2, e3, _⟩
              refine Post.ret g4 ?_
              intro a ha
              injection ha with ha
              rw [← ha]
              exact got_reg g4 e3

theorem registerTypedef_post (hk : ∀ a b, key a = key b → a = b) (hN : Names A den)
    {rec : World → Str → CT → World × Res (Option TId)} (hrec : RecOk key A den rec) {w : World} (hg : Good key A den w)
    (d : Nat) :
    Post key A den w (registerTypedef key A rec w d) (fun w' o => ∀ t td, o = some t → A.typedefs[d]? = some td →
      w'.2.reg (w'.1.name t) = some t ∧ w'.2.reg td.name ≠ none ∧ w'.2.reg td.canonName ≠ none ∧
      ∀ c, den td.canonName = some c → Faithful A w'.1 c t ∧ den (w'.1.name t) = some c) := by
  unfold registerTypedef
  cases htd : A.typedefs[d]? with
  | none => exact ⟨hg, Ext.refl w, fun a h => by cases h⟩
  | some td =>
    simp only
    have hmem := List.mem_of_getElem? htd
    obtain ⟨ha, hden⟩ := hN.typedef td hmem
    obtain ⟨hab, _⟩ := hN.occ _ _ (.typedef hmem)
    split
    · exact ⟨hg, Ext.refl w, fun a h => by cases h⟩
    refine Post.then (hrec w _ _ hg (.typedef hmem)) ?_
    intro w1 o g1 x1 h1
    cases o with
    | none =>
      refine Post.ret g1 ?_
      intro a ha t td' ht
      injection ha with ha
      rw [← ha] at ht; cases ht
    | some t =>
      simp only
      refine Post.then (aliasW_post hk hN g1 hab ha (fun c hc => Or.inl (by rw [← hden]; exact hc))) ?_
      rintro w2 _ g2 x2 ⟨_, t', e5, e6⟩
      refine Post.ret g2 ?_
      intro a ha t2 td' ht htd'
      injection ha with ha
      rw [← ha] at ht
      injection ht with ht
      subst ht
      injection htd' with htd'
      subst htd'
      obtain ⟨q1, _, q3⟩ := (h1.ext g1 x2) t rfl
      refine ⟨q1, (by rw [e6]; exact Option.some_ne_none _), ?_, q3⟩
      rw [x2.names _ _ e5]; exact Option.some_ne_none _

/-- `registerType` keeps the invariant and gives types that describe the C++ types -/
theorem registerType_post (hk : ∀ a b, key a = key b → a = b) (hN : Names A den) (hS : Supported A) (f : Nat) :
    RecOk key A den (registerType key A f) := by
  induction f with
  | zero => intro w n ty hg _; exact ⟨hg, Ext.refl w, fun a h => by cases h⟩
  | succ f ih =>
    intro w n ty hg ho
    obtain ⟨hab, c0, hc0, hd0⟩ := hN.occ _ _ ho
    rw [registerType.eq_def]
    simp only
    cases hget : w.2.get n with
    | some t => exact lookup_post hg hab hget
    | none =>
      simp only
      cases ty with
      | ref t => exact none_post hg
      | ptr t => exact none_post hg
      | builtin bits k => exact registerBuiltIn_post hk hN hg ho
      | record d => exact addRecord_post hk hN hS ih f hg ho
      | enum d => exact addEnum_post hk hN hS hg ho
      | arr en e k => exact addArray_post hk hN ih hg ho
      | typedef d =>
        refine Post.mono (registerTypedef_post hk hN ih hg d) ?_
        intro w' o _ _ h t ht
        cases hc0 with
        | @typedef _ td _ h1 h2 =>
          obtain ⟨q1, q2, q3, q4⟩ := h t td ht h1
          obtain ⟨_, c', hc', hd'⟩ := hN.occ _ _ (.typedef (List.mem_of_getElem? h1))
          have ec := h2.det _ hc'
          refine ⟨q1, ⟨?_, fun h => by cases h⟩, ?_⟩
          · intro hsp
            rcases hsp.typedef _ _ _ ho h1 with e | e
            · rw [e]; exact q2
            · rw [e]; exact q3
          · intro c hc
            rw [hd0] at hc
            injection hc with hc
            exact q4 c (by rw [hd', ← ec, hc])
      | elaborated t =>
        have h := ih w n t hg (.elaborated ho)
        refine Post.mono h ?_
        intro w' o _ _ h
        exact h
      | other id sz => exact none_post hg

end Verif.Clang
