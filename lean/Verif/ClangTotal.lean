import Verif.ClangRecord

/-!
Property C66: when an import ends, and that it does not dereference a null pointer.
-/

namespace Verif.Clang
open Verif Verif.Names Verif.Graph Verif.Registry Verif.TypeBuilder Verif.Merge Verif.CompoundModel

variable {key : Char → Int} {A : AST} {den : Str → Option CCT}

/-- the types the program is made of are nested finitely: those of the members, bases and template arguments of a class are
below the class -/
structure Ranked (A : AST) (rk : CT → Nat) : Prop where
  field : ∀ d r f, A.records[d]? = some r → f ∈ r.fields → rk f.ty < rk (.record (some d))
  base : ∀ d r b, A.records[d]? = some r → b ∈ r.bases → rk b.ty < rk (.record (some d))
  baseDecl : ∀ d r b d', A.records[d]? = some r → b ∈ r.bases → b.decl = some d' → rk (.record (some d')) < rk (.record (some d))
  arg : ∀ d r n args a, A.records[d]? = some r → r.tmpl = some (n, args) → a ∈ args → detailArg a.1 = false →
    rk a.2 < rk (.record (some d))
  typedef : ∀ d td, A.typedefs[d]? = some td → rk td.ty < rk (.typedef d)
  elem : ∀ en e n, rk e < rk (.arr en e n)
  elaborated : ∀ t, rk t < rk (.elaborated t)

/-- clang knows the classes that are bases of a class -/
def BasesKnown (A : AST) : Prop :=
  ∀ r ∈ A.records, ∀ b ∈ r.bases, ∃ d r', b.decl = some d ∧ A.records[d]? = some r'

/-- a normal return or an exception -/
def Ends {α : Type} (r : Res α) : Prop := r ≠ .fuel ∧ r ≠ .ub

theorem Ends.ok {α : Type} (a : α) : Ends (.ok a) := ⟨nofun, nofun⟩
theorem Ends.exn {α : Type} (e : Err) : Ends (.exn e : Res α) := ⟨nofun, nofun⟩

theorem Ends.then {α β : Type} {w : World} {x : World × Res α} {P : World → α → Prop} {f : World → α → World × Res β}
    (h : Post key A den w x P) (hx : Ends x.2)
    (hf : ∀ w' a, Good key A den w' → P w' a → Ends (f w' a).2) : Ends (thenW x f).2 := by
  obtain ⟨w', r⟩ := x
  obtain ⟨h1, _, h3⟩ := h
  cases r with
  | ok a => exact hf w' a h1 (h3 a rfl)
  | exn e => exact .exn e
  | ub => exact absurd rfl hx.2
  | fuel => exact absurd rfl hx.1

theorem addNew_ends (hk : ∀ a b, key a = key b → a = b) {w : World} (hg : Good key A den w) {d : TypeDef}
    (hd : ∀ x ∈ d.kind.deps, x < w.1.next) (habs : isAbsoluteName d.name = true) (hop : d.kind ≠ .opaque) :
    Ends (addNew key w d).2 := by
  obtain ⟨g1, _⟩ := good_alloc hg hd hop
  have hnm : (w.1.alloc d).name w.1.next = d.name := by rw [Heap.name, alloc_get_new]
  obtain ⟨_, _, i7⟩ := add_spec hk g1.ac g1.inv w.1.next (Nat.lt_succ_self _) (by rw [hnm]; exact habs)
    (isPersistent (w.1.alloc d) ((w.1.alloc d).name w.1.next) w.1.next) []
  unfold addNew addAuto
  simp only
  rcases i7 with h | ⟨h, _⟩ | ⟨h, _⟩ | ⟨h, _⟩ <;> rw [h] <;> first | exact .ok _ | exact .exn _

theorem aliasW_ends (hk : ∀ a b, key a = key b → a = b) {w : World} (hg : Good key A den w) {base new : Str}
    (hb : isAbsoluteName base = true) (habs : isAbsoluteName new = true) : Ends (aliasW key w base new).2 := by
  unfold aliasW aliasAuto
  rw [hg.inv.abs base hb]
  cases hr : w.2.reg base with
  | none => exact .exn _
  | some t =>
    obtain ⟨_, _, n3, n4⟩ := hg.inv.reg_name hr
    obtain ⟨_, _, i7⟩ := aliasF_spec hk hg.ac (w.1.next + 1) w.2 base new (isPersistent w.1 new t) [] t
      hg.inv habs (by rw [hg.inv.abs base hb]; exact hr) n3
    show Ends (aliasF key w.1 (w.1.next + 1) w.2 base new (isPersistent w.1 new t) []).2
    constructor
    · intro h
      rw [h] at i7
      exact i7 (by show @LT.lt Nat _ _ _; omega)
    · intro h
      rw [h] at i7
      exact i7

theorem Ends.map {α β : Type} {x : World × Res α} {f : World → α → World × Res β} (hx : Ends x.2)
    (hf : ∀ w' a, Ends (f w' a).2) : Ends (thenW x f).2 := by
  obtain ⟨w', r⟩ := x
  cases r with
  | ok a => exact hf w' a
  | exn e => exact .exn e
  | ub => exact absurd rfl hx.2
  | fuel => exact absurd rfl hx.1

theorem numDef_spec (hN : Names A den) {n : Str} {bits : Nat} {k : BKind} (ho : Occurs A n (.builtin bits k))
    (hb : bits % 8 = 0) {d : TypeDef} (hd : numDef n bits k = some d) :
    ∃ cat, k.cat = some cat ∧ d.kind = .num cat ∧ d.size = bits / 8 ∧
      isAbsoluteName d.name = true ∧ den d.name = some (.builtin bits k) := by
  obtain ⟨hab, c0, hc0, hd0⟩ := hN.occ _ _ ho
  have ec : c0 = .builtin bits k := by cases hc0; rfl
  subst ec
  have hb8 : 8 * (bits / 8) = bits := by omega
  cases k with
  | float => simp only [numDef, Option.some.injEq] at hd; subst hd; exact ⟨.float, rfl, rfl, rfl, hab, hd0⟩
  | sint =>
    simp only [numDef, Option.some.injEq] at hd; subst hd
    refine ⟨.sint, rfl, rfl, rfl, intName_abs _ _, ?_⟩
    have := hN.sint (bits / 8)
    rw [hb8] at this
    rw [Nat.mul_comm, hb8]; exact this
  | uint =>
    simp only [numDef, Option.some.injEq] at hd; subst hd
    refine ⟨.uint, rfl, rfl, rfl, intName_abs _ _, ?_⟩
    have := hN.uint (bits / 8)
    rw [hb8] at this
    rw [Nat.mul_comm, hb8]; exact this
  | other => cases hd

theorem registerBuiltIn_ends (hk : ∀ a b, key a = key b → a = b) (hN : Names A den) {w : World} (hg : Good key A den w)
    {n : Str} {bits : Nat} {k : BKind} (ho : Occurs A n (.builtin bits k)) : Ends (registerBuiltIn key w n bits k).2 := by
  obtain ⟨hab, _⟩ := hN.occ _ _ ho
  unfold registerBuiltIn
  cases hget : w.2.get n with
  | some t => exact .ok _
  | none =>
    simp only
    split
    · exact .ok _
    · rename_i hb
      cases hd : numDef n bits k with
      | none => exact .ok _
      | some d =>
        simp only
        obtain ⟨cat, hcat, hkind, hsize, hname, hden⟩ := numDef_spec hN ho (by omega) hd
        have hdeps : ∀ x ∈ d.kind.deps, x < w.1.next := by rw [hkind]; intro x hx; cases hx
        have hop : d.kind ≠ .opaque := by rw [hkind]; exact fun h => nomatch h
        cases hg2 : w.2.get d.name with
        | none =>
          simp only
          refine Ends.then (addNew_post hk hN hg hdeps hname ?_ ?_ hop) (addNew_ends hk hg hdeps hname hop) ?_
          · intro c hc
            rw [hden] at hc
            injection hc with hc
            subst hc
            exact .num hcat (by rw [kind_new, hkind]) (by rw [size_new, hsize]; omega)
          · exact built_leaf (by rw [kind_new, hkind]; rfl)
          · rintro w1 t g1 _
            exact Ends.map (aliasW_ends hk g1 hname hab) fun _ _ => .ok _
        | some t =>
          simp only
          rw [hg.inv.abs _ hname] at hg2
          obtain ⟨_, _, r3, _⟩ := hg.inv.reg_name hg2
          obtain ⟨_, r2, _, _⟩ := hg.inv.reg_name r3
          exact Ends.map (aliasW_ends hk hg r2 hab) fun _ _ => .ok _

theorem addSyms_ends (width : Nat) : ∀ (l : List (Str × Int)) (e : EnumModel.Enum), Ends (addSyms width e l) := by
  intro l
  induction l with
  | nil => intro e; exact .ok _
  | cons p l ih =>
    obtain ⟨m, x⟩ := p
    intro e
    simp only [addSyms, EnumModel.Enum.add]
    cases StdMap.find e.values m with
    | none => exact ih _
    | some y =>
      simp only
      by_cases hy : y ≠ toI32 (sext width x)
      · rw [if_pos hy]; exact .exn _
      · rw [if_neg hy]; exact ih _

theorem addEnum_ends (hk : ∀ a b, key a = key b → a = b) (hN : Names A den) {w : World} (hg : Good key A den w)
    {n : Str} {d : Nat} (ho : Occurs A n (.enum d)) : Ends (addEnum key A w n d).2 := by
  obtain ⟨hab, c0, hc0, hd0⟩ := hN.occ _ _ ho
  cases hc0 with
  | @enum _ r hr =>
    unfold addEnum
    rw [hr]
    simp only
    split
    · exact .ok _
    · have := addSyms_ends r.width r.syms ⟨-1, []⟩
      cases hs : addSyms r.width ⟨-1, []⟩ r.syms with
      | ok e =>
        exact Ends.map (addNew_ends hk hg (by intro x hx; cases hx) hab (fun h => nomatch h)) fun _ _ => .ok _
      | exn x => exact .exn _
      | ub => exact absurd hs this.2
      | fuel => exact absurd hs this.1

/-- what is asked from the recursive calls: those made on `n`, `ty` end -/
def RecEnds (key : Char → Int) (A : AST) (den : Str → Option CCT) (rec : World → Str → CT → World × Res (Option TId))
    (n : Str) (ty : CT) : Prop := ∀ w, Good key A den w → Ends (rec w n ty).2

theorem addArray_ends (hk : ∀ a b, key a = key b → a = b) {rec : World → Str → CT → World × Res (Option TId)}
    (hrec : RecOk key A den rec) {w : World} (hg : Good key A den w) {n en : Str} {e : CT} {k : Nat}
    (ho : Occurs A n (.arr en e k)) (he : RecEnds key A den rec en e) : Ends (addArray key rec w en e k).2 := by
  unfold addArray
  split
  · exact .ok _
  · refine Ends.then (hrec w en e hg (.elem ho)) (he w hg) ?_
    intro w1 o g1 hgot
    cases o with
    | none => exact .ok _
    | some x =>
      simp only
      obtain ⟨r1, _⟩ := hgot x rfl
      obtain ⟨n1, n2, _, n4⟩ := g1.inv.reg_name r1
      refine Ends.map (addNew_ends hk g1 ?_ ?_ (fun h => nomatch h)) fun _ _ => .ok _
      · intro y hy
        simp only [arrDef, Kind.deps, Kind.elem?, Option.toList, List.mem_singleton] at hy
        rw [hy]; exact n4
      · simp only [arrDef]; exact abs_app n2

/-! ### Containers -/

/-- `registry.has` of a name with no suffix that can be built -/
theorem has_plain {key : Char → Int} {H : Heap} {R : Reg} (hi : Inv key H R) {n : Str} {c : Char} {r : Str}
    (hab : isAbsoluteName n = true) (hn : n.reverse = c :: r) (hr : r ≠ []) (h1 : c ≠ ']') (h2 : c ≠ '*') (h3 : c ≠ ' ') :
    TypeBuilder.has R n true = .ok (R.get n).isSome := by
  have hp : parseTypename n = .ok (n, []) := by
    unfold parseTypename
    rw [hn]
    obtain ⟨x, xs, rfl⟩ : ∃ x xs, r = x :: xs := by
      cases r with
      | nil => exact absurd rfl hr
      | cons x xs => exact ⟨x, xs, rfl⟩
    simp only [parseLoop, if_neg h1, if_neg h2, if_neg h3]
    rw [← hn, List.reverse_reverse]
  unfold TypeBuilder.has
  by_cases hh : R.has n = true
  · rw [if_pos hh]
    have : (R.get n).isSome = true := by unfold Reg.get; rw [Option.isSome_map]; exact hh
    rw [this]
  · rw [if_neg hh]
    simp only [Bool.not_true, Bool.false_eq_true, if_false, getFullName, hab, if_true, getBaseType, hp]

theorem vector_ends (hk : ∀ a b, key a = key b → a = b) {w : World} (hg : Good key A den w) {e : TId}
    (hreg : w.2.reg (w.1.name e) = some e) : Ends (onM (vectorFactory key ⟨w.1, w.2, []⟩ e)).2 := by
  obtain ⟨n1, n2, _, n4⟩ := hg.inv.reg_name hreg
  have habs : isAbsoluteName (vecName (w.1.name e)) = true := by unfold vecName; rw [List.append_assoc]; exact abs_app rfl
  rw [onM_vector, has_plain hg.inv habs (c := '>') (r := ("/std/vector<".toList ++ w.1.name e).reverse)
    (by unfold vecName; rw [List.reverse_append]; rfl) (by simp) (by decide) (by decide) (by decide)]
  simp only [thenW]
  cases hget : w.2.get (vecName (w.1.name e)) with
  | none =>
    simp only [Option.isSome_none, Bool.not_false, if_true]
    refine addNew_ends hk hg ?_ habs (fun h => nomatch h)
    intro y hy
    simp only [vecDef, Kind.deps, Kind.elem?, Option.toList, List.mem_singleton] at hy
    rw [hy]; exact n4
  | some t =>
    simp only [Option.isSome_some, Bool.not_true, Bool.false_eq_true, if_false]
    split
    · exact .ok _
    · exact .exn _

theorem string_ends (hk : ∀ a b, key a = key b → a = b) (hN : Names A den) {w : World} (hg : Good key A den w) :
    Ends (onM (stringFactory key ⟨w.1, w.2, []⟩)).2 := by
  rw [onM_string, has_plain hg.inv rfl (c := 'g') (r := "nirts/dts/".toList) (by decide +kernel) (by decide) (by decide) (by decide) (by decide)]
  simp only [thenW]
  cases hget : w.2.get stringName with
  | some t =>
    simp only [Option.isSome_some, if_true]
    split
    · exact .ok _
    · exact .exn _
  | none =>
    simp only [Option.isSome_none, Bool.false_eq_true, if_false]
    rw [has_plain hg.inv rfl (c := 't') (r := "_8tni/".toList) (by decide +kernel) (by decide) (by decide) (by decide) (by decide)]
    have hend : ∀ w : World, Good key A den w → ∀ e, e < w.1.next → Ends (addNew key w ⟨stringName, 32, .str e⟩).2 := by
      intro w hg e he
      refine addNew_ends hk hg ?_ rfl (fun h => nomatch h)
      intro y hy
      simp only [Kind.deps, Kind.elem?, Option.toList, List.mem_singleton] at hy
      rw [hy]; exact he
    simp only
    cases hget8 : w.2.get int8Name with
    | none =>
      simp only [Option.isSome_none, Bool.not_false, if_true]
      refine Ends.then (addNew_post hk hN hg (by intro x hx; cases hx) rfl ?_ (built_leaf (by rw [kind_new]; rfl)))
        (addNew_ends hk hg (by intro x hx; cases hx) rfl (fun h => nomatch h)) ?_
      · intro c hc
        rw [show (TypeDef.mk int8Name 1 (.num .sint)).name = int8Name from rfl, int8_den hN] at hc
        injection hc with hc
        rw [← hc]
        exact .num rfl (kind_new _ _) (by rw [size_new]; rfl)
      · rintro w1 t g1 ⟨e1, e2, e3, _⟩
        exact hend w1 g1 t (g1.inv.reg_name e3).2.2.2
    | some t =>
      simp only [Option.isSome_some, Bool.not_true, Bool.false_eq_true, if_false]
      rw [hg.inv.abs _ rfl] at hget8
      exact hend w hg t (hg.inv.reg_name hget8).2.2.2

theorem addArgs_ends {rec : World → Str → CT → World × Res (Option TId)} (hrec : RecOk key A den rec) (c : Cont) :
    ∀ (args : List (Str × CT)) (w : World) (acc : List TId), Good key A den w →
    (∀ a ∈ args, detailArg a.1 = false → Occurs A a.1 a.2 ∧ RecEnds key A den rec a.1 a.2) →
    Ends (addArgs rec c w args acc).2 := by
  intro args
  induction args with
  | nil => intro w acc _ _; exact .ok _
  | cons x args ih =>
    obtain ⟨n, ty⟩ := x
    intro w acc hg hocc
    have hocc' := fun a ha => hocc a (List.mem_cons_of_mem _ ha)
    rw [addArgs, argIgnored_eq]
    by_cases hi : detailArg n = true
    · rw [if_pos hi]; exact ih w acc hg hocc'
    · rw [if_neg hi]
      split
      · exact .ok _
      · obtain ⟨h1, h2⟩ := hocc (n, ty) (List.mem_cons_self ..) (by simpa using hi)
        refine Ends.then (hrec w n ty hg h1) (h2 w hg) ?_
        intro w1 o g1 _
        cases o with
        | none => exact .ok _
        | some t => exact ih w1 _ g1 hocc'

theorem checkRegisterContainer_ends (hk : ∀ a b, key a = key b → a = b) (hN : Names A den)
    {rec : World → Str → CT → World × Res (Option TId)} (hrec : RecOk key A den rec) {w : World} (hg : Good key A den w)
    {n : Str} {d : Nat} {r : CRecord} (hr : A.records[d]? = some r) (ho : Occurs A n (.record (some d)))
    (he : ∀ tn args, r.tmpl = some (tn, args) → ∀ a ∈ args, detailArg a.1 = false → RecEnds key A den rec a.1 a.2) :
    Ends (checkRegisterContainer key rec w n r).2 := by
  obtain ⟨hab, c0, hc0, hd0⟩ := hN.occ _ _ ho
  have hmem := List.mem_of_getElem? hr
  unfold checkRegisterContainer
  cases ht : r.tmpl with
  | none => exact .ok _
  | some p =>
    obtain ⟨tn, args⟩ := p
    simp only
    cases hf : findContainer tn with
    | none => exact .ok _
    | some c =>
      simp only
      refine Ends.then (addArgs_post hrec c args w [] [] hg (fun a ha hna => .arg hmem ht ha hna) ⟨rfl, fun i a t h => by cases h⟩)
        (addArgs_ends hrec c args w [] hg (fun a ha hna => ⟨.arg hmem ht ha hna, he tn args ht a ha hna⟩)) ?_
      intro w1 o g1 hargs
      cases o with
      | none => exact .ok _
      | some l =>
        simp only
        obtain ⟨⟨a1, a2⟩, a3⟩ := hargs l rfl
        rw [List.nil_append] at a1 a2
        have last : ∀ w2 t, IsCont A den c0 w2 t → Good key A den w2 →
            Ends (if w2.1.name t ≠ n then thenW (aliasW key w2 (w2.1.name t) n) fun w _ => (w, .ok (some t))
              else (w2, .ok (some t))).2 := by
          intro w2 t q g2
          obtain ⟨_, n2, _, _⟩ := g2.inv.reg_name q.1
          split
          · exact Ends.map (aliasW_ends hk g2 n2 hab) fun _ _ => .ok _
          · exact .ok _
        cases c with
        | vector =>
          match l, a1, a2 with
          | [], _, _ => exact .exn _
          | [e], a1, a2 =>
            cases hfl : args.filter (fun a => !detailArg a.1) with
            | nil => rw [hfl] at a1; cases a1
            | cons x xs =>
              rw [hfl] at a1 a2
              have hxs : xs = [] := List.length_eq_zero_iff.mp (Nat.succ.inj a1.symm)
              subst hxs
              obtain ⟨an, at'⟩ := x
              have hv : VecOf r at' := ⟨tn, args, an, ht, hf, hfl⟩
              have hxin : (an, at') ∈ args.filter (fun a => !detailArg a.1) := by rw [hfl]; exact List.mem_cons_self ..
              obtain ⟨hx1, hx2⟩ := List.mem_filter.mp hxin
              have hocc : Occurs A an at' := .arg hmem ht hx1 (by simpa using hx2)
              obtain ⟨_, ca, hca, hda⟩ := hN.occ _ _ hocc
              have ec := hc0.det _ (.vec hr hv hca)
              subst ec
              obtain ⟨g2, _, g3⟩ := a2 0 _ e rfl rfl e rfl
              obtain ⟨g4, g5⟩ := g3 ca hda
              exact Ends.then (vector_post hk hN g1 g2 g4 g5) (vector_ends hk g1 g2) fun w2 t g q => last w2 t q g
          | _ :: _ :: _, _, _ => exact .exn _
        | string =>
          have hst : IsString r := ⟨tn, args, ht, hf, a3 rfl⟩
          have ec := hc0.det _ (.str hr hst)
          subst ec
          have hs : Ends (thenW (onM (stringFactory key ⟨w1.1, w1.2, []⟩)) fun w2 t =>
              if w2.1.name t ≠ n then thenW (aliasW key w2 (w2.1.name t) n) fun w _ => (w, .ok (some t))
              else (w2, .ok (some t))).2 :=
            Ends.then (string_post hk hN g1) (string_ends hk hN g1) fun w2 t g q => last w2 t q g
          have hb := has_plain g1.inv (n := stringName) rfl (c := 'g') (r := "nirts/dts/".toList) (by decide +kernel) (by decide)
            (by decide) (by decide) (by decide)
          match l with
          | [_] => exact hs
          | [] =>
            simp only [factory, hasM, hb, onM, thenW]
            cases (w1.2.get stringName).isSome with
            | true => exact hs
            | false => exact .exn _
          | _ :: _ :: _ =>
            simp only [factory, hasM, hb, onM, thenW]
            cases (w1.2.get stringName).isSome with
            | true => exact hs
            | false => exact .exn _

/-! ### Records -/

theorem addFields_ends {rec : World → Str → CT → World × Res (Option TId)} (hrec : RecOk key A den rec) :
    ∀ (fs : List CField) (w : World) (c : Comp), Good key A den w →
    (∀ f ∈ fs, Occurs A f.tyName f.ty ∧ RecEnds key A den rec f.tyName f.ty) → Ends (addFields rec w c fs).2 := by
  intro fs
  induction fs with
  | nil => intro w c _ _; exact .ok _
  | cons f fs ih =>
    intro w c hg hocc
    have hocc' := fun a ha => hocc a (List.mem_cons_of_mem _ ha)
    obtain ⟨h1, h2⟩ := hocc f (List.mem_cons_self ..)
    rw [addFields]
    split
    · exact .ok _
    split
    · exact .ok _
    refine Ends.then (hrec w _ _ hg h1) (h2 w hg) ?_
    intro w1 o g1 _
    cases o with
    | none => exact .ok _
    | some t =>
      simp only
      split
      · exact .ok _
      · exact ih w1 _ g1 hocc'

theorem addMembers_ends (hN : Names A den) (hS : Supported A) (hB : BasesKnown A) {rk : CT → Nat} (hR : Ranked A rk)
    {rec : World → Str → CT → World × Res (Option TId)}
    (hrec : RecOk key A den rec) {S : Nat} : ∀ (g : Nat) (w : World) (c : Comp) (d : Nat) (r : CRecord) (ms : List (Nat × CField)),
    A.records[d]? = some r → rk (.record (some d)) < g →
    (∀ n ty, Occurs A n ty → rk ty < rk (.record (some d)) → RecEnds key A den rec n ty) →
    Good key A den w → Match A w S c ms → Ends (addMembers A rec g w c d).2 := by
  intro g
  induction g with
  | zero => intro w c d r ms _ h; exact absurd h (Nat.not_lt_zero _)
  | succ g ih =>
    intro w c d r ms hr hrk he hg hm
    rw [addMembers, hr]
    simp only
    have hmem := List.mem_of_getElem? hr
    refine Ends.then (addFields_post hN hrec r.fields w c ms hg (fun f hf => ⟨.field hmem hf, hS.bits r hmem f hf⟩) hm)
      (addFields_ends hrec r.fields w c hg (fun f hf => ⟨.field hmem hf, he _ _ (.field hmem hf) (hR.field d r f hr hf)⟩)) ?_
    intro w1 o g1 h1
    cases o with
    | none => exact .ok _
    | some c1 =>
      simp only
      have key2 : ∀ (bs : List CBase) (w : World) (c : Comp) (ms : List (Nat × CField)), (∀ b ∈ bs, b ∈ r.bases) →
          Good key A den w → Match A w S c ms → Ends (addBases (addMembers A rec g) w c bs).2 := by
        intro bs
        induction bs with
        | nil => intro w c ms _ _ _; exact .ok _
        | cons b bs ihb =>
          intro w c ms hsub hg hm
          rw [addBases]
          have hb := hsub b (List.mem_cons_self ..)
          obtain ⟨d', r', hd', hr'⟩ := hB r hmem b hb
          have hlt := hR.baseDecl d r b d' hr hb hd'
          rw [hd']
          simp only
          refine Ends.then (addMembers_post hN hS hrec g w c d' ms hg hm)
            (ih w c d' r' ms hr' (by omega) (fun n ty ho h => he n ty ho (by omega)) hg hm) ?_
          intro w2 o g2 h2
          cases o with
          | none => exact .ok _
          | some c2 =>
            obtain ⟨l, _, hl2⟩ := h2 c2 rfl
            exact ihb w2 c2 _ (fun b' hb' => hsub b' (List.mem_cons_of_mem _ hb')) g2 hl2
      exact key2 r.bases w1 c1 _ (fun _ h => h) g1 (h1 c1 rfl)

theorem registerBases_ends {rec : World → Str → CT → World × Res (Option TId)} (hrec : RecOk key A den rec) :
    ∀ (bs : List CBase) (w : World), Good key A den w → (∀ b ∈ bs, Occurs A b.name b.ty ∧ RecEnds key A den rec b.name b.ty) →
    Ends (registerBases rec w bs).2 := by
  intro bs
  induction bs with
  | nil => intro w hg _; exact .ok _
  | cons b bs ih =>
    intro w hg ho
    have ho' := fun b' hb' => ho b' (List.mem_cons_of_mem _ hb')
    obtain ⟨h1, h2⟩ := ho b (List.mem_cons_self ..)
    rw [registerBases]
    cases b.decl with
    | none => exact ih w hg ho'
    | some d =>
      simp only
      split
      · exact .ok _
      · exact Ends.then (hrec w _ _ hg h1) (h2 w hg) fun w1 o g1 _ => ih w1 g1 ho'

theorem addRecord_ends (hk : ∀ a b, key a = key b → a = b) (hN : Names A den) (hS : Supported A) (hB : BasesKnown A)
    {rk : CT → Nat} (hR : Ranked A rk) {rec : World → Str → CT → World × Res (Option TId)} (hrec : RecOk key A den rec) {f : Nat}
    {w : World} (hg : Good key A den w) {n : Str} {o : Option Nat} (ho : Occurs A n (.record o)) (hf : rk (.record o) < f)
    (he : ∀ n ty, Occurs A n ty → rk ty < rk (.record o) → RecEnds key A den rec n ty) :
    Ends (addRecord key A rec f w n o).2 := by
  obtain ⟨hab, c0, hc0, hd0⟩ := hN.occ _ _ ho
  unfold addRecord
  cases hget : w.2.get n with
  | some t => exact .ok _
  | none =>
    simp only
    obtain ⟨d, r, rfl, hr⟩ : ∃ d r, o = some d ∧ A.records[d]? = some r := by
      cases hc0 with
      | vec h => exact ⟨_, _, rfl, h⟩
      | str h => exact ⟨_, _, rfl, h⟩
      | record h => exact ⟨_, _, rfl, h⟩
    have hmem := List.mem_of_getElem? hr
    simp only [hr]
    split
    · exact .ok _
    refine Ends.then (checkRegisterContainer_post hk hN hrec hg hr ho) (checkRegisterContainer_ends hk hN hrec hg hr ho ?_) ?_
    · intro tn args ht a ha hna
      exact he _ _ (.arg hmem ht ha hna) (hR.arg d r tn args a hr ht ha hna)
    · intro w1 o1 g1 h1
      cases o1 with
      | some t => exact .ok _
      | none =>
        simp only
        split
        · exact .ok _
        have m0 : Match A w1 r.size (Comp.new.setSize r.size) [] :=
          ⟨⟨rfl, fun i m fd h => nomatch h⟩, ⟨[], rfl, (fun i m cc h => nomatch h), (fun i fd cc h => nomatch h)⟩,
            (fun fd h => nomatch h), Nat.le_refl _, Or.inl rfl⟩
        refine Ends.then (addMembers_post hN hS hrec f w1 _ d [] g1 m0)
          (addMembers_ends hN hS hB hR hrec f w1 _ d r [] hr hf he g1 m0) ?_
        intro w2 o2 g2 h2
        cases o2 with
        | none => exact .ok _
        | some c =>
          simp only
          obtain ⟨ms, hms, hmat⟩ := h2 c rfl
          split
          · exact .ok _
          refine Ends.then (P := fun w _ => Ext w2 w)
            ⟨(registerBases_post hrec r.bases w2 g2 (fun b hb => .base hmem hb)).1,
              (registerBases_post hrec r.bases w2 g2 (fun b hb => .base hmem hb)).2.1,
              fun _ _ => (registerBases_post hrec r.bases w2 g2 (fun b hb => .base hmem hb)).2.1⟩
            (registerBases_ends hrec r.bases w2 g2 (fun b hb => ⟨.base hmem hb, he _ _ (.base hmem hb) (hR.base d r b hr hb)⟩)) ?_
          intro w3 b g3 x3
          split
          · exact .ok _
          have hm3 := hmat.ext g2 x3
          refine Ends.map (addNew_ends hk g3 ?_ hab (fun h => nomatch h)) fun _ _ => .ok _
          intro x hx
          obtain ⟨fd, hfd, rfl⟩ := List.mem_map.mp hx
          exact hm3.alloc fd hfd

theorem registerTypedef_ends (hk : ∀ a b, key a = key b → a = b) (hN : Names A den)
    {rec : World → Str → CT → World × Res (Option TId)} (hrec : RecOk key A den rec) {w : World} (hg : Good key A den w)
    {d : Nat} {td : CTypedef} (htd : A.typedefs[d]? = some td) (he : RecEnds key A den rec td.canonName td.ty) :
    Ends (registerTypedef key A rec w d).2 := by
  unfold registerTypedef
  rw [htd]
  simp only
  have hmem := List.mem_of_getElem? htd
  obtain ⟨ha, hden⟩ := hN.typedef td hmem
  obtain ⟨hab, _⟩ := hN.occ _ _ (.typedef hmem)
  split
  · exact .exn _
  refine Ends.then (hrec w _ _ hg (.typedef hmem)) (he w hg) ?_
  intro w1 o g1 _
  cases o with
  | none => exact .ok _
  | some t => exact Ends.map (aliasW_ends hk g1 hab ha) fun _ _ => .ok _

theorem registerType_ends (hk : ∀ a b, key a = key b → a = b) (hN : Names A den) (hS : Supported A) (hB : BasesKnown A)
    {rk : CT → Nat} (hR : Ranked A rk) : ∀ (f : Nat) (n : Str) (ty : CT), Occurs A n ty → rk ty + 1 < f →
    RecEnds key A den (registerType key A f) n ty := by
  intro f
  induction f with
  | zero => intro n ty _ h; exact absurd h (Nat.not_lt_zero _)
  | succ f ih =>
    intro n ty ho hf w hg
    have hrec := registerType_post (key := key) (A := A) hk hN hS f
    obtain ⟨hab, c0, hc0, hd0⟩ := hN.occ _ _ ho
    rw [registerType.eq_def]
    simp only
    cases hget : w.2.get n with
    | some t => exact .ok _
    | none =>
      simp only
      cases ty with
      | ref t => exact .ok _
      | ptr t => exact .ok _
      | builtin bits k => exact registerBuiltIn_ends hk hN hg ho
      | record d => exact addRecord_ends hk hN hS hB hR hrec hg ho (by omega) fun n ty ho h => ih n ty ho (by omega)
      | enum d => exact addEnum_ends hk hN hg ho
      | arr en e k =>
        have := hR.elem en e k
        exact addArray_ends hk hrec hg ho (ih en e (.elem ho) (by omega))
      | typedef d =>
        cases hc0 with
        | @typedef _ td _ h1 h2 =>
          have := hR.typedef d td h1
          exact registerTypedef_ends hk hN hrec hg h1 (ih _ _ (.typedef (List.mem_of_getElem? h1)) (by omega))
      | elaborated t =>
        have := hR.elaborated t
        exact ih n t (.elaborated ho) (by omega) w hg
      | other id sz => exact .ok _

end Verif.Clang
