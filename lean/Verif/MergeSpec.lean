import Verif.MergeInv

/-! What `Type::merge` does (properties C29 and C30). -/

namespace Verif.Merge
open Verif Verif.Names Verif.Graph Verif.Registry Verif.TypeBuilder

set_option linter.unusedSimpArgs false
set_option linter.unusedVariables false

variable {key : Char → Int} {H0 : Heap} {R0 : Reg} {S base : TId → Prop} {pend : List (TId × TId)}

/-- registered, or the unregistered copy of a compound being copied -/
def Known (pend : List (TId × TId)) (s : MSt) (x : TId) : Prop := s.R.regd s.H x ∨ ∃ k, (k, x) ∈ pend

/-- `t` is the copy of `u` -/
def Copy (H0 : Heap) (pend : List (TId × TId)) (s : MSt) (u t : TId) : Prop := s.R.reg (H0.name u) = some t ∨ (u, t) ∈ pend

/-- outcome of the copy of `u` -/
def Post (key : Char → Int) (H0 : Heap) (R0 : Reg) (S base : TId → Prop) (pend : List (TId × TId)) (s : MSt)
    (u : TId) (o : MSt × Res TId) : Prop :=
  Kept s o.1 ∧
  ((∃ t, o.2 = .ok t ∧ J key H0 R0 S base pend o.1 ∧ Copy H0 pend o.1 u t ∧
      (∀ k w, s.st.lookup k = some w → o.1.st.lookup k = some w)) ∨
   (o.2 = .exn .badName ∧ ∃ n, FromAlias H0 R0 n))

/-- bounds the nesting of the calls: compounds are entered once, and in between only elements are followed -/
def weight (H0 : Heap) (pend : List (TId × TId)) (u : TId) : Nat := (H0.next - pend.length) * (H0.next + 1) + u

def Spec (key : Char → Int) (H0 : Heap) (R0 : Reg) (S base : TId → Prop) (f : Nat)
    (rec : MSt → TId → MSt × Res TId) : Prop :=
  ∀ pend s u, J key H0 R0 S base pend s → S u → weight H0 pend u < f → (∀ k p, (k, p) ∈ pend → DepStar H0 k u) →
    Post key H0 R0 S base pend s u (rec s u)

/-- merging again what has been merged -/
def Again (key : Char → Int) (H0 : Heap) (R0 : Reg) (S base : TId → Prop) (rec : MSt → TId → MSt × Res TId) : Prop :=
  ∀ pend s u t, J key H0 R0 S base pend s → S u → Copy H0 pend s u t →
    ∃ st', rec s u = ({ s with st := st' }, .ok t) ∧ J key H0 R0 S base pend { s with st := st' } ∧
      ∀ k w, s.st.lookup k = some w → st'.lookup k = some w

/-- outcome of `do_merge` -/
def Made (key : Char → Int) (H0 : Heap) (R0 : Reg) (S base : TId → Prop) (pend : List (TId × TId)) (s : MSt)
    (u : TId) (o : MSt × Res TId) : Prop :=
  Kept s o.1 ∧
  ((∃ n pend', o.2 = .ok n ∧ J key H0 R0 S base pend' { o.1 with st := sins o.1.st u n } ∧
      (pend' = (u, n) :: pend ∨ (pend' = pend ∧ o.1.R.reg (H0.name u) = some n)) ∧ n < o.1.H.next ∧ H0.next ≤ n ∧
      o.1.H.name n = H0.name u ∧ (∀ d ∈ o.1.H.deps n, Known pend' o.1 d) ∧ definition o.1.H n = definition o.1.H u ∧
      (o.1.st.lookup u = none ∨ o.1.st.lookup u = some n) ∧
      (∀ k w, s.st.lookup k = some w → o.1.st.lookup k = some w)) ∨
   (o.2 = .exn .badName ∧ ∃ n, FromAlias H0 R0 n))

theorem J.known_lt {s : MSt} (h : J key H0 R0 S base pend s) {x : TId} (hx : Known pend s x) : x < s.H.next := by
  rcases hx with e | ⟨k, e⟩
  · exact (h.inv.reg_name e).2.2.2
  · exact (h.pnd k x e).2.2.2.2.1

theorem J.copy_known {s : MSt} (h : J key H0 R0 S base pend s) {u t : TId} (ht : Copy H0 pend s u t) : Known pend s t := by
  rcases ht with e | e
  · exact Or.inl (h.inv.reg_name e).2.2.1
  · exact Or.inr ⟨u, e⟩

theorem J.copy_name {s : MSt} (h : J key H0 R0 S base pend s) (hs : Source H0 S) {u t : TId} (hu : S u)
    (ht : Copy H0 pend s u t) : s.H.name t = H0.name u := by
  rcases ht with e | e
  · exact (congrArg Prod.fst (h.compat u t hu e)).trans (h.name hs hu)
  · exact (h.pnd u t e).2.2.2.2.2

theorem J.copy_unique {s : MSt} (h : J key H0 R0 S base pend s) {u t v : TId} (ht : Copy H0 pend s u t) (hv : Copy H0 pend s u v) :
    t = v := by
  rcases ht with e | e <;> rcases hv with e' | e'
  · rw [e] at e'; cases e'; rfl
  · rw [(h.pnd u v e').2.2.1] at e; cases e
  · rw [(h.pnd u t e).2.2.1] at e'; cases e'
  · have := (h.pnd u t e).2.1
    rw [(h.pnd u v e').2.1] at this
    cases this
    rfl

theorem Known.kept {s s' : MSt} (hk : Kept s s') (h : J key H0 R0 S base pend s) {x : TId} (hx : Known pend s x) : Known pend s' x := by
  rcases hx with e | e
  · left
    have hl := (h.inv.reg_name e).2.2.2
    show s'.R.reg (s'.H.get x).name = some x
    rw [hk.get _ hl]
    exact hk.ext _ _ e
  · exact Or.inr e

theorem Known.new {s : MSt} (h : J key H0 R0 S base pend s) {d : TypeDef} {x : TId} (hx : Known pend s x) : Known pend (s.new d) x :=
  hx.kept (kept_new s d) h

theorem definition_alloc_old {H : Heap} (hw : WF H) {d : TypeDef} {t : TId} (ht : t < H.next) :
    definition (H.alloc d) t = definition H t :=
  definition_congr (alloc_get_old _ _ ht) (fun x hx => by
    unfold Heap.name
    rw [alloc_get_old _ _ (hw.deps t x ht hx)])

theorem definition_alloc_new {H : Heap} {d : TypeDef} (hd : ∀ x ∈ d.kind.deps, x < H.next) :
    definition (H.alloc d) H.next = (d.name, d.size, Kind.desc H.name d.kind) := by
  have hn : ∀ x ∈ d.kind.deps, (H.alloc d).name x = H.name x := by
    intro x hx
    unfold Heap.name
    rw [alloc_get_old _ _ (hd x hx)]
  rw [← desc_congr d.kind hn]
  unfold definition Heap.size Heap.kind
  rw [show (H.alloc d).name H.next = d.name by unfold Heap.name; rw [alloc_get_new], alloc_get_new]

theorem J.lookup_none {s : MSt} (h : J key H0 R0 S base pend s) {u : TId} (hu : S u) (hp : ∀ p, (u, p) ∉ pend)
    (hr : s.R.reg (H0.name u) = none) : s.st.lookup u = none := by
  cases hl : s.st.lookup u with
  | none => rfl
  | some v =>
    exfalso
    rcases h.stk u v hl with ⟨_, h1 | h1⟩ | ⟨h1, _⟩
    · exact hp v h1
    · rw [hr] at h1; cases h1
    · exact h.disj u hu (h.baseR u h1)

/-- a copy made of known types, as a fresh object -/
theorem made_new (hs : Source H0 S) {s0 s : MSt} {u : TId} {d : TypeDef}
    (h : J key H0 R0 S base pend s) (hkept : Kept s0 s) (hu : S u) (hp : ∀ p, (u, p) ∉ pend)
    (hstk : ∀ k w, s0.st.lookup k = some w → s.st.lookup k = some w)
    (hr : s.R.reg (H0.name u) = none) (hdeps : ∀ x ∈ d.kind.deps, Known pend s x)
    (hsy : ∀ l, d.kind = .enum l → (l.map (·.1)).Nodup)
    (hdef : (d.name, d.size, Kind.desc s.H.name d.kind) = definition s.H u) :
    Made key H0 R0 S base pend s0 u (s.new d, .ok s.H.next) := by
  have hlt : ∀ x ∈ d.kind.deps, x < s.H.next := fun x hx => h.known_lt (hdeps x hx)
  have hJ := h.new_obj hs hlt hsy
  have hlk := h.lookup_none hu hp hr
  have hname : (s.new d).H.name s.H.next = H0.name u := by
    have h1 := congrArg Prod.fst hdef
    simp only [definition] at h1
    rw [h.name hs hu] at h1
    show ((s.H.alloc d).get s.H.next).name = _
    rw [alloc_get_new, h1]
  refine ⟨hkept.trans (kept_new s d), Or.inl ⟨s.H.next, _, rfl, hJ.start hu hr hlk h.next (Nat.lt_succ_self _) hname, Or.inl rfl,
    Nat.lt_succ_self _, h.next, hname, ?_, ?_, Or.inl hlk, hstk⟩⟩
  · intro x hx
    have hx' : x ∈ d.kind.deps := by
      have : (s.H.alloc d).deps s.H.next = d.kind.deps := by
        unfold Heap.deps Heap.kind; rw [alloc_get_new]
      rw [← this]; exact hx
    rcases (hdeps x hx').new (d := d) h with e | ⟨k, e⟩
    · exact Or.inl e
    · exact Or.inr ⟨k, List.mem_cons_of_mem _ e⟩
  · show definition (s.H.alloc d) s.H.next = definition (s.H.alloc d) u
    rw [definition_alloc_new hlt, definition_alloc_old h.wf (h.lt hs hu), hdef]

theorem has_base {R : Reg} {n : Str} (hb : BaseName n) (habs : isAbsoluteName n = true) :
    TypeBuilder.has R n true = .ok (R.get n).isSome := by
  have := C37_has R n hb habs [] 0 (by simp)
  simp only [spacedText, List.flatMap_nil, List.replicate_zero, List.append_nil, Bool.or_self] at this
  rw [this]
  unfold Reg.has Reg.get
  rw [Option.isSome_map]

theorem baseName_vec (n : Str) : BaseName (vecName n) :=
  ⟨"/std/vector<".toList ++ n, '>', rfl, by simp, by decide, by decide, by decide⟩

theorem baseName_string : BaseName stringName := ⟨"/std/strin".toList, 'g', rfl, by decide, by decide, by decide, by decide⟩
theorem baseName_int8 : BaseName int8Name := ⟨"/int8_".toList, 't', rfl, by decide, by decide, by decide, by decide⟩

/-- creating, adding and resizing a container -/
theorem made_container (hk : ∀ a b, key a = key b → a = b) (hs : Source H0 S)
    (hna : ∀ u, S u → ¬ FromAlias H0 R0 (H0.name u)) {s0 s : MSt} {u : TId} {d : TypeDef}
    (h : J key H0 R0 S base pend s) (hkept : Kept s0 s) (hu : S u) (hp : ∀ p, (u, p) ∉ pend)
    (hstk : ∀ k w, s0.st.lookup k = some w → s.st.lookup k = some w)
    (hr : s.R.reg (H0.name u) = none) (hdeps : ∀ x ∈ d.kind.deps, Known pend s x)
    (hsy : ∀ l, d.kind ≠ .enum l)
    (hdef : (d.name, s.H.size u, Kind.desc s.H.name d.kind) = definition s.H u) :
    Made key H0 R0 S base pend s0 u
      (andThen (andThen (onReg (s.new d) (addAuto key (s.new d).H (s.new d).R s.H.next [])) fun s2 _ => (s2, .ok s.H.next))
        fun s r => (s.setSize r (s.H.size u), .ok r)) := by
  have hlt : ∀ x ∈ d.kind.deps, x < s.H.next := fun x hx => h.known_lt (hdeps x hx)
  have hJ := h.new_obj hs hlt (fun l hl => absurd hl (hsy l))
  have hlk : s.st.lookup u = none := h.lookup_none hu hp hr
  have hul : u < s.H.next := h.lt hs hu
  have hgn : (s.new d).H.get s.H.next = d := alloc_get_new _ _
  have hname : (s.new d).H.name s.H.next = H0.name u := by
    have h1 := congrArg Prod.fst hdef
    simp only [definition] at h1
    rw [h.name hs hu] at h1
    unfold Heap.name
    rw [hgn]
    exact h1
  have hsz : (s.new d).H.size u = s.H.size u := by
    show ((s.H.alloc d).get u).size = (s.H.get u).size
    rw [alloc_get_old _ _ hul]
  have hdp : ∀ x ∈ (s.new d).H.deps s.H.next, Known pend (s.new d) x := by
    intro x hx
    have hx' : x ∈ d.kind.deps := by
      have : (s.new d).H.deps s.H.next = d.kind.deps := by
        unfold Heap.deps Heap.kind; rw [hgn]
      rw [← this]; exact hx
    exact (hdeps x hx').new h
  -- the heap once the size is set
  let H' : Heap := ((s.new d).setSize s.H.next (s.H.size u)).H
  have hH' : ∀ t, H'.get t = if t = s.H.next then { d with size := s.H.size u } else (s.new d).H.get t := by
    intro t
    show (if t = s.H.next then { (s.new d).H.get s.H.next with size := s.H.size u } else (s.new d).H.get t) = _
    rw [hgn]
  have hnames : ∀ t, H'.name t = (s.new d).H.name t := by
    intro t
    unfold Heap.name
    rw [hH']
    split
    · rename_i e; rw [e, hgn]
    · rfl
  have hdefn : definition H' s.H.next = definition H' u := by
    have e1 : definition H' u = definition s.H u := by
      rw [← definition_alloc_old (d := d) h.wf hul]
      refine definition_congr ?_ (fun x _ => hnames x)
      rw [hH', if_neg (Nat.ne_of_lt hul)]
      rfl
    have hn' : ∀ x ∈ d.kind.deps, H'.name x = s.H.name x := by
      intro x hx
      rw [hnames]
      show ((s.H.alloc d).get x).name = _
      rw [alloc_get_old _ _ (hlt x hx)]
      rfl
    rw [e1, ← hdef, ← desc_congr d.kind hn']
    show (H'.name s.H.next, (H'.get s.H.next).size, Kind.desc H'.name (H'.get s.H.next).kind) = _
    rw [show H'.name s.H.next = d.name by rw [hnames]; unfold Heap.name; rw [hgn], hH', if_pos rfl]
  have hJs := hJ.start hu hr hlk h.next (Nat.lt_succ_self _) hname
  have hlks : (sins s.st u s.H.next).lookup u = some s.H.next := by
    rw [lookup_sins, if_pos rfl, hlk]; rfl
  obtain ⟨c1, c2⟩ := addAuto_J hk hs hna (pend := pend) (s := { (s.new d) with st := sins s.st u s.H.next }) (u := u)
    (n := s.H.next) (H' := H') [] hJs hu (Nat.lt_succ_self _) h.next hname (fun x hx => by
      rcases hdp x hx with e | ⟨k, e⟩
      · exact Or.inl e
      · exact Or.inr ⟨k, List.mem_cons_of_mem _ e⟩) (Or.inl rfl) rfl
    (fun t ht => by rw [hH', if_neg ht]) (hnames _) (by
      unfold Heap.kind; rw [hH', if_pos rfl]; show _ = ((s.new d).H.get _).kind; rw [hgn]) hdefn hlks
  simp only at c1 c2
  generalize hao : addAuto key (s.new d).H (s.new d).R s.H.next [] = ao at c1 c2
  obtain ⟨R1, r1⟩ := ao
  rcases c2 with ⟨e1, e2, e3⟩ | ⟨e1, e2⟩
  · simp only at e1 e2 e3 c1
    subst e1
    have hst : ({ (s.new d) with R := R1 } : MSt).setSize s.H.next ((s.new d).H.size u) = ⟨H', R1, s.st⟩ := by
      rw [hsz]; rfl
    simp only [onReg, andThen_ok]
    rw [hst]
    have hkeep : Kept s ⟨H', R1, s.st⟩ := by
      refine ⟨Nat.le_succ _, ?_, c1⟩
      intro t ht
      show H'.get t = _
      rw [hH', if_neg (Nat.ne_of_lt ht)]
      exact alloc_get_old _ _ ht
    refine ⟨hkept.trans hkeep, Or.inl ⟨s.H.next, pend, rfl, e2, Or.inr ⟨rfl, e3⟩, Nat.lt_succ_self _, h.next, ?_, ?_, hdefn,
      Or.inl hlk, hstk⟩⟩
    · show H'.name _ = _
      rw [hnames]; exact hname
    · intro x hx
      have hx' : x ∈ (s.new d).H.deps s.H.next := by
        have : H'.deps s.H.next = (s.new d).H.deps s.H.next := by
          unfold Heap.deps Heap.kind; rw [hH', if_pos rfl, hgn]
        rw [← this]; exact hx
      rcases hdp x hx' with e | e
      · have := c1 _ _ e
        left
        show R1.reg (H'.name x) = some x
        rw [hnames]; exact this
      · exact Or.inr e
  · simp only at e1 c1
    subst e1
    simp only [onReg, andThen_exn]
    refine ⟨hkept.trans ⟨Nat.le_succ _, fun t ht => alloc_get_old _ _ ht, c1⟩, Or.inr ⟨rfl, e2⟩⟩

/-- the fields copied so far in the copy of a compound -/
def Partial (H0 : Heap) (pend : List (TId × TId)) (s : MSt) (p : TId) (fs : List FieldD) : Prop :=
  ∃ gs, s.H.kind p = .comp gs ∧
    gs.map (fun f => (f.name, f.offset, s.H.name f.ty)) = fs.map (fun f => (f.name, f.offset, H0.name f.ty)) ∧
    ∀ g ∈ gs, Known pend s g.ty

theorem J.pend_unreg {s : MSt} (h : J key H0 R0 S base pend s) {u p : TId} (hp : (u, p) ∈ pend) (n : Str) : s.R.reg n ≠ some p := by
  intro hn
  obtain ⟨_, _, g3, _, _, g6⟩ := h.pnd u p hp
  have := (h.inv.reg_name hn).2.2.1
  rw [g6, g3] at this
  cases this

theorem mergeFields_spec (hs : Source H0 S) {rec : MSt → TId → MSt × Res TId} {f : Nat}
    (hrec : Spec key H0 R0 S base f rec) {u p : TId} (hu : S u) (hup : (u, p) ∈ pend)
    (hpend : ∀ k q, (k, q) ∈ pend → DepStar H0 k u) :
    ∀ (fs done : List FieldD) (s : MSt), J key H0 R0 S base pend s → Partial H0 pend s p done →
      (∀ g ∈ fs, S g.ty ∧ g.ty ∈ H0.deps u ∧ weight H0 pend g.ty < f) →
    let o := mergeFields rec p fs s
    (s.H.next ≤ o.1.H.next ∧ (∀ t, t < s.H.next → t ≠ p → o.1.H.get t = s.H.get t) ∧
      (∀ n t, s.R.reg n = some t → o.1.R.reg n = some t)) ∧
    ((o.2 = .ok () ∧ J key H0 R0 S base pend o.1 ∧ Partial H0 pend o.1 p (done ++ fs) ∧
      (∀ k w, s.st.lookup k = some w → o.1.st.lookup k = some w)) ∨
     (o.2 = .exn .badName ∧ ∃ n, FromAlias H0 R0 n)) := by
  intro fs
  induction fs with
  | nil =>
    intro done s hJ hP _
    refine ⟨⟨Nat.le_refl _, fun _ _ _ => rfl, fun _ _ h => h⟩, Or.inl ⟨rfl, hJ, ?_, fun _ _ h => h⟩⟩
    rw [List.append_nil]; exact hP
  | cons a fs ih =>
    intro done s hJ hP hfs
    obtain ⟨ha1, ha2, ha3⟩ := hfs a (by simp)
    have hpost := hrec pend s a.ty hJ ha1 ha3 (fun k q hk => .step (hpend k q hk) ha2)
    unfold mergeFields
    generalize rec s a.ty = x at hpost
    obtain ⟨s1, r1⟩ := x
    obtain ⟨hkept, hpost⟩ := hpost
    simp only at hkept hpost
    rcases hpost with ⟨t, rfl, hJ1, ht, hst1⟩ | ⟨rfl, hex⟩
    · simp only [andThen_ok]
      obtain ⟨gs, hk, hmap, hgs⟩ := hP
      have hlt : p < s.H.next := (hJ.pnd u p hup).2.2.2.2.1
      have hfresh : H0.next ≤ p := (hJ.pnd u p hup).2.2.2.1
      have hlt1 : p < s1.H.next := Nat.lt_of_lt_of_le hlt hkept.next
      have hgp : s1.H.get p = s.H.get p := hkept.get p hlt
      have hk1 : s1.H.kind p = .comp gs := by unfold Heap.kind; rw [hgp]; exact hk
      have htk := hJ1.copy_known ht
      have htname : s1.H.name t = H0.name a.ty := hJ1.copy_name hs ha1 ht
      have hgs1 : ∀ g ∈ gs, Known pend s1 g.ty := fun g hg => (hgs g hg).kept hkept hJ
      -- the state after `addField`
      let d : TypeDef := ⟨s1.H.name p,
        if s1.H.size p < (a.offset + s1.H.size t) % TypeBuilder.W then (a.offset + s1.H.size t) % TypeBuilder.W else s1.H.size p,
        .comp (gs ++ [⟨a.name, a.offset, t⟩])⟩
      have hadd : s1.addField p a.name t a.offset = s1.set p d := by
        unfold MSt.addField
        rw [hk1]
      have hunreg := hJ1.pend_unreg hup
      have hJ2 : J key H0 R0 S base pend (s1.set p d) := by
        refine hJ1.set_obj hs hfresh hunreg rfl rfl ?_
        intro g hg
        rcases List.mem_append.mp hg with hg | hg
        · exact hJ1.known_lt (hgs1 g hg)
        · rw [List.mem_singleton] at hg; subst hg; exact hJ1.known_lt htk
      have hget2 : ∀ t, (s1.set p d).H.get t = if t = p then d else s1.H.get t := fun _ => rfl
      have hnm2 : ∀ t, (s1.set p d).H.name t = s1.H.name t := by
        intro t
        unfold Heap.name
        rw [hget2]
        split
        · rename_i e; rw [e]; rfl
        · rfl
      have hkn2 : ∀ x, Known pend s1 x → Known pend (s1.set p d) x := by
        rintro x (e | e)
        · left
          show s1.R.reg ((s1.set p d).H.name x) = some x
          rw [hnm2]; exact e
        · exact Or.inr e
      have hP2 : Partial H0 pend (s1.set p d) p (done ++ [a]) := by
        refine ⟨gs ++ [⟨a.name, a.offset, t⟩], ?_, ?_, ?_⟩
        · unfold Heap.kind; rw [hget2, if_pos rfl]
        · rw [List.map_append, List.map_append]
          congr 1
          · rw [← hmap]
            apply List.map_congr_left
            intro g hg
            rw [hnm2]
            have hl := hJ.known_lt (hgs g hg)
            unfold Heap.name
            rw [hkept.get _ hl]
          · simp only [List.map_cons, List.map_nil]
            rw [hnm2, htname]
        · intro g hg
          rcases List.mem_append.mp hg with hg | hg
          · exact hkn2 _ (hgs1 g hg)
          · rw [List.mem_singleton] at hg; subst hg; exact hkn2 _ htk
      rw [hadd]
      obtain ⟨⟨i1, i2, i3⟩, i4⟩ := ih (done ++ [a]) (s1.set p d) hJ2 hP2 (fun g hg => hfs g (by simp [hg]))
      rw [List.append_assoc, List.singleton_append] at i4
      refine ⟨⟨Nat.le_trans hkept.next i1, ?_, ?_⟩, ?_⟩
      · intro x hx hxp
        rw [i2 x (Nat.lt_of_lt_of_le hx hkept.next) hxp, hget2, if_neg hxp]
        exact hkept.get x hx
      · intro n x hn
        exact i3 n x (hkept.ext n x hn)
      · rcases i4 with ⟨j1, j2, j3, j4⟩ | j
        · exact Or.inl ⟨j1, j2, j3, fun k w hk => j4 k w (hst1 k w hk)⟩
        · exact Or.inr j
    · simp only [andThen_exn]
      exact ⟨⟨hkept.next, fun x hx _ => hkept.get x hx, hkept.ext⟩, Or.inr ⟨trivial, hex⟩⟩

theorem definition_name {H : Heap} {a b : TId} (h : definition H a = definition H b) : H.name a = H.name b :=
  congrArg Prod.fst h

theorem definition_size {H : Heap} {a b : TId} (h : definition H a = definition H b) : H.size a = H.size b :=
  congrArg (fun x => x.2.1) h

theorem length_le_of_nodup : ∀ (N : Nat) (l : List Nat), l.Nodup → (∀ x ∈ l, x < N) → l.length ≤ N := by
  intro N
  induction N with
  | zero =>
    intro l _ h
    cases l with
    | nil => exact Nat.le_refl _
    | cons a l => exact absurd (h a (by simp)) (Nat.not_lt_zero a)
  | succ N ih =>
    intro l hn h
    have h1 := ih (l.erase N) (hn.erase N) (by
      intro x hx
      rw [hn.mem_erase_iff] at hx
      have := h x hx.2
      omega)
    rw [List.length_erase] at h1
    split at h1 <;> omega

theorem weight_arith (N L u g f : Nat) (hg : g < N) (hL : L + 1 ≤ N) (hf : (N - L) * (N + 1) + u < f + 1) :
    (N - (L + 1)) * (N + 1) + g < f := by
  obtain ⟨m, hm⟩ : ∃ m, N - L = m + 1 := ⟨N - L - 1, by omega⟩
  have hm' : N - (L + 1) = m := by omega
  rw [hm, Nat.succ_mul] at hf
  rw [hm']
  omega

/-- entering the compound `u` -/
theorem J.weight_enter {s : MSt} (h : J key H0 R0 S base pend s) (hs : Source H0 S) {u p g : TId}
    {rest : List (TId × TId)} (hr : pend = (u, p) :: rest) (hg : g < H0.next) {f : Nat} (hf : weight H0 rest u < f + 1) :
    weight H0 pend g < f := by
  have hlen : pend.length ≤ H0.next := by
    have := length_le_of_nodup H0.next _ h.pnodup (by
      intro x hx
      obtain ⟨⟨k, q⟩, hkq, rfl⟩ := List.mem_map.mp hx
      exact hs.alloc k (h.pnd k q hkq).1)
    rwa [List.length_map] at this
  subst hr
  exact weight_arith H0.next rest.length u g f hg hlen hf

theorem doMerge_spec (hk : ∀ a b, key a = key b → a = b) (hs : Source H0 S)
    (hna : ∀ u, S u → ¬ FromAlias H0 R0 (H0.name u)) {rec : MSt → TId → MSt × Res TId} {f : Nat}
    (hrec : Spec key H0 R0 S base f rec) {s : MSt} {u : TId} (hagain : ∀ e, (s.H.kind u).elem? = some e → Again key H0 R0 S base rec)
    (h : J key H0 R0 S base pend s) (hu : S u) (hf : weight H0 pend u < f + 1)
    (hpend : ∀ k p, (k, p) ∈ pend → DepStar H0 k u) (hr : s.R.reg (H0.name u) = none) (hlk0 : s.st.lookup u = none)
    (hel : ∀ e, (s.H.kind u).elem? = some e → ∃ t, Copy H0 pend s e t) :
    Made key H0 R0 S base pend s u (doMerge key rec s u) := by
  have hp : ∀ p, (u, p) ∉ pend := h.pend_lookup hlk0
  have hkd := h.kind hs hu
  have hdf : ∀ s' : MSt, J key H0 R0 S base pend s' → s'.H.get u = H0.get u := fun s' h' => h'.old u (hs.alloc u hu)
  -- merging the element
  have helem : ∀ e, (s.H.kind u).elem? = some e → S e ∧ ∃ t st', rec s e = ({ s with st := st' }, .ok t) ∧
      J key H0 R0 S base pend { s with st := st' } ∧ Copy H0 pend s e t ∧
      ∀ k w, s.st.lookup k = some w → st'.lookup k = some w := by
    intro e he
    have hm : e ∈ H0.deps u := by
      unfold Heap.deps; rw [← hkd]; exact elem_mem_deps he
    have h1 := hs.deps u e hu hm
    obtain ⟨t, ht⟩ := hel e he
    obtain ⟨st', i1, i2, i3⟩ := hagain e he pend s e t h h1 ht
    exact ⟨h1, t, st', i1, i2, ht, i3⟩
  unfold doMerge
  cases hkind : s.H.kind u with
  | null =>
    refine made_new hs h (Kept.refl s) hu hp (fun _ _ h => h) hr ?_ ?_ rfl
    · intro x hx
      have : (s.H.get u).kind = .null := hkind
      rw [this] at hx; cases hx
    · intro l hl; exact h.wf.syms u l hl
  | «opaque» =>
    refine made_new hs h (Kept.refl s) hu hp (fun _ _ h => h) hr ?_ ?_ rfl
    · intro x hx
      have : (s.H.get u).kind = .opaque := hkind
      rw [this] at hx; cases hx
    · intro l hl; exact h.wf.syms u l hl
  | num c =>
    refine made_new hs h (Kept.refl s) hu hp (fun _ _ h => h) hr ?_ ?_ rfl
    · intro x hx
      have : (s.H.get u).kind = .num c := hkind
      rw [this] at hx; cases hx
    · intro l hl; exact h.wf.syms u l hl
  | enum l =>
    refine made_new hs h (Kept.refl s) hu hp (fun _ _ h => h) hr ?_ ?_ rfl
    · intro x hx
      have : (s.H.get u).kind = .enum l := hkind
      rw [this] at hx; cases hx
    · intro l hl; exact h.wf.syms u l hl
  | arr d e =>
    simp only
    obtain ⟨h1, t, st1, hrt, hJ1, ht, hst1⟩ := helem e (by rw [hkind]; rfl)
    obtain ⟨s1, hs1⟩ : ∃ s1, s1 = ({ s with st := st1 } : MSt) := ⟨_, rfl⟩
    rw [← hs1] at hrt hJ1
    rw [hrt]
    simp only [andThen_ok]
    have hkept : Kept s s1 := by rw [hs1]; exact ⟨Nat.le_refl _, fun _ _ => rfl, fun _ _ h => h⟩
    have hst1' : ∀ k w, s.st.lookup k = some w → s1.st.lookup k = some w := by rw [hs1]; exact hst1
    have hno : s1.R.reg (H0.name u) = none := by rw [hs1]; exact hr
    have ht1 : Copy H0 pend s1 e t := by rw [hs1]; exact ht
    clear hs1
    have htk := hJ1.copy_known ht1
    have htn : s1.H.name t = H0.name e := hJ1.copy_name hs h1 ht1
    have hne : s1.H.name e = H0.name e := hJ1.name hs h1
    have hreg : s1.R.reg (H0.name e) = some t := by
      rcases ht1 with e1 | e1
      · exact e1
      · exact absurd (hpend e t e1) (hs.noloop u e hu (Or.inl ⟨d, hkd ▸ hkind⟩))
    have hdt := hJ1.compat e t h1 hreg
    refine made_new hs hJ1 hkept hu hp hst1' hno ?_ ?_ ?_
    · intro x hx
      simp only [arrDef, Kind.deps, Kind.elem?, Option.toList, List.mem_singleton] at hx
      subst hx
      exact htk
    · intro l hl; cases hl
    · have hg := hs.arr u d e hu (hkd ▸ hkind)
      have hg1 : s1.H.get u = arrDef H0 e d := (hdf s1 hJ1).trans hg
      have hse : s1.H.size e = H0.size e := by unfold Heap.size; rw [hJ1.old e (hs.alloc e h1)]
      unfold definition Heap.name Heap.size Heap.kind
      rw [hg1]
      simp only [arrDef, Kind.desc]
      have e2 : s1.H.size t = H0.size e := (definition_size hdt).trans hse
      rw [htn, e2]
      unfold Heap.name at htn hne
      rw [htn, hne]
  | ptr e =>
    simp only
    obtain ⟨h1, t, st1, hrt, hJ1, ht, hst1⟩ := helem e (by rw [hkind]; rfl)
    obtain ⟨s1, hs1⟩ : ∃ s1, s1 = ({ s with st := st1 } : MSt) := ⟨_, rfl⟩
    rw [← hs1] at hrt hJ1
    rw [hrt]
    simp only [andThen_ok]
    have hkept : Kept s s1 := by rw [hs1]; exact ⟨Nat.le_refl _, fun _ _ => rfl, fun _ _ h => h⟩
    have hst1' : ∀ k w, s.st.lookup k = some w → s1.st.lookup k = some w := by rw [hs1]; exact hst1
    have hno : s1.R.reg (H0.name u) = none := by rw [hs1]; exact hr
    have ht1 : Copy H0 pend s1 e t := by rw [hs1]; exact ht
    clear hs1
    have htk := hJ1.copy_known ht1
    have htn : s1.H.name t = H0.name e := hJ1.copy_name hs h1 ht1
    have hne : s1.H.name e = H0.name e := hJ1.name hs h1
    refine made_new hs hJ1 hkept hu hp hst1' hno ?_ ?_ ?_
    · intro x hx
      simp only [ptrDef, Kind.deps, Kind.elem?, Option.toList, List.mem_singleton] at hx
      subst hx
      exact htk
    · intro l hl; cases hl
    · have hg := hs.ptr u e hu (hkd ▸ hkind)
      have hg1 : s1.H.get u = ptrDef H0 e := (hdf s1 hJ1).trans hg
      unfold definition Heap.name Heap.size Heap.kind
      rw [hg1]
      simp only [ptrDef, Kind.desc]
      rw [htn]
      unfold Heap.name at htn hne
      rw [htn, hne]
  | vec e =>
    simp only
    obtain ⟨h1, t, st1, hrt, hJ1, ht, hst1⟩ := helem e (by rw [hkind]; rfl)
    obtain ⟨s1, hs1⟩ : ∃ s1, s1 = ({ s with st := st1 } : MSt) := ⟨_, rfl⟩
    rw [← hs1] at hrt hJ1
    rw [hrt]
    simp only [andThen_ok]
    have hkept : Kept s s1 := by rw [hs1]; exact ⟨Nat.le_refl _, fun _ _ => rfl, fun _ _ h => h⟩
    have hst1' : ∀ k w, s.st.lookup k = some w → s1.st.lookup k = some w := by rw [hs1]; exact hst1
    have hno : s1.R.reg (H0.name u) = none := by rw [hs1]; exact hr
    have ht1 : Copy H0 pend s1 e t := by rw [hs1]; exact ht
    clear hs1
    have htk := hJ1.copy_known ht1
    have htn : s1.H.name t = H0.name e := hJ1.copy_name hs h1 ht1
    have hne : s1.H.name e = H0.name e := hJ1.name hs h1
    have hnu : H0.name u = vecName (H0.name e) := hs.vec u e hu (hkd ▸ hkind)
    have habs : isAbsoluteName (vecName (s1.H.name t)) = true := by
      rw [htn, ← hnu]; exact hs.abs u hu
    have hget : s1.R.get (vecName (s1.H.name t)) = none := by
      rw [hJ1.inv.abs _ habs, htn, ← hnu]; exact hno
    have hfac : vectorFactory key s1 t = andThen (onReg (s1.new (vecDef s1.H t))
        (addAuto key (s1.new (vecDef s1.H t)).H (s1.new (vecDef s1.H t)).R s1.H.next [])) fun s2 _ => (s2, .ok s1.H.next) := by
      unfold vectorFactory hasM
      simp only
      rw [has_base (baseName_vec _) habs, hget]
      simp
    rw [hfac]
    refine made_container hk hs hna hJ1 hkept hu hp hst1' hno ?_ ?_ ?_
    · intro x hx
      simp only [vecDef, Kind.deps, Kind.elem?, Option.toList, List.mem_singleton] at hx
      subst hx
      exact htk
    · intro l hl; cases hl
    · unfold definition
      rw [hJ1.name hs hu, hJ1.kind hs hu, ← hkd, hkind, hnu]
      simp only [vecDef, Kind.desc]
      rw [htn, hne]
  | str e =>
    simp only
    obtain ⟨h1, t, st1, hrt, hJ1, ht, hst1⟩ := helem e (by rw [hkind]; rfl)
    obtain ⟨s1, hs1⟩ : ∃ s1, s1 = ({ s with st := st1 } : MSt) := ⟨_, rfl⟩
    rw [← hs1] at hrt hJ1
    rw [hrt]
    simp only [andThen_ok]
    have hkept : Kept s s1 := by rw [hs1]; exact ⟨Nat.le_refl _, fun _ _ => rfl, fun _ _ h => h⟩
    have hst1' : ∀ k w, s.st.lookup k = some w → s1.st.lookup k = some w := by rw [hs1]; exact hst1
    have hno : s1.R.reg (H0.name u) = none := by rw [hs1]; exact hr
    have ht1 : Copy H0 pend s1 e t := by rw [hs1]; exact ht
    clear hs1
    have htk := hJ1.copy_known ht1
    have htn : s1.H.name t = H0.name e := hJ1.copy_name hs h1 ht1
    have hne : s1.H.name e = H0.name e := hJ1.name hs h1
    obtain ⟨hnu, hni⟩ := hs.str u e hu (hkd ▸ hkind)
    have hnr := hno
    rw [hnu] at hnr
    have hreg : s1.R.reg int8Name = some t := by
      rcases ht1 with e1 | e1
      · rw [← hni]; exact e1
      · exact absurd (hpend e t e1) (hs.noloop u e hu (Or.inr (hkd ▸ hkind)))
    have habs : isAbsoluteName stringName = true := by decide
    have habs8 : isAbsoluteName int8Name = true := by decide
    have hfac : stringFactory key s1 = andThen (onReg (s1.new ⟨stringName, 32, .str t⟩)
        (addAuto key (s1.new ⟨stringName, 32, .str t⟩).H (s1.new ⟨stringName, 32, .str t⟩).R s1.H.next [])) fun s2 _ =>
          (s2, .ok s1.H.next) := by
      unfold stringFactory stringElement hasM
      simp only
      rw [has_base baseName_string habs, hJ1.inv.abs _ habs, hnr]
      simp only [Option.isSome_none, andThen_ok, Bool.false_eq_true, if_false]
      rw [has_base baseName_int8 habs8, hJ1.inv.abs _ habs8, hreg]
      simp only [Option.isSome_some, Bool.not_true, andThen_ok, Bool.false_eq_true, if_false]
      rw [hJ1.inv.abs _ habs8, hreg]
      rfl
    rw [hfac]
    refine made_container hk hs hna hJ1 hkept hu hp hst1' hno ?_ ?_ ?_
    · intro x hx
      simp only [Kind.deps, Kind.elem?, Option.toList, List.mem_singleton] at hx
      subst hx
      exact htk
    · intro l hl; cases hl
    · unfold definition
      rw [hJ1.name hs hu, hJ1.kind hs hu, ← hkd, hkind, hnu]
      simp only [Kind.desc]
      rw [htn, hne, hni]
  | comp fs =>
    simp only
    let p := s.H.next
    have hJ0 := h.new_obj hs (d := ⟨s.H.name u, 0, .comp []⟩) (by simp [Kind.deps]) (by intro l hl; cases hl)
    have hgp : (s.H.alloc ⟨s.H.name u, 0, .comp []⟩).get p = ⟨s.H.name u, 0, .comp []⟩ := alloc_get_new _ _
    have hJ1 : J key H0 R0 S base ((u, p) :: pend)
        { (s.new ⟨s.H.name u, 0, .comp []⟩) with st := sins s.st u p } := by
      refine hJ0.start hu hr hlk0 h.next (Nat.lt_succ_self _) ?_
      show ((s.H.alloc _).get p).name = _
      rw [hgp, h.name hs hu]
    have hP : Partial H0 ((u, p) :: pend) { (s.new ⟨s.H.name u, 0, .comp []⟩) with st := sins s.st u p } p [] := by
      refine ⟨[], ?_, rfl, by simp⟩
      show ((s.H.alloc _).get p).kind = _
      rw [hgp]
    have hfs : ∀ g ∈ fs, S g.ty ∧ g.ty ∈ H0.deps u ∧ weight H0 ((u, p) :: pend) g.ty < f := by
      intro g hg
      have hm : g.ty ∈ H0.deps u := by
        unfold Heap.deps
        rw [← hkd, hkind]
        exact List.mem_map.mpr ⟨g, hg, rfl⟩
      have h1 := hs.deps u g.ty hu hm
      exact ⟨h1, hm, hJ1.weight_enter hs (rest := pend) rfl (hs.alloc _ h1) hf⟩
    have hpend' : ∀ k q, (k, q) ∈ (u, p) :: pend → DepStar H0 k u := by
      intro k q hkq
      rcases List.mem_cons.mp hkq with e | e
      · cases e; exact .refl
      · exact hpend k q e
    obtain ⟨⟨i1, i2, i3⟩, i4⟩ := mergeFields_spec hs hrec hu (p := p) (by simp) hpend' fs [] _ hJ1 hP hfs
    rw [List.nil_append] at i4
    have hst1' : ({ (s.new ⟨s.H.name u, 0, .comp []⟩) with st := sins (s.new ⟨s.H.name u, 0, .comp []⟩).st u s.H.next } : MSt) =
      { (s.new ⟨s.H.name u, 0, .comp []⟩) with st := sins s.st u p } := rfl
    rw [hst1']
    generalize mergeFields rec p fs { (s.new ⟨s.H.name u, 0, .comp []⟩) with st := sins s.st u p } = x at i1 i2 i3 i4
    show Made key H0 R0 S base pend s u (andThen (eraseOnExn u x) fun s r => (s.setSize p (s.H.size u), .ok p))
    obtain ⟨s2, r2⟩ := x
    simp only at i1 i2 i3 i4
    have hkept : Kept s s2 := by
      refine ⟨Nat.le_trans (Nat.le_succ _) i1, ?_, i3⟩
      intro t ht
      rw [i2 t (Nat.lt_succ_of_lt ht) (Nat.ne_of_lt ht)]
      exact alloc_get_old _ _ ht
    rcases i4 with ⟨rfl, hJ2, ⟨gs, hgk, hmap, hgs⟩, hst2⟩ | ⟨rfl, hex⟩
    · simp only [eraseOnExn, andThen_ok]
      obtain ⟨_, hlook, hnoreg, hfresh, hplt, hpname⟩ := hJ2.pnd u p (by simp)
      have hunreg := hJ2.pend_unreg (u := u) (p := p) (by simp)
      have hset : s2.setSize p (s2.H.size u) = s2.set p ⟨s2.H.name p, s2.H.size u, s2.H.kind p⟩ := rfl
      rw [hset, hgk]
      have hJ3 := hJ2.set_obj hs (d := ⟨s2.H.name p, s2.H.size u, .comp gs⟩) hfresh hunreg rfl rfl (fun g hg =>
        hJ2.known_lt (hgs g hg))
      have hget3 : ∀ t, (s2.set p ⟨s2.H.name p, s2.H.size u, .comp gs⟩).H.get t =
          if t = p then ⟨s2.H.name p, s2.H.size u, .comp gs⟩ else s2.H.get t := fun _ => rfl
      have hnm3 : ∀ t, (s2.set p ⟨s2.H.name p, s2.H.size u, .comp gs⟩).H.name t = s2.H.name t := by
        intro t
        show ((s2.set p ⟨s2.H.name p, s2.H.size u, .comp gs⟩).H.get t).name = _
        rw [hget3]
        split
        · rename_i e; rw [e]
        · rfl
      have hup : u ≠ p := by
        intro e
        exact absurd (hs.alloc u hu) (Nat.not_lt.mpr (e ▸ hfresh))
      have hsins : sins s2.st u p = s2.st := by unfold sins; rw [hlook]
      refine ⟨⟨hkept.next, ?_, hkept.ext⟩, Or.inl ⟨p, (u, p) :: pend, rfl, ?_, Or.inl rfl, hplt, hfresh, ?_, ?_, ?_,
        Or.inr hlook, ?_⟩⟩
      · intro t ht
        rw [hget3, if_neg (Nat.ne_of_lt ht)]
        exact hkept.get t ht
      · show J key H0 R0 S base _ { (s2.set p ⟨s2.H.name p, s2.H.size u, .comp gs⟩) with st := sins s2.st u p }
        rw [hsins]
        exact hJ3
      · rw [hnm3]; exact hpname
      · intro x hx
        have hx' : x ∈ (Kind.comp gs).deps := by
          have : (s2.set p ⟨s2.H.name p, s2.H.size u, .comp gs⟩).H.deps p = (Kind.comp gs).deps := by
            unfold Heap.deps Heap.kind; rw [hget3, if_pos rfl]
          rw [← this]; exact hx
        obtain ⟨g, hg, rfl⟩ := List.mem_map.mp hx'
        rcases hgs g hg with e | e
        · left
          show s2.R.reg ((s2.set p ⟨s2.H.name p, s2.H.size u, .comp gs⟩).H.name g.ty) = some g.ty
          rw [hnm3]
          exact e
        · exact Or.inr e
      · have e1 : definition (s2.set p ⟨s2.H.name p, s2.H.size u, .comp gs⟩).H u = definition s2.H u :=
          definition_congr (by rw [hget3, if_neg hup]) (fun x _ => hnm3 x)
        show definition (s2.set p ⟨s2.H.name p, s2.H.size u, .comp gs⟩).H p = definition (s2.set p ⟨s2.H.name p, s2.H.size u, .comp gs⟩).H u
        rw [e1]
        have hku : s2.H.kind u = .comp fs := (hJ2.kind hs hu).trans (hkd.symm.trans hkind)
        have hkp : (s2.set p ⟨s2.H.name p, s2.H.size u, .comp gs⟩).H.kind p = .comp gs := by
          unfold Heap.kind; rw [hget3, if_pos rfl]
        have hsp : (s2.set p ⟨s2.H.name p, s2.H.size u, .comp gs⟩).H.size p = s2.H.size u := by
          show ((s2.set p ⟨s2.H.name p, s2.H.size u, .comp gs⟩).H.get p).size = _
          rw [hget3, if_pos rfl]
        unfold definition
        rw [hku, hkp, hsp, hnm3, hpname, hJ2.name hs hu]
        refine congrArg _ (congrArg _ ?_)
        simp only [Kind.desc]
        congr 1
        refine Eq.trans (List.map_congr_left (fun g hg => by rw [← hpname, hnm3])) (hmap.trans ?_)
        apply List.map_congr_left
        intro g hg
        rw [hJ2.name hs (hfs g hg).1]
      · intro k w hkw
        refine hst2 k w ?_
        simp only [lookup_sins]
        split
        · rename_i e; rw [e, hlk0] at hkw; cases hkw
        · exact hkw
    · simp only [eraseOnExn, andThen_exn]
      exact ⟨⟨hkept.next, hkept.get, hkept.ext⟩, Or.inr ⟨rfl, hex⟩⟩

theorem typeMerge_spec (hk : ∀ a b, key a = key b → a = b) (hs : Source H0 S)
    (hna : ∀ u, S u → ¬ FromAlias H0 R0 (H0.name u)) {rec : MSt → TId → MSt × Res TId} {f : Nat}
    (hrec : Spec key H0 R0 S base f rec) {s : MSt} {u : TId} (hagain : ∀ e, (s.H.kind u).elem? = some e → Again key H0 R0 S base rec)
    (h : J key H0 R0 S base pend s) (hu : S u) (hf : weight H0 pend u < f + 1)
    (hpend : ∀ k p, (k, p) ∈ pend → DepStar H0 k u)
    (hel : ∀ e, (s.H.kind u).elem? = some e → ∃ t, Copy H0 pend s e t) :
    Post key H0 R0 S base pend s u (typeMerge key rec s u) := by
  unfold typeMerge
  rcases tryMerge_spec h hs hu with ⟨v, st', e, hJ, hv, hst⟩ | ⟨e, hr, hl⟩
  · rw [e]
    simp only [andThen_ok]
    exact ⟨⟨Nat.le_refl _, fun _ _ => rfl, fun _ _ h => h⟩, Or.inl ⟨v, rfl, hJ, hv, hst⟩⟩
  · rw [e]
    simp only [andThen_ok]
    obtain ⟨hkept, hm⟩ := doMerge_spec hk hs hna hrec hagain h hu hf hpend hr hl hel
    generalize doMerge key rec s u = x at hkept hm
    obtain ⟨s1, r1⟩ := x
    simp only at hkept hm
    rcases hm with ⟨n, pend', rfl, hJ, h0, h1, h2, h3, h4, h6, h7, h8⟩ | ⟨rfl, hex⟩
    · simp only [andThen_ok]
      have hlks : (sins s1.st u n).lookup u = some n := by
        rw [lookup_sins, if_pos rfl]
        rcases h7 with e | e <;> rw [e] <;> rfl
      obtain ⟨c1, c2⟩ := addAuto_J hk hs hna (pend := pend) (s := { s1 with st := sins s1.st u n }) (H' := s1.H) [] hJ hu h1 h2 h3
        h4 h0 rfl (fun _ _ => rfl) rfl rfl h6 hlks
      simp only at c1 c2
      generalize addAuto key s1.H s1.R n [] = ao at c1 c2
      obtain ⟨R1, a1⟩ := ao
      simp only at c1 c2
      rcases c2 with ⟨rfl, e2, e3⟩ | ⟨rfl, e2⟩
      · simp only [onReg, andThen_ok]
        refine ⟨hkept.trans ⟨Nat.le_refl _, fun _ _ => rfl, c1⟩, Or.inl ⟨n, rfl, e2, Or.inl e3, ?_⟩⟩
        intro k w hkw
        simp only [lookup_sins]
        have := h8 k w hkw
        split
        · rename_i ek; rw [← ek, this]; rfl
        · exact this
      · simp only [onReg, andThen_exn]
        exact ⟨hkept.trans ⟨Nat.le_refl _, fun _ _ => rfl, c1⟩, Or.inr ⟨rfl, e2⟩⟩
    · simp only [andThen_exn]
      exact ⟨hkept, Or.inr ⟨rfl, hex⟩⟩

theorem mergeF_again (hs : Source H0 S) (f : Nat) : Again key H0 R0 S base (mergeF key (f + 1)) := by
  intro pend s u t h hu ht
  rcases tryMerge_spec h hs hu with ⟨v, st', e1, hJ, hv, hst⟩ | ⟨_, hr, hl⟩
  · obtain rfl := h.copy_unique ht hv
    refine ⟨st', ?_, hJ, hst⟩
    unfold mergeF
    cases (s.H.kind u).elem? with
    | none =>
      simp only
      unfold typeMerge
      rw [e1]
      rfl
    | some e =>
      simp only
      rw [e1]
      rfl
  · exfalso
    rcases ht with e | e
    · rw [hr] at e; cases e
    · exact h.pend_lookup hl t e

/-- `Type::merge` -/
theorem mergeF_spec (hk : ∀ a b, key a = key b → a = b) (hs : Source H0 S)
    (hna : ∀ u, S u → ¬ FromAlias H0 R0 (H0.name u)) : ∀ f, Spec key H0 R0 S base f (mergeF key f) := by
  intro f
  induction f with
  | zero => intro pend s u _ _ h; omega
  | succ f ih =>
    intro pend s u h hu hf hpend
    unfold mergeF
    cases he : (s.H.kind u).elem? with
    | none =>
      exact typeMerge_spec hk hs hna ih (fun e h' => by rw [he] at h'; cases h') h hu hf hpend
        (fun e h' => by rw [he] at h'; cases h')
    | some e =>
      simp only
      have hm : e ∈ H0.deps u := by
        unfold Heap.deps; rw [← h.kind hs hu]; exact elem_mem_deps he
      have heu : e < u := h.ac u e he
      have hfe : weight H0 pend e < f := by
        exact Nat.lt_of_lt_of_le (Nat.add_lt_add_left heu _) (Nat.le_of_lt_succ hf)
      have hagain : Again key H0 R0 S base (mergeF key f) := by
        obtain ⟨g, rfl⟩ : ∃ g, f = g + 1 := ⟨f - 1, by omega⟩
        exact mergeF_again hs g
      rcases tryMerge_spec h hs hu with ⟨v, st', e1, hJ, hv, hst⟩ | ⟨e1, hr, hl⟩
      · rw [e1]
        simp only [andThen_ok]
        exact ⟨⟨Nat.le_refl _, fun _ _ => rfl, fun _ _ h => h⟩, Or.inl ⟨v, rfl, hJ, hv, hst⟩⟩
      · rw [e1]
        simp only [andThen_ok]
        have g1 := hs.deps u e hu hm
        obtain ⟨hkept, hpost⟩ := ih pend s e h g1 hfe (fun k p hk => .step (hpend k p hk) hm)
        generalize mergeF key f s e = x at hkept hpost
        obtain ⟨s1, r1⟩ := x
        simp only at hkept hpost
        rcases hpost with ⟨t, rfl, hJ1, ht, hst1⟩ | ⟨rfl, hex⟩
        · simp only [andThen_ok]
          obtain ⟨hkept2, hpost2⟩ := typeMerge_spec hk hs hna ih (fun _ _ => hagain) hJ1 hu hf hpend (by
            intro e' he'
            rw [hJ1.kind hs hu, ← h.kind hs hu, he] at he'
            cases he'
            exact ⟨t, ht⟩)
          refine ⟨hkept.trans hkept2, ?_⟩
          rcases hpost2 with ⟨t2, i1, i2, i3, i4⟩ | i
          · exact Or.inl ⟨t2, i1, i2, i3, fun k w hkw => i4 k w (hst1 k w hkw)⟩
          · exact Or.inr i
        · simp only [andThen_exn]
          exact ⟨hkept, Or.inr ⟨rfl, hex⟩⟩

/-- the start of a merge -/
theorem Dest.start (hs : Source H0 S) (hd : Dest key H0 R0 S) : J key H0 R0 S (R0.regd H0) [] ⟨H0, R0, []⟩ := by
  have hcl : ∀ t d, R0.regd H0 t → d ∈ H0.deps t → R0.regd H0 d := fun t d ht hdep =>
    (hd.inv.regd_iff d).mp (hd.closed t d ((hd.inv.regd_iff t).mpr ht) hdep)
  refine ⟨hd.inv, hd.acyclic, hd.wf, Nat.le_refl _, fun _ _ => rfl, fun _ _ h => h, fun t d ht h => Or.inl (hcl t d ht h), ?_, ?_, ?_,
    ?_, ?_, ?_, List.nodup_nil, fun _ h => h, hcl, ?_⟩
  · intro u t hu ht
    refine hd.agree u t hu ?_
    rw [hd.inv.abs _ (hs.abs u hu)]
    exact ht
  · intro n t h1 h2
    exact .alias h1 h2
  · intro u hu ht
    exact hd.disjoint u hu ((hd.inv.regd_iff u).mpr ht)
  · intro k v h
    cases h
  · intro t ht
    exact Or.inl ht
  · intro k p h
    cases h
  · intro u t hu ht
    exact Or.inl (hd.inv.reg_name ht).2.2.1

/-- going on with an empty stack -/
theorem J.restart {s : MSt} (h : J key H0 R0 S base [] s) : J key H0 R0 S (s.R.regd s.H) [] { s with st := [] } := by
  have hcl : ∀ t d, s.R.regd s.H t → d ∈ s.H.deps t → s.R.regd s.H d := by
    intro t d ht hd
    rcases h.closed t d ht hd with e | ⟨k, e⟩
    · exact e
    · cases e
  refine ⟨h.inv, h.ac, h.wf, h.next, h.old, h.ext, fun t d ht hd => Or.inl (hcl t d ht hd), h.compat, h.alia, h.disj,
    ?_, h.new, ?_, List.nodup_nil, fun _ h => h, hcl, ?_⟩
  · intro k v hk
    cases hk
  · intro k p hk
    cases hk
  · intro u t hu ht
    exact Or.inl (h.inv.reg_name ht).2.2.1

end Verif.Merge
