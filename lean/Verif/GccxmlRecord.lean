import Verif.GccxmlProps

/-!
Property C71: the classes.
-/

namespace Verif.Gccxml
open Verif Verif.Names Verif.Graph Verif.Registry Verif.TypeBuilder Verif.Merge Verif.RubyBuilder Verif.CompoundModel Verif.RubyNames
open Verif.Clang (kind_new size_new name_new abs_app)
open Verif.RubyConvert (num2int)

variable {key : Char → Int} {P : Prog} {S : Sem} {K : Str → Prop}

/-- the members of an object that is `k` bytes further -/
def shift (k : Nat) (l : List (Nat × GField)) : List (Nat × GField) := l.map fun m => (m.1 + k, m.2)

theorem Members.shift {i s : Nat} {l : List (Nat × GField)} (h : Members P S i s l) : ∀ k, Members P S i (s + k) (Gccxml.shift k l) := by
  refine Members.rec (motive_1 := fun i s l _ => ∀ k, Members P S i (s + k) (Gccxml.shift k l))
    (motive_2 := fun s bs l _ => ∀ k, BaseMembers P S (s + k) bs (Gccxml.shift k l)) ?_ ?_ ?_ h
  · intro i s r l h1 h2 ih k
    have := Members.mk h1 (ih k)
    unfold Gccxml.shift at this ⊢
    rw [List.map_append, List.map_map]
    exact this
  · intro s k; exact .nil
  · intro s d b bs l l' h1 h2 h3 ih1 ih2 k
    have := BaseMembers.cons (s := s + k) h1 (by rw [Nat.add_right_comm]; exact ih1 k) (ih2 k)
    unfold Gccxml.shift at this ⊢
    rw [List.map_append]
    exact this

theorem Members.det {i s : Nat} {l : List (Nat × GField)} (h : Members P S i s l) : ∀ l', Members P S i s l' → l = l' := by
  refine Members.rec (motive_1 := fun i s l _ => ∀ l', Members P S i s l' → l = l')
    (motive_2 := fun s bs l _ => ∀ l', BaseMembers P S s bs l' → l = l') ?_ ?_ ?_ h
  · intro i s r l h1 h2 ih l' h'
    cases h' with
    | mk h3 h4 =>
      rw [h1] at h3
      injection h3 with h3
      injection h3 with h3
      subst h3
      rw [ih _ h4]
  · intro s l' h'; cases h'; rfl
  · intro s d b bs l l2 h1 h2 h3 ih1 ih2 l' h'
    cases h' with
    | cons k1 k2 k3 =>
      rw [h1] at k1
      injection k1 with k1
      subst k1
      rw [ih1 _ k2, ih2 _ k3]

/-- a class with no data is not registered, except as an opaque type -/
theorem noData_opaque {w : World} {d : Nat} {t : TId} (h : Faithful P S w.1 (.record d) t) (hn : NoData P S d) : S.opq (.record d) := by
  cases h with
  | «opaque» h _ => exact h
  | @record i r ms fs _ h1 h2 h3 h4 h5 h6 h7 h8 =>
    have := h7.length
    rw [h3.det [] (hn 0)] at this
    exact absurd (List.length_eq_zero_iff.mp this) h5

/-- the fields of a compound, and the data members that they are -/
inductive Match (P : Prog) (S : Sem) (w : World) : List (Nat × GField) → List FieldD → Prop
  | nil : Match P S w [] []
  | cons {m : Nat × GField} {f : FieldD} {ms : List (Nat × GField)} {fs : List FieldD} : f.name = m.2.name →
      f.offset * 8 = m.1 * 8 + m.2.offset → m.2.pub = true → Faithful P S w.1 (S.ty m.2.ty) f.ty → f.ty < w.1.next → Match P S w ms fs →
      Match P S w (m :: ms) (f :: fs)

theorem Match.append {w : World} {a b : List (Nat × GField)} {x y : List FieldD} (h : Match P S w a x) (h' : Match P S w b y) :
    Match P S w (a ++ b) (x ++ y) := by
  induction h with
  | nil => exact h'
  | cons e1 e2 e3 e4 e5 _ ih => exact .cons e1 e2 e3 e4 e5 ih

theorem Match.ext {w w' : World} (clo : ∀ u, u < w.1.next → ∀ x ∈ w.1.deps u, x < w.1.next) (h : Ext w w')
    {a : List (Nat × GField)} {x : List FieldD} (hm : Match P S w a x) : Match P S w' a x := by
  induction hm with
  | nil => exact .nil
  | cons e1 e2 e3 e4 e5 _ ih => exact .cons e1 e2 e3 (h.faithful clo e5 e4) (Nat.lt_of_lt_of_le e5 h.next) ih

theorem Match.same {w : World} {ms : List (Nat × GField)} {fs : List FieldD} (h : Match P S w ms fs) : SameFields ms fs := by
  induction h with
  | nil => exact ⟨rfl, fun k m fd h => by cases h⟩
  | cons e1 e2 e3 e4 e5 _ ih =>
    refine ⟨by simp [ih.length], fun k m fd h1 h2 => ?_⟩
    cases k with
    | zero => injection h1 with h1; injection h2 with h2; subst h1; subst h2; exact ⟨e1, e2, e3⟩
    | succ k => exact ih.field k m fd h1 h2

theorem Match.types {w : World} {ms : List (Nat × GField)} {fs : List FieldD} (h : Match P S w ms fs) :
    ∀ (k : Nat) (m : Nat × GField) (fd : FieldD), ms[k]? = some m → fs[k]? = some fd → Faithful P S w.1 (S.ty m.2.ty) fd.ty := by
  induction h with
  | nil => exact fun k m fd h => by cases h
  | cons e1 e2 e3 e4 e5 _ ih =>
    intro k m fd h1 h2
    cases k with
    | zero => injection h1 with h1; injection h2 with h2; subst h1; subst h2; exact e4
    | succ k => exact ih k m fd h1 h2

theorem Match.lt {w : World} {ms : List (Nat × GField)} {fs : List FieldD} (h : Match P S w ms fs) : ∀ f ∈ fs, f.ty < w.1.next := by
  induction h with
  | nil => intro f hf; cases hf
  | cons e1 e2 e3 e4 e5 _ ih =>
    intro f hf
    rcases List.mem_cons.mp hf with rfl | hf
    · exact e5
    · exact ih f hf

theorem Match.names {w : World} {ms : List (Nat × GField)} {fs : List FieldD} (h : Match P S w ms fs) :
    fs.map (·.name) = ms.map (fun m => m.2.name) := by
  induction h with
  | nil => rfl
  | cons e1 e2 e3 e4 e5 _ ih => rw [List.map_cons, List.map_cons, ih, e1]

theorem Match.of {w : World} : ∀ {ms : List (Nat × GField)} {fs : List FieldD}, SameFields ms fs →
    (∀ (k : Nat) (m : Nat × GField) (fd : FieldD), ms[k]? = some m → fs[k]? = some fd → Faithful P S w.1 (S.ty m.2.ty) fd.ty) →
    (∀ f ∈ fs, f.ty < w.1.next) → Match P S w ms fs
  | [], [], _, _, _ => .nil
  | [], _ :: _, h, _, _ => by cases h.length
  | _ :: _, [], h, _, _ => by cases h.length
  | m :: ms, f :: fs, h, h', hl => by
    obtain ⟨e1, e2, e3⟩ := h.field 0 m f rfl rfl
    exact .cons e1 e2 e3 (h' 0 m f rfl rfl) (hl f (List.mem_cons_self ..))
      (Match.of ⟨by have := h.length; simpa using this, fun k m' fd a b => h.field (k + 1) m' fd a b⟩
        (fun k m' fd a b => h' (k + 1) m' fd a b) (fun g hg => hl g (List.mem_cons_of_mem _ hg)))

/-- the fields moved by `k` bytes -/
def moved (k : Nat) (fs : List FieldD) : List FieldD := fs.map fun f => ⟨f.name, k + f.offset, f.ty⟩

theorem Match.moved {w : World} {ms : List (Nat × GField)} {fs : List FieldD} (h : Match P S w ms fs) (k : Nat) :
    Match P S w (Gccxml.shift k ms) (Gccxml.moved k fs) := by
  induction h with
  | nil => exact .nil
  | @cons m f ms fs e1 e2 e3 e4 e5 _ ih =>
    exact .cons e1 (by show (k + f.offset) * 8 = (m.1 + k) * 8 + m.2.offset; omega) e3 e4 e5 ih

/-- the fields as they are asked for -/
def reqs (fs : List FieldD) : List FieldReq := fs.map fun f => ⟨f.name, f.ty, some (f.offset : Int)⟩

theorem reqs_append (a b : List FieldD) : reqs (a ++ b) = reqs a ++ reqs b := List.map_append

theorem offsetOf_nodup {fs : List FieldD} (h : (fs.map (·.name)).Nodup) {f : FieldD} (hf : f ∈ fs) : offsetOf fs f.name = f.offset := by
  induction fs with
  | nil => cases hf
  | cons g fs ih =>
    rw [List.map_cons, List.nodup_cons] at h
    unfold offsetOf
    by_cases he : g.name = f.name
    · rw [List.find?_cons_of_pos (by simpa using he)]
      rcases List.mem_cons.mp hf with rfl | hm
      · rfl
      · exact absurd (he ▸ List.mem_map.mpr ⟨f, hm, rfl⟩) h.1
    · rw [List.find?_cons_of_neg (by simpa using he)]
      rcases List.mem_cons.mp hf with rfl | hm
      · exact absurd rfl he
      · exact ih h.2 hm

theorem fieldOffsets_reqs (sz : TId → Nat) : ∀ (fs : List FieldD) (cur : Int),
    fieldOffsets sz cur (reqs fs) = (fs.map fun f => (f.name, f.ty, f.offset)).map fun a => (a.1, a.2.1, (a.2.2 : Int))
  | [], _ => rfl
  | f :: fs, cur => by
    have := fieldOffsets_reqs sz fs ((f.offset : Int) + sz f.ty)
    unfold reqs at this ⊢
    simp only [List.map_cons, fieldOffsets, Option.getD_some, this]

/-- `create_compound` with all the offsets given -/
theorem createCompound_cases (w : World) (n : Str) (fs : List FieldD) {sz : Nat} (h0 : 0 < sz) :
    (∃ r, createCompound key w n (reqs fs) (sz : Int) = (w, r) ∧ (∀ a, r ≠ .ok a) ∧ r ≠ .fuel) ∨
    createCompound key w n (reqs fs) (sz : Int) = define key w ⟨n, sz, .comp fs⟩ := by
  unfold createCompound
  rw [fieldOffsets_reqs]
  obtain ⟨h1, h2⟩ := addFields_spec w.1.size (fs.map fun f => (f.name, f.ty, f.offset)) Comp.new
  by_cases hall : ∀ a ∈ (fs.map fun f => (f.name, f.ty, f.offset)), a.2.2 < 2147483648
  · rw [h1 hall, Res.bind_ok, num2int_nat]
    by_cases hs : sz < 2147483648
    · right
      rw [if_pos hs, Res.bind_ok, RubyBuilder.toSizeT_nat hs, if_pos (by omega)]
      have : (Comp.new.adds w.1.size (fs.map fun f => (f.name, f.ty, f.offset))).fields = fs := by
        rw [adds_fields, List.map_map]
        show [] ++ List.map _ fs = fs
        rw [List.nil_append]
        exact (List.map_congr_left (fun f _ => rfl)).trans (List.map_id fs)
      show define key w ⟨n, sz, .comp (Comp.new.adds w.1.size (fs.map fun f => (f.name, f.ty, f.offset))).fields⟩ = _
      rw [this]
    · left
      rw [if_neg hs]
      exact ⟨_, rfl, nofun, nofun⟩
  · left
    rw [h2 hall]
    exact ⟨_, rfl, nofun, nofun⟩

/-- what the base classes that are kept are -/
inductive Bases (P : Prog) (S : Sem) (w : World) : List GBase → List (TId × Nat) → Prop
  | nil : Bases P S w [] []
  | skip {d : Nat} {b : GBase} {bs : List GBase} {l : List (TId × Nat)} : S.ty b.ty = .record d → NoData P S d → Bases P S w bs l →
      Bases P S w (b :: bs) l
  | cons {b : GBase} {bs : List GBase} {t : TId} {l : List (TId × Nat)} : b.virt = false → b.pub = true → Is P S (S.ty b.ty) w t →
      Bases P S w bs l → Bases P S w (b :: bs) ((t, b.offset) :: l)

theorem Bases.ext {w w' : World} (hg : Good key P S w) (h : Ext w w') {bs : List GBase} {l : List (TId × Nat)} (hb : Bases P S w bs l) :
    Bases P S w' bs l := by
  induction hb with
  | nil => exact .nil
  | skip e1 e2 _ ih => exact .skip e1 e2 ih
  | cons e1 e2 e3 _ ih => exact .cons e1 e2 (e3.ext hg h) ih

theorem Bases.data {w : World} {bs : List GBase} {l : List (TId × Nat)} (hb : Bases P S w bs l) :
    ∀ b ∈ bs, (b.virt = false ∧ b.pub = true) ∨ ∃ d, S.ty b.ty = .record d ∧ NoData P S d := by
  induction hb with
  | nil => intro b hb; cases hb
  | skip e1 e2 _ ih =>
    intro b hb
    rcases List.mem_cons.mp hb with rfl | hb
    · exact Or.inr ⟨_, e1, e2⟩
    · exact ih b hb
  | cons e1 e2 e3 _ ih =>
    intro b hb
    rcases List.mem_cons.mp hb with rfl | hb
    · exact Or.inl ⟨e1, e2⟩
    · exact ih b hb

section
variable {rec : St → Nat → St × Res (Option Str)}

theorem resolveBases_post (hr : RecOk key P S K rec) {i : Nat} {r : GRecord} (hi : P.nodes[i]? = some (.record r))
    (hty : S.ty i = .record i) (hun : Unknown P K i) :
    ∀ (bs : List GBase) {s : St}, (∀ b ∈ bs, b ∈ r.bases) → SGood key P S K s →
    PostS key P S K s (resolveBases P rec s bs) (fun s' o => (∀ l, o = some l → Bases P S s'.w bs l) ∧ (o = none → Refused P S K i)) := by
  intro bs
  induction bs with
  | nil => intro s _ hg; exact .ok hg ⟨(fun l h => by injection h with h; rw [← h]; exact .nil), fun h => by cases h⟩
  | cons b bs ih =>
    intro s hsub hg
    have hb := hsub b (List.mem_cons_self ..)
    have hsub' : ∀ b ∈ bs, b ∈ r.bases := fun c hc => hsub c (List.mem_cons_of_mem _ hc)
    rw [resolveBases]
    refine (resolveId_post hr hg b.ty).then fun s' o g' e' hn => ?_
    split
    next hem =>
      obtain ⟨a1, a2, _⟩ := g'.empty _ hem
      exact (ih hsub' g').mono fun s2 o2 g2 e2 h2 => ⟨fun l hl => .skip a1 a2 (h2.1 l hl), h2.2⟩
    next hem =>
      cases o with
      | none =>
        refine .ok g' ⟨(fun l h => by cases h), fun _ => ?_⟩
        rcases hn.2 rfl with h | h
        · exact .base hi hty hun hb h
        · exact absurd h hem
      | some n =>
        obtain ⟨a1, a2⟩ := hn.1 n rfl
        simp only
        cases hget : getS s' n with
        | ok t =>
          have ht := getS_ok g' a1 a2 hget
          have hno : ∀ d, S.ty b.ty = .record d → NoData P S d → S.opq (S.ty b.ty) := by
            intro d hd hnd
            have := ht.2.1
            rw [hd] at this ⊢
            exact noData_opaque this hnd
          simp only
          cases hv : b.virt with
          | true => exact .ok g' ⟨(fun l h => by cases h), fun _ => .baseAccess hi hty hun hb (Or.inl hv) hno⟩
          | false =>
            cases hp : b.pub with
            | false => exact .ok g' ⟨(fun l h => by cases h), fun _ => .baseAccess hi hty hun hb (Or.inr hp) hno⟩
            | true =>
              simp only [Bool.false_eq_true, if_false, Bool.not_true]
              refine (ih hsub' g').then fun s2 o2 g2 e2 h2 => .ok g2 ?_
              cases o2 with
              | none => exact ⟨(fun l h => by cases h), fun _ => h2.2 rfl⟩
              | some l2 =>
                refine ⟨fun l hl => ?_, fun h => by cases h⟩
                injection hl with hl
                rw [← hl]
                exact .cons hv hp (ht.ext g'.good e2.ext) (h2.1 l2 rfl)
        | exn e => exact .exn g'
        | ub => exact .ub g'
        | fuel => exact .fuel g'

/-- the fields of a base class are the data members of its class -/
theorem baseFields_ok (hU : Supported P S) {w : World} (hg : Good key P S w) {c : CCT} {t : TId} (ht : Is P S c w t) {fs : List FieldD}
    (h : baseFields w t = .ok fs) : fs ≠ [] ∧ ∃ d ms, c = .record d ∧ Members P S d 0 ms ∧ Match P S w ms fs ∧ (fs.map (·.name)).Nodup := by
  have hk : w.1.kind t = .comp fs := by
    unfold baseFields at h
    split at h
    next h' => injection h with h; rw [← h]; exact h'
    · cases h
  have hlt := hg.lt ht.1
  have hclo : ∀ f ∈ fs, f.ty < w.1.next := fun f hf => hg.clo t hlt _ (by
    unfold Heap.deps; rw [hk]; exact List.mem_map.mpr ⟨f, hf, rfl⟩)
  have hf := ht.2.1
  cases hf with
  | @record i r ms fs' _ h1 h2 h3 h4 h5 h6 h7 h8 =>
    rw [hk] at h4
    injection h4 with h4
    subst h4
    have hm := Match.of h7 h8 hclo
    exact ⟨h5, i, ms, rfl, h3, hm, by rw [hm.names]; exact hU.distinct i r 0 ms h1 h3⟩
  | null h => rw [hk] at h; cases h
  | «opaque» _ h => rw [hk] at h; cases h
  | num _ h => rw [hk] at h; cases h
  | enum _ h => rw [hk] at h; cases h
  | arr h => rw [hk] at h; cases h
  | ptr h => rw [hk] at h; cases h
  | vec h => rw [hk] at h; cases h
  | str h => rw [hk] at h; cases h

theorem inherited_ok (hU : Supported P S) {w : World} (hg : Good key P S w) {bs : List GBase} {l : List (TId × Nat)}
    (hb : Bases P S w bs l) : ∀ {r : List FieldReq}, inherited w l = .ok r →
    ∃ ms fs, BaseMembers P S 0 bs ms ∧ Match P S w ms fs ∧ r = reqs fs ∧ (l ≠ [] → fs ≠ []) := by
  induction hb with
  | nil =>
    intro r h
    injection h with h
    exact ⟨[], [], .nil, .nil, h.symm, fun h => absurd rfl h⟩
  | @skip d b bs l e1 e2 _ ih =>
    intro r h
    obtain ⟨ms, fs, h1, h2, h3, h4⟩ := ih h
    exact ⟨ms, fs, .cons (l := []) e1 (e2 _) h1, h2, h3, h4⟩
  | @cons b bs t l e1 e2 e3 _ ih =>
    intro r h
    rw [inherited] at h
    obtain ⟨fs, hfs, h⟩ := Res.bind_eq_ok.mp h
    obtain ⟨r', hr', h⟩ := Res.bind_eq_ok.mp h
    obtain ⟨hne, d, ms, hc, hm, hmt, hnd⟩ := baseFields_ok hU hg e3 hfs
    obtain ⟨ms', fs', h1, h2, h3, h4⟩ := ih hr'
    injection h with h
    refine ⟨shift b.offset ms ++ ms', moved b.offset fs ++ fs', .cons hc (hm.shift b.offset) h1, (hmt.moved b.offset).append h2, ?_, ?_⟩
    · rw [← h, h3, reqs_append]
      congr 1
      unfold reqs moved
      rw [List.map_map]
      exact List.map_congr_left (fun f hf => by simp only [Function.comp, offsetOf_nodup hnd hf])
    · intro _ hnil
      have := (List.append_eq_nil_iff.mp hnil).1
      unfold moved at this
      exact hne (List.map_eq_nil_iff.mp this)

theorem allEmpty_ok (hU : Supported P S) {w : World} (hg : Good key P S w) {bs : List GBase} {l : List (TId × Nat)}
    (hb : Bases P S w bs l) {e : Bool} (h : allEmpty w l = .ok e) : (e = true → ∀ s, BaseMembers P S s bs []) ∧ (e = false → l ≠ []) := by
  induction hb with
  | nil =>
    injection h with h
    exact ⟨fun _ _ => .nil, fun h' => by rw [← h] at h'; cases h'⟩
  | @skip d b bs l e1 e2 _ ih =>
    obtain ⟨h1, h2⟩ := ih h
    exact ⟨fun he s => .cons (l := []) (l' := []) e1 (e2 _) (h1 he s), h2⟩
  | @cons b bs t l e1 e2 e3 _ ih =>
    refine ⟨fun he => ?_, fun _ => by simp⟩
    rw [allEmpty] at h
    obtain ⟨fs, hfs, h⟩ := Res.bind_eq_ok.mp h
    obtain ⟨hne, _⟩ := baseFields_ok hU hg e3 hfs
    rw [if_neg (by simpa using hne), he] at h
    cases h

theorem resolveFields_post (hr : RecOk key P S K rec) {i : Nat} {r : GRecord} (hi : P.nodes[i]? = some (.record r))
    (hty : S.ty i = .record i) (hun : Unknown P K i) :
    ∀ (gs : List GField) {s : St}, (∀ f ∈ gs, f ∈ r.fields) → SGood key P S K s →
    PostS key P S K s (resolveFields P rec s gs) (fun _ o => (∀ l, o = some l → l.length = gs.length ∧
      ∀ (k : Nat) (g : GField) (x : Str × Str × Nat), gs[k]? = some g → l[k]? = some x →
        g.pub = true ∧ x.1 = g.name ∧ x.2.2 = g.offset / 8 ∧ isAbsoluteName x.2.1 = true ∧ S.den x.2.1 = some (S.ty g.ty)) ∧
      (o = none → Refused P S K i)) := by
  intro gs
  induction gs with
  | nil =>
    intro s _ hg
    exact .ok hg ⟨(fun l h => by injection h with h; rw [← h]; exact ⟨rfl, fun k g x h => by cases h⟩), fun h => by cases h⟩
  | cons f gs ih =>
    intro s hsub hg
    have hf := hsub f (List.mem_cons_self ..)
    rw [resolveFields]
    cases hp : f.pub with
    | false => exact .ok hg ⟨(fun l h => by cases h), fun _ => .field hi hty hun hf hp⟩
    | true =>
      simp only [Bool.not_true, Bool.false_eq_true, if_false]
      refine (resolveId_post hr hg f.ty).then fun s' o g' e' hn => ?_
      cases o with
      | none => exact .ok g' ⟨(fun l h => by cases h), fun _ => .fieldType hi hty hun hf (g'.gone (hn.2 rfl))⟩
      | some n =>
        obtain ⟨a1, a2⟩ := hn.1 n rfl
        refine (ih (fun c hc => hsub c (List.mem_cons_of_mem _ hc)) g').then fun s2 o2 g2 e2 h2 => .ok g2 ?_
        cases o2 with
        | none => exact ⟨(fun l h => by cases h), fun _ => h2.2 rfl⟩
        | some l2 =>
          refine ⟨fun l hl => ?_, fun h => by cases h⟩
          injection hl with hl
          rw [← hl]
          obtain ⟨b1, b2⟩ := h2.1 l2 rfl
          refine ⟨by simp [b1], fun k g x hg1 hx => ?_⟩
          cases k with
          | zero => injection hg1 with hg1; injection hx with hx; subst hg1; subst hx; exact ⟨hp, rfl, rfl, a1, a2⟩
          | succ k => exact b2 k g x hg1 hx

theorem ownFields_post (hk : ∀ a b, key a = key b → a = b) (hM : Meaning P S) : ∀ (gs : List GField) (l : List (Str × Str × Nat)),
    (∀ f ∈ gs, f.offset % 8 = 0) → l.length = gs.length →
    (∀ (k : Nat) (g : GField) (x : Str × Str × Nat), gs[k]? = some g → l[k]? = some x →
        g.pub = true ∧ x.1 = g.name ∧ x.2.2 = g.offset / 8 ∧ isAbsoluteName x.2.1 = true ∧ S.den x.2.1 = some (S.ty g.ty)) →
    ∀ {s : St}, SGood key P S K s → PostS key P S K s (ownFields key s l)
      (fun s' r => ∃ fs, Match P S s'.w (gs.map (fun f => (0, f))) fs ∧ r = reqs fs) := by
  intro gs
  induction gs with
  | nil =>
    intro l _ hlen _ s hg
    cases l with
    | nil => exact .ok hg ⟨[], .nil, rfl⟩
    | cons _ _ => cases hlen
  | cons g gs ih =>
    intro l hb hlen h s hg
    cases l with
    | nil => cases hlen
    | cons x l =>
      obtain ⟨p1, p2, p3, p4, p5⟩ := h 0 g x rfl rfl
      have h8 := hb g (List.mem_cons_self ..)
      rw [ownFields]
      refine (buildS_post hk hM hg p4).then fun s1 t g1 e1 ⟨c, hc, ht⟩ => ?_
      refine (ih l (fun f hf => hb f (List.mem_cons_of_mem _ hf)) (by simpa using hlen) (fun k a b ha hb => h (k + 1) a b ha hb) g1).then
        fun s2 r g2 e2 ⟨fs, hm, hr⟩ => .ok g2 ⟨⟨x.1, x.2.2, t⟩ :: fs, ?_, ?_⟩
      · rw [p5] at hc
        injection hc with hc
        subst hc
        have ht2 := ht.ext g1.good e2.ext
        exact .cons p2 (by show x.2.2 * 8 = 0 * 8 + g.offset; omega) p1 ht2.2.1 (g2.good.lt ht2.1) hm
      · rw [hr]; rfl

/-- the definition of the compound -/
theorem createRecord_post (hk : ∀ a b, key a = key b → a = b) (hM : Meaning P S) {w : World} (hg : Good key P S w)
    {i : Nat} {r : GRecord} (hi : P.nodes[i]? = some (.record r)) (hty : S.ty i = .record i) (hd : r.Data P S)
    {bases : List (TId × Nat)} (hne : r.fields ≠ [] ∨ bases ≠ []) (z1 : r.size % 8 = 0) (z2 : 0 < r.size)
    {ms : List (Nat × GField)} {fs fs' : List FieldD} (b1 : BaseMembers P S 0 r.bases ms)
    (b4 : bases ≠ [] → fs ≠ []) (m2 : Match P S w (r.fields.map (fun f => (0, f))) fs')
    (hm : Match P S w (ms ++ r.fields.map (fun f => (0, f))) (fs ++ fs')) {nn : Str}
    (h2 : isAbsoluteName nn = true) (h4 : S.den nn = some (S.ty i)) :
    Post key P S w (createCompound key w nn (reqs (fs ++ fs')) ((r.size / 8 : Nat) : Int)) (fun w' _ => w'.2.reg nn ≠ none) := by
  rcases createCompound_cases (key := key) w nn (fs ++ fs') (sz := r.size / 8) (by omega) with ⟨x, e1, e2, _⟩ | e1
  · rw [e1]; exact Post.ret hg (fun a ha => absurd ha (e2 a))
  · rw [e1]
    rw [hty] at h4
    refine (define_post hk hM hg ?_ h2 h4 (.record hi hd (.mk hi b1) (kind_new _ _) ?_ (by rw [size_new]; show r.size / 8 * 8 = _; omega)
      hm.same ?_) (built_leaf (by rw [kind_new]; rfl))).mono (fun _ _ _ _ h => by
        have := h.1
        simp only at this
        rw [this]; simp)
    · intro x hx
      obtain ⟨f, hf, rfl⟩ := List.mem_map.mp hx
      exact hm.lt f hf
    · intro hnil
      obtain ⟨n1, n2⟩ := List.append_eq_nil_iff.mp hnil
      rcases hne with h | h
      · rw [n2] at m2
        have := m2.names
        rw [List.map_nil, List.map_map] at this
        exact h (List.map_eq_nil_iff.mp this.symm)
      · exact b4 h n1
    · intro k m fd k1 k2
      have hmem : fd ∈ fs ++ fs' := List.mem_of_getElem? k2
      exact (hm.types k m fd k1 k2).mono hg.clo (fun t ht => alloc_get_old _ _ ht) (hm.lt fd hmem)

theorem defineRecord_post (hk : ∀ a b, key a = key b → a = b) (hM : Meaning P S) (hU : Supported P S) {s : St} (hg : SGood key P S K s)
    {i : Nat} {r : GRecord} (hi : P.nodes[i]? = some (.record r)) (hty : S.ty i = .record i) (hd : r.Data P S)
    {bases : List (TId × Nat)} (hb : Bases P S s.w r.bases bases) (hne : r.fields ≠ [] ∨ bases ≠ []) {fields : List (Str × Str × Nat)}
    (hl : fields.length = r.fields.length)
    (hf : ∀ (k : Nat) (g : GField) (x : Str × Str × Nat), r.fields[k]? = some g → fields[k]? = some x →
        g.pub = true ∧ x.1 = g.name ∧ x.2.2 = g.offset / 8 ∧ isAbsoluteName x.2.1 = true ∧ S.den x.2.1 = some (S.ty g.ty)) {name nn : Str}
    (h1 : isAbsoluteName name = true) (h2 : isAbsoluteName nn = true) (h3 : S.den name = some (S.ty i))
    (h4 : S.den nn = some (S.ty i)) :
    PostS key P S K s (defineRecord key s r name nn bases fields) (fun s' o => Resolved P S K i name s' o) := by
  obtain ⟨z1, z2, z3⟩ := hU.bytes r (List.mem_of_getElem? hi)
  unfold defineRecord
  refine PostS.then (Q := fun s' inh => ∃ ms fs, BaseMembers P S 0 r.bases ms ∧ Match P S s'.w ms fs ∧ inh = reqs fs ∧
    (bases ≠ [] → fs ≠ [])) (.ret hg fun inh h => inherited_ok hU hg.good hb h) ?_
  rintro s1 inh g1 e1 ⟨ms, fs, b1, b2, rfl, b4⟩
  refine (ownFields_post hk hM r.fields fields z3 hl hf g1).then ?_
  rintro s2 own g2 e2 ⟨fs', m2, rfl⟩
  have hm := (b2.ext g1.good.clo e2.ext).append m2
  rw [← reqs_append]
  exact PostS.then (onW_post g2 (createRecord_post hk hM g2.good hi hty hd hne z2 z1 b1 b4 m2 hm h2 h4)) fun s3 _ g3 _ hr3 =>
    (aliasIf_post hk hM g3 h1 h2 h3 h4).then fun s4 _ g4 _ hr4 => .ok g4 ⟨Named.some h2 h4, fun _ => hr4 hr3⟩

theorem resolveRecord_post (hk : ∀ a b, key a = key b → a = b) (hM : Meaning P S) (hU : Supported P S) (hr : RecOk key P S K rec) {s : St}
    (hg : SGood key P S K s) {i : Nat} {r : GRecord} (hi : P.nodes[i]? = some (.record r)) (hty : S.ty i = .record i)
    (hun : Unknown P K i) (hpub : r.pub = true) (hnm : r.name ≠ none) {name nn : Str}
    (h1 : isAbsoluteName name = true) (h2 : isAbsoluteName nn = true) (h3 : S.den name = some (S.ty i))
    (h4 : S.den nn = some (S.ty i)) :
    PostS key P S K s (resolveRecord key P rec s i r name nn) (fun s' o => Resolved P S K i name s' o) := by
  unfold resolveRecord
  refine (resolveBases_post hr hi hty hun r.bases (fun _ h => h) hg).then fun s1 o g1 e1 hb => ?_
  cases o with
  | none =>
    have := hb.2 rfl
    exact ignore_post g1 (Or.inl this) (fun _ _ => ⟨Named.none (Or.inl this), fun h => absurd rfl h⟩)
  | some bases =>
    have hB := hb.1 bases rfl
    simp only
    cases hinc : r.incomplete with
    | true =>
      have : Refused P S K i := .incomplete hi hty hun hinc
      exact ignore_post g1 (Or.inl this) (fun _ _ => ⟨Named.none (Or.inl this), fun h => absurd rfl h⟩)
    | false =>
      cases hvirt : r.virt with
      | true =>
        have : Refused P S K i := .virt hi hty hun hvirt
        exact ignore_post g1 (Or.inl this) (fun _ _ => ⟨Named.none (Or.inl this), fun h => absurd rfl h⟩)
      | false =>
        simp only [Bool.false_eq_true, if_false]
        refine PostS.then (Q := fun s' e => Bases P S s'.w r.bases bases ∧ (e = true → r.fields = [] ∧ ∀ z, BaseMembers P S z r.bases []) ∧
          (e = false → r.fields ≠ [] ∨ bases ≠ [])) (.ret g1 fun e he => ⟨hB, ?_⟩) ?_
        · by_cases hf : r.fields = []
          · rw [if_pos (by rw [hf]; rfl)] at he
            obtain ⟨a1, a2⟩ := allEmpty_ok hU g1.good hB he
            exact ⟨fun h => ⟨hf, a1 h⟩, fun h => Or.inr (a2 h)⟩
          · rw [if_neg (by simpa using hf)] at he
            injection he with he
            subst he
            exact ⟨(fun h => by cases h), fun _ => Or.inl hf⟩
        · rintro s2 e g2 e2 ⟨hB2, he1, he2⟩
          cases e with
          | true =>
            obtain ⟨hf, hbm⟩ := he1 rfl
            have hnd : NoData P S i := by
              intro z
              have := Members.mk hi (hbm z)
              rw [hf] at this
              exact this
            have g3 : SGood key P S K { s2 with empty := i :: s2.empty } := by
              refine ⟨g2.good, g2.names, fun j hj => ?_, fun j hj => ?_, g2.string, g2.known⟩
              · rcases List.mem_cons.mp hj with rfl | hj
                · exact ⟨hty, hnd, hun⟩
                · exact g2.empty j hj
              · exact (g2.ign j hj).imp id (List.mem_cons_of_mem _)
            have k3 : Keep P S K s2 { s2 with empty := i :: s2.empty } :=
              ⟨Ext.refl _, fun _ h => List.mem_cons_of_mem _ h, fun _ h => Or.inl h, fun _ h => h⟩
            exact PostS.ext k3 (ignore_post g3 (Or.inr (List.mem_cons_self ..)) (fun s' hs' =>
              ⟨Named.none (Or.inr (by rw [hs']; exact List.mem_cons_self ..)), fun h => absurd rfl h⟩))
          | false =>
            simp only [Bool.false_eq_true, if_false]
            refine (resolveFields_post hr hi hty hun r.fields (fun _ h => h) g2).then fun s3 o g3 e3 hf => ?_
            cases o with
            | none =>
              have := hf.2 rfl
              exact ignore_post g3 (Or.inl this) (fun _ _ => ⟨Named.none (Or.inl this), fun h => absurd rfl h⟩)
            | some fields =>
              obtain ⟨f1, f2⟩ := hf.1 fields rfl
              exact defineRecord_post hk hM hU g3 hi hty ⟨hnm, hpub, hinc, hvirt, hB2.data⟩ (hB2.ext g2.good e3.ext) (he2 rfl) f1 f2 h1 h2 h3 h4

end

end Verif.Gccxml
