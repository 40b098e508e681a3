import Verif.TlbRound
import Verif.RegistryExamples

/-! Property C38: a registry that is exported and read back, and what the format loses or cannot write. -/

namespace Verif.Tlb
open Verif Verif.Names Verif.Graph Verif.Registry Verif.TypeBuilder Verif.StdMap Verif.Merge Verif.Xml

/-- `/int32_t`, an enum, an array, a pointer, a compound with a template name, a vector of it whose size is not the usual
one, `/int8_t`, `/std/string` -/
def rtGet : TId → TypeDef
  | 0 => ⟨"/int32_t".toList, 4, .num .sint⟩
  | 1 => ⟨"/ns/E".toList, 4, .enum [("A".toList, 1), ("B".toList, -2)]⟩
  | 2 => ⟨"/int32_t[3]".toList, 12, .arr 3 0⟩
  | 3 => ⟨"/int32_t*".toList, 8, .ptr 0⟩
  | 4 => ⟨"/ns/T</int32_t>".toList, 24, .comp [⟨"a".toList, 0, 2⟩, ⟨"e".toList, 12, 1⟩, ⟨"p".toList, 16, 3⟩]⟩
  | 5 => ⟨"/std/vector</ns/T</int32_t>>".toList, 40, .vec 4⟩
  | 6 => ⟨"/int8_t".toList, 1, .num .sint⟩
  | 7 => ⟨"/std/string".toList, 32, .str 6⟩
  | _ => ⟨[], 0, .null⟩

def rtHeap : Heap := ⟨8, rtGet⟩

def rtOps : List Op :=
  [.addAuto 0 "a.hh".toList, .addAuto 1 [], .addAuto 2 [], .addAuto 3 [], .addAuto 4 "b.hh".toList,
   .alias "/ns/T</int32_t>".toList "/B".toList true [], .addAuto 5 [], .addAuto 6 [], .addAuto 7 []]

def rtReg : Reg := run ascii rtHeap Reg.empty rtOps

/-- the compound has metadata, one of its values has markup, and its second field has a key without value -/
def rtMeta : Metas where
  own := fun t => if t = 4 then [("doc".toList, ["a <b>".toList, "c".toList])] else []
  fields := fun t => if t = 4 then [[], [("k".toList, [])], []] else []

def rtGlobal : List (Str × Entry) :=
  [("/B".toList, ⟨4, true, []⟩), ("/int32_t".toList, ⟨0, true, "a.hh".toList⟩), ("/int32_t*".toList, ⟨3, false, []⟩),
   ("/int32_t[3]".toList, ⟨2, false, []⟩), ("/int8_t".toList, ⟨6, true, []⟩), ("/ns/E".toList, ⟨1, true, []⟩),
   ("/ns/T</int32_t>".toList, ⟨4, true, "b.hh".toList⟩), ("/std/string".toList, ⟨7, true, []⟩),
   ("/std/vector</B>".toList, ⟨5, false, []⟩), ("/std/vector</ns/T</int32_t>>".toList, ⟨5, true, []⟩)]

theorem rtGlobal_eq : rtReg.global = rtGlobal := by decide +kernel

theorem rtAcyclic : Acyclic rtHeap := by
  intro u x h
  match u with
  | 0 | 1 | 4 | 6 => cases h
  | 2 => cases h; show (0 : Nat) < 2; decide
  | 3 => cases h; show (0 : Nat) < 3; decide
  | 5 => cases h; show (4 : Nat) < 5; decide
  | 7 => cases h; show (6 : Nat) < 7; decide
  | n + 8 => cases h

theorem rtReachable : Reachable ascii rtHeap rtReg := by
  refine reachable_ops rtAcyclic rtOps ?_
  intro o ho
  simp only [rtOps, List.mem_cons, List.mem_nil_iff, or_false] at ho
  rcases ho with rfl | rfl | rfl | rfl | rfl | rfl | rfl | rfl | rfl
  all_goals first | exact ⟨by decide, by decide⟩ | (show isAbsoluteName _ = true; decide)

theorem rtInv : Inv ascii rtHeap rtReg := (reachable_inv ascii_inj rtReachable).2

theorem rt_entry {n : Str} {u : TId} (h : rtReg.reg n = some u) : ∃ e, (n, e) ∈ rtGlobal ∧ e.ty = u := by
  rw [← rtGlobal_eq]; exact reg_mem h

theorem rt_types {u : TId} (h : rtReg.regd rtHeap u) : u ∈ [0, 1, 2, 3, 4, 5, 6, 7] := by
  obtain ⟨e, he, rfl⟩ := rt_entry h
  have : ∀ p ∈ rtGlobal, p.2.ty ∈ [0, 1, 2, 3, 4, 5, 6, 7] := by decide +kernel
  exact this _ he

theorem rt_regd : ∀ u ∈ [0, 1, 2, 3, 4, 5, 6, 7], rtReg.reg (rtHeap.name u) = some u := by decide +kernel

theorem baseName_declText {b : Str} {l : List Decl} (h : BaseName (b ++ declText l)) : l = [] := by
  induction l using EnumModel.snoc_induction with
  | nil => rfl
  | snoc l m _ =>
    exfalso
    rw [declText_append, ← List.append_assoc] at h
    rw [show declText [m] = m.text by simp [declText]] at h
    exact baseName_no_text h

theorem rt_names {n : Str} {e : Entry} (h : (n, e) ∈ rtGlobal) :
    BaseName n ∨ (n = "/int32_t".toList ++ Decl.text .ptr ∧ e = ⟨3, false, []⟩) ∨
    (n = "/int32_t".toList ++ Decl.text (.arr 3) ∧ e = ⟨2, false, []⟩) := by
  simp only [rtGlobal, List.mem_cons, List.mem_nil_iff, or_false, Prod.mk.injEq] at h
  rcases h with ⟨rfl, rfl⟩ | ⟨rfl, rfl⟩ | ⟨rfl, rfl⟩ | ⟨rfl, rfl⟩ | ⟨rfl, rfl⟩ | ⟨rfl, rfl⟩ | ⟨rfl, rfl⟩ | ⟨rfl, rfl⟩ |
    ⟨rfl, rfl⟩ | ⟨rfl, rfl⟩
  · exact Or.inl ⟨"/".toList, 'B', rfl, by decide, by decide, by decide, by decide⟩
  · exact Or.inl ⟨"/int32_".toList, 't', rfl, by decide, by decide, by decide, by decide⟩
  · exact Or.inr (Or.inl ⟨rfl, rfl⟩)
  · exact Or.inr (Or.inr ⟨by decide +kernel, rfl⟩)
  · exact Or.inl ⟨"/int8_".toList, 't', rfl, by decide, by decide, by decide, by decide⟩
  · exact Or.inl ⟨"/ns/".toList, 'E', rfl, by decide, by decide, by decide, by decide⟩
  · exact Or.inl ⟨"/ns/T</int32_t".toList, '>', rfl, by decide, by decide, by decide, by decide⟩
  · exact Or.inl ⟨"/std/strin".toList, 'g', rfl, by decide, by decide, by decide, by decide⟩
  · exact Or.inl ⟨"/std/vector</B".toList, '>', rfl, by decide, by decide, by decide, by decide⟩
  · exact Or.inl ⟨"/std/vector</ns/T</int32_t>".toList, '>', rfl, by decide, by decide, by decide, by decide⟩

theorem rtSrc : Src ascii rtHeap rtReg id := by
  have hdep : ∀ u ∈ [0, 1, 2, 3, 4, 5, 6, 7], ∀ d ∈ rtHeap.deps u, d ∈ [0, 1, 2, 3, 4, 5, 6, 7] ∧ d < u := by decide +kernel
  refine ⟨rtInv, ?_, ?_, ?_, ?_⟩
  · intro t d ht hd
    obtain ⟨h1, h2⟩ := hdep t (rt_types ht) d hd
    exact ⟨rt_regd d h1, h2⟩
  · intro u hu
    have hm := rt_types hu
    simp only [List.mem_cons, List.mem_nil_iff, or_false] at hm
    unfold Storable
    rcases hm with rfl | rfl | rfl | rfl | rfl | rfl | rfl | rfl
    · exact ⟨by decide, trivial⟩
    · refine ⟨by decide, by decide, ?_, by decide⟩
      unfold MSorted; decide +kernel
    · refine ⟨by decide, ?_, by decide⟩
      decide +kernel
    · refine ⟨by decide, ?_⟩
      show rtHeap.get 3 = ptrDef rtHeap 0
      decide +kernel
    · refine ⟨by decide, by decide, ?_⟩
      unfold CompoundModel.fieldLe
      decide +kernel
    · refine ⟨by decide, ?_, by decide, by decide⟩
      decide +kernel
    · exact ⟨by decide, trivial⟩
    · refine ⟨by decide, ?_, ?_, by decide, by decide⟩
      · decide +kernel
      · decide +kernel
  · intro n t h
    obtain ⟨e, he, rfl⟩ := rt_entry h
    rcases rt_names he with h' | ⟨h', rfl⟩ | ⟨h', rfl⟩
    · exact Or.inl h'
    · exact Or.inr ⟨_, .ptr, 0, h', rt_regd 0 (by decide), rfl⟩
    · exact Or.inr ⟨_, .arr 3, 0, h', rt_regd 0 (by decide), rfl⟩
  · intro n x u ind hn hne hu hi he
    obtain ⟨e, hme, rfl⟩ := rt_entry hn
    have hal : ∀ p ∈ rtGlobal, p.1 = rtHeap.name p.2.ty ∨ p.1 = "/B".toList ∧ p.2.ty = 4 ∨ p.2.ty = 5 := by decide +kernel
    have hm := rt_types hu
    have hel : ∀ u ∈ [0, 1, 2, 3, 4, 5, 6, 7], (rtHeap.kind u).elem? ≠ some 5 ∧ ((rtHeap.kind u).elem? = some 4 → u = 5) := by
      decide +kernel
    rcases hal _ hme with h | ⟨h1, h2⟩ | h
    · exact absurd h hne
    · simp only at h1 h2
      rw [h2] at he
      have := (hel u hm).2 he
      subst this
      rw [h1]
      cases hi
      decide +kernel
    · exfalso
      simp only at h
      rw [h] at he
      exact (hel u hm).1 he

theorem rt_raw {s : String} (h : s.toList.all plainChar = true) : Raw s.toList := List.all_eq_true.mp h

theorem rt_esc {v : Str} (h : v.all (fun c => plainChar c || c == '<') = true) : Escapable v := by
  intro c hc
  have := List.all_eq_true.mp h c hc
  simpa using this

/-- a check of `Clean`, without the contents of the metadata -/
def cleanB (H : Heap) (p : Str × Entry) : Bool :=
  let esc := fun v : Str => v.all (fun c => plainChar c || c == '<')
  let raw := fun v : Str => v.all plainChar
  esc p.1 && esc (H.name p.2.ty) && esc p.2.source &&
  match (definition H p.2.ty).2.2 with
  | .null => raw (H.name p.2.ty)
  | .num _ => raw (H.name p.2.ty)
  | .enum l => raw (H.name p.2.ty) && l.all (fun q => raw q.1)
  | .arr _ e => esc e
  | .ptr e => esc e
  | .vec e => esc e
  | .str e => esc e
  | .comp l => l.all (fun f => raw f.1 && esc f.2.2)
  | .opaque => true

theorem rt_clean {H : Heap} {M : Metas} {p : Str × Entry} (h : cleanB H p = true) (h1 : CleanMeta (M.own p.2.ty))
    (h2 : ∀ m ∈ M.fields p.2.ty, CleanMeta m) : Clean H M p := by
  unfold cleanB at h
  simp only [Bool.and_eq_true] at h
  obtain ⟨⟨⟨a, b⟩, c⟩, d⟩ := h
  refine ⟨rt_esc a, rt_esc b, ?_, ?_, fun _ => h1, fun _ => h2, fun _ => rt_esc c⟩
  · intro _ hu
    generalize (definition H p.2.ty).2.2 = k at d hu
    cases k with
    | null => exact List.all_eq_true.mp d
    | num c => exact List.all_eq_true.mp d
    | enum l => simp only [Bool.and_eq_true] at d; exact List.all_eq_true.mp d.1
    | _ => cases hu
  · intro _
    generalize (definition H p.2.ty).2.2 = k at d
    cases k with
    | null => trivial
    | «opaque» => trivial
    | num c => trivial
    | enum l =>
      simp only [Bool.and_eq_true] at d
      exact fun q hq => List.all_eq_true.mp (List.all_eq_true.mp d.2 q hq)
    | arr _ e => exact rt_esc d
    | ptr e => exact rt_esc d
    | vec e => exact rt_esc d
    | str e => exact rt_esc d
    | comp l =>
      intro f hf
      have := List.all_eq_true.mp d f hf
      simp only [Bool.and_eq_true] at this
      exact ⟨List.all_eq_true.mp this.1, rt_esc this.2⟩

theorem rtExportable : Exportable rtHeap rtReg rtMeta := by
  have hown : ∀ u, Meta.Ok (rtMeta.own u) ∧ CleanMeta (rtMeta.own u) := by
    intro u
    show Meta.Ok (if u = 4 then _ else _) ∧ CleanMeta (if u = 4 then _ else _)
    by_cases h : u = 4
    · rw [if_pos h]
      refine ⟨⟨List.pairwise_singleton _ _, ?_⟩, ?_⟩
      · intro p hp
        rw [List.mem_singleton] at hp
        subst hp
        show SSorted ["a <b>".toList, "c".toList]
        unfold SSorted
        decide +kernel
      · intro p hp
        rw [List.mem_singleton] at hp
        subst hp
        refine ⟨rt_raw (by decide +kernel), ?_⟩
        have hno : ∀ v : Str, ']' ∉ v → ∀ a b, v ≠ a ++ "]]>".toList ++ b := by
          rintro v hv a b rfl
          exact hv (by simp)
        intro v hv
        simp only [List.mem_cons, List.mem_nil_iff, or_false] at hv
        rcases hv with rfl | rfl
        · exact ⟨by decide +kernel, by decide, hno _ (by decide)⟩
        · exact ⟨by decide +kernel, by decide, hno _ (by decide)⟩
    · rw [if_neg h]
      exact ⟨⟨List.Pairwise.nil, by simp⟩, fun p hp => by cases hp⟩
  have hfields : ∀ u, ∀ m ∈ rtMeta.fields u, Meta.Ok m ∧ CleanMeta m := by
    intro u m hm
    have hm' : m ∈ (if u = 4 then [[], [("k".toList, [])], []] else [] : List Meta.MetaData) := hm
    split at hm'
    · simp only [List.mem_cons, List.mem_nil_iff, or_false] at hm'
      rcases hm' with rfl | rfl | rfl
      · exact ⟨⟨List.Pairwise.nil, by simp⟩, fun p hp => by cases hp⟩
      · refine ⟨⟨List.pairwise_singleton _ _, ?_⟩, ?_⟩
        · intro p hp
          rw [List.mem_singleton] at hp
          subst hp
          exact List.Pairwise.nil
        · intro p hp
          rw [List.mem_singleton] at hp
          subst hp
          exact ⟨rt_raw (by decide +kernel), fun v hv => by cases hv⟩
      · exact ⟨⟨List.Pairwise.nil, by simp⟩, fun p hp => by cases hp⟩
    · cases hm'
  refine ⟨?_, ?_, fun u _ => (hown u).1, fun u _ m hm => (hfields u m hm).1, ?_, ?_⟩
  · intro u e hu he
    rw [rtGlobal_eq] at he
    have h1 : ∀ p ∈ rtGlobal, p.1 = rtHeap.name p.2.ty →
        (p.2.persistent = false ∧ (p.2.ty = 2 ∨ p.2.ty = 3)) ∨ (p.2.persistent = true ∧ p.2.ty ∈ [0, 1, 4, 5, 6, 7]) := by
      decide +kernel
    have hty : e.ty = u := by
      have h2 : rtReg.reg (rtHeap.name u) = some e.ty := by
        rw [← rtGlobal_eq] at he
        exact mem_reg rtInv.sorted he
      have hu' : rtReg.reg (rtHeap.name u) = some u := hu
      rw [hu'] at h2
      exact (Option.some.inj h2).symm
    have := h1 _ he (by rw [hty])
    simp only [hty] at this
    rcases this with ⟨h3, h4 | h4⟩ | ⟨h3, h4⟩
    · rw [h3, h4]
      exact ⟨fun x => (by cases x), fun x => absurd ⟨.arr 3, 0, rfl⟩ x⟩
    · rw [h3, h4]
      exact ⟨fun x => (by cases x), fun x => absurd ⟨.ptr, 0, rfl⟩ x⟩
    · rw [h3]
      refine ⟨fun _ => ?_, fun _ => rfl⟩
      rintro ⟨m, x, hk⟩
      simp only [List.mem_cons, List.mem_nil_iff, or_false] at h4
      rcases h4 with rfl | rfl | rfl | rfl | rfl | rfl <;> cases m <;> cases hk
  · intro n e he hp b l hn hb
    rw [rtGlobal_eq] at he
    rcases rt_names he with h | ⟨_, rfl⟩ | ⟨_, rfl⟩
    · rw [hn] at h
      have := baseName_declText h
      subst this
      rw [show b ++ declText [] = b by simp [declText]] at hn
      subst hn
      exact ⟨e, by rw [rtGlobal_eq]; exact he, hp⟩
    · cases hp
    · cases hp
  · intro u fs hu hk
    have hm := rt_types hu
    simp only [List.mem_cons, List.mem_nil_iff, or_false] at hm
    rcases hm with rfl | rfl | rfl | rfl | rfl | rfl | rfl | rfl <;> cases hk
    rfl
  · intro p hp hper
    rw [rtGlobal_eq] at hp
    have : ∀ p ∈ rtGlobal, cleanB rtHeap p = true := by decide +kernel
    exact rt_clean (this p hp) (hown _).2 (fun m hm => (hfields _ m hm).2)

/-- an empty registry knows nothing else -/
theorem within_empty (key : Char → Int) (hk : ∀ a b, key a = key b → a = b) (Hs : Heap) (Rs : Reg) :
    Within key Hs Rs ⟨0, fun _ => ⟨[], 0, .null⟩⟩ Reg.empty := by
  have hac : Acyclic ⟨0, fun _ => ⟨[], 0, .null⟩⟩ := by intro u x h; cases h
  have hr : ∀ n t, Reg.empty.reg n = some t → False := by
    intro n t h
    cases h
  refine ⟨(reachable_inv hk (.start hac)).2, hac, ⟨?_, ?_⟩, fun n t h => absurd h (fun h => hr n t h), fun t d h => absurd h (fun h => hr _ t h)⟩
  · intro t d hd; cases hd
  · intro t s hs; cases hs

/-- The hypotheses of C38 hold of this registry. -/
example := C38_roundtrip_partial ascii_inj rtAcyclic rtReachable rtSrc rtExportable
  (within_empty ascii ascii_inj rtHeap rtReg) (M := ⟨fun _ => [], fun _ => []⟩) (fun _ _ => rfl)

/-- What is read back in an empty registry. -/
example : (match exportTlb ascii rtHeap rtMeta rtReg with
    | .ok text =>
      let o := importTlb ascii ⟨0, fun _ => ⟨[], 0, .null⟩⟩ Reg.empty ⟨fun _ => [], fun _ => []⟩ text
      (match o.2 with | .ok () => true | _ => false) &&
      o.1.R.global.map (fun p => (p.1, p.2.persistent, definition o.1.H p.2.ty)) ==
        rtReg.global.map (fun p => (p.1, p.2.persistent, definition rtHeap p.2.ty))
    | _ => false) = true := by decide +kernel

/-! ### What the format loses or cannot write

In all of these, the registry is made from an empty one by the listed operations, without error, it is exported without
error, and it is read into an empty registry. -/

/-- the registry, and the outcome of reading the exported text -/
def trip (H : Heap) (M : Metas) (ops : List Op) : Option (ISt × Res Unit) :=
  match exportTlb ascii H M (run ascii H Reg.empty ops) with
  | .ok text => some (importTlb ascii ⟨0, fun _ => ⟨[], 0, .null⟩⟩ Reg.empty ⟨fun _ => [], fun _ => []⟩ text)
  | _ => none

def noMeta : Metas := ⟨fun _ => [], fun _ => [[], [], []]⟩

/-- a heap of a few objects -/
def heapOf (l : List TypeDef) : Heap := ⟨l.length, fun t => l.getD t ⟨[], 0, .null⟩⟩

/-- the import throws -/
def Throws (x : Option (ISt × Res Unit)) : Prop := ∃ s e, x = some (s, .exn e)

/-- the import gives a registry where `n` has the definition `d` -/
def Gives (x : Option (ISt × Res Unit)) (n : Str) (d : Str × Nat × Desc) : Prop :=
  ∃ s t, x = some (s, .ok ()) ∧ s.R.reg n = some t ∧ definition s.H t = d

def throwsB (x : Option (ISt × Res Unit)) : Bool :=
  match x with
  | some (_, .exn _) => true
  | _ => false

theorem throws_of {x : Option (ISt × Res Unit)} (h : throwsB x = true) : Throws x := by
  unfold throwsB at h
  split at h
  · exact ⟨_, _, rfl⟩
  · cases h

def givesB (x : Option (ISt × Res Unit)) (n : Str) (d : Str × Nat × Desc) : Bool :=
  match x with
  | some (s, .ok ()) =>
    match s.R.reg n with
    | some t => definition s.H t == d
    | none => false
  | _ => false

theorem gives_of {x : Option (ISt × Res Unit)} {n : Str} {d : Str × Nat × Desc} (h : givesB x n d = true) : Gives x n d := by
  unfold givesB at h
  split at h
  · rename_i s
    split at h
    · rename_i t ht
      exact ⟨s, t, rfl, ht, by simpa using h⟩
    · cases h
  · cases h

theorem after_of {x : Option (ISt × Res Unit)} {P : ISt → Prop} [∀ s, Decidable (P s)]
    (h : (match x with | some (s, .ok ()) => decide (P s) | _ => false) = true) : ∃ s, x = some (s, .ok ()) ∧ P s := by
  split at h
  · rename_i s
    exact ⟨s, rfl, by simpa using h⟩
  · cases h

/-- The names of numeric types, enums and null types are not escaped: an enum nested in a template makes a text that is
not XML (export.cc:218-221). -/
theorem C38_counterexample_name :
    Throws (trip (heapOf [⟨"/T</A>/E".toList, 4, .enum [("X".toList, 0)]⟩]) noMeta [.addAuto 0 []]) :=
  throws_of (by decide +kernel)

/-- The names of fields are not escaped (export.cc:128). -/
theorem C38_counterexample_field_name :
    Throws (trip (heapOf [⟨"/A".toList, 4, .num .sint⟩, ⟨"/C".toList, 4, .comp [⟨"a&b".toList, 0, 0⟩]⟩]) noMeta
      [.addAuto 0 [], .addAuto 1 []]) := throws_of (by decide +kernel)

/-- The size of enums is not written: an enum of one byte is read back with four. -/
theorem C38_counterexample_enum_size :
    Gives (trip (heapOf [⟨"/E".toList, 1, .enum [("X".toList, 0)]⟩]) noMeta [.addAuto 0 []]) "/E".toList
      ("/E".toList, 4, .enum [("X".toList, 0)]) := gives_of (by decide +kernel)

/-- The fields are sorted when they are read. -/
theorem C38_counterexample_field_order :
    Gives (trip (heapOf [⟨"/A".toList, 4, .num .sint⟩, ⟨"/C".toList, 8, .comp [⟨"b".toList, 4, 0⟩, ⟨"a".toList, 0, 0⟩]⟩]) noMeta
      [.addAuto 0 [], .addAuto 1 []]) "/C".toList
      ("/C".toList, 8, .comp [("a".toList, 0, "/A".toList), ("b".toList, 4, "/A".toList)]) := gives_of (by decide +kernel)

/-- A container of size 0 is read back with the size of the platform (import.cc:218-219). -/
theorem C38_counterexample_container_size :
    Gives (trip (heapOf [⟨"/A".toList, 4, .num .sint⟩, ⟨"/std/vector</A>".toList, 0, .vec 0⟩]) noMeta
      [.addAuto 0 [], .addAuto 1 []]) "/std/vector</A>".toList ("/std/vector</A>".toList, 24, .vec "/A".toList) :=
  gives_of (by decide +kernel)

/-- The end of a CDATA section in a metadata value makes a text that is not XML. -/
theorem C38_counterexample_metadata :
    Throws (trip (heapOf [⟨"/A".toList, 4, .num .sint⟩]) ⟨fun _ => [("k".toList, ["a]]>&".toList])], fun _ => []⟩
      [.addAuto 0 []]) := throws_of (by decide +kernel)

/-- An end of line "\r\n" in a metadata value is read back as "\n". -/
theorem C38_counterexample_newline :
    ∃ s, trip (heapOf [⟨"/A".toList, 4, .num .sint⟩]) ⟨fun _ => [("k".toList, ["x\r\ny".toList])], fun _ => []⟩
      [.addAuto 0 []] = some (s, .ok ()) ∧ s.R.reg "/A".toList = some 0 ∧ s.md.own 0 = [("k".toList, ["x\ny".toList])] := by
  obtain ⟨s, h1, h2⟩ := after_of (x := trip (heapOf [⟨"/A".toList, 4, .num .sint⟩])
    ⟨fun _ => [("k".toList, ["x\r\ny".toList])], fun _ => []⟩ [.addAuto 0 []])
    (P := fun s => s.R.reg "/A".toList = some 0 ∧ s.md.own 0 = [("k".toList, ["x\ny".toList])]) (by decide +kernel)
  exact ⟨s, h1, h2⟩

/-- The source of a container is written and not read (import.cc:201-224). -/
theorem C38_counterexample_source :
    ∃ s e, trip (heapOf [⟨"/A".toList, 4, .num .sint⟩, ⟨"/std/vector</A>".toList, 24, .vec 0⟩]) noMeta
      [.addAuto 0 "a.hh".toList, .addAuto 1 "v.hh".toList] = some (s, .ok ()) ∧
      s.R.global = [("/A".toList, ⟨0, true, "a.hh".toList⟩), ("/std/vector</A>".toList, e)] ∧ e.source = [] := by
  obtain ⟨s, h1, h2⟩ := after_of (x := trip (heapOf [⟨"/A".toList, 4, .num .sint⟩, ⟨"/std/vector</A>".toList, 24, .vec 0⟩]) noMeta
      [.addAuto 0 "a.hh".toList, .addAuto 1 "v.hh".toList])
    (P := fun s => s.R.global = [("/A".toList, ⟨0, true, "a.hh".toList⟩), ("/std/vector</A>".toList, ⟨1, true, []⟩)])
    (by decide +kernel)
  exact ⟨s, _, h1, h2, rfl⟩

/-- An array that is registered as persistent is written as an element that the importer does not know (import.cc:327-336). -/
theorem C38_counterexample_array :
    Throws (trip (heapOf [⟨"/A".toList, 4, .num .sint⟩, ⟨"/A[3]".toList, 12, .arr 3 0⟩]) noMeta
      [.addAuto 0 [], .add 1 true []]) := throws_of (by decide +kernel)

/-- A persistent alias of an array, `/B[3]`, cannot be read when the alias `/B` is not persistent. -/
theorem C38_counterexample_alias :
    Throws (trip (heapOf [⟨"/A".toList, 4, .num .sint⟩, ⟨"/A[3]".toList, 12, .arr 3 0⟩]) noMeta
      [.addAuto 0 [], .addAuto 1 [], .alias "/A[3]".toList "/B[3]".toList true []]) := throws_of (by decide +kernel)

end Verif.Tlb
