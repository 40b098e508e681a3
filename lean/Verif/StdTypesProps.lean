import Verif.StdTypes
import Verif.RegistryExamples

/-!
C50: theorems about `addStandardTypes`.
-/

namespace Verif.Std
open Verif Verif.Names Verif.Graph Verif.Registry Verif.TypeBuilder

variable {key : Char → Int}

/-- none of the standard names is known -/
def Unknown (A : Abi) (R : Reg) : Prop := ∀ n d, Standard A n d → R.get n = none

theorem std_abs {n : Str} {d : TypeDef} {A : Abi} (h : Standard A n d) : isAbsoluteName n = true := by
  have h1 : ∀ ws ∈ covered, isAbsoluteName (spelling ws) = true := by decide +kernel
  rcases h with h | ⟨ws, hw, rfl, _⟩
  · have h2 : ∀ n ∈ ["/nil", "/void", "/int8_t", "/int16_t", "/int32_t", "/int64_t", "/uint8_t", "/uint16_t", "/uint32_t",
        "/uint64_t", "/char", "/wchar_t", "/float", "/double", "/bool"].map String.toList, isAbsoluteName n = true := by decide +kernel
    refine h2 n ?_
    have : (others A).map (·.1) = ["/nil", "/void", "/int8_t", "/int16_t", "/int32_t", "/int64_t", "/uint8_t", "/uint16_t",
      "/uint32_t", "/uint64_t", "/char", "/wchar_t", "/float", "/double", "/bool"].map String.toList := rfl
    rw [← this]
    exact List.mem_map.mpr ⟨(n, d), h, rfl⟩
  · exact h1 ws hw

theorem std_bool (A : Abi) : Standard A "/bool".toList ⟨"/bool".toList, A.bool, .num .uint⟩ :=
  Or.inl (List.mem_of_getElem? (i := 14) rfl)

theorem std_int8 (A : Abi) : Standard A "/int8_t".toList (sizedDef true 1) :=
  Or.inl (List.mem_of_getElem? (i := 2) rfl)

theorem not_std_string (A : Abi) (d : TypeDef) : ¬ Standard A "/std/string".toList d := by
  rintro (h | ⟨ws, hw, e, _⟩)
  · have : (others A).map (·.1) = ["/nil", "/void", "/int8_t", "/int16_t", "/int32_t", "/int64_t", "/uint8_t", "/uint16_t",
      "/uint32_t", "/uint64_t", "/char", "/wchar_t", "/float", "/double", "/bool"].map String.toList := rfl
    have h2 : ("/std/string".toList) ∈ (others A).map (·.1) := List.mem_map.mpr ⟨_, h, rfl⟩
    rw [this] at h2
    revert h2
    decide +kernel
  · have : ∀ ws ∈ covered, ("/std/string".toList) ≠ spelling ws := by decide +kernel
    exact this ws hw e

theorem has_eq (R : Reg) (n : Str) : R.has n = (R.get n).isSome := by
  unfold Reg.has Reg.get; cases R.current n <;> rfl

/-- adding the string type -/
theorem string_step (hk : ∀ a b, key a = key b → a = b) {w : World} (hr : Reachable key w.1 w.2) {t : TId}
    (ht : w.2.get "/int8_t".toList = some t) (hs : w.2.get "/std/string".toList = none) (sz : Nat) :
    ∃ R', Call.run key w (.add ⟨"/std/string".toList, sz, .str t⟩) = ((w.1.alloc ⟨"/std/string".toList, sz, .str t⟩, R'), .ok ()) ∧
      Reachable key (w.1.alloc ⟨"/std/string".toList, sz, .str t⟩) R' ∧
      ∀ n, isAbsoluteName n = true → R'.get n = if n = "/std/string".toList then some w.1.next else w.2.get n := by
  generalize hd : (⟨"/std/string".toList, sz, .str t⟩ : TypeDef) = d
  have hlt0 : t < w.1.next := by
    have := (reachable_inv hk hr).2
    rw [this.abs _ (by decide +kernel)] at ht
    obtain ⟨e, he, rfl⟩ := reg_mem ht
    exact this.alloc _ he
  have hel : d.kind.elem? = some t := by rw [← hd]; rfl
  have hr2 : Reachable key (w.1.alloc d) w.2 := .alloc d hr (by rw [hel]; rintro x ⟨⟩; exact hlt0)
  have hinv := (reachable_inv hk hr2).2
  have hdef : (w.1.alloc d).get w.1.next = d := alloc_get_new _ _
  have hdn : d.name = "/std/string".toList := by rw [← hd]
  have hname : (w.1.alloc d).name w.1.next = d.name := by rw [heap_name, hdef]
  have hlt : w.1.next < (w.1.alloc d).next := Nat.lt_succ_self _
  have habs : isAbsoluteName d.name = true := by rw [hdn]; decide +kernel
  have hval : isValidTypename d.name true = true := by rw [hdn]; decide +kernel
  have hind : ((w.1.alloc d).kind w.1.next).indirectName = none := by
    unfold Heap.kind; rw [hdef, ← hd]; rfl
  obtain ⟨g1, _, _⟩ := addName_get hk hinv (name := d.name) (t := w.1.next)
    (isPersistent (w.1.alloc d) ((w.1.alloc d).name w.1.next) w.1.next) [] habs hval (Or.inl hname.symm)
    (by rw [hname]; exact habs) hlt
  obtain ⟨g2, g3⟩ := g1 (by rw [hdn]; exact hs)
  have e2 : addAuto key (w.1.alloc d) w.2 w.1.next [] =
      addName key (w.1.alloc d) w.2 d.name w.1.next (isPersistent (w.1.alloc d) ((w.1.alloc d).name w.1.next) w.1.next) [] := by
    unfold addAuto add
    rw [hname] at g2 ⊢
    generalize addName key (w.1.alloc d) w.2 d.name w.1.next _ [] = o at g2 ⊢
    obtain ⟨R1, r⟩ := o
    cases g2
    dsimp only
    split
    · unfold modDep; rw [hind]
    · rfl
  refine ⟨(addAuto key (w.1.alloc d) w.2 w.1.next []).1, ?_, ?_, ?_⟩
  · show ((w.1.alloc d, (addAuto key (w.1.alloc d) w.2 w.1.next []).1), (addAuto key (w.1.alloc d) w.2 w.1.next []).2) = _
    rw [e2, g2]
  · exact .op (.addAuto w.1.next []) hr2 ⟨hlt, by rw [hname]; exact habs⟩
  · intro n hn
    rw [e2, g3 n hn, hdn]

/-- What `addStandardTypes` is meant to do: the standard names denote new types, with the right definitions, `/std/string` is
a string of `/int8_t` (unless there was one already), and nothing else changes. -/
structure StdAdded (key : Char → Int) (A : Abi) (w w' : World) : Prop where
  usable : Reachable key w'.1 w'.2
  objects : w.1.next ≤ w'.1.next ∧ ∀ t, t < w.1.next → w'.1.get t = w.1.get t
  names : ∀ n d, Standard A n d → ∃ t, w.1.next ≤ t ∧ w'.2.get n = some t ∧ w'.2.get d.name = some t ∧ w'.1.get t = d
  string : w.2.get "/std/string".toList = none → ∃ t e, w'.2.get "/std/string".toList = some t ∧
    w'.2.get "/int8_t".toList = some e ∧ w'.1.get t = ⟨"/std/string".toList, A.stringSize, .str e⟩
  rest : ∀ n, isAbsoluteName n = true → (∀ d, ¬ Standard A n d) →
    (n = "/std/string".toList → w.2.get n ≠ none) → w'.2.get n = w.2.get n

/-- **C50, a registry without the standard types** gets them, whatever it holds. -/
theorem C50_adds (hk : ∀ a b, key a = key b → a = b) {A : Abi} (hA : A.Ok) {w : World} (hw : Reachable key w.1 w.2)
    (hu : Unknown A w.2) : ∃ w', addStandardTypes key A w = (w', .ok ()) ∧ StdAdded key A w w' := by
  obtain ⟨tbl, hg, ht⟩ := good_calls hA
  have D0 : Done key w [] w := ⟨hw, hw, Nat.le_refl _, fun _ _ => rfl, fun t h1 h2 => absurd h2 (Nat.not_lt.mpr h1),
    by simp, by simp, fun _ _ _ => rfl⟩
  have hb : w.2.has "/bool".toList = false := by rw [has_eq, hu _ _ (std_bool A)]; rfl
  rcases run_good hk hg w D0 (by simp) with ⟨_, w1, e1, D⟩ | ⟨⟨p, hp, hne⟩, _⟩
  · have hstd : ∀ n, isAbsoluteName n = true → (∀ d, ¬ Standard A n d) → w1.2.get n = w.2.get n := by
      intro n hn hns
      refine D.rest n hn ?_
      intro h
      obtain ⟨p, hp, rfl⟩ := List.mem_map.mp h
      exact hns p.2 ((ht _ _).mp hp)
    have hss := hstd "/std/string".toList (by decide +kernel) (not_std_string A)
    have hnm : ∀ n d, Standard A n d → ∃ t, w.1.next ≤ t ∧ t < w1.1.next ∧ w1.2.get n = some t ∧ w1.1.get t = d ∧
        w1.2.get d.name = some t := fun n d h => D.tab _ ((ht n d).mpr h)
    have habsn : ∀ n d, Standard A n d → isAbsoluteName d.name = true := fun n d h => (D.abs _ ((ht n d).mpr h)).2
    unfold addStandardTypes
    simp only [hb, Bool.not_false, if_true, e1, has_eq]
    by_cases hs : w.2.get "/std/string".toList = none
    · rw [hss, hs]
      simp only [Option.isSome_none, Bool.not_false, if_true]
      obtain ⟨t8, t1, t2, t3, t4, t5⟩ := hnm _ _ (std_int8 A)
      rw [t3]
      dsimp only
      obtain ⟨R', r1, r2, r3⟩ := string_step hk D.reach t3 (hss.trans hs) A.stringSize
      rw [r1]
      refine ⟨_, rfl, r2, ⟨Nat.le_succ_of_le D.next, ?_⟩, ?_, ?_, ?_⟩
      · intro t h
        show (Heap.alloc _ _).get t = _
        rw [alloc_get_old _ _ (Nat.lt_of_lt_of_le h D.next)]
        exact D.old t h
      · intro n d h
        obtain ⟨t, u1, u2, u3, u4, u5⟩ := hnm n d h
        have hne : ∀ m, w1.2.get m = some t → m ≠ "/std/string".toList := by
          rintro m hm rfl
          rw [hss, hs] at hm
          cases hm
        refine ⟨t, u1, ?_, ?_, ?_⟩
        · show R'.get n = _
          rw [r3 n (std_abs h), if_neg (hne _ u3)]; exact u3
        · show R'.get d.name = _
          rw [r3 _ (habsn n d h), if_neg (hne _ u5)]; exact u5
        · show (Heap.alloc _ _).get t = _
          rw [alloc_get_old _ _ u2]; exact u4
      · intro _
        refine ⟨w1.1.next, t8, ?_, ?_, alloc_get_new _ _⟩
        · show R'.get _ = _
          rw [r3 _ (by decide +kernel), if_pos rfl]
        · show R'.get _ = _
          rw [r3 _ (by decide +kernel), if_neg (by decide +kernel)]; exact t3
      · intro n hn hns hx
        show R'.get _ = _
        rw [r3 n hn]
        split
        · rename_i e
          exact absurd (e ▸ hs) (hx e)
        · exact hstd n hn hns
    · rw [hss]
      have : (w.2.get "/std/string".toList).isSome = true := by
        cases h : w.2.get "/std/string".toList with
        | none => exact absurd h hs
        | some _ => rfl
      rw [this]
      refine ⟨w1, rfl, D.reach, ⟨D.next, D.old⟩, ?_, fun h => absurd h hs, fun n hn hns _ => hstd n hn hns⟩
      intro n d h
      obtain ⟨t, u1, _, u3, u4, u5⟩ := hnm n d h
      exact ⟨t, u1, u3, u5, u4⟩
  · exact absurd (hu p.1 p.2 ((ht _ _).mp hp)) hne

/-- **C50, calling it again** changes nothing (as long as `/bool` and `/std/string` are there). -/
theorem C50_again (A : Abi) (w : World) (hb : w.2.get "/bool".toList ≠ none) (hs : w.2.get "/std/string".toList ≠ none) :
    addStandardTypes key A w = (w, .ok ()) := by
  unfold addStandardTypes
  have h : ∀ {n}, w.2.get n ≠ none → w.2.has n = true := by
    intro n h
    rw [has_eq]
    cases hn : w.2.get n with
    | none => exact absurd hn h
    | some _ => rfl
  simp only [h hb, Bool.not_true, Bool.false_eq_true, if_false, h hs]

/-- **C50, name clashes**: a registry without `/bool` in which one of the standard names already denotes a type is refused
with `AlreadyDefined`. -/
theorem C50_conflict (hk : ∀ a b, key a = key b → a = b) {A : Abi} (hA : A.Ok) {w : World} (hw : Reachable key w.1 w.2)
    (hb : w.2.get "/bool".toList = none) (hu : ¬ Unknown A w.2) :
    ∃ w', addStandardTypes key A w = (w', .exn .alreadyDefined) := by
  obtain ⟨tbl, hg, ht⟩ := good_calls hA
  have D0 : Done key w [] w := ⟨hw, hw, Nat.le_refl _, fun _ _ => rfl, fun t h1 h2 => absurd h2 (Nat.not_lt.mpr h1),
    by simp, by simp, fun _ _ _ => rfl⟩
  have hb' : w.2.has "/bool".toList = false := by rw [has_eq, hb]; rfl
  rcases run_good hk hg w D0 (by simp) with ⟨hf, _⟩ | ⟨_, w', e⟩
  · exact absurd (fun n d h => hf (n, d) ((ht n d).mpr h)) hu
  · refine ⟨w', ?_⟩
    unfold addStandardTypes
    simp only [hb', Bool.not_false, if_true, e]

/-- **C50, C++ spellings**: after `addStandardTypes`, the spellings of the integer types that are registered have the
signedness and the size of the type they name in C++. -/
theorem C50_spellings {A : Abi} {w w' : World} (h : StdAdded key A w w') (ws : List String) (hw : ws ∈ covered) :
    ∃ s r t, meaning ws = some (s, r) ∧ w'.2.get (spelling ws) = some t ∧
      w'.1.kind t = .num (if s then .sint else .uint) ∧ w'.1.size t = A.size r := by
  have hm : ∀ ws ∈ covered, (meaning ws).isSome = true := by decide +kernel
  cases hx : meaning ws with
  | none => exact absurd (hm ws hw) (by rw [hx]; simp)
  | some x =>
    obtain ⟨s, r⟩ := x
    obtain ⟨t, _, h2, _, h4⟩ := h.names (spelling ws) _ (Or.inr ⟨ws, hw, rfl, s, r, hx, rfl⟩)
    exact ⟨s, r, t, rfl, h2, by unfold Heap.kind; rw [h4]; rfl, by unfold Heap.size; rw [h4]; rfl⟩

/-! ### The spellings that are not registered -/

def keywords : List String := ["signed", "unsigned", "short", "long", "int", "char"]

def total (ws : List String) : Nat :=
  ws.count "signed" + ws.count "unsigned" + (ws.count "short" + ws.count "long" + ws.count "int") + ws.count "char"

theorem total_cons (a : String) (ws : List String) :
    total (a :: ws) ≤ total ws + 1 ∧ (a ∉ keywords → total (a :: ws) = total ws) := by
  unfold total
  simp only [List.count_cons, keywords, List.mem_cons, List.not_mem_nil, or_false, not_or, beq_iff_eq]
  refine ⟨?_, fun h => by simp [h]⟩
  by_cases h1 : a = "signed"
  · subst h1; simp; omega
  by_cases h2 : a = "unsigned"
  · subst h2; simp; omega
  by_cases h3 : a = "short"
  · subst h3; simp; omega
  by_cases h4 : a = "long"
  · subst h4; simp; omega
  by_cases h5 : a = "int"
  · subst h5; simp; omega
  by_cases h6 : a = "char"
  · subst h6; simp; omega
  simp [h1, h2, h3, h4, h5, h6]

theorem total_le (ws : List String) : total ws ≤ ws.length := by
  induction ws with
  | nil => exact Nat.le_refl _
  | cons a ws ih => have := (total_cons a ws).1; simp only [List.length_cons]; omega

theorem total_eq {ws : List String} (h : ws.length = total ws) : ∀ a ∈ ws, a ∈ keywords := by
  induction ws with
  | nil => simp
  | cons a ws ih =>
    have h1 := total_cons a ws
    have h2 := total_le ws
    simp only [List.length_cons] at h
    have ha : a ∈ keywords := by
      apply Classical.byContradiction
      intro hn
      have := h1.2 hn
      omega
    intro b hb
    rcases List.mem_cons.mp hb with rfl | hb
    · exact ha
    · exact ih (by omega) b hb

def sequences : Nat → List (List String)
  | 0 => [[]]
  | n + 1 => [] :: keywords.flatMap (fun a => (sequences n).map (a :: ·))

theorem mem_sequences : ∀ (n : Nat) (ws : List String), ws.length ≤ n → (∀ a ∈ ws, a ∈ keywords) → ws ∈ sequences n := by
  intro n
  induction n with
  | zero => intro ws h _; cases ws with
    | nil => simp [sequences]
    | cons => simp at h
  | succ n ih =>
    intro ws h hk
    cases ws with
    | nil => simp [sequences]
    | cons a ws =>
      refine List.mem_cons_of_mem _ (List.mem_flatMap.mpr ⟨a, hk a (by simp), List.mem_map.mpr ⟨ws, ?_, rfl⟩⟩)
      exact ih ws (by simpa using h) (fun b hb => hk b (by simp [hb]))

theorem meaning_bound {ws : List String} {x : Bool × Rank} (h : meaning ws = some x) :
    ws.length ≤ 4 ∧ ∀ a ∈ ws, a ∈ keywords := by
  unfold meaning at h
  dsimp only at h
  split at h
  · cases h
  rename_i h1
  have hl : ws.length = total ws := Classical.not_not.mp h1
  refine ⟨?_, total_eq hl⟩
  unfold total at hl
  split at h
  · cases h
  split at h
  · split at h
    · omega
    · cases h
  · split at h
    · cases h
    rename_i h2 h3 h4
    split at h
    · omega
    · omega
    · omega
    · omega
    · cases h

theorem sequences_checked : ∀ ws ∈ sequences 4, (meaning ws).isSome = true → ws ∈ covered ∨ ws ∈ missing := by
  decide +kernel

/-- **C50, which spellings**: the spellings of the integer types are those of `covered`, which are registered, and those of
`missing`, which are not: after `addStandardTypes` they denote what they denoted before. -/
theorem C50_missing_spellings_counterexample :
    (∀ ws, (meaning ws).isSome = true → ws ∈ covered ∨ ws ∈ missing) ∧
    (∀ ws ∈ missing, (meaning ws).isSome = true) ∧
    ∀ (key : Char → Int) (A : Abi) (w w' : World), StdAdded key A w w' → ∀ ws ∈ missing,
      w'.2.get (spelling ws) = w.2.get (spelling ws) := by
  refine ⟨?_, by decide +kernel, ?_⟩
  · intro ws h
    cases hx : meaning ws with
    | none => rw [hx] at h; cases h
    | some x =>
      obtain ⟨h1, h2⟩ := meaning_bound hx
      exact sequences_checked ws (mem_sequences 4 ws h1 h2) h
  · intro key A w w' h ws hw
    have h1 : ∀ ws ∈ missing, isAbsoluteName (spelling ws) = true ∧ spelling ws ≠ "/std/string".toList ∧
      (∀ vs ∈ covered, spelling ws ≠ spelling vs) ∧
      spelling ws ∉ ["/nil", "/void", "/int8_t", "/int16_t", "/int32_t", "/int64_t", "/uint8_t", "/uint16_t",
      "/uint32_t", "/uint64_t", "/char", "/wchar_t", "/float", "/double", "/bool"].map String.toList := by decide +kernel
    obtain ⟨g1, g2, g3, g4⟩ := h1 ws hw
    refine h.rest _ g1 ?_ (fun e => absurd e g2)
    rintro d (hd | ⟨vs, hv, e, _⟩)
    · apply g4
      have : (others A).map (·.1) = ["/nil", "/void", "/int8_t", "/int16_t", "/int32_t", "/int64_t", "/uint8_t", "/uint16_t",
        "/uint32_t", "/uint64_t", "/char", "/wchar_t", "/float", "/double", "/bool"].map String.toList := rfl
      rw [← this]
      exact List.mem_map.mpr ⟨_, hd, rfl⟩
    · exact g3 vs hv e

/-! ### Examples -/

/-- x86-64 Linux -/
def lp64 : Abi := ⟨true, true, 4, 2, 4, 8, 8, 1, 32⟩

theorem lp64_ok : lp64.Ok := by unfold Abi.Ok; decide

def noTypes : Heap := ⟨0, fun _ => ⟨[], 0, .null⟩⟩

theorem noTypes_reachable : Reachable ascii noTypes Reg.empty := .start (by
  intro u x h; cases h)

/-- a new registry gets the standard types, and a second call changes nothing -/
theorem C50_example : ∃ w', addStandardTypes ascii lp64 (noTypes, Reg.empty) = (w', .ok ()) ∧
    StdAdded ascii lp64 (noTypes, Reg.empty) w' ∧ addStandardTypes ascii lp64 w' = (w', .ok ()) := by
  obtain ⟨w', h1, h2⟩ := C50_adds (w := (noTypes, Reg.empty)) ascii_inj lp64_ok noTypes_reachable (fun _ _ _ => rfl)
  refine ⟨w', h1, h2, C50_again lp64 w' ?_ ?_⟩
  · obtain ⟨t, _, e, _⟩ := h2.names _ _ (std_bool lp64)
    rw [e]; simp
  · obtain ⟨t, _, e, _⟩ := h2.string rfl
    rw [e]; simp

/-- a registry with a type `/bool` only -/
def boolHeap : Heap := ⟨1, fun _ => ⟨"/bool".toList, 1, .num .uint⟩⟩
def boolReg : Reg := (addAuto ascii boolHeap Reg.empty 0 []).1

/-- In a registry with a `/bool` but neither `/int8_t` nor `/std/string`, a null pointer is dereferenced
(standard_types.cc:129). -/
theorem C50_null_counterexample : Reachable ascii boolHeap boolReg ∧
    (addStandardTypes ascii lp64 (boolHeap, boolReg)).2 = .ub := by
  refine ⟨.op (.addAuto 0 []) (.start (by intro u x h; cases h)) ⟨by decide, by decide +kernel⟩, by decide +kernel⟩

end Verif.Std
