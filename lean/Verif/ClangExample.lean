import Verif.ClangCex
import Verif.TypeBuilderProps

/-!
Property C66: a program that meets the hypotheses of the theorems.
-/

namespace Verif.Clang.Example
open Verif Verif.Names Verif.Graph Verif.Registry Verif.TypeBuilder Verif.Merge Verif.CompoundModel Verif.Clang Verif.Clang.Cex

/-- the meaning of the names, from that of some names `B` -/
inductive Den (B : List (Str × CCT)) : Str → CCT → Prop
  | base {n : Str} {c : CCT} : (n, c) ∈ B → Den B n c
  | arr {n : Str} {c : CCT} (k : Nat) : Den B n c → Den B (n ++ '[' :: natStr k ++ [']']) (.arr k c)
  | ptr {n : Str} {c : CCT} : Den B n c → Den B (n ++ ['*']) (.ptr c)
  | vec {n : Str} {c : CCT} : Den B n c → Den B (vecName n) (.vec c)
  | sint (bytes : Nat) : Den B (intName .sint (8 * bytes)) (.builtin (8 * bytes) .sint)
  | uint (bytes : Nat) : Den B (intName .uint (8 * bytes)) (.builtin (8 * bytes) .uint)
  | str : Den B stringName .str

/-- the sort of a name: the end of its text -/
def tag (n : Str) : Nat :=
  match n.reverse with
  | ']' :: _ => 1
  | '*' :: _ => 2
  | '>' :: _ => if "/std/vector<".toList.isPrefixOf n then 3 else 0
  | 't' :: '_' :: _ => 4
  | 'g' :: 'n' :: 'i' :: 'r' :: 't' :: _ => 5
  | _ => 0

theorem tag_arr (n : Str) (k : Nat) : tag (n ++ '[' :: natStr k ++ [']']) = 1 := by
  unfold tag; rw [List.reverse_append]; rfl
theorem tag_ptr (n : Str) : tag (n ++ ['*']) = 2 := by
  unfold tag; rw [List.reverse_append]; rfl
theorem tag_vec (n : Str) : tag (vecName n) = 3 := by
  have h : "/std/vector<".toList.isPrefixOf (vecName n) = true := by
    unfold vecName; rw [List.append_assoc, List.isPrefixOf_iff_prefix]; exact List.prefix_append _ _
  unfold tag
  rw [h]
  unfold vecName
  rw [List.reverse_append]; rfl
theorem tag_int (k : BKind) (b : Nat) : tag (intName k b) = 4 := by
  unfold tag intName; rw [List.reverse_append]; rfl
theorem tag_str : tag stringName = 5 := by decide +kernel

theorem sep_inj {x : Char} : ∀ {a b c d : Str}, x ∉ a → x ∉ b → a ++ x :: c = b ++ x :: d → a = b ∧ c = d := by
  intro a
  induction a with
  | nil =>
    intro b c d _ hb h
    cases b with
    | nil => injection h with _ h; exact ⟨rfl, h⟩
    | cons y b => injection h with h _; exact absurd (by rw [h]; exact List.mem_cons_self ..) hb
  | cons z a ih =>
    intro b c d ha hb h
    cases b with
    | nil => injection h with h _; exact absurd (by rw [← h]; exact List.mem_cons_self ..) ha
    | cons y b =>
      injection h with h1 h2
      obtain ⟨e1, e2⟩ := ih (fun hm => ha (List.mem_cons_of_mem _ hm)) (fun hm => hb (List.mem_cons_of_mem _ hm)) h2
      exact ⟨by rw [h1, e1], e2⟩

theorem arr_inj {n n' : Str} {k k' : Nat} (h : n ++ '[' :: natStr k ++ [']'] = n' ++ '[' :: natStr k' ++ [']']) : n = n' ∧ k = k' := by
  have h1 := List.append_cancel_right h
  have h2 := congrArg List.reverse h1
  rw [List.reverse_append, List.reverse_append, List.reverse_cons, List.reverse_cons, List.append_assoc, List.append_assoc] at h2
  have hd : ∀ k, '[' ∉ (natStr k).reverse := by
    intro k hm
    have := natStr_digits k '[' (List.mem_reverse.mp hm)
    exact absurd this (by decide)
  obtain ⟨e1, e2⟩ := sep_inj (hd k) (hd k') h2
  exact ⟨List.reverse_inj.mp e2, natStr_inj (List.reverse_inj.mp e1)⟩

theorem vec_inj {n n' : Str} (h : vecName n = vecName n') : n = n' := by
  unfold vecName at h
  exact List.append_cancel_left (List.append_cancel_right h)

theorem int_inj {k : BKind} {b b' : Nat} (h : intName k b = intName k b') : b = b' := by
  unfold intName at h
  exact natStr_inj (List.append_cancel_left (List.append_cancel_right h))

theorem sint_ne_uint (b b' : Nat) : intName .sint b ≠ intName .uint b' := by
  intro h
  have := congrArg (fun l => l[1]?) h
  simp [intName] at this

/-- the names `B` are not those of derived types -/
def Plain (B : List (Str × CCT)) : Prop := (∀ p ∈ B, tag p.1 = 0) ∧ ∀ p ∈ B, ∀ q ∈ B, p.1 = q.1 → p.2 = q.2

variable {B : List (Str × CCT)}

theorem inv_arr (hB : Plain B) {m : Str} {c' : CCT} (h : Den B m c') : ∀ n k, m = n ++ '[' :: natStr k ++ [']'] →
    ∃ c, c' = .arr k c ∧ Den B n c := by
  intro n k e
  have ht : tag m = 1 := by rw [e]; exact tag_arr n k
  cases h with
  | base hb => rw [hB.1 _ hb] at ht; cases ht
  | @arr n' c k' h => obtain ⟨e1, e2⟩ := arr_inj e; subst e1; subst e2; exact ⟨c, rfl, h⟩
  | ptr _ => rw [tag_ptr] at ht; cases ht
  | vec _ => rw [tag_vec] at ht; cases ht
  | sint _ => rw [tag_int] at ht; cases ht
  | uint _ => rw [tag_int] at ht; cases ht
  | str => rw [tag_str] at ht; cases ht

theorem inv_ptr (hB : Plain B) {m : Str} {c' : CCT} (h : Den B m c') : ∀ n, m = n ++ ['*'] → ∃ c, c' = .ptr c ∧ Den B n c := by
  intro n e
  have ht : tag m = 2 := by rw [e]; exact tag_ptr n
  cases h with
  | base hb => rw [hB.1 _ hb] at ht; cases ht
  | arr _ _ => rw [tag_arr] at ht; cases ht
  | @ptr n' c h => have e1 := List.append_cancel_right e; subst e1; exact ⟨c, rfl, h⟩
  | vec _ => rw [tag_vec] at ht; cases ht
  | sint _ => rw [tag_int] at ht; cases ht
  | uint _ => rw [tag_int] at ht; cases ht
  | str => rw [tag_str] at ht; cases ht

theorem inv_vec (hB : Plain B) {m : Str} {c' : CCT} (h : Den B m c') : ∀ n, m = vecName n → ∃ c, c' = .vec c ∧ Den B n c := by
  intro n e
  have ht : tag m = 3 := by rw [e]; exact tag_vec n
  cases h with
  | base hb => rw [hB.1 _ hb] at ht; cases ht
  | arr _ _ => rw [tag_arr] at ht; cases ht
  | ptr _ => rw [tag_ptr] at ht; cases ht
  | @vec n' c h => have e1 := vec_inj e; subst e1; exact ⟨c, rfl, h⟩
  | sint _ => rw [tag_int] at ht; cases ht
  | uint _ => rw [tag_int] at ht; cases ht
  | str => rw [tag_str] at ht; cases ht

theorem Den.det (hB : Plain B) {m : Str} {c : CCT} (h : Den B m c) : ∀ c', Den B m c' → c = c' := by
  induction h with
  | @base n c hb =>
    intro c' h'
    have ht := hB.1 _ hb
    cases h' with
    | base hb' => exact hB.2 _ hb _ hb' rfl
    | arr _ _ => simp only [tag_arr] at ht; cases ht
    | ptr _ => simp only [tag_ptr] at ht; cases ht
    | vec _ => simp only [tag_vec] at ht; cases ht
    | sint _ => simp only [tag_int] at ht; cases ht
    | uint _ => simp only [tag_int] at ht; cases ht
    | str => simp only [tag_str] at ht; cases ht
  | arr k _ ih => intro c' h'; obtain ⟨c2, rfl, h2⟩ := inv_arr hB h' _ _ rfl; rw [ih _ h2]
  | ptr _ ih => intro c' h'; obtain ⟨c2, rfl, h2⟩ := inv_ptr hB h' _ rfl; rw [ih _ h2]
  | vec _ ih => intro c' h'; obtain ⟨c2, rfl, h2⟩ := inv_vec hB h' _ rfl; rw [ih _ h2]
  | sint b =>
    intro c' h'
    generalize hm : intName .sint (8 * b) = m at h'
    have ht : tag m = 4 := by rw [← hm]; exact tag_int _ _
    cases h' with
    | base hb' => rw [hB.1 _ hb'] at ht; cases ht
    | arr _ _ => rw [tag_arr] at ht; cases ht
    | ptr _ => rw [tag_ptr] at ht; cases ht
    | vec _ => rw [tag_vec] at ht; cases ht
    | sint b' => rw [int_inj hm]
    | uint _ => exact absurd hm (sint_ne_uint _ _)
    | str => rw [tag_str] at ht; cases ht
  | uint b =>
    intro c' h'
    generalize hm : intName .uint (8 * b) = m at h'
    have ht : tag m = 4 := by rw [← hm]; exact tag_int _ _
    cases h' with
    | base hb' => rw [hB.1 _ hb'] at ht; cases ht
    | arr _ _ => rw [tag_arr] at ht; cases ht
    | ptr _ => rw [tag_ptr] at ht; cases ht
    | vec _ => rw [tag_vec] at ht; cases ht
    | sint b' => exact absurd hm.symm (sint_ne_uint _ _)
    | uint b' => rw [int_inj hm]
    | str => rw [tag_str] at ht; cases ht
  | str =>
    intro c' h'
    generalize hm : stringName = m at h'
    have ht : tag m = 5 := by rw [← hm]; exact tag_str
    cases h' with
    | base hb' => rw [hB.1 _ hb'] at ht; cases ht
    | arr _ _ => rw [tag_arr] at ht; cases ht
    | ptr _ => rw [tag_ptr] at ht; cases ht
    | vec _ => rw [tag_vec] at ht; cases ht
    | sint b' => rw [tag_int] at ht; cases ht
    | uint b' => rw [tag_int] at ht; cases ht
    | str => rfl

open Classical in
/-- the meaning of names as a function -/
noncomputable def den (B : List (Str × CCT)) (n : Str) : Option CCT := if h : ∃ c, Den B n c then some h.choose else none

theorem den_some (hB : Plain B) {n : Str} {c : CCT} (h : Den B n c) : den B n = some c := by
  unfold den
  have he : ∃ c, Den B n c := ⟨c, h⟩
  rw [dif_pos he, h.det hB _ he.choose_spec]

theorem den_none {n : Str} (h : ∀ c, ¬ Den B n c) : den B n = none := dif_neg fun ⟨c, hc⟩ => h c hc

theorem den_map (hB : Plain B) {n m : Str} {op : CCT → CCT} (h1 : ∀ c, Den B n c → Den B m (op c))
    (h2 : ∀ c', Den B m c' → ∃ c, c' = op c ∧ Den B n c) : den B m = (den B n).map op := by
  by_cases h : ∃ c, Den B n c
  · obtain ⟨c, hc⟩ := h
    rw [den_some hB hc, den_some hB (h1 c hc)]; rfl
  · rw [den_none (fun c hc => h ⟨c, hc⟩), den_none]
    · rfl
    · intro c' hc'
      obtain ⟨c, _, hc⟩ := h2 c' hc'
      exact h ⟨c, hc⟩

/-- the names mean something as soon as the names of the program do -/
theorem names (hB : Plain B) {A : AST} (hocc : ∀ n ty, Occurs A n ty → isAbsoluteName n = true ∧ ∃ c, Canon A ty c ∧ Den B n c)
    (htd : ∀ td ∈ A.typedefs, isAbsoluteName td.name = true ∧ ∃ c, Den B td.name c ∧ Den B td.canonName c) : Names A (den B) where
  occ := fun n ty h => by
    obtain ⟨h1, c, h2, h3⟩ := hocc n ty h
    exact ⟨h1, c, h2, den_some hB h3⟩
  typedef := fun td h => by
    obtain ⟨h1, c, h2, h3⟩ := htd td h
    exact ⟨h1, by rw [den_some hB h2, den_some hB h3]⟩
  arr := fun n _ k => den_map hB (fun _ h => .arr k h) fun _ h => inv_arr hB h n k rfl
  ptr := fun n _ => den_map hB (fun _ h => .ptr h) fun _ h => inv_ptr hB h n rfl
  vec := fun n _ => den_map hB (fun _ h => .vec h) fun _ h => inv_vec hB h n rfl
  sint := fun b => den_some hB (.sint b)
  uint := fun b => den_some hB (.uint b)
  str := den_some hB .str

/-! ### A program

`struct Base { int id; }; enum E { E_A, E_B = 5 };`
`struct S : Base { double x; E e; int v[3]; std::vector<int> w; std::string t; }; typedef S Alias;` -/

def vecRecord : CRecord :=
  ⟨s "/std/vector</int,/std/allocator</int>>", true, false, false, true, false,
    some (s "/std/vector", [(s "/int", i32), (s "/std/allocator</int>", .other 0 0)]), 24, [], []⟩
def strRecord : CRecord :=
  ⟨s "/std/string</char,/std/char_traits</char>,/std/allocator</char>>", true, false, false, true, false,
    some (s "/std/string", [(s "/char", .builtin 8 .sint), (s "/std/char_traits</char>", .other 1 0), (s "/std/allocator</char>", .other 2 0)]),
    32, [], []⟩
def baseRecord : CRecord := rcd "/Base" 4 [fld "id" "/int" i32 0] []
def sRecord : CRecord :=
  rcd "/S" 88 [fld "x" "/double" (.builtin 64 .float) 64, fld "e" "/E" (.enum 0) 128, fld "v" "/int[3]" (.arr (s "/int") i32 3) 160,
    ⟨s "w", vecRecord.name, .record (some 2), false, false, 256, none⟩,
    ⟨s "t", strRecord.name, .record (some 3), false, false, 448, none⟩] [base 1 "/Base" 0]
def eEnum : CEnum := ⟨s "/E", true, false, 32, [(s "E_A", 0), (s "E_B", 5)]⟩
def aTypedef : CTypedef := ⟨s "/Alias", s "/S", .elaborated (.record (some 0))⟩
def prog : AST := ⟨[sRecord, baseRecord, vecRecord, strRecord], [eEnum], [aTypedef]⟩

/-- What the names mean. (`/int,/std/allocator</int>` is what is between the brackets of the name of the vector.) -/
def B0 : List (Str × CCT) :=
  [(s "/int", .builtin 32 .sint), (s "/double", .builtin 64 .float), (s "/char", .builtin 8 .sint), (s "/S", .record 0),
   (s "/Alias", .record 0), (s "/Base", .record 1), (s "/E", .enum 0), (strRecord.name, .str),
   (s "/int,/std/allocator</int>", .builtin 32 .sint)]

theorem plain : Plain B0 := by
  unfold Plain
  constructor
  · decide +kernel
  · decide +kernel

/-- the types met in the program, with their names -/
def occs : List (Str × CT) :=
  [(s "/S", .record (some 0)), (s "/Base", .record (some 1)), (vecRecord.name, .record (some 2)), (strRecord.name, .record (some 3)),
   (s "/E", .enum 0), (s "/double", .builtin 64 .float), (s "/int[3]", .arr (s "/int") i32 3), (s "/int", i32),
   (s "/char", .builtin 8 .sint), (s "/S", .elaborated (.record (some 0)))]

/-- what is below a type -/
def below : Str × CT → List (Str × CT)
  | (_, .arr en e _) => [(en, e)]
  | (n, .elaborated t) => [(n, t)]
  | _ => []

theorem occ_list {n : Str} {ty : CT} (h : Occurs prog n ty) : (n, ty) ∈ occs := by
  have hbelow : ∀ p ∈ occs, ∀ q ∈ below p, q ∈ occs := by decide +kernel
  induction h with
  | @record d r hr =>
    have : ∀ d < 4, ∀ r ∈ prog.records[d]?, (r.name, CT.record (some d)) ∈ occs := by decide +kernel
    exact this d (by
      rcases Nat.lt_or_ge d 4 with h | h
      · exact h
      · rw [List.getElem?_eq_none h] at hr; cases hr) r hr
  | @enum d r hr =>
    have : ∀ d < 1, ∀ r ∈ prog.enums[d]?, (r.name, CT.enum d) ∈ occs := by decide +kernel
    exact this d (by
      rcases Nat.lt_or_ge d 1 with h | h
      · exact h
      · rw [List.getElem?_eq_none h] at hr; cases hr) r hr
  | field h1 h2 =>
    have : ∀ r ∈ prog.records, ∀ f ∈ r.fields, (f.tyName, f.ty) ∈ occs := by decide +kernel
    exact this _ h1 _ h2
  | base h1 h2 =>
    have : ∀ r ∈ prog.records, ∀ b ∈ r.bases, (b.name, b.ty) ∈ occs := by decide +kernel
    exact this _ h1 _ h2
  | arg h1 h2 h3 h4 =>
    have : ∀ r ∈ prog.records, ∀ p ∈ r.tmpl.toList, ∀ a ∈ p.2, (detailArg a.1 || decide (a ∈ occs)) = true := by decide +kernel
    have h5 := this _ h1 _ (Option.mem_toList.mpr h2) _ h3
    rw [h4, Bool.false_or] at h5
    exact of_decide_eq_true h5
  | typedef h1 =>
    have : ∀ td ∈ prog.typedefs, (td.canonName, td.ty) ∈ occs := by decide +kernel
    exact this _ h1
  | elem _ ih => exact hbelow _ ih _ (List.mem_singleton.mpr rfl)
  | elaborated _ ih => exact hbelow _ ih _ (List.mem_singleton.mpr rfl)

theorem not_vec {r : CRecord} (h : r.tmpl = none) (ty : CT) : ¬ VecOf r ty := by
  rintro ⟨n, args, an, h1, _⟩
  rw [h] at h1; cases h1

theorem not_str {r : CRecord} (h : r.tmpl = none) : ¬ IsString r := by
  rintro ⟨n, args, h1, _⟩
  rw [h] at h1; cases h1

theorem canon_S : Canon prog (.record (some 0)) (.record 0) := .record (r := sRecord) rfl (not_vec rfl) (not_str rfl)
theorem canon_Base : Canon prog (.record (some 1)) (.record 1) := .record (r := baseRecord) rfl (not_vec rfl) (not_str rfl)
theorem canon_vec : Canon prog (.record (some 2)) (.vec (.builtin 32 .sint)) :=
  .vec (r := vecRecord) (ty := i32) rfl ⟨_, _, s "/int", rfl, by decide +kernel, by decide +kernel⟩ (.builtin 32 .sint)
theorem canon_str : Canon prog (.record (some 3)) .str :=
  .str (r := strRecord) rfl ⟨_, _, rfl, by decide +kernel, by decide +kernel⟩

theorem occ_canon : ∀ p ∈ occs, isAbsoluteName p.1 = true ∧ ∃ c, Canon prog p.2 c ∧ Den B0 p.1 c := by
  intro p hp
  have habs : ∀ p ∈ occs, isAbsoluteName p.1 = true := by decide +kernel
  refine ⟨habs p hp, ?_⟩
  have hint : Den B0 (s "/int") (.builtin 32 .sint) := .base (List.mem_of_getElem? (i := 0) rfl)
  have hS : Den B0 (s "/S") (.record 0) := .base (List.mem_of_getElem? (i := 3) rfl)
  unfold occs at hp
  rcases List.mem_cons.mp hp with rfl | hp
  · exact ⟨_, canon_S, hS⟩
  rcases List.mem_cons.mp hp with rfl | hp
  · exact ⟨_, canon_Base, .base (List.mem_of_getElem? (i := 5) rfl)⟩
  rcases List.mem_cons.mp hp with rfl | hp
  · refine ⟨_, canon_vec, ?_⟩
    have h : Den B0 (vecName (s "/int,/std/allocator</int>")) (.vec (.builtin 32 .sint)) := .vec (.base (List.mem_of_getElem? (i := 8) rfl))
    rw [show vecName (s "/int,/std/allocator</int>") = vecRecord.name by decide +kernel] at h
    exact h
  rcases List.mem_cons.mp hp with rfl | hp
  · exact ⟨_, canon_str, .base (List.mem_of_getElem? (i := 7) rfl)⟩
  rcases List.mem_cons.mp hp with rfl | hp
  · exact ⟨_, .enum (r := eEnum) rfl, .base (List.mem_of_getElem? (i := 6) rfl)⟩
  rcases List.mem_cons.mp hp with rfl | hp
  · exact ⟨_, .builtin _ _, .base (List.mem_of_getElem? (i := 1) rfl)⟩
  rcases List.mem_cons.mp hp with rfl | hp
  · refine ⟨_, .arr (.builtin _ _), ?_⟩
    have h := Den.arr 3 hint
    rw [show s "/int" ++ '[' :: natStr 3 ++ [']'] = s "/int[3]" by decide +kernel] at h
    exact h
  rcases List.mem_cons.mp hp with rfl | hp
  · exact ⟨_, .builtin _ _, hint⟩
  rcases List.mem_cons.mp hp with rfl | hp
  · exact ⟨_, .builtin _ _, .base (List.mem_of_getElem? (i := 2) rfl)⟩
  rcases List.mem_cons.mp hp with rfl | hp
  · exact ⟨_, .elaborated canon_S, hS⟩
  · cases hp

theorem prog_names : Names prog (den B0) := by
  refine names plain (fun n ty h => occ_canon (n, ty) (occ_list h)) ?_
  intro td htd
  rcases List.mem_cons.mp htd with rfl | htd
  · exact ⟨rfl, .record 0, .base (List.mem_of_getElem? (i := 4) rfl), .base (List.mem_of_getElem? (i := 3) rfl)⟩
  · cases htd

/-- the members of the classes of the program -/
def mems : List (List (Nat × CField)) :=
  [sRecord.fields.map (fun f => (0, f)) ++ baseRecord.fields.map (fun f => (0, f)), baseRecord.fields.map (fun f => (0, f)), [], []]

theorem members_base {ms : List (Nat × CField)} (h : Members prog 1 0 ms) : ms = baseRecord.fields.map (fun f => (0, f)) := by
  cases h with
  | mk h1 h2 =>
    injection h1 with h1
    subst h1
    cases h2
    exact List.append_nil _

theorem members {d : Nat} {ms : List (Nat × CField)} (h : Members prog d 0 ms) (hd : d < 4) : mems[d]? = some ms := by
  match d, hd with
  | 0, _ =>
    cases h with
    | mk h1 h2 =>
      injection h1 with h1
      subst h1
      generalize hb : CRecord.bases _ = bs at h2
      cases h2 with
      | nil => cases hb
      | @cons _ d b bs' l l' e1 e2 e3 =>
        injection hb with hb1 hb2
        subst hb1; subst hb2
        injection e1 with e1
        subst e1
        cases e3
        rw [members_base e2, List.append_nil]
        rfl
  | 1, _ => rw [members_base h]; rfl
  | 2, _ =>
    cases h with
    | mk h1 h2 => injection h1 with h1; subst h1; cases h2; rfl
  | 3, _ =>
    cases h with
    | mk h1 h2 => injection h1 with h1; subst h1; cases h2; rfl

/-- the C++ types of the members -/
def typeOf : CT → CCT
  | .builtin b k => .builtin b k
  | .enum d => .enum d
  | .arr _ e n => .arr n (typeOf e)
  | .record (some 2) => .vec (.builtin 32 .sint)
  | .record (some 3) => .str
  | _ => .other 0 0

theorem typeOf_canon : ∀ l ∈ mems, ∀ m ∈ l, Canon prog m.2.ty (typeOf m.2.ty) := by
  have h : ∀ m ∈ sRecord.fields.map (fun f => (0, f)) ++ baseRecord.fields.map (fun f => ((0 : Nat), f)),
      Canon prog m.2.ty (typeOf m.2.ty) := by
    intro m hm
    rcases List.mem_cons.mp hm with rfl | hm
    · exact .builtin _ _
    rcases List.mem_cons.mp hm with rfl | hm
    · exact .enum (r := eEnum) rfl
    rcases List.mem_cons.mp hm with rfl | hm
    · exact .arr (.builtin _ _)
    rcases List.mem_cons.mp hm with rfl | hm
    · exact canon_vec
    rcases List.mem_cons.mp hm with rfl | hm
    · exact canon_str
    rcases List.mem_cons.mp hm with rfl | hm
    · exact .builtin _ _
    · cases hm
  intro l hl m hm
  rcases List.mem_cons.mp hl with rfl | hl
  · exact h m hm
  rcases List.mem_cons.mp hl with rfl | hl
  · exact h m (List.mem_append_right _ hm)
  rcases List.mem_cons.mp hl with rfl | hl
  · cases hm
  rcases List.mem_cons.mp hl with rfl | hl
  · cases hm
  · cases hl

theorem rec_lt {d : Nat} {r : CRecord} (h : prog.records[d]? = some r) : d < 4 := by
  rcases Nat.lt_or_ge d 4 with h' | h'
  · exact h'
  · rw [List.getElem?_eq_none h'] at h; cases h

theorem prog_supported : Supported prog where
  bases := by decide +kernel
  bits := by decide +kernel
  enums := by decide +kernel
  inside := by
    intro d r ms hr hms m hm c hc
    have h := members hms (rec_lt hr)
    have hml := List.mem_of_getElem? h
    rw [hc.det _ (typeOf_canon ms hml m hm)]
    have : ∀ d < 4, ∀ r ∈ prog.records[d]?, ∀ ms ∈ mems[d]?, ∀ m ∈ ms, m.1 + m.2.offset / 8 + sizeof prog (typeOf m.2.ty) ≤ r.size := by
      decide +kernel
    exact this d (rec_lt hr) r hr ms h m hm
  small := by decide +kernel
  vector := by
    intro d r c hr hc
    have h : ∀ d < 4, ∀ r ∈ prog.records[d]?, d = 2 ∨ d = 3 ∨ r.tmpl = none := by decide +kernel
    have h2 : ∀ r ∈ prog.records[2]?, r.size = 24 := by decide +kernel
    rcases h d (rec_lt hr) r hr with e | e | e
    · subst e; exact h2 r hr
    · subst e; cases hc.det _ canon_str
    · cases hc with
      | vec h1 h2 _ =>
        rw [hr] at h1
        injection h1 with h1
        subst h1
        exact absurd h2 (not_vec e _)
  string := by
    intro d r hr hc
    have h : ∀ d < 4, ∀ r ∈ prog.records[d]?, d = 2 ∨ d = 3 ∨ r.tmpl = none := by decide +kernel
    have h2 : ∀ r ∈ prog.records[3]?, r.size = 32 := by decide +kernel
    rcases h d (rec_lt hr) r hr with e | e | e
    · subst e; cases hc.det _ canon_vec
    · subst e; exact h2 r hr
    · cases hc with
      | str h1 h2 =>
        rw [hr] at h1
        injection h1 with h1
        subst h1
        exact absurd h2 (not_str e)

theorem prog_spelled : Spelled prog where
  arr := by
    intro n en e k h
    have := occ_list h
    have hall : ∀ p ∈ occs, ∀ en e k, p.2 = .arr en e k → e.direct = true ∧ p.1 = en ++ '[' :: natStr k ++ [']'] := by
      have h1 : (s "/int[3]") = s "/int" ++ '[' :: natStr 3 ++ [']'] := by decide +kernel
      intro p hp en e k he
      have hq : ∀ p ∈ occs, p.2.isArr = true → p = (s "/int[3]", .arr (s "/int") i32 3) := by decide +kernel
      have := hq p hp (by rw [he]; rfl)
      subst this
      injection he with e1 e2 e3
      subst e1; subst e2; subst e3
      exact ⟨rfl, h1⟩
    exact hall _ this en e k rfl
  typedef := by
    intro n d td h
    have hn : ∀ p ∈ occs, ∀ d, p.2 ≠ .typedef d := by
      have h1 : ∀ p ∈ occs, (match p.2 with | .typedef _ => false | _ => true) = true := by decide +kernel
      intro p hp d he
      have := h1 p hp
      rw [he] at this
      cases this
    exact absurd rfl (hn _ (occ_list h) d)

theorem prog_bases : BasesKnown prog := by
  have : ∀ r ∈ prog.records, ∀ b ∈ r.bases, b.decl = some 1 := by decide +kernel
  exact fun r hr b hb => ⟨1, baseRecord, this r hr b hb, rfl⟩

/-- depth of a type -/
def rk : CT → Nat
  | .record (some 0) => 3
  | .record (some _) => 1
  | .typedef _ => 5
  | .elaborated t => rk t + 1
  | .arr _ e _ => rk e + 1
  | _ => 0

theorem prog_ranked : Ranked prog rk where
  field := by
    intro d r f hr hf
    have : ∀ d < 4, ∀ r ∈ prog.records[d]?, ∀ f ∈ r.fields, rk f.ty < rk (.record (some d)) := by decide +kernel
    exact this d (rec_lt hr) r hr f hf
  base := by
    intro d r f hr hf
    have : ∀ d < 4, ∀ r ∈ prog.records[d]?, ∀ f ∈ r.bases, rk f.ty < rk (.record (some d)) := by decide +kernel
    exact this d (rec_lt hr) r hr f hf
  baseDecl := by
    intro d r f d' hr hf hd
    have : ∀ d < 4, ∀ r ∈ prog.records[d]?, ∀ f ∈ r.bases, ∀ d' ∈ f.decl, rk (.record (some d')) < rk (.record (some d)) := by decide +kernel
    exact this d (rec_lt hr) r hr f hf d' hd
  arg := by
    intro d r n args a hr ht ha hi
    have : ∀ d < 4, ∀ r ∈ prog.records[d]?, ∀ p ∈ r.tmpl, ∀ a ∈ p.2, rk a.2 < rk (.record (some d)) := by decide +kernel
    exact this d (rec_lt hr) r hr _ ht a ha
  typedef := by
    intro d td h
    have : ∀ td ∈ prog.typedefs, rk td.ty < 5 := by decide +kernel
    exact this td (List.mem_of_getElem? h)
  elem := fun _ _ _ => Nat.lt_succ_self _
  elaborated := fun _ => Nat.lt_succ_self _

/-- the declarations of the program -/
def decls : List Clang.Decl := [decl "/Base" (.record (some 1)), decl "/E" (.enum 0), decl "/S" (.record (some 0)), .typedef 0]

theorem decls_in : ∀ d ∈ decls, d.In prog (den B0) := by
  intro d hd
  rcases List.mem_cons.mp hd with rfl | hd
  · intro t ht; injection ht with ht; subst ht; exact .record (r := baseRecord) rfl
  rcases List.mem_cons.mp hd with rfl | hd
  · intro t ht; injection ht with ht; subst ht; exact .enum (r := eEnum) rfl
  rcases List.mem_cons.mp hd with rfl | hd
  · intro t ht; injection ht with ht; subst ht; exact .record (r := sRecord) rfl
  rcases List.mem_cons.mp hd with rfl | hd
  · trivial
  · cases hd

/-- what the import of the program does -/
theorem prog_import : (importDecls ascii prog 8 emptyWorld decls).2 = .ok () ∧
    fieldsOf (importDecls ascii prog 8 emptyWorld decls).1 "/Alias" =
      some [(s "x", 8, 8), (s "e", 16, 4), (s "v", 20, 12), (s "w", 32, 24), (s "t", 56, 32), (s "id", 0, 4)] := by
  decide +kernel

/-- the class `S` can be described -/
theorem prog_importable : Importable prog (.elaborated (.record (some 0))) := by
  refine .elaborated ?_
  have hanc1 : ∀ d', Anc prog 1 d' → d' = 1 := by
    intro d' h
    cases h with
    | refl => rfl
    | step h1 h2 => injection h1 with h1; subst h1; cases h2
  have hanc : ∀ d', Anc prog 0 d' → d' = 0 ∨ d' = 1 := by
    intro d' h
    cases h with
    | refl => exact Or.inl rfl
    | step h1 h2 h3 h4 =>
      injection h1 with h1
      subst h1
      rcases List.mem_cons.mp h2 with rfl | h2
      · injection h3 with h3; subst h3; exact Or.inr (hanc1 d' h4)
      · cases h2
  have hf : ∀ d' r', Anc prog 0 d' → prog.records[d']? = some r' → ∀ f ∈ r'.fields, f ∈ sRecord.fields ++ baseRecord.fields := by
    intro d' r' ha hr f hf
    rcases hanc d' ha with rfl | rfl
    · injection hr with hr; subst hr; exact List.mem_append_left _ hf
    · injection hr with hr; subst hr; exact List.mem_append_right _ hf
  refine .record (r := sRecord) rfl ⟨rfl, rfl, rfl⟩ rfl rfl ⟨0, sRecord, .refl 0, rfl, fun h => by cases h⟩ (by decide +kernel) ?_ ?_
  · intro d' r' ha hr f hff
    have : ∀ f ∈ sRecord.fields ++ baseRecord.fields, f.anonymous = false ∧ f.priv = false ∧ f.offset % 8 = 0 := by decide +kernel
    exact this f (hf d' r' ha hr f hff)
  · intro d' r' ha hr f hff
    have hm := hf d' r' ha hr f hff
    rcases List.mem_cons.mp hm with rfl | hm
    · exact .builtin rfl (by decide)
    rcases List.mem_cons.mp hm with rfl | hm
    · exact .enum (r := eEnum) rfl rfl rfl
    rcases List.mem_cons.mp hm with rfl | hm
    · exact .arr rfl (.builtin rfl (by decide))
    rcases List.mem_cons.mp hm with rfl | hm
    · refine .vector (r := vecRecord) (n := s "/std/vector") rfl ⟨rfl, rfl, rfl⟩ rfl (by decide +kernel) ?_
      intro a ha hna
      rcases List.mem_cons.mp ha with rfl | ha
      · exact .builtin rfl (by decide)
      rcases List.mem_cons.mp ha with rfl | ha
      · exact absurd hna (by decide +kernel)
      · cases ha
    rcases List.mem_cons.mp hm with rfl | hm
    · refine .string (r := strRecord) (n := s "/std/string") rfl ⟨rfl, rfl, rfl⟩ rfl (by decide +kernel) (by decide +kernel) ?_
      intro a ha hna
      rcases List.mem_cons.mp ha with rfl | ha
      · exact .builtin rfl (by decide)
      rcases List.mem_cons.mp ha with rfl | ha
      · exact absurd hna (by decide +kernel)
      rcases List.mem_cons.mp ha with rfl | ha
      · exact absurd hna (by decide +kernel)
      · cases ha
    rcases List.mem_cons.mp hm with rfl | hm
    · exact .builtin rfl (by decide)
    · cases hm

/-- the theorems apply to this program -/
example : ∃ t, (importDecls ascii prog 8 emptyWorld decls).1.2.reg (s "/Alias") = some t ∧
    Faithful prog (importDecls ascii prog 8 emptyWorld decls).1.1 (.record 0) t := by
  obtain ⟨t, ht⟩ := C66_complete_partial ascii_inj prog_names prog_supported prog_spelled 8 good_empty decls decls_in prog_import.1
    (List.mem_of_getElem? (i := 3) rfl) (.typedef (td := aTypedef) rfl) prog_importable
  exact ⟨t, ht, ((C66_import_partial ascii_inj prog_names prog_supported 8 decls decls_in).2 _ t _ ht
    (den_some plain (.base (List.mem_of_getElem? (i := 4) rfl)))).1⟩

example : ∃ f0, ∀ f, f0 ≤ f → ∀ w, Good ascii prog (den B0) w →
    (importDecls ascii prog f w decls).2 = .ok () ∨ ∃ e, (importDecls ascii prog f w decls).2 = .exn e :=
  C66_ends_partial ascii_inj prog_names prog_supported prog_bases prog_ranked decls decls_in (by
    intro i hi
    rcases List.mem_cons.mp hi with h | hi
    · cases h
    rcases List.mem_cons.mp hi with h | hi
    · cases h
    rcases List.mem_cons.mp hi with h | hi
    · cases h
    rcases List.mem_cons.mp hi with h | hi
    · injection h with h; subst h; decide
    · cases hi)

end Verif.Clang.Example
