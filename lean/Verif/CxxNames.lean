import Verif.Basic

/-!
C45. Model of `tools/typelib-clang-tlb-importer/NamingConversions.cpp` and of the renaming table of
`IgnoredOrRenamedTypes.cpp`. Strings are lists of characters.
-/

namespace Verif.CxxNames
open Verif

/-- `std::string::find(pat)`; all the patterns of this file are non-empty -/
def find (pat : Str) : Str → Option Nat
  | [] => none
  | c :: s => if pat.isPrefixOf (c :: s) then some 0 else (find pat s).map (· + 1)

/-- `std::string::find(pat, pos)` -/
def findFrom (pat s : Str) (pos : Nat) : Option Nat := (find pat (s.drop pos)).map (· + pos)

/-- `stringFromToReplace` (NamingConversions.cpp:11-23), and `IgnoredOrRenamedType::replaceAll`
(IgnoredOrRenamedTypes.cpp:48-57): the loop over the positions; `f` bounds the iterations. -/
def replaceLoop (pat to : Str) : Nat → Str → Nat → Str
  | 0, s, _ => s
  | f + 1, s, pos =>
    match findFrom pat s pos with
    | none => s
    | some i => replaceLoop pat to f (s.take i ++ to ++ s.drop (i + pat.length)) (i + to.length)

/-- every iteration consumes a character -/
def replaceAll (pat to s : Str) : Str := replaceLoop pat to (s.length + 1) s 0

/-- insertion of a slash after every `<` (NamingConversions.cpp:48-56); `at` throws past the end -/
def slashLoop : Nat → Str → Nat → Res Str
  | 0, _, _ => .fuel
  | f + 1, s, pos =>
    match findFrom ['<'] s pos with
    | none => .ok s
    | some i =>
      match s[i + 1]? with
      | none => .exn .outOfRange
      | some c => slashLoop f (if c ≠ '/' then s.take (i + 1) ++ ['/'] ++ s.drop (i + 1) else s) (i + 1)

/-- `isdigit` or a minus (NamingConversions.cpp:68-69) -/
def numStart (c : Char) : Bool := ('0' ≤ c && c ≤ '9') || c == '-'

/-- removal of the slashes in front of numbers (NamingConversions.cpp:58-77) -/
def numLoop : Nat → Str → Nat → Res Str
  | 0, _, _ => .fuel
  | f + 1, s, pos =>
    match findFrom ['/'] s pos with
    | none => .ok s
    | some i =>
      match s[i + 1]? with
      | none => .ok s
      | some c => numLoop f (if numStart c then s.take i ++ s.drop (i + 1) else s) (i + 1)

/-- `vTypeRenames` (IgnoredOrRenamedTypes.cpp:80-85) -/
def renames : List (Str × Str) :=
  [("/std/__1".toList, "/std".toList), ("/std/__cxx11".toList, "/std".toList),
   ("/std/basic_string".toList, "/std/string".toList)]

/-- `isTypeRenamed` (IgnoredOrRenamedTypes.cpp:59-69): `res = res || replaceAll(...)` does not evaluate the
replacement once one has been done. -/
def isTypeRenamed (t : List (Str × Str)) (s : Str) : Bool × Str :=
  t.foldl (fun (r : Bool × Str) e =>
    if r.1 then r else ((find e.1 r.2).isSome, replaceAll e.1 e.2 r.2)) (false, s)

/-- `cxxToTypelibName` without the renaming (NamingConversions.cpp:26-80); the empty string terminates the program
(`exit`), which is modelled as an exception -/
def plainName (s : Str) : Res Str :=
  if s = [] then .exn .exception else do
    let s := replaceAll [':', ':'] ['/'] s
    let s := replaceAll [' ', '['] ['['] s
    let s := replaceAll ['>', ' '] ['>'] s
    let s := replaceAll ['<', ' '] ['<'] s
    let s := replaceAll [',', ' '] [',', '/'] s
    let s ← slashLoop (s.length + 1) s 0
    let s ← numLoop (s.length + 1) s 0
    match s with
    | [] => .exn .outOfRange
    | c :: _ => if c ≠ '/' && s.length > 1 then .ok ('/' :: s) else .ok s

/-- `cxxToTypelibName` (NamingConversions.cpp:26-89) -/
def cxxToTypelibName (s : Str) : Res Str := do
  let s ← plainName s
  .ok (isTypeRenamed renames s).2

/-- `typelibToCxxName` (NamingConversions.cpp:131-149) -/
def typelibToCxxName (s : Str) : Str :=
  let s := replaceAll ['/'] [':', ':'] s
  let s := replaceAll ['<', ':', ':'] ['<'] s
  let s := replaceAll [',', ':', ':'] [','] s
  if s.length > 2 && s.take 2 == [':', ':'] then s.drop 2 else s

/-! ### The loops as scanners -/

/-- replacement from left to right; `k` characters of a match remain to be skipped -/
def rep (pat to : Str) : Nat → Str → Str
  | _, [] => []
  | k + 1, _ :: s => rep pat to k s
  | 0, c :: s => if pat.isPrefixOf (c :: s) then to ++ rep pat to (pat.length - 1) s else c :: rep pat to 0 s

theorem rep_skip (pat to : Str) : ∀ k s, rep pat to k s = rep pat to 0 (s.drop k) := by
  intro k
  induction k with
  | zero => intro s; simp
  | succ k ih =>
    intro s
    cases s with
    | nil => simp [rep]
    | cons c s => simp only [rep, List.drop_succ_cons]; exact ih s

theorem rep_find {pat : Str} (hp : pat ≠ []) (to : Str) : ∀ s, rep pat to 0 s = match find pat s with
    | none => s
    | some i => s.take i ++ to ++ rep pat to 0 (s.drop (i + pat.length)) := by
  intro s
  induction s with
  | nil => simp [rep, find]
  | cons c s ih =>
    simp only [rep, find]
    by_cases h : pat.isPrefixOf (c :: s) = true
    · simp only [h, if_true]
      rw [rep_skip]
      obtain ⟨k, hk⟩ : ∃ k, pat.length = k + 1 := by
        cases pat with
        | nil => exact absurd rfl hp
        | cons a l => exact ⟨l.length, rfl⟩
      simp [hk]
    · simp only [h, if_false, Bool.false_eq_true]
      rw [ih]
      cases hf : find pat s with
      | none => simp
      | some i => simp [Nat.add_right_comm i 1]

theorem find_lt {pat : Str} : ∀ {s : Str} {i : Nat}, find pat s = some i → i < s.length := by
  intro s
  induction s with
  | nil => intro i h; simp [find] at h
  | cons c s ih =>
    intro i h
    simp only [find] at h
    by_cases hp : pat.isPrefixOf (c :: s) = true
    · simp only [hp, if_true, Option.some.injEq] at h
      simp only [List.length_cons]
      omega
    · simp only [hp, if_false, Bool.false_eq_true] at h
      obtain ⟨j, hj, rfl⟩ := Option.map_eq_some_iff.mp h
      have := ih hj
      simp only [List.length_cons]
      omega

theorem find_le {pat : Str} : ∀ {s : Str} {i : Nat}, find pat s = some i → i + pat.length ≤ s.length := by
  intro s
  induction s with
  | nil => intro i h; simp [find] at h
  | cons c s ih =>
    intro i h
    simp only [find] at h
    by_cases hp : pat.isPrefixOf (c :: s) = true
    · simp only [hp, if_true, Option.some.injEq] at h
      have := (List.isPrefixOf_iff_prefix.mp hp).length_le
      omega
    · simp only [hp, if_false, Bool.false_eq_true] at h
      obtain ⟨j, hj, rfl⟩ := Option.map_eq_some_iff.mp h
      have := ih hj
      simp only [List.length_cons]
      omega

theorem replaceLoop_eq {pat : Str} (hp : pat ≠ []) (to : Str) : ∀ (f : Nat) (s : Str) (pos : Nat), pos ≤ s.length →
    s.length - pos < f → replaceLoop pat to f s pos = s.take pos ++ rep pat to 0 (s.drop pos) := by
  intro f
  induction f with
  | zero => intro s pos _ h; omega
  | succ f ih =>
    intro s pos hpos hf
    rw [rep_find hp]
    simp only [replaceLoop, findFrom]
    cases hfi : find pat (s.drop pos) with
    | none => simp
    | some i =>
      simp only [Option.map_some]
      have h1 := find_lt hfi
      have h2 := find_le hfi
      have hpl : 0 < pat.length := List.length_pos_iff.mpr hp
      simp only [List.length_drop] at h1 h2
      have hlt : (s.take (i + pos)).length = i + pos := by simp; omega
      rw [ih]
      · have ht : (s.take (i + pos) ++ to ++ s.drop (i + pos + pat.length)).take (i + pos + to.length)
            = s.take (i + pos) ++ to := by
          rw [List.take_append_of_le_length (by simp; omega)]
          rw [List.take_of_length_le (by simp; omega)]
        have hd : (s.take (i + pos) ++ to ++ s.drop (i + pos + pat.length)).drop (i + pos + to.length)
            = s.drop (i + pos + pat.length) := by
          have : i + pos + to.length = (s.take (i + pos) ++ to).length := by rw [List.length_append, hlt]
          rw [this, List.drop_left]
        rw [ht, hd]
        rw [Nat.add_comm i pos, List.take_add]
        simp [List.drop_drop, Nat.add_assoc, Nat.add_comm pat.length, Nat.add_left_comm]
      · simp only [List.length_append, List.length_drop, hlt]; omega
      · simp only [List.length_append, List.length_drop, hlt]; omega

/-- the loop is the replacement of the occurrences from left to right -/
theorem replaceAll_eq {pat : Str} (hp : pat ≠ []) (to s : Str) : replaceAll pat to s = rep pat to 0 s := by
  unfold replaceAll
  rw [replaceLoop_eq hp to _ s 0 (Nat.zero_le _) (by omega)]
  simp

/-- insertion of the slashes, as a scanner -/
def slash : Str → Res Str
  | [] => .ok []
  | c :: s =>
    if c = '<' then
      match s with
      | [] => .exn .outOfRange
      | d :: _ => do
        let r ← slash s
        .ok (if d ≠ '/' then '<' :: '/' :: r else '<' :: r)
    else do
      let r ← slash s
      .ok (c :: r)

/-- removal of the slashes in front of numbers, as a scanner -/
def num : Str → Str
  | [] => []
  | c :: s =>
    if c = '/' then
      match s with
      | [] => [c]
      | d :: s' => if numStart d then d :: num s' else c :: num (d :: s')
    else c :: num s

theorem find_char_none {c : Char} : ∀ {s : Str}, find [c] s = none → c ∉ s := by
  intro s
  induction s with
  | nil => intro _; simp
  | cons a s ih =>
    intro h
    simp only [find] at h
    by_cases e : a = c
    · simp [e, List.isPrefixOf] at h
    · have hc : ¬ c = a := fun h => e h.symm
      simp only [List.isPrefixOf, beq_eq_false_iff_ne.mpr hc, Bool.false_and, Bool.false_eq_true, if_false,
        Option.map_eq_none_iff] at h
      simp [ih h, hc]

theorem find_char_some {c : Char} : ∀ {s : Str} {i : Nat}, find [c] s = some i →
    ∃ a b, s = a ++ c :: b ∧ a.length = i ∧ c ∉ a := by
  intro s
  induction s with
  | nil => intro i h; simp [find] at h
  | cons x s ih =>
    intro i h
    simp only [find] at h
    by_cases e : x = c
    · subst e
      simp [List.isPrefixOf] at h
      exact ⟨[], s, rfl, h.symm ▸ rfl, by simp⟩
    · have hc : ¬ c = x := fun h => e h.symm
      simp only [List.isPrefixOf, beq_eq_false_iff_ne.mpr hc, Bool.false_and, Bool.false_eq_true, if_false] at h
      obtain ⟨j, hj, rfl⟩ := Option.map_eq_some_iff.mp h
      obtain ⟨a, b, h1, h2, h3⟩ := ih hj
      exact ⟨x :: a, b, by simp [h1], by simp [h2], by simp [h3, hc]⟩

theorem slash_pass {a : Str} (h : '<' ∉ a) (b : Str) : slash (a ++ b) = (slash b >>= fun r => .ok (a ++ r)) := by
  induction a with
  | nil => cases hb : slash b <;> simp [hb]
  | cons c a ih =>
    simp only [List.mem_cons, not_or] at h
    have hc : ¬ c = '<' := fun e => h.1 e.symm
    simp only [List.cons_append, slash, hc, if_false]
    rw [ih h.2]
    cases slash b <;> simp

theorem num_ne {c : Char} (h : ¬ c = '/') (s : Str) : num (c :: s) = c :: num s := by
  cases s <;> simp [num, h]

theorem num_pass {a : Str} (h : '/' ∉ a) (b : Str) : num (a ++ b) = a ++ num b := by
  induction a with
  | nil => rfl
  | cons c a ih =>
    simp only [List.mem_cons, not_or] at h
    have hc : ¬ c = '/' := fun e => h.1 e.symm
    rw [List.cons_append, num_ne hc, ih h.2]; rfl

theorem findFrom_char {c : Char} {s : Str} {pos : Nat} (hpos : pos ≤ s.length) :
    (findFrom [c] s pos = none ∧ c ∉ s.drop pos) ∨
    ∃ p a b, s = p ++ a ++ c :: b ∧ p.length = pos ∧ c ∉ a ∧ findFrom [c] s pos = some (pos + a.length) := by
  unfold findFrom
  cases h : find [c] (s.drop pos) with
  | none => exact .inl ⟨rfl, find_char_none h⟩
  | some i =>
    obtain ⟨a, b, h1, h2, h3⟩ := find_char_some h
    refine .inr ⟨s.take pos, a, b, ?_, by simp; omega, h3, ?_⟩
    · rw [List.append_assoc, ← h1, List.take_append_drop]
    · simp [h2, Nat.add_comm]

theorem count_no {c : Char} {a : Str} (h : c ∉ a) : a.count c = 0 := List.count_eq_zero.mpr h

theorem slashLoop_eq : ∀ (f : Nat) (s : Str) (pos : Nat), pos ≤ s.length → (s.drop pos).count '<' < f →
    slashLoop f s pos = (slash (s.drop pos) >>= fun r => .ok (s.take pos ++ r)) := by
  intro f
  induction f with
  | zero => intro s pos _ h; omega
  | succ f ih =>
    intro s pos hpos hf
    simp only [slashLoop]
    rcases findFrom_char (c := '<') hpos with ⟨h1, h2⟩ | ⟨p, a, b, h1, h2, h3, h4⟩
    · rw [h1]
      have := slash_pass h2 []
      simp only [List.append_nil, slash, Res.bind_ok] at this
      rw [this]
      simp
    · rw [h4]
      subst h1 h2
      have hd : (p ++ a ++ '<' :: b).drop p.length = a ++ '<' :: b := by rw [List.append_assoc, List.drop_left]
      have ht : (p ++ a ++ '<' :: b).take p.length = p := by rw [List.append_assoc, List.take_left]
      rw [hd] at hf
      rw [hd, ht, slash_pass h3]
      simp only [List.count_append, count_no h3, List.count_cons_self] at hf
      have hl1 : p.length + a.length + 1 = (p ++ a ++ ['<']).length := by simp; omega
      have hsp : p ++ a ++ '<' :: b = p ++ a ++ ['<'] ++ b := by simp
      cases b with
      | nil =>
        have : (p ++ a ++ ['<'])[p.length + a.length + 1]? = none := by
          rw [List.getElem?_eq_none_iff]; simp only [List.length_append, List.length_singleton]; omega
        simp only [this, slash, if_true, Res.bind_exn]
      | cons d b =>
        have hget : (p ++ a ++ '<' :: d :: b)[p.length + a.length + 1]? = some d := by
          rw [hsp, hl1, List.getElem?_append_right (Nat.le_refl _)]
          simp
        simp only [hget]
        have htk : (p ++ a ++ '<' :: d :: b).take (p.length + a.length + 1) = p ++ a ++ ['<'] := by
          rw [hsp, hl1, List.take_left]
        have hdr : (p ++ a ++ '<' :: d :: b).drop (p.length + a.length + 1) = d :: b := by
          rw [hsp, hl1, List.drop_left]
        have hlen : (p ++ a ++ '<' :: d :: b).length = p.length + a.length + 1 + (b.length + 1) := by simp; omega
        rw [show slash ('<' :: d :: b) = (slash (d :: b) >>= fun r =>
          .ok (if d ≠ '/' then '<' :: '/' :: r else '<' :: r)) by rw [slash]; simp]
        by_cases e : d = '/'
        · have hne : ¬ (d ≠ '/') := fun h => h e
          rw [if_neg hne, ih _ _ (by rw [hlen]; omega) (by rw [hdr]; omega), hdr, htk]
          cases hsb : slash (d :: b) <;> simp [hne]
        · rw [if_pos e, htk, hdr]
          have hl2 : (p ++ a ++ ['<'] ++ ['/'] ++ d :: b).length = p.length + a.length + 1 + (b.length + 2) := by
            simp; omega
          have hdr2 : (p ++ a ++ ['<'] ++ ['/'] ++ d :: b).drop (p.length + a.length + 1) = '/' :: d :: b := by
            rw [hl1, List.append_assoc (p ++ a ++ ['<']), List.drop_left]; rfl
          have htk2 : (p ++ a ++ ['<'] ++ ['/'] ++ d :: b).take (p.length + a.length + 1) = p ++ a ++ ['<'] := by
            rw [hl1, List.append_assoc (p ++ a ++ ['<']), List.take_left]
          have hcn : ('/' :: d :: b).count '<' = (d :: b).count '<' := by
            rw [List.count_cons]; simp
          rw [ih _ _ (by rw [hl2]; omega) (by rw [hdr2, hcn]; omega), hdr2, htk2]
          rw [show slash ('/' :: d :: b) = (slash (d :: b) >>= fun r => .ok ('/' :: r)) by
            rw [slash]; simp]
          cases hsb : slash (d :: b) <;> simp [e]

theorem numLoop_eq : ∀ (f : Nat) (s : Str) (pos : Nat), pos ≤ s.length → (s.drop pos).count '/' < f →
    numLoop f s pos = .ok (s.take pos ++ num (s.drop pos)) := by
  intro f
  induction f with
  | zero => intro s pos _ h; omega
  | succ f ih =>
    intro s pos hpos hf
    simp only [numLoop]
    rcases findFrom_char (c := '/') hpos with ⟨h1, h2⟩ | ⟨p, a, b, h1, h2, h3, h4⟩
    · rw [h1]
      have := num_pass h2 []
      simp only [List.append_nil, num] at this
      rw [this]
      simp
    · rw [h4]
      subst h1 h2
      have hd : (p ++ a ++ '/' :: b).drop p.length = a ++ '/' :: b := by rw [List.append_assoc, List.drop_left]
      have ht : (p ++ a ++ '/' :: b).take p.length = p := by rw [List.append_assoc, List.take_left]
      rw [hd] at hf
      rw [hd, ht, num_pass h3]
      simp only [List.count_append, count_no h3, List.count_cons_self] at hf
      have hl1 : p.length + a.length + 1 = (p ++ a ++ ['/']).length := by simp; omega
      have hl0 : p.length + a.length = (p ++ a).length := by simp
      have hsp : p ++ a ++ '/' :: b = p ++ a ++ ['/'] ++ b := by simp
      cases b with
      | nil =>
        have : (p ++ a ++ ['/'])[p.length + a.length + 1]? = none := by
          rw [List.getElem?_eq_none_iff]; simp only [List.length_append, List.length_singleton]; omega
        simp only [this]
        simp [num]
      | cons d b =>
        have hget : (p ++ a ++ '/' :: d :: b)[p.length + a.length + 1]? = some d := by
          rw [hsp, hl1, List.getElem?_append_right (Nat.le_refl _)]
          simp
        simp only [hget]
        have hdr : (p ++ a ++ '/' :: d :: b).drop (p.length + a.length + 1) = d :: b := by
          rw [hsp, hl1, List.drop_left]
        have htk : (p ++ a ++ '/' :: d :: b).take (p.length + a.length + 1) = p ++ a ++ ['/'] := by
          rw [hsp, hl1, List.take_left]
        have htk0 : (p ++ a ++ '/' :: d :: b).take (p.length + a.length) = p ++ a := by
          rw [hl0, List.take_left]
        have hlen : (p ++ a ++ '/' :: d :: b).length = p.length + a.length + 1 + (b.length + 1) := by simp; omega
        rw [num, if_pos rfl]
        by_cases e : numStart d = true
        · simp only [e, if_true]
          rw [htk0, hdr]
          have hl2 : p.length + a.length + 1 = (p ++ a ++ [d]).length := by simp; omega
          have hsp2 : p ++ a ++ d :: b = p ++ a ++ [d] ++ b := by simp
          have hc : (d :: b).count '/' ≥ b.count '/' := by rw [List.count_cons]; omega
          rw [ih _ _ (by simp; omega) (by rw [hsp2, hl2, List.drop_left]; omega), hsp2, hl2, List.drop_left,
            List.take_left]
          simp
        · simp only [e, if_false, Bool.false_eq_true]
          rw [ih _ _ (by rw [hlen]; omega) (by rw [hdr]; omega), hdr, htk]
          simp

theorem slashLoop_all (s : Str) : slashLoop (s.length + 1) s 0 = slash s := by
  rw [slashLoop_eq _ s 0 (Nat.zero_le _) (by
    have := List.count_le_length (a := '<') (l := s); simp only [List.drop_zero]; omega)]
  cases h : slash s <;> simp [h]

theorem numLoop_all (s : Str) : numLoop (s.length + 1) s 0 = .ok (num s) := by
  rw [numLoop_eq _ s 0 (Nat.zero_le _) (by
    have := List.count_le_length (a := '/') (l := s); simp only [List.drop_zero]; omega)]
  simp

end Verif.CxxNames
