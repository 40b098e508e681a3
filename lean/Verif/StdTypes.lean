import Verif.TypeBuilder
import Verif.RegistryProps

/-!
C50: `Typelib::CXX::addStandardTypes` (lang/csupport/standard_types.cc).
-/

namespace Verif.Std
open Verif Verif.Names Verif.Graph Verif.Registry Verif.TypeBuilder

/-! ### Model -/

/-- What the code asks the compiler (`std::numeric_limits`, `sizeof`): sizes in bytes, signedness of `char` and `wchar_t`.
A byte has 8 bits and `signed char` has 7 digits. -/
structure Abi where
  charSigned : Bool
  wcharSigned : Bool
  wchar : Nat
  short : Nat
  int : Nat
  long : Nat
  llong : Nat
  bool : Nat
  stringSize : Nat

/-- the sizes for which there is an integer type in the registry (standard_types.cc:16) -/
def Abi.Ok (A : Abi) : Prop :=
  ∀ n ∈ [A.wchar, A.short, A.int, A.long, A.llong], n ∈ [1, 2, 4, 8]

/-- `"/int" + lexical_cast(bits) + "_t"` (standard_types.cc:19, 24, ...) -/
def intName (signed : Bool) (bits : Nat) : Str :=
  (if signed then "/int".toList else "/uint".toList) ++ natStr bits ++ "_t".toList

/-- `r.add(new Numeric(...))` and `r.alias(base, name)` -/
inductive Call where
  | add (d : TypeDef)
  | alias (base name : Str)
  deriving Repr

/-- `numeric_limits<T>::digits` of a signed integer of `n` bytes -/
def digits (n : Nat) : Nat := 8 * n - 1

def aliases (base : Str) (l : List String) : List Call := l.map (fun s => .alias base s.toList)

/-- the types added first (standard_types.cc:12-22) -/
def sized : List Call :=
  [.add ⟨"/nil".toList, 0, .null⟩, .alias "/nil".toList "/void".toList] ++
  [1, 2, 4, 8].flatMap (fun n => [.add ⟨intName true (n * 8), n, .num .sint⟩, .add ⟨intName false (n * 8), n, .num .uint⟩])

def chars (A : Abi) : List Call :=
  aliases (intName true (digits 1 + 1)) (["/signed char"] ++ if A.charSigned then ["/char"] else []) ++
  aliases (intName false (digits 1 + 1)) ((if !A.charSigned then ["/char"] else []) ++ ["/unsigned char"]) ++
  aliases (if A.wcharSigned then intName true (digits A.wchar + 1) else intName false (8 * A.wchar)) ["/wchar_t"]

def shorts (A : Abi) : List Call :=
  aliases (intName true (digits A.short + 1)) ["/signed short int", "/signed int short", "/int signed short",
    "/short signed int", "/signed short int", "/signed short", "/short signed", "/short", "/short int"] ++
  aliases (intName false (digits A.short + 1)) ["/short unsigned int", "/short int unsigned", "/int short unsigned",
    "/unsigned short int", "/short unsigned", "/unsigned short"]

def ints (A : Abi) : List Call :=
  aliases (intName true (digits A.int + 1)) ["/signed int", "/signed", "/int signed", "/int"] ++
  aliases (intName false (digits A.int + 1)) ["/unsigned int", "/unsigned", "/int unsigned"]

def longs (A : Abi) : List Call :=
  aliases (intName true (digits A.long + 1)) ["/signed long int", "/signed int long", "/int signed long",
    "/long signed int", "/signed long int", "/signed long", "/long signed", "/long", "/long int"] ++
  aliases (intName false (digits A.long + 1)) ["/long unsigned int", "/long int unsigned", "/int long unsigned",
    "/unsigned long int", "/long unsigned", "/unsigned long"]

def llongs (A : Abi) : List Call :=
  aliases (intName true (digits A.llong + 1)) ["/signed long long int", "/signed long int long", "/signed int long long",
    "/int signed long long", "/long signed long int", "/long long signed int", "/long long int signed",
    "/signed long long", "/long long signed", "/long signed long", "/long long int", "/long int long", "/int long long",
    "/long long"] ++
  aliases (intName false (digits A.llong + 1)) ["/unsigned long long int", "/unsigned long int long",
    "/unsigned int long long", "/int unsigned long long", "/long unsigned long int", "/long long unsigned int",
    "/long long int unsigned", "/unsigned long long", "/long long unsigned", "/long unsigned long"]

def last (A : Abi) : List Call :=
  [.add ⟨"/float".toList, 4, .num .float⟩, .add ⟨"/double".toList, 8, .num .float⟩,
   .add ⟨"/bool".toList, A.bool, .num .uint⟩]

/-- the calls made by the static `addStandardTypes` (standard_types.cc:8-121), in order -/
def calls (A : Abi) : List Call := sized ++ (chars A ++ (shorts A ++ (ints A ++ (longs A ++ (llongs A ++ last A)))))

/-- one call: `Registry::add(Type*, source_id = "")` or `Registry::alias(base, newname, source_id = "")` -/
def Call.run (key : Char → Int) (w : World) : Call → World × Res Unit
  | .add d =>
    let H := w.1.alloc d
    let o := addAuto key H w.2 w.1.next []
    ((H, o.1), o.2)
  | .alias base name => let o := aliasAuto key w.1 w.2 base name []; ((w.1, o.1), o.2)

/-- the calls, abandoned by the first exception -/
def runCalls (key : Char → Int) : World → List Call → World × Res Unit
  | w, [] => (w, .ok ())
  | w, c :: cs =>
    match c.run key w with
    | (w', .ok ()) => runCalls key w' cs
    | r => r

/-- `CXX::addStandardTypes` (standard_types.cc:124-130); dereferencing the null pointer that `get` gives for an unknown name
is undefined behaviour -/
def addStandardTypes (key : Char → Int) (A : Abi) (w : World) : World × Res Unit :=
  match (if !w.2.has "/bool".toList then runCalls key w (calls A) else (w, .ok ())) with
  | (w1, .ok ()) =>
    if !w1.2.has "/std/string".toList then
      match w1.2.get "/int8_t".toList with
      | none => (w1, .ub)
      | some t => Call.run key w1 (.add ⟨"/std/string".toList, A.stringSize, .str t⟩)
    else (w1, .ok ())
  | r => r


/-! ### Specification: what the spellings of the integer types mean in C++ -/

inductive Rank where
  | char | short | int | long | llong
  deriving DecidableEq, Repr

def Abi.size (A : Abi) : Rank → Nat
  | .char => 1
  | .short => A.short
  | .int => A.int
  | .long => A.long
  | .llong => A.llong

/-- The type named by a sequence of keywords (ISO C++, table of simple-type-specifiers: the keywords can come in any order),
as (signed?, rank). `char` alone is another type. -/
def meaning (ws : List String) : Option (Bool × Rank) :=
  let sign := ws.count "signed" + ws.count "unsigned"
  let others := ws.count "short" + ws.count "long" + ws.count "int"
  if ws.length ≠ sign + others + ws.count "char" then none
  else if sign > 1 then none
  else if ws.count "char" > 0 then
    if ws.count "char" = 1 ∧ others = 0 ∧ sign = 1 then some (ws.count "signed" = 1, .char) else none
  else if ws.count "int" > 1 ∨ ws = [] then none
  else
    match ws.count "short", ws.count "long" with
    | 0, 0 => some (ws.count "unsigned" = 0, .int)
    | 1, 0 => some (ws.count "unsigned" = 0, .short)
    | 0, 1 => some (ws.count "unsigned" = 0, .long)
    | 0, 2 => some (ws.count "unsigned" = 0, .llong)
    | _, _ => none

/-- the name in the registry: `/` and the keywords, separated by spaces -/
def spelling (ws : List String) : Str := '/' :: List.intercalate [' '] (ws.map String.toList)

/-- the type the integers of a size are aliases of -/
def sizedName : Bool → Nat → Str
  | true, 1 => "/int8_t".toList
  | true, 2 => "/int16_t".toList
  | true, 4 => "/int32_t".toList
  | true, _ => "/int64_t".toList
  | false, 1 => "/uint8_t".toList
  | false, 2 => "/uint16_t".toList
  | false, 4 => "/uint32_t".toList
  | false, _ => "/uint64_t".toList

def sizedDef (signed : Bool) (size : Nat) : TypeDef := ⟨sizedName signed size, size, .num (if signed then .sint else .uint)⟩

/-- the spellings that are registered -/
def covered : List (List String) :=
  [["signed", "char"], ["unsigned", "char"], ["signed", "short", "int"], ["signed", "int", "short"],
   ["int", "signed", "short"], ["short", "signed", "int"], ["signed", "short"], ["short", "signed"], ["short"],
   ["short", "int"], ["short", "unsigned", "int"], ["short", "int", "unsigned"], ["int", "short", "unsigned"],
   ["unsigned", "short", "int"], ["short", "unsigned"], ["unsigned", "short"], ["signed", "int"], ["signed"],
   ["int", "signed"], ["int"], ["unsigned", "int"], ["unsigned"], ["int", "unsigned"], ["signed", "long", "int"],
   ["signed", "int", "long"], ["int", "signed", "long"], ["long", "signed", "int"], ["signed", "long"],
   ["long", "signed"], ["long"], ["long", "int"], ["long", "unsigned", "int"], ["long", "int", "unsigned"],
   ["int", "long", "unsigned"], ["unsigned", "long", "int"], ["long", "unsigned"], ["unsigned", "long"],
   ["signed", "long", "long", "int"], ["signed", "long", "int", "long"], ["signed", "int", "long", "long"],
   ["int", "signed", "long", "long"], ["long", "signed", "long", "int"], ["long", "long", "signed", "int"],
   ["long", "long", "int", "signed"], ["signed", "long", "long"], ["long", "long", "signed"],
   ["long", "signed", "long"], ["long", "long", "int"], ["long", "int", "long"], ["int", "long", "long"],
   ["long", "long"], ["unsigned", "long", "long", "int"], ["unsigned", "long", "int", "long"],
   ["unsigned", "int", "long", "long"], ["int", "unsigned", "long", "long"], ["long", "unsigned", "long", "int"],
   ["long", "long", "unsigned", "int"], ["long", "long", "int", "unsigned"], ["unsigned", "long", "long"],
   ["long", "long", "unsigned"], ["long", "unsigned", "long"]]

/-- the spellings that are not -/
def missing : List (List String) :=
  [["int", "short"], ["int", "long"], ["char", "signed"], ["char", "unsigned"], ["unsigned", "int", "short"],
   ["unsigned", "int", "long"], ["short", "int", "signed"], ["long", "int", "signed"], ["int", "unsigned", "short"],
   ["int", "unsigned", "long"], ["int", "short", "signed"], ["int", "long", "signed"],
   ["long", "signed", "int", "long"], ["long", "unsigned", "int", "long"], ["long", "int", "signed", "long"],
   ["long", "int", "unsigned", "long"], ["long", "int", "long", "signed"], ["long", "int", "long", "unsigned"],
   ["int", "long", "signed", "long"], ["int", "long", "unsigned", "long"], ["int", "long", "long", "signed"],
   ["int", "long", "long", "unsigned"]]

/-- the other names, with their definitions -/
def others (A : Abi) : List (Str × TypeDef) :=
  [("/nil".toList, ⟨"/nil".toList, 0, .null⟩), ("/void".toList, ⟨"/nil".toList, 0, .null⟩),
   ("/int8_t".toList, sizedDef true 1), ("/int16_t".toList, sizedDef true 2), ("/int32_t".toList, sizedDef true 4),
   ("/int64_t".toList, sizedDef true 8), ("/uint8_t".toList, sizedDef false 1), ("/uint16_t".toList, sizedDef false 2),
   ("/uint32_t".toList, sizedDef false 4), ("/uint64_t".toList, sizedDef false 8),
   ("/char".toList, sizedDef A.charSigned 1), ("/wchar_t".toList, sizedDef A.wcharSigned A.wchar),
   ("/float".toList, ⟨"/float".toList, 4, .num .float⟩), ("/double".toList, ⟨"/double".toList, 8, .num .float⟩),
   ("/bool".toList, ⟨"/bool".toList, A.bool, .num .uint⟩)]

/-- The standard names and their definitions. -/
def Standard (A : Abi) (n : Str) (d : TypeDef) : Prop :=
  (n, d) ∈ others A ∨ ∃ ws ∈ covered, n = spelling ws ∧ ∃ s r, meaning ws = some (s, r) ∧ d = sizedDef s (A.size r)

/-! ### Proof -/

variable {key : Char → Int}

theorem addName_get (hk : ∀ a b, key a = key b → a = b) {H : Heap} {R : Reg} (h : Inv key H R) {name : Str} {t : TId}
    (p : Bool) (src : Str) (habs : isAbsoluteName name = true) (hv : isValidTypename name true = true)
    (ht : name = H.name t ∨ R.get (H.name t) = some t) (hta : isAbsoluteName (H.name t) = true) (hal : t < H.next) :
    (R.get name = none → (addName key H R name t p src).2 = .ok () ∧
      ∀ n, isAbsoluteName n = true → (addName key H R name t p src).1.get n = if n = name then some t else R.get n) ∧
    (R.get name = some t → addName key H R name t p src = (R, .ok ())) ∧
    (∀ u, R.get name = some u → u ≠ t → addName key H R name t p src = (R, .exn .alreadyDefined)) := by
  rw [h.abs _ hta] at ht
  obtain ⟨h1, _, h3⟩ := addName_spec hk h name t p src habs ht hal
  refine ⟨fun hn => ?_, fun hg => ?_, fun u hg hu => ?_⟩
  · rcases h3 with ⟨_, e, _⟩ | ⟨_, _, u, e, _⟩ | ⟨_, _, e⟩ | ⟨e, _, _, h4⟩
    · rw [hv] at e; cases e
    · rw [← h.abs _ habs, hn] at e; cases e
    · rw [← h.abs _ habs, hn] at e; cases e
    · refine ⟨e, fun n hna => ?_⟩
      rw [h1.abs n hna, h4, h.abs n hna]
  · unfold addName; rw [hv, hg]; simp
  · unfold addName; rw [hv, hg]; simp [hu]

/-- What has been done after some of the calls: the names in `tbl` are bound to new types, with the definitions in `tbl`,
nothing else has changed. -/
structure Done (key : Char → Int) (w0 : World) (tbl : List (Str × TypeDef)) (w : World) : Prop where
  start : Reachable key w0.1 w0.2
  reach : Reachable key w.1 w.2
  next : w0.1.next ≤ w.1.next
  old : ∀ t, t < w0.1.next → w.1.get t = w0.1.get t
  leaf : ∀ t, w0.1.next ≤ t → t < w.1.next → (w.1.kind t).elem? = none
  abs : ∀ p ∈ tbl, isAbsoluteName p.1 = true ∧ isAbsoluteName p.2.name = true
  tab : ∀ p ∈ tbl, ∃ t, w0.1.next ≤ t ∧ t < w.1.next ∧ w.2.get p.1 = some t ∧ w.1.get t = p.2 ∧ w.2.get p.2.name = some t
  rest : ∀ n, isAbsoluteName n = true → n ∉ tbl.map (·.1) → w.2.get n = w0.2.get n

/-- a type without dependencies, with a proper name -/
structure Plain (d : TypeDef) : Prop where
  elem : d.kind.elem? = none
  deps : d.kind.deps = []
  abs : isAbsoluteName d.name = true
  valid : isValidTypename d.name true = true

theorem alias_leaf (hk : ∀ a b, key a = key b → a = b) {H : Heap} {R : Reg} (h : Reachable key H R) {base new : Str} {t : TId}
    (hv : isValidTypename new true = true) (hb : R.get base = some t)
    (ha : isAbsoluteName new = true) (ht : R.get (H.name t) = some t) (hta : isAbsoluteName (H.name t) = true)
    (hal : t < H.next) (hl : ∀ u, u < H.next → (H.kind u).elem? ≠ some t) (p : Bool) (src : Str) :
    alias key H R base new p src = addName key H R new t p src := by
  have hinv := (reachable_inv hk h).2
  unfold alias aliasF
  rw [hv, hb]
  simp only [Bool.not_true, Bool.false_eq_true, if_false]
  obtain ⟨h1, _, _⟩ := addName_spec hk hinv new t p src ha (Or.inr (by rw [← hinv.abs _ hta]; exact ht)) hal
  generalize addName key H R new t p src = o at h1 ⊢
  obtain ⟨R1, r⟩ := o
  cases r with
  | ok u =>
    have : ∀ (l : List TId), (∀ u ∈ l, (H.kind u).indirectName = none) → ∀ f R, forEach (modDep f H) R l = (R, .ok ()) := by
      intro l
      induction l with
      | nil => intro _ _ _; rfl
      | cons u l ih =>
        intro hu f R
        have e : modDep f H R u = (R, .ok ()) := by unfold modDep; rw [hu u (by simp)]
        rw [forEach, e]
        exact ih (fun x hx => hu x (by simp [hx])) f R
    exact this _ (by
      intro u hu
      obtain ⟨e1, e2⟩ := (mem_triggers h1.toGInv).mp hu
      have hul : u < H.next := by
        obtain ⟨e, he, rfl⟩ := reg_mem e1
        exact h1.alloc _ he
      cases hi : (H.kind u).indirectName with
      | none => rfl
      | some ind =>
        exfalso
        obtain ⟨x, hx1, hx2⟩ := indirect_deps hi
        unfold Heap.deps at e2
        rw [hx2] at e2
        simp only [List.mem_singleton] at e2
        subst e2
        exact hl u hul hx1) _ _
  | exn e => rfl
  | ub => rfl
  | fuel => rfl

theorem heap_name (H : Heap) (t : TId) : H.name t = (H.get t).name := rfl

theorem add_leaf (hk : ∀ a b, key a = key b → a = b) {w0 w : World} {tbl : List (Str × TypeDef)} (D : Done key w0 tbl w)
    {d : TypeDef} (hd : Plain d) (hf : d.name ∉ tbl.map (·.1)) :
    (w0.2.get d.name = none → ∃ w', Call.run key w (.add d) = (w', .ok ()) ∧ Done key w0 ((d.name, d) :: tbl) w') ∧
    (w0.2.get d.name ≠ none → ∃ w', Call.run key w (.add d) = (w', .exn .alreadyDefined)) := by
  have hr : Reachable key (w.1.alloc d) w.2 := .alloc d D.reach (by rw [hd.elem]; simp)
  have hinv := (reachable_inv hk hr).2
  have hdef : (w.1.alloc d).get w.1.next = d := alloc_get_new _ _
  have hname : (w.1.alloc d).name w.1.next = d.name := by rw [heap_name, hdef]
  have hdeps : (w.1.alloc d).deps w.1.next = [] := by unfold Heap.deps Heap.kind; rw [hdef]; exact hd.deps
  have hlt : w.1.next < (w.1.alloc d).next := Nat.lt_succ_self _
  have e : Call.run key w (.add d) =
      ((w.1.alloc d, (addAuto key (w.1.alloc d) w.2 w.1.next []).1), (addAuto key (w.1.alloc d) w.2 w.1.next []).2) := rfl
  have e2 : addAuto key (w.1.alloc d) w.2 w.1.next [] =
      addName key (w.1.alloc d) w.2 d.name w.1.next (isPersistent (w.1.alloc d) ((w.1.alloc d).name w.1.next) w.1.next) [] := by
    unfold addAuto add
    rw [hdeps, hname]
    generalize addName key (w.1.alloc d) w.2 d.name w.1.next _ [] = o
    obtain ⟨R1, r⟩ := o
    cases r <;> rfl
  have hro : Reachable key (w.1.alloc d) (addAuto key (w.1.alloc d) w.2 w.1.next []).1 :=
    .op (.addAuto w.1.next []) hr ⟨hlt, by rw [hname]; exact hd.abs⟩
  have hget := D.rest d.name hd.abs hf
  obtain ⟨g1, _, g3⟩ := addName_get hk hinv (name := d.name) (t := w.1.next)
    (isPersistent (w.1.alloc d) ((w.1.alloc d).name w.1.next) w.1.next) [] hd.abs hd.valid (Or.inl hname.symm)
    (by rw [hname]; exact hd.abs) hlt
  rw [e]
  rw [e2] at hro ⊢
  refine ⟨fun hn => ?_, fun hn => ?_⟩
  · obtain ⟨g4, g5⟩ := g1 (hget.trans hn)
    refine ⟨_, by rw [g4], ⟨D.start, hro, Nat.le_succ_of_le D.next, ?_, ?_, ?_, ?_, ?_⟩⟩
    · intro t ht
      rw [alloc_get_old _ _ (Nat.lt_of_lt_of_le ht D.next)]
      exact D.old t ht
    · intro t h1 h2
      unfold Heap.kind
      rcases Nat.lt_or_eq_of_le (Nat.le_of_lt_succ h2) with h3 | h3
      · show (((w.1.alloc d).get t).kind).elem? = none
        rw [alloc_get_old _ _ h3]
        exact D.leaf t h1 h3
      · subst h3
        show (((w.1.alloc d).get w.1.next).kind).elem? = none
        rw [hdef]
        exact hd.elem
    · intro p hp
      rcases List.mem_cons.mp hp with rfl | hp
      · exact ⟨hd.abs, hd.abs⟩
      · exact D.abs p hp
    · intro p hp
      rcases List.mem_cons.mp hp with rfl | hp
      · exact ⟨w.1.next, D.next, hlt, by rw [g5 _ hd.abs, if_pos rfl], hdef, by rw [g5 _ hd.abs, if_pos rfl]⟩
      · obtain ⟨t, t1, t2, t3, t4, t5⟩ := D.tab p hp
        have hne : ∀ n, w.2.get n = some t → n ≠ d.name := by
          rintro n h1 rfl
          rw [hget, hn] at h1
          cases h1
        refine ⟨t, t1, Nat.lt_succ_of_lt t2, ?_, ?_, ?_⟩
        · rw [g5 _ (D.abs p hp).1, if_neg (hne _ t3)]; exact t3
        · rw [alloc_get_old _ _ t2]; exact t4
        · rw [g5 _ (D.abs p hp).2, if_neg (hne _ t5)]; exact t5
    · intro n hn1 hn2
      simp only [List.map_cons, List.mem_cons, not_or] at hn2
      show (addName _ _ _ _ _ _ _).1.get n = _
      rw [g5 n hn1, if_neg hn2.1]
      exact D.rest n hn1 hn2.2
  · cases hu : w0.2.get d.name with
    | none => exact absurd hu hn
    | some u =>
      have hw := hget.trans hu
      have : u ≠ w.1.next := by
        have := (reachable_inv hk D.reach).2
        rw [this.abs _ hd.abs] at hw
        obtain ⟨e, he, rfl⟩ := reg_mem hw
        exact Nat.ne_of_lt (this.alloc _ he)
      exact ⟨_, by rw [g3 u hw this]⟩

theorem alias_step (hk : ∀ a b, key a = key b → a = b) {w0 w : World} {tbl : List (Str × TypeDef)} (D : Done key w0 tbl w)
    {base new : Str} {d : TypeDef} (hb : (base, d) ∈ tbl) (ha : isAbsoluteName new = true)
    (hv : isValidTypename new true = true) (hf : new ∉ tbl.map (·.1) ∨ (new, d) ∈ tbl) :
    (new ∉ tbl.map (·.1) → w0.2.get new ≠ none → ∃ w', Call.run key w (.alias base new) = (w', .exn .alreadyDefined)) ∧
    (new ∈ tbl.map (·.1) ∨ w0.2.get new = none →
      ∃ w', Call.run key w (.alias base new) = (w', .ok ()) ∧ Done key w0 ((new, d) :: tbl) w') := by
  obtain ⟨t, t1, t2, t3, t4, t5⟩ := D.tab _ hb
  have hinv := (reachable_inv hk D.reach).2
  have hnm : w.1.name t = d.name := by rw [heap_name, t4]
  have hda := (D.abs _ hb).2
  have e : Call.run key w (.alias base new) =
      ((w.1, (aliasAuto key w.1 w.2 base new []).1), (aliasAuto key w.1 w.2 base new []).2) := rfl
  have e2 : aliasAuto key w.1 w.2 base new [] = addName key w.1 w.2 new t (isPersistent w.1 new t) [] := by
    unfold aliasAuto
    rw [t3]
    refine alias_leaf hk D.reach hv t3 ha (by rw [hnm]; exact t5) (by rw [hnm]; exact hda) t2 ?_ _ _
    intro u hu he
    have := (reachable_inv hk D.reach).1 u t he
    rw [D.leaf u (Nat.le_trans t1 (Nat.le_of_lt this)) hu] at he
    cases he
  have hro : Reachable key w.1 (aliasAuto key w.1 w.2 base new []).1 := .op (.aliasAuto base new []) D.reach ha
  obtain ⟨g1, g2, g3⟩ := addName_get hk hinv (name := new) (t := t) (isPersistent w.1 new t) [] ha hv
    (Or.inr (by rw [hnm]; exact t5)) (by rw [hnm]; exact hda) t2
  rw [e]
  rw [e2] at hro ⊢
  refine ⟨fun hn hg => ?_, fun hn => ?_⟩
  · cases hu : w0.2.get new with
    | none => exact absurd hu hg
    | some u =>
      have hw := (D.rest new ha hn).trans hu
      have : u ≠ t := by
        rintro rfl
        have h0 := (reachable_inv hk D.start).2
        rw [h0.abs _ ha] at hu
        obtain ⟨e, he, rfl⟩ := reg_mem hu
        exact Nat.not_lt.mpr t1 (h0.alloc _ he)
      exact ⟨_, by rw [g3 u hw this]⟩
  · by_cases hin : new ∈ tbl.map (·.1)
    · have hmem : (new, d) ∈ tbl := hf.resolve_left (fun h => h hin)
      obtain ⟨t', _, _, u3, _, u5⟩ := D.tab _ hmem
      have htt : t' = t := by
        have : some t' = some t := u5.symm.trans t5
        exact Option.some.inj this
      subst htt
      refine ⟨w, by rw [g2 u3], D.start, D.reach, D.next, D.old, D.leaf, ?_, ?_, ?_⟩
      · intro p hp
        rcases List.mem_cons.mp hp with rfl | hp
        · exact D.abs _ hmem
        · exact D.abs p hp
      · intro p hp
        rcases List.mem_cons.mp hp with rfl | hp
        · exact D.tab _ hmem
        · exact D.tab p hp
      · intro n h1 h2
        simp only [List.map_cons, List.mem_cons, not_or] at h2
        exact D.rest n h1 h2.2
    · have hg := (D.rest new ha hin).trans (hn.resolve_left hin)
      obtain ⟨g4, g5⟩ := g1 hg
      refine ⟨(w.1, (addName key w.1 w.2 new t (isPersistent w.1 new t) []).1), by rw [g4], D.start, hro, D.next, D.old, D.leaf, ?_, ?_, ?_⟩
      · intro p hp
        rcases List.mem_cons.mp hp with rfl | hp
        · exact ⟨ha, hda⟩
        · exact D.abs p hp
      · have hne : ∀ n u, w.2.get n = some u → n ≠ new := by
          rintro n u h1 rfl
          rw [hg] at h1
          cases h1
        intro p hp
        rcases List.mem_cons.mp hp with rfl | hp
        · refine ⟨t, t1, t2, ?_, t4, ?_⟩
          · show (addName _ _ _ _ _ _ _).1.get new = _
            rw [g5 _ ha, if_pos rfl]
          · show (addName _ _ _ _ _ _ _).1.get d.name = _
            rw [g5 _ hda, if_neg (hne _ _ t5)]; exact t5
        · obtain ⟨u, u1, u2, u3, u4, u5⟩ := D.tab p hp
          refine ⟨u, u1, u2, ?_, u4, ?_⟩
          · show (addName _ _ _ _ _ _ _).1.get p.1 = _
            rw [g5 _ (D.abs p hp).1, if_neg (hne _ _ u3)]; exact u3
          · show (addName _ _ _ _ _ _ _).1.get p.2.name = _
            rw [g5 _ (D.abs p hp).2, if_neg (hne _ _ u5)]; exact u5
      · intro n h1 h2
        simp only [List.map_cons, List.mem_cons, not_or] at h2
        show (addName _ _ _ _ _ _ _).1.get n = _
        rw [g5 n h1, if_neg h2.1]
        exact D.rest n h1 h2.2

/-- the calls are well chosen: new names are given to leaf types, names of known types get aliases -/
inductive Good : List (Str × TypeDef) → List Call → List (Str × TypeDef) → Prop
  | nil {tbl} : Good tbl [] tbl
  | add {tbl d cs tbl'} : Plain d → d.name ∉ tbl.map (·.1) → Good ((d.name, d) :: tbl) cs tbl' → Good tbl (.add d :: cs) tbl'
  | alias {tbl base new d cs tbl'} : (base, d) ∈ tbl → isAbsoluteName new = true → isValidTypename new true = true →
      (new ∉ tbl.map (·.1) ∨ (new, d) ∈ tbl) → Good ((new, d) :: tbl) cs tbl' → Good tbl (.alias base new :: cs) tbl'

theorem Good.sub {tbl cs tbl'} (h : Good tbl cs tbl') : ∀ p ∈ tbl, p ∈ tbl' := by
  induction h with
  | nil => exact fun _ h => h
  | add _ _ _ ih => exact fun p hp => ih p (by simp [hp])
  | alias _ _ _ _ _ ih => exact fun p hp => ih p (by simp [hp])

theorem run_good (hk : ∀ a b, key a = key b → a = b) {w0 : World} {tbl cs tbl'} (h : Good tbl cs tbl') :
    ∀ w, Done key w0 tbl w → (∀ p ∈ tbl, w0.2.get p.1 = none) →
    ((∀ p ∈ tbl', w0.2.get p.1 = none) ∧ ∃ w', runCalls key w cs = (w', .ok ()) ∧ Done key w0 tbl' w') ∨
    ((∃ p ∈ tbl', w0.2.get p.1 ≠ none) ∧ ∃ w', runCalls key w cs = (w', .exn .alreadyDefined)) := by
  induction h with
  | nil => exact fun w D hf => Or.inl ⟨hf, w, rfl, D⟩
  | @add tbl d cs tbl' hd hn hg ih =>
    intro w D hf
    obtain ⟨h1, h2⟩ := add_leaf hk D hd hn
    by_cases hb : w0.2.get d.name = none
    · obtain ⟨w', e, D'⟩ := h1 hb
      have := ih w' D' (fun p hp => (List.mem_cons.mp hp).elim (fun e => e ▸ hb) (hf p))
      rw [runCalls, e]
      exact this
    · obtain ⟨w', e⟩ := h2 hb
      exact Or.inr ⟨⟨(d.name, d), hg.sub _ (by simp), hb⟩, w', by rw [runCalls, e]⟩
  | @alias tbl base new d cs tbl' hb ha hv hn hg ih =>
    intro w D hf
    obtain ⟨h1, h2⟩ := alias_step hk D hb ha hv hn
    by_cases hc : new ∈ tbl.map (·.1) ∨ w0.2.get new = none
    · obtain ⟨w', e, D'⟩ := h2 hc
      have hnew : w0.2.get new = none := by
        rcases hc with hc | hc
        · obtain ⟨p, hp, rfl⟩ := List.mem_map.mp hc
          exact hf p hp
        · exact hc
      have := ih w' D' (fun p hp => (List.mem_cons.mp hp).elim (fun e => e ▸ hnew) (hf p))
      rw [runCalls, e]
      exact this
    · obtain ⟨h3, h4⟩ := not_or.mp hc
      obtain ⟨w', e⟩ := h1 h3 h4
      exact Or.inr ⟨⟨(new, d), hg.sub _ (by simp), h4⟩, w', by rw [runCalls, e]⟩

theorem good_aliases {base : Str} {d : TypeDef} (l : List String) : ∀ (tbl : List (Str × TypeDef)), (base, d) ∈ tbl →
    (∀ s ∈ l, isAbsoluteName s.toList = true ∧ isValidTypename s.toList true = true) →
    (∀ s ∈ l, s.toList ∉ tbl.map (·.1) ∨ (s.toList, d) ∈ tbl) →
    ∃ tbl2, tbl2.map (·.1) = (l.map String.toList).reverse ++ tbl.map (·.1) ∧
      (∀ p, p ∈ tbl2 ↔ p ∈ tbl ∨ ∃ s ∈ l, p = (s.toList, d)) ∧
      ∀ cs tbl', Good tbl2 cs tbl' → Good tbl (aliases base l ++ cs) tbl' := by
  induction l with
  | nil => intro tbl _ _ _; exact ⟨tbl, rfl, by simp, fun _ _ h => h⟩
  | cons s l ih =>
    intro tbl hb hv hf
    obtain ⟨tbl2, h1, h2, h3⟩ := ih ((s.toList, d) :: tbl) (by simp [hb]) (fun x hx => hv x (by simp [hx])) (by
      intro x hx
      by_cases hxs : x.toList = s.toList
      · exact Or.inr (by rw [hxs]; simp)
      · rcases hf x (by simp [hx]) with h | h
        · left
          simp only [List.map_cons, List.mem_cons, not_or]
          exact ⟨hxs, h⟩
        · exact Or.inr (by simp [h]))
    refine ⟨tbl2, by rw [h1]; simp, ?_, ?_⟩
    · intro p
      rw [h2]
      simp only [List.mem_cons, exists_eq_or_imp]
      constructor
      · rintro ((h | h) | h)
        · exact Or.inr (Or.inl h)
        · exact Or.inl h
        · exact Or.inr (Or.inr h)
      · rintro (h | h | h)
        · exact Or.inl (Or.inr h)
        · exact Or.inl (Or.inl h)
        · exact Or.inr h
    · intro cs tbl' hg
      exact .alias hb (hv s (by simp)).1 (hv s (by simp)).2 (hf s (by simp)) (h3 cs tbl' hg)

theorem group {base : Str} {d : TypeDef} (l : List String) {tbl : List (Str × TypeDef)} {K : List Str} (hb : (base, d) ∈ tbl)
    (hK : tbl.map (·.1) = K)
    (hl : ∀ s ∈ l, isAbsoluteName s.toList = true ∧ isValidTypename s.toList true = true ∧ s.toList ∉ K) :
    ∃ tbl2, tbl2.map (·.1) = (l.map String.toList).reverse ++ K ∧
      (∀ p, p ∈ tbl2 ↔ p ∈ tbl ∨ ∃ s ∈ l, p = (s.toList, d)) ∧
      ∀ cs tbl', Good tbl2 cs tbl' → Good tbl (aliases base l ++ cs) tbl' := by
  obtain ⟨tbl2, h1, h2, h3⟩ := good_aliases (base := base) (d := d) l tbl hb (fun s hs => ⟨(hl s hs).1, (hl s hs).2.1⟩)
    (fun s hs => Or.inl (by rw [hK]; exact (hl s hs).2.2))
  exact ⟨tbl2, by rw [h1, hK], h2, h3⟩

def sizedTbl : List (Str × TypeDef) :=
  [("/uint64_t".toList, sizedDef false 8), ("/int64_t".toList, sizedDef true 8), ("/uint32_t".toList, sizedDef false 4),
   ("/int32_t".toList, sizedDef true 4), ("/uint16_t".toList, sizedDef false 2), ("/int16_t".toList, sizedDef true 2),
   ("/uint8_t".toList, sizedDef false 1), ("/int8_t".toList, sizedDef true 1),
   ("/void".toList, ⟨"/nil".toList, 0, .null⟩), ("/nil".toList, ⟨"/nil".toList, 0, .null⟩)]

theorem sized_eq : sized = [.add ⟨"/nil".toList, 0, .null⟩, .alias "/nil".toList "/void".toList,
    .add (sizedDef true 1), .add (sizedDef false 1), .add (sizedDef true 2), .add (sizedDef false 2),
    .add (sizedDef true 4), .add (sizedDef false 4), .add (sizedDef true 8), .add (sizedDef false 8)] := by
  have h : ∀ b n, n ∈ [1, 2, 4, 8] → intName b (n * 8) = sizedName b n := by decide +kernel
  unfold sized sizedDef
  simp only [List.flatMap_cons, List.flatMap_nil, List.cons_append, List.nil_append, List.append_nil]
  rw [h true 1 (by simp), h false 1 (by simp), h true 2 (by simp), h false 2 (by simp), h true 4 (by simp),
    h false 4 (by simp), h true 8 (by simp), h false 8 (by simp)]
  rfl

theorem plain_sized (b : Bool) (n : Nat) (hn : n ∈ [1, 2, 4, 8]) : Plain (sizedDef b n) := by
  have h : ∀ b n, n ∈ [1, 2, 4, 8] → isAbsoluteName (sizedName b n) = true ∧ isValidTypename (sizedName b n) true = true := by
    decide +kernel
  exact ⟨rfl, rfl, (h b n hn).1, (h b n hn).2⟩

theorem good_sized (cs : List Call) (tbl' : List (Str × TypeDef)) (h : Good sizedTbl cs tbl') : Good [] (sized ++ cs) tbl' := by
  rw [sized_eq]
  refine .add ⟨rfl, rfl, by decide +kernel, by decide +kernel⟩ (by decide +kernel) ?_
  refine .alias (d := ⟨"/nil".toList, 0, .null⟩) (by simp) (by decide +kernel) (by decide +kernel) (Or.inl (by decide +kernel)) ?_
  refine .add (plain_sized _ _ (by simp)) (by decide +kernel) ?_
  refine .add (plain_sized _ _ (by simp)) (by decide +kernel) ?_
  refine .add (plain_sized _ _ (by simp)) (by decide +kernel) ?_
  refine .add (plain_sized _ _ (by simp)) (by decide +kernel) ?_
  refine .add (plain_sized _ _ (by simp)) (by decide +kernel) ?_
  refine .add (plain_sized _ _ (by simp)) (by decide +kernel) ?_
  refine .add (plain_sized _ _ (by simp)) (by decide +kernel) ?_
  refine .add (plain_sized _ _ (by simp)) (by decide +kernel) ?_
  exact h

theorem sizedTbl_mem (b : Bool) (n : Nat) (hn : n ∈ [1, 2, 4, 8]) : (sizedName b n, sizedDef b n) ∈ sizedTbl := by
  simp only [List.mem_cons, List.not_mem_nil, or_false] at hn
  rcases hn with rfl | rfl | rfl | rfl <;> cases b
  · exact List.mem_of_getElem? (i := 6) rfl
  · exact List.mem_of_getElem? (i := 7) rfl
  · exact List.mem_of_getElem? (i := 4) rfl
  · exact List.mem_of_getElem? (i := 5) rfl
  · exact List.mem_of_getElem? (i := 2) rfl
  · exact List.mem_of_getElem? (i := 3) rfl
  · exact List.mem_of_getElem? (i := 0) rfl
  · exact List.mem_of_getElem? (i := 1) rfl

theorem intName_digits (b : Bool) (n : Nat) (hn : n ∈ [1, 2, 4, 8]) : intName b (digits n + 1) = sizedName b n := by
  have h : ∀ b n, n ∈ [1, 2, 4, 8] → intName b (digits n + 1) = sizedName b n := by decide +kernel
  exact h b n hn

theorem intName_bits (b : Bool) (n : Nat) (hn : n ∈ [1, 2, 4, 8]) : intName b (8 * n) = sizedName b n := by
  have h : ∀ b n, n ∈ [1, 2, 4, 8] → intName b (8 * n) = sizedName b n := by decide +kernel
  exact h b n hn

/-- the lists of names, by type -/
def groups : List (List String × Bool × Rank) :=
  [(["/signed char"], true, .char), (["/unsigned char"], false, .char),
   (["/signed short int", "/signed int short", "/int signed short",
    "/short signed int", "/signed short int", "/signed short", "/short signed", "/short", "/short int"], true, .short),
   (["/short unsigned int", "/short int unsigned", "/int short unsigned",
    "/unsigned short int", "/short unsigned", "/unsigned short"], false, .short),
   (["/signed int", "/signed", "/int signed", "/int"], true, .int),
   (["/unsigned int", "/unsigned", "/int unsigned"], false, .int),
   (["/signed long int", "/signed int long", "/int signed long",
    "/long signed int", "/signed long int", "/signed long", "/long signed", "/long", "/long int"], true, .long),
   (["/long unsigned int", "/long int unsigned", "/int long unsigned",
    "/unsigned long int", "/long unsigned", "/unsigned long"], false, .long),
   (["/signed long long int", "/signed long int long", "/signed int long long",
    "/int signed long long", "/long signed long int", "/long long signed int", "/long long int signed",
    "/signed long long", "/long long signed", "/long signed long", "/long long int", "/long int long", "/int long long",
    "/long long"], true, .llong),
   (["/unsigned long long int", "/unsigned long int long",
    "/unsigned int long long", "/int unsigned long long", "/long unsigned long int", "/long long unsigned int",
    "/long long int unsigned", "/unsigned long long", "/long long unsigned", "/long unsigned long"], false, .llong)]

theorem groups_sound : ∀ g ∈ groups, ∀ s ∈ g.1, ∃ ws ∈ covered, s.toList = spelling ws ∧ meaning ws = some g.2 := by
  decide +kernel

theorem groups_complete : ∀ ws ∈ covered, ∃ g ∈ groups, meaning ws = some g.2 ∧ ∃ s ∈ g.1, s.toList = spelling ws := by
  decide +kernel

/-- the names can be added one list after the other -/
def chain : List Str → List (List String) → Bool
  | _, [] => true
  | K, l :: ls =>
    l.all (fun s => isAbsoluteName s.toList && isValidTypename s.toList true && !K.contains s.toList) &&
      chain ((l.map String.toList).reverse ++ K) ls

def keysAfter : List Str → List (List String) → List Str
  | K, [] => K
  | K, l :: ls => keysAfter ((l.map String.toList).reverse ++ K) ls

theorem good_seq : ∀ (G : List (List String × Bool × Nat)) (tbl : List (Str × TypeDef)) (K : List Str),
    (∀ g ∈ G, g.2.2 ∈ [1, 2, 4, 8]) → (∀ p ∈ sizedTbl, p ∈ tbl) → tbl.map (·.1) = K → chain K (G.map (·.1)) = true →
    ∃ tbl2, tbl2.map (·.1) = keysAfter K (G.map (·.1)) ∧
      (∀ p, p ∈ tbl2 ↔ p ∈ tbl ∨ ∃ g ∈ G, ∃ s ∈ g.1, p = (s.toList, sizedDef g.2.1 g.2.2)) ∧
      ∀ cs tbl', Good tbl2 cs tbl' →
        Good tbl (G.flatMap (fun g => aliases (sizedName g.2.1 g.2.2) g.1) ++ cs) tbl' := by
  intro G
  induction G with
  | nil => intro tbl K _ _ hK _; exact ⟨tbl, hK, by simp, fun _ _ h => h⟩
  | cons g G ih =>
    intro tbl K hs hsub hK hc
    simp only [List.map_cons, chain, Bool.and_eq_true, List.all_eq_true, Bool.not_eq_true', List.contains_eq_mem,
      decide_eq_false_iff_not] at hc
    obtain ⟨tbl1, h1, h2, h3⟩ := group (base := sizedName g.2.1 g.2.2) (d := sizedDef g.2.1 g.2.2) g.1
      (hsub _ (sizedTbl_mem _ _ (hs g (by simp)))) hK (fun s h => ⟨(hc.1 s h).1.1, (hc.1 s h).1.2, (hc.1 s h).2⟩)
    obtain ⟨tbl2, i1, i2, i3⟩ := ih tbl1 _ (fun x hx => hs x (by simp [hx])) (fun p hp => (h2 p).mpr (Or.inl (hsub p hp))) h1 hc.2
    refine ⟨tbl2, i1, ?_, ?_⟩
    · intro p
      rw [i2, h2]
      simp only [List.mem_cons, exists_eq_or_imp]
      exact or_assoc
    · intro cs tbl' hg
      rw [List.flatMap_cons, List.append_assoc]
      exact h3 _ _ (i3 _ _ hg)

/-- the aliases, in the order of the code -/
def seqA (A : Abi) : List (List String × Bool × Nat) :=
  (["/signed char"] ++ (if A.charSigned then ["/char"] else []), true, 1) ::
  ((if !A.charSigned then ["/char"] else []) ++ ["/unsigned char"], false, 1) ::
  (["/wchar_t"], A.wcharSigned, A.wchar) ::
  (groups.drop 2).map (fun g => (g.1, g.2.1, A.size g.2.2))

theorem calls_eq {A : Abi} (hA : A.Ok) : calls A =
    sized ++ ((seqA A).flatMap (fun g => aliases (sizedName g.2.1 g.2.2) g.1) ++ last A) := by
  have h1 := hA A.wchar (by simp)
  have h2 := hA A.short (by simp)
  have h3 := hA A.int (by simp)
  have h4 := hA A.long (by simp)
  have h5 := hA A.llong (by simp)
  have hw : (if A.wcharSigned then intName true (digits A.wchar + 1) else intName false (8 * A.wchar)) =
      sizedName A.wcharSigned A.wchar := by
    cases A.wcharSigned
    · exact intName_bits _ _ h1
    · exact intName_digits _ _ h1
  unfold calls chars shorts ints longs llongs seqA
  rw [hw]
  simp only [intName_digits _ _ h2, intName_digits _ _ h3, intName_digits _ _ h4, intName_digits _ _ h5,
    intName_digits _ 1 (by simp)]
  simp only [groups, List.drop_succ_cons, List.drop_zero, List.map_cons, List.map_nil, List.flatMap_cons, List.flatMap_nil,
    Abi.size, List.append_assoc, List.append_nil]

theorem chain_ok (A : Abi) : chain (sizedTbl.map (·.1)) ((seqA A).map (·.1)) = true := by
  have : (seqA A).map (·.1) = (["/signed char"] ++ (if A.charSigned then ["/char"] else [])) ::
      ((if !A.charSigned then ["/char"] else []) ++ ["/unsigned char"]) :: ["/wchar_t"] :: (groups.drop 2).map (·.1) := by
    unfold seqA
    simp only [List.map_cons, List.map_map]
    rfl
  rw [this]
  cases A.charSigned <;> decide +kernel

theorem keys_last (A : Abi) (n : Str) (hn : n ∈ ["/float".toList, "/double".toList, "/bool".toList]) :
    n ∉ keysAfter (sizedTbl.map (·.1)) ((seqA A).map (·.1)) := by
  have : (seqA A).map (·.1) = (["/signed char"] ++ (if A.charSigned then ["/char"] else [])) ::
      ((if !A.charSigned then ["/char"] else []) ++ ["/unsigned char"]) :: ["/wchar_t"] :: (groups.drop 2).map (·.1) := by
    unfold seqA
    simp only [List.map_cons, List.map_map]
    rfl
  rw [this]
  revert n
  cases A.charSigned <;> decide +kernel

theorem good_calls {A : Abi} (hA : A.Ok) : ∃ tbl, Good [] (calls A) tbl ∧ ∀ n d, (n, d) ∈ tbl ↔ Standard A n d := by
  obtain ⟨tbl, h1, h2, h3⟩ := good_seq (seqA A) sizedTbl (sizedTbl.map (·.1)) (by
    intro g hg
    unfold seqA at hg
    have hsz : ∀ r, A.size r ∈ [1, 2, 4, 8] := by
      intro r
      cases r
      · simp [Abi.size]
      · exact hA A.short (by simp)
      · exact hA A.int (by simp)
      · exact hA A.long (by simp)
      · exact hA A.llong (by simp)
    rcases List.mem_cons.mp hg with rfl | hg
    · simp
    rcases List.mem_cons.mp hg with rfl | hg
    · simp
    rcases List.mem_cons.mp hg with rfl | hg
    · exact hA A.wchar (by simp)
    obtain ⟨x, _, rfl⟩ := List.mem_map.mp hg
    exact hsz _) (fun _ h => h) rfl (chain_ok A)
  refine ⟨("/bool".toList, ⟨"/bool".toList, A.bool, .num .uint⟩) :: ("/double".toList, ⟨"/double".toList, 8, .num .float⟩) ::
    ("/float".toList, ⟨"/float".toList, 4, .num .float⟩) :: tbl, ?_, ?_⟩
  · rw [calls_eq hA]
    refine good_sized _ _ (h3 _ _ ?_)
    refine .add ⟨rfl, rfl, by decide +kernel, by decide +kernel⟩ (by rw [h1]; exact keys_last A _ (by simp)) ?_
    refine .add ⟨rfl, rfl, by decide +kernel, by decide +kernel⟩ ?_ ?_
    · rw [List.map_cons, h1]
      intro h
      rcases List.mem_cons.mp h with h | h
      · revert h; decide +kernel
      · exact keys_last A _ (by simp) h
    have hne : ("/bool".toList : Str) ≠ "/double".toList ∧ ("/bool".toList : Str) ≠ "/float".toList ∧
        isAbsoluteName "/bool".toList = true ∧ isValidTypename "/bool".toList true = true := by decide +kernel
    refine .add ⟨rfl, rfl, hne.2.2.1, hne.2.2.2⟩ ?_ .nil
    rw [List.map_cons, List.map_cons, h1]
    intro h
    rcases List.mem_cons.mp h with h | h
    · exact hne.1 h
    rcases List.mem_cons.mp h with h | h
    · exact hne.2.1 h
    · exact keys_last A _ (by simp) h
  · have hothers : ∀ p ∈ sizedTbl, p ∈ others A := by
      intro p hp
      unfold sizedTbl at hp
      rcases List.mem_cons.mp hp with rfl | hp
      · exact List.mem_of_getElem? (i := 9) rfl
      rcases List.mem_cons.mp hp with rfl | hp
      · exact List.mem_of_getElem? (i := 5) rfl
      rcases List.mem_cons.mp hp with rfl | hp
      · exact List.mem_of_getElem? (i := 8) rfl
      rcases List.mem_cons.mp hp with rfl | hp
      · exact List.mem_of_getElem? (i := 4) rfl
      rcases List.mem_cons.mp hp with rfl | hp
      · exact List.mem_of_getElem? (i := 7) rfl
      rcases List.mem_cons.mp hp with rfl | hp
      · exact List.mem_of_getElem? (i := 3) rfl
      rcases List.mem_cons.mp hp with rfl | hp
      · exact List.mem_of_getElem? (i := 6) rfl
      rcases List.mem_cons.mp hp with rfl | hp
      · exact List.mem_of_getElem? (i := 2) rfl
      rcases List.mem_cons.mp hp with rfl | hp
      · exact List.mem_of_getElem? (i := 1) rfl
      rcases List.mem_cons.mp hp with rfl | hp
      · exact List.mem_of_getElem? (i := 0) rfl
      cases hp
    have hgr : ∀ g ∈ groups, ∀ s ∈ g.1, Standard A s.toList (sizedDef g.2.1 (A.size g.2.2)) := by
      intro g hg s hs
      obtain ⟨ws, hw, e1, e2⟩ := groups_sound g hg s hs
      exact Or.inr ⟨ws, hw, e1, g.2.1, g.2.2, e2, rfl⟩
    have hchar : Standard A "/char".toList (sizedDef A.charSigned 1) := Or.inl (List.mem_of_getElem? (i := 10) rfl)
    have hg0 : ∀ g, g ∈ groups.drop 2 → g ∈ groups := fun g hg => List.mem_of_mem_drop hg
    intro n d
    constructor
    · intro hp
      rcases List.mem_cons.mp hp with hp | hp
      · refine Or.inl ?_; rw [hp]; exact List.mem_of_getElem? (i := 14) rfl
      rcases List.mem_cons.mp hp with hp | hp
      · refine Or.inl ?_; rw [hp]; exact List.mem_of_getElem? (i := 13) rfl
      rcases List.mem_cons.mp hp with hp | hp
      · refine Or.inl ?_; rw [hp]; exact List.mem_of_getElem? (i := 12) rfl
      rcases (h2 _).mp hp with hp | ⟨g, hg, s, hs, e⟩
      · exact Or.inl (hothers _ hp)
      · obtain ⟨rfl, rfl⟩ := Prod.mk.inj e
        unfold seqA at hg
        rcases List.mem_cons.mp hg with rfl | hg
        · rcases List.mem_append.mp hs with hs | hs
          · exact hgr (["/signed char"], true, .char) (List.mem_of_getElem? (i := 0) rfl) s hs
          · cases hc : A.charSigned with
            | false => rw [hc] at hs; cases hs
            | true =>
              rw [hc] at hs hchar
              rcases List.mem_cons.mp hs with rfl | hs
              · exact hchar
              · cases hs
        rcases List.mem_cons.mp hg with rfl | hg
        · rcases List.mem_append.mp hs with hs | hs
          · cases hc : A.charSigned with
            | true => rw [hc] at hs; cases hs
            | false =>
              rw [hc] at hs hchar
              rcases List.mem_cons.mp hs with rfl | hs
              · exact hchar
              · cases hs
          · exact hgr (["/unsigned char"], false, .char) (List.mem_of_getElem? (i := 1) rfl) s hs
        rcases List.mem_cons.mp hg with rfl | hg
        · rcases List.mem_cons.mp hs with rfl | hs
          · exact Or.inl (List.mem_of_getElem? (i := 11) rfl)
          · cases hs
        obtain ⟨x, hx, rfl⟩ := List.mem_map.mp hg
        exact hgr x (hg0 x hx) s hs
    · have hin : ∀ p, p ∈ tbl → p ∈ ("/bool".toList, (⟨"/bool".toList, A.bool, .num .uint⟩ : TypeDef)) ::
          ("/double".toList, ⟨"/double".toList, 8, .num .float⟩) ::
          ("/float".toList, ⟨"/float".toList, 4, .num .float⟩) :: tbl :=
        fun p hp => .tail _ (.tail _ (.tail _ hp))
      have hst : ∀ p ∈ sizedTbl, p ∈ tbl := fun p hp => (h2 p).mpr (Or.inl hp)
      have hsg : ∀ g ∈ seqA A, ∀ s ∈ g.1, (s.toList, sizedDef g.2.1 g.2.2) ∈ tbl :=
        fun g hg s hs => (h2 _).mpr (Or.inr ⟨g, hg, s, hs, rfl⟩)
      have hhd : (["/signed char"] ++ (if A.charSigned then ["/char"] else []), true, 1) ∈ seqA A :=
        List.mem_of_getElem? (i := 0) rfl
      have hhd2 : ((if !A.charSigned then ["/char"] else []) ++ ["/unsigned char"], false, 1) ∈ seqA A :=
        List.mem_of_getElem? (i := 1) rfl
      rintro (hp | ⟨ws, hw, rfl, s, r, e, rfl⟩)
      · unfold others at hp
        rcases List.mem_cons.mp hp with hp | hp
        · rw [hp]; exact hin _ (hst _ (List.mem_of_getElem? (i := 9) rfl))
        rcases List.mem_cons.mp hp with hp | hp
        · rw [hp]; exact hin _ (hst _ (List.mem_of_getElem? (i := 8) rfl))
        rcases List.mem_cons.mp hp with hp | hp
        · rw [hp]; exact hin _ (hst _ (List.mem_of_getElem? (i := 7) rfl))
        rcases List.mem_cons.mp hp with hp | hp
        · rw [hp]; exact hin _ (hst _ (List.mem_of_getElem? (i := 5) rfl))
        rcases List.mem_cons.mp hp with hp | hp
        · rw [hp]; exact hin _ (hst _ (List.mem_of_getElem? (i := 3) rfl))
        rcases List.mem_cons.mp hp with hp | hp
        · rw [hp]; exact hin _ (hst _ (List.mem_of_getElem? (i := 1) rfl))
        rcases List.mem_cons.mp hp with hp | hp
        · rw [hp]; exact hin _ (hst _ (List.mem_of_getElem? (i := 6) rfl))
        rcases List.mem_cons.mp hp with hp | hp
        · rw [hp]; exact hin _ (hst _ (List.mem_of_getElem? (i := 4) rfl))
        rcases List.mem_cons.mp hp with hp | hp
        · rw [hp]; exact hin _ (hst _ (List.mem_of_getElem? (i := 2) rfl))
        rcases List.mem_cons.mp hp with hp | hp
        · rw [hp]; exact hin _ (hst _ (List.mem_of_getElem? (i := 0) rfl))
        rcases List.mem_cons.mp hp with hp | hp
        · rw [hp]
          cases hc : A.charSigned with
          | true =>
            rw [hc] at hhd
            exact hin _ (hsg _ hhd "/char" (.tail _ (.head _)))
          | false =>
            rw [hc] at hhd2
            exact hin _ (hsg _ hhd2 "/char" (.head _))
        rcases List.mem_cons.mp hp with hp | hp
        · rw [hp]; exact hin _ (hsg (["/wchar_t"], A.wcharSigned, A.wchar) (List.mem_of_getElem? (i := 2) rfl) "/wchar_t" (.head _))
        rcases List.mem_cons.mp hp with hp | hp
        · rw [hp]; exact .tail _ (.tail _ (.head _))
        rcases List.mem_cons.mp hp with hp | hp
        · rw [hp]; exact .tail _ (.head _)
        rcases List.mem_cons.mp hp with hp | hp
        · rw [hp]; exact .head _
        cases hp
      · obtain ⟨g, hg, e2, x, hx, e3⟩ := groups_complete ws hw
        rw [← e3]
        have e4 : g.2 = (s, r) := Option.some.inj (e2.symm.trans e)
        obtain ⟨l, b, q⟩ := g
        obtain ⟨rfl, rfl⟩ := Prod.mk.inj e4
        have hgs : groups = (["/signed char"], true, .char) :: (["/unsigned char"], false, .char) :: groups.drop 2 := rfl
        rw [hgs] at hg
        rcases List.mem_cons.mp hg with hg | hg
        · obtain ⟨rfl, hg2⟩ := Prod.mk.inj hg
          obtain ⟨rfl, rfl⟩ := Prod.mk.inj hg2
          exact hin _ (hsg _ hhd x (List.mem_append.mpr (Or.inl hx)))
        rcases List.mem_cons.mp hg with hg | hg
        · obtain ⟨rfl, hg2⟩ := Prod.mk.inj hg
          obtain ⟨rfl, rfl⟩ := Prod.mk.inj hg2
          exact hin _ (hsg _ hhd2 x (List.mem_append.mpr (Or.inr hx)))
        · exact hin _ (hsg (l, b, A.size q)
            (.tail _ (.tail _ (.tail _ (List.mem_map.mpr ⟨(l, b, q), hg, rfl⟩)))) x hx)

end Verif.Std
