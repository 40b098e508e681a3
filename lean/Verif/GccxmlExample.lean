import Verif.GccxmlEnds
import Verif.GccxmlNames

/-!
Property C71: a program that meets the hypotheses of the theorems.
-/

namespace Verif.Gccxml.Example
open Verif Verif.Names Verif.Graph Verif.Registry Verif.TypeBuilder Verif.Merge Verif.Gccxml Verif.RubyBuilder Verif.RubyNames

def stringClass : Str := "/std/basic_string</char,/std/char_traits</char>,/std/allocator</char>>".toList

/-- The program
```
enum E { A = 1, B = 5 };  struct Base { int x; };  struct Empty {};  class Hidden { int h; };  struct Opq { Hidden h; };
struct D : Base, Empty { E e; int a[2]; Base *p; std::vector<int> v; const int k; std::string s; Opq o; };
typedef D D_t;
struct Sub : Hidden { int i; };
``` -/
def nodes : List Node :=
  [.fund "/int".toList 32 .sint,
   .fund "/char".toList 8 .sint,
   .enum (some "/E".toList) true 32 [("A".toList, 1), ("B".toList, 5)],
   .record ⟨some "/Base".toList, true, false, false, [], [⟨"x".toList, 0, true, 0, none⟩], 32⟩,
   .arr 0 (some 1),
   .ptr 3,
   .record ⟨some "/std/vector</int,/std/allocator</int>>".toList, true, false, false, [], [⟨"impl".toList, 5, false, 0, none⟩], 192⟩,
   .record ⟨some "/D".toList, true, false, false, [⟨3, false, true, 0⟩, ⟨10, false, true, 0⟩],
     [⟨"e".toList, 2, true, 32, none⟩, ⟨"a".toList, 4, true, 64, none⟩, ⟨"p".toList, 5, true, 128, none⟩, ⟨"v".toList, 6, true, 192, none⟩,
      ⟨"k".toList, 9, true, 384, none⟩, ⟨"s".toList, 13, true, 448, none⟩, ⟨"o".toList, 14, true, 704, none⟩], 768⟩,
   .typedef (some "/D_t".toList) true 7,
   .cv 0 true false,
   .record ⟨some "/Empty".toList, true, false, false, [], [], 8⟩,
   .record ⟨some "/Hidden".toList, true, false, false, [], [⟨"h".toList, 0, false, 0, none⟩], 32⟩,
   .record ⟨some stringClass, true, false, false, [], [⟨"data".toList, 5, false, 0, none⟩], 256⟩,
   .typedef (some stringName) true 12,
   .record ⟨some "/Opq".toList, true, false, false, [], [⟨"h".toList, 11, true, 0, none⟩], 32⟩,
   .record ⟨some "/Sub".toList, true, false, false, [⟨11, false, true, 0⟩], [⟨"i".toList, 0, true, 32, none⟩], 64⟩]

def types : List CCT :=
  [.builtin 32 .sint, .builtin 8 .sint, .enum 2, .record 3, .arr 2 (.builtin 32 .sint), .ptr (.record 3), .vec (.builtin 32 .sint), .record 7,
   .record 7, .builtin 32 .sint, .record 10, .record 11, .str, .str, .record 14, .record 15]

/-- the meaning of the names which are not those of derived types -/
def table (n : Str) : Option CCT :=
  if n = basicString then some .str
  else if n = "/int32_t".toList then some (.builtin 32 .sint)
  else if n = "/int8_t".toList then some (.builtin 8 .sint)
  else if n = "/int,/std/allocator</int>".toList then some (.builtin 32 .sint)
  else match nodes.findIdx? (fun nd => nd.name == some n) with
    | some i => types[i]?
    | none => none

def prog : Prog where
  nodes := nodes
  find n := nodes.findIdx? (fun nd => nd.name == some n)
  findTypedef n := nodes.findIdx? (fun nd => nd.name == some n && nd.isTypedef)
  targs n := (parseTemplate n).2
  canon n := n

def sem : Sem where
  ty i := (types[i]?).getD (.other i)
  den := denF table
  opq c := c = .record 14

/-- what `Meaning` says of one node, computed -/
def okNode (i : Nat) (nd : Node) : Bool :=
  (match nd.name with
    | none => true
    | some n => isAbsoluteName n && denF table n == some (sem.ty i)) &&
  match nd with
  | .fund _ bits k => sem.ty i == .builtin bits k
  | .ptr j => sem.ty i == .ptr (sem.ty j)
  | .arr j (some m) => sem.ty i == .arr (m + 1) (sem.ty j)
  | .cv j _ _ => sem.ty i == sem.ty j
  | .typedef _ _ j => sem.ty i == sem.ty j
  | .enum _ _ bits _ => sem.ty i == .enum i && bits == 32
  | .record r =>
    (match r.name with
      | none => false
      | some n =>
        match parseTemplate n with
        | (t, args) =>
          t != some stringName &&
          if t = some stdVector then
            match args with
            | a :: _ => isAbsoluteName a && (denF table a).any (fun c => sem.ty i == .vec c)
            | [] => true
          else n == stringClass || sem.ty i == .record i) && decide (0 < r.size) && decide (r.size % 8 = 0) &&
      r.fields.all (fun f => decide (f.offset % 8 = 0))
  | _ => true

theorem nodes_ok : nodes.zipIdx.all (fun p => okNode p.2 p.1) = true := by decide +kernel

theorem node_ok {i : Nat} {nd : Node} (h : prog.nodes[i]? = some nd) : okNode i nd = true := by
  have := List.all_eq_true.mp nodes_ok (nd, i) (by
    rw [List.mem_zipIdx_iff_getElem?]; exact h)
  exact this

theorem typedef_ok : ∀ n i, prog.findTypedef n = some i → denF table n = some (sem.ty i) := by
  intro n i h
  obtain ⟨hl, hp, _⟩ := List.findIdx?_eq_some_iff_getElem.mp h
  have hnd : nodes[i]? = some nodes[i] := List.getElem?_eq_getElem hl
  have h2 := node_ok hnd
  simp only [Bool.and_eq_true, beq_iff_eq] at hp
  unfold okNode at h2
  rw [hp.1] at h2
  simp only [Bool.and_eq_true, beq_iff_eq] at h2
  exact h2.1.2

theorem meaning : Meaning prog sem where
  fund i n bits k h := by
    have := node_ok h
    simp only [okNode, Bool.and_eq_true, beq_iff_eq] at this
    exact Or.inl this.2
  ptr i j h := by
    have := node_ok h
    simp only [okNode, Bool.and_eq_true, beq_iff_eq] at this
    exact this.2
  arr i j m h := by
    have := node_ok h
    simp only [okNode, Bool.and_eq_true, beq_iff_eq] at this
    exact this.2
  cv i j c v h := by
    have := node_ok h
    simp only [okNode, Bool.and_eq_true, beq_iff_eq] at this
    exact this.2
  typedef i n p j h := by
    have := node_ok h
    simp only [okNode, Bool.and_eq_true, beq_iff_eq] at this
    exact this.2
  enum i n p b l h := by
    have := node_ok h
    simp only [okNode, Bool.and_eq_true, beq_iff_eq] at this
    exact this.2.1
  vec i r n a l h hn ht := by
    have := (Bool.and_eq_true _ _ ▸ node_ok h).2
    simp only [hn, ht, if_true, Bool.and_eq_true, Option.any_eq_true, beq_iff_eq] at this
    obtain ⟨h1, c, h2, h3⟩ := this.1.1.1.2
    exact ⟨h1, c, h2, h3⟩
  record i r h hc := by
    have := (Bool.and_eq_true _ _ ▸ node_ok h).2
    simp only at this
    cases hn : r.name with
    | none => rw [hn] at this; simp only [Bool.false_and] at this; cases this
    | some n =>
      obtain ⟨h1, h2⟩ := hc n hn
      rw [hn] at this
      simp only [if_neg h1, Bool.and_eq_true, Bool.or_eq_true, beq_iff_eq] at this
      rcases this.1.1.1.2 with h3 | h3
      · refine absurd ?_ h2
        subst h3
        exact Or.inr (Or.inr ⟨13, some stringName, true, 12, by decide +kernel, by decide +kernel, by decide +kernel⟩)
      · exact h3
  named i nd n h hn := by
    have := (Bool.and_eq_true _ _ ▸ node_ok h).1
    rw [hn] at this
    simp only [Bool.and_eq_true, beq_iff_eq] at this
    exact this
  canon n c h1 h2 := ⟨h1, h2⟩
  typedefs o i n p j h1 h2 := by
    have := node_ok h2
    simp only [okNode, Bool.and_eq_true, beq_iff_eq] at this
    rw [← this.2]
    exact typedef_ok o i h1
  str := by decide +kernel
  read n b ms h := read n b ms h
  arrName n _ k := arrName n k
  ptrName n _ := ptrName n
  vecName n _ := vecName n
  cvName n q _ hq := by
    simp only [List.mem_cons, List.not_mem_nil, or_false] at hq
    rcases hq with rfl | rfl | rfl | rfl
    · exact cvName n false false
    · exact cvName n true false
    · exact cvName n false true
    · exact cvName n true true

theorem members_plain {i s : Nat} {l : List (Nat × GField)} {r : GRecord} (h : Members prog sem i s l) (hi : nodes[i]? = some (.record r))
    (hb : r.bases = []) : l = r.fields.map (fun f => (s, f)) := by
  cases h with
  | @mk _ _ r' l hr hbs =>
    rw [show prog.nodes = nodes from rfl, hi] at hr
    injection hr with hr
    injection hr with hr
    subst hr
    rw [hb] at hbs
    cases hbs
    rfl

/-- the bases of the classes -/
theorem members_names {i s : Nat} {l : List (Nat × GField)} (h : Members prog sem i s l) : (l.map fun m => m.2.name).Nodup := by
  obtain ⟨r, hr⟩ : ∃ r, nodes[i]? = some (.record r) := by cases h with | mk h _ => exact ⟨_, h⟩
  have nm : ∀ (s : Nat) (fs : List GField), (fs.map fun f => (s, f)).map (fun m => m.2.name) = fs.map (·.name) := by
    intro s fs; rw [List.map_map]; rfl
  have base : r.bases = [] → (r.fields.map (·.name)).Nodup → (l.map fun m => m.2.name).Nodup := by
    intro h1 h2; rw [members_plain h hr h1, nm]; exact h2
  have hl : i < 16 := (List.getElem?_eq_some_iff.mp hr).1
  have h7 : i = 7 → (l.map fun m => m.2.name).Nodup := by
    rintro rfl
    cases h with
    | @mk _ _ r' l hr' hbs =>
      injection hr' with hr'; injection hr' with hr'; subst hr'
      cases hbs with
      | @cons _ d _ _ l1 l2 h1 h2 h3 =>
        injection h1 with h1; subst h1
        rw [members_plain h2 rfl rfl]
        cases h3 with
        | @cons _ d' _ _ l3 l4 h4 h5 h6 =>
          injection h4 with h4; subst h4
          rw [members_plain h5 rfl rfl]
          cases h6
          simp only [List.map_append, nm]
          decide +kernel
  have h15 : i = 15 → (l.map fun m => m.2.name).Nodup := by
    rintro rfl
    cases h with
    | @mk _ _ r' l hr' hbs =>
      injection hr' with hr'; injection hr' with hr'; subst hr'
      cases hbs with
      | @cons _ d _ _ l1 l2 h1 h2 h3 =>
        injection h1 with h1; subst h1
        rw [members_plain h2 rfl rfl]
        cases h3
        simp only [List.map_append, nm]
        decide +kernel
  have hall : nodes.zipIdx.all (fun p => p.2 == 7 || p.2 == 15 || match p.1 with
      | .record r => decide (r.bases = [] ∧ (r.fields.map (·.name)).Nodup)
      | _ => true) = true := by decide +kernel
  have := List.all_eq_true.mp hall (.record r, i) (by rw [List.mem_zipIdx_iff_getElem?]; exact hr)
  simp only [Bool.or_eq_true, beq_iff_eq, decide_eq_true_eq] at this
  rcases this with (h | h) | h
  · exact h7 h
  · exact h15 h
  · exact base h.1 h.2

theorem supported : Supported prog sem where
  bytes r h := by
    obtain ⟨i, hi⟩ := List.getElem?_of_mem h
    have := (Bool.and_eq_true _ _ ▸ node_ok hi).2
    simp only [Bool.and_eq_true, List.all_eq_true, decide_eq_true_eq] at this
    exact ⟨this.1.1.2, this.1.2, this.2⟩
  enums n p bits syms h := by
    obtain ⟨i, hi⟩ := List.getElem?_of_mem h
    have := node_ok hi
    simp only [okNode, Bool.and_eq_true, beq_iff_eq] at this
    exact this.2.2
  distinct i r s ms _ h := members_names h
  strings r n h hn ht := by
    obtain ⟨i, hi⟩ := List.getElem?_of_mem h
    have := (Bool.and_eq_true _ _ ▸ node_ok hi).2
    simp only at this
    rw [hn] at this
    simp [ht] at this

/-! ### the registry at the start -/

def w0 : World := (⟨0, fun _ => ⟨[], 0, .null⟩⟩, Reg.empty)
def aliased (w : World) (new old : Str) : World := (w.1, (rbAlias ascii w.1 w.2 new old).1)
def w1 : World := (define ascii w0 ⟨"/int32_t".toList, 4, .num .sint⟩).1
def w2 : World := (define ascii w1 ⟨"/int8_t".toList, 1, .num .sint⟩).1
def w3 : World := aliased w2 "/int".toList "/int32_t".toList
def w4 : World := aliased w3 "/char".toList "/int8_t".toList
/-- the standard types that this program uses -/
def start : World := (define ascii w4 ⟨stringName, 32, .str 1⟩).1

theorem good0 : Good ascii prog sem w0 := by
  have hac : Acyclic w0.1 := by intro u x h; cases h
  have hr : ∀ n t, w0.2.reg n = some t → False := by
    intro n t h
    cases h
  exact ⟨inv_empty, hac, fun u hu => absurd hu (Nat.not_lt_zero _), fun n t h => (hr n t h).elim, fun t h => (hr _ t h).elim⟩

theorem good1 : Good ascii prog sem w1 :=
  (define_post ascii_inj meaning good0 (d := ⟨"/int32_t".toList, 4, .num .sint⟩) (by intro x h; cases h) (by decide)
    (c := .builtin 32 .sint) (by decide +kernel) (.num (cat := .sint) rfl rfl rfl) (built_leaf rfl)).1

theorem good2 : Good ascii prog sem w2 :=
  (define_post ascii_inj meaning good1 (d := ⟨"/int8_t".toList, 1, .num .sint⟩) (by intro x h; cases h) (by decide)
    (c := .builtin 8 .sint) (by decide +kernel) (.num (cat := .sint) rfl (by decide +kernel) (by decide +kernel)) (built_leaf (by decide +kernel))).1

theorem good3 : Good ascii prog sem w3 :=
  (rbAlias_post ascii_inj meaning good2 (new := "/int".toList) (old := "/int32_t".toList) (by decide) (by decide)
    (c := .builtin 32 .sint) (by decide +kernel) (by
      intro t ht
      have : w2.2.reg "/int32_t".toList = some 0 := by decide +kernel
      rw [this] at ht
      injection ht with ht
      subst ht
      decide +kernel)).1

theorem good4 : Good ascii prog sem w4 :=
  (rbAlias_post ascii_inj meaning good3 (new := "/char".toList) (old := "/int8_t".toList) (by decide) (by decide)
    (c := .builtin 8 .sint) (by decide +kernel) (by
      intro t ht
      have : w3.2.reg "/int8_t".toList = some 1 := by decide +kernel
      rw [this] at ht
      injection ht with ht
      subst ht
      decide +kernel)).1

theorem good5 : Good ascii prog sem start :=
  (define_post ascii_inj meaning good4 (d := ⟨stringName, 32, .str 1⟩) (by
      intro x h
      cases h with
      | head => decide +kernel
      | tail _ h => cases h) (by decide)
    (c := .str) (by decide +kernel) (.str (x := 1) (by decide +kernel) (.num (cat := .sint) rfl (by decide +kernel) (by decide +kernel)))
    (built_leaf (by decide +kernel))).1

theorem started : Start ascii prog sem start :=
  ⟨good5.inv, good5.ac, good5.clo, good5.honest, good5.built, by decide +kernel⟩

/-! ### the import -/

def opaques : List Str := ["/Opq".toList]

theorem opaques_ok : OpaqueNames sem opaques := by
  intro o ho
  cases ho with
  | head => exact ⟨by decide, .record 14, by decide +kernel, rfl⟩
  | tail _ h => cases h

/-- the classes and enumerations; then the typedefs -/
def wanted : List Nat := [2, 3, 7, 10, 11, 14, 15]
def wantedTypedefs : List Nat := [8]

/-- the import -/
def out : St × Res Unit := load ascii prog 20 start opaques wanted wantedTypedefs

theorem out_ok : out.2 = .ok () := by decide +kernel

theorem out_regs : (["/D", "/D_t", "/E", "/Base", "/int32_t[2]", "/Base*", "/std/vector</int32_t>", "/Opq", "/int32_t const", "/Empty", "/Hidden",
    "/Sub"].map fun n => (out.1.w.2.reg n.toList).isSome) =
    [true, true, true, true, true, true, true, true, true, false, false, false] := by
  decide +kernel

/-- the nodes that are imported for `D_t` -/
def kept : List Nat := [0, 1, 2, 3, 4, 5, 6, 7, 8, 9, 13, 14]

def knownB (n : Str) : Bool := (start.2.reg n).isSome || opaques.contains n

/-- nothing is a reason not to import a class -/
def recordOk (i : Nat) (r : GRecord) : Bool :=
  (match r.name with
    | some n => (match (parseTemplate n).2 with
      | a :: _ => (prog.find a).all kept.contains
      | [] => true)
    | none => true) &&
  (sem.ty i != .record i || (!r.incomplete && !r.virt && r.bases.all (fun b => (10 :: kept).contains b.ty && !b.virt && b.pub) &&
    r.fields.all (fun f => f.pub && kept.contains f.ty)))

/-- nothing is a reason not to import this node -/
def nodeOk (i : Nat) (nd : Node) : Bool :=
  match nd with
  | .ptr j => kept.contains j
  | .arr j _ => kept.contains j
  | .cv j _ _ => kept.contains j
  | nd =>
    match nd.name with
    | none => false
    | some n => !isWorkaround n && (knownB n || (nd.pub && (nd.isTypedef || !isPrivateName n) &&
      match nd with
      | .typedef _ _ j => kept.contains j
      | .enum .. => true
      | .record r => recordOk i r
      | _ => false))

/-- a class is not empty -/
def goneOk (i : Nat) : Node → Bool
  | .record r => r.name.any knownB || sem.ty i != .record i || !r.fields.isEmpty
  | _ => sem.ty i != .record i

theorem kept_all : (10 :: kept).all (fun i => (nodes[i]?).any (nodeOk i)) = true := by decide +kernel
theorem kept_gone : kept.all (fun i => (nodes[i]?).any (goneOk i)) = true := by decide +kernel

theorem kept_ok {i : Nat} (h : i ∈ 10 :: kept) : ∃ nd, nodes[i]? = some nd ∧ nodeOk i nd = true := by
  have := List.all_eq_true.mp kept_all i h
  rw [Option.any_eq_true] at this
  exact this

theorem known_of {n : Str} (h : knownB n = true) : Known start opaques n := by
  unfold knownB at h
  rw [Bool.or_eq_true] at h
  rcases h with h | h
  · left; intro hc; rw [hc] at h; cases h
  · right; exact List.contains_iff_mem.mp h

theorem nodeOk_named {i : Nat} {nd : Node} {n : Str} (h : nodeOk i nd = true) (hn : nd.name = some n) :
    isWorkaround n = false ∧ (Known start opaques n ∨ (nd.pub = true ∧ (nd.isTypedef = false → isPrivateName n = false) ∧
      (∀ m b k, nd ≠ .fund m b k) ∧ (∀ m, nd ≠ .other m) ∧ (∀ m p j, nd = .typedef m p j → j ∈ kept) ∧
      ∀ r, nd = .record r → recordOk i r = true)) := by
  cases nd with
  | ptr j => cases hn
  | arr j m => cases hn
  | cv j c v => cases hn
  | fund m b k =>
    simp only [nodeOk, hn, Bool.and_eq_true, Bool.or_eq_true, Bool.not_eq_true'] at h
    rcases h with ⟨h1, h2 | h2⟩
    · exact ⟨h1, Or.inl (known_of h2)⟩
    · exact absurd h2.2 (by simp)
  | other m =>
    simp only [nodeOk, hn, Bool.and_eq_true, Bool.or_eq_true, Bool.not_eq_true'] at h
    rcases h with ⟨h1, h2 | h2⟩
    · exact ⟨h1, Or.inl (known_of h2)⟩
    · exact absurd h2.2 (by simp)
  | typedef m p j =>
    simp only [nodeOk, hn, Bool.and_eq_true, Bool.or_eq_true, Bool.not_eq_true'] at h
    rcases h with ⟨h1, h2 | h2⟩
    · exact ⟨h1, Or.inl (known_of h2)⟩
    · refine ⟨h1, Or.inr ⟨h2.1.1, (fun h => by cases h), (fun _ _ _ h => by cases h), (fun _ h => by cases h), (fun _ _ _ h => ?_),
        (fun _ h => by cases h)⟩⟩
      injection h with _ _ h
      rw [← h]
      exact List.contains_iff_mem.mp h2.2
  | enum m p b l =>
    simp only [nodeOk, hn, Bool.and_eq_true, Bool.or_eq_true, Bool.not_eq_true'] at h
    rcases h with ⟨h1, h2 | h2⟩
    · exact ⟨h1, Or.inl (known_of h2)⟩
    · exact ⟨h1, Or.inr ⟨h2.1.1, (fun _ => by simpa [Node.isTypedef] using h2.1.2), (fun _ _ _ h => by cases h), (fun _ h => by cases h),
        (fun _ _ _ h => by cases h), (fun _ h => by cases h)⟩⟩
  | record r =>
    simp only [nodeOk, hn, Bool.and_eq_true, Bool.or_eq_true, Bool.not_eq_true'] at h
    rcases h with ⟨h1, h2 | h2⟩
    · exact ⟨h1, Or.inl (known_of h2)⟩
    · refine ⟨h1, Or.inr ⟨h2.1.1, (fun _ => by simpa [Node.isTypedef] using h2.1.2), (fun _ _ _ h => by cases h), (fun _ h => by cases h),
        (fun _ _ _ h => by cases h), (fun _ h => ?_)⟩⟩
      injection h with h
      rw [← h]
      exact h2.2

/-- the check of a node that is not known -/
theorem new_ok {i : Nat} {nd : Node} (hi : prog.nodes[i]? = some nd) (hm : i ∈ 10 :: kept) (hu : Unknown prog (Known start opaques) i)
    {n : Str} (hn : nd.name = some n) : nd.pub = true ∧ (nd.isTypedef = false → isPrivateName n = false) ∧
      (∀ m b k, nd ≠ .fund m b k) ∧ (∀ m, nd ≠ .other m) ∧ (∀ m p j, nd = .typedef m p j → j ∈ kept) ∧
      ∀ r, nd = .record r → recordOk i r = true := by
  obtain ⟨nd', h1, h2⟩ := kept_ok hm
  rw [show prog.nodes = nodes from rfl, h1] at hi
  injection hi with hi
  subst hi
  rcases (nodeOk_named h2 hn).2 with h | h
  · exact absurd h (hu _ n h1 hn)
  · exact h

theorem nodeOk_at {i : Nat} {nd : Node} (hi : prog.nodes[i]? = some nd) (hm : i ∈ 10 :: kept) : nodeOk i nd = true := by
  obtain ⟨nd', h1, h2⟩ := kept_ok hm
  rw [show prog.nodes = nodes from rfl, h1] at hi
  injection hi with hi
  rw [← hi]
  exact h2

theorem name_some {i : Nat} {nd : Node} (hi : prog.nodes[i]? = some nd) (hm : i ∈ 10 :: kept) (h1 : ∀ j, nd ≠ .ptr j)
    (h2 : ∀ j m, nd ≠ .arr j m) (h3 : ∀ j c v, nd ≠ .cv j c v) : ∃ n, nd.name = some n := by
  have h := nodeOk_at hi hm
  cases hn : nd.name with
  | some n => exact ⟨n, rfl⟩
  | none =>
    cases nd with
    | ptr j => exact absurd rfl (h1 j)
    | arr j m => exact absurd rfl (h2 j m)
    | cv j c v => exact absurd rfl (h3 j c v)
    | _ => simp only [nodeOk, hn] at h; cases h

theorem rec_ok {i : Nat} {r : GRecord} (hi : prog.nodes[i]? = some (.record r)) (hm : i ∈ 10 :: kept) (hu : Unknown prog (Known start opaques) i) :
    recordOk i r = true := by
  obtain ⟨n, hn⟩ := name_some hi hm (by simp) (by simp) (by simp)
  exact (new_ok hi hm hu hn).2.2.2.2.2 r rfl

theorem rec_parts {i : Nat} {r : GRecord} (hi : prog.nodes[i]? = some (.record r)) (hm : i ∈ 10 :: kept) (hu : Unknown prog (Known start opaques) i)
    (ht : sem.ty i = .record i) : r.incomplete = false ∧ r.virt = false ∧ (∀ b ∈ r.bases, b.ty ∈ 10 :: kept ∧ b.virt = false ∧ b.pub = true) ∧
      ∀ f ∈ r.fields, f.pub = true ∧ f.ty ∈ kept := by
  have h := rec_ok hi hm hu
  unfold recordOk at h
  simp only [ht, bne_self_eq_false, Bool.false_or, Bool.and_eq_true, Bool.not_eq_true', List.all_eq_true, List.contains_iff_mem] at h
  obtain ⟨_, ⟨⟨h1, h2⟩, h3⟩, h4⟩ := h
  exact ⟨h1, h2, fun b hb => ⟨(h3 b hb).1.1, (h3 b hb).1.2, (h3 b hb).2⟩, h4⟩

theorem not_gone : ∀ i, Gone prog sem (Known start opaques) i → i ∈ kept → False := by
  intro i h
  have up : ∀ {i : Nat}, i ∈ kept → i ∈ 10 :: kept := fun h => List.mem_cons_of_mem _ h
  refine Gone.rec (motive_1 := fun i _ => i ∈ 10 :: kept → False) (motive_2 := fun i _ => i ∈ kept → False)
    ?_ ?_ ?_ ?_ ?_ ?_ ?_ ?_ ?_ ?_ ?_ ?_ ?_ ?_ ?_ ?_ ?_ ?_ ?_ ?_ h
  · intro i h hm
    obtain ⟨nd, h1, _⟩ := kept_ok hm
    rw [show prog.nodes = nodes from rfl, h1] at h; cases h
  · intro i nd h1 h2 a b c hm
    obtain ⟨n, hn⟩ := name_some h1 hm a b c
    rw [hn] at h2; cases h2
  · intro i nd n h1 h2 h3 hm
    rw [← isWorkaround_iff, (nodeOk_named (nodeOk_at h1 hm) h2).1] at h3; cases h3
  · intro i nd n h1 h2 h3 h4 h5 hm
    rw [← isPrivateName_iff, (new_ok h1 hm h5 h2).2.1 h4] at h3; cases h3
  · intro i nd h1 h2 h3 hm
    cases hn : nd.name with
    | none => cases nd <;> first | (cases h2; done) | (have := nodeOk_at h1 hm; simp [nodeOk, hn] at this)
    | some n => rw [(new_ok h1 hm h3 hn).1] at h2; cases h2
  · intro i bits n k h1 h2 hm
    rcases (nodeOk_named (nodeOk_at h1 hm) rfl).2 with h | h
    · exact h2 h
    · exact h.2.2.1 _ _ _ rfl
  · intro i n h1 h2 hm
    obtain ⟨m, hn⟩ := name_some h1 hm (by simp) (by simp) (by simp)
    exact (new_ok h1 hm h2 hn).2.2.2.1 _ rfl
  · intro i j h1 _ ih hm
    exact ih (List.contains_iff_mem.mp (nodeOk_at h1 hm))
  · intro i j m h1 _ ih hm
    exact ih (List.contains_iff_mem.mp (nodeOk_at h1 hm))
  · intro i j c v h1 _ ih hm
    exact ih (List.contains_iff_mem.mp (nodeOk_at h1 hm))
  · intro i j n p h1 _ h2 ih hm
    obtain ⟨m, hn⟩ := name_some h1 hm (by simp) (by simp) (by simp)
    exact ih ((new_ok h1 hm h2 hn).2.2.2.2.1 _ _ _ rfl)
  · intro i j r n a l h1 h2 h3 h4 _ h5 ih hm
    have h := rec_ok h1 hm h5
    unfold recordOk at h
    rw [h2] at h
    simp only [h3, h4, Option.all_some, Bool.and_eq_true, List.contains_iff_mem] at h
    exact ih h.1
  · intro i r b h1 h2 h3 h4 _ ih hm
    exact ih ((rec_parts h1 hm h3 h2).2.2.1 b h4).1
  · intro i r b h1 h2 h3 h4 h5 h6 hm
    obtain ⟨_, e1, e2⟩ := (rec_parts h1 hm h3 h2).2.2.1 b h4
    rcases h5 with h5 | h5
    · rw [e1] at h5; cases h5
    · rw [e2] at h5; cases h5
  · intro i r h1 h2 h3 h4 hm
    rw [(rec_parts h1 hm h3 h2).1] at h4; cases h4
  · intro i r h1 h2 h3 h4 hm
    rw [(rec_parts h1 hm h3 h2).2.1] at h4; cases h4
  · intro i r f h1 h2 h3 h4 h5 hm
    rw [((rec_parts h1 hm h3 h2).2.2.2 f h4).1] at h5; cases h5
  · intro i r f h1 h2 h3 h4 _ ih hm
    exact ih ((rec_parts h1 hm h3 h2).2.2.2 f h4).2
  · intro i _ ih hm
    exact ih (up hm)
  · intro i h1 h2 h3 hm
    have := List.all_eq_true.mp kept_gone i hm
    rw [Option.any_eq_true] at this
    obtain ⟨nd, e1, e2⟩ := this
    have h0 := h2 0
    generalize hl : ([] : List (Nat × GField)) = l at h0
    cases h0 with
    | @mk _ _ r l' hr hb =>
      have hf : r.fields = [] := by
        have := List.append_eq_nil_iff.mp hl.symm
        exact List.map_eq_nil_iff.mp this.2
      rw [show prog.nodes = nodes from rfl, e1] at hr
      injection hr with hr
      rw [hr] at e2 e1
      simp only [goneOk, hf, h1, List.isEmpty_nil, Bool.not_true, Bool.or_false, bne_self_eq_false, Option.any_eq_true] at e2
      obtain ⟨n, hn, hkn⟩ := e2
      exact h3 _ n e1 hn (known_of hkn)

/-- all of this is imported, and is right -/
example : ∃ t ms fs, out.1.w.2.reg "/D_t".toList = some t ∧ Members prog sem 7 0 ms ∧ out.1.w.1.kind t = .comp fs ∧ SameFields ms fs ∧
    out.1.w.1.size t = 96 := by
  have h := (C71_complete_partial ascii_inj meaning supported started 20 opaques opaques_ok wanted wantedTypedefs out_ok).1 8
    (.typedef (some "/D_t".toList) true 7) "/D_t".toList (Or.inr (by decide)) rfl rfl (fun h => not_gone _ h (by decide))
  obtain ⟨h1, _, _, _⟩ := C71_sound_partial ascii_inj meaning supported started 20 opaques opaques_ok wanted wantedTypedefs
  cases ht : out.1.w.2.reg "/D_t".toList with
  | none => exact absurd ht h
  | some t =>
    obtain ⟨c, hc, hf⟩ := h1 _ t ht
    have : sem.den "/D_t".toList = some (.record 7) := by decide +kernel
    rw [this] at hc
    injection hc with hc
    subst hc
    cases hf with
    | «opaque» ho _ => cases ho
    | @record _ r ms fs _ r1 r2 r3 r4 r5 r6 r7 r8 =>
      injection r1 with r1
      injection r1 with r1
      subst r1
      have r6 : out.1.w.1.size t * 8 = 768 := r6
      exact ⟨t, ms, fs, rfl, r3, r4, r7, by omega⟩

/-- how deep the types are nested -/
def rank (i : Nat) : Nat := if i ∈ [4, 5, 9, 6] then 1 else if i = 12 then 2 else 0

def rankOk (i : Nat) (nd : Node) : Bool :=
  (match nd with
    | .ptr j => decide (rank j < rank i)
    | .arr j _ => decide (rank j < rank i)
    | .cv j _ _ => decide (rank j < rank i)
    | _ => true) &&
  match nd.name with
  | none => true
  | some n => (parseTemplate n).2.all fun a => (prog.find a).all fun j => decide (rank j < rank i)

theorem rank_all : nodes.zipIdx.all (fun p => rankOk p.2 p.1) = true := by decide +kernel

theorem rank_ok {i : Nat} {nd : Node} (h : prog.nodes[i]? = some nd) : rankOk i nd = true :=
  List.all_eq_true.mp rank_all (nd, i) (by rw [List.mem_zipIdx_iff_getElem?]; exact h)

theorem ranked : Ranked prog 2 rank where
  le i := by unfold rank; split <;> (try split) <;> omega
  ptr i j h := by
    have := rank_ok h
    simp only [rankOk, Bool.and_eq_true, decide_eq_true_eq] at this
    exact this.1
  arr i j m h := by
    have := rank_ok h
    simp only [rankOk, Bool.and_eq_true, decide_eq_true_eq] at this
    exact this.1
  cv i j c v h := by
    have := rank_ok h
    simp only [rankOk, Bool.and_eq_true, decide_eq_true_eq] at this
    exact this.1
  targs i nd n a j h hn ha hj := by
    have := rank_ok h
    unfold rankOk at this
    rw [Bool.and_eq_true, hn] at this
    have h2 := List.all_eq_true.mp this.2 a ha
    rw [hj] at h2
    exact of_decide_eq_true h2

/-- whatever the depth allowed, from 51, the import of this program ends -/
example (f : Nat) (hf : 50 < f) : (load ascii prog f start opaques wanted wantedTypedefs).2 ≠ .fuel :=
  C71_ends_partial ascii_inj meaning supported started opaques opaques_ok wanted wantedTypedefs ranked hf

end Verif.Gccxml.Example
