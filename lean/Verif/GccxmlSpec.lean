import Verif.Gccxml

/-!
What the import through gccxml is expected to do (property C71): the types it registers describe the C++ types of the program.
-/

namespace Verif.Gccxml
open Verif Verif.Names Verif.Graph Verif.Registry Verif.TypeBuilder Verif.Merge Verif.RubyNames
open Verif.Clang (BKind)

/-- C++ types, as far as typelib distinguishes them: typedefs and qualifiers are gone. Enumerations and classes are their nodes. -/
inductive CCT where
  | void
  | builtin (bits : Nat) (k : BKind)
  | enum (i : Nat)
  | record (i : Nat)
  | arr (n : Nat) (c : CCT)
  | ptr (c : CCT)
  | vec (c : CCT)
  | str
  | other (i : Nat)
  deriving DecidableEq, Repr

/-- What the program means: the type that each node is, the type that each name denotes; and which types the user wants to be
opaque. -/
structure Sem where
  ty : Nat → CCT
  den : Str → Option CCT
  opq : CCT → Prop

mutual
/-- The data members of the class `i`, when an object of this class is at the offset `s`: those of its bases, then its own; each with
the offset of the class it is declared in. -/
inductive Members (P : Prog) (S : Sem) : Nat → Nat → List (Nat × GField) → Prop
  | mk {i s : Nat} {r : GRecord} {l : List (Nat × GField)} : P.nodes[i]? = some (.record r) → BaseMembers P S s r.bases l →
      Members P S i s (l ++ r.fields.map (fun f => (s, f)))
inductive BaseMembers (P : Prog) (S : Sem) : Nat → List GBase → List (Nat × GField) → Prop
  | nil {s : Nat} : BaseMembers P S s [] []
  | cons {s d : Nat} {b : GBase} {bs : List GBase} {l l' : List (Nat × GField)} : S.ty b.ty = .record d →
      Members P S d (s + b.offset) l → BaseMembers P S s bs l' → BaseMembers P S s (b :: bs) (l ++ l')
end

/-- there is no data in the class `i` -/
def NoData (P : Prog) (S : Sem) (i : Nat) : Prop := ∀ s, Members P S i s []

/-- a class that is only data: named, accessible, defined, without virtual methods; the bases which are not empty are public and not
virtual -/
structure GRecord.Data (P : Prog) (S : Sem) (r : GRecord) : Prop where
  named : r.name ≠ none
  pub : r.pub = true
  complete : r.incomplete = false
  virt : r.virt = false
  bases : ∀ b ∈ r.bases, (b.virt = false ∧ b.pub = true) ∨ ∃ d, S.ty b.ty = .record d ∧ NoData P S d

/-- the category of the numbers of a kind -/
def catOf : BKind → Option NumCat
  | .float => some .float
  | .sint => some .sint
  | .uint => some .uint
  | .other => none

/-- the fields of a compound are the data members, in the same order, with the same names and offsets; all of them are public -/
structure SameFields (ms : List (Nat × GField)) (fs : List FieldD) : Prop where
  length : fs.length = ms.length
  field : ∀ (k : Nat) (m : Nat × GField) (fd : FieldD), ms[k]? = some m → fs[k]? = some fd →
    fd.name = m.2.name ∧ fd.offset * 8 = m.1 * 8 + m.2.offset ∧ m.2.pub = true

/-- The registered type `t` describes the C++ type: same size, same nature, same elements, same data members at the same offsets,
same enumerators with the same values. -/
inductive Faithful (P : Prog) (S : Sem) (H : Heap) : CCT → TId → Prop
  | null {t : TId} : H.kind t = .null → Faithful P S H .void t
  | «opaque» {c : CCT} {t : TId} : S.opq c → H.kind t = .opaque → Faithful P S H c t
  | num {bits : Nat} {k : BKind} {cat : NumCat} {t : TId} : catOf k = some cat → H.kind t = .num cat → H.size t * 8 = bits →
      Faithful P S H (.builtin bits k) t
  | enum {i bits : Nat} {name : Option Str} {syms0 syms : List (Str × Int)} {t : TId} :
      P.nodes[i]? = some (.enum name true bits syms0) → H.kind t = .enum syms → (∀ n v, (n, v) ∈ syms ↔ (n, v) ∈ syms0) →
      H.size t * 8 = bits → Faithful P S H (.enum i) t
  | arr {n : Nat} {c : CCT} {x t : TId} : H.kind t = .arr n x → H.size t = wmul n (H.size x) → Faithful P S H c x →
      Faithful P S H (.arr n c) t
  | ptr {c : CCT} {x t : TId} : H.kind t = .ptr x → H.size t = 8 → Faithful P S H c x → Faithful P S H (.ptr c) t
  | vec {c : CCT} {x t : TId} : H.kind t = .vec x → H.size t = 24 → Faithful P S H c x → Faithful P S H (.vec c) t
  | str {x t : TId} : H.kind t = .str x → Faithful P S H (.builtin 8 .sint) x → Faithful P S H .str t
  | record {i : Nat} {r : GRecord} {ms : List (Nat × GField)} {fs : List FieldD} {t : TId} :
      P.nodes[i]? = some (.record r) → r.Data P S → Members P S i 0 ms → H.kind t = .comp fs → fs ≠ [] → H.size t * 8 = r.size →
      SameFields ms fs → (∀ (k : Nat) (m : Nat × GField) (fd : FieldD), ms[k]? = some m → fs[k]? = some fd →
        Faithful P S H (S.ty m.2.ty) fd.ty) → Faithful P S H (.record i) t

/-- a name that a registry accepts -/
def OkName (n : Str) : Prop := isValidTypename n true = true ∧ isAbsoluteName n = true

/-- the class that `std::string` is a typedef of -/
def StringClass (P : Prog) (n : Str) : Prop :=
  n = stringName ∨ n = basicString ∨
    ∃ i m p ty, P.findTypedef stringName = some i ∧ P.nodes[i]? = some (.typedef m p ty) ∧ (P.nodes[ty]?).bind Node.name = some n

/-- pointers to pointers... -/
def ptrs : Nat → CCT → CCT
  | 0, c => c
  | l + 1, c => ptrs l (.ptr c)

/-- what the modifiers of a name make of a type -/
def applied : List Modifier → CCT → CCT
  | [], c => c
  | .ptr l :: ms, c => applied ms (ptrs l c)
  | .arr d :: ms, c => applied ms (.arr (toSizeT d) c)

/-- What nodes and names mean, according to the rules of C++: a typedef is what it is a typedef of, qualifiers do not matter,
`std::vector<T>` is a vector of what `T` denotes whatever its allocator; a name followed by `*` or `[n]` denotes the pointers to, or
the arrays of, what it denotes. -/
structure Meaning (P : Prog) (S : Sem) : Prop where
  fund : ∀ i n bits k, P.nodes[i]? = some (.fund n bits k) → S.ty i = .builtin bits k ∨ S.ty i = .void
  ptr : ∀ i j, P.nodes[i]? = some (.ptr j) → S.ty i = .ptr (S.ty j)
  arr : ∀ i j m, P.nodes[i]? = some (.arr j (some m)) → S.ty i = .arr (m + 1) (S.ty j)
  cv : ∀ i j c v, P.nodes[i]? = some (.cv j c v) → S.ty i = S.ty j
  typedef : ∀ i n p j, P.nodes[i]? = some (.typedef n p j) → S.ty i = S.ty j
  enum : ∀ i n p b l, P.nodes[i]? = some (.enum n p b l) → S.ty i = .enum i
  vec : ∀ i r n a l, P.nodes[i]? = some (.record r) → r.name = some n → parseTemplate n = (some stdVector, a :: l) →
    isAbsoluteName a = true ∧ ∃ c, S.den a = some c ∧ S.ty i = .vec c
  record : ∀ i r, P.nodes[i]? = some (.record r) →
    (∀ n, r.name = some n → (parseTemplate n).1 ≠ some stdVector ∧ ¬ StringClass P n) → S.ty i = .record i
  named : ∀ i nd n, P.nodes[i]? = some nd → nd.name = some n → isAbsoluteName n = true ∧ S.den n = some (S.ty i)
  canon : ∀ n c, isAbsoluteName n = true → S.den n = some c → isAbsoluteName (P.canon n) = true ∧ S.den (P.canon n) = some c
  typedefs : ∀ o i n p j, P.findTypedef o = some i → P.nodes[i]? = some (.typedef n p j) → S.den o = some (S.ty j)
  str : S.den stringName = some .str ∧ S.den basicString = some .str
  read : ∀ n b ms, parseTypename n = .ok (b, ms) → S.den n = (S.den b).map (applied ms)
  arrName : ∀ n, isAbsoluteName n = true → ∀ k, S.den (n ++ arrSuffix k) = (S.den n).map (.arr k)
  ptrName : ∀ n, isAbsoluteName n = true → S.den (n ++ ['*']) = (S.den n).map .ptr
  vecName : ∀ n, OkName n → S.den (Merge.vecName n) = (S.den n).map .vec
  cvName : ∀ n q, isAbsoluteName n = true → q ∈ ["", "const", "volatile", "const volatile"] → S.den (n ++ ' ' :: q.toList) = S.den n

/-- the node does not have the name of a type that is known -/
def Unknown (P : Prog) (known : Str → Prop) (i : Nat) : Prop := ∀ nd n, P.nodes[i]? = some nd → nd.name = some n → ¬ known n

/-- a reserved name: two underscores and one more letter, digit or underscore at least, at the end of the name -/
def Reserved (n : Str) : Prop :=
  ∃ pre c w, n = pre ++ '/' :: '_' :: '_' :: c :: w ∧ ∀ x ∈ c :: w, x.isAlphanum = true ∨ x = '_'

/-- a name that is only there because of a bug of gccxml -/
def Workaround (n : Str) : Prop := ∃ pre post, n = pre ++ "gccxml_workaround".toList ++ post

mutual
/-- The reasons why a type is not imported. `known` are the names of the types that are there before the program is read: they need
not be imported. -/
inductive Refused (P : Prog) (S : Sem) (known : Str → Prop) : Nat → Prop
  | missing {i : Nat} : P.nodes[i]? = none → Refused P S known i
  | unnamed {i : Nat} {nd : Node} : P.nodes[i]? = some nd → nd.name = none → (∀ j, nd ≠ .ptr j) → (∀ j m, nd ≠ .arr j m) →
      (∀ j c v, nd ≠ .cv j c v) → Refused P S known i
  | workaround {i : Nat} {nd : Node} {n : Str} : P.nodes[i]? = some nd → nd.name = some n → Workaround n → Refused P S known i
  | reserved {i : Nat} {nd : Node} {n : Str} : P.nodes[i]? = some nd → nd.name = some n → Reserved n →
      nd.isTypedef = false → Unknown P known i → Refused P S known i
  | hidden {i : Nat} {nd : Node} : P.nodes[i]? = some nd → nd.pub = false → Unknown P known i → Refused P S known i
  | unknown {i bits : Nat} {n : Str} {k : BKind} : P.nodes[i]? = some (.fund n bits k) → ¬ known n → Refused P S known i
  | other {i : Nat} {n : Option Str} : P.nodes[i]? = some (.other n) → Unknown P known i → Refused P S known i
  | ptr {i j : Nat} : P.nodes[i]? = some (.ptr j) → Gone P S known j → Refused P S known i
  | arr {i j : Nat} {m : Option Nat} : P.nodes[i]? = some (.arr j m) → Gone P S known j → Refused P S known i
  | cv {i j : Nat} {c v : Bool} : P.nodes[i]? = some (.cv j c v) → Gone P S known j → Refused P S known i
  | typedef {i j : Nat} {n : Option Str} {p : Bool} : P.nodes[i]? = some (.typedef n p j) → Gone P S known j → Unknown P known i → Refused P S known i
  | elem {i j : Nat} {r : GRecord} {n a : Str} {l : List Str} : P.nodes[i]? = some (.record r) → r.name = some n →
      parseTemplate n = (some stdVector, a :: l) → P.find a = some j → Gone P S known j → Unknown P known i → Refused P S known i
  | base {i : Nat} {r : GRecord} {b : GBase} : P.nodes[i]? = some (.record r) → S.ty i = .record i → Unknown P known i → b ∈ r.bases → Refused P S known b.ty → Refused P S known i
  | baseAccess {i : Nat} {r : GRecord} {b : GBase} : P.nodes[i]? = some (.record r) → S.ty i = .record i → Unknown P known i → b ∈ r.bases → b.virt = true ∨ b.pub = false →
      (∀ d, S.ty b.ty = .record d → NoData P S d → S.opq (S.ty b.ty)) → Refused P S known i
  | incomplete {i : Nat} {r : GRecord} : P.nodes[i]? = some (.record r) → S.ty i = .record i → Unknown P known i → r.incomplete = true → Refused P S known i
  | virt {i : Nat} {r : GRecord} : P.nodes[i]? = some (.record r) → S.ty i = .record i → Unknown P known i → r.virt = true → Refused P S known i
  | field {i : Nat} {r : GRecord} {f : GField} : P.nodes[i]? = some (.record r) → S.ty i = .record i → Unknown P known i → f ∈ r.fields → f.pub = false → Refused P S known i
  | fieldType {i : Nat} {r : GRecord} {f : GField} : P.nodes[i]? = some (.record r) → S.ty i = .record i → Unknown P known i → f ∈ r.fields → Gone P S known f.ty →
      Refused P S known i
/-- it is not imported: there is a reason, or it is a class with no data -/
inductive Gone (P : Prog) (S : Sem) (known : Str → Prop) : Nat → Prop
  | refused {i : Nat} : Refused P S known i → Gone P S known i
  | empty {i : Nat} : S.ty i = .record i → NoData P S i → Unknown P known i → Gone P S known i
end

theorem isWorkaround_iff (n : Str) : isWorkaround n = true ↔ Workaround n := by
  induction n with
  | nil =>
    refine ⟨fun h => (by cases h), ?_⟩
    rintro ⟨pre, post, h⟩
    have := congrArg List.length h
    simp at this
  | cons c s ih =>
    unfold isWorkaround
    rw [Bool.or_eq_true, ih, List.isPrefixOf_iff_prefix]
    constructor
    · rintro (⟨t, h⟩ | ⟨pre, post, h⟩)
      · exact ⟨[], t, by rw [List.nil_append]; exact h.symm⟩
      · exact ⟨c :: pre, post, by rw [h]; rfl⟩
    · rintro ⟨pre, post, h⟩
      cases pre with
      | nil => exact .inl ⟨post, by rw [h]; rfl⟩
      | cons d pre =>
        rw [List.cons_append, List.cons_append] at h
        injection h with h1 h2
        exact .inr ⟨pre, post, h2⟩

theorem isWord_iff (x : Char) : isWord x = true ↔ x.isAlphanum = true ∨ x = '_' := by
  unfold isWord
  rw [Bool.or_eq_true, beq_iff_eq]

theorem isPrivateName_iff (n : Str) : isPrivateName n = true ↔ Reserved n := by
  unfold isPrivateName
  constructor
  · intro h
    simp only [Bool.and_eq_true, decide_eq_true_eq, beq_iff_eq] at h
    obtain ⟨⟨h1, h2⟩, h3⟩ := h
    have hcut := List.takeWhile_append_dropWhile (p := isWord) (l := n.reverse)
    have hdrop : n.reverse.drop (n.reverse.takeWhile isWord).length = n.reverse.dropWhile isWord := by
      have := congrArg (List.drop (n.reverse.takeWhile isWord).length) hcut
      rw [List.drop_left] at this
      exact this.symm
    rw [hdrop] at h3
    have hall : ∀ x ∈ n.reverse.takeWhile isWord, isWord x = true := fun x hx => List.all_eq_true.mp List.all_takeWhile x hx
    generalize n.reverse.takeWhile isWord = r at *
    generalize hd : n.reverse.dropWhile isWord = d at *
    cases d with
    | nil => cases h3
    | cons x d =>
      simp only [List.head?_cons, Option.some.injEq] at h3
      subst h3
      have hn : n = d.reverse ++ '/' :: r.reverse := by
        have := congrArg List.reverse hcut
        rw [List.reverse_reverse, List.reverse_append] at this
        rw [← this]; simp
      have hr : ∀ x ∈ r.reverse, isWord x = true := fun x hx => hall x (by simpa using hx)
      have hl : 3 ≤ r.reverse.length := by simpa using h1
      generalize r.reverse = q at *
      match q, h2, hl with
      | a :: b :: c :: w, h2, _ =>
        simp only [List.take_succ_cons, List.take_zero, List.cons.injEq, and_true] at h2
        obtain ⟨e1, e2⟩ := h2
        subst e1 e2
        exact ⟨d.reverse, c, w, hn, fun x hx => (isWord_iff x).mp (hr x (by simp at hx ⊢; rcases hx with h | h <;> simp [h]))⟩
  · rintro ⟨pre, c, w, hn, hw⟩
    have hrev : n.reverse = ('_' :: '_' :: c :: w).reverse ++ '/' :: pre.reverse := by rw [hn]; simp
    have hall : ∀ x ∈ ('_' :: '_' :: c :: w).reverse, isWord x = true := by
      intro x hx
      rw [List.mem_reverse] at hx
      rw [isWord_iff]
      rcases List.mem_cons.mp hx with h | hx
      · exact .inr h
      rcases List.mem_cons.mp hx with h | hx
      · exact .inr h
      exact hw x hx
    have htake : n.reverse.takeWhile isWord = ('_' :: '_' :: c :: w).reverse := by
      rw [hrev, List.takeWhile_append_of_pos hall, List.takeWhile_cons_of_neg (by decide), List.append_nil]
    simp only [htake, List.reverse_reverse]
    rw [hrev, List.drop_left]
    simp

/-- The programs covered: no bit-fields that do not start at a byte; enums are `int`s; the sizes are in bytes and not null; no member
of a class has the name of another one; there is no template called `std::string`. -/
structure Supported (P : Prog) (S : Sem) : Prop where
  bytes : ∀ r, .record r ∈ P.nodes → 0 < r.size ∧ r.size % 8 = 0 ∧ ∀ f ∈ r.fields, f.offset % 8 = 0
  enums : ∀ n p bits syms, .enum n p bits syms ∈ P.nodes → bits = 32
  distinct : ∀ i r s ms, P.nodes[i]? = some (.record r) → Members P S i s ms → (ms.map (fun m => m.2.name)).Nodup
  strings : ∀ r n, .record r ∈ P.nodes → r.name = some n → (parseTemplate n).1 = some stringName → n = stringName

/-- The registry that the import starts with: all its names denote types, and it describes them. -/
structure Start (key : Char → Int) (P : Prog) (S : Sem) (w : World) : Prop where
  inv : Inv key w.1 w.2
  ac : Acyclic w.1
  clo : ∀ u, u < w.1.next → ∀ x ∈ w.1.deps u, x < w.1.next
  honest : ∀ n t, w.2.reg n = some t → ∃ c, S.den n = some c ∧ Faithful P S w.1 c t ∧ S.den (w.1.name t) = some c
  derived : ∀ t, w.2.reg (w.1.name t) = some t →
    (∀ n x, w.1.kind t = .arr n x → w.1.name t = w.1.name x ++ '[' :: natStr n ++ [']'] ∧ w.1.size t = wmul n (w.1.size x)) ∧
    (∀ x, w.1.kind t = .ptr x → w.1.name t = w.1.name x ++ ['*'] ∧ w.1.size t = 8) ∧
    (∀ x, w.1.kind t = .vec x → w.1.name t = Merge.vecName (w.1.name x) ∧ w.1.size t = 24)
  string : w.2.reg stringName ≠ none

end Verif.Gccxml
