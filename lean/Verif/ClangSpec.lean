import Verif.ClangBuilder
import Verif.RegistryHist

/-!
What the importer is expected to do (property C66): the types it registers describe the C++ types of the program.
-/

namespace Verif.Clang
open Verif Verif.Names Verif.Graph Verif.Registry Verif.TypeBuilder Verif.Merge Verif.CompoundModel

/-- C++ types, as far as typelib distinguishes them: typedefs are gone, and `std::vector<T>` and `std::string` are what they
are whatever their allocator. -/
inductive CCT where
  | builtin (bits : Nat) (k : BKind)
  | enum (d : Nat)
  | record (d : Nat)
  | arr (n : Nat) (c : CCT)
  | ptr (c : CCT)
  | ref (c : CCT)
  | vec (c : CCT)
  | str
  | other (id size : Nat)
  deriving DecidableEq, Repr

/-- template arguments that are details of the implementation: allocators and character traits -/
def detailArg (n : Str) : Bool := "/std/allocator".toList.isPrefixOf n || "/std/char_traits".toList.isPrefixOf n

/-- the importer ignores these -/
theorem argIgnored_eq : argIgnored = detailArg := rfl

/-- `std::vector<T>`, where `ty` is `T`: its only argument which is not an allocator -/
def VecOf (r : CRecord) (ty : CT) : Prop :=
  ∃ n args an, r.tmpl = some (n, args) ∧ findContainer n = some .vector ∧
    args.filter (fun a => !detailArg a.1) = [(an, ty)]

/-- `std::string`: `std::basic_string<char>` -/
def IsString (r : CRecord) : Prop :=
  ∃ n args, r.tmpl = some (n, args) ∧ findContainer n = some .string ∧
    ∀ a ∈ args, detailArg a.1 = false → a.1 = "/char".toList

/-- the C++ type that a written type is -/
inductive Canon (A : AST) : CT → CCT → Prop
  | builtin (bits : Nat) (k : BKind) : Canon A (.builtin bits k) (.builtin bits k)
  | ref {t : CT} {c : CCT} : Canon A t c → Canon A (.ref t) (.ref c)
  | ptr {t : CT} {c : CCT} : Canon A t c → Canon A (.ptr t) (.ptr c)
  | arr {en : Str} {t : CT} {n : Nat} {c : CCT} : Canon A t c → Canon A (.arr en t n) (.arr n c)
  | enum {d : Nat} {r : CEnum} : A.enums[d]? = some r → Canon A (.enum d) (.enum d)
  | typedef {d : Nat} {td : CTypedef} {c : CCT} : A.typedefs[d]? = some td → Canon A td.ty c → Canon A (.typedef d) c
  | elaborated {t : CT} {c : CCT} : Canon A t c → Canon A (.elaborated t) c
  | vec {d : Nat} {r : CRecord} {ty : CT} {c : CCT} : A.records[d]? = some r → VecOf r ty → Canon A ty c →
      Canon A (.record (some d)) (.vec c)
  | str {d : Nat} {r : CRecord} : A.records[d]? = some r → IsString r → Canon A (.record (some d)) .str
  | record {d : Nat} {r : CRecord} : A.records[d]? = some r → (∀ ty, ¬ VecOf r ty) → ¬ IsString r →
      Canon A (.record (some d)) (.record d)
  | other (id size : Nat) : Canon A (.other id size) (.other id size)

/-- `sizeof`, in bytes -/
def sizeof (A : AST) : CCT → Nat
  | .builtin bits _ => bits / 8
  | .enum d => match A.enums[d]? with | some r => r.width / 8 | none => 0
  | .record d => match A.records[d]? with | some r => r.size | none => 0
  | .arr n c => n * sizeof A c
  | .ptr _ => 8
  | .ref _ => 8
  | .vec _ => 24
  | .str => 32
  | .other _ size => size

mutual
/-- The data members of the class `d`, when an object of this class is at the offset `s`: its own, then those of its bases;
each with the offset of the class it is declared in. -/
inductive Members (A : AST) : Nat → Nat → List (Nat × CField) → Prop
  | mk {d s : Nat} {r : CRecord} {l : List (Nat × CField)} : A.records[d]? = some r → BaseMembers A s r.bases l →
      Members A d s (r.fields.map (fun f => (s, f)) ++ l)
inductive BaseMembers (A : AST) : Nat → List CBase → List (Nat × CField) → Prop
  | nil {s : Nat} : BaseMembers A s [] []
  | cons {s d : Nat} {b : CBase} {bs : List CBase} {l l' : List (Nat × CField)} : b.decl = some d →
      Members A d (s + b.offset) l → BaseMembers A s bs l' → BaseMembers A s (b :: bs) (l ++ l')
end

/-- the category of the numbers of a kind -/
def BKind.cat : BKind → Option NumCat
  | .float => some .float
  | .sint => some .sint
  | .uint => some .uint
  | .other => none

/-- the fields of a compound are the data members, with the same names and offsets; all are accessible and none is a
bit-field -/
structure SameFields (ms : List (Nat × CField)) (fs : List FieldD) : Prop where
  length : fs.length = ms.length
  field : ∀ (i : Nat) (m : Nat × CField) (fd : FieldD), ms[i]? = some m → fs[i]? = some fd → fd.name = m.2.name ∧ fd.offset * 8 = m.1 * 8 + m.2.offset ∧
    m.2.bits = none ∧ m.2.priv = false ∧ m.2.anonymous = false

/-- clang has a complete, named declaration of the class -/
def CRecord.usable (r : CRecord) : Prop := r.ident = true ∧ r.injected = false ∧ r.dependent = false

/-- a class that is only data: named, defined, without virtual methods, and without private (direct) bases -/
structure CRecord.Data (r : CRecord) : Prop where
  usable : r.usable
  hasDef : r.hasDef = true
  poly : r.poly = false
  bases : ∀ b ∈ r.bases, b.priv = false

/-- The registered type `t` describes the C++ type: same size, same nature, same elements, same data members at the same
offsets, same enumerators with the same values. An opaque type describes any type that is not smaller. -/
inductive Faithful (A : AST) (H : Heap) : CCT → TId → Prop
  | «opaque» {c : CCT} {t : TId} : H.kind t = .opaque → H.size t ≤ sizeof A c → Faithful A H c t
  | num {bits : Nat} {k : BKind} {cat : NumCat} {t : TId} : k.cat = some cat → H.kind t = .num cat → H.size t * 8 = bits →
      Faithful A H (.builtin bits k) t
  | enum {d : Nat} {r : CEnum} {syms : List (Str × Int)} {t : TId} : A.enums[d]? = some r → r.ident = true ∧ r.priv = false → H.kind t = .enum syms →
      (∀ n v, (n, v) ∈ syms ↔ (n, v) ∈ r.syms) → H.size t * 8 = r.width → Faithful A H (.enum d) t
  | arr {n : Nat} {c : CCT} {x t : TId} : H.kind t = .arr n x → H.size t = wmul n (H.size x) → Faithful A H c x →
      Faithful A H (.arr n c) t
  | ptr {c : CCT} {x t : TId} : H.kind t = .ptr x → H.size t = 8 → Faithful A H c x → Faithful A H (.ptr c) t
  | vec {c : CCT} {x t : TId} : H.kind t = .vec x → H.size t = 24 → Faithful A H c x → Faithful A H (.vec c) t
  | str {x t : TId} : H.kind t = .str x → H.size t = 32 → Faithful A H (.builtin 8 .sint) x → Faithful A H .str t
  | plain {d : Nat} {r : CRecord} {c : CCT} {ms : List (Nat × CField)} {cs : List CCT} {fs : List FieldD} {t : TId} :
      A.records[d]? = some r → r.Data → fs ≠ [] → Canon A (.record (some d)) c → Members A d 0 ms → H.kind t = .comp fs → H.size t = r.size →
      SameFields ms fs → cs.length = ms.length → (∀ (i : Nat) (m : Nat × CField) (c : CCT), ms[i]? = some m → cs[i]? = some c → Canon A m.2.ty c) →
      (∀ (i : Nat) (fd : FieldD) (c : CCT), fs[i]? = some fd → cs[i]? = some c → Faithful A H c fd.ty) → Faithful A H c t

/-! ### The programs covered -/

/-- no base class of a class is elsewhere than at its beginning; no bit-fields; enums are `int`s; data members are inside
their class; the standard library is that typelib has been built with -/
structure Supported (A : AST) : Prop where
  bases : ∀ r ∈ A.records, ∀ b ∈ r.bases, b.offset = 0
  bits : ∀ r ∈ A.records, ∀ f ∈ r.fields, f.bits = none
  enums : ∀ r ∈ A.enums, r.width = 32 ∧ ∀ p ∈ r.syms, -(2 ^ 31 : Int) ≤ p.2 ∧ p.2 < 2 ^ 31
  inside : ∀ d r ms, A.records[d]? = some r → Members A d 0 ms → ∀ m ∈ ms, ∀ c, Canon A m.2.ty c →
    m.1 + m.2.offset / 8 + sizeof A c ≤ r.size
  small : ∀ r ∈ A.records, r.size < W
  vector : ∀ d r c, A.records[d]? = some r → Canon A (.record (some d)) (.vec c) → r.size = 24
  string : ∀ d r, A.records[d]? = some r → Canon A (.record (some d)) .str → r.size = 32

/-- the types that the importer meets in a program, with the names they get -/
inductive Occurs (A : AST) : Str → CT → Prop
  | record {d : Nat} {r : CRecord} : A.records[d]? = some r → Occurs A r.name (.record (some d))
  | enum {d : Nat} {r : CEnum} : A.enums[d]? = some r → Occurs A r.name (.enum d)
  | field {r : CRecord} {f : CField} : r ∈ A.records → f ∈ r.fields → Occurs A f.tyName f.ty
  | base {r : CRecord} {b : CBase} : r ∈ A.records → b ∈ r.bases → Occurs A b.name b.ty
  | arg {r : CRecord} {n : Str} {args : List (Str × CT)} {a : Str × CT} : r ∈ A.records → r.tmpl = some (n, args) →
      a ∈ args → detailArg a.1 = false → Occurs A a.1 a.2
  | typedef {td : CTypedef} : td ∈ A.typedefs → Occurs A td.canonName td.ty
  | elem {n : Str} {en : Str} {e : CT} {k : Nat} : Occurs A n (.arr en e k) → Occurs A en e
  | elaborated {n : Str} {t : CT} : Occurs A n (.elaborated t) → Occurs A n t

/-- a name that a registry accepts -/
def OkName (n : Str) : Prop := isValidTypename n true = true ∧ isAbsoluteName n = true

/-- What the names mean: `den n` is the C++ type called `n`. All the names given to a type denote it; a typedef denotes what
it is a typedef of; the names of arrays, pointers and vectors denote those of what the rest of the name denotes; the names
of the integers of fixed size are those of these integers. -/
structure Names (A : AST) (den : Str → Option CCT) : Prop where
  occ : ∀ n ty, Occurs A n ty → isAbsoluteName n = true ∧ ∃ c, Canon A ty c ∧ den n = some c
  typedef : ∀ td ∈ A.typedefs, isAbsoluteName td.name = true ∧ den td.name = den td.canonName
  arr : ∀ n, OkName n → ∀ k, den (n ++ '[' :: natStr k ++ [']']) = (den n).map (.arr k)
  ptr : ∀ n, OkName n → den (n ++ ['*']) = (den n).map .ptr
  vec : ∀ n, OkName n → den (vecName n) = (den n).map .vec
  sint : ∀ bytes, den (intName .sint (8 * bytes)) = some (.builtin (8 * bytes) .sint)
  uint : ∀ bytes, den (intName .uint (8 * bytes)) = some (.builtin (8 * bytes) .uint)
  str : den stringName = some .str

/-- neither an array nor a typedef -/
def CT.direct : CT → Bool
  | .arr .. => false
  | .typedef _ => false
  | .elaborated t => t.direct
  | _ => true

/-- Arrays are called after the name of their element, and typedefs by their name or that of the type they stand for.
(`typedef foo_t bar_t[3]` is not: the canonical name of `bar_t` is that of an array of what `foo_t` is.) -/
structure Spelled (A : AST) : Prop where
  arr : ∀ n en e k, Occurs A n (.arr en e k) → e.direct = true ∧ n = en ++ '[' :: natStr k ++ [']']
  typedef : ∀ n d td, Occurs A n (.typedef d) → A.typedefs[d]? = some td → n = td.name ∨ n = td.canonName

/-- the declarations handed to the builder are those of the program -/
def Decl.In (A : AST) (den : Str → Option CCT) : Decl → Prop
  | .type name ty .. => ∀ t, ty = some t → Occurs A name t
  | .typedef _ => True
  | .opaque name c => isAbsoluteName name = true ∧ ∀ n, c = some n → isAbsoluteName n = true ∧ den n = den name

/-! ### What has to be imported -/

/-- the class `d` is, or has for (indirect) base class, the class `d'` -/
inductive Anc (A : AST) : Nat → Nat → Prop
  | refl (d : Nat) : Anc A d d
  | step {d d1 d2 : Nat} {r : CRecord} {b : CBase} : A.records[d]? = some r → b ∈ r.bases → b.decl = some d1 → Anc A d1 d2 →
      Anc A d d2

/-- The types that can be described: numbers of a whole number of bytes, enums that can be accessed, arrays (of one
dimension) of, typedefs of, and vectors of such types, strings, and the classes with no virtual methods, at least one data
member, no private direct base, and whose data members are all accessible, named, at a whole number of bytes and of such
types. -/
inductive Importable (A : AST) : CT → Prop
  | builtin {bits : Nat} {k : BKind} : bits % 8 = 0 → k ≠ .other → Importable A (.builtin bits k)
  | enum {d : Nat} {r : CEnum} : A.enums[d]? = some r → r.ident = true → r.priv = false → Importable A (.enum d)
  | arr {en : Str} {e : CT} {n : Nat} : e.isArr = false → Importable A e → Importable A (.arr en e n)
  | typedef {d : Nat} {td : CTypedef} : A.typedefs[d]? = some td → Importable A td.ty → Importable A (.typedef d)
  | elaborated {t : CT} : Importable A t → Importable A (.elaborated t)
  | vector {d : Nat} {r : CRecord} {n : Str} {args : List (Str × CT)} : A.records[d]? = some r → r.usable →
      r.tmpl = some (n, args) → findContainer n = some .vector →
      (∀ a ∈ args, detailArg a.1 = false → Importable A a.2) → Importable A (.record (some d))
  | string {d : Nat} {r : CRecord} {n : Str} {args : List (Str × CT)} : A.records[d]? = some r → r.usable →
      r.tmpl = some (n, args) → findContainer n = some .string →
      (∀ a ∈ args, detailArg a.1 = false → a.1 = "/char".toList) →
      (∀ a ∈ args, detailArg a.1 = false → Importable A a.2) → Importable A (.record (some d))
  | record {d : Nat} {r : CRecord} : A.records[d]? = some r → r.usable → r.hasDef = true → r.poly = false →
      (∃ d' r', Anc A d d' ∧ A.records[d']? = some r' ∧ r'.fields ≠ []) → (∀ b ∈ r.bases, b.priv = false) →
      (∀ d' r', Anc A d d' → A.records[d']? = some r' → ∀ f ∈ r'.fields,
        f.anonymous = false ∧ f.priv = false ∧ f.offset % 8 = 0) →
      (∀ d' r', Anc A d d' → A.records[d']? = some r' → ∀ f ∈ r'.fields, Importable A f.ty) →
      Importable A (.record (some d))

end Verif.Clang
