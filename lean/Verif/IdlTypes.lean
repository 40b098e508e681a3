import Verif.IdlExamples

/-!
C48: the definitions written by the IDL exporter (`lang/idl/export.cc`): which types are accepted, and the text written
for them.
-/

namespace Verif.Idl
open Verif Verif.Names Verif.Graph Verif.StdMap

/-! ### Specification -/

/-- the IDL builtin for a number -/
def builtin : NumCat → Nat → Option String
  | .sint, 1 => some "octet"
  | .uint, 1 => some "octet"
  | .sint, 2 => some "short"
  | .uint, 2 => some "unsigned short"
  | .sint, 4 => some "long"
  | .uint, 4 => some "unsigned long"
  | .sint, 8 => some "long long"
  | .uint, 8 => some "unsigned long long"
  | .float, 4 => some "float"
  | .float, 8 => some "double"
  | _, _ => none

/-- `Ref H o t ns base dims`: in IDL, a variable `x` of type `t` is declared as `ns::base x dims`. `ns` is empty for
the builtins of IDL. User types keep their namespace, between the prefix and suffix chosen by the user. Sequences have a
typedef beside the definition of their elements (or in the root namespace if the elements are builtins). -/
inductive Ref (H : Heap) (o : Opts) : TId → Str → Str → Str → Prop
  | bool {t c} : H.kind t = .num c → H.name t = "/bool".toList → Ref H o t [] "boolean".toList []
  | num {t c s} : H.kind t = .num c → H.name t ≠ "/bool".toList → builtin c (H.size t) = some s →
      Ref H o t [] s.toList []
  | any {t} : H.kind t = .opaque → o.opaqueAny = true → Ref H o t [] "any".toList []
  | enum {t syms} : H.kind t = .enum syms →
      Ref H o t (o.nsPrefix ++ getNamespace (H.name t) ++ o.nsSuffix) (normalizeIDLName (getTypename (H.name t))) []
  | comp {t fs} : H.kind t = .comp fs →
      Ref H o t (o.nsPrefix ++ getNamespace (H.name t) ++ o.nsSuffix) (normalizeIDLName (getTypename (H.name t))) []
  | string {t} : H.cat t = .container → H.name t = "/std/string".toList → Ref H o t [] "string".toList []
  | seq {t e ns b d} : H.kind t = .vec e → H.name t ≠ "/std/string".toList → Ref H o e ns b d →
      Ref H o t (if ns = [] then o.nsPrefix ++ ['/'] ++ o.nsSuffix else ns)
        (normalizeIDLName ("vector_".toList ++ (H.name e).map (fun c => if c = '/' ∨ c = ' ' then '_' else c) ++ ['_'])) []
  | arr {t n e ns b} : H.kind t = .arr n e → H.cat e ≠ .array → Ref H o e ns b [] →
      Ref H o t ns (normalizeIDLName b) ('[' :: natStr n ++ [']'])

/-- types that cannot be used in IDL: null types, pointers, opaques (unless they are mapped to `any`), arrays of arrays, and
what is made of them -/
inductive Unusable (H : Heap) (o : Opts) : TId → Prop
  | null {t} : H.kind t = .null → Unusable H o t
  | opaque {t} : H.kind t = .opaque → o.opaqueAny = false → Unusable H o t
  | ptr {t e} : H.kind t = .ptr e → Unusable H o t
  | arr2 {t n e} : H.kind t = .arr n e → H.cat e = .array → Unusable H o t
  | arr {t n e} : H.kind t = .arr n e → Unusable H o e → Unusable H o t
  | seq {t e} : H.kind t = .vec e → H.name t ≠ "/std/string".toList → Unusable H o e → Unusable H o t

/-- the full name: `::a::b::base`, or `base` for a builtin -/
def qualified (ns base : Str) : Str :=
  if ns = [] then base else normalizeIDLName (slashToColons ns) ++ base

/-- the declaration of a field -/
def declaration (ns base field dims : Str) : Str :=
  qualified ns base ++ (if field = [] then [] else ' ' :: stripLeadingUnderscore field) ++ dims

/-- the declarations of the fields of a structure, in order -/
inductive Decls (H : Heap) (o : Opts) : List FieldD → List Str → Prop
  | nil : Decls H o [] []
  | cons {f fs ns b d ds} : Ref H o f.ty ns b d → Decls H o fs ds → Decls H o (f :: fs) (declaration ns b f.name d :: ds)

/-- the definition of a structure, in a module at the given depth -/
def structText (depth : Nat) (name : Str) (decls : List Str) : Str :=
  spaces (4 * depth) ++ "struct ".toList ++ name ++ " {\n".toList ++
    decls.flatMap (fun d => spaces (4 * (depth + 1)) ++ d ++ ";\n".toList) ++ spaces (4 * depth) ++ "};\n".toList

/-- the definition of an enumeration -/
def enumText (depth : Nat) (name : Str) (syms : List Str) : Str :=
  spaces (4 * depth) ++ "enum ".toList ++ name ++ " { ".toList ++ joinComma syms ++ " };\n".toList

/-! ### Proofs -/

theorem ident_ok {H : Heap} {o : Opts} {t : TId} {ns b d : Str} (h : Ref H o t ns b d) :
    ∃ f0, ∀ f, f0 ≤ f → ident H o f t = .ok ⟨ns, b, d⟩ := by
  induction h with
  | bool hk hn =>
    refine ⟨1, fun f hf => ?_⟩
    obtain ⟨f, rfl⟩ : ∃ g, f = g + 1 := ⟨f - 1, by omega⟩
    simp only [ident, hk, numName, hn, if_true]
    congr 1
  | @num t c s hk hn hb =>
    refine ⟨1, fun f hf => ?_⟩
    obtain ⟨f, rfl⟩ : ∃ g, f = g + 1 := ⟨f - 1, by omega⟩
    simp only [ident, hk, numName, hn, if_false]
    unfold builtin at hb
    split at hb <;> first
      | (cases hb; rename_i h1; simp only [h1]; rfl)
      | cases hb
  | any hk ho =>
    refine ⟨1, fun f hf => ?_⟩
    obtain ⟨f, rfl⟩ : ∃ g, f = g + 1 := ⟨f - 1, by omega⟩
    simp only [ident, hk, ho, if_true]
    rfl
  | enum hk =>
    refine ⟨1, fun f hf => ?_⟩
    obtain ⟨f, rfl⟩ : ∃ g, f = g + 1 := ⟨f - 1, by omega⟩
    simp only [ident, hk]
    rfl
  | comp hk =>
    refine ⟨1, fun f hf => ?_⟩
    obtain ⟨f, rfl⟩ : ∃ g, f = g + 1 := ⟨f - 1, by omega⟩
    simp only [ident, hk]
    rfl
  | @string t hk hn =>
    refine ⟨1, fun f hf => ?_⟩
    obtain ⟨f, rfl⟩ : ∃ g, f = g + 1 := ⟨f - 1, by omega⟩
    unfold Heap.cat at hk
    cases hkk : H.kind t <;> rw [hkk] at hk <;> simp only [Kind.cat, reduceCtorEq] at hk <;>
      (simp only [ident, hkk, hn, if_true]; rfl)
  | @seq t e ns b d hk hn _ ih =>
    obtain ⟨f0, ih⟩ := ih
    refine ⟨f0 + 1, fun f hf => ?_⟩
    obtain ⟨f, rfl⟩ : ∃ g, f = g + 1 := ⟨f - 1, by omega⟩
    simp only [ident, hk, hn, if_false, ih f (by omega), Res.bind_ok]
    congr 2
    cases ns <;> rfl
  | @arr t n e ns b hk hc _ ih =>
    obtain ⟨f0, ih⟩ := ih
    refine ⟨f0 + 1, fun f hf => ?_⟩
    obtain ⟨f, rfl⟩ : ∃ g, f = g + 1 := ⟨f - 1, by omega⟩
    simp only [ident, hk, hc, if_false, ih f (by omega), Res.bind_ok, Ident.base, List.isEmpty_nil, if_true,
      List.append_nil]

theorem ident_exn {H : Heap} {o : Opts} {t : TId} (h : Unusable H o t) :
    ∃ f0, ∀ f, f0 ≤ f → ident H o f t = .exn .exportError := by
  induction h with
  | null hk =>
    refine ⟨1, fun f hf => ?_⟩
    obtain ⟨f, rfl⟩ : ∃ g, f = g + 1 := ⟨f - 1, by omega⟩
    simp only [ident, hk]
  | «opaque» hk ho =>
    refine ⟨1, fun f hf => ?_⟩
    obtain ⟨f, rfl⟩ : ∃ g, f = g + 1 := ⟨f - 1, by omega⟩
    simp only [ident, hk, ho, Bool.false_eq_true, if_false]
  | ptr hk =>
    refine ⟨1, fun f hf => ?_⟩
    obtain ⟨f, rfl⟩ : ∃ g, f = g + 1 := ⟨f - 1, by omega⟩
    simp only [ident, hk]
  | arr2 hk hc =>
    refine ⟨1, fun f hf => ?_⟩
    obtain ⟨f, rfl⟩ : ∃ g, f = g + 1 := ⟨f - 1, by omega⟩
    simp only [ident, hk, hc, if_true]
  | @arr t n e hk _ ih =>
    obtain ⟨f0, ih⟩ := ih
    refine ⟨f0 + 1, fun f hf => ?_⟩
    obtain ⟨f, rfl⟩ : ∃ g, f = g + 1 := ⟨f - 1, by omega⟩
    by_cases hc : H.cat e = .array
    · simp only [ident, hk, hc, if_true]
    · simp only [ident, hk, hc, if_false, ih f (by omega), Res.bind_exn]
  | @seq t e hk hn _ ih =>
    obtain ⟨f0, ih⟩ := ih
    refine ⟨f0 + 1, fun f hf => ?_⟩
    obtain ⟨f, rfl⟩ : ∃ g, f = g + 1 := ⟨f - 1, by omega⟩
    simp only [ident, hk, hn, if_false, ih f (by omega), Res.bind_exn]

theorem absolute_ok {H : Heap} {o : Opts} {t : TId} {ns b d : Str} (h : Ref H o t ns b d) (field : Str) :
    ∃ f0, ∀ f, f0 ≤ f → getIDLAbsolute H o f t field = .ok (declaration ns b field d) := by
  obtain ⟨f0, h0⟩ := ident_ok h
  refine ⟨f0, fun f hf => ?_⟩
  simp only [getIDLAbsolute, h0 f hf, Res.bind_ok]
  unfold declaration qualified Ident.base
  cases field <;> cases ns <;> simp

theorem fieldLines_ok {H : Heap} {o : Opts} {fs : List FieldD} {ds : List Str} (h : Decls H o fs ds) (indent : Str) :
    ∃ f0, ∀ f, f0 ≤ f → fieldLines H o f indent fs = .ok (ds.flatMap (fun d => indent ++ d ++ ";\n".toList)) := by
  induction h with
  | nil => exact ⟨0, fun f _ => rfl⟩
  | @cons fd fs ns b d ds hr _ ih =>
    obtain ⟨f1, h1⟩ := absolute_ok hr fd.name
    obtain ⟨f2, h2⟩ := ih
    refine ⟨max f1 f2, fun f hf => ?_⟩
    simp only [fieldLines, h1 f (by omega), h2 f (by omega), Res.bind_ok, List.flatMap_cons]

/-- a list of fields whose first unusable one is `fd` -/
theorem fieldLines_exn {H : Heap} {o : Opts} {pre post : List FieldD} {fd : FieldD} {ds : List Str}
    (h : Decls H o pre ds) (hu : Unusable H o fd.ty) (indent : Str) :
    ∃ f0, ∀ f, f0 ≤ f → fieldLines H o f indent (pre ++ fd :: post) = .exn .exportError := by
  induction h with
  | nil =>
    obtain ⟨f0, h0⟩ := ident_exn hu
    refine ⟨f0, fun f hf => ?_⟩
    simp only [List.nil_append, fieldLines, getIDLAbsolute, h0 f hf, Res.bind_exn]
  | @cons gd fs ns b d ds hr _ ih =>
    obtain ⟨f1, h1⟩ := absolute_ok hr gd.name
    obtain ⟨f2, h2⟩ := ih
    refine ⟨max f1 f2, fun f hf => ?_⟩
    simp only [List.cons_append, fieldLines, h1 f (by omega), h2 f (by omega), Res.bind_ok, Res.bind_exn]

/-- the calls that define types: the type is selected, the entry is no alias, the type is not a blob -/
structure Defining (H : Heap) (o : Opts) (it : Item) : Prop where
  selected : o.selected = [] ∨ H.name it.ty ∈ o.selected
  main : it.isAlias = false
  small : o.blob = 0 ∨ (H.size it.ty : Int) ≤ o.blob

theorem Defining.act {H : Heap} {o : Opts} {it : Item} (h : Defining H o it) (f : Nat) (s : St) :
    act H o f s it = (exportType H o f it.ty >>= fun r =>
      .ok (if r.2.1.isEmpty then .skip else .def_ r.1 r.2.1 (r.2.2.map (fun n => (n, it.ty))))) := by
  have h1 : (!o.selected.isEmpty && !o.selected.contains (H.name it.ty)) = false := by
    rcases h.selected with e | e
    · simp [e]
    · simp [List.contains_eq_mem, e]
  have h2 : ¬ (o.blob ≠ 0 ∧ (H.size it.ty : Int) > o.blob) := by
    rcases h.small with e | e
    · simp [e]
    · intro ⟨_, h⟩; omega
  unfold Idl.act
  dsimp only
  rw [h1, h.main, if_neg h2]
  rfl

theorem path_level (ns : Str) : namespaceIndentLevel ns = (path ns).length := by simp [namespaceIndentLevel, path]

/-! ### C48 -/

/-- **C48, structures**: a compound whose fields can be used in IDL is exported as a structure of its name, in the modules
of its namespace, with one declaration per field, in order; whatever was exported before. -/
theorem C48_struct {H : Heap} {o : Opts} {it : Item} {fs : List FieldD} {ds : List Str} (hd : Defining H o it)
    (hk : H.kind it.ty = .comp fs) (h : Decls H o fs ds) :
    ∃ f0, ∀ f, f0 ≤ f → ∀ s, act H o f s it = .ok (.def_ (o.nsPrefix ++ getNamespace (H.name it.ty) ++ o.nsSuffix)
      (structText (path (o.nsPrefix ++ getNamespace (H.name it.ty) ++ o.nsSuffix)).length
        (normalizeIDLName (getTypename (H.name it.ty))) ds) none) := by
  obtain ⟨f0, h0⟩ := fieldLines_ok h (spaces (4 * namespaceIndentLevel (absNs o (getNamespace (H.name it.ty)))) ++ spaces 4)
  refine ⟨f0, fun f hf s => ?_⟩
  rw [hd.act]
  simp only [exportType, hk, h0 f hf, Res.bind_ok]
  have hs : ∀ n, spaces (4 * n) ++ spaces 4 = spaces (4 * (n + 1)) := by
    intro n; unfold spaces; rw [List.replicate_append_replicate]; rfl
  rw [hs, path_level]
  rw [if_neg (by simp)]
  rfl

/-- **C48, enumerations**: all the symbols, in order. -/
theorem C48_enum {H : Heap} {o : Opts} {it : Item} {syms : List (Str × Int)} (hd : Defining H o it)
    (hk : H.kind it.ty = .enum syms) (f : Nat) (s : St) :
    act H o f s it = .ok (.def_ (o.nsPrefix ++ getNamespace (H.name it.ty) ++ o.nsSuffix)
      (enumText (path (o.nsPrefix ++ getNamespace (H.name it.ty) ++ o.nsSuffix)).length
        (stripLeadingUnderscore (getTypename (H.name it.ty))) (syms.map (fun p => stripLeadingUnderscore p.1))) none) := by
  rw [hd.act]
  simp only [exportType, hk, Res.bind_ok]
  rw [path_level, if_neg (by simp)]
  rfl

theorem colonGo_plain : ∀ {s : Str}, ':' ∉ s → colonGo false s = [s] := by
  intro s
  induction s with
  | nil => intro _; rfl
  | cons c s ih =>
    intro h
    simp only [List.mem_cons, not_or] at h
    rw [colonGo, if_neg (fun e => h.1 e.symm), ih h.2]

theorem normalize_no_colon {s : Str} (h : ':' ∉ s) : ':' ∉ normalizeIDLName s := by
  have h1 : ':' ∉ s.map under := by
    intro hm
    obtain ⟨c, hc, e⟩ := List.mem_map.mp hm
    unfold under at e
    split at e
    · cases e
    · exact h (e ▸ hc)
  unfold normalizeIDLName stripLeadingUnderscore
  rw [colonGo_plain h1]
  show ':' ∉ stripOne (s.map under)
  intro hm
  unfold stripOne at hm
  split at hm
  · rename_i r e
    rw [e] at h1
    exact h1 (List.mem_cons_of_mem _ hm)
  · exact h1 hm

theorem colonsToUnder_plain {s : Str} (h : ':' ∉ s) : colonsToUnder s = s := by
  induction s using colonsToUnder.induct with
  | case1 r ih => exact absurd (by simp) h
  | case2 c r hne ih =>
    rw [colonsToUnder.eq_2 _ _ hne, ih (fun hm => h (List.mem_cons_of_mem _ hm))]
  | case3 => rfl

theorem seq_base {H : Heap} {o : Opts} {t e : TId} {ns b d : Str} (hk : H.kind t = .vec e)
    (hn : H.name t ≠ "/std/string".toList) (h : Ref H o t ns b d) (hc : ':' ∉ H.name e) :
    colonsToUnder b = b := by
  cases h with
  | seq hk' _ hr =>
    rw [hk] at hk'
    cases hk'
    apply colonsToUnder_plain
    apply normalize_no_colon
    intro hm
    simp only [List.append_assoc, List.mem_append, List.mem_map, List.mem_singleton] at hm
    rcases hm with hm | ⟨c, h1, h2⟩ | hm
    · exact absurd hm (by decide)
    · split at h2
      · cases h2
      · exact hc (h2 ▸ h1)
    · cases hm
  | string _ hn' => exact absurd hn' hn
  | _ => simp_all

/-- **C48, sequences**: a vector is exported as a typedef, in the namespace and under the name by which it is referred to,
of a sequence of its element type; the name is reserved. -/
theorem C48_sequence {H : Heap} {o : Opts} {it : Item} {e : TId} {ns b d : Str} {ns' b' : Str} (hd : Defining H o it)
    (hk : H.kind it.ty = .vec e) (hn : H.name it.ty ≠ "/std/string".toList) (hr : Ref H o e ns' b' d)
    (h : Ref H o it.ty ns b []) (hc : ':' ∉ H.name e) :
    ∃ f0, ∀ f, f0 ≤ f → ∀ s, act H o f s it = .ok (.def_ ns (spaces (4 * (path ns).length) ++
      "typedef sequence<".toList ++ declaration ns' b' [] d ++ "> ".toList ++ b ++ ";\n".toList)
      (some (getNamespace (H.name e) ++ b, it.ty))) := by
  obtain ⟨f1, h1⟩ := ident_ok hr
  obtain ⟨f2, h2⟩ := ident_ok h
  obtain ⟨f3, h3⟩ := absolute_ok hr []
  have hb := seq_base hk hn h hc
  refine ⟨max f1 (max f2 f3), fun f hf s => ?_⟩
  have hns : (if ns'.isEmpty then absNs o ['/'] else ns') = ns := by
    have := h2 (f + 1) (by omega)
    simp only [ident, hk, hn, if_false, h1 f (by omega), Res.bind_ok] at this
    exact congrArg Ident.ns (Res.ok.inj this)
  rw [hd.act]
  simp only [exportType, hk, hn, if_false, h1 f (by omega), h2 f (by omega), h3 f (by omega), Res.bind_ok, hns]
  rw [path_level, if_neg (by simp)]
  simp only [Ident.base, List.isEmpty_nil, if_true, List.append_nil, hb, Option.map_some]

/-- **C48, builtins**: numbers and strings need no definition; nothing is written for them. -/
theorem C48_builtin {H : Heap} {o : Opts} {it : Item} (hd : Defining H o it)
    (hk : H.cat it.ty = .numeric ∨ (H.cat it.ty = .container ∧ H.name it.ty = "/std/string".toList)) (f : Nat) (s : St) :
    act H o f s it = .ok .skip := by
  rw [hd.act]
  unfold Heap.cat at hk
  rcases hk with hk | ⟨hk, hn⟩
  · cases hkk : H.kind it.ty <;> rw [hkk] at hk <;> simp only [Kind.cat, reduceCtorEq] at hk
    simp [exportType, hkk]
  · cases hkk : H.kind it.ty <;> rw [hkk] at hk <;> simp only [Kind.cat, reduceCtorEq] at hk <;>
      simp [exportType, hkk, hn]

/-- **C48, unsupported types**: the export of a type that has no IDL equivalent, or of a structure with such a field, is
refused with an exception (and `save` writes nothing). -/
theorem C48_rejected {H : Heap} {o : Opts} {it : Item} (hd : Defining H o it) (h :
    H.kind it.ty = .null ∨ (H.kind it.ty = .opaque ∧ o.opaqueAny = false) ∨ H.cat it.ty = .pointer ∨ H.cat it.ty = .array ∨
    (∃ e, H.kind it.ty = .vec e ∧ H.name it.ty ≠ "/std/string".toList ∧ Unusable H o e) ∨
    (∃ pre fd post ds, H.kind it.ty = .comp (pre ++ fd :: post) ∧ Decls H o pre ds ∧ Unusable H o fd.ty)) :
    ∃ f0, ∀ f, f0 ≤ f → ∀ s, save H o f s it = .exn .exportError := by
  have key : (∃ f0, ∀ f, f0 ≤ f → exportType H o f it.ty = .exn .exportError) →
      ∃ f0, ∀ f, f0 ≤ f → ∀ s, save H o f s it = .exn .exportError := by
    intro ⟨f0, h0⟩
    refine ⟨f0, fun f hf s => ?_⟩
    unfold save
    rw [hd.act, h0 f hf]
    rfl
  apply key
  rcases h with h | ⟨h, ho⟩ | h | h | ⟨e, h, hn, hu⟩ | ⟨pre, fd, post, ds, h, hp, hu⟩
  · exact ⟨0, fun f _ => by simp only [exportType, h]⟩
  · exact ⟨0, fun f _ => by simp only [exportType, h, ho, Bool.false_eq_true, if_false]⟩
  · unfold Heap.cat at h
    cases hkk : H.kind it.ty <;> rw [hkk] at h <;> simp only [Kind.cat, reduceCtorEq] at h
    exact ⟨0, fun f _ => by simp only [exportType, hkk]⟩
  · unfold Heap.cat at h
    cases hkk : H.kind it.ty <;> rw [hkk] at h <;> simp only [Kind.cat, reduceCtorEq] at h
    exact ⟨0, fun f _ => by simp only [exportType, hkk]⟩
  · obtain ⟨f0, h0⟩ := ident_exn hu
    exact ⟨f0, fun f hf => by simp only [exportType, h, hn, if_false, h0 f hf, Res.bind_exn]⟩
  · obtain ⟨f0, h0⟩ := fieldLines_exn (post := post) hp hu
      (spaces (4 * namespaceIndentLevel (absNs o (getNamespace (H.name it.ty)))) ++ spaces 4)
    exact ⟨f0, fun f hf => by simp only [exportType, h, h0 f hf, Res.bind_exn]⟩

/-- the two notions exclude each other -/
theorem C48_usable_or_not {H : Heap} {o : Opts} {t : TId} {ns b d : Str} (h : Ref H o t ns b d) : ¬ Unusable H o t := by
  intro hu
  obtain ⟨f1, h1⟩ := ident_ok h
  obtain ⟨f2, h2⟩ := ident_exn hu
  have := (h1 (max f1 f2) (by omega)).symm.trans (h2 (max f1 f2) (by omega))
  cases this

/-! ### Aliases -/

/-- one of the calls writes the typedef of the sequence type `v`, and reserves the name `n` (see `C48_sequence`) -/
def Reserved (H : Heap) (o : Opts) (f : Nat) (items : List Item) (n : Str) (v : TId) : Prop :=
  ∃ it ∈ items, ∀ s, ∃ ns text, act H o f s it = .ok (.def_ ns text (some (n, v)))

/-- the calls about aliases: the type is selected, and the alias is not just the C name of a structure or enumeration
(`struct A` for `A`) in the same namespace -/
structure Aliasing (H : Heap) (o : Opts) (it : Item) : Prop where
  selected : o.selected = [] ∨ H.name it.ty ∈ o.selected
  alias : it.isAlias = true
  other : getNamespace (H.name it.ty) ≠ getNamespace it.name ∨
    (∀ k ∈ ["struct ".toList, "enum ".toList], getTypename (H.name it.ty) ≠ k ++ getTypename it.name ∧
      getTypename it.name ≠ k ++ getTypename (H.name it.ty))

theorem Aliasing.act {H : Heap} {o : Opts} {it : Item} (h : Aliasing H o it) (f : Nat) (s : St) :
    act H o f s it = (checkType H it.ty >>= fun _ =>
      match find s.exported it.name with
      | some t' => if t' ≠ it.ty then .exn .exportError else .ok .skip
      | none =>
        if (getTypename it.name).any (fun c => c == '/' || c == '<' || c == '>') then .ok .skip
        else do
          let d ← aliasText H o f it.name it.ty
          .ok (if d.isEmpty then .nothing else .typedef (absNs o (getNamespace it.name)) d)) := by
  have h1 : (!o.selected.isEmpty && !o.selected.contains (H.name it.ty)) = false := by
    rcases h.selected with e | e
    · simp [e]
    · simp [List.contains_eq_mem, e]
  have h2 : getNamespace (H.name it.ty) ≠ getNamespace it.name ∨
        (!structOf (getTypename (H.name it.ty)) (getTypename it.name) &&
          !structOf (getTypename it.name) (getTypename (H.name it.ty))) = true := by
    rcases h.other with e | e
    · exact .inl e
    · right
      have a1 := e "struct ".toList (by simp)
      have a2 := e "enum ".toList (by simp)
      unfold structOf
      rw [beq_eq_false_iff_ne.mpr a1.1, beq_eq_false_iff_ne.mpr a2.1, beq_eq_false_iff_ne.mpr a1.2,
        beq_eq_false_iff_ne.mpr a2.2]
      rfl
  unfold Idl.act
  dsimp only
  rw [h1, h.alias, if_pos h2]
  rfl

theorem adapt_exported (s : St) (ns : Str) : (adaptNamespace s ns).exported = s.exported := by
  have hc : ∀ n (s : St), (closeNamespaces n s).exported = s.exported := by
    intro n
    induction n with
    | zero => intro s; rfl
    | succ n ih => intro s; rw [closeNamespaces, ih]
  have ho : ∀ l (s : St), (openNamespaces l s).exported = s.exported := by
    intro l
    induction l with
    | nil => intro s; rfl
    | cons n l ih => intro s; rw [openNamespaces, ih]
  unfold adaptNamespace
  dsimp only
  split
  · rw [ho, hc]
  · rfl

/-- the decisions about a type do not depend on what was exported before -/
theorem act_def {H : Heap} {o : Opts} {f : Nat} {s : St} {it : Item} {ns text : Str} {r : Option (Str × TId)}
    (h : act H o f s it = .ok (.def_ ns text r)) (s' : St) : act H o f s' it = .ok (.def_ ns text r) := by
  unfold act at h ⊢
  dsimp only at h ⊢
  split at h
  · cases h
  · split at h
    · exfalso
      split at h
      · obtain ⟨_, _, h⟩ := Res.bind_eq_ok.mp h
        split at h
        · split at h <;> cases h
        · split at h
          · cases h
          · obtain ⟨d, _, h⟩ := Res.bind_eq_ok.mp h
            split at h <;> cases h
      · cases h
    · rename_i h1 h2
      rw [if_neg h1, if_neg h2]
      exact h

/-- the names in `exported` -/
structure Exp (H : Heap) (o : Opts) (f : Nat) (items : List Item) (s : St) : Prop where
  sorted : MSorted s.exported
  sound : ∀ n v, find s.exported n = some v → Reserved H o f items n v
  complete : ∀ n v, Reserved H o f items n v → find s.exported n ≠ none

theorem exp_save {H : Heap} {o : Opts} {f : Nat} {items : List Item} {s s' : St} {it : Item} (h : Exp H o f items s)
    (hs : save H o f s it = .ok s') : Exp H o f (items ++ [it]) s' := by
  obtain ⟨a, ha, hp⟩ := Res.bind_eq_ok.mp hs
  cases hp
  have mono : ∀ n v, Reserved H o f items n v → Reserved H o f (items ++ [it]) n v := by
    intro n v ⟨i, hi, hh⟩
    exact ⟨i, by simp [hi], hh⟩
  have split : ∀ n v, Reserved H o f (items ++ [it]) n v → Reserved H o f items n v ∨ ∃ ns text,
      a = .def_ ns text (some (n, v)) := by
    intro n v ⟨i, hi, hh⟩
    simp only [List.mem_append, List.mem_singleton] at hi
    rcases hi with hi | rfl
    · exact .inl ⟨i, hi, hh⟩
    · obtain ⟨ns, text, e⟩ := hh s
      rw [ha] at e
      exact .inr ⟨ns, text, Res.ok.inj e⟩
  have same : (perform s a).exported = s.exported → (∀ ns text r, a ≠ .def_ ns text (some r)) →
      Exp H o f (items ++ [it]) (perform s a) := by
    intro he hne
    refine ⟨by rw [he]; exact h.sorted, fun n v hf => mono n v (h.sound n v (he ▸ hf)), fun n v hr => ?_⟩
    rw [he]
    rcases split n v hr with hr | ⟨ns, text, e⟩
    · exact h.complete n v hr
    · exact absurd e (hne _ _ _)
  cases a with
  | skip => exact same rfl (by simp)
  | nothing => exact same rfl (by simp)
  | typedef ns d => exact same rfl (by simp)
  | def_ ns text r =>
    cases r with
    | none => exact same (by simp only [perform]; rw [adapt_exported]) (by simp)
    | some r =>
      have he : (perform s (.def_ ns text (some r))).exported = upsert r.1 (fun old => old.getD r.2) s.exported := by
        simp only [perform]; rw [adapt_exported]
      have hfind := fun k => find_upsert r.1 (fun old => old.getD r.2) h.sorted k
      refine ⟨by rw [he]; exact sorted_upsert _ _ h.sorted, ?_, ?_⟩
      · intro n v hf
        rw [he, hfind] at hf
        split at hf
        · rename_i e
          subst e
          cases hold : find s.exported r.1 with
          | none =>
            rw [hold] at hf
            refine ⟨it, by simp, fun s0 => ⟨ns, text, ?_⟩⟩
            rw [act_def ha s0]
            cases hf
            rfl
          | some v' =>
            rw [hold] at hf
            cases hf
            exact mono _ _ (h.sound _ _ hold)
        · exact mono n v (h.sound n v hf)
      · intro n v hr
        rw [he, hfind]
        split
        · simp
        · rename_i hne
          rcases split n v hr with hr | ⟨ns', text', e⟩
          · exact h.complete n v hr
          · cases e
            exact absurd rfl hne

theorem exp_saveAll {H : Heap} {o : Opts} {f : Nat} : ∀ (l : List Item) {items : List Item} {s s' : St},
    Exp H o f items s → saveAll H o f s l = .ok s' → Exp H o f (items ++ l) s' := by
  intro l
  induction l with
  | nil => intro items s s' h hs; cases hs; simpa using h
  | cons it l ih =>
    intro items s s' h hs
    obtain ⟨s1, h1, h2⟩ := Res.bind_eq_ok.mp hs
    have := ih (exp_save h h1) h2
    simpa using this

theorem exp_new {H : Heap} {o : Opts} {f : Nat} {items : List Item} {s : St} (h : saveAll H o f St.new items = .ok s) :
    Exp H o f items s := by
  have := exp_saveAll (items := []) (s := St.new) items ⟨List.Pairwise.nil, by intro n v h; simp [St.new, find] at h, by
    intro n v ⟨i, hi, _⟩; simp at hi⟩ h
  simpa using this

/-- what `checkType` refuses: pointers, arrays of arrays, arrays of pointers -/
def Refused (H : Heap) (t : TId) : Prop :=
  (∃ e, H.kind t = .ptr e) ∨ ∃ n e, H.kind t = .arr n e ∧ (H.cat e = .array ∨ H.cat e = .pointer)

theorem checkType_ok {H : Heap} {t : TId} (h : ¬ Refused H t) : checkType H t = .ok () := by
  unfold checkType
  split
  · rename_i e he; exact absurd (.inl ⟨e, he⟩) h
  · rename_i n e he
    rw [if_neg (fun hc => h (.inr ⟨n, e, he, hc⟩))]
  · rfl

/-- **C48, aliases of refused types**: pointers, arrays of arrays and of pointers cannot be given another name. -/
theorem C48_alias_rejected {H : Heap} {o : Opts} {it : Item} (ha : Aliasing H o it) (h : Refused H it.ty) (f : Nat) (s : St) :
    save H o f s it = .exn .exportError := by
  have : checkType H it.ty = .exn .exportError := by
    unfold checkType
    rcases h with ⟨e, h⟩ | ⟨n, e, h, hc⟩
    · rw [h]
    · simp only [h, hc, if_true]
  unfold save
  rw [ha.act, this]
  rfl

/-- **C48, reserved names**: after any calls, an alias whose name is that of the typedef of an exported sequence type is
refused if it names another type, and needs no typedef if it names that type. -/
theorem C48_reserved {H : Heap} {o : Opts} {f : Nat} {items : List Item} {s : St} (hs : saveAll H o f St.new items = .ok s)
    {it : Item} (ha : Aliasing H o it) (hr : ¬ Refused H it.ty) {v : TId} (h : Reserved H o f items it.name v) :
    (¬ Reserved H o f items it.name it.ty → save H o f s it = .exn .exportError) ∧
    ((∀ u, Reserved H o f items it.name u → u = it.ty) → save H o f s it = .ok s) := by
  have he := exp_new hs
  unfold save
  rw [ha.act, checkType_ok hr, Res.bind_ok]
  cases hf : find s.exported it.name with
  | none => exact absurd hf (he.complete _ _ h)
  | some u =>
    have hu := he.sound _ _ hf
    constructor
    · intro hn
      have : u ≠ it.ty := fun e => hn (e ▸ hu)
      simp only [this, ne_eq, not_false_eq_true, if_true, Res.bind_exn]
    · intro hall
      have := hall u hu
      simp only [this, ne_eq, not_true_eq_false, if_false, Res.bind_ok, perform]

/-- the text of the typedef of an alias: arrays are spelled out, containers are sequences whatever their class, the other
types are referred to by name -/
inductive AliasOf (H : Heap) (o : Opts) : TId → Str → Str → Prop
  | arr {t n e ns b d name} : H.kind t = .arr n e → Ref H o e ns b d →
      AliasOf H o t name (declaration ns b [] d ++ " ".toList ++ name ++ "[".toList ++ natStr n ++ "];".toList)
  | seq {t e ns b d name} : H.kind t = .vec e → H.name t ≠ "/std/string".toList → Ref H o e ns b d →
      AliasOf H o t name ("sequence<".toList ++ declaration ns b [] d ++ "> ".toList ++ name ++ ";".toList)
  | any {t name} : H.kind t = .opaque → o.opaqueAny = true → AliasOf H o t name ("any ".toList ++ name ++ ";".toList)
  | name {t ns b d name} : (H.cat t = .numeric ∨ H.cat t = .enum ∨ H.cat t = .compound ∨
        (H.cat t = .container ∧ H.name t = "/std/string".toList)) → Ref H o t ns b d →
      AliasOf H o t name (declaration ns b [] d ++ " ".toList ++ name ++ ";".toList)

/-- **C48, aliases**: an alias whose name is an identifier and is not reserved becomes a typedef in the modules of its own
namespace. -/
theorem C48_alias {H : Heap} {o : Opts} {it : Item} (ha : Aliasing H o it) (hr : ¬ Refused H it.ty)
    (hn : ∀ c ∈ getTypename it.name, c ≠ '/' ∧ c ≠ '<' ∧ c ≠ '>' ∧ c ≠ ' ') {text : Str}
    (ht : AliasOf H o it.ty (stripLeadingUnderscore (getTypename it.name)) text) :
    ∃ f0, ∀ f, f0 ≤ f → ∀ items s, saveAll H o f St.new items = .ok s → (∀ v, ¬ Reserved H o f items it.name v) →
      act H o f s it = .ok (.typedef (o.nsPrefix ++ getNamespace it.name ++ o.nsSuffix) text) := by
  have h1 : (getTypename it.name).any (fun c => c == '/' || c == '<' || c == '>') = false := by
    rw [List.any_eq_false]
    intro c hc
    have := hn c hc
    simp [this.1, this.2.1, this.2.2.1]
  have h2 : (getTypename it.name).all (fun c => c != ' ') = true := by
    rw [List.all_eq_true]
    intro c hc
    simpa using (hn c hc).2.2.2
  have key : (∃ f0, ∀ f, f0 ≤ f → aliasText H o f it.name it.ty = .ok text) → text ≠ [] →
      ∃ f0, ∀ f, f0 ≤ f → ∀ items s, saveAll H o f St.new items = .ok s → (∀ v, ¬ Reserved H o f items it.name v) →
        act H o f s it = .ok (.typedef (o.nsPrefix ++ getNamespace it.name ++ o.nsSuffix) text) := by
    intro ⟨f0, h0⟩ hne
    refine ⟨f0, fun f hf items s hs hv => ?_⟩
    have he := exp_new hs
    have hfn : find s.exported it.name = none := by
      cases hf : find s.exported it.name with
      | none => rfl
      | some u => exact absurd (he.sound _ _ hf) (hv u)
    rw [ha.act, checkType_ok hr, Res.bind_ok]
    simp only [hfn]
    rw [h1, h0 f hf]
    cases text with
    | nil => exact absurd rfl hne
    | cons c r => rfl
  apply key
  · cases ht with
    | arr hk hr =>
      obtain ⟨f0, h0⟩ := absolute_ok hr []
      refine ⟨f0, fun f hf => ?_⟩
      simp only [aliasText, hk, h0 f hf, Res.bind_ok]
      congr 1
      simp
    | seq hk hn' hr =>
      obtain ⟨f0, h0⟩ := absolute_ok hr []
      refine ⟨f0, fun f hf => ?_⟩
      simp only [aliasText, hk, Kind.cat, hn', Kind.elem?, Option.getD_some, h0 f hf, Res.bind_ok, ne_eq, not_false_eq_true,
        and_self, if_true]
    | any hk ho => exact ⟨0, fun f _ => by simp only [aliasText, hk, ho, if_true]⟩
    | name hc hr =>
      obtain ⟨f0, h0⟩ := absolute_ok hr []
      refine ⟨f0, fun f hf => ?_⟩
      unfold Heap.cat at hc
      cases hk : H.kind it.ty <;> rw [hk] at hc <;> simp only [Kind.cat, reduceCtorEq, false_or, or_false, true_and, false_and, or_self] at hc <;>
        simp only [aliasText, hk, Kind.cat, h2, if_true, h0 f hf, Res.bind_ok, reduceCtorEq, false_and, if_false, hc, ne_eq,
          not_true_eq_false, and_false] <;> simp
  · cases ht <;> simp

/-! ### Examples -/

def idl2 : Heap where
  next := 9
  get := fun t =>
    match t with
    | 0 => ⟨"/int32_t".toList, 4, .num .sint⟩
    | 1 => ⟨"/A/E".toList, 4, .enum [("X".toList, 0), ("_Y".toList, 1)]⟩
    | 2 => ⟨"/int32_t[3]".toList, 12, .arr 3 0⟩
    | 3 => ⟨"/std/vector</A/E>".toList, 24, .vec 1⟩
    | 4 => ⟨"/A/S".toList, 64, .comp [⟨"a".toList, 0, 2⟩, ⟨"e".toList, 12, 1⟩, ⟨"v".toList, 16, 3⟩]⟩
    | 5 => ⟨"/A/E*".toList, 8, .ptr 1⟩
    | 6 => ⟨"/A/P".toList, 8, .comp [⟨"x".toList, 0, 0⟩, ⟨"p".toList, 8, 5⟩]⟩
    | 7 => ⟨"/std/vector</int32_t[3]>".toList, 24, .vec 2⟩
    | _ => ⟨"/int32_t[3][2]".toList, 24, .arr 2 2⟩

theorem ref0 (o : Opts) : Ref idl2 o 0 [] "long".toList [] := .num (c := .sint) (s := "long") rfl (by decide) rfl

/-- the hypotheses of `C48_struct` are met -/
theorem C48_example : ∃ ds, Decls idl2 idlOpts [⟨"a".toList, 0, 2⟩, ⟨"e".toList, 12, 1⟩, ⟨"v".toList, 16, 3⟩] ds ∧
    String.ofList (structText 1 "S".toList ds) =
      "    struct S {\n        long a[3];\n        ::A::E e;\n        ::A::vector__A_E_ v;\n    };\n" := by
  refine ⟨_, .cons (.arr (n := 3) (e := 0) rfl (by decide) (ref0 _)) (.cons (.enum rfl) (.cons (.seq rfl (by decide) (.enum rfl)) .nil)), ?_⟩
  decide +kernel

example : Defining idl2 idlOpts ⟨"/A/S".toList, 4, false⟩ := ⟨.inl rfl, rfl, .inl rfl⟩

/-- a structure with a pointer is refused: the hypotheses of `C48_rejected` are met -/
example : ∃ f0, ∀ f, f0 ≤ f → ∀ s, save idl2 idlOpts f s ⟨"/A/P".toList, 6, false⟩ = .exn .exportError :=
  C48_rejected ⟨.inl rfl, rfl, .inl rfl⟩ (.inr (.inr (.inr (.inr (.inr
    ⟨[⟨"x".toList, 0, 0⟩], ⟨"p".toList, 8, 5⟩, [], _, rfl, .cons (ref0 _) .nil, .ptr (e := 1) rfl⟩)))))

/-- and an alias of a reserved name: `/A/vector__A_E_` is what the vector of `/A/E` is called -/
example : (∃ s, saveAll idl2 idlOpts 5 St.new [⟨"/std/vector</A/E>".toList, 3, false⟩] = .ok s ∧
      save idl2 idlOpts 5 s ⟨"/A/vector__A_E_".toList, 4, true⟩ = .exn .exportError) ∧
    Reserved idl2 idlOpts 5 [⟨"/std/vector</A/E>".toList, 3, false⟩] "/A/vector__A_E_".toList 3 := by
  refine ⟨⟨_, rfl, rfl⟩, ⟨_, List.mem_singleton_self _, fun s => ⟨_, _, rfl⟩⟩⟩

/-- characters of an IDL identifier -/
def IdChar (c : Char) : Prop := c.isAlphanum = true ∨ c = '_'

instance (c : Char) : Decidable (IdChar c) := by unfold IdChar; infer_instance

theorem kind_chars : ∀ x ∈ getTypename "/std/vector".toList, IdChar x := by decide +kernel

theorem normalize_chars {s : Str} (h : ∀ c ∈ s, IdChar c ∨ c ∈ ['<', '>', '/', ',']) : ∀ c ∈ normalizeIDLName s, IdChar c := by
  have hu : ∀ c ∈ s.map under, IdChar c := by
    intro c hc
    obtain ⟨d, hd, rfl⟩ := List.mem_map.mp hc
    unfold under
    split
    · exact .inr rfl
    · rename_i hn
      rcases h d hd with h1 | h1
      · exact h1
      · simp only [List.mem_cons, List.not_mem_nil, or_false] at h1
        exact (hn h1).elim
  have hc : ':' ∉ s.map under := fun e => by
    rcases hu _ e with h | h
    · exact absurd h (by decide)
    · exact absurd h (by decide)
  intro c h
  unfold normalizeIDLName stripLeadingUnderscore at h
  rw [colonGo_plain hc] at h
  simp only [List.map_cons, List.map_nil, joinColons] at h
  refine hu c ?_
  revert h
  generalize s.map under = w
  intro h
  unfold stripOne at h
  split at h
  · exact List.mem_cons_of_mem _ h
  · exact h

/-- **C48, identifiers**: structures, enumerations and sequences are referred to by IDL identifiers, however their templates are
nested, as long as the typelib names are made of identifiers, slashes, angle brackets and commas (and spaces, for elements). -/
theorem C48_identifiers {H : Heap} {o : Opts} {t : TId} {ns b d : Str} (h : Ref H o t ns b d) :
    (∀ fs syms, H.kind t = .comp fs ∨ H.kind t = .enum syms → (∀ c ∈ getTypename (H.name t), IdChar c ∨ c ∈ ['<', '>', '/', ',']) →
      ∀ c ∈ b, IdChar c) ∧
    (∀ e, H.kind t = .vec e → (∀ c ∈ H.name e, IdChar c ∨ c ∈ ['<', '>', '/', ',', ' ']) → ∀ c ∈ b, IdChar c) := by
  obtain ⟨f0, h0⟩ := ident_ok h
  have h1 := h0 (f0 + 1) (by omega)
  constructor
  · intro fs syms hk hn c hc
    have : b = normalizeIDLName (getTypename (H.name t)) := by
      rcases hk with hk | hk <;> simp only [ident, hk, Res.ok.injEq, Ident.mk.injEq] at h1 <;> exact h1.2.1.symm
    rw [this] at hc
    exact normalize_chars hn c hc
  · intro e hk hn c hc
    simp only [ident, hk] at h1
    split at h1
    · injection h1 with h1
      injection h1 with _ h1 _
      rw [← h1] at hc
      revert c; decide +kernel
    · obtain ⟨i, _, h2⟩ := Res.bind_eq_ok.mp h1
      injection h2 with h2
      injection h2 with _ h2 _
      rw [← h2] at hc
      refine normalize_chars ?_ c hc
      intro x hx
      unfold seqName at hx
      simp only [List.mem_append, List.mem_singleton, List.mem_map] at hx
      rcases hx with ((hx | rfl) | ⟨y, hy, rfl⟩) | rfl
      · left
        exact kind_chars x hx
      · exact .inl (.inr rfl)
      · split
        · exact .inl (.inr rfl)
        · rename_i hne
          rcases hn y hy with h3 | h3
          · exact .inl h3
          · simp only [List.mem_cons, List.not_mem_nil, or_false] at h3 ⊢
            rcases h3 with h3 | h3 | h3 | h3 | h3
            · exact .inr (.inl h3)
            · exact .inr (.inr (.inl h3))
            · exact .inr (.inr (.inr (.inl h3)))
            · exact .inr (.inr (.inr (.inr h3)))
            · exact (hne (.inr h3)).elim
      · exact .inl (.inr rfl)

example : Ref idl2 idlOpts 3 "/A/".toList "vector__A_E_".toList [] ∧
    ∀ c ∈ idl2.name 1, IdChar c ∨ c ∈ ['<', '>', '/', ',', ' '] := by
  refine ⟨.seq (H := idl2) (t := 3) (e := 1) rfl (by decide) (.enum rfl), ?_⟩
  decide +kernel

/-- An array as the element of a sequence gives text that is not IDL (an array type has no name in IDL). -/
theorem C48_array_element_counterexample : ∀ s, act idl2 idlOpts 5 s ⟨"/std/vector</int32_t[3]>".toList, 7, false⟩ =
    .ok (.def_ "/".toList "typedef sequence<long[3]> vector__int32_t[3]_;\n".toList (some ("/vector__int32_t[3]_".toList, 7))) := by
  intro s; rfl

/-! ### The theorems on concrete cases -/

example : ∃ ds, ∃ f0, ∀ f, f0 ≤ f → ∀ s, act idl2 idlOpts f s ⟨"/A/S".toList, 4, false⟩ = .ok (.def_
    (idlOpts.nsPrefix ++ getNamespace (idl2.name 4) ++ idlOpts.nsSuffix)
    (structText (path (idlOpts.nsPrefix ++ getNamespace (idl2.name 4) ++ idlOpts.nsSuffix)).length
      (normalizeIDLName (getTypename (idl2.name 4))) ds) none) := by
  obtain ⟨ds, h, _⟩ := C48_example
  exact ⟨ds, C48_struct (it := ⟨"/A/S".toList, 4, false⟩) ⟨.inl rfl, rfl, .inl rfl⟩ rfl h⟩

example := C48_enum (H := idl2) (o := idlOpts) (it := ⟨"/A/E".toList, 1, false⟩) ⟨.inl rfl, rfl, .inl rfl⟩ rfl 3 St.new

theorem ref3 : Ref idl2 idlOpts 3 "/A/".toList "vector__A_E_".toList [] :=
  .seq (H := idl2) (t := 3) (e := 1) rfl (by decide) (.enum rfl)

example := C48_sequence (H := idl2) (o := idlOpts) (it := ⟨"/std/vector</A/E>".toList, 3, false⟩) (e := 1)
  ⟨.inl rfl, rfl, .inl rfl⟩ rfl (by decide) (.enum rfl) ref3 (by decide)

example := C48_builtin (H := idl2) (o := idlOpts) (it := ⟨"/int32_t".toList, 0, false⟩) ⟨.inl rfl, rfl, .inl rfl⟩
  (.inl rfl) 3 St.new

example := C48_usable_or_not ref3

theorem aliasing_ex (n : Str) (t : TId) (h : getNamespace (idl2.name t) ≠ getNamespace n) :
    Aliasing idl2 idlOpts ⟨n, t, true⟩ := ⟨.inl rfl, rfl, .inl h⟩

example := C48_alias_rejected (aliasing_ex "/B/P".toList 5 (by decide)) (.inl ⟨1, rfl⟩) 3 St.new

theorem not_refused4 : ¬ Refused idl2 4 := by
  rintro (⟨e, h⟩ | ⟨n, e, h, _⟩) <;> cases h

/-- the name of the vector of `/A/E` cannot be used for the structure -/
example : ∃ s, save idl2 idlOpts 5 s ⟨"/A/vector__A_E_".toList, 4, true⟩ = .exn .exportError := by
  have hs : saveAll idl2 idlOpts 5 St.new [⟨"/std/vector</A/E>".toList, 3, false⟩] = .ok _ := rfl
  have ha : Aliasing idl2 idlOpts ⟨"/A/vector__A_E_".toList, 4, true⟩ := ⟨.inl rfl, rfl, .inr (by decide)⟩
  have hr : Reserved idl2 idlOpts 5 [⟨"/std/vector</A/E>".toList, 3, false⟩] "/A/vector__A_E_".toList 3 :=
    ⟨_, List.mem_singleton_self _, fun s => ⟨_, _, rfl⟩⟩
  refine ⟨_, (C48_reserved hs ha not_refused4 hr).1 ?_⟩
  rintro ⟨it, hit, h⟩
  rw [List.mem_singleton] at hit
  subst hit
  obtain ⟨ns, text, h⟩ := h St.new
  injection h with h
  injection h with _ _ h
  injection h with h
  injection h with _ h
  exact absurd h (by decide)

example := C48_alias (aliasing_ex "/B/R".toList 4 (by decide)) not_refused4 (by decide) (.name (.inr (.inr (.inl rfl))) (.comp rfl))

example := C48_identifiers ref3

end Verif.Idl
