import Verif.TlbText
import Verif.TypeBuilderParse

/-! Property C38, second part: what the exported document contains. -/

namespace Verif.Tlb
open Verif Verif.Names Verif.Graph Verif.Registry Verif.TypeBuilder Verif.StdMap Verif.Merge Verif.Xml

/-! ### Specification: the elements -/
set_option linter.unusedSimpArgs false

def metaNodes (m : Meta.MetaData) : List Node :=
  m.flatMap (fun p => if p.2.isEmpty then [.elem "metadata".toList [("key".toList, p.1)] []]
    else p.2.map (fun v => .elem "metadata".toList [("key".toList, p.1)] [.cdata v]))

def fieldNode (p : (Str × Nat × Str) × Meta.MetaData) : Node :=
  .elem "field".toList [("name".toList, p.1.1), ("type".toList, p.1.2.2), ("offset".toList, natStr p.1.2.1)] (metaNodes p.2)

def symbolNode (p : Str × Int) : Node := .elem "value".toList [("symbol".toList, p.1), ("value".toList, intStr p.2)] []

def srcNode (src : Str) : List (Str × Str) := if src = [] then [] else [("source_id".toList, src)]

/-- the element that describes a type of the given definition, metadata and source -/
def typeNode (d : Str × Nat × Desc) (own : Meta.MetaData) (fms : List Meta.MetaData) (src : Str) : Node :=
  match d with
  | (n, sz, .null) => .elem "null".toList ([("name".toList, n)] ++ srcNode src) (metaNodes own)
  | (n, sz, .opaque) => .elem "opaque".toList ([("name".toList, n), ("size".toList, natStr sz)] ++ srcNode src) (metaNodes own)
  | (n, sz, .num c) => .elem "numeric".toList ([("name".toList, n), ("category".toList, catStr c), ("size".toList, natStr sz)] ++
      srcNode src) (metaNodes own)
  | (n, sz, .enum syms) => .elem "enum".toList ([("name".toList, n)] ++ srcNode src) (syms.map symbolNode ++ metaNodes own)
  | (n, sz, .arr k e) => .elem "array".toList ([("name".toList, n), ("of".toList, e), ("dimension".toList, natStr k)] ++
      srcNode src) (metaNodes own)
  | (n, sz, .ptr e) => .elem "pointer".toList ([("name".toList, n), ("of".toList, e)] ++ srcNode src) (metaNodes own)
  | (n, sz, .vec e) => .elem "container".toList ([("name".toList, n), ("of".toList, e), ("size".toList, natStr sz),
      ("kind".toList, vectorKind)] ++ srcNode src) (metaNodes own)
  | (n, sz, .str e) => .elem "container".toList ([("name".toList, n), ("of".toList, e), ("size".toList, natStr sz),
      ("kind".toList, stringKind)] ++ srcNode src) (metaNodes own)
  | (n, sz, .comp fs) => .elem "compound".toList ([("name".toList, n), ("size".toList, natStr sz)] ++ srcNode src)
      ((fs.zip fms).map fieldNode ++ metaNodes own)

def aliasNode (n target : Str) : Node := .elem "alias".toList [("name".toList, n), ("source".toList, target)] []

/-- the element for an entry of the registry -/
def entryNode (H : Heap) (M : Metas) (p : Str × Entry) : Node :=
  if isAlias H p then aliasNode p.1 (H.name p.2.ty)
  else typeNode (definition H p.2.ty) (M.own p.2.ty) (M.fields p.2.ty) p.2.source

/-! ### Specification: the strings an XML attribute or a CDATA section can hold -/

/-- strings written without escaping: no quote, `<`, `&`, tab, end of line, or character that XML forbids -/
def Raw (v : Str) : Prop := ∀ c ∈ v, plainChar c = true

/-- strings written through `xmlEscape`: `<` is allowed too -/
def Escapable (v : Str) : Prop := ∀ c ∈ v, plainChar c = true ∨ c = '<'

def CleanMeta (m : Meta.MetaData) : Prop := ∀ p ∈ m, Raw p.1 ∧ ∀ v ∈ p.2, CDataText v

/-- the names of components and fields of a type can be written -/
def CleanDesc : Desc → Prop
  | .enum syms => ∀ p ∈ syms, Raw p.1
  | .arr _ e => Escapable e
  | .ptr e => Escapable e
  | .vec e => Escapable e
  | .str e => Escapable e
  | .comp fs => ∀ f ∈ fs, Raw f.1 ∧ Escapable f.2.2
  | _ => True

/-- the kinds of types whose name is not escaped -/
def Unescaped : Desc → Bool
  | .null => true
  | .num _ => true
  | .enum _ => true
  | _ => false

/-- what can be written about an entry -/
structure Clean (H : Heap) (M : Metas) (p : Str × Entry) : Prop where
  name : Escapable p.1
  target : Escapable (H.name p.2.ty)
  raw : isAlias H p = false → Unescaped (definition H p.2.ty).2.2 = true → Raw (H.name p.2.ty)
  desc : isAlias H p = false → CleanDesc (definition H p.2.ty).2.2
  own : isAlias H p = false → CleanMeta (M.own p.2.ty)
  fields : isAlias H p = false → ∀ m ∈ M.fields p.2.ty, CleanMeta m
  source : isAlias H p = false → Escapable p.2.source

/-! ### Escaping -/

/-- the text of a character -/
def escChar (c : Char) : Str := if c = '<' then "&lt;".toList else if c = '>' then "&gt;".toList else [c]

def marks (s : Str) : Nat := s.countP (fun c => c == '<' || c == '>')

theorem escFirst_spec (s : Str) :
    (escFirst s = none ∧ marks s = 0 ∧ s.flatMap escChar = s) ∨
    (∃ s', escFirst s = some s' ∧ marks s = marks s' + 1 ∧ s'.flatMap escChar = s.flatMap escChar) := by
  induction s with
  | nil => exact Or.inl ⟨rfl, rfl, rfl⟩
  | cons c r ih =>
    unfold escFirst
    by_cases h1 : c = '<'
    · right
      subst h1
      refine ⟨_, by rw [if_pos rfl], ?_, ?_⟩
      · rw [show "&lt;".toList = ['&', 'l', 't', ';'] from rfl]
        simp [marks]
      · rw [show "&lt;".toList = ['&', 'l', 't', ';'] from rfl]
        simp [escChar]
    · rw [if_neg h1]
      by_cases h2 : c = '>'
      · right
        subst h2
        refine ⟨_, by rw [if_pos rfl], ?_, ?_⟩
        · rw [show "&gt;".toList = ['&', 'g', 't', ';'] from rfl]
          simp [marks]
        · rw [show "&gt;".toList = ['&', 'g', 't', ';'] from rfl]
          simp [escChar]
      · rw [if_neg h2]
        have he : escChar c = [c] := by simp [escChar, h1, h2]
        have hm : ∀ x : Str, marks (c :: x) = marks x := by
          intro x; unfold marks; rw [List.countP_cons]; simp [h1, h2]
        rcases ih with ⟨a, b, d⟩ | ⟨s', a, b, d⟩
        · left
          refine ⟨by rw [a]; rfl, by rw [hm]; exact b, ?_⟩
          rw [List.flatMap_cons, d, he]; rfl
        · right
          refine ⟨c :: s', by rw [a]; rfl, by rw [hm, hm]; exact b, ?_⟩
          rw [List.flatMap_cons, List.flatMap_cons, d]

theorem escLoop_spec (f : Nat) : ∀ s : Str, marks s < f → escLoop f s = s.flatMap escChar := by
  induction f with
  | zero => intro s h; exact absurd h (Nat.not_lt_zero _)
  | succ f ih =>
    intro s h
    unfold escLoop
    rcases escFirst_spec s with ⟨a, b, d⟩ | ⟨s', a, b, d⟩
    · rw [a]; exact d.symm
    · rw [a]
      simp only
      rw [ih s' (by omega), d]

/-- the loop of `xmlEscape` replaces every `<` and `>` -/
theorem xmlEscape_eq (s : Str) : xmlEscape s = s.flatMap escChar := by
  apply escLoop_spec
  have : marks s ≤ s.length := List.countP_le_length
  omega

theorem reads_escape {v : Str} (h : Escapable v) : Reads (xmlEscape v) v := by
  rw [xmlEscape_eq]
  induction v with
  | nil => exact Reads.nil
  | cons c r ih =>
    rw [List.flatMap_cons]
    refine Reads.append (v := [c]) ?_ (ih (fun x hx => h x (by simp [hx])))
    unfold escChar
    split
    · rename_i e; subst e
      exact Reads.entity (e := ['l', 't']) (by decide) (by decide)
    · split
      · rename_i e; subst e
        exact Reads.entity (e := ['g', 't']) (by decide) (by decide)
      · rename_i h1 h2
        refine Reads.plain ?_
        intro x hx
        rw [List.mem_singleton] at hx
        rw [hx]
        rcases h c (by simp) with h3 | h3
        · exact h3
        · exact absurd h3 h1

theorem digit_plain {c : Char} (h : c.isDigit = true) : plainChar c = true := by
  simp only [Char.isDigit, Bool.and_eq_true, decide_eq_true_eq, ge_iff_le, UInt32.le_iff_toNat_le] at h
  have e : c.val.toNat = c.toNat := rfl
  rw [e] at h
  obtain ⟨h1, h2⟩ := h
  have h1' : 48 ≤ c.toNat := h1
  have h2' : c.toNat ≤ 57 := h2
  have hx := xmlChar_of_range (c := c) (by omega) (by omega)
  have hne : ∀ d : Char, d.toNat < 48 ∨ 57 < d.toNat → c ≠ d := by
    rintro d hd rfl
    omega
  unfold plainChar ws
  simp only [hx, Bool.true_and, Bool.or_eq_true, Bool.and_eq_true, bne_iff_ne, Bool.not_eq_true', Bool.or_eq_false_iff,
    beq_eq_false_iff_ne]
  left
  exact ⟨⟨⟨hne _ (by decide), hne _ (by decide)⟩, hne _ (by decide)⟩,
    ⟨⟨hne _ (by decide), hne _ (by decide)⟩, hne _ (by decide)⟩, hne _ (by decide)⟩

theorem natStr_raw (n : Nat) : Raw (natStr n) := fun c hc => digit_plain (natStr_digits n c hc)

theorem intStr_eq (i : Int) : intStr i = if i < 0 then '-' :: natStr i.natAbs else natStr i.natAbs := by
  cases i with
  | ofNat n =>
    rw [if_neg (by simp)]
    rfl
  | negSucc n =>
    rw [if_pos (by simp [Int.negSucc_lt_zero])]
    unfold intStr natStr
    rw [show (toString (Int.negSucc n)) = "-" ++ toString (n + 1) from rfl, String.toList_append]
    rfl

theorem intStr_raw (i : Int) : Raw (intStr i) := by
  rw [intStr_eq]
  split
  · intro c hc
    rcases List.mem_cons.mp hc with rfl | hc
    · decide
    · exact natStr_raw _ c hc
  · exact natStr_raw _

/-! ### The text of each element -/

theorem isWs_space : IsWs [' '] := ⟨by simp, by decide⟩
theorem isWs_two : IsWs "  ".toList := ⟨by decide, by decide⟩

theorem AttrsOk.one {n : String} {txt v : Str} {as : List At} {vs : List (Str × Str)} (hn : IsName n.toList)
    (h : Reads txt v) (h' : AttrsOk as vs) : AttrsOk (at_ n txt :: as) ((n.toList, v) :: vs) :=
  AttrsOk.cons (a := at_ n txt) isWs_space hn h (by simp [at_]) h'

theorem AttrsOk.two {n : String} {txt v : Str} {as : List At} {vs : List (Str × Str)} (hn : IsName n.toList)
    (h : Reads txt v) (h' : AttrsOk as vs) : AttrsOk (⟨"  ".toList, n.toList, txt⟩ :: as) ((n.toList, v) :: vs) :=
  AttrsOk.cons (a := ⟨"  ".toList, n.toList, txt⟩) isWs_two hn h (by show '\r' ∉ "  ".toList; decide) h'

theorem emits_key (p : Str × List Str) (hk : Raw p.1) (hv : ∀ v ∈ p.2, CDataText v) :
    Emits (emitKey p) (if p.2.isEmpty then [.elem "metadata".toList [("key".toList, p.1)] []]
      else p.2.map (fun v => .elem "metadata".toList [("key".toList, p.1)] [.cdata v])) := by
  have hn : IsName "metadata".toList := ⟨by decide, by decide⟩
  have ha : AttrsOk [at_ "key" p.1] [("key".toList, p.1)] := .one ⟨by decide, by decide⟩ (Reads.plain hk) .nil
  unfold emitKey
  split
  · exact Emits.empty hn ha (by simp) (by decide) (by decide)
  · have e : ∀ l : List Str, l.map (fun v => Node.elem "metadata".toList [("key".toList, p.1)] [.cdata v]) =
        l.flatMap (fun v => [Node.elem "metadata".toList [("key".toList, p.1)] [.cdata v]]) := by
      intro l; induction l with
      | nil => rfl
      | cons a r ih => rw [List.map_cons, List.flatMap_cons, ih]; rfl
    rw [e]
    apply Emits.flatMap
    intro v hm
    have h1 := Emits.elem hn ha (by simp) (trail := []) (by simp) (by simp) (Emits.cdata (hv v hm))
    have h2 := h1.append (Emits.ws (w := ['\n']) (by decide) (by decide))
    simp only [List.append_nil] at h2
    have et : tagTxt "metadata" [at_ "key" p.1] [] ++ ">".toList ++ "<![CDATA[".toList ++ v ++ "]]>".toList ++
        closeTxt "metadata" ++ ['\n'] = tagTxt "metadata" [at_ "key" p.1] [] ++ ['>'] ++
        ("<![CDATA[".toList ++ v ++ "]]>".toList) ++ closeTxt "metadata" ++ ['\n'] := by
      rw [show ">".toList = ['>'] from rfl]
      simp only [List.append_assoc]
    rw [et]
    exact h2

theorem emits_meta {m : Meta.MetaData} (h : CleanMeta m) : Emits (emitMetaData m) (metaNodes m) :=
  Emits.flatMap _ _ m (fun p hp => emits_key p (h p hp).1 (h p hp).2)

/-- indentation -/
def Indent (ind : Str) : Prop := ∀ c ∈ ind, c = ' '

theorem Indent.emits {ind : Str} (h : Indent ind) : Emits ind [] :=
  Emits.ws (fun c hc => by rw [h c hc]; decide) (fun hc => by have := h _ hc; revert this; decide)

theorem Indent.sub {ind : Str} (h : Indent ind) : Indent (ind ++ "  ".toList) := by
  intro c hc
  rcases List.mem_append.mp hc with hc | hc
  · exact h c hc
  · revert hc; rw [show "  ".toList = [' ', ' '] from rfl]; simp

theorem nl_emits : Emits ['\n'] [] := Emits.ws (by decide) (by decide)

/-- an element whose content ends with metadata: the layout of all type elements -/
theorem emits_body {name : String} (hn : IsName name.toList) {as : List At} {vs : List (Str × Str)} (ha : AttrsOk as vs)
    (hnd : (vs.map (·.1)).Nodup) {trail : Str} (ht : ∀ c ∈ trail, ws c = true) (htr : '\r' ∉ trail) {ind inner : Str}
    (hi : Indent ind) {kids : List Node} (hin : Emits inner kids) {m : Meta.MetaData} (hm : CleanMeta m) :
    Emits (tagTxt name as trail ++ ">\n".toList ++ inner ++ emitEnd ind name m) [.elem name.toList vs (kids ++ metaNodes m)] := by
  have h1 := ((((nl_emits.append hin).append hi.emits).append (emits_meta hm)).append nl_emits).append hi.emits
  simp only [List.nil_append, List.append_nil] at h1
  have h2 := Emits.elem hn ha hnd ht htr h1
  have e : tagTxt name as trail ++ ">\n".toList ++ inner ++ emitEnd ind name m =
      tagTxt name as trail ++ ['>'] ++ (['\n'] ++ inner ++ ind ++ emitMetaData m ++ ['\n'] ++ ind) ++ closeTxt name := by
    rw [show ">\n".toList = ['>'] ++ ['\n'] from rfl]
    unfold emitEnd
    simp only [List.append_assoc]
  rw [e]
  exact h2

theorem attrs_src {src : Str} (h : Escapable src) : AttrsOk (srcAttr src) (srcNode src) := by
  unfold srcAttr srcNode
  split
  · exact .nil
  · exact .one ⟨by decide, by decide⟩ (reads_escape h) .nil

theorem srcTrail_ws (src : Str) : ∀ c ∈ srcTrail src, ws c = true := by
  unfold srcTrail; split <;> decide

theorem srcTrail_cr (src : Str) : '\r' ∉ srcTrail src := by
  unfold srcTrail; split <;> decide

theorem nodup_src {l : List (Str × Str)} (h : (l.map (·.1)).Nodup) (hs : "source_id".toList ∉ l.map (·.1)) (src : Str) :
    ((l ++ srcNode src).map (·.1)).Nodup := by
  unfold srcNode
  split
  · rw [List.append_nil]; exact h
  · rw [List.map_append, List.nodup_append]
    refine ⟨h, by simp, ?_⟩
    intro a ha b hb
    simp only [List.map_cons, List.map_nil, List.mem_singleton] at hb
    rintro rfl
    rw [hb] at ha
    exact hs ha

theorem emits_field {H : Heap} {ind : Str} (hi : Indent ind) (p : FieldD × Meta.MetaData) (h1 : Raw p.1.name)
    (h2 : Escapable (H.name p.1.ty)) (h3 : CleanMeta p.2) :
    Emits (emitField H ind p) [fieldNode ((p.1.name, p.1.offset, H.name p.1.ty), p.2)] := by
  have ha : AttrsOk [at_ "name" p.1.name, at_ "type" (xmlEscape (H.name p.1.ty)), at_ "offset" (natStr p.1.offset)]
      [("name".toList, p.1.name), ("type".toList, H.name p.1.ty), ("offset".toList, natStr p.1.offset)] :=
    .one ⟨by decide, by decide⟩ (Reads.plain h1) (.one ⟨by decide, by decide⟩ (reads_escape h2)
      (.one ⟨by decide, by decide⟩ (Reads.plain (natStr_raw _)) .nil))
  have hb := emits_body (name := "field") ⟨by decide, by decide⟩ ha (by simp only [List.map_cons, List.map_nil]; decide)
    (trail := []) (by simp) (by simp) hi Emits.nil h3
  have := (hi.emits.append hb).append nl_emits
  simp only [List.nil_append, List.append_nil] at this
  unfold emitField emitEnd at *
  simp only [List.append_assoc] at this ⊢
  exact this

theorem emits_symbol {ind : Str} (hi : Indent ind) (p : Str × Int) (h : Raw p.1) : Emits (emitSymbol ind p) [symbolNode p] := by
  have ha : AttrsOk [at_ "symbol" p.1, at_ "value" (intStr p.2)] [("symbol".toList, p.1), ("value".toList, intStr p.2)] :=
    .one ⟨by decide, by decide⟩ (Reads.plain h) (.one ⟨by decide, by decide⟩ (Reads.plain (intStr_raw _)) .nil)
  have hb := Emits.empty (name := "value") ⟨by decide, by decide⟩ ha (by simp only [List.map_cons, List.map_nil]; decide)
    (trail := []) (by simp) (by simp)
  have := (hi.emits.append hb).append nl_emits
  simp only [List.nil_append, List.append_nil] at this
  unfold emitSymbol
  rw [show "/>\n".toList = "/>".toList ++ ['\n'] from rfl]
  simp only [List.append_assoc] at this ⊢
  exact this

theorem attrs_indirect {H : Heap} {t e : TId} (h1 : Escapable (H.name t)) (h2 : Escapable (H.name e)) :
    AttrsOk (indirectAttrs H t e) [("name".toList, H.name t), ("of".toList, H.name e)] :=
  .two ⟨by decide, by decide⟩ (reads_escape h1) (.one ⟨by decide, by decide⟩ (reads_escape h2) .nil)

theorem map_flatMap {α : Type} (f : α → Node) (l : List α) : l.map f = l.flatMap (fun x => [f x]) := by
  induction l with
  | nil => rfl
  | cons a r ih => rw [List.map_cons, List.flatMap_cons, ih]; rfl

theorem zip_names (H : Heap) (fs : List FieldD) (ms : List Meta.MetaData) :
    ((fs.map (fun f => (f.name, f.offset, H.name f.ty))).zip ms).map fieldNode =
      (fs.zip ms).map (fun p => fieldNode ((p.1.name, p.1.offset, H.name p.1.ty), p.2)) := by
  induction fs generalizing ms with
  | nil => rfl
  | cons f r ih =>
    cases ms with
    | nil => rfl
    | cons m q => simp only [List.map_cons, List.zip_cons_cons, ih]

theorem emits_type {H : Heap} {M : Metas} {ind src : Str} {t : TId} (hi : Indent ind) (h1 : Escapable (H.name t))
    (h2 : Unescaped (definition H t).2.2 = true → Raw (H.name t)) (h3 : CleanDesc (definition H t).2.2)
    (h4 : CleanMeta (M.own t)) (h5 : ∀ m ∈ M.fields t, CleanMeta m) (h6 : Escapable src) :
    Emits (emitType H M ind src t) [typeNode (definition H t) (M.own t) (M.fields t) src] := by
  have hs := attrs_src h6
  have ht := srcTrail_ws src
  have hr := srcTrail_cr src
  unfold emitType definition at *
  have nm : IsName "name".toList := ⟨by decide, by decide⟩
  have sz : AttrsOk [at_ "size" (natStr (H.size t))] [("size".toList, natStr (H.size t))] :=
    .one ⟨by decide, by decide⟩ (Reads.plain (natStr_raw _)) .nil
  have kk : ∀ k : Str, Escapable k → AttrsOk [at_ "kind" (xmlEscape k)] [("kind".toList, k)] :=
    fun k hk => .one ⟨by decide, by decide⟩ (reads_escape hk) .nil
  cases hk : H.kind t with
  | null =>
    rw [hk] at h2 h3
    have ha := (AttrsOk.two nm (Reads.plain (h2 rfl)) .nil).append hs
    have := emits_body (name := "null") ⟨by decide, by decide⟩ ha (nodup_src (by simp) (by simp only [List.map_cons, List.map_nil]; decide) src)
      ht hr hi Emits.nil h4
    simp only [List.nil_append, List.append_nil] at this
    exact this
  | «opaque» =>
    have ha := (AttrsOk.one nm (reads_escape h1) sz).append hs
    have := emits_body (name := "opaque") ⟨by decide, by decide⟩ ha (nodup_src (by simp only [List.map_cons, List.map_nil]; decide)
      (by simp only [List.map_cons, List.map_nil]; decide) src) ht hr hi Emits.nil h4
    simp only [List.nil_append, List.append_nil] at this
    exact this
  | num c =>
    rw [hk] at h2 h3
    have hc : Raw (catStr c) := by cases c <;> unfold Raw catStr <;> decide
    have ha := (AttrsOk.one nm (Reads.plain (h2 rfl)) (.one (n := "category") ⟨by decide, by decide⟩ (Reads.plain hc) sz)).append hs
    have := emits_body (name := "numeric") ⟨by decide, by decide⟩ ha (nodup_src (by simp only [List.map_cons, List.map_nil]; decide)
      (by simp only [List.map_cons, List.map_nil]; decide) src) ht hr hi Emits.nil h4
    simp only [List.nil_append, List.append_nil] at this
    exact this
  | «enum» syms =>
    rw [hk] at h2 h3
    have ha := (AttrsOk.one nm (Reads.plain (h2 rfl)) .nil).append hs
    have hb := Emits.flatMap (emitSymbol (ind ++ "  ".toList)) (fun p => [symbolNode p]) syms
      (fun p hp => emits_symbol hi.sub p (h3 p hp))
    rw [← map_flatMap] at hb
    have := emits_body (name := "enum") ⟨by decide, by decide⟩ ha (nodup_src (by simp) (by simp only [List.map_cons, List.map_nil]; decide) src)
      ht hr hi hb h4
    exact this
  | arr d e =>
    rw [hk] at h2 h3
    have ha := ((attrs_indirect (H := H) (t := t) h1 h3).append (.one (n := "dimension") ⟨by decide, by decide⟩
      (Reads.plain (natStr_raw d)) .nil)).append hs
    have := emits_body (name := "array") ⟨by decide, by decide⟩ ha (nodup_src (by
      simp only [List.map_cons, List.map_nil, List.cons_append, List.nil_append]; decide)
      (by simp only [List.map_cons, List.map_nil, List.cons_append, List.nil_append]; decide) src) ht hr hi Emits.nil h4
    simp only [List.nil_append, List.append_nil] at this
    exact this
  | ptr e =>
    rw [hk] at h2 h3
    have ha := (attrs_indirect (H := H) (t := t) h1 h3).append hs
    have := emits_body (name := "pointer") ⟨by decide, by decide⟩ ha (nodup_src (by
      simp only [List.map_cons, List.map_nil, List.cons_append, List.nil_append]; decide)
      (by simp only [List.map_cons, List.map_nil, List.cons_append, List.nil_append]; decide) src) ht hr hi Emits.nil h4
    simp only [List.nil_append, List.append_nil] at this
    exact this
  | vec e =>
    rw [hk] at h2 h3
    have ha := ((attrs_indirect (H := H) (t := t) h1 h3).append (sz.append (kk vectorKind (by
      rw [show vectorKind = "/std/vector".toList from rfl]; unfold Escapable; decide)))).append hs
    have := emits_body (name := "container") ⟨by decide, by decide⟩ ha (nodup_src (by
      simp only [List.map_cons, List.map_nil, List.cons_append, List.nil_append]; decide)
      (by simp only [List.map_cons, List.map_nil, List.cons_append, List.nil_append]; decide) src) ht hr hi Emits.nil h4
    simp only [List.nil_append, List.append_nil] at this
    exact this
  | str e =>
    rw [hk] at h2 h3
    have ha := ((attrs_indirect (H := H) (t := t) h1 h3).append (sz.append (kk stringKind (by
      rw [show stringKind = "/std/string".toList from rfl]; unfold Escapable; decide)))).append hs
    have := emits_body (name := "container") ⟨by decide, by decide⟩ ha (nodup_src (by
      simp only [List.map_cons, List.map_nil, List.cons_append, List.nil_append]; decide)
      (by simp only [List.map_cons, List.map_nil, List.cons_append, List.nil_append]; decide) src) ht hr hi Emits.nil h4
    simp only [List.nil_append, List.append_nil] at this
    exact this
  | comp fs =>
    rw [hk] at h2 h3
    have ha := (AttrsOk.one nm (reads_escape h1) sz).append hs
    have hb := Emits.flatMap (emitField H (ind ++ "  ".toList))
      (fun p => [fieldNode ((p.1.name, p.1.offset, H.name p.1.ty), p.2)]) (fs.zip (M.fields t)) (fun p hp => by
        have hf := h3 (p.1.name, p.1.offset, H.name p.1.ty) (List.mem_map.mpr ⟨p.1, (List.of_mem_zip hp).1, rfl⟩)
        exact emits_field hi.sub p hf.1 hf.2 (h5 p.2 (List.of_mem_zip hp).2))
    rw [← map_flatMap, ← zip_names] at hb
    have := emits_body (name := "compound") ⟨by decide, by decide⟩ ha (nodup_src (by simp only [List.map_cons, List.map_nil]; decide)
      (by simp only [List.map_cons, List.map_nil]; decide) src) ht hr hi hb h4
    exact this

theorem emits_entry {H : Heap} {M : Metas} {p : Str × Entry} (h : Clean H M p) : Emits (emitEntry H M p) [entryNode H M p] := by
  have hi : Indent "  ".toList := by
    intro c hc; revert hc; rw [show "  ".toList = [' ', ' '] from rfl]; simp
  unfold emitEntry entryNode
  cases ha : isAlias H p with
  | true =>
    simp only [if_true]
    have hat : AttrsOk [at_ "name" (xmlEscape p.1), at_ "source" (xmlEscape (H.name p.2.ty))]
        [("name".toList, p.1), ("source".toList, H.name p.2.ty)] :=
      .one ⟨by decide, by decide⟩ (reads_escape h.name) (.one ⟨by decide, by decide⟩ (reads_escape h.target) .nil)
    have hb := Emits.empty (name := "alias") ⟨by decide, by decide⟩ hat (by simp only [List.map_cons, List.map_nil]; decide)
      (trail := []) (by simp) (by simp)
    have := (hi.emits.append hb).append nl_emits
    simp only [List.nil_append, List.append_nil] at this
    rw [show "/>\n".toList = "/>".toList ++ ['\n'] from rfl]
    simp only [List.append_assoc] at this ⊢
    exact this
  | false =>
    simp only [Bool.false_eq_true, if_false]
    have := (hi.emits.append (emits_type hi h.target (h.raw ha) (h.desc ha) (h.own ha) (h.fields ha) (h.source ha))).append nl_emits
    simp only [List.nil_append, List.append_nil] at this
    exact this

/-- **C38, the text.** The exported text is a well-formed document whose root holds, in order, one element for each
exported entry; every name, size, offset, symbol, value, metadata key and value is read back as it was, including names
with the `<` and `>` of templates. What is required of the strings (`Clean`) is what XML requires, plus the absence of
`&`, quotes, and for numerics, enums, fields, symbols and metadata keys of `<`, which the exporter does not escape. -/
theorem C38_document {H : Heap} {M : Metas} {l : List (Str × Entry)} (h : ∀ p ∈ l, Clean H M p) :
    parseDoc (emitDoc H M l) = some (.elem "typelib".toList [] (l.map (entryNode H M))) := by
  have h1 := Emits.flatMap (emitEntry H M) (fun p => [entryNode H M p]) l (fun p hp => emits_entry (h p hp))
  rw [← map_flatMap] at h1
  have h2 := nl_emits.append h1
  rw [List.nil_append] at h2
  have := parseDoc_doc (name := "typelib") ⟨by decide, by decide⟩ h2
  unfold emitDoc
  rw [show ">\n".toList = ['>'] ++ ['\n'] from rfl]
  simp only [List.append_assoc] at this ⊢
  exact this

end Verif.Tlb
