import Verif.TlbDoc
import Verif.TypeBuilderProps

/-! Property C38, third part: what the importer reads in the elements of the exporter. -/

namespace Verif.Tlb
open Verif Verif.Names Verif.Graph Verif.Registry Verif.TypeBuilder Verif.StdMap Verif.Merge Verif.Xml

/-! ### Numbers -/

theorem natStr_val (d : Nat) : Nat.ofDigitChars 10 (natStr d) 0 = d := by
  unfold natStr
  rw [show toString d = d.repr from rfl, Nat.toList_repr]
  exact Nat.ofDigitChars_toDigits (by decide) (by decide)

theorem natStr_ne (d : Nat) : natStr d ≠ [] := by
  unfold natStr
  rw [show toString d = d.repr from rfl, Nat.toList_repr]
  exact Nat.toDigits_ne_nil

theorem decimal_natStr (d : Nat) : decimal (natStr d) = some d := by
  unfold decimal
  have h1 : (natStr d).isEmpty = false := by
    cases h : natStr d with
    | nil => exact absurd h (natStr_ne d)
    | cons c r => rfl
  have h2 : (natStr d).all Char.isDigit = true := List.all_eq_true.mpr (natStr_digits d)
  rw [h1, h2, natStr_val]
  rfl

theorem signed_natStr (d : Nat) : signed (natStr d) = some (false, d) := by
  have h := natStr_digits d
  have hd := decimal_natStr d
  generalize natStr d = s at h hd
  unfold signed
  split
  · exact absurd (h '-' (by simp)) (by decide)
  · exact absurd (h '+' (by simp)) (by decide)
  · rw [hd]; rfl

theorem castSize_natStr {d : Nat} (h : d < TypeBuilder.W) : castSize (natStr d) = .ok d := by
  unfold castSize
  rw [signed_natStr]
  simp [h]

theorem castInt_intStr {i : Int} (h1 : -(2 ^ 31 : Int) ≤ i) (h2 : i < 2 ^ 31) : castInt (intStr i) = .ok i := by
  unfold castInt
  rw [intStr_eq]
  by_cases hn : i < 0
  · rw [if_pos hn]
    have : signed ('-' :: natStr i.natAbs) = some (true, i.natAbs) := by
      unfold signed
      simp only [decimal_natStr]
      rfl
    rw [this]
    have e : -((i.natAbs : Int)) = i := by omega
    simp only [if_true, e]
    rw [if_pos ⟨h1, h2⟩]
  · rw [if_neg hn, signed_natStr]
    have e : ((i.natAbs : Int)) = i := by omega
    simp only [Bool.false_eq_true, if_false, e]
    rw [if_pos ⟨h1, h2⟩]

theorem castInt_natStr {d : Nat} (h : d < 2 ^ 31) : castInt (natStr d) = .ok (d : Int) := by
  unfold castInt
  rw [signed_natStr]
  simp only [Bool.false_eq_true, if_false]
  rw [if_pos (by omega)]

/-! ### Metadata -/

theorem upsert_end {β : Type} (n : Str) (f : Option β → β) (m : SMap β) (h : ∀ p ∈ m, strLt p.1 n = true) :
    upsert n f m = m ++ [(n, f none)] := by
  induction m with
  | nil => rfl
  | cons p r ih =>
    obtain ⟨k, b⟩ := p
    have hk : strLt k n = true := h (k, b) (by simp)
    have h1 : n ≠ k := by rintro rfl; rw [strLt_irrefl] at hk; cases hk
    unfold upsert
    rw [if_neg h1, strLt_asymm hk, ih (fun p hp => h p (by simp [hp]))]
    rfl

theorem upsert_last {β : Type} (n : Str) (f : Option β → β) (m : SMap β) (b : β) (h : ∀ p ∈ m, strLt p.1 n = true) :
    upsert n f (m ++ [(n, b)]) = m ++ [(n, f (some b))] := by
  induction m with
  | nil => simp [upsert]
  | cons p r ih =>
    obtain ⟨k, c⟩ := p
    have hk : strLt k n = true := h (k, c) (by simp)
    have h1 : n ≠ k := by rintro rfl; rw [strLt_irrefl] at hk; cases hk
    rw [List.cons_append]
    unfold upsert
    rw [if_neg h1, strLt_asymm hk, ih (fun p hp => h p (by simp [hp]))]
    rfl

theorem sinsert_end (n : Str) (l : List Str) (h : ∀ v ∈ l, strLt v n = true) : sinsert n l = l ++ [n] := by
  induction l with
  | nil => rfl
  | cons k r ih =>
    have hk : strLt k n = true := h k (by simp)
    have h1 : n ≠ k := by rintro rfl; rw [strLt_irrefl] at hk; cases hk
    unfold sinsert
    rw [if_neg h1, strLt_asymm hk, ih (fun p hp => h p (by simp [hp]))]
    rfl

theorem loadMeta_append (a b : List Node) : ∀ m, loadMeta (a ++ b) m = (loadMeta a m >>= fun m => loadMeta b m) := by
  induction a with
  | nil => intro m; rfl
  | cons x r ih =>
    intro m
    show (loadMeta1 m x >>= loadMeta (r ++ b)) = ((loadMeta1 m x >>= loadMeta r) >>= fun m => loadMeta b m)
    cases h : loadMeta1 m x with
    | ok m' => exact ih m'
    | exn e => rfl
    | ub => rfl
    | fuel => rfl

/-- elements of other names are skipped -/
theorem loadMeta_skip (a : List Node) (h : ∀ x ∈ a, Node.name x ≠ "metadata".toList) (m : Meta.MetaData) :
    loadMeta a m = .ok m := by
  induction a with
  | nil => rfl
  | cons x r ih =>
    have hx : loadMeta1 m x = .ok m := by
      have := h x (by simp)
      cases x with
      | cdata v => rfl
      | elem n as ch => unfold loadMeta1; exact if_pos this
    show (loadMeta1 m x >>= loadMeta r) = _
    rw [hx]
    exact ih (fun y hy => h y (by simp [hy]))

def metaNode (k v : Str) : Node := .elem "metadata".toList [("key".toList, k)] [.cdata v]

theorem loadMeta1_value (m : Meta.MetaData) (k v : Str) :
    loadMeta1 m (metaNode k v) = .ok (Meta.add (Meta.addSet m k []) k v) := rfl

theorem loadMeta1_empty (m : Meta.MetaData) (k : Str) :
    loadMeta1 m (.elem "metadata".toList [("key".toList, k)] []) = .ok (Meta.addSet m k []) := rfl

theorem addSet_end (acc : Meta.MetaData) (k : Str) (h : ∀ p ∈ acc, strLt p.1 k = true) :
    Meta.addSet acc k [] = acc ++ [(k, [])] := by
  show upsert k (fun o => o.getD []) acc = _
  rw [upsert_end _ _ _ h]
  rfl

theorem addSet_last (acc : Meta.MetaData) (k : Str) (vs : List Str) (h : ∀ p ∈ acc, strLt p.1 k = true) :
    Meta.addSet (acc ++ [(k, vs)]) k [] = acc ++ [(k, vs)] := by
  show upsert k (fun o => o.getD []) _ = _
  rw [upsert_last _ _ _ _ h]
  rfl

theorem add_last (acc : Meta.MetaData) (k v : Str) (vs : List Str) (h : ∀ p ∈ acc, strLt p.1 k = true)
    (hv : ∀ w ∈ vs, strLt w v = true) : Meta.add (acc ++ [(k, vs)]) k v = acc ++ [(k, vs ++ [v])] := by
  show upsert k _ _ = _
  rw [upsert_last _ _ _ _ h]
  simp only [Option.getD_some]
  rw [sinsert_end _ _ hv]

theorem loadMeta_values (acc : Meta.MetaData) (k : Str) (h : ∀ p ∈ acc, strLt p.1 k = true) :
    ∀ (vs ws : List Str), SSorted (vs ++ ws) →
      loadMeta (ws.map (metaNode k)) (acc ++ [(k, vs)]) = .ok (acc ++ [(k, vs ++ ws)]) := by
  intro vs ws
  induction ws generalizing vs with
  | nil => intro _; simp [loadMeta]
  | cons w ws ih =>
    intro hs
    show (loadMeta1 _ (metaNode k w) >>= loadMeta (ws.map (metaNode k))) = _
    rw [loadMeta1_value, addSet_last _ _ _ h, add_last _ _ _ _ h (fun v hv =>
      (List.pairwise_append.mp hs).2.2 v hv w (by simp))]
    show loadMeta (ws.map (metaNode k)) (acc ++ [(k, vs ++ [w])]) = _
    rw [ih (vs ++ [w]) (by simpa using hs)]
    simp

theorem loadMeta_key (acc : Meta.MetaData) (p : Str × List Str) (h : ∀ q ∈ acc, strLt q.1 p.1 = true) (hs : SSorted p.2) :
    loadMeta (if p.2.isEmpty then [.elem "metadata".toList [("key".toList, p.1)] []]
      else p.2.map (fun v => .elem "metadata".toList [("key".toList, p.1)] [.cdata v])) acc = .ok (acc ++ [p]) := by
  obtain ⟨k, vs⟩ := p
  cases vs with
  | nil =>
    show (loadMeta1 acc _ >>= loadMeta []) = _
    rw [loadMeta1_empty, addSet_end _ _ h]
    rfl
  | cons v vs =>
    show (loadMeta1 acc (metaNode k v) >>= loadMeta (vs.map (metaNode k))) = _
    rw [loadMeta1_value, addSet_end _ _ h, add_last _ _ _ _ h (by simp)]
    exact loadMeta_values acc k h [v] vs hs

theorem loadMeta_nodes (m : Meta.MetaData) : ∀ acc : Meta.MetaData, Meta.Ok (acc ++ m) →
    loadMeta (metaNodes m) acc = .ok (acc ++ m) := by
  induction m with
  | nil => intro acc _; rw [List.append_nil]; rfl
  | cons p r ih =>
    intro acc h
    rw [show metaNodes (p :: r) = (if p.2.isEmpty then [.elem "metadata".toList [("key".toList, p.1)] []]
      else p.2.map (fun v => .elem "metadata".toList [("key".toList, p.1)] [.cdata v])) ++ metaNodes r from List.flatMap_cons]
    rw [loadMeta_append, loadMeta_key acc p (fun q hq => (List.pairwise_append.mp h.1).2.2 q hq p (by simp))
      (h.2 p (by simp))]
    show loadMeta (metaNodes r) (acc ++ [p]) = _
    have e : acc ++ p :: r = (acc ++ [p]) ++ r := by rw [List.append_assoc]; rfl
    rw [ih (acc ++ [p]) (by rw [← e]; exact h), e]

/-- the metadata of an element, whatever elements precede it -/
theorem loadMeta_body (pre : List Node) (hp : ∀ x ∈ pre, Node.name x ≠ "metadata".toList) {m : Meta.MetaData}
    (h : Meta.Ok m) : loadMeta (pre ++ metaNodes m) [] = .ok m := by
  rw [loadMeta_append, loadMeta_skip pre hp]
  exact loadMeta_nodes m [] h

theorem metaNodes_name (m : Meta.MetaData) : ∀ x ∈ metaNodes m, Node.name x = "metadata".toList := by
  intro x hx
  unfold metaNodes at hx
  obtain ⟨p, _, hp⟩ := List.mem_flatMap.mp hx
  split at hp
  · rw [List.mem_singleton] at hp; rw [hp]; rfl
  · obtain ⟨v, _, rfl⟩ := List.mem_map.mp hp
    rfl

/-! ### Symbols -/

theorem loadSymbols_skip (a : List Node) (h : ∀ x ∈ a, Node.name x ≠ "value".toList) (e : EnumModel.Enum) :
    loadSymbols a e = .ok e := by
  induction a generalizing e with
  | nil => rfl
  | cons x r ih =>
    unfold loadSymbols
    rw [if_pos (h x (by simp))]
    exact ih (fun y hy => h y (by simp [hy])) e

theorem loadSymbols_nodes (post : List Node) (hp : ∀ x ∈ post, Node.name x ≠ "value".toList) (syms : SMap Int) :
    ∀ (last : Int) (acc : SMap Int), MSorted (acc ++ syms) → (∀ p ∈ syms, -(2 ^ 31 : Int) ≤ p.2 ∧ p.2 < 2 ^ 31) →
      ∃ last', loadSymbols (syms.map symbolNode ++ post) ⟨last, acc⟩ = .ok ⟨last', acc ++ syms⟩ := by
  induction syms with
  | nil => intro last acc _ _; exact ⟨last, by rw [List.map_nil, List.nil_append, List.append_nil]; exact loadSymbols_skip post hp _⟩
  | cons p r ih =>
    intro last acc hs hv
    obtain ⟨k, v⟩ := p
    have hk : ∀ q ∈ acc, strLt q.1 k = true := fun q hq => (List.pairwise_append.mp hs).2.2 q hq (k, v) (by simp)
    have hf : find acc k = none := by
      cases h : find acc k with
      | none => rfl
      | some w =>
        have := hk (k, w) ((mem_iff_find (List.pairwise_append.mp hs).1).mpr h)
        rw [strLt_irrefl] at this; cases this
    have hc := castInt_intStr (hv (k, v) (by simp)).1 (hv (k, v) (by simp)).2
    have hadd : EnumModel.Enum.add ⟨last, acc⟩ k v = (⟨v, acc ++ [(k, v)]⟩, .ok ()) := by
      unfold EnumModel.Enum.add
      simp only [hf]
      rw [upsert_end _ _ _ hk]
      rfl
    obtain ⟨l', h'⟩ := ih v (acc ++ [(k, v)]) (by simpa using hs) (fun q hq => hv q (by simp [hq]))
    refine ⟨l', ?_⟩
    rw [List.map_cons, List.cons_append, loadSymbols.eq_2, if_neg (show ¬ Node.name (symbolNode (k, v)) ≠ "value".toList from
      fun h => h rfl)]
    show (getAttr (symbolNode (k, v)) "symbol" >>= fun symbol => _) = _
    rw [show getAttr (symbolNode (k, v)) "symbol" = .ok k from rfl]
    show ((getAttr (symbolNode (k, v)) "value" >>= castInt) >>= fun value => _) = _
    rw [show getAttr (symbolNode (k, v)) "value" = .ok (intStr v) from rfl]
    show (castInt (intStr v) >>= fun value => _) = _
    rw [hc]
    show (match EnumModel.Enum.add ⟨last, acc⟩ k v with
      | (e', .ok ()) => loadSymbols (r.map symbolNode ++ post) e'
      | (_, .exn err) => .exn err
      | (_, .ub) => .ub
      | (_, .fuel) => .fuel) = _
    rw [hadd]
    simp only
    rw [h']
    simp

/-! ### Fields -/

theorem insertPair_end {f : FieldD × Meta.MetaData} {acc : List (FieldD × Meta.MetaData)}
    (h : ∀ g ∈ acc, CompoundModel.fieldLe g.1 f.1) : insertPair f acc = acc ++ [f] := by
  induction acc with
  | nil => rfl
  | cons g r ih =>
    have hg := h g (by simp)
    have hlt : CompoundModel.fieldLt f.1 g.1 = false := by
      unfold CompoundModel.fieldLt
      unfold CompoundModel.fieldLe at hg
      rcases hg with hg | ⟨h1, h2⟩
      · rw [if_neg (by omega), if_neg (by omega)]
      · rw [if_neg (by omega), if_pos h1.symm]
        rcases h2 with h2 | h2
        · rw [h2]; exact strLt_irrefl _
        · exact strLt_asymm h2
    unfold insertPair
    rw [hlt, ih (fun x hx => h x (by simp [hx]))]
    rfl

theorem sortFields_sorted (l : List (FieldD × Meta.MetaData)) (h : (l.map (·.1)).Pairwise CompoundModel.fieldLe) :
    sortFields l = l := by
  have aux : ∀ (r acc : List (FieldD × Meta.MetaData)), ((acc ++ r).map (·.1)).Pairwise CompoundModel.fieldLe →
      r.foldl (fun l f => insertPair f l) acc = acc ++ r := by
    intro r
    induction r with
    | nil => intro acc _; simp
    | cons f r ih =>
      intro acc h
      rw [List.foldl_cons, insertPair_end, ih _ (by simpa using h)]
      · simp
      · intro g hg
        rw [List.map_append, List.pairwise_append] at h
        exact h.2.2 g.1 (List.mem_map_of_mem hg) f.1 (by simp)
  exact aux l [] (by simpa using h)

end Verif.Tlb
