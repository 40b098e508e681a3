import Verif.IdlProps

/-!
C40: the modules that are opened for a namespace, and the names used to refer to what is in them.
-/

namespace Verif.Idl
open Verif Verif.Names Verif.Graph Verif.StdMap

/-! ### Specification -/

/-- the namespace with the given components, `/a/b/c/` -/
def nsOf (cs : List Str) : Str := '/' :: cs.flatMap (fun c => c ++ ['/'])

/-- a component of a namespace -/
def IsComp (c : Str) : Prop := c ≠ [] ∧ '/' ∉ c ∧ ':' ∉ c

/-- one component, as the IDL exporter writes it -/
def compName (c : Str) : Str := stripOne (c.map under)

/-- a name that IDL accepts as it is -/
def Plain (c : Str) : Prop := c.head? ≠ some '_' ∧ ∀ x ∈ c, x ≠ '<' ∧ x ≠ '>' ∧ x ≠ '/' ∧ x ≠ ',' ∧ x ≠ ':'

/-! ### Proofs -/

theorem pieces_comp (sep : Char) : ∀ (c r : Str), sep ∉ c → pieces sep (c ++ sep :: r) = c :: pieces sep r := by
  intro c
  induction c with
  | nil => intro r _; simp [pieces]
  | cons x c ih =>
    intro r h
    have hx : x ≠ sep := by intro e; apply h; simp [e]
    have := ih r (by intro e; apply h; simp [e])
    rw [List.cons_append, pieces, if_neg hx, this]

theorem pieces_comps : ∀ (cs : List Str), (∀ c ∈ cs, IsComp c) →
    pieces '/' (cs.flatMap (fun c => c ++ ['/'])) = cs ++ [[]] := by
  intro cs
  induction cs with
  | nil => intro _; rfl
  | cons c cs ih =>
    intro h
    have := ih (fun x hx => h x (by simp [hx]))
    simp only [List.flatMap_cons, List.append_assoc, List.singleton_append]
    rw [pieces_comp '/' c _ (h c (by simp)).2.1, this]
    rfl

theorem nameSplit_nsOf (cs : List Str) (h : ∀ c ∈ cs, IsComp c) : nameSplit (nsOf cs) = cs := by
  unfold nameSplit nsOf
  have : pieces '/' ('/' :: cs.flatMap (fun c => c ++ ['/'])) = [] :: pieces '/' (cs.flatMap (fun c => c ++ ['/'])) := by
    rw [pieces, if_pos rfl]
  rw [this, pieces_comps cs h]
  have hf : cs.filter (fun p => !p.isEmpty) = cs := by
    apply List.filter_eq_self.mpr
    intro c hc
    have := (h c hc).1
    cases c with
    | nil => exact absurd rfl this
    | cons x c => rfl
  simp [hf]

theorem colonGo_nocolon : ∀ (c : Str) (b : Bool), ':' ∉ c → colonGo b c = [c] := by
  intro c
  induction c with
  | nil => intro b _; rfl
  | cons x c ih =>
    intro b h
    have hx : x ≠ ':' := by intro e; apply h; simp [e]
    rw [colonGo, if_neg hx, ih false (by intro e; apply h; simp [e])]

theorem colonGo_comp : ∀ (c r : Str) (b : Bool), ':' ∉ c → c ≠ [] →
    colonGo b (c ++ ':' :: ':' :: r) = c :: colonGo true r := by
  intro c
  induction c with
  | nil => intro r b _ h; exact absurd rfl h
  | cons x c ih =>
    intro r b h _
    have hx : x ≠ ':' := by intro e; apply h; simp [e]
    have hc : ':' ∉ c := by intro e; apply h; simp [e]
    rw [List.cons_append, colonGo, if_neg hx]
    cases c with
    | nil => simp [colonGo]
    | cons y c => rw [ih r false hc (by simp)]

theorem under_colon (x : Char) : under x = ':' ↔ x = ':' := by
  unfold under
  constructor
  · intro h
    split at h
    · exact absurd h (by decide)
    · exact h
  · intro h
    subst h
    decide

theorem map_under_nocolon {c : Str} (h : ':' ∉ c) : ':' ∉ c.map under := by
  intro e
  obtain ⟨x, hx, hy⟩ := List.mem_map.mp e
  exact h (by rw [← (under_colon x).mp hy]; exact hx)

theorem normalize_comp {c : Str} (h : ':' ∉ c) : normalizeIDLName c = compName c := by
  unfold normalizeIDLName stripLeadingUnderscore compName
  rw [colonGo_nocolon _ _ (map_under_nocolon h)]
  rfl

theorem slash_comp : ∀ (c : Str), '/' ∉ c → slashToColons c = c := by
  intro c
  induction c with
  | nil => intro _; rfl
  | cons x c ih =>
    intro h
    have hx : x ≠ '/' := by intro e; apply h; simp [e]
    have := ih (by intro e; apply h; simp [e])
    unfold slashToColons at this ⊢
    rw [List.flatMap_cons, this, if_neg hx]
    rfl

theorem slash_append (a b : Str) : slashToColons (a ++ b) = slashToColons a ++ slashToColons b := by
  unfold slashToColons
  rw [List.flatMap_append]

theorem colonGo_comps : ∀ (cs : List Str), (∀ c ∈ cs, IsComp c) →
    colonGo true ((slashToColons (cs.flatMap (fun c => c ++ ['/']))).map under) = cs.map (·.map under) ++ [[]] := by
  intro cs
  induction cs with
  | nil => intro _; rfl
  | cons c cs ih =>
    intro h
    have hc := h c (by simp)
    have := ih (fun x hx => h x (by simp [hx]))
    rw [List.flatMap_cons, slash_append, slash_append, slash_comp c hc.2.1]
    have e : (c ++ slashToColons ['/'] ++ slashToColons (List.flatMap (fun c => c ++ ['/']) cs)).map under =
        c.map under ++ ':' :: ':' :: (slashToColons (List.flatMap (fun c => c ++ ['/']) cs)).map under := by
      simp [slashToColons, show under ':' = ':' from by decide]
    rw [e, colonGo_comp _ _ _ (map_under_nocolon hc.2.2) (by simpa using hc.1), this]
    rfl

theorem joinColons_last : ∀ (l : List Str), joinColons (l ++ [[]]) = l.flatMap (fun c => c ++ [':', ':']) := by
  intro l
  induction l with
  | nil => rfl
  | cons a l ih =>
    cases l with
    | nil => simp [joinColons]
    | cons b l =>
      rw [List.cons_append, List.cons_append, joinColons, ← List.cons_append, ih]
      · simp
      · simp

theorem compName_plain {c : Str} (h : Plain c) : compName c = c := by
  have hm : c.map under = c := by
    have : ∀ x ∈ c, under x = x := by
      intro x hx
      obtain ⟨h1, h2, h3, h4, _⟩ := h.2 x hx
      simp [under, h1, h2, h3, h4]
    calc c.map under = c.map id := List.map_congr_left this
      _ = c := by simp
  unfold compName
  rw [hm]
  cases c with
  | nil => rfl
  | cons x c =>
    have hx : x ≠ '_' := by intro e; apply h.1; simp [e]
    unfold stripOne
    split
    · rename_i y heq; cases heq; exact absurd rfl hx
    · rfl

/-! ### Theorems -/

/-- A namespace made of components has one module for each component, in the same order, named after it; a component
that is a plain identifier names its module. -/
theorem C40_modules {cs : List Str} (h : ∀ c ∈ cs, IsComp c) :
    path (nsOf cs) = cs.map compName ∧ ((∀ c ∈ cs, Plain c) → path (nsOf cs) = cs) := by
  have h1 : path (nsOf cs) = cs.map compName := by
    unfold path
    rw [nameSplit_nsOf cs h]
    exact List.map_congr_left (fun c hc => normalize_comp (h c hc).2.2)
  refine ⟨h1, fun hp => ?_⟩
  rw [h1]
  calc cs.map compName = cs.map id := List.map_congr_left (fun c hc => compName_plain (hp c hc))
    _ = cs := by simp

/-- The prefix of an absolute reference to something in a namespace made of components names exactly the modules that
are opened for this namespace, from the outermost. -/
theorem C40_references {cs : List Str} (h : ∀ c ∈ cs, IsComp c) :
    normalizeIDLName (slashToColons (nsOf cs)) = [':', ':'] ++ (path (nsOf cs)).flatMap (fun c => c ++ [':', ':']) := by
  rw [(C40_modules h).1]
  unfold normalizeIDLName stripLeadingUnderscore nsOf
  have e : (slashToColons ('/' :: cs.flatMap (fun c => c ++ ['/']))).map under =
      ':' :: ':' :: (slashToColons (cs.flatMap (fun c => c ++ ['/']))).map under := by
    rw [show '/' :: cs.flatMap (fun c => c ++ ['/']) = ['/'] ++ cs.flatMap (fun c => c ++ ['/']) from rfl, slash_append]
    simp [slashToColons, show under ':' = ':' from by decide]
  have e2 : colonGo false (':' :: ':' :: (slashToColons (cs.flatMap (fun c => c ++ ['/']))).map under) =
      [] :: (cs.map (·.map under) ++ [[]]) := by
    rw [colonGo, if_pos rfl, if_neg (by simp), colonGo, if_pos rfl, if_pos rfl, colonGo_comps cs h]
  rw [e, e2]
  have e3 : ([] :: (cs.map (·.map under) ++ [[]])).map stripOne = ([] :: cs.map compName) ++ [[]] := by
    simp [stripOne, compName]
  rw [e3, joinColons_last]
  simp

/-- The namespace a definition is written in: structures, enumerations and blobs in the namespace of the type, between
the prefix and the suffix chosen by the user; the typedef of an alias in the one of the alias. Only sequences are put
elsewhere (with their elements). -/
theorem C40_namespace {H : Heap} {o : Opts} {f : Nat} {s : St} {it : Item} {a : Act} (h : act H o f s it = .ok a) :
    (∀ ns d, a = .typedef ns d → it.isAlias = true ∧ ns = o.nsPrefix ++ getNamespace it.name ++ o.nsSuffix) ∧
    (∀ ns text r, a = .def_ ns text r → it.isAlias = false ∧ (H.cat it.ty ≠ .container → it.name = H.name it.ty →
      ns = o.nsPrefix ++ getNamespace (H.name it.ty) ++ o.nsSuffix) ∧
      ∃ rest, text = spaces (4 * (path ns).length) ++ rest) := by
  have hl : ∀ ns, namespaceIndentLevel ns = (path ns).length := by intro ns; simp [namespaceIndentLevel, path]
  unfold act at h
  dsimp only at h
  split at h
  · cases h; exact ⟨by simp, by simp⟩
  · split at h
    · rename_i hal
      split at h
      · obtain ⟨_, _, h⟩ := Res.bind_eq_ok.mp h
        split at h
        · split at h <;> cases h
          exact ⟨by simp, by simp⟩
        · split at h
          · cases h; exact ⟨by simp, by simp⟩
          · obtain ⟨d, _, h⟩ := Res.bind_eq_ok.mp h
            split at h <;> cases h
            · exact ⟨by simp, by simp⟩
            · refine ⟨?_, by simp⟩
              intro ns d e
              cases e
              exact ⟨hal, rfl⟩
      · cases h; exact ⟨by simp, by simp⟩
    · rename_i hal
      have hal : it.isAlias = false := by simpa using hal
      split at h
      · cases h
        refine ⟨by simp, ?_⟩
        intro ns text r e
        cases e
        refine ⟨hal, fun _ hn => by rw [hn]; rfl, ?_⟩
        rw [hl, List.append_assoc, List.append_assoc]
        exact ⟨_, rfl⟩
      · obtain ⟨r, hr, h⟩ := Res.bind_eq_ok.mp h
        have key : r.2.1 ≠ [] → (H.cat it.ty ≠ .container → r.1 = o.nsPrefix ++ getNamespace (H.name it.ty) ++ o.nsSuffix) ∧
            ∃ rest, r.2.1 = spaces (4 * (path r.1).length) ++ rest := by
          intro hne
          unfold exportType at hr
          simp only [hl] at hr
          have hseq : ∀ e k, H.kind it.ty = k → k.cat = .container → (if H.name it.ty = "/std/string".toList then
              (Res.ok (absNs o (getNamespace (H.name it.ty)), [], none) : Res (Str × Str × Option Str)) else do
              let i ← ident H o f e
              let ns' := if i.ns.isEmpty then absNs o ['/'] else i.ns
              let elem ← getIDLAbsolute H o f e []
              let self ← ident H o f it.ty
              let tn := colonsToUnder (self.base []).2
              .ok (ns', spaces (4 * (path ns').length) ++ "typedef sequence<".toList ++ elem ++ "> ".toList ++ tn ++
                ";\n".toList, some (getNamespace (H.name e) ++ tn))) = .ok r →
              (H.cat it.ty ≠ .container → r.1 = o.nsPrefix ++ getNamespace (H.name it.ty) ++ o.nsSuffix) ∧
              ∃ rest, r.2.1 = spaces (4 * (path r.1).length) ++ rest := by
            intro e k hk hc hr
            refine ⟨fun hn => absurd (by unfold Heap.cat; rw [hk]; exact hc) hn, ?_⟩
            split at hr
            · cases hr; exact absurd rfl hne
            · obtain ⟨i, _, hr⟩ := Res.bind_eq_ok.mp hr
              obtain ⟨el, _, hr⟩ := Res.bind_eq_ok.mp hr
              obtain ⟨sf, _, hr⟩ := Res.bind_eq_ok.mp hr
              cases hr
              simp only [List.append_assoc]
              exact ⟨_, rfl⟩
          split at hr
          · cases hr
          · split at hr <;> cases hr
            exact absurd rfl hne
          · cases hr; exact absurd rfl hne
          · cases hr
          · cases hr
          · cases hr
            refine ⟨fun _ => rfl, ?_⟩
            simp only [List.append_assoc]
            exact ⟨_, rfl⟩
          · obtain ⟨b, _, hr⟩ := Res.bind_eq_ok.mp hr
            cases hr
            refine ⟨fun _ => rfl, ?_⟩
            simp only [List.append_assoc]
            exact ⟨_, rfl⟩
          · rename_i e hk
            exact hseq e _ hk rfl hr
          · rename_i e hk
            exact hseq e _ hk rfl hr
        split at h
        · cases h; exact ⟨by simp, by simp⟩
        · rename_i hne
          cases h
          refine ⟨by simp, ?_⟩
          intro ns text rr e
          cases e
          obtain ⟨k1, k2⟩ := key (by intro e; rw [e] at hne; simp at hne)
          exact ⟨hal, fun hc _ => k1 hc, k2⟩

/-! ### The theorems on concrete cases -/

example := C40_modules (cs := ["a".toList, "_B<c,d>".toList]) (by unfold IsComp; decide)

example := C40_references (cs := ["a".toList, "_B<c,d>".toList]) (by unfold IsComp; decide)

example := C40_namespace (H := ⟨1, fun _ => ⟨"/A/E".toList, 4, .enum [("X".toList, 0)]⟩⟩) (o := Opts.mk' [] [] 0 false [])
  (f := 3) (s := St.new) (it := ⟨"/A/E".toList, 0, false⟩) rfl

end Verif.Idl
