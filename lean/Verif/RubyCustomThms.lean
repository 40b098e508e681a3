import Verif.RubyCustomProps
import Verif.Merge

/-! C68: theorems. -/

namespace Verif.RubyCustom
open Verif Verif.Graph Verif.LayoutGraph

variable {H : Heap} {rx : Nat → Str → Bool}

/-! ### The class of one type -/

/-- the class has a converted part -/
theorem contains_local {cu : Cust} {pre : List Op} (h : CustHolds cu pre) {t : TId} (hn : PlainName (H.name t)) (cls : TId → Cls) :
    (classOf H rx cu cls t).contains = true ↔
      (¬ IsNum H t ∧ applicable H rx (toDecls pre) t ≠ []) ∨ ∃ v, Contains H t v ∧ (cls v).contains = true := by
  obtain ⟨_, _, _, _, _, h6⟩ := typeInit_spec (rx := rx) h hn rfl
  have hnum : ∀ (hk : ∀ c, H.kind t ≠ .num c), ¬ IsNum H t := fun hk ⟨c, hc⟩ => hk c hc
  have helem : ∀ e, (∀ v, Contains H t v ↔ v = e) → ¬ IsNum H t →
      ((cls e).contains = true ∨ (typeInit H rx cu t .blank).contains = true ↔
        (¬ IsNum H t ∧ applicable H rx (toDecls pre) t ≠ []) ∨ ∃ v, Contains H t v ∧ (cls v).contains = true) := by
    intro e he hi
    rw [h6]
    constructor
    · rintro (h | h)
      · exact .inr ⟨e, (he e).mpr rfl, h⟩
      · exact .inl ⟨hi, h⟩
    · rintro (h | ⟨v, hv, h⟩)
      · exact .inr h.2
      · rw [(he v).mp hv] at h; exact .inl h
  have hnone : (∀ v, ¬ Contains H t v) → ¬ IsNum H t →
      ((typeInit H rx cu t .blank).contains = true ↔
        (¬ IsNum H t ∧ applicable H rx (toDecls pre) t ≠ []) ∨ ∃ v, Contains H t v ∧ (cls v).contains = true) := by
    intro hno hi
    rw [h6]
    constructor
    · exact fun h => .inl ⟨hi, h⟩
    · rintro (h | ⟨v, hv, _⟩)
      · exact h.2
      · exact absurd hv (hno v)
  unfold classOf
  cases hk : H.kind t with
  | arr d e =>
    refine Iff.trans ?_ (helem e (fun v => ⟨fun h => by cases h <;> simp_all, fun h => h ▸ .arr hk⟩) (hnum (by simp [hk])))
    by_cases he : (cls e).contains <;> simp [arrayInit, he, Cls.convertFrom, Cls.convertTo]
  | vec e =>
    refine Iff.trans ?_ (helem e (fun v => ⟨fun h => by cases h <;> simp_all, fun h => h ▸ .vec hk⟩) (hnum (by simp [hk])))
    by_cases he : (cls e).contains <;> simp [containerInit, he, Cls.convertFrom, Cls.convertTo]
  | str e =>
    refine Iff.trans ?_ (helem e (fun v => ⟨fun h => by cases h <;> simp_all, fun h => h ▸ .str hk⟩) (hnum (by simp [hk])))
    by_cases he : (cls e).contains <;> simp [containerInit, he, Cls.convertFrom, Cls.convertTo]
  | comp fs =>
    have hi := hnum (by simp [hk])
    have hany : (fs.any fun f => (cls f.ty).contains) = true ↔ ∃ v, Contains H t v ∧ (cls v).contains = true := by
      rw [List.any_eq_true]
      constructor
      · rintro ⟨f, hf, h⟩; exact ⟨_, .field hk hf, h⟩
      · rintro ⟨v, hv, h⟩
        cases hv with
        | field hk' hm => rw [hk] at hk'; cases hk'; exact ⟨_, hm, h⟩
        | arr hk' => rw [hk] at hk'; cases hk'
        | vec hk' => rw [hk] at hk'; cases hk'
        | str hk' => rw [hk] at hk'; cases hk'
    have hc : ∀ (b : Bool) (c : Cls), (compoundInit b c).contains = (b || c.contains) := by
      intro b c
      unfold compoundInit
      cases b <;> simp only [] <;> repeat' split
      all_goals simp_all [Cls.convertFrom]
    simp only
    rw [hc, Bool.or_eq_true, hany, h6, or_comm]
    simp [hi]
  | num c =>
    have : (numericInit c (typeInit H rx cu t .blank)).contains = false := by cases c <;> rfl
    simp only [this]
    refine ⟨(fun h => by cases h), ?_⟩
    rintro (h | ⟨v, hv, _⟩)
    · exact absurd ⟨c, hk⟩ h.1
    · cases hv <;> simp_all
  | null => exact hnone (fun v h => by cases h <;> simp_all) (hnum (by simp [hk]))
  | «opaque» => exact hnone (fun v h => by cases h <;> simp_all) (hnum (by simp [hk]))
  | «enum» l => exact hnone (fun v h => by cases h <;> simp_all) (hnum (by simp [hk]))
  | ptr e => exact hnone (fun v h => by cases h <;> simp_all) (hnum (by simp [hk]))

/-- **C68**: the classes that tell that they contain converted types are those of the types with a part that has a declared conversion. -/
theorem contains_iff {ops : List Op} {s : St} (h : Inv H rx ops s) (hn : ∀ t, PlainName (H.name t)) {t : TId} {c : Cls}
    (hc : s.classes t = some c) : c.contains = true ↔ Converted H rx ops t := by
  have hacc := h.norec t (by rw [hc]; rfl)
  revert c
  induction hacc with
  | intro t _ ih =>
    intro c hc
    obtain ⟨pre, cu, hf, hcu, he⟩ := h.classes t c hc
    rw [he, contains_local hcu (hn t)]
    have hd : (¬ IsNum H t ∧ applicable H rx (toDecls pre) t ≠ []) ↔ Declared H rx ops t := by
      constructor
      · exact fun ⟨a, b⟩ => ⟨a, pre, hf, b⟩
      · rintro ⟨a, p, hp, b⟩
        rw [hp.unique hf] at b
        exact ⟨a, b⟩
    rw [hd]
    have hv : ∀ v, Contains H t v → ((s.cls v).contains = true ↔ Converted H rx ops v) := by
      intro v hv
      obtain ⟨cv, hcv⟩ := Option.isSome_iff_exists.mp (h.closed t v (by rw [hc]; rfl) hv)
      rw [cls_eq hcv]
      exact ih v hv hcv
    constructor
    · rintro (h' | ⟨v, h1, h2⟩)
      · exact ⟨t, .refl t, h'⟩
      · obtain ⟨u, hu, hd⟩ := (hv v h1).mp h2
        exact ⟨u, .step h1 hu, hd⟩
    · rintro ⟨u, hp, hd'⟩
      rcases part_cases hp with e | ⟨v, h1, h2⟩
      · rw [e] at hd'; exact .inl hd'
      · exact .inr ⟨v, h1, (hv v h1).mpr ⟨u, h2, hd'⟩⟩

/-! ### Specification of a class -/

/-- the conversions from Ruby of a type: for arrays and containers the default ones go first, for the others the declared ones -/
def fromOf (H : Heap) (rx : Nat → Str → Bool) (pre : List Op) (t : TId) (k : RClass) : Option Block :=
  match elementOf (H.kind t) with
  | some _ => (defaultFrom (H.kind t) k).or (declaredFrom H rx pre t k)
  | none => (declaredFrom H rx pre t k).or (defaultFrom (H.kind t) k)

/-- What the class of `t` shows. `pre` is the history before the first use of a type that contains `t`. -/
structure ClassSpec (H : Heap) (rx : Nat → Str → Bool) (ops pre : List Op) (t : TId) (c : Cls) : Prop where
  /-- the class is extended with the modules declared for the type -/
  extended : c.extended = applicable H rx (modelDecls pre) t
  /-- the values have the methods of the modules declared for the type -/
  included : c.included = applicable H rx (valueDecls pre) t
  /-- the values are made from Ruby objects with the declared or default conversions -/
  froms : ∀ k, hget c.froms k = fromOf H rx pre t k
  /-- an array or container whose elements have converted parts becomes an array -/
  toElements : ∀ e, elementOf (H.kind t) = some e → Converted H rx ops e →
    c.toRuby = some (defaultTo (H.kind t)) ∧ c.conv = some ⟨some .array, false⟩
  /-- the others are converted as declared -/
  to : (∀ e, elementOf (H.kind t) = some e → ¬ Converted H rx ops e) → c.toRuby = (declaredTo H rx pre t).map (·.2)
  convTo : (∀ e, elementOf (H.kind t) = some e → ¬ Converted H rx ops e) → ¬ IsNum H t →
    c.conv = (declaredTo H rx pre t).map (fun p => ⟨p.1, false⟩)
  /-- numbers are converted by the library -/
  numbers : ∀ cat, H.kind t = .num cat → c.conv = some ⟨some (if cat = .float then .float else .numeric), true⟩
  contains : c.contains = true ↔ Converted H rx ops t
  /-- the elements of a container are converted when they are read iff a conversion was declared for them or for their own elements -/
  elementTo : c.elementTo = true ↔ ∃ e, (H.kind t = .vec e ∨ H.kind t = .str e) ∧
    (Declared H rx ops e ∨ ∃ x, elementOf (H.kind e) = some x ∧ Converted H rx ops x)
  /-- and are converted when they are written iff there is a conversion from Ruby for them -/
  elementFrom : c.elementFrom = true ↔ ∃ e, (H.kind t = .vec e ∨ H.kind t = .str e) ∧
    ((∃ pre', FirstUse H ops e pre' ∧ applicable H rx (fromDecls pre') e ≠ []) ∨ elementOf (H.kind e) ≠ none ∨ ∃ fs, H.kind e = .comp fs)

/-! ### Proof -/

/-- the conversion to Ruby and the modules, locally -/
structure Local (H : Heap) (rx : Nat → Str → Bool) (pre : List Op) (cls : TId → Cls) (t : TId) (c : Cls) : Prop where
  extended : c.extended = applicable H rx (modelDecls pre) t
  included : c.included = applicable H rx (valueDecls pre) t
  froms : ∀ k, hget c.froms k = fromOf H rx pre t k
  toElements : ∀ e, elementOf (H.kind t) = some e → (cls e).contains = true →
    c.toRuby = some (defaultTo (H.kind t)) ∧ c.conv = some ⟨some .array, false⟩
  to : (∀ e, elementOf (H.kind t) = some e → (cls e).contains = false) → c.toRuby = (declaredTo H rx pre t).map (·.2)
  convTo : (∀ e, elementOf (H.kind t) = some e → (cls e).contains = false) → ¬ IsNum H t →
    c.conv = (declaredTo H rx pre t).map (fun p => ⟨p.1, false⟩)
  numbers : ∀ cat, H.kind t = .num cat → c.conv = some ⟨some (if cat = .float then .float else .numeric), true⟩
  elementTo : c.elementTo = true ↔ ∃ e, (H.kind t = .vec e ∨ H.kind t = .str e) ∧ (cls e).needsTo = true
  elementFrom : c.elementFrom = true ↔ ∃ e, (H.kind t = .vec e ∨ H.kind t = .str e) ∧ (cls e).needsFrom = true

theorem typeInit_elements (cu : Cust) (t : TId) : (typeInit H rx cu t .blank).elementTo = false ∧
    (typeInit H rx cu t .blank).elementFrom = false := by
  have : ∀ (l : List (RClass × Nat)) (c : Cls), (l.foldl (fun c p => c.convertFrom p.1 (.user p.2)) c).elementTo = c.elementTo ∧
      (l.foldl (fun c p => c.convertFrom p.1 (.user p.2)) c).elementFrom = c.elementFrom := by
    intro l
    induction l with
    | nil => intro c; exact ⟨rfl, rfl⟩
    | cons p l ih => intro c; exact ih _
  simp only [typeInit]
  split
  · exact ⟨(this _ _).1, (this _ _).2⟩
  · exact ⟨(this _ _).1, (this _ _).2⟩

theorem arrayInit_local {pre : List Op} {cls : TId → Cls} {t : TId} {c : Cls} {d : Nat} {e : TId} (hk : H.kind t = .arr d e)
    (h : c.extended = applicable H rx (modelDecls pre) t ∧ c.included = applicable H rx (valueDecls pre) t ∧
      (∀ k, hget c.froms k = declaredFrom H rx pre t k) ∧
      c.toRuby = (declaredTo H rx pre t).map (·.2) ∧ c.conv = (declaredTo H rx pre t).map (fun p => ⟨p.1, false⟩))
    (he : c.elementTo = false ∧ c.elementFrom = false) : Local H rx pre cls t (arrayInit (cls e) c) := by
  obtain ⟨h1, h2, h3, h4, h5⟩ := h
  refine ⟨?_, ?_, fun k => ?_, fun x hx hc => ?_, fun hx => ?_, fun hx _ => ?_, fun cat hc => ?_, ?_, ?_⟩
  · unfold arrayInit; split <;> exact h1
  · unfold arrayInit; split <;> exact h2
  · have : hget (arrayInit (cls e) c).froms k = if RClass.array = k then some Block.arrayFromRuby else hget c.froms k := by
      unfold arrayInit; split <;> simp [Cls.convertFrom, Cls.convertTo, hget_hput]
    rw [this, h3]
    unfold fromOf
    rw [hk]
    by_cases ek : RClass.array = k
    · subst ek; rfl
    · rw [if_neg ek]
      cases k <;> first | rfl | exact absurd rfl ek
  · rw [hk] at hx; injection hx with hx; subst hx
    unfold arrayInit
    rw [if_pos hc, hk]
    exact ⟨rfl, rfl⟩
  · have := hx e (by rw [hk]; rfl)
    unfold arrayInit
    rw [this]; exact h4
  · have := hx e (by rw [hk]; rfl)
    unfold arrayInit
    rw [this]; exact h5
  · rw [hk] at hc; cases hc
  · have : (arrayInit (cls e) c).elementTo = false := by unfold arrayInit; split <;> exact he.1
    rw [this]
    refine ⟨(fun h => by cases h), ?_⟩
    rintro ⟨x, hx, _⟩; rw [hk] at hx; rcases hx with hx | hx <;> cases hx
  · have : (arrayInit (cls e) c).elementFrom = false := by unfold arrayInit; split <;> exact he.2
    rw [this]
    refine ⟨(fun h => by cases h), ?_⟩
    rintro ⟨x, hx, _⟩; rw [hk] at hx; rcases hx with hx | hx <;> cases hx

theorem containerInit_local {pre : List Op} {cls : TId → Cls} {t : TId} {c : Cls} {e : TId} (hk : H.kind t = .vec e ∨ H.kind t = .str e)
    (h : c.extended = applicable H rx (modelDecls pre) t ∧ c.included = applicable H rx (valueDecls pre) t ∧
      (∀ k, hget c.froms k = declaredFrom H rx pre t k) ∧
      c.toRuby = (declaredTo H rx pre t).map (·.2) ∧ c.conv = (declaredTo H rx pre t).map (fun p => ⟨p.1, false⟩)) :
    Local H rx pre cls t (containerInit (cls e) c) := by
  obtain ⟨h1, h2, h3, h4, h5⟩ := h
  have hel : elementOf (H.kind t) = some e := by rcases hk with hk | hk <;> rw [hk] <;> rfl
  have hto : defaultTo (H.kind t) = .containerToRuby := by rcases hk with hk | hk <;> rw [hk] <;> rfl
  have huniq : ∀ x, H.kind t = .vec x ∨ H.kind t = .str x → x = e := by
    rintro x hx
    rcases hk with hk | hk <;> rw [hk] at hx <;> rcases hx with hx | hx <;> cases hx <;> rfl
  refine ⟨?_, ?_, fun k => ?_, fun x hx hc => ?_, fun hx => ?_, fun hx _ => ?_, fun cat hc => ?_, ?_, ?_⟩
  · simp only [containerInit]; split <;> exact h1
  · simp only [containerInit]; split <;> exact h2
  · have : hget (containerInit (cls e) c).froms k =
        if RClass.deepCopyArray = k ∨ RClass.array = k then some Block.containerFromRuby else hget c.froms k := by
      simp only [containerInit]
      split <;> simp only [Cls.convertFrom, Cls.convertTo, hget_hput] <;> by_cases e1 : RClass.deepCopyArray = k <;>
        by_cases e2 : RClass.array = k <;> simp [e1, e2]
    rw [this, h3]
    unfold fromOf
    rw [hel]
    by_cases ek : RClass.deepCopyArray = k ∨ RClass.array = k
    · rw [if_pos ek]
      rcases ek with rfl | rfl <;> rcases hk with hk | hk <;> rw [hk] <;> rfl
    · rw [if_neg ek]
      rcases hk with hk | hk <;> rw [hk] <;> cases k <;>
        first | rfl | exact absurd (Or.inl rfl) ek | exact absurd (Or.inr rfl) ek
  · rw [hel] at hx; injection hx with hx; subst hx
    simp only [containerInit]
    rw [if_pos hc, hto]
    exact ⟨rfl, rfl⟩
  · have := hx e hel
    simp only [containerInit]
    rw [this]; exact h4
  · have := hx e hel
    simp only [containerInit]
    rw [this]; exact h5
  · rcases hk with hk | hk <;> rw [hk] at hc <;> cases hc
  · have : (containerInit (cls e) c).elementTo = (cls e).needsTo := by simp only [containerInit]; split <;> rfl
    rw [this]
    exact ⟨fun h => ⟨e, hk, h⟩, fun ⟨x, hx, h⟩ => huniq x hx ▸ h⟩
  · have : (containerInit (cls e) c).elementFrom = (cls e).needsFrom := by simp only [containerInit]; split <;> rfl
    rw [this]
    exact ⟨fun h => ⟨e, hk, h⟩, fun ⟨x, hx, h⟩ => huniq x hx ▸ h⟩

theorem compoundInit_spec (b : Bool) (c : Cls) : (compoundInit b c).extended = c.extended ∧ (compoundInit b c).included = c.included ∧
    (compoundInit b c).conv = c.conv ∧ (compoundInit b c).toRuby = c.toRuby ∧ (compoundInit b c).elementTo = c.elementTo ∧
    (compoundInit b c).elementFrom = c.elementFrom ∧
    ∀ k, hget (compoundInit b c).froms k = (hget c.froms k).or (defaultFrom (.comp []) k) := by
  have key : ∀ c : Cls, (if (hget c.froms .hash).isNone then c.convertFrom .hash .compoundFromHash else c).extended = c.extended ∧
      (if (hget c.froms .hash).isNone then c.convertFrom .hash .compoundFromHash else c).included = c.included ∧
      (if (hget c.froms .hash).isNone then c.convertFrom .hash .compoundFromHash else c).conv = c.conv ∧
      (if (hget c.froms .hash).isNone then c.convertFrom .hash .compoundFromHash else c).toRuby = c.toRuby ∧
      (if (hget c.froms .hash).isNone then c.convertFrom .hash .compoundFromHash else c).elementTo = c.elementTo ∧
      (if (hget c.froms .hash).isNone then c.convertFrom .hash .compoundFromHash else c).elementFrom = c.elementFrom ∧
      ∀ k, hget (if (hget c.froms .hash).isNone then c.convertFrom .hash .compoundFromHash else c).froms k =
        (hget c.froms k).or (if k = .hash then some .compoundFromHash else none) := by
    intro c
    split
    · rename_i hn
      refine ⟨rfl, rfl, rfl, rfl, rfl, rfl, fun k => ?_⟩
      simp only [Cls.convertFrom, hget_hput]
      by_cases e : RClass.hash = k
      · subst e; rw [Option.isNone_iff_eq_none.mp hn]; simp
      · rw [if_neg e, if_neg (Ne.symm e)]; cases hget c.froms k <;> rfl
    · rename_i hn
      refine ⟨rfl, rfl, rfl, rfl, rfl, rfl, fun k => ?_⟩
      by_cases e : k = RClass.hash
      · subst e
        cases hg : hget c.froms RClass.hash with
        | none => rw [hg] at hn; exact absurd rfl hn
        | some x => rfl
      · rw [if_neg e]; cases hget c.froms k <;> rfl
  have key2 : ∀ c : Cls, (if (hget c.froms .array).isNone then c.convertFrom .array .compoundFromArray else c).extended = c.extended ∧
      (if (hget c.froms .array).isNone then c.convertFrom .array .compoundFromArray else c).included = c.included ∧
      (if (hget c.froms .array).isNone then c.convertFrom .array .compoundFromArray else c).conv = c.conv ∧
      (if (hget c.froms .array).isNone then c.convertFrom .array .compoundFromArray else c).toRuby = c.toRuby ∧
      (if (hget c.froms .array).isNone then c.convertFrom .array .compoundFromArray else c).elementTo = c.elementTo ∧
      (if (hget c.froms .array).isNone then c.convertFrom .array .compoundFromArray else c).elementFrom = c.elementFrom ∧
      ∀ k, hget (if (hget c.froms .array).isNone then c.convertFrom .array .compoundFromArray else c).froms k =
        (hget c.froms k).or (if k = .array then some .compoundFromArray else none) := by
    intro c
    split
    · rename_i hn
      refine ⟨rfl, rfl, rfl, rfl, rfl, rfl, fun k => ?_⟩
      simp only [Cls.convertFrom, hget_hput]
      by_cases e : RClass.array = k
      · subst e; rw [Option.isNone_iff_eq_none.mp hn]; simp
      · rw [if_neg e, if_neg (Ne.symm e)]; cases hget c.froms k <;> rfl
    · rename_i hn
      refine ⟨rfl, rfl, rfl, rfl, rfl, rfl, fun k => ?_⟩
      by_cases e : k = RClass.array
      · subst e
        cases hg : hget c.froms RClass.array with
        | none => rw [hg] at hn; exact absurd rfl hn
        | some x => rfl
      · rw [if_neg e]; cases hget c.froms k <;> rfl
  simp only [compoundInit]
  generalize hc0 : (if b = true then { c with contains := true } else c) = c0
  obtain ⟨a1, a2, a3, a4, a5, a6, a7⟩ := key c0
  generalize (if (hget c0.froms .hash).isNone then c0.convertFrom .hash .compoundFromHash else c0) = c1 at *
  obtain ⟨b1, b2, b3, b4, b5, b6, b7⟩ := key2 c1
  have hs : c0.extended = c.extended ∧ c0.included = c.included ∧ c0.conv = c.conv ∧ c0.toRuby = c.toRuby ∧
      c0.elementTo = c.elementTo ∧ c0.elementFrom = c.elementFrom ∧ c0.froms = c.froms := by
    subst hc0; split <;> exact ⟨rfl, rfl, rfl, rfl, rfl, rfl, rfl⟩
  obtain ⟨d1, d2, d3, d4, d5, d6, d7⟩ := hs
  refine ⟨(b1.trans a1).trans d1, (b2.trans a2).trans d2, (b3.trans a3).trans d3, (b4.trans a4).trans d4, (b5.trans a5).trans d5,
    (b6.trans a6).trans d6, fun k => ?_⟩
  rw [b7, a7, d7]
  cases k <;> cases hget c.froms _ <;> rfl

theorem classOf_local {cu : Cust} {pre : List Op} (h : CustHolds cu pre) {t : TId} (hn : PlainName (H.name t)) (cls : TId → Cls) :
    Local H rx pre cls t (classOf H rx cu cls t) := by
  obtain ⟨h1, h2, h3, h4, h5, h6⟩ := typeInit_spec (rx := rx) h hn rfl
  have he := typeInit_elements (H := H) (rx := rx) cu t
  unfold classOf
  cases hk : H.kind t with
  | arr d e => exact arrayInit_local hk ⟨h1, h2, h3, h4, h5⟩ he
  | vec e => exact containerInit_local (.inl hk) ⟨h1, h2, h3, h4, h5⟩
  | str e => exact containerInit_local (.inr hk) ⟨h1, h2, h3, h4, h5⟩
  | comp fs =>
    obtain ⟨a1, a2, a3, a4, a5, a6, a7⟩ := compoundInit_spec (fs.any fun f => (cls f.ty).contains) (typeInit H rx cu t .blank)
    refine ⟨a1.trans h1, a2.trans h2, fun k => ?_, (fun x hx => by rw [hk] at hx; cases hx), fun _ => a4.trans h4, fun _ _ => a3.trans h5,
      (fun cat hc => by rw [hk] at hc; cases hc), ?_, ?_⟩
    · simp only
      rw [a7, h3]
      unfold fromOf
      rw [hk]
      cases k <;> rfl
    · simp only
      rw [a5, he.1]
      refine ⟨(fun h => by cases h), ?_⟩
      rintro ⟨x, hx, _⟩; rw [hk] at hx; rcases hx with hx | hx <;> cases hx
    · simp only
      rw [a6, he.2]
      refine ⟨(fun h => by cases h), ?_⟩
      rintro ⟨x, hx, _⟩; rw [hk] at hx; rcases hx with hx | hx <;> cases hx
  | num cat =>
    have hb : ∀ cat c, (numericInit cat c).extended = c.extended ∧ (numericInit cat c).included = c.included ∧
        (numericInit cat c).froms = c.froms ∧ (numericInit cat c).toRuby = c.toRuby ∧ (numericInit cat c).elementTo = c.elementTo ∧
        (numericInit cat c).elementFrom = c.elementFrom ∧
        (numericInit cat c).conv = some ⟨some (if cat = .float then .float else .numeric), true⟩ := by
      intro cat c; cases cat <;> exact ⟨rfl, rfl, rfl, rfl, rfl, rfl, rfl⟩
    obtain ⟨a1, a2, a3, a4, a5, a6, a7⟩ := hb cat (typeInit H rx cu t .blank)
    refine ⟨a1.trans h1, a2.trans h2, fun k => ?_, (fun x hx => by rw [hk] at hx; cases hx), fun _ => a4.trans h4,
      (fun _ hi => absurd ⟨cat, hk⟩ hi), ?_, ?_, ?_⟩
    · simp only
      rw [a3, h3]
      unfold fromOf
      rw [hk]
      cases hd : declaredFrom H rx pre t k <;> cases k <;> rfl
    · intro cat' hc; rw [hk] at hc; injection hc with hc; subst hc; exact a7
    · simp only
      rw [a5, he.1]
      refine ⟨(fun h => by cases h), ?_⟩
      rintro ⟨x, hx, _⟩; rw [hk] at hx; rcases hx with hx | hx <;> cases hx
    · simp only
      rw [a6, he.2]
      refine ⟨(fun h => by cases h), ?_⟩
      rintro ⟨x, hx, _⟩; rw [hk] at hx; rcases hx with hx | hx <;> cases hx
  | _ =>
    refine ⟨h1, h2, fun k => ?_, (fun x hx => by rw [hk] at hx; cases hx), fun _ => h4, fun _ _ => h5,
      (fun cat hc => by rw [hk] at hc; cases hc), ?_, ?_⟩
    · simp only
      rw [h3]
      unfold fromOf
      rw [hk]
      cases hd : declaredFrom H rx pre t k <;> cases k <;> rfl
    · simp only
      rw [he.1]
      refine ⟨(fun h => by cases h), ?_⟩
      rintro ⟨x, hx, _⟩; rw [hk] at hx; rcases hx with hx | hx <;> cases hx
    · simp only
      rw [he.2]
      refine ⟨(fun h => by cases h), ?_⟩
      rintro ⟨x, hx, _⟩; rw [hk] at hx; rcases hx with hx | hx <;> cases hx

theorem hget_empty {κ β : Type} [DecidableEq κ] (h : RHash κ β) : h = [] ↔ ∀ k, hget h k = none := by
  constructor
  · rintro rfl k; rfl
  · intro hn
    cases h with
    | nil => rfl
    | cons p h => obtain ⟨k, v⟩ := p; have := hn k; simp [hget] at this

theorem needsTo_iff {pre : List Op} {cls : TId → Cls} {t : TId} {c : Cls} (h : Local H rx pre cls t c) :
    c.needsTo = true ↔ (¬ IsNum H t ∧ applicable H rx (toDecls pre) t ≠ []) ∨ ∃ e, elementOf (H.kind t) = some e ∧ (cls e).contains = true := by
  by_cases hi : IsNum H t
  · obtain ⟨cat, hk⟩ := hi
    have : c.needsTo = false := by unfold Cls.needsTo; rw [h.numbers cat hk]; rfl
    rw [this]
    refine ⟨(fun h => by cases h), ?_⟩
    rintro (h | ⟨e, he, _⟩)
    · exact absurd ⟨cat, hk⟩ h.1
    · rw [hk] at he; cases he
  · by_cases hc : ∃ e, elementOf (H.kind t) = some e ∧ (cls e).contains = true
    · obtain ⟨e, he, h2⟩ := hc
      have : c.needsTo = true := by unfold Cls.needsTo; rw [(h.toElements e he h2).2]; rfl
      exact ⟨fun _ => .inr ⟨e, he, h2⟩, fun _ => this⟩
    · have hno : ∀ e, elementOf (H.kind t) = some e → (cls e).contains = false := by
        intro e he
        cases h' : (cls e).contains with
        | false => rfl
        | true => exact absurd ⟨e, he, h'⟩ hc
      unfold Cls.needsTo
      rw [h.convTo hno hi]
      unfold declaredTo
      cases ha : applicable H rx (toDecls pre) t with
      | nil => simp [hc]
      | cons a l => simp [hi]

theorem needsFrom_iff {pre : List Op} {cls : TId → Cls} {t : TId} {c : Cls} (h : Local H rx pre cls t c) :
    c.needsFrom = true ↔ applicable H rx (fromDecls pre) t ≠ [] ∨ elementOf (H.kind t) ≠ none ∨ ∃ fs, H.kind t = .comp fs := by
  have h1 : c.needsFrom = true ↔ ¬ ∀ k, hget c.froms k = none := by
    rw [← hget_empty]
    unfold Cls.needsFrom
    cases c.froms <;> simp
  rw [h1]
  simp only [h.froms]
  have hdecl : (∀ k, declaredFrom H rx pre t k = none) ↔ applicable H rx (fromDecls pre) t = [] := by
    unfold declaredFrom
    constructor
    · intro hk
      cases ha : applicable H rx (fromDecls pre) t with
      | nil => rfl
      | cons p l =>
        have := hk p.1
        rw [ha, List.filter_cons, if_pos (by simp), Option.map_eq_none_iff, List.getLast?_eq_none_iff] at this
        cases this
    · intro ha k; rw [ha]; rfl
  have hor : ∀ {γ : Type} (a b : Option γ), a.or b = none ↔ a = none ∧ b = none := by
    intro γ a b; cases a <;> simp
  have hall : (∀ k, fromOf H rx pre t k = none) ↔ (∀ k, declaredFrom H rx pre t k = none) ∧ ∀ k, defaultFrom (H.kind t) k = none := by
    unfold fromOf
    cases elementOf (H.kind t) with
    | none => simp only [hor]; exact ⟨fun h => ⟨fun k => (h k).1, fun k => (h k).2⟩, fun h k => ⟨h.1 k, h.2 k⟩⟩
    | some e => simp only [hor]; exact ⟨fun h => ⟨fun k => (h k).2, fun k => (h k).1⟩, fun h k => ⟨h.2 k, h.1 k⟩⟩
  have hdef : (∀ k, defaultFrom (H.kind t) k = none) ↔ elementOf (H.kind t) = none ∧ ¬ ∃ fs, H.kind t = .comp fs := by
    constructor
    · intro hk
      have := hk .array
      cases hkk : H.kind t <;> rw [hkk] at this <;> simp [defaultFrom, elementOf] at this ⊢
    · rintro ⟨a, b⟩ k
      cases hkk : H.kind t <;> rw [hkk] at a <;> simp [elementOf] at a
      case comp fs => exact absurd ⟨fs, hkk⟩ b
      all_goals cases k <;> rfl
  rw [hall, hdecl, hdef]
  constructor
  · intro h
    by_cases a : applicable H rx (fromDecls pre) t = []
    · by_cases b : elementOf (H.kind t) = none
      · by_cases c : ∃ fs, H.kind t = .comp fs
        · exact .inr (.inr c)
        · exact absurd ⟨a, b, c⟩ h
      · exact .inr (.inl b)
    · exact .inl a
  · rintro (a | a | a) ⟨h1, h2, h3⟩
    · exact a h1
    · exact a h2
    · exact h3 a

theorem class_spec {ops : List Op} {s : St} (h : Inv H rx ops s) (hn : ∀ t, PlainName (H.name t)) {t : TId} {c : Cls}
    (hc : s.classes t = some c) : ∃ pre, FirstUse H ops t pre ∧ ClassSpec H rx ops pre t c := by
  obtain ⟨pre, cu, hf, hcu, he⟩ := h.classes t c hc
  have l := classOf_local (rx := rx) hcu (hn t) s.cls
  rw [← he] at l
  have hcls : ∀ e, Contains H t e → ∃ ce, s.classes e = some ce ∧ s.cls e = ce := by
    intro e hce
    obtain ⟨ce, h1⟩ := Option.isSome_iff_exists.mp (h.closed t e (by rw [hc]; rfl) hce)
    exact ⟨ce, h1, cls_eq h1⟩
  have hel : ∀ {t e : TId}, elementOf (H.kind t) = some e → Contains H t e := by
    intro t e h'
    cases hk : H.kind t <;> rw [hk] at h' <;> simp [elementOf] at h' <;> subst h'
    · exact .arr hk
    · exact .vec hk
    · exact .str hk
  have hcon : ∀ e, elementOf (H.kind t) = some e → ((s.cls e).contains = true ↔ Converted H rx ops e) := by
    intro e hee
    obtain ⟨ce, h1, h2⟩ := hcls e (hel hee)
    rw [h2]; exact contains_iff h hn h1
  have hno : (∀ e, elementOf (H.kind t) = some e → ¬ Converted H rx ops e) → ∀ e, elementOf (H.kind t) = some e → (s.cls e).contains = false := by
    intro hh e hee
    have := hh e hee
    rw [← hcon e hee] at this
    simpa using this
  have hve : ∀ e, H.kind t = .vec e ∨ H.kind t = .str e → Contains H t e := by
    rintro e (h | h)
    · exact .vec h
    · exact .str h
  have hlocal : ∀ e, H.kind t = .vec e ∨ H.kind t = .str e → ∃ pre', FirstUse H ops e pre' ∧ Local H rx pre' s.cls e (s.cls e) ∧
      ∀ x, elementOf (H.kind e) = some x → ((s.cls x).contains = true ↔ Converted H rx ops x) := by
    intro e hke
    obtain ⟨ce, h1, h2⟩ := hcls e (hve e hke)
    obtain ⟨pre', cu', g1, g2, g3⟩ := h.classes e ce h1
    refine ⟨pre', g1, ?_, fun x hx => ?_⟩
    · rw [h2, g3]; exact classOf_local g2 (hn e) s.cls
    · obtain ⟨cx, hcx⟩ := Option.isSome_iff_exists.mp (h.closed e x (by rw [h1]; rfl) (hel hx))
      rw [cls_eq hcx]; exact contains_iff h hn hcx
  refine ⟨pre, hf, l.extended, l.included, l.froms, fun e hee hce => l.toElements e hee ((hcon e hee).mpr hce), fun hh => l.to (hno hh),
    fun hh hi => l.convTo (hno hh) hi, l.numbers, contains_iff h hn hc, ?_, ?_⟩
  · rw [l.elementTo]
    constructor
    · rintro ⟨e, hke, hne⟩
      obtain ⟨pre', g1, g2, g3⟩ := hlocal e hke
      refine ⟨e, hke, ?_⟩
      rcases (needsTo_iff g2).mp hne with ⟨a, b⟩ | ⟨x, hx, b⟩
      · exact .inl ⟨a, pre', g1, b⟩
      · exact .inr ⟨x, hx, (g3 x hx).mp b⟩
    · rintro ⟨e, hke, hne⟩
      obtain ⟨pre', g1, g2, g3⟩ := hlocal e hke
      refine ⟨e, hke, (needsTo_iff g2).mpr ?_⟩
      rcases hne with ⟨a, p, hp, b⟩ | ⟨x, hx, b⟩
      · rw [hp.unique g1] at b; exact .inl ⟨a, b⟩
      · exact .inr ⟨x, hx, (g3 x hx).mpr b⟩
  · rw [l.elementFrom]
    constructor
    · rintro ⟨e, hke, hne⟩
      obtain ⟨pre', g1, g2, g3⟩ := hlocal e hke
      refine ⟨e, hke, ?_⟩
      rcases (needsFrom_iff g2).mp hne with a | a | a
      · exact .inl ⟨pre', g1, a⟩
      · exact .inr (.inl a)
      · exact .inr (.inr a)
    · rintro ⟨e, hke, hne⟩
      obtain ⟨pre', g1, g2, g3⟩ := hlocal e hke
      refine ⟨e, hke, (needsFrom_iff g2).mpr ?_⟩
      rcases hne with ⟨p, hp, b⟩ | a | a
      · rw [hp.unique g1] at b; exact .inl b
      · exact .inr (.inl a)
      · exact .inr (.inr a)

/-! ### Theorems -/

/-- the declarations `ds`, made in this order -/
def declare {α : Type} (ds : List (Decl α)) : Mapping α := ds.foldl (fun m d => m.add d.key ⟨d.cond, d.value⟩) .new

theorem holds_declare {α : Type} (ds : List (Decl α)) : Holds (declare ds) ds := by
  have key : ∀ (l : List (Decl α)) (m : Mapping α) (ds : List (Decl α)), Holds m ds →
      Holds (l.foldl (fun m d => m.add d.key ⟨d.cond, d.value⟩) m) (ds ++ l) := by
    intro l
    induction l with
    | nil => intro m ds h; simpa using h
    | cons d l ih =>
      intro m ds h
      have := ih _ _ (holds_add h d.key d.cond d.value)
      simpa using this
  simpa [declare] using key ds _ [] holds_new

/-- **C68, declarations**: after any sequence of declarations, looking for those of a type gives the ones whose key designates the type
and whose condition accepts it, by precedence: for the kind of the type, for its name, for a regexp that matches its name. -/
theorem C68_declarations {α : Type} (ds : List (Decl α)) (t : TId) (hn : PlainName (H.name t)) :
    (declare ds).findAll H rx t = applicable H rx ds t ∧
    ∀ v, v ∈ (declare ds).findAll H rx t ↔ ∃ d ∈ ds, d.value = v ∧ d.cond t = true ∧ d.key.Matches H rx t := by
  have h := findAll_eq (rx := rx) (holds_declare ds) hn
  exact ⟨h, fun v => by rw [h]; exact applicable_iff H rx ds t v⟩

theorem inv_of_run {fuel : Nat} {ops : List Op} {s : St} (hno : NoOpts ops) (h : run H rx fuel .new ops = .ok s) : Inv H rx ops s := by
  simpa using inv_run ops inv_new hno h

/-- **C68, classes**: after any history, the types that have a class are those that were used and their parts. -/
theorem C68_classes {fuel : Nat} {ops : List Op} {s : St} (hno : NoOpts ops) (h : run H rx fuel .new ops = .ok s) (t : TId) :
    (s.classes t).isSome ↔ ∃ w, Op.wrap w ∈ ops ∧ Part H w t := (inv_of_run hno h).made t

/-- **C68, what a class shows**: after any history, the class of a type holds the declarations made before the first use of a type that
contains it. -/
theorem C68_class_partial {fuel : Nat} {ops : List Op} {s : St} (hno : NoOpts ops) (hn : ∀ t, PlainName (H.name t))
    (h : run H rx fuel .new ops = .ok s) {t : TId} {c : Cls} (hc : s.classes t = some c) :
    ∃ pre, FirstUse H ops t pre ∧ ClassSpec H rx ops pre t c := class_spec (inv_of_run hno h) hn hc

theorem run_append {fuel : Nat} : ∀ (a b : List Op) (s s2 : St), run H rx fuel s (a ++ b) = .ok s2 →
    ∃ s1, run H rx fuel s a = .ok s1 ∧ run H rx fuel s1 b = .ok s2
  | [], _, s, _, h => ⟨s, rfl, h⟩
  | o :: a, b, s, s2, h => by
    obtain ⟨s0, h0, h⟩ := Res.bind_eq_ok.mp h
    obtain ⟨s1, h1, h2⟩ := run_append a b s0 s2 h
    exact ⟨s1, Res.bind_eq_ok.mpr ⟨s0, h0, h1⟩, h2⟩

/-- **C68, stability**: the class of a type never changes once it exists, whatever is declared afterwards. -/
theorem C68_stable {fuel : Nat} {ops ops' : List Op} {s s' : St} (hno : NoOpts (ops ++ ops')) (h : run H rx fuel .new ops = .ok s)
    (h' : run H rx fuel .new (ops ++ ops') = .ok s') {t : TId} {c : Cls} (hc : s.classes t = some c) : s'.classes t = some c := by
  obtain ⟨s1, h1, h2⟩ := run_append ops ops' _ _ h'
  rw [h] at h1; injection h1 with h1; subst h1
  have hi := inv_of_run (fun k c b hm => hno k c b (List.mem_append_left _ hm)) h
  have key : ∀ (os : List Op) {ops : List Op} {s s' : St}, Inv H rx ops s → NoOpts os → run H rx fuel s os = .ok s' → s.classes t = some c →
      s'.classes t = some c := by
    intro os
    induction os with
    | nil => intro ops s s' _ _ hr hc; injection hr with hr; subst hr; exact hc
    | cons o os ih =>
      intro ops s s' hi hno hr hc
      obtain ⟨s1, h1, hr⟩ := Res.bind_eq_ok.mp hr
      have i1 := inv_step hi o (fun k c b hm => hno k c b (by rw [List.mem_singleton] at hm; rw [hm]; exact List.mem_cons_self ..)) h1
      refine ih i1 (fun k c b hm => hno k c b (List.mem_cons_of_mem _ hm)) hr ?_
      cases o with
      | wrap w => exact (wrap_made fuel s s1 w hi.closed hi.norec h1).keep t c hc
      | _ => injection h1 with h1; subst h1; exact hc
  exact key ops' hi (fun k c b hm => hno k c b (List.mem_append_right _ hm)) h2 hc

/-- **C68 fails for recursive types** (`struct Node { std::vector<Node> children; }`): getting the class of such a type never ends. -/
theorem C68_recursive_counterexample {fuel : Nat} {ops : List Op} {w : TId} (hno : NoOpts ops) (hw : Op.wrap w ∈ ops)
    (hr : Recursive H w) (s : St) : run H rx fuel .new ops ≠ .ok s := by
  intro h
  have hi := inv_of_run hno h
  exact acc_norec (hi.norec w ((hi.made w).mpr ⟨w, hw, .refl w⟩)) hr

theorem wrapFields_ok {rec : St → TId → Res St} : ∀ {fs : List FieldD}, (∀ f ∈ fs, ∀ s, ∃ s', rec s f.ty = .ok s') →
    ∀ s, ∃ s', wrapFields rec s fs = .ok s'
  | [], _, s => ⟨s, rfl⟩
  | f :: fs, h, s => by
    obtain ⟨s1, h1⟩ := h f (by simp) s
    obtain ⟨s2, h2⟩ := wrapFields_ok (fun g hg => h g (List.mem_cons_of_mem _ hg)) s1
    exact ⟨s2, Res.bind_eq_ok.mpr ⟨s1, h1, h2⟩⟩

theorem wrap_step {f : Nat} {t : TId} (h : ∀ u, Contains H t u → ∀ s, ∃ s', wrap H rx f s u = .ok s') (s : St) :
    ∃ s', wrap H rx (f + 1) s t = .ok s' := by
  unfold wrap
  split
  · exact ⟨s, rfl⟩
  · have key : ∀ (r : Res St), (∃ s', r = .ok s') → ∃ s', (r >>= fun s => .ok (s.insert t (classOf H rx s.cust s.cls t))) = .ok s' := by
      rintro r ⟨s', rfl⟩; exact ⟨_, rfl⟩
    apply key
    cases hk : H.kind t with
    | comp fs => exact wrapFields_ok (fun g hg => h _ (.field hk hg)) s
    | arr d e => exact h e (.arr hk) s
    | vec e => exact h e (.vec hk) s
    | str e => exact h e (.str hk) s
    | _ => exact ⟨s, rfl⟩

theorem wrap_ends (hd : ∀ t, t < H.next → ∀ u, Contains H t u → u < H.next) :
    ∀ (f : Nat) (t : TId) (seen : List TId), seen.Nodup → (∀ s ∈ seen, s < H.next) → t < H.next →
      (∀ s ∈ seen, ∃ v, Contains H s v ∧ Part H v t) → ¬ Recursive H t →
      H.next < seen.length + f → ∀ s, ∃ s', wrap H rx f s t = .ok s' := by
  intro f
  induction f with
  | zero =>
    intro t seen hn hlt _ _ _ hlen
    have := Merge.length_le_of_nodup H.next seen hn hlt
    omega
  | succ f ih =>
    intro t seen hn hlt ht hs hr hlen
    have hts : t ∉ seen := by
      intro hm
      obtain ⟨v, h1, h2⟩ := hs t hm
      exact hr ⟨t, v, .refl t, h1, h2⟩
    refine wrap_step (fun u hc => ih u (t :: seen) (List.nodup_cons.mpr ⟨hts, hn⟩) ?_ (hd t ht u hc) ?_ ?_ ?_)
    · intro s hs'
      rcases List.mem_cons.mp hs' with rfl | hs'
      · exact ht
      · exact hlt s hs'
    · intro s hs'
      rcases List.mem_cons.mp hs' with rfl | hs'
      · exact ⟨u, hc, .refl u⟩
      · obtain ⟨v, h1, h2⟩ := hs s hs'
        exact ⟨v, h1, h2.trans (.step hc (.refl u))⟩
    · rintro ⟨x, y, h1, h2, h3⟩
      exact hr ⟨x, y, .step hc h1, h2, h3⟩
    · simp only [List.length_cons]; omega

/-- **C68, termination**: a history that only uses types of the registry that do not contain themselves runs to its end. -/
theorem C68_terminates (hd : ∀ t, t < H.next → ∀ u, Contains H t u → u < H.next) (ops : List Op)
    (hw : ∀ w, Op.wrap w ∈ ops → w < H.next ∧ ¬ Recursive H w) : ∃ fuel s, run H rx fuel .new ops = .ok s := by
  refine ⟨H.next + 1, ?_⟩
  have key : ∀ (os : List Op) (s : St), (∀ w, Op.wrap w ∈ os → w < H.next ∧ ¬ Recursive H w) →
      ∃ s', run H rx (H.next + 1) s os = .ok s' := by
    intro os
    induction os with
    | nil => exact fun s _ => ⟨s, rfl⟩
    | cons o os ih =>
      intro s hw
      have : ∃ s1, step H rx (H.next + 1) s o = .ok s1 := by
        cases o with
        | wrap w =>
          obtain ⟨h1, h2⟩ := hw w (List.mem_cons_self ..)
          exact wrap_ends hd (H.next + 1) w [] .nil (fun s hs => by cases hs) h1 (fun s hs => by cases hs) h2 (by simp) s
        | _ => exact ⟨_, rfl⟩
      obtain ⟨s1, h1⟩ := this
      obtain ⟨s2, h2⟩ := ih s1 (fun w hm => hw w (List.mem_cons_of_mem _ hm))
      exact ⟨s2, Res.bind_eq_ok.mpr ⟨s1, h1, h2⟩⟩
  exact key ops _ hw

/-! ### Concrete cases -/

/-- `struct Time { int32_t sec; }; struct Log { std::vector<Time> stamps; int32_t n; };` with `Time[3]`, `bool` and `std::vector<bool>` -/
def exHeap : Heap :=
  ⟨7, fun t =>
    if t = 0 then ⟨"/int32_t".toList, 4, .num .sint⟩
    else if t = 1 then ⟨"/Time".toList, 4, .comp [⟨"sec".toList, 0, 0⟩]⟩
    else if t = 2 then ⟨"/Time[3]".toList, 12, .arr 3 1⟩
    else if t = 3 then ⟨"/std/vector</Time>".toList, 24, .vec 1⟩
    else if t = 4 then ⟨"/Log".toList, 32, .comp [⟨"stamps".toList, 0, 3⟩, ⟨"n".toList, 24, 0⟩]⟩
    else if t = 5 then ⟨"/bool".toList, 1, .num .uint⟩
    else if t = 6 then ⟨"/std/vector</bool>".toList, 24, .vec 5⟩
    else ⟨[], 0, .null⟩⟩

/-- no regexp -/
def exRx : Nat → Str → Bool := fun _ _ => false

def always : TId → Bool := fun _ => true

/-- the class of a type after a history -/
def classAfter (H : Heap) (rx : Nat → Str → Bool) (fuel : Nat) (ops : List Op) (t : TId) : Option Cls :=
  match run H rx fuel .new ops with
  | .ok s => s.classes t
  | _ => none

/-- declarations for `Time`, its arrays and the vectors, then `Log` is used, then more is declared, then `Time[3]` is used -/
def exOps : List Op :=
  [.specialize (.str "/Time".toList) always 1,
   .specializeModel (.str "/std/vector<>".toList) always 2,
   .convertTo (.str "/Time".toList) (some (.other 7)) always 3,
   .convertTo (.str "/Time".toList) (some (.other 8)) always 4,
   .convertFrom (.other 7) (.str "/Time".toList) always 5,
   .convertFrom (.other 7) (.str "/Time".toList) always 6,
   .wrap 4,
   .specialize (.str "/Time".toList) always 9,
   .specialize (.str "/Time[]".toList) always 10,
   .wrap 2]

example : classAfter exHeap exRx 10 exOps 1 = some
    { extended := []
      included := [1]
      froms := [(.other 7, .user 6), (.hash, .compoundFromHash), (.array, .compoundFromArray)]
      conv := some ⟨some (.other 7), false⟩
      toRuby := some (.user 3)
      contains := true
      elementTo := false
      elementFrom := false } := by decide +kernel

example : classAfter exHeap exRx 10 exOps 3 = some
    { extended := [2]
      included := []
      froms := [(.array, .containerFromRuby), (.deepCopyArray, .containerFromRuby)]
      conv := some ⟨some .array, false⟩
      toRuby := some .containerToRuby
      contains := true
      elementTo := true
      elementFrom := true } := by decide +kernel

example : classAfter exHeap exRx 10 exOps 2 = some
    { extended := []
      included := [10]
      froms := [(.array, .arrayFromRuby)]
      conv := some ⟨some .array, false⟩
      toRuby := some .arrayToRuby
      contains := true
      elementTo := false
      elementFrom := false } := by decide +kernel

theorem plain_of {s : Str} (h1 : suffix2 s ≠ some "<>".toList) (h2 : suffix2 s ≠ some "[]".toList) : PlainName s := by
  intro a
  constructor
  · intro h; rw [h] at h1; exact h1 (suffix2_append a '<' '>').1
  · intro h; rw [h] at h2; exact h2 (suffix2_append a '[' ']').1

theorem exPlain (t : TId) : PlainName (exHeap.name t) := by
  unfold Heap.name exHeap
  simp only
  repeat' split
  all_goals exact plain_of (by decide +kernel) (by decide +kernel)

theorem exNoOpts : NoOpts exOps := by
  intro k c b h
  simp [exOps] at h

theorem exDeps : ∀ t, t < exHeap.next → ∀ u, Contains exHeap t u → u < exHeap.next := by
  have : ∀ t u, Contains exHeap t u → u ∈ (exHeap.kind t).deps := by
    intro t u h
    cases h with
    | field hk hm => rw [hk]; exact List.mem_map.mpr ⟨_, hm, rfl⟩
    | arr hk => rw [hk]; exact List.mem_singleton.mpr rfl
    | vec hk => rw [hk]; exact List.mem_singleton.mpr rfl
    | str hk => rw [hk]; exact List.mem_singleton.mpr rfl
  intro t ht u h
  have hu := this t u h
  revert u
  have : ∀ t ∈ List.range 7, ∀ u ∈ (exHeap.kind t).deps, u < exHeap.next := by decide +kernel
  exact fun u _ hu => this t (List.mem_range.mpr ht) u hu

/-- every type of the example is met by the theorem -/
example : ∃ s, run exHeap exRx 10 .new exOps = .ok s ∧ (∀ t, t ≤ 4 → (s.classes t).isSome) ∧
    ∀ t c, s.classes t = some c → ∃ pre, FirstUse exHeap exOps t pre ∧ ClassSpec exHeap exRx exOps pre t c := by
  cases h : run exHeap exRx 10 .new exOps with
  | ok s =>
    refine ⟨s, rfl, fun t ht => ?_, fun t c hc => C68_class_partial exNoOpts exPlain h hc⟩
    have hall : ∀ t ∈ List.range 5, (classAfter exHeap exRx 10 exOps t).isSome := by decide +kernel
    have := hall t (List.mem_range.mpr (Nat.lt_succ_of_le ht))
    rw [classAfter, h] at this
    exact this
  | _ =>
    have hall : (classAfter exHeap exRx 10 exOps 1).isSome := by decide +kernel
    rw [classAfter, h] at hall
    cases hall

example : ∃ fuel s, run exHeap exRx fuel .new exOps = .ok s :=
  C68_terminates exDeps exOps (fun w hw => by
    have : w = 4 ∨ w = 2 := by simpa [exOps] using hw
    have hi : ∀ s, run exHeap exRx 10 .new exOps = .ok s → ¬ Recursive exHeap w := by
      intro s hs hr
      exact C68_recursive_counterexample exNoOpts hw hr s hs
    cases h : run exHeap exRx 10 .new exOps with
    | ok s => exact ⟨by rcases this with rfl | rfl <;> decide, hi s h⟩
    | _ =>
      have hall : (classAfter exHeap exRx 10 exOps 1).isSome := by decide +kernel
      rw [classAfter, h] at hall
      cases hall)

example : (declare [⟨.str "/Time[]".toList, always, 1⟩, ⟨.str "/Time[3]".toList, always, 2⟩, ⟨.regexp 0, always, 3⟩,
      ⟨.str "/Time".toList, always, 4⟩, ⟨.str "/Time[]".toList, fun _ => false, 5⟩, ⟨.str "/Time[]".toList, always, 6⟩]).findAll exHeap
      (fun _ _ => true) 2 = [1, 6, 2, 3] := by decide +kernel

/-- `nodeHeap` holds `struct Node { std::vector<Node> children; … }` -/
example (rx : Nat → Str → Bool) (fuel : Nat) (s : St) : run nodeHeap rx fuel .new [.wrap 1] ≠ .ok s :=
  C68_recursive_counterexample (fun k c b h => by simp at h) (List.mem_singleton.mpr rfl) node_recursive s

/-! ### What does not hold -/

/-- **Counterexample to C68**: a conversion declared for `Time[3]` by name is overridden by the default conversion of the arrays with converted
elements, contrary to what array_type.rb:128-129 tells. -/
theorem C68_array_override_counterexample :
    (classAfter exHeap exRx 10 [.convertTo (.str "/Time".toList) none always 1, .convertTo (.str "/Time[3]".toList) (some (.other 7)) always 2,
      .wrap 2] 2).map (fun c => (c.toRuby, c.conv)) = some (some .arrayToRuby, some ⟨some .array, false⟩) ∧
    (classAfter exHeap exRx 10 [.convertTo (.str "/Time[3]".toList) (some (.other 7)) always 2, .wrap 2] 2).map (fun c => (c.toRuby, c.conv)) =
      some (some (.user 2), some ⟨some (.other 7), false⟩) := by
  constructor <;> decide +kernel

/-- **Counterexample to C68**: a conversion of `Array` declared for a container or array is never used, one for a compound is. -/
theorem C68_from_array_counterexample :
    (classAfter exHeap exRx 10 [.convertFrom .array (.str "/std/vector</Time>".toList) always 1, .wrap 3] 3).map (fun c => hget c.froms .array) =
      some (some .containerFromRuby) ∧
    (classAfter exHeap exRx 10 [.convertFrom .array (.str "/Time".toList) always 1, .wrap 3] 1).map (fun c => hget c.froms .array) =
      some (some (.user 1)) := by
  constructor <;> decide +kernel

/-- **Counterexample to C68**: a conversion declared for a number (as `standard_convertions.rb` does for `/bool`) is on the class, but the type
is not considered as converted: the elements of `std::vector<bool>` are not converted. -/
theorem C68_number_counterexample :
    (classAfter exHeap exRx 10 [.convertTo (.str "/bool".toList) none always 1, .wrap 6] 5).map (fun c => (c.toRuby, c.needsTo, c.contains)) =
      some (some (.user 1), false, false) ∧
    (classAfter exHeap exRx 10 [.convertTo (.str "/bool".toList) none always 1, .wrap 6] 6).map (fun c => (c.elementTo, c.contains)) =
      some (false, false) := by
  constructor <;> decide +kernel

/-- **Counterexample to C68**: the condition of `Typelib.convert_to_ruby(key, if: condition)` is lost (specializations.rb:304-306): the types it
rejects are converted too. -/
theorem C68_condition_counterexample :
    (classAfter exHeap exRx 10 [.convertToOpts (.str "/Time".toList) (fun _ => false) 1, .wrap 1] 1).map (·.toRuby) = some (some (.user 1)) ∧
    applicable exHeap exRx (toDecls [.convertToOpts (.str "/Time".toList) (fun _ => false) 1]) 1 = [] := by
  constructor <;> decide +kernel

/-- **Counterexample to C68**: a declaration made after the first use of the type has no effect, even if it is made before the first use of the
values: here `specialize` after `Log` was used. -/
theorem C68_late_counterexample :
    (classAfter exHeap exRx 10 [.wrap 4, .specialize (.str "/Time".toList) always 1] 1).map (·.included) = some [] ∧
    (classAfter exHeap exRx 10 [.specialize (.str "/Time".toList) always 1, .wrap 4] 1).map (·.included) = some [1] := by
  constructor <;> decide +kernel

end Verif.RubyCustom
