import Verif.GccxmlWorld

/-!
Property C71: what the importer keeps true, function by function.
-/

namespace Verif.Gccxml
open Verif Verif.Names Verif.Graph Verif.Registry Verif.TypeBuilder Verif.Merge Verif.RubyBuilder Verif.CompoundModel Verif.RubyNames
open Verif.Clang (kind_new size_new name_new abs_app)
open Verif.RubyConvert (num2int)

variable {key : Char → Int} {P : Prog} {S : Sem} {K : Str → Prop}

/-- The invariant of the loader: the names it knows denote what the nodes are, there is a reason for what is ignored, the empty classes
have no data, the class `std::string` is registered, and so is what was known before. -/
structure SGood (key : Char → Int) (P : Prog) (S : Sem) (K : Str → Prop) (s : St) : Prop where
  good : Good key P S s.w
  names : ∀ i n, s.names i = some n → isAbsoluteName n = true ∧ S.den n = some (S.ty i)
  empty : ∀ i ∈ s.empty, S.ty i = .record i ∧ NoData P S i ∧ Unknown P K i
  ign : ∀ i ∈ s.ign, Refused P S K i ∨ i ∈ s.empty
  string : ∀ n, StringClass P n → s.w.2.reg n ≠ none
  known : ∀ n, K n → s.w.2.reg n ≠ none

/-- the node is not to be imported, or it is registered under its name -/
def Done (P : Prog) (S : Sem) (K : Str → Prop) (s : St) (i : Nat) : Prop :=
  Gone P S K i ∨ ∀ nd n, P.nodes[i]? = some nd → nd.name = some n → s.w.2.reg n ≠ none

/-- what is in `id_to_name` that was not there is done -/
structure Keep (P : Prog) (S : Sem) (K : Str → Prop) (s s' : St) : Prop where
  ext : Ext s.w s'.w
  empty : ∀ i ∈ s.empty, i ∈ s'.empty
  done : ∀ i, s'.names i ≠ none → s.names i ≠ none ∨ Done P S K s' i
  kept : ∀ i, s.names i ≠ none → s'.names i ≠ none

theorem _root_.Verif.Gccxml.Ext.reg {w w' : World} (h : Ext w w') {n : Str} (hn : w.2.reg n ≠ none) : w'.2.reg n ≠ none := by
  cases e : w.2.reg n with
  | none => exact absurd e hn
  | some t => rw [h.names n t e]; simp

theorem Done.ext {s s' : St} {i : Nat} (h : Ext s.w s'.w) (hd : Done P S K s i) : Done P S K s' i := by
  rcases hd with hd | hd
  · exact Or.inl hd
  · exact Or.inr fun nd n h1 h2 => h.reg (hd nd n h1 h2)

theorem Keep.refl (s : St) : Keep P S K s s := ⟨Ext.refl _, fun _ h => h, fun _ h => Or.inl h, fun _ h => h⟩

theorem Keep.trans {a b c : St} (h : Keep P S K a b) (h' : Keep P S K b c) : Keep P S K a c := by
  refine ⟨h.ext.trans h'.ext, fun i hi => h'.empty i (h.empty i hi), fun i hi => ?_, fun i hi => h'.kept i (h.kept i hi)⟩
  rcases h'.done i hi with hb | hb
  · rcases h.done i hb with ha | ha
    · exact Or.inl ha
    · exact Or.inr (ha.ext h'.ext)
  · exact Or.inr hb

/-- what a part of the importer does: the invariant is kept, nothing that existed is changed; if there is no exception, what is in
`id_to_name` that was not there is done, and `Q` holds -/
def PostS {α : Type} (key : Char → Int) (P : Prog) (S : Sem) (K : Str → Prop) (s : St) (o : St × Res α) (Q : St → α → Prop) : Prop :=
  SGood key P S K o.1 ∧ Ext s.w o.1.w ∧ ∀ a, o.2 = .ok a → Keep P S K s o.1 ∧ Q o.1 a

theorem PostS.ret {α : Type} {s : St} (hg : SGood key P S K s) {r : Res α} {Q : St → α → Prop}
    (h : ∀ a, r = .ok a → Q s a) : PostS key P S K s (s, r) Q := ⟨hg, Ext.refl _, fun a ha => ⟨Keep.refl s, h a ha⟩⟩

theorem PostS.ok {α : Type} {s : St} (hg : SGood key P S K s) {a : α} {Q : St → α → Prop}
    (h : Q s a) : PostS key P S K s (s, .ok a) Q := .ret hg (fun b hb => by injection hb with hb; rw [← hb]; exact h)

theorem PostS.exn {α : Type} {s : St} (hg : SGood key P S K s) {e : Err} {Q : St → α → Prop} :
    PostS key P S K s (s, .exn e) Q := .ret hg (fun b hb => by cases hb)

theorem PostS.ub {α : Type} {s : St} (hg : SGood key P S K s) {Q : St → α → Prop} :
    PostS key P S K s (s, .ub) Q := .ret hg (fun b hb => by cases hb)

theorem PostS.fuel {α : Type} {s : St} (hg : SGood key P S K s) {Q : St → α → Prop} :
    PostS key P S K s (s, .fuel) Q := .ret hg (fun b hb => by cases hb)

theorem PostS.mono {α : Type} {s : St} {o : St × Res α} {Q Q' : St → α → Prop} (h : PostS key P S K s o Q)
    (hq : ∀ s' a, SGood key P S K s' → Keep P S K s s' → Q s' a → Q' s' a) : PostS key P S K s o Q' :=
  ⟨h.1, h.2.1, fun a ha => ⟨(h.2.2 a ha).1, hq _ a h.1 (h.2.2 a ha).1 (h.2.2 a ha).2⟩⟩

theorem PostS.ext {α : Type} {s s' : St} {o : St × Res α} {Q : St → α → Prop} (he : Keep P S K s s')
    (h : PostS key P S K s' o Q) : PostS key P S K s o Q := ⟨h.1, he.ext.trans h.2.1, fun a ha => ⟨he.trans (h.2.2 a ha).1, (h.2.2 a ha).2⟩⟩

theorem PostS.then {α β : Type} {s : St} {x : St × Res α} {Q : St → α → Prop} {f : St → α → St × Res β} {Q' : St → β → Prop}
    (hx : PostS key P S K s x Q)
    (hf : ∀ s' a, SGood key P S K s' → Keep P S K s s' → Q s' a → PostS key P S K s' (f s' a) Q') :
    PostS key P S K s (thenS x f) Q' := by
  obtain ⟨s', r⟩ := x
  obtain ⟨h1, h2, h3⟩ := hx
  cases r with
  | ok a => exact (hf s' a h1 (h3 a rfl).1 (h3 a rfl).2).ext (h3 a rfl).1
  | exn e => exact ⟨h1, h2, fun a ha => by cases ha⟩
  | ub => exact ⟨h1, h2, fun a ha => by cases ha⟩
  | fuel => exact ⟨h1, h2, fun a ha => by cases ha⟩

theorem SGood.setName {s : St} (hg : SGood key P S K s) {i : Nat} {n : Str} (hn : isAbsoluteName n = true)
    (hd : S.den n = some (S.ty i)) : SGood key P S K (s.setName i n) := by
  refine ⟨hg.good, ?_, hg.empty, hg.ign, hg.string, hg.known⟩
  intro j m h
  simp only [St.setName] at h
  split at h
  next hj =>
    injection h with h
    subst h; subst hj
    exact ⟨hn, hd⟩
  · exact hg.names j m h

theorem setName_kept {s : St} {i : Nat} {n : Str} : ∀ j, s.names j ≠ none → (s.setName i n).names j ≠ none := by
  intro j hj
  simp only [St.setName]
  split
  · exact fun h => by cases h
  · exact hj

theorem keep_setName {s : St} {i : Nat} {n : Str} (h : Done P S K s i) : Keep P S K s (s.setName i n) := by
  refine ⟨Ext.refl _, fun _ h => h, fun j hj => ?_, setName_kept⟩
  by_cases e : j = i
  · subst e; exact Or.inr h
  · simp only [St.setName, if_neg e] at hj
    exact Or.inl hj

/-- the node that is being resolved gets its name before it is done -/
theorem PostS.named {α : Type} {s : St} {i : Nat} {n : Str} {o : St × Res α} {Q : St → α → Prop}
    (h : PostS key P S K (s.setName i n) o (fun s' a => Done P S K s' i ∧ Q s' a)) : PostS key P S K s o Q := by
  refine ⟨h.1, h.2.1, fun a ha => ?_⟩
  obtain ⟨k1, k2, k3⟩ := h.2.2 a ha
  refine ⟨⟨k1.ext, k1.empty, fun j hj => ?_, fun j hj => k1.kept j (setName_kept j hj)⟩, k3⟩
  by_cases e : j = i
  · subst e; exact Or.inr k2
  · rcases k1.done j hj with h | h
    · simp only [St.setName, if_neg e] at h; exact Or.inl h
    · exact Or.inr h

theorem SGood.world {s : St} (hg : SGood key P S K s) {w : World} (hw : Good key P S w) (he : Ext s.w w) :
    SGood key P S K { s with w := w } :=
  ⟨hw, hg.names, hg.empty, hg.ign, fun n hn => he.reg (hg.string n hn), fun n hn => he.reg (hg.known n hn)⟩

theorem keep_world {s : St} {w : World} (he : Ext s.w w) : Keep P S K s { s with w := w } :=
  ⟨he, fun _ h => h, fun _ h => Or.inl h, fun _ h => h⟩

/-- an operation on the registry -/
theorem onW_post {α : Type} {s : St} (hg : SGood key P S K s) {x : World × Res α} {Q : World → α → Prop}
    (hx : Post key P S s.w x Q) : PostS key P S K s (onW s x) (fun s' a => Q s'.w a) := by
  obtain ⟨h1, h2, h3⟩ := hx
  exact ⟨hg.world h1 h2, h2, fun a ha => ⟨keep_world h2, h3 a ha⟩⟩

theorem ignore_post {s : St} (hg : SGood key P S K s) {id : Nat} {Q : St → Option Str → Prop}
    (hi : Refused P S K id ∨ id ∈ s.empty) (h : ∀ s', s'.empty = s.empty → Q s' none) :
    PostS key P S K s (ignore s id) Q := by
  refine ⟨⟨hg.good, hg.names, hg.empty, fun j hj => ?_, hg.string, hg.known⟩, Ext.refl _, fun a ha => ?_⟩
  · rcases List.mem_cons.mp hj with rfl | hj
    · exact hi
    · exact hg.ign j hj
  · simp only [ignore, Res.ok.injEq] at ha
    rw [← ha]
    exact ⟨⟨Ext.refl _, fun _ h => h, fun _ h => Or.inl h, fun _ h => h⟩, h _ rfl⟩

theorem buildS_post (hk : ∀ a b, key a = key b → a = b) (hM : Meaning P S) {s : St} (hg : SGood key P S K s) {n : Str}
    (hn : isAbsoluteName n = true) : PostS key P S K s (buildS key s n) (fun s' t => ∃ c, S.den n = some c ∧ Is P S c s'.w t) :=
  onW_post hg (rbBuild_post hk hM hg.good hn)

theorem buildS_keep (hk : ∀ a b, key a = key b → a = b) (hM : Meaning P S) {s : St} (hg : SGood key P S K s) {n : Str}
    (hn : isAbsoluteName n = true) : Keep P S K s (buildS key s n).1 :=
  keep_world (rbBuild_post hk hM hg.good hn).2.1

theorem aliasS_post (hk : ∀ a b, key a = key b → a = b) (hM : Meaning P S) {s : St} (hg : SGood key P S K s) {new old : Str}
    (ho : isAbsoluteName old = true) (habs : isAbsoluteName new = true) {c : CCT} (hn : S.den new = some c)
    (hc : ∀ t, s.w.2.reg old = some t → S.den (s.w.1.name t) = some c) :
    PostS key P S K s (aliasS key s new old) (fun s' _ => s'.w.1 = s.w.1 ∧ ∃ t, s.w.2.reg old = some t ∧ s'.w.2.reg new = some t) :=
  onW_post hg (rbAlias_post hk hM hg.good ho habs hn hc)

/-- the name that a recursive call gives denotes the node; if there is none, there is a reason -/
def Named (P : Prog) (S : Sem) (K : Str → Prop) (i : Nat) (s : St) (o : Option Str) : Prop :=
  (∀ n, o = some n → isAbsoluteName n = true ∧ S.den n = some (S.ty i)) ∧ (o = none → Refused P S K i ∨ i ∈ s.empty)

theorem Named.none {i : Nat} {s : St} (h : Refused P S K i ∨ i ∈ s.empty) : Named P S K i s none := ⟨(fun _ h => by cases h), fun _ => h⟩

theorem Named.some {i : Nat} {s : St} {n : Str} (h : isAbsoluteName n = true) (h' : S.den n = some (S.ty i)) : Named P S K i s (some n) :=
  ⟨fun m hm => by injection hm with hm; rw [← hm]; exact ⟨h, h'⟩, fun h => by cases h⟩

theorem SGood.gone {s : St} (hg : SGood key P S K s) {i : Nat} (h : Refused P S K i ∨ i ∈ s.empty) : Gone P S K i := by
  rcases h with h | h
  · exact .refused h
  · exact .empty (hg.empty i h).1 (hg.empty i h).2.1 (hg.empty i h).2.2

/-- what is asked from a recursive call -/
def RecOk (key : Char → Int) (P : Prog) (S : Sem) (K : Str → Prop) (rec : St → Nat → St × Res (Option Str)) : Prop :=
  ∀ s i, SGood key P S K s → PostS key P S K s (rec s i) (fun s' o => Named P S K i s' o)

theorem done_unnamed {s : St} {i : Nat} (h : ∀ nd n, P.nodes[i]? = some nd → nd.name ≠ some n) : Done P S K s i :=
  Or.inr fun nd n h1 h2 => absurd h2 (h nd n h1)

section
variable {rec : St → Nat → St × Res (Option Str)}

theorem resolveId_post (hr : RecOk key P S K rec) {s : St} (hg : SGood key P S K s) (i : Nat) :
    PostS key P S K s (resolveId P rec s i) (fun s' o => Named P S K i s' o) := by
  unfold resolveId
  split
  next h => exact .ok hg (Named.none (hg.ign i h))
  · cases hn : s.names i with
    | some n => exact .ok hg (Named.some (hg.names _ _ hn).1 (hg.names _ _ hn).2)
    | none =>
      simp only
      cases hnd : P.nodes[i]? with
      | none => exact .ok hg (Named.none (Or.inl (.missing hnd)))
      | some nd => exact hr s i hg

theorem resolveArgs_post (hk : ∀ a b, key a = key b → a = b) (hM : Meaning P S) (hr : RecOk key P S K rec) : ∀ (as : List Str) {s : St},
    SGood key P S K s → PostS key P S K s (resolveArgs key P rec s as) (fun _ _ => True) := by
  intro as
  induction as with
  | nil => intro s hg; exact .ok hg trivial
  | cons a as ih =>
    intro s hg
    rw [resolveArgs]
    by_cases ha : isAbsoluteName a = true
    · rw [if_neg (by simp [ha])]
      have h := buildS_post hk hM hg ha
      have hkp := buildS_keep hk hM hg ha
      generalize buildS key s a = o at h hkp
      obtain ⟨s', r⟩ := o
      obtain ⟨h1, h2, h3⟩ := h
      cases r with
      | ok t => exact (ih h1).ext hkp
      | exn e =>
        cases e
        case undefined =>
          simp only
          cases P.find a with
          | none => exact (ih h1).ext hkp
          | some i => exact PostS.ext hkp ((hr s' i h1).then fun s2 _ g2 e2 _ => ih g2)
        all_goals exact ⟨h1, h2, fun a ha => by cases ha⟩
      | ub => exact ⟨h1, h2, fun a ha => by cases ha⟩
      | fuel => exact ⟨h1, h2, fun a ha => by cases ha⟩
    · rw [if_pos (by simp [ha])]
      exact ih hg

theorem normalize_post (hk : ∀ a b, key a = key b → a = b) (hM : Meaning P S) (hr : RecOk key P S K rec) {s : St}
    (hg : SGood key P S K s) {n : Str} (hn : isAbsoluteName n = true) {c : CCT} (hc : S.den n = some c) :
    PostS key P S K s (normalize key P rec s n) (fun _ m => isAbsoluteName m = true ∧ S.den m = some c) := by
  unfold normalize
  have h := buildS_post hk hM hg hn
  have hkp := buildS_keep hk hM hg hn
  generalize buildS key s n = o at h hkp
  obtain ⟨s', r⟩ := o
  obtain ⟨h1, h2, h3⟩ := h
  cases r with
  | ok t =>
    obtain ⟨_, c', e1, e2, e3, e4⟩ := h3 t rfl
    rw [hc] at e1
    injection e1 with e1
    subst e1
    exact PostS.ext hkp (.ok h1 ⟨(h1.good.inv.reg_name e2).2.1, e4⟩)
  | exn e =>
    cases e
    case undefined =>
      exact PostS.ext hkp ((resolveArgs_post hk hM hr _ h1).then fun s2 _ g2 e2 _ => .ok g2 (hM.canon n c hn hc))
    all_goals exact ⟨h1, h2, fun a ha => by cases ha⟩
  | ub => exact ⟨h1, h2, fun a ha => by cases ha⟩
  | fuel => exact ⟨h1, h2, fun a ha => by cases ha⟩

theorem resolvePtr_post (hk : ∀ a b, key a = key b → a = b) (hM : Meaning P S) (hr : RecOk key P S K rec) {s : St}
    (hg : SGood key P S K s) {i j : Nat} (hi : P.nodes[i]? = some (.ptr j)) :
    PostS key P S K s (resolvePtr key P rec s i j) (fun s' o => Named P S K i s' o) := by
  unfold resolvePtr
  refine (resolveId_post hr hg j).then fun s' o g' e' hn => ?_
  cases o with
  | none =>
    have := Refused.ptr hi (g'.gone (hn.2 rfl))
    exact ignore_post g' (Or.inl this) (fun _ _ => Named.none (Or.inl this))
  | some n =>
    obtain ⟨a1, a2⟩ := hn.1 n rfl
    have ha : isAbsoluteName (n ++ ['*']) = true := abs_app a1
    have hd : S.den (n ++ ['*']) = some (S.ty i) := by rw [hM.ptrName n a1, a2, hM.ptr i j hi]; rfl
    have hdone : Done P S K s' i := done_unnamed fun nd m h1 h2 => by rw [hi] at h1; injection h1 with h1; rw [← h1] at h2; cases h2
    exact PostS.ext (keep_setName hdone) ((buildS_post hk hM (g'.setName ha hd) ha).then fun s2 t g2 _ _ => .ok g2 (Named.some ha hd))

theorem resolveArr_post (hk : ∀ a b, key a = key b → a = b) (hM : Meaning P S) (hr : RecOk key P S K rec) {s : St}
    (hg : SGood key P S K s) {i j : Nat} {mx : Option Nat} (hi : P.nodes[i]? = some (.arr j mx)) :
    PostS key P S K s (resolveArr key P rec s i j mx) (fun s' o => Named P S K i s' o) := by
  unfold resolveArr
  refine (resolveId_post hr hg j).then fun s' o g' e' hn => ?_
  cases o with
  | none =>
    have := Refused.arr hi (g'.gone (hn.2 rfl))
    exact ignore_post g' (Or.inl this) (fun _ _ => Named.none (Or.inl this))
  | some n =>
    cases mx with
    | none => exact .exn g'
    | some m =>
      obtain ⟨a1, a2⟩ := hn.1 n rfl
      have ha : isAbsoluteName (n ++ arrSuffix (m + 1)) = true := abs_app a1
      have hd : S.den (n ++ arrSuffix (m + 1)) = some (S.ty i) := by rw [hM.arrName n a1, a2, hM.arr i j m hi]; rfl
      have hdone : Done P S K s' i := done_unnamed fun nd m h1 h2 => by rw [hi] at h1; injection h1 with h1; rw [← h1] at h2; cases h2
      exact PostS.ext (keep_setName hdone) ((buildS_post hk hM (g'.setName ha hd) ha).then fun s2 t g2 _ _ => .ok g2 (Named.some ha hd))

/-- what a registered name denotes is what the name of its type denotes -/
theorem den_same {w : World} (hg : Good key P S w) {n : Str} {c : CCT} (hd : S.den n = some c) {t : TId} (h : w.2.reg n = some t) :
    S.den (w.1.name t) = some c := (is_reg hg h hd).2.2

theorem cvText_den (hM : Meaning P S) (n : Str) (c v : Bool) (hn : isAbsoluteName n = true) : S.den (n ++ cvText c v) = S.den n := by
  cases c <;> cases v
  · exact hM.cvName n "" hn (by simp)
  · exact hM.cvName n "volatile" hn (by simp)
  · exact hM.cvName n "const" hn (by simp)
  · exact hM.cvName n "const volatile" hn (by simp)

theorem resolveCv_post (hk : ∀ a b, key a = key b → a = b) (hM : Meaning P S) (hr : RecOk key P S K rec) {s : St}
    (hg : SGood key P S K s) {i j : Nat} {c v : Bool} (hi : P.nodes[i]? = some (.cv j c v)) :
    PostS key P S K s (resolveCv key P rec s i j c v) (fun s' o => Named P S K i s' o) := by
  unfold resolveCv
  refine (resolveId_post hr hg j).then fun s' o g' e' hn => ?_
  cases o with
  | none => exact .ok g' (Named.none (Or.inl (.cv hi (g'.gone (hn.2 rfl)))))
  | some n =>
    obtain ⟨a1, a2⟩ := hn.1 n rfl
    have hdone : Done P S K s' i := done_unnamed fun nd m h1 h2 => by rw [hi] at h1; injection h1 with h1; rw [← h1] at h2; cases h2
    have ha : isAbsoluteName (n ++ cvText c v) = true := abs_app a1
    have hd : S.den (n ++ cvText c v) = some (S.ty j) := by rw [cvText_den hM n c v a1, a2]
    rw [← hM.cv i j c v hi] at hd a2
    exact PostS.ext (keep_setName hdone) ((aliasS_post hk hM (g'.setName ha hd) a1 ha hd (fun t ht => den_same g'.good a2 ht)).then
      fun s2 _ g2 _ _ => .ok g2 (Named.some a1 a2))

theorem aliasIf_post (hk : ∀ a b, key a = key b → a = b) (hM : Meaning P S) {s : St} (hg : SGood key P S K s) {name nn : Str}
    (h1 : isAbsoluteName name = true) (h2 : isAbsoluteName nn = true) {c : CCT} (h3 : S.den name = some c) (h4 : S.den nn = some c) :
    PostS key P S K s (aliasIf key s name nn) (fun s' _ => s.w.2.reg nn ≠ none → s'.w.2.reg name ≠ none) := by
  unfold aliasIf
  split
  · refine (aliasS_post hk hM hg h2 h1 h3 (fun t ht => den_same hg.good h4 ht)).mono ?_
    rintro s' _ _ _ ⟨_, t, _, h⟩ _
    rw [h]; simp
  next h => exact .ok hg (fun hn => by rw [Classical.not_not.mp h]; exact hn)

theorem getS_ok {s : St} (hg : SGood key P S K s) {n : Str} (hn : isAbsoluteName n = true) {c : CCT} (hd : S.den n = some c) {t : TId}
    (h : getS s n = .ok t) : Is P S c s.w t := by
  unfold getS at h
  cases hget : s.w.2.get n with
  | none => rw [hget] at h; cases h
  | some u =>
    rw [hget] at h
    injection h with h
    subst h
    rw [hg.good.inv.abs _ hn] at hget
    exact is_reg hg.good hget hd

/-- the outcome for a node that has a name: it is registered, unless there is a reason -/
def Resolved (P : Prog) (S : Sem) (K : Str → Prop) (i : Nat) (name : Str) (s : St) (o : Option Str) : Prop :=
  Named P S K i s o ∧ (o ≠ none → s.w.2.reg name ≠ none)

theorem resolveTypedef_post (hk : ∀ a b, key a = key b → a = b) (hM : Meaning P S) (hr : RecOk key P S K rec) {s : St}
    (hg : SGood key P S K s) {i j : Nat} {m : Option Str} {p : Bool} (hi : P.nodes[i]? = some (.typedef m p j)) (hun : Unknown P K i) {name nn : Str}
    (hnm : ∀ x, m = some x → x = name)
    (h1 : isAbsoluteName name = true) (h2 : isAbsoluteName nn = true) (h3 : S.den name = some (S.ty i))
    (h4 : S.den nn = some (S.ty i)) :
    PostS key P S K s (resolveTypedef key P rec s i j name nn) (fun s' o => Resolved P S K i name s' o) := by
  unfold resolveTypedef
  refine (resolveId_post hr hg j).then fun s' o g' e' hn => ?_
  cases o with
  | none =>
    have := Refused.typedef hi (g'.gone (hn.2 rfl)) hun
    exact ignore_post g' (Or.inl this) (fun _ _ => ⟨Named.none (Or.inl this), fun h => absurd rfl h⟩)
  | some n =>
    obtain ⟨a1, a2⟩ := hn.1 n rfl
    rw [← hM.typedef i m p j hi] at a2
    refine PostS.then (Q := fun s t => Is P S (S.ty i) s.w t) (.ret g' fun t ht => getS_ok g' a1 a2 ht) fun s2 t g2 e2 ht => ?_
    have hta := (g2.good.inv.reg_name ht.1).2.1
    refine (aliasIf_post hk hM g2 h1 hta h3 ht.2.2).then fun s3 _ g3 e3 hh3 => ?_
    have ht3 := ht.ext g2.good e3.ext
    have hreg : s3.w.2.reg name ≠ none := hh3 (by rw [ht.1]; simp)
    have hta3 := (g3.good.inv.reg_name ht3.1).2.1
    have al : ∀ {s4 : St}, SGood key P S K s4 → Is P S (S.ty i) s4.w t →
        PostS key P S K s4 (aliasS key s4 nn (s4.w.1.name t)) (fun s5 _ => Is P S (S.ty i) s5.w t) := fun {s4} g4 i4 =>
      (aliasS_post hk hM g4 (g4.good.inv.reg_name i4.1).2.1 h2 h4 (fun u hu => den_same g4.good i4.2.2 hu)).mono
        (fun s5 _ _ e5 _ => i4.ext g4.good e5.ext)
    refine PostS.then (Q := fun s _ => Is P S (S.ty i) s.w t) ?_ fun s4 _ g4 e4 i4 => ?_
    · split
      · refine (al g3 ht3).then fun s5 _ g5 e5 i5 => ?_
        split
        · exact .ok g5 i5
        · exact (al g5 i5).then fun s6 _ g6 e6 i6 => ⟨⟨g6.good, g6.names, g6.empty, g6.ign, g6.string, g6.known⟩, Ext.refl _,
            fun _ _ => ⟨⟨Ext.refl _, fun _ h => h, fun _ h => Or.inl h, fun _ h => h⟩, i6⟩⟩
      · exact .ok g3 ht3
    · have hdone : Done P S K s4 i := Or.inr fun nd m k1 k2 => by
        rw [hi] at k1
        injection k1 with k1
        rw [← k1] at k2
        rw [show m = name from hnm m k2]
        exact e4.ext.reg hreg
      exact ⟨g4.setName (g4.good.inv.reg_name i4.1).2.1 i4.2.2, Ext.refl _, fun a ha => by
        simp only [Res.ok.injEq] at ha
        rw [← ha]; exact ⟨keep_setName hdone, Named.some h2 h4, fun _ => e4.ext.reg hreg⟩⟩

/-! ### Enumerations -/

theorem addSymbols_mem : ∀ (l : List (Str × Int)) (e e' : EnumModel.Enum), StdMap.MSorted e.values →
    addSymbols e l = .ok e' → StdMap.MSorted e'.values ∧ ∀ n v, StdMap.find e'.values n = some v ↔
      StdMap.find e.values n = some v ∨ (n, v) ∈ l := by
  intro l
  induction l with
  | nil =>
    intro e e' hs h
    simp only [addSymbols, Res.ok.injEq] at h
    subst h
    exact ⟨hs, fun n v => by simp⟩
  | cons p l ih =>
    obtain ⟨m, x⟩ := p
    intro e e' hs h
    simp only [addSymbols] at h
    obtain ⟨y, hy, h2⟩ := Res.bind_eq_ok.mp h
    clear h
    rename _ => h
    have hyx : y = x := by
      unfold num2int at hy
      split at hy
      · injection hy with hy; exact hy.symm
      · cases hy
    subst hyx
    simp only [EnumModel.Enum.add] at h
    cases hf : StdMap.find e.values m with
    | none =>
      simp only [hf] at h
      obtain ⟨i1, i2⟩ := ih _ _ (StdMap.sorted_upsert _ _ hs) h
      refine ⟨i1, fun n v => ?_⟩
      rw [i2]
      simp only [StdMap.find_upsert m _ hs, hf, List.mem_cons, Prod.mk.injEq]
      by_cases hm : m = n
      · subst hm
        rw [if_pos rfl, hf]
        constructor
        · rintro (h | h)
          · injection h with h; exact Or.inr (Or.inl ⟨rfl, h.symm⟩)
          · exact Or.inr (Or.inr h)
        · rintro (h | ⟨_, rfl⟩ | h)
          · cases h
          · exact Or.inl rfl
          · exact Or.inr h
      · rw [if_neg hm]
        constructor
        · rintro (h | h)
          · exact Or.inl h
          · exact Or.inr (Or.inr h)
        · rintro (h | ⟨h, _⟩ | h)
          · exact Or.inl h
          · exact absurd h.symm hm
          · exact Or.inr h
    | some z =>
      simp only [hf] at h
      by_cases hz : z ≠ y
      · rw [if_pos hz] at h; cases h
      · rw [if_neg hz] at h
        simp only [ne_eq, Classical.not_not] at hz
        obtain ⟨i1, i2⟩ := ih ⟨y, e.values⟩ _ hs h
        refine ⟨i1, fun n v => ?_⟩
        rw [i2]
        simp only [List.mem_cons, Prod.mk.injEq]
        constructor
        · rintro (h | h)
          · exact Or.inl h
          · exact Or.inr (Or.inr h)
        · rintro (h | ⟨h, e0⟩ | h)
          · exact Or.inl h
          · subst h; subst e0; exact Or.inl (by rw [hf, hz])
          · exact Or.inr h

theorem symbolValues_given : ∀ (l : List (Str × Int)) (cur : Int), symbolValues cur (l.map fun p => (p.1, some p.2)) = l
  | [], _ => rfl
  | (n, v) :: l, cur => by simp only [List.map_cons, symbolValues, Option.getD_some]; rw [symbolValues_given l]

/-- `create_enum` with all the values given -/
theorem createEnum_cases (w : World) (n : Str) (syms : List (Str × Int)) :
    (∃ r, createEnum key w n (syms.map fun p => (p.1, some p.2)) 0 = (w, r) ∧ ∀ a, r ≠ .ok a) ∨
    ∃ e : EnumModel.Enum, (∀ m v, (m, v) ∈ e.values ↔ (m, v) ∈ syms) ∧
      createEnum key w n (syms.map fun p => (p.1, some p.2)) 0 = define key w ⟨n, 4, .enum e.values⟩ := by
  unfold createEnum
  split
  · exact Or.inl ⟨_, rfl, fun a h => by cases h⟩
  · rw [symbolValues_given]
    have h0 : num2int 0 = .ok 0 := by unfold num2int; exact if_pos (by decide)
    have hz : toSizeT 0 = 0 := by decide
    have hn : EnumModel.Enum.new 0 = .ok ⟨0 - 1, []⟩ := rfl
    rw [hn, Res.bind_ok]
    cases hs : addSymbols ⟨0 - 1, []⟩ syms with
    | ok e =>
      right
      obtain ⟨i1, i2⟩ := addSymbols_mem syms ⟨0 - 1, []⟩ e (show List.Pairwise _ [] from List.Pairwise.nil) hs
      refine ⟨e, fun m v => ?_, ?_⟩
      · rw [StdMap.mem_iff_find i1, i2]
        exact ⟨fun h => h.elim (fun h => by cases h) id, Or.inr⟩
      · rw [Res.bind_ok, h0, Res.bind_ok, hz]
        rfl
    | exn e => exact Or.inl ⟨_, rfl, fun a h => by cases h⟩
    | ub => exact Or.inl ⟨_, rfl, fun a h => by cases h⟩
    | fuel => exact Or.inl ⟨_, rfl, fun a h => by cases h⟩

theorem resolveEnum_post (hk : ∀ a b, key a = key b → a = b) (hM : Meaning P S) (hU : Supported P S) {s : St}
    (hg : SGood key P S K s) {i bits : Nat} {m : Option Str} {syms : List (Str × Int)}
    (hi : P.nodes[i]? = some (.enum m true bits syms)) {name nn : Str}
    (h1 : isAbsoluteName name = true) (h2 : isAbsoluteName nn = true) (h3 : S.den name = some (S.ty i))
    (h4 : S.den nn = some (S.ty i)) :
    PostS key P S K s (resolveEnum key s syms name nn) (fun s' o => Resolved P S K i name s' o) := by
  unfold resolveEnum
  have hb := hU.enums _ _ _ _ (List.mem_of_getElem? hi)
  have hty := hM.enum i m true bits syms hi
  refine PostS.then (onW_post hg (Q := fun w _ => w.2.reg nn ≠ none) ?_) fun s2 _ g2 _ hr2 =>
    (aliasIf_post hk hM g2 h1 h2 h3 h4).then fun s3 _ g3 _ hr3 => .ok g3 ⟨Named.some h2 h4, fun _ => hr3 hr2⟩
  rcases createEnum_cases (key := key) s.w nn syms with ⟨r, e1, e2⟩ | ⟨e, e1, e2⟩
  · rw [e1]; exact Post.ret hg.good (fun a ha => absurd ha (e2 a))
  · rw [e2]
    rw [hty] at h4
    exact (define_post hk hM hg.good (by intro x hx; cases hx) h2 h4
      (.enum hi (kind_new _ _) e1 (by rw [size_new, hb]; rfl)) (built_leaf (by rw [kind_new]; rfl))).mono (fun _ _ _ _ h => by
        have := h.1
        simp only at this
        rw [this]; simp)

end

end Verif.Gccxml
