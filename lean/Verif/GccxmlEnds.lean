import Verif.GccxmlTheorems
import Verif.ClangTotal

/-!
Property C71: the import ends.
-/

namespace Verif.Gccxml
open Verif Verif.Names Verif.Graph Verif.Registry Verif.TypeBuilder Verif.Merge Verif.RubyBuilder Verif.CompoundModel Verif.RubyNames
open Verif.Clang (kind_new size_new name_new abs_app)
open Verif.RubyConvert (num2int)

variable {key : Char → Int} {P : Prog} {S : Sem} {K : Str → Prop}

/-- the fuel is not exhausted -/
def NF {α : Type} (r : Res α) : Prop := r ≠ .fuel

theorem NF.ok {α : Type} (a : α) : NF (.ok a) := nofun
theorem NF.exn {α : Type} (e : Err) : NF (.exn e : Res α) := nofun
theorem NF.ub {α : Type} : NF (.ub : Res α) := nofun

theorem add_nf (hk : ∀ a b, key a = key b → a = b) {w : World} (hg : Good key P S w) {d : TypeDef}
    (hd : ∀ x ∈ d.kind.deps, x < w.1.next) (habs : isAbsoluteName d.name = true) (p : Bool) :
    NF (add key (w.1.alloc d) w.2 w.1.next p []).2 := by
  obtain ⟨g1, _⟩ := good_alloc hg hd
  have hnm : (w.1.alloc d).name w.1.next = d.name := by rw [Heap.name, alloc_get_new]
  obtain ⟨_, _, i7⟩ := add_spec hk g1.ac g1.inv w.1.next (Nat.lt_succ_self _) (by rw [hnm]; exact habs) p []
  rcases i7 with h | ⟨h, _⟩ | ⟨h, _⟩ | ⟨h, _⟩ <;> rw [h] <;> exact nofun

theorem define_nf (hk : ∀ a b, key a = key b → a = b) {w : World} (hg : Good key P S w) {d : TypeDef}
    (hd : ∀ x ∈ d.kind.deps, x < w.1.next) (habs : isAbsoluteName d.name = true) : NF (define key w d).2 := by
  have h := add_nf hk hg hd habs true
  unfold define
  generalize add key (w.1.alloc d) w.2 w.1.next true [] = A at h
  obtain ⟨R, r⟩ := A
  cases r with
  | fuel => exact absurd rfl h
  | _ => exact nofun

theorem getOrAdd_nf (hk : ∀ a b, key a = key b → a = b) {w : World} (hg : Good key P S w) {d : TypeDef}
    (hd : ∀ x ∈ d.kind.deps, x < w.1.next) (habs : isAbsoluteName d.name = true) : NF (getOrAdd key w d).2 := by
  unfold getOrAdd
  cases w.2.get d.name with
  | some u => exact nofun
  | none =>
    simp only [addAuto]
    have h := add_nf hk hg hd habs (isPersistent (w.1.alloc d) ((w.1.alloc d).name w.1.next) w.1.next)
    generalize add key (w.1.alloc d) w.2 w.1.next (isPersistent (w.1.alloc d) ((w.1.alloc d).name w.1.next) w.1.next) [] = A at h
    obtain ⟨R, r⟩ := A
    cases r with
    | fuel => exact absurd rfl h
    | _ => exact nofun

theorem addPointer_nf (hk : ∀ a b, key a = key b → a = b) (hM : Meaning P S) : ∀ (l : Nat) {w : World} (_ : Good key P S w)
    {x : TId} {c : CCT}, Is P S c w x → NF (addPointer key l w x).2 := by
  intro l
  induction l with
  | zero => intro w hg x c hx; exact nofun
  | succ l ih =>
    intro w hg x c hx
    rw [addPointer]
    have h := ptr_post hk hM hg hx
    obtain ⟨n1, n2, _, n4⟩ := hg.inv.reg_name hx.1
    have hn := getOrAdd_nf hk hg (d := ptrDef w.1 x) (by
      intro y hy
      simp only [ptrDef, Kind.deps, Kind.elem?, Option.toList, List.mem_singleton] at hy
      rw [hy]; exact n4) (abs_app n2)
    generalize getOrAdd key w (ptrDef w.1 x) = o at h hn
    obtain ⟨w', r⟩ := o
    obtain ⟨h1, h2, h3⟩ := h
    cases r with
    | ok u => exact ih h1 (h3 u rfl)
    | exn e => exact nofun
    | ub => exact nofun
    | fuel => exact absurd rfl hn

theorem applyMods_nf (hk : ∀ a b, key a = key b → a = b) (hM : Meaning P S) : ∀ (ms : List Modifier) {w : World}
    (_ : Good key P S w) {x : TId} {c : CCT}, Is P S c w x → NF (applyMods key w x ms).2 := by
  intro ms
  induction ms with
  | nil => intro w hg x c hx; exact nofun
  | cons m ms ih =>
    intro w hg x c hx
    obtain ⟨c', h, hn⟩ : ∃ c', Post key P S w (applyMod key w x m) (Is P S c') ∧ NF (applyMod key w x m).2 := by
      cases m with
      | ptr l => exact ⟨ptrs l c, addPointer_post hk hM l hg hx, addPointer_nf hk hM l hg hx⟩
      | arr d =>
        obtain ⟨n1, n2, _, n4⟩ := hg.inv.reg_name hx.1
        exact ⟨.arr (toSizeT d) c, arr_post hk hM hg hx d, getOrAdd_nf hk hg (by
          intro y hy
          simp only [arrDef, Kind.deps, Kind.elem?, Option.toList, List.mem_singleton] at hy
          rw [hy]; exact n4) (abs_app n2)⟩
    rw [applyMods]
    generalize applyMod key w x m = o at h hn
    obtain ⟨w', r⟩ := o
    obtain ⟨h1, h2, h3⟩ := h
    cases r with
    | ok u => exact ih h1 (h3 u rfl)
    | exn e => exact nofun
    | ub => exact nofun
    | fuel => exact absurd rfl hn

theorem parseLoop_nf : ∀ (f : Nat) (s : Str) (m : List Modifier), s.length < f → NF (parseLoop f s m) := by
  intro f
  induction f with
  | zero => intro s m h; omega
  | succ f ih =>
    intro s m h
    match s with
    | [] => exact nofun
    | [_] => exact nofun
    | c :: c2 :: r =>
      rw [parseLoop.eq_def]
      simp only [List.length_cons] at h ⊢
      split
      · split
        · exact nofun
        next x rest hd =>
          have := (List.dropWhile_suffix (l := c2 :: r) (fun x => x != '[')).length_le
          rw [hd, List.length_cons, List.length_cons] at this
          split
          · exact ih _ _ (by omega)
          · exact nofun
          · exact nofun
          next hat =>
            unfold atoi at hat
            split at hat <;> cases hat
      · split
        · exact ih _ _ (by simp only [List.length_cons]; omega)
        · split
          · exact ih _ _ (by simp only [List.length_cons]; omega)
          · exact nofun

theorem parse_nf (n : Str) : NF (parseTypename n) := parseLoop_nf _ _ _ (by rw [List.length_reverse]; omega)

theorem rbAlias_nf (hk : ∀ a b, key a = key b → a = b) {w : World} (hg : Good key P S w) {new old : Str}
    (ho : isAbsoluteName old = true) (habs : isAbsoluteName new = true) : NF (rbAlias key w.1 w.2 new old).2 := by
  have hA : NF (aliasAuto key w.1 w.2 old new []).2 := by
    unfold aliasAuto
    rw [hg.inv.abs old ho]
    cases hr : w.2.reg old with
    | none => exact nofun
    | some t =>
      obtain ⟨_, _, n3, n4⟩ := hg.inv.reg_name hr
      obtain ⟨_, _, i7⟩ := aliasF_spec hk hg.ac (w.1.next + 1) w.2 old new (isPersistent w.1 new t) [] t
        hg.inv habs (by rw [hg.inv.abs old ho]; exact hr) n3
      show NF (aliasF key w.1 (w.1.next + 1) w.2 old new (isPersistent w.1 new t) []).2
      intro h
      rw [h] at i7
      exact i7 (by show @LT.lt Nat _ _ _; omega)
  unfold rbAlias
  generalize aliasAuto key w.1 w.2 old new [] = o at hA
  obtain ⟨R, r⟩ := o
  cases r with
  | ok u => exact nofun
  | exn e => cases e <;> exact nofun
  | ub => exact nofun
  | fuel => exact absurd rfl hA

theorem rbBuild_nf (hk : ∀ a b, key a = key b → a = b) (hM : Meaning P S) {w : World} (hg : Good key P S w) {n : Str}
    (hn : isAbsoluteName n = true) : NF (rbBuild key w n).2 := by
  unfold rbBuild build
  cases hget : w.2.get n with
  | some t => exact nofun
  | none =>
    have hfull : getFullName w.2 n = n := by unfold getFullName; rw [if_pos hn]
    simp only [hfull, buildName]
    have hpn := parse_nf n
    cases hp : parseTypename n with
    | ok bm =>
      obtain ⟨b, ms⟩ := bm
      simp only
      cases hgb : w.2.get b with
      | none => exact nofun
      | some t =>
        rw [hg.inv.abs _ (parse_abs hp hn)] at hgb
        obtain ⟨c, hc, _⟩ := hg.honest _ _ hgb
        have h := applyMods_nf hk hM ms hg (is_reg hg hgb hc)
        simp only [buildSpec]
        generalize applyMods key w t ms = o at h
        obtain ⟨w', r⟩ := o
        cases r with
        | ok u => exact nofun
        | exn e => exact nofun
        | ub => exact nofun
        | fuel => exact absurd rfl h
    | exn e => exact nofun
    | ub => exact nofun
    | fuel => exact absurd hp hpn

theorem vector_nf (hk : ∀ a b, key a = key b → a = b) {w : World} (hg : Good key P S w) {e : TId} {c : CCT} (he : Is P S c w e) :
    NF (Clang.onM (vectorFactory key ⟨w.1, w.2, []⟩ e)).2 := by
  obtain ⟨n1, n2, _, n4⟩ := hg.inv.reg_name he.1
  have habs : isAbsoluteName (Merge.vecName (w.1.name e)) = true := by unfold Merge.vecName; rw [List.append_assoc]; exact abs_app rfl
  rw [Clang.onM_vector]
  have hhas : NF (TypeBuilder.has w.2 (Merge.vecName (w.1.name e)) true) := by
    unfold TypeBuilder.has getBaseType
    split
    · exact nofun
    · split
      · exact nofun
      · have := parse_nf (getFullName w.2 (Merge.vecName (w.1.name e)))
        generalize parseTypename (getFullName w.2 (Merge.vecName (w.1.name e))) = x at this
        cases x with
        | fuel => exact absurd rfl this
        | _ => exact nofun
  cases hb : TypeBuilder.has w.2 (Merge.vecName (w.1.name e)) true with
  | fuel => exact absurd hb hhas
  | exn e => exact nofun
  | ub => exact nofun
  | ok b =>
    simp only [Clang.thenW]
    split
    · have h := add_nf hk hg (d := vecDef w.1 e) (by
        intro y hy
        simp only [vecDef, Kind.deps, Kind.elem?, Option.toList, List.mem_singleton] at hy
        rw [hy]; exact n4) habs (isPersistent (w.1.alloc (vecDef w.1 e)) ((w.1.alloc (vecDef w.1 e)).name w.1.next) w.1.next)
      simp only [Clang.addNew, addAuto]
      generalize add key (w.1.alloc (vecDef w.1 e)) w.2 w.1.next
        (isPersistent (w.1.alloc (vecDef w.1 e)) ((w.1.alloc (vecDef w.1 e)).name w.1.next) w.1.next) [] = A at h
      obtain ⟨R, r⟩ := A
      cases r with
      | fuel => exact absurd rfl h
      | _ => exact nofun
    · split
      · exact nofun
      · split <;> exact nofun

theorem num2int_nf (z : Int) : NF (num2int z) := by unfold num2int; split <;> exact nofun

theorem bind_nf {α β : Type} {r : Res α} {f : α → Res β} (h : NF r) (hf : ∀ a, NF (f a)) : NF (r >>= f) := by
  cases r with
  | ok a => exact hf a
  | exn e => exact nofun
  | ub => exact nofun
  | fuel => exact absurd rfl h

theorem addSymbols_nf : ∀ (l : List (Str × Int)) (e : EnumModel.Enum), NF (addSymbols e l) := by
  intro l
  induction l with
  | nil => intro e; exact nofun
  | cons p l ih =>
    intro e
    obtain ⟨n, v⟩ := p
    rw [addSymbols]
    refine bind_nf (num2int_nf v) fun v => ?_
    split
    · exact ih _
    · exact nofun

theorem createEnum_nf (hk : ∀ a b, key a = key b → a = b) {w : World} (hg : Good key P S w) {n : Str} (hn : isAbsoluteName n = true)
    (syms : List (Str × Option Int)) (size : Int) : NF (createEnum key w n syms size).2 := by
  unfold createEnum
  split
  · exact nofun
  · have h : NF (EnumModel.Enum.new 0 >>= fun e => addSymbols e (symbolValues 0 syms) >>= fun e => num2int size >>= fun s =>
        (.ok (e, if toSizeT s ≠ 0 then toSizeT s else 4) : Res (EnumModel.Enum × Nat))) := by
      refine bind_nf (show NF (.ok _) from nofun) fun e => bind_nf (addSymbols_nf _ _) fun e => bind_nf (num2int_nf _) fun _ => nofun
    generalize (EnumModel.Enum.new 0 >>= fun e => addSymbols e (symbolValues 0 syms) >>= fun e => num2int size >>= fun s =>
        (.ok (e, if toSizeT s ≠ 0 then toSizeT s else 4) : Res (EnumModel.Enum × Nat))) = x at h
    cases x with
    | ok y => obtain ⟨e, m⟩ := y; exact define_nf hk hg (by intro x hx; cases hx) hn
    | exn e => exact nofun
    | ub => exact nofun
    | fuel => exact absurd rfl h

theorem createOpaque_nf (hk : ∀ a b, key a = key b → a = b) {w : World} (hg : Good key P S w) {n : Str} (hn : isAbsoluteName n = true) :
    NF (createOpaque key w n 0).2 := by
  have h0 : num2int 0 = .ok 0 := by unfold num2int; exact if_pos (by decide)
  rw [createOpaque, h0]
  exact define_nf hk hg (by intro x hx; cases hx) hn

/-! ### The loader -/

theorem NF.then {α β : Type} {s : St} {x : St × Res α} {Q : St → α → Prop} {f : St → α → St × Res β}
    (h : PostS key P S K s x Q) (hx : NF x.2)
    (hf : ∀ s' a, SGood key P S K s' → Keep P S K s s' → Q s' a → NF (f s' a).2) : NF (thenS x f).2 := by
  obtain ⟨s', r⟩ := x
  obtain ⟨h1, _, h3⟩ := h
  cases r with
  | ok a => exact hf s' a h1 (h3 a rfl).1 (h3 a rfl).2
  | exn e => exact nofun
  | ub => exact nofun
  | fuel => exact absurd rfl hx

/-- a rank of the nodes: the types that pointers, arrays and qualified types refer to, and the template arguments of a class, are
lower -/
structure Ranked (P : Prog) (R : Nat) (rank : Nat → Nat) : Prop where
  le : ∀ i, rank i ≤ R
  ptr : ∀ i j, P.nodes[i]? = some (.ptr j) → rank j < rank i
  arr : ∀ i j m, P.nodes[i]? = some (.arr j m) → rank j < rank i
  cv : ∀ i j c v, P.nodes[i]? = some (.cv j c v) → rank j < rank i
  targs : ∀ i nd n a j, P.nodes[i]? = some nd → nd.name = some n → a ∈ P.targs n → P.find a = some j → rank j < rank i

/-- how many nodes have no name yet -/
def cnt (P : Prog) (s : St) : Nat := (List.range P.nodes.length).countP (fun i => (s.names i).isNone)

theorem countP_lt {α : Type} {p q : α → Bool} : ∀ {l : List α}, (∀ x ∈ l, p x = true → q x = true) → ∀ {x : α}, x ∈ l → q x = true →
    p x = false → l.countP p < l.countP q := by
  intro l
  induction l with
  | nil => intro _ x h; cases h
  | cons a l ih =>
    intro h x hx hq hp
    have hle : l.countP p ≤ l.countP q := List.countP_mono_left fun y hy => h y (List.mem_cons_of_mem _ hy)
    rw [List.countP_cons, List.countP_cons]
    rcases List.mem_cons.mp hx with rfl | hx
    · rw [hq, hp]; simp; omega
    · have := ih (fun y hy => h y (List.mem_cons_of_mem _ hy)) hx hq hp
      cases hpa : p a with
      | false => simp; omega
      | true => rw [h a (List.mem_cons_self ..) hpa]; simp; omega

theorem none_of {s s' : St} (h : ∀ i, s.names i ≠ none → s'.names i ≠ none) : ∀ i, (s'.names i).isNone = true → (s.names i).isNone = true := by
  intro i hi
  cases hs : s.names i with
  | none => rfl
  | some n =>
    have := h i (by rw [hs]; simp)
    cases hs' : s'.names i with
    | none => exact absurd hs' this
    | some _ => rw [hs'] at hi; cases hi

theorem cnt_keep {s s' : St} (h : ∀ i, s.names i ≠ none → s'.names i ≠ none) : cnt P s' ≤ cnt P s :=
  List.countP_mono_left fun i _ => none_of h i

theorem cnt_named {s s' : St} (h : ∀ i, s.names i ≠ none → s'.names i ≠ none) {i : Nat} {nd : Node} (hi : P.nodes[i]? = some nd)
    (hn : s.names i = none) {n : Str} : cnt P (s'.setName i n) < cnt P s := by
  refine countP_lt (fun j _ => none_of (fun k hk => setName_kept k (h k hk)) j) (x := i)
    (List.mem_range.mpr (List.getElem?_eq_some_iff.mp hi).1) (by rw [hn]; rfl) ?_
  simp [St.setName]

/-- room for any recursive call -/
def Low (P : Prog) (R B : Nat) (s : St) : Prop := cnt P s * (R + 1) + R < B

theorem Low.keep {R B : Nat} {s s' : St} (h : Low P R B s) (hk : ∀ i, s.names i ≠ none → s'.names i ≠ none) : Low P R B s' := by
  have := Nat.mul_le_mul_right (R + 1) (cnt_keep (P := P) hk)
  unfold Low at h ⊢
  omega

/-- what is known of recursive calls -/
structure Rec (key : Char → Int) (P : Prog) (S : Sem) (K : Str → Prop) (R : Nat) (rank : Nat → Nat) (B : Nat)
    (rec : St → Nat → St × Res (Option Str)) : Prop where
  ok : RecOk key P S K rec
  ends : ∀ s i, SGood key P S K s → cnt P s * (R + 1) + rank i < B → NF (rec s i).2
  ranked : Ranked P R rank

section
variable {rec : St → Nat → St × Res (Option Str)} {R B : Nat} {rank : Nat → Nat}

theorem Rec.low (hr : Rec key P S K R rank B rec) {s : St} (hg : SGood key P S K s) (hl : Low P R B s) (i : Nat) : NF (rec s i).2 :=
  hr.ends s i hg (by have := hr.ranked.le i; unfold Low at hl; omega)

theorem resolveId_nf {s : St} (i : Nat) (h : NF (rec s i).2) : NF (resolveId P rec s i).2 := by
  unfold resolveId
  split
  · exact nofun
  · split
    · exact nofun
    · split
      · exact nofun
      · exact h

theorem resolveArgs_nf (hk : ∀ a b, key a = key b → a = b) (hM : Meaning P S) (hr : Rec key P S K R rank B rec) :
    ∀ (as : List Str) {s : St}, SGood key P S K s →
    (∀ a ∈ as, ∀ j, P.find a = some j → cnt P s * (R + 1) + rank j < B) → NF (resolveArgs key P rec s as).2 := by
  intro as
  induction as with
  | nil => intro s hg _; exact nofun
  | cons a as ih =>
    intro s hg hb
    have low : ∀ {s' : St}, (∀ i, s.names i ≠ none → s'.names i ≠ none) → ∀ a' ∈ a :: as, ∀ j, P.find a' = some j →
        cnt P s' * (R + 1) + rank j < B := by
      intro s' hk' a' ha' j hj
      have := Nat.mul_le_mul_right (R + 1) (cnt_keep (P := P) hk')
      have := hb a' ha' j hj
      omega
    rw [resolveArgs]
    by_cases ha : isAbsoluteName a = true
    · rw [if_neg (by simp [ha])]
      have h := buildS_post hk hM hg ha
      have hkp := buildS_keep hk hM hg ha
      have hn : NF (buildS key s a).2 := rbBuild_nf hk hM hg.good ha
      generalize buildS key s a = o at h hkp hn
      obtain ⟨s', r⟩ := o
      obtain ⟨h1, h2, h3⟩ := h
      have low' := low hkp.kept
      cases r with
      | ok t => exact ih h1 fun x hx => low' x (List.mem_cons_of_mem _ hx)
      | exn e =>
        cases e
        case undefined =>
          simp only
          cases hf : P.find a with
          | none => exact ih h1 fun x hx => low' x (List.mem_cons_of_mem _ hx)
          | some i =>
            refine NF.then (hr.ok s' i h1) (hr.ends s' i h1 (low' a (List.mem_cons_self ..) i hf)) fun s2 _ g2 e2 _ => ?_
            exact ih g2 fun x hx => low (fun k hk => e2.kept k (hkp.kept k hk)) x (List.mem_cons_of_mem _ hx)
        all_goals exact nofun
      | ub => exact nofun
      | fuel => exact absurd rfl hn
    · rw [if_pos (by simp [ha])]
      exact ih hg fun x hx => hb x (List.mem_cons_of_mem _ hx)

theorem normalize_nf (hk : ∀ a b, key a = key b → a = b) (hM : Meaning P S) (hr : Rec key P S K R rank B rec) {s : St}
    (hg : SGood key P S K s) {n : Str} (hn : isAbsoluteName n = true)
    (hb : ∀ a ∈ P.targs n, ∀ j, P.find a = some j → cnt P s * (R + 1) + rank j < B) : NF (normalize key P rec s n).2 := by
  unfold normalize
  have h := buildS_post hk hM hg hn
  have hkp := buildS_keep hk hM hg hn
  have hnf : NF (buildS key s n).2 := rbBuild_nf hk hM hg.good hn
  generalize buildS key s n = o at h hkp hnf
  obtain ⟨s', r⟩ := o
  obtain ⟨h1, h2, h3⟩ := h
  cases r with
  | ok t => exact nofun
  | exn e =>
    cases e
    case undefined =>
      refine NF.then (resolveArgs_post hk hM hr.ok _ h1) (resolveArgs_nf hk hM hr _ h1 fun a ha j hj => ?_) fun s2 _ g2 e2 _ => nofun
      have hkp' : ∀ i, s.names i ≠ none → s'.names i ≠ none := hkp.kept
      have := Nat.mul_le_mul_right (R + 1) (cnt_keep (P := P) hkp')
      have := hb a ha j hj
      omega
    all_goals exact nofun
  | ub => exact nofun
  | fuel => exact absurd rfl hnf

theorem ignore_nf (s : St) (i : Nat) : NF (ignore s i).2 := nofun

theorem aliasS_nf (hk : ∀ a b, key a = key b → a = b) {s : St} (hg : Good key P S s.w) {new old : Str}
    (ho : isAbsoluteName old = true) (habs : isAbsoluteName new = true) : NF (aliasS key s new old).2 := rbAlias_nf hk hg ho habs

theorem buildS_nf (hk : ∀ a b, key a = key b → a = b) (hM : Meaning P S) {s : St} (hg : Good key P S s.w) {n : Str}
    (hn : isAbsoluteName n = true) : NF (buildS key s n).2 := rbBuild_nf hk hM hg hn

theorem aliasIf_nf (hk : ∀ a b, key a = key b → a = b) {s : St} (hg : Good key P S s.w) {name nn : Str}
    (h1 : isAbsoluteName name = true) (h2 : isAbsoluteName nn = true) : NF (aliasIf key s name nn).2 := by
  unfold aliasIf
  split
  · exact aliasS_nf hk hg h2 h1
  · exact nofun

theorem getS_nf (s : St) (n : Str) : NF (getS s n) := by
  unfold getS
  cases s.w.2.get n <;> exact nofun

theorem thenOk_nf {α β : Type} {x : St × Res α} {f : St → α → St × Res β} (hx : NF x.2) (hf : ∀ s' a, NF (f s' a).2) :
    NF (thenS x f).2 := by
  obtain ⟨s', r⟩ := x
  cases r with
  | ok a => exact hf s' a
  | exn e => exact nofun
  | ub => exact nofun
  | fuel => exact absurd rfl hx

theorem resolvePtr_nf (hk : ∀ a b, key a = key b → a = b) (hM : Meaning P S) (hr : Rec key P S K R rank B rec) {s : St}
    (hg : SGood key P S K s) {i j : Nat} (hi : P.nodes[i]? = some (.ptr j)) (hb : cnt P s * (R + 1) + rank i ≤ B) :
    NF (resolvePtr key P rec s i j).2 := by
  have hlt := hr.ranked.ptr i j hi
  unfold resolvePtr
  refine NF.then (resolveId_post hr.ok hg j) (resolveId_nf j (hr.ends s j hg (by omega))) fun s' o g' e' hn => ?_
  cases o with
  | none => exact nofun
  | some n =>
    obtain ⟨a1, _⟩ := hn.1 n rfl
    exact thenOk_nf (buildS_nf hk hM (s := s'.setName i (n ++ ['*'])) g'.good (abs_app a1)) fun _ _ => nofun

theorem resolveArr_nf (hk : ∀ a b, key a = key b → a = b) (hM : Meaning P S) (hr : Rec key P S K R rank B rec) {s : St}
    (hg : SGood key P S K s) {i j : Nat} {m : Option Nat} (hi : P.nodes[i]? = some (.arr j m)) (hb : cnt P s * (R + 1) + rank i ≤ B) :
    NF (resolveArr key P rec s i j m).2 := by
  have hlt := hr.ranked.arr i j m hi
  unfold resolveArr
  refine NF.then (resolveId_post hr.ok hg j) (resolveId_nf j (hr.ends s j hg (by omega))) fun s' o g' e' hn => ?_
  cases o with
  | none => exact nofun
  | some n =>
    obtain ⟨a1, _⟩ := hn.1 n rfl
    cases m with
    | none => exact nofun
    | some m => exact thenOk_nf (buildS_nf hk hM (s := s'.setName i (n ++ arrSuffix (m + 1))) g'.good (abs_app a1)) fun _ _ => nofun

theorem resolveCv_nf (hk : ∀ a b, key a = key b → a = b) (hr : Rec key P S K R rank B rec) {s : St}
    (hg : SGood key P S K s) {i j : Nat} {c v : Bool} (hi : P.nodes[i]? = some (.cv j c v)) (hb : cnt P s * (R + 1) + rank i ≤ B) :
    NF (resolveCv key P rec s i j c v).2 := by
  have hlt := hr.ranked.cv i j c v hi
  unfold resolveCv
  refine NF.then (resolveId_post hr.ok hg j) (resolveId_nf j (hr.ends s j hg (by omega))) fun s' o g' e' hn => ?_
  cases o with
  | none => exact nofun
  | some n =>
    obtain ⟨a1, _⟩ := hn.1 n rfl
    exact thenOk_nf (aliasS_nf hk (s := s'.setName i (n ++ cvText c v)) g'.good a1 (abs_app a1)) fun _ _ => nofun

theorem createVector_nf (hk : ∀ a b, key a = key b → a = b) (hM : Meaning P S) {s : St} (hg : SGood key P S K s) {a : Str}
    (ha : isAbsoluteName a = true) : NF (createVector key s a).2 := by
  unfold createVector
  refine NF.then (buildS_post hk hM hg ha) (buildS_nf hk hM hg.good ha) ?_
  rintro s1 e g1 _ ⟨c, _, he⟩
  have h := vector_nf hk g1.good he
  generalize Clang.onM (vectorFactory key ⟨s1.w.1, s1.w.2, []⟩ e) = o at h
  obtain ⟨w, r⟩ := o
  cases r with
  | fuel => exact absurd rfl h
  | _ => exact nofun

theorem resolveElem_nf (hr : Rec key P S K R rank B rec) {s : St} (hg : SGood key P S K s) (hl : Low P R B s) (a : Str) :
    NF (resolveElem P rec s a).2 := by
  unfold resolveElem
  split
  · exact nofun
  · cases P.find a with
    | none => exact nofun
    | some j =>
      simp only
      split
      · exact nofun
      · exact thenOk_nf (hr.low hg hl j) fun _ _ => nofun

theorem resolveVector_nf (hk : ∀ a b, key a = key b → a = b) (hM : Meaning P S) (hr : Rec key P S K R rank B rec) {s : St}
    (hg : SGood key P S K s) (hl : Low P R B s) {i : Nat} {r : GRecord} (hi : P.nodes[i]? = some (.record r)) {name : Str}
    (hnm : r.name = some name) (hv : (parseTemplate name).1 = some stdVector) (h1 : isAbsoluteName name = true) :
    NF (resolveVector key P rec s i name (parseTemplate name).2).2 := by
  obtain ⟨l, hl'⟩ : ∃ l, l = (parseTemplate name).2 := ⟨_, rfl⟩
  have hp : parseTemplate name = (some stdVector, l) := by rw [← hv, hl']
  rw [← hl']
  unfold resolveVector
  cases l with
  | nil => exact nofun
  | cons a l =>
    obtain ⟨ha, c, hc, hty⟩ := hM.vec i r name a l hi hnm hp
    refine NF.then (resolveElem_post hr.ok hg a) (resolveElem_nf hr hg hl a) fun s1 b g1 _ hb => ?_
    cases b with
    | false => exact nofun
    | true =>
      simp only [Bool.not_true, Bool.false_eq_true, if_false]
      refine NF.then (createVector_post hk hM g1 ha hc) (createVector_nf hk hM g1 ha) fun s2 t g2 _ ht => ?_
      have ha2 := (g2.good.inv.reg_name ht.1).2.1
      exact thenOk_nf (aliasIf_nf hk g2.good h1 ha2) fun _ _ => nofun

theorem resolveBases_nf (hr : Rec key P S K R rank B rec) : ∀ (bs : List GBase) {s : St}, SGood key P S K s → Low P R B s →
    NF (resolveBases P rec s bs).2 := by
  intro bs
  induction bs with
  | nil => intro s _ _; exact nofun
  | cons b bs ih =>
    intro s hg hl
    rw [resolveBases]
    refine NF.then (resolveId_post hr.ok hg b.ty) (resolveId_nf _ (hr.low hg hl _)) fun s' o g' e' hn => ?_
    have hl' := hl.keep e'.kept
    split
    · exact ih g' hl'
    · cases o with
      | none => exact nofun
      | some n =>
        have := getS_nf s' n
        simp only
        generalize getS s' n = x at this
        cases x with
        | ok t =>
          simp only
          split
          · exact nofun
          · split
            · exact nofun
            · exact thenOk_nf (ih g' hl') fun _ _ => nofun
        | exn e => exact nofun
        | ub => exact nofun
        | fuel => exact absurd rfl this

theorem baseFields_nf (w : World) (t : TId) : NF (baseFields w t) := by
  unfold baseFields
  split <;> exact nofun

theorem allEmpty_nf (w : World) : ∀ (l : List (TId × Nat)), NF (allEmpty w l) := by
  intro l
  induction l with
  | nil => exact nofun
  | cons b l ih =>
    rw [allEmpty]
    refine bind_nf (baseFields_nf _ _) fun fs => ?_
    split
    · exact ih
    · exact nofun

theorem inherited_nf (w : World) : ∀ (l : List (TId × Nat)), NF (inherited w l) := by
  intro l
  induction l with
  | nil => exact nofun
  | cons b l ih =>
    rw [inherited]
    exact bind_nf (baseFields_nf _ _) fun fs => bind_nf ih fun _ => nofun

theorem resolveFields_nf (hr : Rec key P S K R rank B rec) : ∀ (gs : List GField) {s : St}, SGood key P S K s → Low P R B s →
    NF (resolveFields P rec s gs).2 := by
  intro gs
  induction gs with
  | nil => intro s _ _; exact nofun
  | cons f gs ih =>
    intro s hg hl
    rw [resolveFields]
    split
    · exact nofun
    · refine NF.then (resolveId_post hr.ok hg f.ty) (resolveId_nf _ (hr.low hg hl _)) fun s' o g' e' hn => ?_
      cases o with
      | none => exact nofun
      | some n => exact thenOk_nf (ih g' (hl.keep e'.kept)) fun _ _ => nofun

theorem ownFields_nf (hk : ∀ a b, key a = key b → a = b) (hM : Meaning P S) : ∀ (l : List (Str × Str × Nat)) {s : St},
    (∀ x ∈ l, isAbsoluteName x.2.1 = true) → SGood key P S K s → NF (ownFields key s l).2 := by
  intro l
  induction l with
  | nil => intro s _ _; exact nofun
  | cons x l ih =>
    intro s h hg
    have hx := h x (List.mem_cons_self ..)
    rw [ownFields]
    exact NF.then (buildS_post hk hM hg hx) (buildS_nf hk hM hg.good hx) fun s1 t g1 _ _ =>
      thenOk_nf (ih (fun y hy => h y (List.mem_cons_of_mem _ hy)) g1) fun _ _ => nofun

theorem createRecord_nf (hk : ∀ a b, key a = key b → a = b) {w : World} (hg : Good key P S w) {sz : Nat} (h0 : 0 < sz)
    {ms : List (Nat × GField)} {fs : List FieldD} (hm : Match P S w ms fs) {nn : Str} (h2 : isAbsoluteName nn = true) :
    NF (createCompound key w nn (reqs fs) (sz : Int)).2 := by
  rcases createCompound_cases (key := key) w nn fs h0 with ⟨x, e1, _, e3⟩ | e1
  · rw [e1]; exact e3
  · rw [e1]
    exact define_nf hk hg (by
      intro x hx
      obtain ⟨f, hf, rfl⟩ := List.mem_map.mp hx
      exact hm.lt f hf) h2

theorem defineRecord_nf (hk : ∀ a b, key a = key b → a = b) (hM : Meaning P S) (hU : Supported P S) {s : St} (hg : SGood key P S K s)
    {i : Nat} {r : GRecord} (hi : P.nodes[i]? = some (.record r)) (hty : S.ty i = .record i) (hd : r.Data P S)
    {bases : List (TId × Nat)} (hb : Bases P S s.w r.bases bases) (hne : r.fields ≠ [] ∨ bases ≠ []) {fields : List (Str × Str × Nat)}
    (hl : fields.length = r.fields.length)
    (hf : ∀ (k : Nat) (g : GField) (x : Str × Str × Nat), r.fields[k]? = some g → fields[k]? = some x →
        g.pub = true ∧ x.1 = g.name ∧ x.2.2 = g.offset / 8 ∧ isAbsoluteName x.2.1 = true ∧ S.den x.2.1 = some (S.ty g.ty)) {name nn : Str}
    (h1 : isAbsoluteName name = true) (h2 : isAbsoluteName nn = true) (h4 : S.den nn = some (S.ty i)) :
    NF (defineRecord key s r name nn bases fields).2 := by
  obtain ⟨z1, z2, z3⟩ := hU.bytes r (List.mem_of_getElem? hi)
  unfold defineRecord
  refine NF.then (Q := fun s' inh => ∃ ms fs, BaseMembers P S 0 r.bases ms ∧ Match P S s'.w ms fs ∧ inh = reqs fs ∧
    (bases ≠ [] → fs ≠ [])) (.ret hg fun inh h => inherited_ok hU hg.good hb h) (inherited_nf _ _) ?_
  rintro s1 inh g1 e1 ⟨ms, fs, b1, b2, rfl, b4⟩
  refine NF.then (ownFields_post hk hM r.fields fields z3 hl hf g1) (ownFields_nf hk hM fields (fun x hx => ?_) g1) ?_
  · obtain ⟨k, hlt, hk'⟩ := List.getElem_of_mem hx
    have hlt' : k < r.fields.length := by omega
    exact (hf k r.fields[k] x (List.getElem?_eq_getElem hlt') (by rw [List.getElem?_eq_getElem hlt, hk'])).2.2.2.1
  rintro s2 own g2 e2 ⟨fs', m2, rfl⟩
  have hm := (b2.ext g1.good.clo e2.ext).append m2
  rw [← reqs_append]
  exact NF.then (onW_post g2 (createRecord_post hk hM g2.good hi hty hd hne z2 z1 b1 b4 m2 hm h2 h4))
    (createRecord_nf hk g2.good (by omega) hm h2) fun s3 _ g3 _ _ => thenOk_nf (aliasIf_nf hk g3.good h1 h2) fun _ _ => nofun

theorem resolveRecord_nf (hk : ∀ a b, key a = key b → a = b) (hM : Meaning P S) (hU : Supported P S) (hr : Rec key P S K R rank B rec)
    {s : St} (hg : SGood key P S K s) (hlow : Low P R B s) {i : Nat} {r : GRecord} (hi : P.nodes[i]? = some (.record r))
    (hty : S.ty i = .record i)
    (hun : Unknown P K i) (hpub : r.pub = true) (hnm : r.name ≠ none) {name nn : Str}
    (h1 : isAbsoluteName name = true) (h2 : isAbsoluteName nn = true) (h4 : S.den nn = some (S.ty i)) :
    NF (resolveRecord key P rec s i r name nn).2 := by
  unfold resolveRecord
  refine NF.then (resolveBases_post hr.ok hi hty hun r.bases (fun _ h => h) hg) (resolveBases_nf hr _ hg hlow) fun s1 o g1 e1 hb => ?_
  have hlow1 := hlow.keep e1.kept
  cases o with
  | none => exact nofun
  | some bases =>
    have hB := hb.1 bases rfl
    simp only
    cases hinc : r.incomplete with
    | true => exact nofun
    | false =>
      cases hvirt : r.virt with
      | true => exact nofun
      | false =>
        simp only [Bool.false_eq_true, if_false]
        refine NF.then (Q := fun s' e => Bases P S s'.w r.bases bases ∧ (e = false → r.fields ≠ [] ∨ bases ≠ [])) (.ret g1 fun e he => ⟨hB, ?_⟩)
          ?_ ?_
        · by_cases hf : r.fields = []
          · rw [if_pos (by rw [hf]; rfl)] at he
            obtain ⟨_, a2⟩ := allEmpty_ok hU g1.good hB he
            exact fun h => Or.inr (a2 h)
          · exact fun _ => Or.inl hf
        · unfold liftS
          simp only
          split
          · exact allEmpty_nf _ _
          · exact nofun
        · rintro s2 e g2 e2 ⟨hB2, he2⟩
          have hlow2 := hlow1.keep e2.kept
          cases e with
          | true => exact nofun
          | false =>
            simp only [Bool.false_eq_true, if_false]
            refine NF.then (resolveFields_post hr.ok hi hty hun r.fields (fun _ h => h) g2) (resolveFields_nf hr _ g2 hlow2)
              fun s3 o g3 e3 hf => ?_
            cases o with
            | none => exact nofun
            | some fields =>
              obtain ⟨f1, f2⟩ := hf.1 fields rfl
              exact defineRecord_nf hk hM hU g3 hi hty ⟨hnm, hpub, hinc, hvirt, hB2.data⟩ (hB2.ext g2.good e3.ext) (he2 rfl) f1 f2 h1 h2 h4

theorem resolveTypedef_nf (hk : ∀ a b, key a = key b → a = b) (hM : Meaning P S) (hr : Rec key P S K R rank B rec) {s : St}
    (hg : SGood key P S K s) (hlow : Low P R B s) {i j : Nat} {m : Option Str} {p : Bool} (hi : P.nodes[i]? = some (.typedef m p j))
    {name nn : Str} (h1 : isAbsoluteName name = true) (h2 : isAbsoluteName nn = true) (h3 : S.den name = some (S.ty i))
    (h4 : S.den nn = some (S.ty i)) :
    NF (resolveTypedef key P rec s i j name nn).2 := by
  unfold resolveTypedef
  refine NF.then (resolveId_post hr.ok hg j) (resolveId_nf _ (hr.low hg hlow _)) fun s' o g' e' hn => ?_
  cases o with
  | none => exact nofun
  | some n =>
    obtain ⟨a1, a2⟩ := hn.1 n rfl
    rw [← hM.typedef i m p j hi] at a2
    refine NF.then (Q := fun s t => Is P S (S.ty i) s.w t) (.ret g' fun t ht => getS_ok g' a1 a2 ht) (getS_nf _ _) fun s2 t g2 e2 ht => ?_
    have hta := (g2.good.inv.reg_name ht.1).2.1
    refine NF.then (aliasIf_post hk hM g2 h1 hta h3 ht.2.2) (aliasIf_nf hk g2.good h1 hta) fun s3 _ g3 e3 _ => ?_
    have ht3 := ht.ext g2.good e3.ext
    refine thenOk_nf ?_ fun _ _ => nofun
    have al : ∀ {s4 : St}, SGood key P S K s4 → Is P S (S.ty i) s4.w t →
        PostS key P S K s4 (aliasS key s4 nn (s4.w.1.name t)) (fun s5 _ => Is P S (S.ty i) s5.w t) ∧
        NF (aliasS key s4 nn (s4.w.1.name t)).2 := fun {s4} g4 i4 =>
      ⟨(aliasS_post hk hM g4 (g4.good.inv.reg_name i4.1).2.1 h2 h4 (fun u hu => den_same g4.good i4.2.2 hu)).mono
        (fun s5 _ _ e5 _ => i4.ext g4.good e5.ext), aliasS_nf hk g4.good (g4.good.inv.reg_name i4.1).2.1 h2⟩
    split
    · refine NF.then (al g3 ht3).1 (al g3 ht3).2 fun s5 _ g5 e5 i5 => ?_
      split
      · exact nofun
      · exact thenOk_nf (al g5 i5).2 fun _ _ => nofun
    · exact nofun

theorem resolveEnum_nf (hk : ∀ a b, key a = key b → a = b) (hM : Meaning P S) (hU : Supported P S) {s : St}
    (hg : SGood key P S K s) {i bits : Nat} {m : Option Str} {syms : List (Str × Int)}
    (hi : P.nodes[i]? = some (.enum m true bits syms)) {name nn : Str}
    (h1 : isAbsoluteName name = true) (h2 : isAbsoluteName nn = true) (h4 : S.den nn = some (S.ty i)) :
    NF (resolveEnum key s syms name nn).2 := by
  unfold resolveEnum
  have hb := hU.enums _ _ _ _ (List.mem_of_getElem? hi)
  have hty := hM.enum i m true bits syms hi
  refine NF.then (onW_post hg (Q := fun _ _ => True) ?_) (createEnum_nf hk hg.good h2 _ _) fun s2 _ g2 _ hr2 =>
    thenOk_nf (aliasIf_nf hk g2.good h1 h2) fun _ _ => nofun
  rcases createEnum_cases (key := key) s.w nn syms with ⟨r, e1, e2⟩ | ⟨e, e1, e2⟩
  · rw [e1]; exact Post.ret hg.good (fun a ha => absurd ha (e2 a))
  · rw [e2]
    rw [hty] at h4
    exact (define_post hk hM hg.good (by intro x hx; cases hx) h2 h4
      (.enum hi (kind_new _ _) e1 (by rw [size_new, hb]; rfl)) (built_leaf (by rw [kind_new]; rfl))).mono (fun _ _ _ _ _ => trivial)

theorem resolveKind_nf (hk : ∀ a b, key a = key b → a = b) (hM : Meaning P S) (hU : Supported P S) (hr : Rec key P S K R rank B rec)
    {s : St} (hg : SGood key P S K s) (hlow : Low P R B s) {i : Nat} {nd : Node} (hi : P.nodes[i]? = some nd) (hpub : nd.pub = true)
    {name nn : Str} (hnm : nd.name = some name)
    (hun : Unknown P K i) (hns : ¬ StringClass P name) (h2 : isAbsoluteName nn = true) (h4 : S.den nn = some (S.ty i)) :
    NF (resolveKind key P rec s i nd name nn).2 := by
  obtain ⟨h1, h3⟩ := hM.named i nd name hi hnm
  cases nd with
  | record r =>
    simp only [resolveKind]
    split
    · exact nofun
    · split
      next hv => exact resolveVector_nf hk hM hr hg hlow hi hnm hv h1
      next hv =>
        have hty := hM.record i r hi (fun n hn => by
          have hn' : r.name = some name := hnm
          rw [hn'] at hn
          injection hn with hn
          rw [← hn]
          exact ⟨hv, hns⟩)
        have hnn : r.name ≠ none := by
          have hn' : r.name = some name := hnm
          rw [hn']; simp
        exact resolveRecord_nf hk hM hU hr hg hlow hi hty hun hpub hnn h1 h2 h4
  | fund n bits k =>
    simp only [resolveKind]
    split <;> exact nofun
  | typedef m p j => exact resolveTypedef_nf hk hM hr hg hlow hi h1 h2 h3 h4
  | enum m p bits syms =>
    have hp : p = true := hpub
    subst hp
    exact resolveEnum_nf hk hM hU hg hi h1 h2 h4
  | ptr j => exact nofun
  | arr j m => exact nofun
  | cv j c v => exact nofun
  | other m => exact nofun

theorem resolveNamed_nf (hk : ∀ a b, key a = key b → a = b) (hM : Meaning P S) (hU : Supported P S) (hr : Rec key P S K R rank B rec)
    {s : St} (hg : SGood key P S K s) {i : Nat} {nd : Node} (hi : P.nodes[i]? = some nd) (hnone : s.names i = none)
    (hb : cnt P s * (R + 1) + rank i ≤ B) : NF (resolveNamed key P rec s i nd).2 := by
  unfold resolveNamed
  cases hnm : nd.name with
  | none => exact nofun
  | some name =>
    obtain ⟨h1, h3⟩ := hM.named i nd name hi hnm
    simp only
    split
    · exact nofun
    · cases hget : s.w.2.get name with
      | some t => exact nofun
      | none =>
        rw [hg.good.inv.abs _ h1] at hget
        have hns : ¬ StringClass P name := fun h => hg.string name h hget
        have hun : Unknown P K i := fun nd' m k1 k2 hk => by
          rw [hi] at k1
          injection k1 with k1
          rw [← k1, hnm] at k2
          injection k2 with k2
          rw [← k2] at hk
          exact hg.known name hk hget
        simp only
        split
        · exact nofun
        · refine NF.then (normalize_post hk hM hr.ok hg h1 h3) (normalize_nf hk hM hr hg h1 fun a ha j hj => ?_) ?_
          · have := hr.ranked.targs i nd name a j hi hnm ha hj
            omega
          rintro s1 nn g1 e1 ⟨h2, h4⟩
          cases hpub : nd.pub with
          | false => exact nofun
          | true =>
            simp only [Bool.not_true, Bool.false_eq_true, if_false]
            refine resolveKind_nf hk hM hU hr (g1.setName h2 h4) ?_ hi hpub hnm hun hns h2 h4
            have hlt := cnt_named (P := P) e1.kept hi hnone (n := nn)
            unfold Low
            have := Nat.mul_le_mul_right (R + 1) hlt
            rw [Nat.succ_mul] at this
            omega

end

/-- the number of nested calls of `resolve_type_definition` is bounded -/
theorem resolveDef_nf (hk : ∀ a b, key a = key b → a = b) (hM : Meaning P S) (hU : Supported P S) {R : Nat} {rank : Nat → Nat}
    (hR : Ranked P R rank) : ∀ (f : Nat) (s : St) (i : Nat), SGood key P S K s → cnt P s * (R + 1) + rank i < f →
    NF (resolveDef key P f s i).2 := by
  intro f
  induction f with
  | zero => intro s i _ h; omega
  | succ f ih =>
    intro s i hg hb
    have hr : Rec key P S K R rank f (resolveDef key P f) :=
      ⟨fun s i hg => (resolveDef_post hk hM hU f s i hg).mono (fun _ _ _ _ h => h.1), ih, hR⟩
    rw [resolveDef]
    cases hn : s.names i with
    | some n => exact nofun
    | none =>
      simp only
      cases hi : P.nodes[i]? with
      | none => exact nofun
      | some nd =>
        cases nd with
        | ptr j => exact resolvePtr_nf hk hM hr hg hi (by omega)
        | arr j m => exact resolveArr_nf hk hM hr hg hi (by omega)
        | cv j c v => exact resolveCv_nf hk hr hg hi (by omega)
        | fund n b k => exact resolveNamed_nf hk hM hU hr hg hi hn (by omega)
        | typedef n p j => exact resolveNamed_nf hk hM hU hr hg hi hn (by omega)
        | enum n p b l => exact resolveNamed_nf hk hM hU hr hg hi hn (by omega)
        | record r => exact resolveNamed_nf hk hM hU hr hg hi hn (by omega)
        | other n => exact resolveNamed_nf hk hM hU hr hg hi hn (by omega)

theorem cnt_le (s : St) : cnt P s ≤ P.nodes.length := by
  have := List.countP_le_length (p := fun i => (s.names i).isNone) (l := List.range P.nodes.length)
  rw [List.length_range] at this
  exact this

/-- fuel for all the nodes -/
def Enough (P : Prog) (R f : Nat) : Prop := P.nodes.length * (R + 1) + R < f

theorem Enough.lt {R f : Nat} {rank : Nat → Nat} (h : Enough P R f) (hR : Ranked P R rank) (s : St) (i : Nat) :
    cnt P s * (R + 1) + rank i < f := by
  have := Nat.mul_le_mul_right (R + 1) (cnt_le (P := P) s)
  have := hR.le i
  unfold Enough at h
  omega

theorem resolveAll_nf (hk : ∀ a b, key a = key b → a = b) (hM : Meaning P S) (hU : Supported P S) {R f : Nat} {rank : Nat → Nat}
    (hR : Ranked P R rank) (hf : Enough P R f) : ∀ (is : List Nat) {s : St}, SGood key P S K s → NF (resolveAll key P f s is).2 := by
  intro is
  induction is with
  | nil => intro s _; exact nofun
  | cons i is ih =>
    intro s hg
    rw [resolveAll]
    exact NF.then (resolveDef_post hk hM hU f s i hg) (resolveDef_nf hk hM hU hR f s i hg (hf.lt hR s i)) fun s1 _ g1 _ _ => ih g1

theorem resolveOpaques_nf (hk : ∀ a b, key a = key b → a = b) (hM : Meaning P S) (hU : Supported P S) {R f : Nat} {rank : Nat → Nat}
    (hR : Ranked P R rank) (hf : Enough P R f) : ∀ (os : List Str) {s : St}, OpaqueNames S os → SGood key P S K s →
    NF (resolveOpaques key P f s os).2 := by
  have hr : Rec key P S K R rank f (resolveDef key P f) :=
    ⟨fun s i hg => (resolveDef_post hk hM hU f s i hg).mono (fun _ _ _ _ h => h.1), resolveDef_nf hk hM hU hR f, hR⟩
  intro os
  induction os with
  | nil => intro s _ _; exact nofun
  | cons o os ih =>
    intro s ho hg
    have ho' : OpaqueNames S os := fun x hx => ho x (List.mem_cons_of_mem _ hx)
    obtain ⟨h1, _⟩ := ho o (List.mem_cons_self ..)
    rw [resolveOpaques]
    cases hfd : P.findTypedef o with
    | none => exact ih ho' hg
    | some i =>
      simp only
      cases hi : P.nodes[i]? with
      | none => exact nofun
      | some nd =>
        cases nd with
        | typedef n p j =>
          simp only
          have hd := hM.typedefs o i n p j hfd hi
          cases hb : (P.nodes[j]?).bind Node.name with
          | none => exact nofun
          | some full =>
            obtain ⟨nd, hnd, hname⟩ := bind_name hb
            obtain ⟨a1, a2⟩ := hM.named j nd full hnd hname
            refine NF.then (normalize_post hk hM hr.ok hg a1 a2) (normalize_nf hk hM hr hg a1 fun a _ j _ => hf.lt hR s j) ?_
            rintro s1 nn g1 _ ⟨b1, b2⟩
            refine NF.then (aliasS_post hk hM g1 h1 a1 a2 (fun t ht => den_same g1.good hd ht)) (aliasS_nf hk g1.good h1 a1)
              fun s2 _ g2 _ _ => ?_
            exact NF.then (aliasS_post hk hM g2 h1 b1 b2 (fun t ht => den_same g2.good hd ht)) (aliasS_nf hk g2.good h1 b1)
              fun s3 _ g3 _ _ => ih ho' g3
        | _ => exact nofun

theorem NF.thenG {α β : Type} {w : World} {x : St × Res α} {Q : St → Prop} {f : St → α → St × Res β}
    (h : PostG key P S w x Q) (hx : NF x.2) (hf : ∀ s' a, Good key P S s'.w → Ext w s'.w → Q s' → NF (f s' a).2) : NF (thenS x f).2 := by
  obtain ⟨s', r⟩ := x
  obtain ⟨h1, h2, h3⟩ := h
  cases r with
  | ok a => exact hf s' a h1 h2 (h3 a rfl)
  | exn e => exact nofun
  | ub => exact nofun
  | fuel => exact absurd rfl hx

theorem resolveStdString_nf (hk : ∀ a b, key a = key b → a = b) (hM : Meaning P S) {s : St} (hg : Good key P S s.w) :
    NF (resolveStdString key P s).2 := by
  unfold resolveStdString
  cases hf : P.findTypedef stringName with
  | none => exact nofun
  | some i =>
    simp only
    cases hi : P.nodes[i]? with
    | none => exact nofun
    | some nd =>
      cases nd with
      | typedef n p j =>
        simp only
        cases hb : (P.nodes[j]?).bind Node.name with
        | none => exact nofun
        | some full =>
          obtain ⟨nd, hnd, hname⟩ := bind_name hb
          exact aliasS_nf hk hg (by decide) (hM.named j nd full hnd hname).1
      | _ => exact nofun

theorem createOpaques_nf (hk : ∀ a b, key a = key b → a = b) (hM : Meaning P S) : ∀ (os : List Str) {s : St}, OpaqueNames S os →
    Good key P S s.w → Fresh s → NF (createOpaques key s os).2 := by
  intro os
  induction os with
  | nil => intro s _ _ _; exact nofun
  | cons o os ih =>
    intro s ho hg hfr
    obtain ⟨h1, c, h2, h3⟩ := ho o (List.mem_cons_self ..)
    have h0 : num2int 0 = .ok 0 := by unfold num2int; exact if_pos (by decide)
    have hd : Post key P S s.w (createOpaque key s.w o 0) (fun _ _ => True) := by
      rw [createOpaque, h0]
      exact (define_post hk hM hg (by intro x hx; cases hx) h1 h2 (.opaque h3 (kind_new _ _))
        (built_leaf (by rw [kind_new]; rfl))).mono (fun _ _ _ _ _ => trivial)
    rw [createOpaques]
    refine NF.thenG (key := key) (P := P) (S := S) (w := s.w) (Q := fun s' => Fresh s') ?_ (createOpaque_nf hk hg h1) ?_
    · obtain ⟨d1, d2, _⟩ := hd
      exact ⟨d1, d2, fun a ha => hfr⟩
    · rintro s1 _ g1 _ f1
      exact ih (fun x hx => ho x (List.mem_cons_of_mem _ hx)) g1 f1

/-- **C71, termination** (for the programs covered): the import ends: `resolve_type_definition` calls itself to a depth less than
`N * (R + 1) + R`, for `N` nodes and types nested at most `R` deep (pointers, arrays, qualifiers, template arguments), however the
classes refer to each other. -/
theorem C71_ends_partial (hk : ∀ a b, key a = key b → a = b) (hM : Meaning P S) (hU : Supported P S) {w : World} (hs : Start key P S w)
    (opaques : List Str) (ho : OpaqueNames S opaques) (types typedefs : List Nat) {R : Nat} {rank : Nat → Nat} (hR : Ranked P R rank)
    {f : Nat} (hf : P.nodes.length * (R + 1) + R < f) : (load key P f w opaques types typedefs).2 ≠ .fuel := by
  have hf : Enough P R f := hf
  have hg : Good key P S w := ⟨hs.inv, hs.ac, hs.clo, hs.honest, hs.derived⟩
  have hfr : Fresh (.start w) := ⟨fun _ => rfl, rfl, rfl⟩
  show NF _
  unfold load
  refine NF.thenG (aliasS_fresh hk hM (s := .start w) hg hfr (old := stringName) (by decide) (by decide) hM.str.2 hM.str.1)
    (aliasS_nf hk (s := .start w) hg (by decide) (by decide)) ?_
  rintro s1 _ g1 e1 ⟨f1, _, r1⟩
  refine NF.thenG (resolveStdString_fresh hk hM g1 f1) (resolveStdString_nf hk hM g1) ?_
  rintro s2 _ g2 e2 ⟨f2, _, r2⟩
  refine NF.thenG (createOpaques_fresh hk hM opaques ho g2 f2) (createOpaques_nf hk hM opaques ho g2 f2) ?_
  rintro s3 _ g3 e3 ⟨f3, _, r3⟩
  have sg : SGood key P S (Known w opaques) s3 := by
    refine ⟨g3, fun i n h => ?_, fun i h => ?_, fun i h => ?_, fun n hn => ?_, fun n hn => ?_⟩
    · rw [f3.1 i] at h; cases h
    · rw [f3.2.2] at h; cases h
    · rw [f3.2.1] at h; cases h
    · rcases hn with rfl | rfl | ⟨i, m, p, j, h1, h2, h3⟩
      · exact e3.reg (e2.reg (e1.reg hs.string))
      · exact e3.reg (e2.reg r1)
      · exact e3.reg (r2 n i m p j h1 h2 h3)
    · rcases hn with hn | hn
      · exact e3.reg (e2.reg (e1.reg hn))
      · exact r3 n hn
  refine NF.then (resolveOpaques_post hk hM hU f opaques ho sg) (resolveOpaques_nf hk hM hU hR hf opaques ho sg) fun s4 _ g4 k4 _ => ?_
  have ad : AllDone P S (Known w opaques) s3 := fun i hi => absurd (f3.1 i) hi
  exact NF.then (resolveAll_post hk hM hU f types g4 (ad.keep k4)) (resolveAll_nf hk hM hU hR hf types g4) fun s5 _ g5 _ _ =>
    resolveAll_nf hk hM hU hR hf typedefs g5

end Verif.Gccxml
