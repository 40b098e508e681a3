import Verif.VisitorProps
import Verif.IdlNames

/-!
C39: the CSV header and the CSV lines (typelib/csvoutput.cc).
-/

namespace Verif.Csv
open Verif Verif.Graph Verif.Visitor

/-- the loops over a list in `HeaderVisitor` (csvoutput.cc:52-56; typevisitor.cc:23-29 with overloads that always
return true): the columns are appended in order. -/
def hdrLoop {α : Type} (rec : α → Res (List Str)) : List α → Res (List Str)
  | [] => .ok []
  | x :: xs => rec x >>= fun h => hdrLoop rec xs >>= fun hs => .ok (h ++ hs)

/-- `HeaderVisitor` (csvoutput.cc:15-86). `names` is `m_name`; the result is what is appended to `m_headers`. Every
overload removes what it pushed on `m_name`, so that it is an argument here. A container is visited by the default
overload (typevisitor.cc:17-18): its element once, with the name of the container. -/
def hdr (H : Heap) : Nat → List Str → TId → Res (List Str)
  | 0, _, _ => .fuel
  | f + 1, names, t =>
    match H.kind t with
    | .null => .exn .exception
    | .opaque => .ok [names.flatten]
    | .num _ => .ok [names.flatten]
    | .enum _ => .ok [names.flatten]
    | .ptr e => hdr H f ("*(".toList :: names ++ [")".toList]) e
    | .arr d e => hdrLoop (fun i => hdr H f (names ++ ["[".toList, natStr i, "]".toList]) e) (List.range d)
    | .vec e => hdr H f names e
    | .str e => hdr H f names e
    | .comp fs => hdrLoop (fun fd : FieldD => hdr H f (names ++ [".".toList] ++ [fd.name]) fd.ty) fs

/-- `LineVisitor` (csvoutput.cc:88-148): the state is `m_output`; `cell a t` is the text shown for the value of a
numeric or enum type at address `a` (`display`, or the symbol of an enum, or its number if it has none). The overload
for opaque types takes its `Value` by value and so does not redefine the one of `ValueVisitor`, that takes a reference
(value.hh:64): nothing is shown for an opaque value. -/
def lineVisitor (H : Heap) (cell : Nat → TId → Str) : Visitor (List Str) where
  leaf := fun a t s =>
    match H.kind t with
    | .opaque => (true, s)
    | _ => (true, s ++ [cell a t])
  field := none

/-- `boost::join(list, separator)` -/
def join (sep : Str) : List Str → Str
  | [] => []
  | [x] => x
  | x :: y :: r => x ++ sep ++ join sep (y :: r)

/-- `CSVOutput::header` (csvoutput.cc:155-159). -/
def header (H : Heap) (fuel : Nat) (t : TId) (base sep : Str) : Res Str :=
  hdr H fuel [base] t >>= fun hs => .ok (join sep hs)

/-- `CSVOutput::display` (csvoutput.cc:161-165). -/
def display (H : Heap) (m : Mem) (cell : Nat → TId → Str) (fuel a : Nat) (t : TId) (sep : Str) : Res Str :=
  apply H m (lineVisitor H cell) fuel a t [] >>= fun ls => .ok (join sep ls)

/-! ### Specification -/

/-- The title of the column of a part of a value: `base.field`, `base[i]`, `*(base)`. -/
def title (H : Heap) : Str → TId → List Step → Str
  | base, _, [] => base
  | base, t, st :: p =>
    match H.kind t, st with
    | .comp fs, .field i =>
      match fs[i]? with
      | some f => title H (base ++ '.' :: f.name) f.ty p
      | none => []
    | .arr _ e, .idx i => title H (base ++ '[' :: natStr i ++ [']']) e p
    | .ptr e, .deref => title H ("*(".toList ++ base ++ [')']) e p
    | _, _ => []

/-- Nothing reachable from the type is a container or an opaque. -/
inductive Reaches (H : Heap) : TId → TId → Prop
  | refl (t) : Reaches H t t
  | step {t u v} : u ∈ H.deps t → Reaches H u v → Reaches H t v

def Plain (H : Heap) (t : TId) : Prop :=
  ∀ u, Reaches H t u → H.kind u ≠ .opaque ∧ (∀ e, H.kind u ≠ .vec e) ∧ (∀ e, H.kind u ≠ .str e)

/-! ### Proof -/

theorem hdrLoop_ok {α : Type} {rec : α → Res (List Str)} (g : α → List Str) : ∀ (xs : List α) (hs : List Str),
    (∀ x ∈ xs, ∀ h, rec x = .ok h → h = g x) → hdrLoop rec xs = .ok hs → hs = xs.flatMap g
  | [], hs, _, h => by cases h; rfl
  | x :: xs, hs, hr, h => by
    rw [hdrLoop, Res.bind_eq_ok] at h
    rcases h with ⟨h1, e1, h⟩
    rw [Res.bind_eq_ok] at h
    rcases h with ⟨h2, e2, h⟩
    cases h
    rw [List.flatMap_cons, hr x (by simp) h1 e1, hdrLoop_ok g xs h2 (fun y hy => hr y (by simp [hy])) e2]

theorem plain_dep {H : Heap} {t u : TId} (h : Plain H t) (hu : u ∈ H.deps t) : Plain H u :=
  fun v hv => h v (.step hu hv)

theorem map_kids {H : Heap} {m : Mem} {f : Nat} {l : Loc} (hn : ¬ Kind.isLeaf (H.kind l.2) = true) (g : List Step → Str) :
    (leaves H m (f + 1) l).map (fun x => g x.1) =
      (kids H m l).flatMap (fun k => (leaves H m f k.2).map (fun x => g (k.1 :: x.1))) := by
  rw [leaves, if_neg hn, List.map_flatMap]
  congr 1
  funext k
  rw [List.map_map]
  rfl

theorem title_deref {H : Heap} {base : Str} {t e : TId} {p : List Step} (hk : H.kind t = .ptr e) :
    title H base t (.deref :: p) = title H ("*(".toList ++ base ++ [')']) e p := title.eq_4 _ _ _ _ e hk

theorem title_idx {H : Heap} {base : Str} {t e : TId} {d i : Nat} {p : List Step} (hk : H.kind t = .arr d e) :
    title H base t (.idx i :: p) = title H (base ++ '[' :: natStr i ++ [']']) e p := by
  rw [title.eq_3 _ _ _ _ _ _ _ hk]

theorem title_field {H : Heap} {base : Str} {t : TId} {fs : List FieldD} {i : Nat} {f : FieldD} {p : List Step}
    (hk : H.kind t = .comp fs) (hf : fs[i]? = some f) :
    title H base t (.field i :: p) = title H (base ++ '.' :: f.name) f.ty p := by
  rw [title.eq_2 _ _ _ _ fs i hk, hf]

theorem hdr_leaves {H : Heap} (m : Mem) : ∀ (f : Nat) (names : List Str) (t : TId) (a : Nat) (hs : List Str), Plain H t →
    hdr H f names t = .ok hs → hs = (leaves H m f (a, t)).map (fun x => title H names.flatten t x.1) := by
  intro f
  induction f with
  | zero => intro names t a hs _ h; cases h
  | succ f ih =>
    intro names t a hs hP h
    rw [hdr] at h
    have hpt := hP t (.refl t)
    have hleaf : Kind.isLeaf (H.kind t) = true → hs = [names.flatten] →
        hs = (leaves H m (f + 1) (a, t)).map (fun x => title H names.flatten t x.1) := by
      intro hl he
      have hl' : Kind.isLeaf (H.kind (a, t).2) = true := hl
      rw [leaves, if_pos hl', he]
      rfl
    cases hk : H.kind t with
    | null => rw [hk] at h; cases h
    | «opaque» => exact absurd hk hpt.1
    | vec e => exact absurd hk (hpt.2.1 e)
    | str e => exact absurd hk (hpt.2.2 e)
    | num c => rw [hk] at h; cases h; exact hleaf (by rw [hk]; rfl) rfl
    | «enum» c => rw [hk] at h; cases h; exact hleaf (by rw [hk]; rfl) rfl
    | ptr e =>
      rw [hk] at h
      dsimp only at h
      have hn : ¬ Kind.isLeaf (H.kind (a, t).2) = true := by show ¬ Kind.isLeaf (H.kind t) = true; rw [hk]; exact fun h => by cases h
      have := ih _ e (m.ptr a) hs (plain_dep hP (by unfold Heap.deps; rw [hk]; simp [Kind.deps, Kind.elem?])) h
      rw [map_kids hn, kids]
      simp only [hk, List.flatMap_cons, List.flatMap_nil, List.append_nil]
      rw [this]
      apply List.map_congr_left
      intro x _
      rw [title_deref hk]
      congr 1
      simp
    | arr d e =>
      rw [hk] at h
      dsimp only at h
      have hn : ¬ Kind.isLeaf (H.kind (a, t).2) = true := by show ¬ Kind.isLeaf (H.kind t) = true; rw [hk]; exact fun h => by cases h
      have := hdrLoop_ok (fun i => (leaves H m f (a + i * H.size e, e)).map
          (fun x => title H (names ++ ["[".toList, natStr i, "]".toList]).flatten e x.1)) _ hs (by
        intro i _ h0 e0
        exact ih _ e _ h0 (plain_dep hP (by unfold Heap.deps; rw [hk]; simp [Kind.deps, Kind.elem?])) e0) h
      rw [map_kids hn, kids]
      simp only [hk]
      rw [this, List.flatMap_map]
      congr 1
      funext i
      apply List.map_congr_left
      intro x _
      show _ = title H _ t (Step.idx i :: x.1)
      rw [title_idx hk]
      congr 1
      simp
    | comp fs =>
      rw [hk] at h
      dsimp only at h
      have hn : ¬ Kind.isLeaf (H.kind (a, t).2) = true := by show ¬ Kind.isLeaf (H.kind t) = true; rw [hk]; exact fun h => by cases h
      have := hdrLoop_ok (fun fd : FieldD => (leaves H m f (a + fd.offset, fd.ty)).map
          (fun x => title H (names ++ [".".toList] ++ [fd.name]).flatten fd.ty x.1)) _ hs (by
        intro fd hfd h0 e0
        refine ih _ fd.ty _ h0 (plain_dep hP ?_) e0
        unfold Heap.deps
        rw [hk]
        exact List.mem_map.mpr ⟨fd, hfd, rfl⟩) h
      rw [map_kids hn, kids]
      simp only [hk]
      rw [this, List.flatMap_map]
      rw [← flatMap_zipIdx (fun fd : FieldD => (leaves H m f (a + fd.offset, fd.ty)).map
          (fun x => title H (names ++ [".".toList] ++ [fd.name]).flatten fd.ty x.1)) fs 0]
      rw [List.flatMap_def, List.flatMap_def]
      congr 1
      apply List.map_congr_left
      intro q hq
      have hqi := List.mem_zipIdx_iff_getElem?.mp hq
      apply List.map_congr_left
      intro x _
      show _ = title H _ t (Step.field q.2 :: x.1)
      rw [title_field hk hqi]
      congr 1
      simp

/-! Fuel: more never changes a result. -/

theorem hdrLoop_mono {α : Type} {r1 r2 : α → Res (List Str)} : ∀ (xs : List α) (hs : List Str),
    (∀ x ∈ xs, ∀ h, r1 x = .ok h → r2 x = .ok h) → hdrLoop r1 xs = .ok hs → hdrLoop r2 xs = .ok hs
  | [], _, _, h => h
  | x :: xs, hs, hr, h => by
    rw [hdrLoop, Res.bind_eq_ok] at h
    rcases h with ⟨h1, e1, h⟩
    rw [Res.bind_eq_ok] at h
    rcases h with ⟨h2, e2, h⟩
    rw [hdrLoop, hr x (by simp) h1 e1, Res.bind_ok, hdrLoop_mono xs h2 (fun y hy => hr y (by simp [hy])) e2]
    exact h

theorem hdr_mono {H : Heap} : ∀ (f f' : Nat) (names : List Str) (t : TId) (hs : List Str), f ≤ f' →
    hdr H f names t = .ok hs → hdr H f' names t = .ok hs := by
  intro f
  induction f with
  | zero => intro f' names t hs _ h; cases h
  | succ f ih =>
    intro f' names t hs hle h
    cases f' with
    | zero => omega
    | succ f' =>
      have hle' : f ≤ f' := by omega
      rw [hdr] at h ⊢
      cases hk : H.kind t with
      | null => rw [hk] at h; cases h
      | «opaque» => rw [hk] at h; exact h
      | num c => rw [hk] at h; exact h
      | «enum» c => rw [hk] at h; exact h
      | ptr e => rw [hk] at h; exact ih _ _ _ _ hle' h
      | vec e => rw [hk] at h; exact ih _ _ _ _ hle' h
      | str e => rw [hk] at h; exact ih _ _ _ _ hle' h
      | arr d e => rw [hk] at h; exact hdrLoop_mono _ _ (fun x _ h hx => ih _ _ _ _ hle' hx) h
      | comp fs => rw [hk] at h; exact hdrLoop_mono _ _ (fun x _ h hx => ih _ _ _ _ hle' hx) h

section
variable {σ : Type} {H : Heap} {m : Mem} {V : Visitor σ}

theorem brkLoop_mono {r1 r2 : Nat → σ → Res (Bool × σ)} (hr : ∀ b s r, r1 b s = .ok r → r2 b s = .ok r) :
    ∀ (as : List Nat) (s s' : σ), brkLoop r1 as s = .ok s' → brkLoop r2 as s = .ok s'
  | [], _, _, h => h
  | b :: as, s, s', h => by
    rw [brkLoop, Res.bind_eq_ok] at h
    rcases h with ⟨q, hq, h⟩
    rw [brkLoop, hr _ _ _ hq, Res.bind_ok]
    split
    · rename_i hb; rw [if_pos hb] at h; exact brkLoop_mono hr as _ _ h
    · rename_i hb; rw [if_neg hb] at h; exact h

theorem allLoop_mono {r1 r2 : Nat → σ → Res (Bool × σ)} (hr : ∀ b s r, r1 b s = .ok r → r2 b s = .ok r) :
    ∀ (as : List Nat) (s s' : σ), allLoop r1 as s = .ok s' → allLoop r2 as s = .ok s'
  | [], _, _, h => h
  | b :: as, s, s', h => by
    rw [allLoop, Res.bind_eq_ok] at h
    rcases h with ⟨q, hq, h⟩
    rw [allLoop, hr _ _ _ hq, Res.bind_ok]
    exact allLoop_mono hr as _ _ h

theorem fieldLoop_mono {r1 r2 : Nat → FieldD → σ → Res (Bool × σ)} (a : Nat)
    (hr : ∀ b fd s r, r1 b fd s = .ok r → r2 b fd s = .ok r) :
    ∀ (fs : List FieldD) (s : σ) (r : Bool × σ), fieldLoop r1 a fs s = .ok r → fieldLoop r2 a fs s = .ok r
  | [], _, _, h => h
  | fd :: fs, s, r, h => by
    rw [fieldLoop, Res.bind_eq_ok] at h
    rcases h with ⟨q, hq, h⟩
    rw [fieldLoop, hr _ _ _ _ hq, Res.bind_ok]
    split
    · rename_i hb; rw [if_pos hb] at h; exact fieldLoop_mono a hr fs _ _ h
    · rename_i hb; rw [if_neg hb] at h; exact h

theorem visit_mono : ∀ (f f' a : Nat) (t : TId) (s : σ) (r : Bool × σ), f ≤ f' →
    visit H m V f a t s = .ok r → visit H m V f' a t s = .ok r := by
  intro f
  induction f with
  | zero => intro f' a t s r _ h; cases h
  | succ f ih =>
    intro f' a t s r hle h
    cases f' with
    | zero => omega
    | succ f' =>
      have hle' : f ≤ f' := by omega
      rw [visit] at h ⊢
      cases hk : H.kind t with
      | null => rw [hk] at h; cases h
      | «opaque» => rw [hk] at h; exact h
      | num c => rw [hk] at h; exact h
      | «enum» c => rw [hk] at h; exact h
      | ptr e =>
        rw [hk] at h
        dsimp only at h ⊢
        split at h
        · cases h
        · rename_i hn; rw [if_neg hn]; exact ih _ _ _ _ _ hle' h
      | arr d e =>
        rw [hk] at h
        dsimp only at h ⊢
        rw [Res.bind_eq_ok] at h
        rcases h with ⟨s', hs', h⟩
        rw [brkLoop_mono (fun b s r hr => ih f' b e s r hle' hr) _ _ _ hs']
        exact h
      | vec e =>
        rw [hk] at h
        dsimp only at h ⊢
        split at h
        · cases h
        rename_i hn
        rw [if_neg hn]
        rw [Res.bind_eq_ok] at h
        rcases h with ⟨s', hs', h⟩
        rw [allLoop_mono (fun b s r hr => ih f' b e s r hle' hr) _ _ _ hs']
        exact h
      | str e =>
        rw [hk] at h
        dsimp only at h ⊢
        rw [Res.bind_eq_ok] at h
        rcases h with ⟨s', hs', h⟩
        rw [allLoop_mono (fun b s r hr => ih f' b e s r hle' hr) _ _ _ hs']
        exact h
      | comp fs =>
        rw [hk] at h
        dsimp only at h ⊢
        refine fieldLoop_mono a ?_ fs s r h
        intro b fd s r hr
        unfold fieldRec at hr ⊢
        cases hvf : V.field with
        | some g => rw [hvf] at hr; exact hr
        | none => rw [hvf] at hr; exact ih _ _ _ _ _ hle' hr

end

theorem follow_type {H : Heap} {m : Mem} : ∀ (p : List Step) (l k : Loc), follow H m l p = some k → Reaches H l.2 k.2
  | [], l, k, h => by cases h; exact .refl _
  | st :: p, l, k, h => by
    rw [follow] at h
    rcases hs : stepTo H m l st with _ | x
    · rw [hs] at h; cases h
    rw [hs] at h
    refine .step ?_ (follow_type p x k h)
    unfold stepTo at hs
    unfold Heap.deps
    cases hk : H.kind l.2 with
    | comp fs =>
      rw [hk] at hs
      cases st with
      | field i =>
        simp only [Option.map_eq_some_iff] at hs
        rcases hs with ⟨f, hf, rfl⟩
        exact List.mem_map.mpr ⟨f, List.mem_of_getElem? hf, rfl⟩
      | _ => cases hs
    | arr d e =>
      rw [hk] at hs
      cases st with
      | idx i =>
        simp only at hs
        split at hs
        · cases hs; simp [Kind.deps, Kind.elem?]
        · cases hs
      | _ => cases hs
    | vec e =>
      rw [hk] at hs
      cases st with
      | elem i =>
        simp only at hs
        split at hs
        · cases hs; simp [Kind.deps, Kind.elem?]
        · cases hs
      | _ => cases hs
    | str e =>
      rw [hk] at hs
      cases st with
      | elem i =>
        simp only at hs
        split at hs
        · cases hs; simp [Kind.deps, Kind.elem?]
        · cases hs
      | _ => cases hs
    | ptr e =>
      rw [hk] at hs
      cases st with
      | deref => cases hs; simp [Kind.deps, Kind.elem?]
      | _ => cases hs
    | _ => rw [hk] at hs; cases st <;> cases hs

theorem run_lines {H : Heap} {cell : Nat → TId → Str} : ∀ (ls : List Loc) (acc : List Str),
    (∀ l ∈ ls, H.kind l.2 ≠ .opaque) →
    runLeaves (lineVisitor H cell) ls acc = acc ++ ls.map (fun l => cell l.1 l.2)
  | [], acc, _ => by simp [runLeaves]
  | l :: ls, acc, h => by
    have h1 : ((lineVisitor H cell).leaf l.1 l.2 acc).2 = acc ++ [cell l.1 l.2] := by
      have := h l (by simp)
      unfold lineVisitor
      dsimp only
      split
      · rename_i hk; exact absurd hk this
      · rfl
    show runLeaves _ ls ((lineVisitor H cell).leaf l.1 l.2 acc).2 = _
    rw [h1, run_lines ls _ (fun k hk => h k (by simp [hk]))]
    simp

/-- **C39** (same columns). For a type without containers and opaques: whenever the header and the line of a value can
be produced, there is a list of the numeric and enum parts of the value (all of them, each once, in the order of the
definitions) such that the `i`-th title of the header is the title of the `i`-th part and the `i`-th cell of the line is
the text of the value of the `i`-th part. -/
theorem C39_columns (H : Heap) (m : Mem) (cell : Nat → TId → Str) (f1 f2 a : Nat) (t : TId) (base : Str)
    (hs ls : List Str) (hP : Plain H t) (hh : hdr H f1 [base] t = .ok hs)
    (hl : apply H m (lineVisitor H cell) f2 a t [] = .ok ls) :
    ∃ ps, Leaves H m (a, t) ps ∧ hs = ps.map (fun x => title H base t x.1) ∧
      ls = ps.map (fun x => cell x.2.1 x.2.2) := by
  rw [apply, Res.bind_eq_ok] at hl
  rcases hl with ⟨r, hr, hl⟩
  cases hl
  have hh' := hdr_mono f1 (max f1 f2) _ _ _ (Nat.le_max_left _ _) hh
  have hr' := visit_mono f2 (max f1 f2) _ _ _ _ (Nat.le_max_right _ _) hr
  obtain ⟨_, h2, h3⟩ := visit_spec (V := lineVisitor H cell)
    (by intro a t s; unfold lineVisitor; dsimp only; split <;> rfl) rfl _ _ _ _ _ hr'
  refine ⟨_, h3, ?_, ?_⟩
  · have := hdr_leaves m _ _ t a hs hP hh'
    rw [show [base].flatten = base by simp] at this
    exact this
  · rw [h2, run_lines]
    · rw [List.nil_append, List.map_map]; rfl
    · intro l hl
      rcases List.mem_map.mp hl with ⟨x, hx, rfl⟩
      have := ((h3.complete x.1 x.2).mp hx).1
      exact (hP x.2.2 (follow_type _ _ _ this)).1

/-- **C39** (same number of columns). -/
theorem C39_same_number (H : Heap) (m : Mem) (cell : Nat → TId → Str) (f1 f2 a : Nat) (t : TId) (base : Str)
    (hs ls : List Str) (hP : Plain H t) (hh : hdr H f1 [base] t = .ok hs)
    (hl : apply H m (lineVisitor H cell) f2 a t [] = .ok ls) : hs.length = ls.length := by
  obtain ⟨ps, _, h1, h2⟩ := C39_columns H m cell f1 f2 a t base hs ls hP hh hl
  rw [h1, h2, List.length_map, List.length_map]

/-- The header can always be produced, if no type contains itself and there is no null type. -/
theorem hdr_ok {H : Heap} {rank : TId → Nat} (hr : ∀ u x, x ∈ H.deps u → rank x < rank u) :
    ∀ f names t, rank t < f → (∀ u, Reaches H t u → H.kind u ≠ .null) → ∃ hs, hdr H f names t = .ok hs := by
  have loop : ∀ {α : Type} (rec : α → Res (List Str)) (xs : List α), (∀ x ∈ xs, ∃ h, rec x = .ok h) →
      ∃ hs, hdrLoop rec xs = .ok hs := by
    intro α rec xs
    induction xs with
    | nil => intro _; exact ⟨_, rfl⟩
    | cons x xs ih =>
      intro h
      obtain ⟨h1, e1⟩ := h x (by simp)
      obtain ⟨h2, e2⟩ := ih (fun y hy => h y (by simp [hy]))
      exact ⟨h1 ++ h2, by rw [hdrLoop, e1, Res.bind_ok, e2, Res.bind_ok]⟩
  intro f
  induction f with
  | zero => intro names t h; omega
  | succ f ih =>
    intro names t hlt hn
    have hdep : ∀ x, x ∈ H.deps t → ∀ names, ∃ hs, hdr H f names x = .ok hs := fun x hx names =>
      ih names x (Nat.lt_of_lt_of_le (hr t x hx) (Nat.lt_succ_iff.mp hlt)) (fun u hu => hn u (.step hx hu))
    unfold Heap.deps at hdep
    rw [hdr]
    have h0 := hn t (.refl t)
    cases hk : H.kind t with
    | null => exact absurd hk h0
    | «opaque» => exact ⟨_, rfl⟩
    | num c => exact ⟨_, rfl⟩
    | «enum» c => exact ⟨_, rfl⟩
    | ptr e => exact hdep e (by rw [hk]; simp [Kind.deps, Kind.elem?]) _
    | vec e => exact hdep e (by rw [hk]; simp [Kind.deps, Kind.elem?]) _
    | str e => exact hdep e (by rw [hk]; simp [Kind.deps, Kind.elem?]) _
    | arr d e => exact loop _ _ (fun i _ => hdep e (by rw [hk]; simp [Kind.deps, Kind.elem?]) _)
    | comp fs => exact loop _ _ (fun fd hfd => hdep fd.ty (by rw [hk]; exact List.mem_map.mpr ⟨fd, hfd, rfl⟩) _)

/-- **C39** (both can be produced): whenever no type contains itself and nothing reachable from the value is a null
type, a numeric type of an unsupported size or a null pointer, the header and the line are produced. -/
theorem C39_produced (H : Heap) (m : Mem) (cell : Nat → TId → Str) (rank : TId → Nat) (a : Nat) (t : TId) (base : Str)
    (hr : ∀ u x, x ∈ H.deps u → rank x < rank u) (hn : ∀ u, Reaches H t u → H.kind u ≠ .null)
    (hp : ∀ p l, follow H m (a, t) p = some l → Passable H m l) :
    ∃ fuel hs ls, hdr H fuel [base] t = .ok hs ∧ apply H m (lineVisitor H cell) fuel a t [] = .ok ls := by
  obtain ⟨hs, h1⟩ := hdr_ok hr (rank t + 1) [base] t (Nat.lt_succ_self _) hn
  obtain ⟨r, h2⟩ := visit_ok (V := lineVisitor H cell) hr (rank t + 1) a t [] (Nat.lt_succ_self _) hp
  exact ⟨_, hs, r.2, h1, by rw [apply, h2, Res.bind_ok]⟩

/-! ### Reading the columns back -/

/-- **C39** (the text): a reader that cuts a line at the separator (one character that does not occur in the columns)
gets the columns back. -/
theorem C39_split (sep : Char) : ∀ (cols : List Str), cols ≠ [] → (∀ c ∈ cols, sep ∉ c) →
    Idl.pieces sep (join [sep] cols) = cols
  | [], h, _ => absurd rfl h
  | [x], _, h => by
    have : ∀ s : Str, sep ∉ s → Idl.pieces sep s = [s] := by
      intro s
      induction s with
      | nil => intro _; rfl
      | cons c s ih =>
        intro hc
        have h1 : c ≠ sep := fun e => hc (by simp [e])
        rw [Idl.pieces, if_neg h1, ih (fun hm => hc (by simp [hm]))]
    exact this x (h x (by simp))
  | x :: y :: r, _, h => by
    have hx := h x (by simp)
    show Idl.pieces sep (x ++ [sep] ++ join [sep] (y :: r)) = _
    rw [List.append_assoc, List.singleton_append, Idl.pieces_comp sep x _ hx,
      C39_split sep (y :: r) (by simp) (fun c hc => h c (by simp [hc]))]

/-- **C39** (the property as a reader sees it): a header and a line written with the same one-character separator, that
occurs neither in the titles nor in the cells, have the same number of fields. -/
theorem C39_text (H : Heap) (m : Mem) (cell : Nat → TId → Str) (f1 f2 a : Nat) (t : TId) (base : Str) (sep : Char)
    (ht ht' : Str) (hP : Plain H t) (hh : header H f1 t base [sep] = .ok ht)
    (hl : display H m cell f2 a t [sep] = .ok ht')
    (hsep : ∀ p, sep ∉ title H base t p) (hcell : ∀ a u, sep ∉ cell a u) :
    (Idl.pieces sep ht).length = (Idl.pieces sep ht').length := by
  unfold header at hh
  unfold display at hl
  rw [Res.bind_eq_ok] at hh hl
  rcases hh with ⟨hs, h1, hh⟩
  rcases hl with ⟨ls, h2, hl⟩
  cases hh; cases hl
  obtain ⟨ps, _, e1, e2⟩ := C39_columns H m cell f1 f2 a t base hs ls hP h1 h2
  by_cases hps : ps = []
  · rw [e1, e2, hps]; rfl
  · have hne : ∀ g : List Step × Loc → Str, ps.map g ≠ [] := fun g he => hps (List.map_eq_nil_iff.mp he)
    rw [C39_split sep hs (by rw [e1]; exact hne _) (by
        rw [e1]; intro c hc; rcases List.mem_map.mp hc with ⟨x, _, rfl⟩; exact hsep _),
      C39_split sep ls (by rw [e2]; exact hne _) (by
        rw [e2]; intro c hc; rcases List.mem_map.mp hc with ⟨x, _, rfl⟩; exact hcell _ _),
      e1, e2, List.length_map, List.length_map]

/-! ### Examples -/

/-- cells that show the address -/
def addrCell : Nat → TId → Str := fun a _ => natStr a

/-- `/S { int32 a; int16 b[2]; /S2* p }`, `/S2 { uint8 x; enum e }` -/
def cHeap : Heap := ⟨9, fun
  | 0 => ⟨"/int32_t".toList, 4, .num .sint⟩
  | 1 => ⟨"/int16_t".toList, 2, .num .sint⟩
  | 2 => ⟨"/int16_t[2]".toList, 4, .arr 2 1⟩
  | 3 => ⟨"/S2*".toList, 8, .ptr 4⟩
  | 4 => ⟨"/S2".toList, 8, .comp [⟨"x".toList, 0, 6⟩, ⟨"e".toList, 4, 7⟩]⟩
  | 5 => ⟨"/S".toList, 16, .comp [⟨"a".toList, 0, 0⟩, ⟨"b".toList, 4, 2⟩, ⟨"p".toList, 8, 3⟩]⟩
  | 6 => ⟨"/uint8_t".toList, 1, .num .uint⟩
  | 7 => ⟨"/E".toList, 4, .enum [("A".toList, 1)]⟩
  | 8 => ⟨"/std/vector</int16_t>".toList, 24, .vec 1⟩
  | 9 => ⟨"/O".toList, 8, .opaque⟩
  | 10 => ⟨"/T".toList, 12, .comp [⟨"a".toList, 0, 0⟩, ⟨"o".toList, 4, 9⟩, ⟨"c".toList, 12, 0⟩]⟩
  | 11 => ⟨"/R".toList, 8, .comp [⟨"next".toList, 0, 12⟩]⟩
  | 12 => ⟨"/R*".toList, 8, .ptr 11⟩
  | 13 => ⟨"/ld".toList, 16, .num .float⟩
  | 14 => ⟨"/U".toList, 2, .comp [⟨"a".toList, 0, 6⟩, ⟨"b".toList, 1, 6⟩]⟩
  | _ => ⟨"/nil".toList, 0, .null⟩⟩

theorem reaches_closed {H : Heap} (S : TId → Prop) (hc : ∀ u, S u → ∀ x ∈ H.deps u, S x) :
    ∀ {t u}, Reaches H t u → S t → S u := by
  intro t u h
  induction h with
  | refl t => exact id
  | step hu _ ih => exact fun hs => ih (hc _ hs _ hu)

/-- the hypotheses of the theorems are satisfiable -/
theorem C39_example : Plain cHeap 5 ∧
    hdr cHeap 5 ["s".toList] 5 = .ok (["s.a", "s.b[0]", "s.b[1]", "*(s.p).x", "*(s.p).e"].map String.toList) ∧
    apply cHeap vMem (lineVisitor cHeap addrCell) 5 1000 5 [] =
      .ok (["1000", "1004", "1006", "2000", "2004"].map String.toList) := by
  refine ⟨?_, by decide +kernel, by decide +kernel⟩
  intro u hu
  have : u < 8 := reaches_closed (fun u : Nat => u < 8) (by
    intro u hu
    match u, hu with
    | 0, _ | 1, _ | 2, _ | 3, _ | 4, _ | 5, _ | 6, _ | 7, _ => decide) hu (by decide)
  match u, this with
  | 0, _ | 1, _ | 2, _ | 3, _ | 4, _ | 5, _ | 6, _ | 7, _ =>
    refine ⟨fun h => ?_, fun e h => ?_, fun e h => ?_⟩ <;> cases h

/-- **C39 fails for containers**: one column in the header, one cell per element in the line. -/
theorem C39_container_counterexample : hdr cHeap 5 ["v".toList] 8 = .ok ["v".toList] ∧
    apply cHeap vMem (lineVisitor cHeap addrCell) 5 1016 8 [] = .ok (["3000", "3002", "3004"].map String.toList) := by
  decide +kernel

/-- **C39 fails for opaque types**: the header has a column for them, the line has none (the overload of `LineVisitor`,
csvoutput.cc:103-107, does not redefine the virtual method), and the cells that follow are under the wrong titles. -/
theorem C39_opaque_counterexample : hdr cHeap 5 ["t".toList] 10 = .ok (["t.a", "t.o", "t.c"].map String.toList) ∧
    apply cHeap vMem (lineVisitor cHeap addrCell) 5 1000 10 [] = .ok (["1000", "1012"].map String.toList) := by
  decide +kernel

/-- **C39, recursive types have no header**: no fuel is enough. -/
theorem C39_recursive_counterexample : ∀ fuel names, hdr cHeap fuel names 11 = .fuel ∧ hdr cHeap fuel names 12 = .fuel := by
  intro fuel
  induction fuel with
  | zero => intro names; exact ⟨rfl, rfl⟩
  | succ f ih =>
    intro names
    constructor
    · rw [hdr, show cHeap.kind 11 = .comp [⟨"next".toList, 0, 12⟩] from rfl]
      show hdrLoop _ _ = _
      rw [hdrLoop, (ih _).2]; rfl
    · rw [hdr, show cHeap.kind 12 = .ptr 11 from rfl]
      exact (ih _).1

/-- **C39, unsupported numeric types have a column but no cell**: the line is an exception. -/
theorem C39_unsupported_counterexample : hdr cHeap 5 ["x".toList] 13 = .ok ["x".toList] ∧
    apply cHeap vMem (lineVisitor cHeap addrCell) 5 1000 13 [] = .exn .exception := by decide +kernel

/-- **C39, a cell may contain the separator**: with `char_as_numeric` false a character is shown as itself
(csvoutput.cc:109-115). Two characters, the first being the separator: the line is read as three fields, the header as
two. -/
theorem C39_separator_counterexample :
    (header cHeap 5 14 "u".toList ",".toList >>= fun h => .ok (Idl.pieces ',' h).length) = .ok 2 ∧
    (display cHeap vMem (fun a _ => if a = 1000 then ",".toList else "x".toList) 5 1000 14 ",".toList >>= fun l =>
      .ok (Idl.pieces ',' l).length) = .ok 3 := by decide +kernel

/-! ### The theorems on concrete cases -/

example := C39_columns cHeap vMem addrCell 5 5 1000 5 _ _ _ C39_example.1 C39_example.2.1 C39_example.2.2

example := C39_same_number cHeap vMem addrCell 5 5 1000 5 _ _ _ C39_example.1 C39_example.2.1 C39_example.2.2

example := C39_split ',' ["s.a".toList, "s.b[0]".toList, "s.b[1]".toList] (by decide) (by decide)

/-- `C39_produced` for the structure of `C42_example` (arrays, a pointer, an enum, a vector) -/
example : ∃ fuel hs ls, hdr vHeap fuel ["s".toList] 8 = .ok hs ∧
    apply vHeap vMem (lineVisitor vHeap addrCell) fuel 1000 8 [] = .ok ls := by
  obtain ⟨rank, hr, hp⟩ := C42_example_completes
  refine C39_produced vHeap vMem addrCell rank 1000 8 _ hr (fun u hu => ?_) hp
  have : u < 9 := reaches_closed (fun u : Nat => u < 9) (by
    intro u hu
    match u, hu with
    | 0, _ | 1, _ | 2, _ | 3, _ | 4, _ | 5, _ | 6, _ | 7, _ | 8, _ => decide) hu (by decide)
  match u, this with
  | 0, _ | 1, _ | 2, _ | 3, _ | 4, _ | 5, _ | 6, _ | 7, _ | 8, _ => exact fun h => nomatch h

/-- `C39_text` for the structure of two characters, shown as numbers, with commas -/
example : (Idl.pieces ',' "u.a,u.b".toList).length = (Idl.pieces ',' "17,9".toList).length := by
  refine C39_text cHeap vMem (fun a _ => if a = 1000 then "17".toList else "9".toList) 5 5 1000 14 "u".toList ',' _ _ ?_ (by decide +kernel) (by decide +kernel)
    ?_ ?_
  · intro u hu
    have : u = 14 ∨ u = 6 := reaches_closed (fun u : Nat => u = 14 ∨ u = 6) (by
      rintro u (rfl | rfl) <;> decide) hu (by decide)
    rcases this with rfl | rfl <;> exact ⟨(fun h => nomatch h), (fun e h => nomatch h), (fun e h => nomatch h)⟩
  · intro p
    match p with
    | [] => decide
    | .field 0 :: p =>
      match p with
      | [] => decide
      | _ :: _ => exact fun h => nomatch h
    | .field 1 :: p =>
      match p with
      | [] => decide
      | _ :: _ => exact fun h => nomatch h
    | .field (n + 2) :: p => exact fun h => nomatch h
    | .idx i :: p => exact fun h => nomatch h
    | .deref :: p => exact fun h => nomatch h
    | .elem i :: p => exact fun h => nomatch h
  · intro a u
    show ',' ∉ (if a = 1000 then "17".toList else "9".toList)
    split <;> decide

end Verif.Csv
