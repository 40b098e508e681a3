import Verif.RegistryExamples

/-!
Model of `Exporter::save(stream, config, registry)` (exporter.cc:33-132), with property C33.

What the concrete exporter does with one entry (`save(stream, iterator)`) is not modelled here: only the order
in which entries are handed to it, and its boolean result (`wrote`), on which the order depends.
-/

namespace Verif.Exporter
open Verif Verif.Names Verif.Graph Verif.Registry

abbrev Ent := Str × Entry

/-- the test of exporter.cc:60-68: the target of an alias, the dependencies of another type are saved.
`saved_types` is a `std::set`; only membership is used. -/
def ready (H : Heap) (saved : List TId) (p : Ent) : Bool :=
  if isAlias H p then saved.contains p.2.ty else (H.deps p.2.ty).all (fun d => saved.contains d)

/-- the variables of the loop: `types`, `free_types` (maps ordered by `nameSort`), `saved_types`,
`last_namespace`, and the entries given to the exporter so far -/
structure St where
  types : List Ent
  free : List Ent
  saved : List TId
  last : Str
  out : List Ent

/-- one round of the outer loop (exporter.cc:53-122); `none`: the `throw` of exporter.cc:78-84 -/
def round (key : Char → Int) (H : Heap) (wrote : Ent → Bool) (s : St) : Option St :=
  -- exporter.cc:55-76
  let types := s.types.filter (fun p => !ready H s.saved p)
  let free := (s.types.filter (fun p => ready H s.saved p)).foldl (fun l p => ginsert key p.1 p.2 l) s.free
  if free.isEmpty then none
  else
    -- exporter.cc:88-108
    let nonpers := free.filter (fun p => !p.2.persistent)
    if !nonpers.isEmpty then
      some { types := types, free := free.filter (fun p => p.2.persistent), saved := s.saved ++ nonpers.map (·.2.ty),
             last := s.last, out := s.out }
    else
      -- exporter.cc:100-101, 110-111: the first free type of the last namespace, or the first free type
      let pre := free.takeWhile (fun p => getNamespace p.1 != s.last)
      let at_ := free.dropWhile (fun p => getNamespace p.1 != s.last)
      let pre' := if at_.isEmpty then [] else pre
      let at' := if at_.isEmpty then free else at_
      let ns := match at' with | [] => [] | p :: _ => getNamespace p.1
      -- exporter.cc:113-121
      let block := at'.takeWhile (fun p => getNamespace p.1 == ns)
      some { types := types, free := pre' ++ at'.dropWhile (fun p => getNamespace p.1 == ns),
             saved := s.saved ++ block.map (·.2.ty),
             last := if block.any wrote then ns else s.last,
             out := s.out ++ block }

/-- the `while (!types.empty())` loop and the final loop (exporter.cc:124-129) -/
def loop (key : Char → Int) (H : Heap) (wrote : Ent → Bool) : Nat → St → List Ent × Res Unit
  | 0, s => (s.out, .fuel)
  | f + 1, s =>
    if s.types.isEmpty then (s.out ++ s.free.filter (fun p => p.2.persistent), .ok ())
    else match round key H wrote s with
      | none => (s.out, .exn .exportError)
      | some s' => loop key H wrote f s'

/-- `Exporter::save`: the entries handed to the exporter, in order, and the outcome. -/
def save (key : Char → Int) (H : Heap) (wrote : Ent → Bool) (R : Reg) : List Ent × Res Unit :=
  loop key H wrote (R.global.length + 1) ⟨R.global, [], [], [], []⟩

/-! ### Proof -/

/-- every entry comes after what it needs -/
def Ordered (H : Heap) (l : List Ent) : Prop :=
  ∀ a p b, l = a ++ p :: b → ready H (a.map (·.2.ty)) p = true

theorem ready_mono {H : Heap} {a b : List TId} (h : ∀ t ∈ a, t ∈ b) {p : Ent} (hr : ready H a p = true) :
    ready H b p = true := by
  unfold ready at *
  split
  · rename_i ha
    rw [if_pos ha] at hr
    simp only [List.contains_iff_mem] at hr ⊢
    exact h _ hr
  · rename_i ha
    rw [if_neg ha] at hr
    simp only [List.all_eq_true, List.contains_iff_mem] at hr ⊢
    exact fun d hd => h _ (hr d hd)

theorem ordered_append {H : Heap} {l m : List Ent} (hl : Ordered H l)
    (hm : ∀ p ∈ m, ready H (l.map (·.2.ty)) p = true) : Ordered H (l ++ m) := by
  intro a p b h
  rcases List.append_eq_append_iff.mp h with ⟨c, h1, h2⟩ | ⟨c, h1, h2⟩
  · -- `a = l ++ c`
    have hp : p ∈ m := by rw [h2]; simp
    apply ready_mono _ (hm p hp)
    intro t ht
    rw [h1, List.map_append]
    exact List.mem_append_left _ ht
  · -- `l = a ++ c`
    cases c with
    | nil =>
      simp only [List.nil_append] at h2
      have hp : p ∈ m := by rw [← h2]; simp
      rw [List.append_nil] at h1
      rw [← h1]
      exact hm p hp
    | cons q c =>
      simp only [List.cons_append, List.cons.injEq] at h2
      obtain ⟨rfl, _⟩ := h2
      exact hl a p c h1

theorem ginsert_perm (key : Char → Int) (n : Str) (e : Entry) (l : List Ent) (h : ∀ p ∈ l, p.1 ≠ n) :
    (ginsert key n e l).Perm ((n, e) :: l) := by
  induction l with
  | nil => exact List.Perm.refl _
  | cons q r ih =>
    obtain ⟨m, f⟩ := q
    have hm : m ≠ n := h (m, f) (by simp)
    unfold ginsert
    rw [if_neg (fun e => hm e.symm)]
    split
    · exact List.Perm.refl _
    · exact (List.Perm.cons _ (ih (fun p hp => h p (by simp [hp])))).trans (List.Perm.swap _ _ _)

theorem foldl_ginsert_perm (key : Char → Int) (l acc : List Ent) (h : ((l ++ acc).map (·.1)).Nodup) :
    (l.foldl (fun l p => ginsert key p.1 p.2 l) acc).Perm (l ++ acc) := by
  induction l generalizing acc with
  | nil => exact List.Perm.refl _
  | cons p l ih =>
    simp only [List.cons_append, List.map_cons, List.nodup_cons, List.mem_map, not_exists, not_and] at h
    have hp := ginsert_perm key p.1 p.2 acc (fun q hq => h.1 q (by simp [hq]))
    have hp' : (l ++ ginsert key p.1 p.2 acc).Perm (p :: (l ++ acc)) :=
      (List.Perm.append_left l hp).trans List.perm_middle
    simp only [List.foldl_cons]
    refine (ih _ ?_).trans ?_
    · have := (hp'.map (·.1)).nodup_iff
      rw [this]
      simp only [List.map_cons, List.nodup_cons, List.mem_map, not_exists, not_and]
      exact h
    · simpa using hp'

structure Inv (H : Heap) (G : List Ent) (s : St) (gone : List Ent) : Prop where
  perm : (s.types ++ (s.free ++ gone)).Perm G
  ord : Ordered H gone
  out : s.out = gone.filter (fun p => p.2.persistent)
  saved : ∀ t, t ∈ s.saved ↔ t ∈ gone.map (·.2.ty)
  rdy : ∀ p ∈ s.free, ready H (gone.map (·.2.ty)) p = true

/-- a round keeps the invariant and makes progress -/
theorem round_inv {key : Char → Int} {H : Heap} {wrote : Ent → Bool} {G : List Ent}
    (hG : (G.map (·.1)).Nodup) {s : St} {gone : List Ent} (hi : Inv H G s gone) :
    match round key H wrote s with
    | none => s.free = [] ∧ ∀ p ∈ s.types, ready H (gone.map (·.2.ty)) p = false
    | some s' => ∃ gone', Inv H G s' gone' ∧ s'.types.length + s'.free.length < s.types.length + s.free.length := by
  have hsv : ∀ p, ready H s.saved p = ready H (gone.map (·.2.ty)) p := by
    intro p
    have h1 : ready H s.saved p = true ↔ ready H (gone.map (·.2.ty)) p = true :=
      ⟨ready_mono (fun t ht => (hi.saved t).mp ht), ready_mono (fun t ht => (hi.saved t).mpr ht)⟩
    cases h : ready H s.saved p <;> cases h' : ready H (gone.map (·.2.ty)) p <;> simp_all
  have hfun : (fun p => ready H s.saved p) = fun p => ready H (gone.map (·.2.ty)) p := funext hsv
  unfold round
  simp only [hsv]
  generalize hT : s.types.filter (fun p => !ready H (gone.map (·.2.ty)) p) = types
  generalize hN : s.types.filter (fun p => ready H (gone.map (·.2.ty)) p) = new
  have hTN : (new ++ types).Perm s.types := by
    rw [← hT, ← hN]
    exact List.filter_append_perm _ s.types
  have hnd : ((s.types ++ (s.free ++ gone)).map (·.1)).Nodup := ((hi.perm.map (·.1)).nodup_iff).mpr hG
  have hnd2 : ((new ++ s.free).map (·.1)).Nodup := by
    have h1 : ((new ++ types) ++ (s.free ++ gone)).Perm (s.types ++ (s.free ++ gone)) := List.Perm.append_right _ hTN
    have h2 := ((h1.map (·.1)).nodup_iff).mpr hnd
    have h3 : ((new ++ types) ++ (s.free ++ gone)).Perm ((new ++ s.free) ++ (types ++ gone)) := by
      simp only [List.append_assoc]
      apply List.Perm.append_left
      exact (List.perm_append_comm_assoc _ _ _)
    have h4 := ((h3.map (·.1)).nodup_iff).mp h2
    rw [List.map_append] at h4
    exact (List.nodup_append.mp h4).1
  have hfree := foldl_ginsert_perm key new s.free hnd2
  generalize hF : new.foldl (fun l p => ginsert key p.1 p.2 l) s.free = free at hfree
  have hlen : types.length + free.length = s.types.length + s.free.length := by
    have a := hfree.length_eq
    have b := hTN.length_eq
    simp only [List.length_append] at a b
    omega
  have hperm : (types ++ (free ++ gone)).Perm G := by
    refine List.Perm.trans ?_ hi.perm
    have h1 : (types ++ (free ++ gone)).Perm (types ++ ((new ++ s.free) ++ gone)) :=
      List.Perm.append_left _ (List.Perm.append_right _ hfree)
    refine h1.trans ?_
    have h2 : (types ++ ((new ++ s.free) ++ gone)).Perm ((new ++ types) ++ (s.free ++ gone)) := by
      simp only [List.append_assoc]
      exact List.perm_append_comm_assoc _ _ _
    exact h2.trans (List.Perm.append_right _ hTN)
  have hrdy : ∀ p ∈ free, ready H (gone.map (·.2.ty)) p = true := by
    intro p hp
    rcases List.mem_append.mp (hfree.mem_iff.mp hp) with h | h
    · rw [← hN] at h; exact (List.mem_filter.mp h).2
    · exact hi.rdy p h
  by_cases hemp : free = []
  · rw [hemp]
    simp only [List.isEmpty_nil, if_true]
    have hl0 : (new ++ s.free).length = 0 := by rw [← hfree.length_eq, hemp]; rfl
    simp only [List.length_append, Nat.add_eq_zero_iff, List.length_eq_zero_iff] at hl0
    refine ⟨hl0.2, ?_⟩
    intro p hp
    have : p ∉ new := by rw [hl0.1]; simp
    rw [← hN, List.mem_filter] at this
    simpa [hp] using this
  · have he : free.isEmpty = false := by simpa using hemp
    simp only [he, Bool.false_eq_true, if_false]
    -- processing any batch of the free types
    have hbatch : ∀ (batch rest : List Ent) (saved : List TId) (out : List Ent) (last : Str), (batch ++ rest).Perm free →
        batch ≠ [] → (∀ t, t ∈ saved ↔ t ∈ s.saved ++ batch.map (·.2.ty)) →
        out = s.out ++ batch.filter (fun p => p.2.persistent) →
        ∃ gone', Inv H G ⟨types, rest, saved, last, out⟩ gone' ∧
          types.length + rest.length < s.types.length + s.free.length := by
      intro batch rest saved out last hp hb hs ho
      have hbf : ∀ p ∈ batch, p ∈ free := fun p h => hp.mem_iff.mp (by simp [h])
      refine ⟨gone ++ batch, ⟨?_, ordered_append hi.ord (fun p h => hrdy p (hbf p h)), ?_, ?_, ?_⟩, ?_⟩
      · refine List.Perm.trans ?_ hperm
        apply List.Perm.append_left
        show (rest ++ (gone ++ batch)).Perm (free ++ gone)
        have h1 : (rest ++ (gone ++ batch)).Perm ((batch ++ rest) ++ gone) := by
          rw [List.append_assoc]
          refine (List.Perm.append_left rest (List.perm_append_comm (l₁ := gone) (l₂ := batch))).trans ?_
          exact List.perm_append_comm_assoc _ _ _
        exact h1.trans (List.Perm.append_right _ hp)
      · show out = _
        rw [ho, hi.out, List.filter_append]
      · intro t
        show t ∈ saved ↔ _
        rw [hs t, List.map_append, List.mem_append, List.mem_append, hi.saved]
      · intro p h
        apply ready_mono _ (hrdy p (hp.mem_iff.mp (by simp [h])))
        intro t ht
        rw [List.map_append]
        exact List.mem_append_left _ ht
      · have a := hp.length_eq
        have b : 0 < batch.length := List.length_pos_iff.mpr hb
        simp only [List.length_append] at a
        omega
    by_cases hnp : free.filter (fun p => !p.2.persistent) = []
    · rw [hnp]
      simp only [List.isEmpty_nil, Bool.not_true, Bool.false_eq_true, if_false]
      have hallp : ∀ p ∈ free, p.2.persistent = true := by
        intro p hp
        have := List.filter_eq_nil_iff.mp hnp p hp
        simpa using this
      generalize hpre' : (if (free.dropWhile (fun p => getNamespace p.1 != s.last)).isEmpty then []
        else free.takeWhile (fun p => getNamespace p.1 != s.last)) = pre'
      generalize hat' : (if (free.dropWhile (fun p => getNamespace p.1 != s.last)).isEmpty then free
        else free.dropWhile (fun p => getNamespace p.1 != s.last)) = at'
      have hsplit : pre' ++ at' = free := by
        rw [← hpre', ← hat']
        split
        · rfl
        · exact List.takeWhile_append_dropWhile
      have hane : at' ≠ [] := by
        rw [← hat']
        split
        · exact hemp
        · rename_i h; simpa using h
      generalize hns : (match at' with | [] => [] | p :: _ => getNamespace p.1) = ns
      generalize hblk : at'.takeWhile (fun p => getNamespace p.1 == ns) = block
      generalize hrst : at'.dropWhile (fun p => getNamespace p.1 == ns) = rest
      have hbr : block ++ rest = at' := by rw [← hblk, ← hrst]; exact List.takeWhile_append_dropWhile
      have hbne : block ≠ [] := by
        rw [← hblk]
        cases at' with
        | nil => exact absurd rfl hane
        | cons p r =>
          simp only at hns
          simp [hns]
      apply hbatch block (pre' ++ rest)
      · rw [← hsplit, ← hbr]
        exact List.perm_append_comm_assoc _ _ _
      · exact hbne
      · intro t; rfl
      · congr 1
        symm
        rw [List.filter_eq_self]
        intro p hp
        exact hallp p (by rw [← hsplit, ← hbr]; simp [hp])
    · have he2 : (free.filter (fun p => !p.2.persistent)).isEmpty = false := by simpa using hnp
      simp only [he2, Bool.not_false, if_true]
      apply hbatch (free.filter (fun p => !p.2.persistent)) (free.filter (fun p => p.2.persistent))
      · have := List.filter_append_perm (fun p : Ent => !p.2.persistent) free
        simpa using this
      · exact hnp
      · intro t; rfl
      · have : (free.filter (fun p => !p.2.persistent)).filter (fun p => p.2.persistent) = [] := by
          rw [List.filter_filter, List.filter_eq_nil_iff]
          intro p _
          cases p.2.persistent <;> simp
        rw [this, List.append_nil]

/-- outcome of the whole loop -/
theorem loop_spec {key : Char → Int} {H : Heap} {wrote : Ent → Bool} {G : List Ent}
    (hG : (G.map (·.1)).Nodup) : ∀ (fuel : Nat) (s : St) (gone : List Ent), Inv H G s gone →
      s.types.length + s.free.length < fuel →
      (∃ full, loop key H wrote fuel s = (full.filter (fun p => p.2.persistent), .ok ()) ∧ full.Perm G ∧ Ordered H full) ∨
      (∃ gone' stuck, loop key H wrote fuel s = (gone'.filter (fun p => p.2.persistent), .exn .exportError) ∧
        (stuck ++ gone').Perm G ∧ Ordered H gone' ∧ stuck ≠ [] ∧
        ∀ p ∈ stuck, ready H (gone'.map (·.2.ty)) p = false) := by
  intro fuel
  induction fuel with
  | zero => intro s gone _ h; omega
  | succ f ih =>
    intro s gone hi hlt
    unfold loop
    by_cases ht : s.types = []
    · rw [ht]
      simp only [List.isEmpty_nil, if_true]
      left
      refine ⟨gone ++ s.free, ?_, ?_, ordered_append hi.ord hi.rdy⟩
      · rw [hi.out, List.filter_append]
      · have := hi.perm
        rw [ht, List.nil_append] at this
        exact List.perm_append_comm.trans this
    · have hte : s.types.isEmpty = false := by simpa using ht
      simp only [hte, Bool.false_eq_true, if_false]
      have hr := round_inv (key := key) (wrote := wrote) hG hi
      cases hround : round key H wrote s with
      | none =>
        rw [hround] at hr
        simp only at hr ⊢
        right
        refine ⟨gone, s.types, ?_, ?_, hi.ord, ht, hr.2⟩
        · rw [hi.out]
        · have := hi.perm
          rw [hr.1, List.nil_append] at this
          exact this
      | some s' =>
        rw [hround] at hr
        simp only at hr ⊢
        obtain ⟨gone', hi', hlt'⟩ := hr
        exact ih s' gone' hi' (by omega)

theorem sorted_nodup {key : Char → Int} {l : List Ent} (hs : Sorted key l) : (l.map (·.1)).Nodup := by
  unfold List.Nodup
  rw [List.pairwise_map]
  apply List.Pairwise.imp _ hs
  intro a b h e
  rw [e, nameSort_irrefl] at h
  cases h

theorem save_spec {key : Char → Int} {H : Heap} (wrote : Ent → Bool) {R : Reg} (hs : Sorted key R.global) :
    (∃ full, save key H wrote R = (full.filter (fun p => p.2.persistent), .ok ()) ∧ full.Perm R.global ∧ Ordered H full) ∨
    (∃ gone' stuck, save key H wrote R = (gone'.filter (fun p => p.2.persistent), .exn .exportError) ∧
      (stuck ++ gone').Perm R.global ∧ Ordered H gone' ∧ stuck ≠ [] ∧
      ∀ p ∈ stuck, ready H (gone'.map (·.2.ty)) p = false) := by
  apply loop_spec (sorted_nodup hs) _ _ []
  · refine ⟨by simp, ?_, rfl, by simp, by simp⟩
    intro a p b h
    simp at h
  · simp

/-! ### C33 -/

/-- `t` depends on `d`, directly or not -/
inductive DependsOn (H : Heap) : TId → TId → Prop
  | direct {t d} : d ∈ H.deps t → DependsOn H t d
  | step {t u d} : u ∈ H.deps t → DependsOn H u d → DependsOn H t d

theorem DependsOn.split {H : Heap} {t d : TId} (h : DependsOn H t d) :
    d ∈ H.deps t ∨ ∃ u, u ∈ H.deps t ∧ DependsOn H u d := by
  cases h with
  | direct h => exact Or.inl h
  | step h h' => exact Or.inr ⟨_, h, h'⟩

/-- in a well ordered list, the first entry of a type is its own, not an alias -/
theorem own_entry {H : Heap} {l : List Ent} (ho : Ordered H l) {t : TId} (ht : t ∈ l.map (·.2.ty)) :
    ∃ e : Entry, (H.name t, e) ∈ l ∧ e.ty = t := by
  obtain ⟨p, hp, rfl⟩ := List.mem_map.mp ht
  have key : ∀ (n : Nat) (a b : List Ent) (p : Ent), a.length = n → l = a ++ p :: b →
      ∃ e : Entry, (H.name p.2.ty, e) ∈ l ∧ e.ty = p.2.ty := by
    intro n
    induction n using Nat.strongRecOn with
    | _ n ih =>
      intro a b p hn hl
      have hr := ho a p b hl
      by_cases ha : isAlias H p = true
      · unfold ready at hr
        rw [if_pos ha] at hr
        simp only [List.contains_iff_mem, List.mem_map] at hr
        obtain ⟨q, hq, hqt⟩ := hr
        obtain ⟨a1, a2, rfl⟩ := List.append_of_mem hq
        rw [← hqt]
        exact ih a1.length (by rw [← hn]; simp) a1 (a2 ++ p :: b) q rfl (by rw [hl]; simp)
      · have : p.1 = H.name p.2.ty := by
          unfold isAlias at ha
          simpa using ha
        exact ⟨p.2, by rw [← this, hl]; simp, rfl⟩
  obtain ⟨a, b, hab⟩ := List.append_of_mem hp
  exact key a.length a b p rfl hab

theorem ordered_prefix {H : Heap} {a b : List Ent} (h : Ordered H (a ++ b)) : Ordered H a := by
  intro x p y hxy
  exact h x p (y ++ b) (by rw [hxy]; simp)

/-- everything a saved type depends on is saved before it -/
theorem deps_before {H : Heap} {l : List Ent} (ho : Ordered H l) {t d : TId} (ht : t ∈ l.map (·.2.ty))
    (hd : DependsOn H t d) : d ∈ l.map (·.2.ty) := by
  induction hd with
  | @direct t d h =>
    obtain ⟨e, he, het⟩ := own_entry ho ht
    obtain ⟨a, b, hab⟩ := List.append_of_mem he
    have hr := ho a _ b hab
    have hna : isAlias H (H.name t, e) = false := by unfold isAlias; simp [het]
    unfold ready at hr
    rw [hna] at hr
    simp only [Bool.false_eq_true, if_false, List.all_eq_true, List.contains_iff_mem, het] at hr
    rw [hab, List.map_append]
    exact List.mem_append_left _ (hr d h)
  | @step t u d h _ ih =>
    apply ih
    obtain ⟨e, he, het⟩ := own_entry ho ht
    obtain ⟨a, b, hab⟩ := List.append_of_mem he
    have hr := ho a _ b hab
    have hna : isAlias H (H.name t, e) = false := by unfold isAlias; simp [het]
    unfold ready at hr
    rw [hna] at hr
    simp only [Bool.false_eq_true, if_false, List.all_eq_true, List.contains_iff_mem, het] at hr
    rw [hab, List.map_append]
    exact List.mem_append_left _ (hr u h)

/-- the order in which entries are given to the exporter -/
def GoodOrder (H : Heap) (G : List Ent) (out : List Ent) : Prop :=
  ∀ a p b, out = a ++ p :: b →
    (p.1 ≠ H.name p.2.ty → ∀ e, (H.name p.2.ty, e) ∈ G → e.persistent = true → (H.name p.2.ty, e) ∈ a) ∧
    (∀ d, DependsOn H p.2.ty d → ∀ e, (H.name d, e) ∈ G → e.persistent = true → (H.name d, e) ∈ a)

theorem goodOrder_of {H : Heap} {G gone : List Ent} (hG : (G.map (·.1)).Nodup) (hsub : ∀ p ∈ gone, p ∈ G)
    (ho : Ordered H gone) : GoodOrder H G (gone.filter (fun p => p.2.persistent)) := by
  have huniq : ∀ (n : Str) (e e' : Entry), (n, e) ∈ G → (n, e') ∈ G → e = e' := by
    intro n e e' h h'
    have : ∀ (l : List Ent), (l.map (·.1)).Nodup → (n, e) ∈ l → (n, e') ∈ l → e = e' := by
      intro l
      induction l with
      | nil => intro _ h; cases h
      | cons q r ih =>
        intro hn h1 h2
        simp only [List.map_cons, List.nodup_cons, List.mem_map, not_exists, not_and] at hn
        rcases List.mem_cons.mp h1 with h1 | h1 <;> rcases List.mem_cons.mp h2 with h2 | h2
        · rw [← h1] at h2; exact (Prod.mk.inj h2).2.symm
        · exact absurd (by rw [← h1]) (hn.1 _ h2)
        · exact absurd (by rw [← h2]) (hn.1 _ h1)
        · exact ih hn.2 h1 h2
    exact this G hG h h'
  intro a p b h
  -- the same position in `gone`
  have hex : ∃ x y, gone = x ++ p :: y ∧ x.filter (fun p => p.2.persistent) = a := by
    clear ho hsub
    induction gone generalizing a with
    | nil => simp at h
    | cons q r ih =>
      rw [List.filter_cons] at h
      split at h
      · cases a with
        | nil => simp only [List.nil_append, List.cons.injEq] at h; exact ⟨[], r, by rw [h.1]; rfl, rfl⟩
        | cons z a =>
          simp only [List.cons_append, List.cons.injEq] at h
          obtain ⟨x, y, h1, h2⟩ := ih a h.2
          rename_i hq
          refine ⟨q :: x, y, by rw [h1]; rfl, ?_⟩
          rw [List.filter_cons, if_pos hq, h2, h.1]
      · rename_i hq
        obtain ⟨x, y, h1, h2⟩ := ih a h
        exact ⟨q :: x, y, by rw [h1]; rfl, by rw [List.filter_cons, if_neg hq, h2]⟩
  obtain ⟨x, y, hxy, hxa⟩ := hex
  have hox : Ordered H x := ordered_prefix (by rw [← hxy]; exact ho)
  have hr := ho x p y hxy
  have hmem : ∀ t, t ∈ x.map (·.2.ty) → ∀ e, (H.name t, e) ∈ G → e.persistent = true → (H.name t, e) ∈ a := by
    intro t ht e he hp
    obtain ⟨e', he', _⟩ := own_entry hox ht
    have := huniq _ _ e' he (hsub _ (by rw [hxy]; simp [he']))
    subst this
    rw [← hxa, List.mem_filter]
    exact ⟨he', hp⟩
  constructor
  · intro hne
    have hal : isAlias H p = true := by unfold isAlias; simpa using hne
    unfold ready at hr
    rw [if_pos hal] at hr
    simp only [List.contains_iff_mem] at hr
    exact hmem _ hr
  · intro d hd
    apply hmem
    by_cases hal : isAlias H p = true
    · unfold ready at hr
      rw [if_pos hal] at hr
      simp only [List.contains_iff_mem] at hr
      exact deps_before hox hr hd
    · unfold ready at hr
      rw [if_neg hal] at hr
      simp only [List.all_eq_true, List.contains_iff_mem] at hr
      rcases hd.split with h | ⟨u, h, h'⟩
      · exact hr d h
      · exact deps_before hox (hr u h) h'

/-- **C33**, order: whatever the outcome, an entry is given to the exporter only after the persistent entries
of all the types it depends on (directly or not), an alias only after its target. If the export succeeds, each
persistent entry of the registry has been given exactly once, and nothing else. -/
theorem C33_order {key : Char → Int} {H : Heap} (hkey : ∀ a b, key a = key b → a = b) (hac : Acyclic H) {R : Reg}
    (hr : Reachable key H R) (wrote : Ent → Bool) :
    GoodOrder H R.global (save key H wrote R).1 ∧
    ((save key H wrote R).2 = .ok () →
      (save key H wrote R).1.Perm (R.global.filter (fun p => p.2.persistent)) ∧ (save key H wrote R).1.Nodup) := by
  have hinv := inv_reachable hkey hac hr
  have hs := hinv.sorted
  have hnd := sorted_nodup hs
  rcases save_spec (H := H) wrote hs with ⟨full, h1, h2, h3⟩ | ⟨gone', stuck, h1, h2, h3, h4, h5⟩
  · rw [h1]
    refine ⟨goodOrder_of hnd (fun p hp => h2.mem_iff.mp hp) h3, fun _ => ⟨h2.filter _, ?_⟩⟩
    have h6 := (h2.map (·.1)).nodup_iff.mpr hnd
    unfold List.Nodup at h6 ⊢
    rw [List.pairwise_map] at h6
    exact (h6.imp (fun {a b} h e => h (congrArg Prod.fst e))).filter _
  · rw [h1]
    exact ⟨goodOrder_of hnd (fun p hp => h2.mem_iff.mp (by simp [hp])) h3, fun h => by cases h⟩

/-- **C33**, outcome: the export terminates on every registry; it succeeds exactly when the dependencies of
every registered type are registered and there is no dependency cycle among them (the types can be ranked);
otherwise it throws `ExportError`. -/
theorem C33_outcome {key : Char → Int} {H : Heap} (hkey : ∀ a b, key a = key b → a = b) (hac : Acyclic H) {R : Reg}
    (hr : Reachable key H R) (wrote : Ent → Bool) :
    ((save key H wrote R).2 = .ok () ∨ (save key H wrote R).2 = .exn .exportError) ∧
    ((save key H wrote R).2 = .ok () ↔
      (∀ t d, R.regd H t → d ∈ H.deps t → R.regd H d) ∧
      ∃ rk : TId → Nat, ∀ t d, R.regd H t → d ∈ H.deps t → rk d < rk t) := by
  have hinv := inv_reachable hkey hac hr
  have hs := hinv.sorted
  have hregd : ∀ t, R.regd H t ↔ ∃ e, (H.name t, e) ∈ R.global ∧ e.ty = t := by
    intro t
    constructor
    · intro h; exact reg_mem h
    · rintro ⟨e, h, rfl⟩; exact mem_reg hs h
  rcases save_spec (H := H) wrote hs with ⟨full, h1, h2, h3⟩ | ⟨gone', stuck, h1, h2, h3, h4, h5⟩
  · refine ⟨Or.inl (by rw [h1]), ?_⟩
    rw [h1]
    simp only [true_iff]
    have hready : ∀ t d, R.regd H t → d ∈ H.deps t → ∃ a p b, full = a ++ p :: b ∧ p.1 = H.name t ∧ p.2.ty = t ∧
        d ∈ a.map (·.2.ty) := by
      intro t d ht hd
      obtain ⟨e, he, het⟩ := (hregd t).mp ht
      obtain ⟨a, b, hab⟩ := List.append_of_mem (h2.mem_iff.mpr he)
      have hr := h3 a _ b hab
      have hna : isAlias H (H.name t, e) = false := by unfold isAlias; simp [het]
      unfold ready at hr
      rw [hna] at hr
      simp only [Bool.false_eq_true, if_false, List.all_eq_true, List.contains_iff_mem, het] at hr
      exact ⟨a, _, b, hab, rfl, het, hr d hd⟩
    constructor
    · intro t d ht hd
      obtain ⟨a, p, b, hab, _, _, hda⟩ := hready t d ht hd
      obtain ⟨e, he, het⟩ := own_entry (ordered_prefix (b := p :: b) (by rw [← hab]; exact h3)) hda
      exact (hregd d).mpr ⟨e, h2.mem_iff.mp (by rw [hab]; simp [he]), het⟩
    · -- the rank of a type: the position of its first entry
      refine ⟨fun t => full.findIdx (fun p => p.2.ty == t), ?_⟩
      intro t d ht hd
      -- first occurrence of `t`
      have htm : t ∈ full.map (·.2.ty) := by
        obtain ⟨e, he, het⟩ := (hregd t).mp ht
        exact List.mem_map.mpr ⟨_, h2.mem_iff.mpr he, het⟩
      obtain ⟨q, hq, hqt⟩ := List.mem_map.mp htm
      have hlt : full.findIdx (fun p => p.2.ty == t) < full.length := by
        rw [List.findIdx_lt_length]
        exact ⟨q, hq, by simpa using hqt⟩
      generalize hi : full.findIdx (fun p => p.2.ty == t) = i at hlt
      have hpt : full[i].2.ty = t := by
        have := List.findIdx_getElem (xs := full) (p := fun p => p.2.ty == t) (w := by rw [hi]; exact hlt)
        simp only [hi] at this
        simpa using this
      have hsplit : full = full.take i ++ full[i] :: full.drop (i + 1) := by
        rw [List.getElem_cons_drop]; exact (List.take_append_drop i full).symm
      have hr := h3 _ _ _ hsplit
      have hna : isAlias H full[i] = false := by
        cases hal : isAlias H full[i] with
        | false => rfl
        | true =>
          unfold ready at hr
          rw [if_pos hal] at hr
          simp only [List.contains_iff_mem, List.mem_map] at hr
          obtain ⟨z, hz, hzt⟩ := hr
          obtain ⟨j, hj, hjz⟩ := List.mem_iff_getElem.mp hz
          rw [List.length_take] at hj
          have hj' : j < i := by omega
          have hnot := List.not_of_lt_findIdx (xs := full) (p := fun p => p.2.ty == t) (i := j) (by rw [hi]; exact hj')
          rw [List.getElem_take] at hjz
          rw [hjz] at hnot
          rw [hpt] at hzt
          simp [hzt] at hnot
      unfold ready at hr
      rw [hna] at hr
      simp only [Bool.false_eq_true, if_false, List.all_eq_true, List.contains_iff_mem, hpt] at hr
      have hda := hr d hd
      obtain ⟨z, hz, hzt⟩ := List.mem_map.mp hda
      obtain ⟨j, hj, hjz⟩ := List.mem_iff_getElem.mp hz
      rw [List.length_take] at hj
      rw [List.getElem_take] at hjz
      have hle : full.findIdx (fun p => p.2.ty == d) ≤ j := by
        apply Decidable.byContradiction
        intro hgt
        have hnot := List.not_of_lt_findIdx (xs := full) (p := fun p => p.2.ty == d) (i := j) (by omega)
        rw [hjz] at hnot
        simp [hzt] at hnot
      show full.findIdx (fun p => p.2.ty == d) < full.findIdx (fun p => p.2.ty == t)
      rw [hi]
      omega
  · refine ⟨Or.inr (by rw [h1]), ?_⟩
    rw [h1]
    constructor
    · intro h; cases h
    · rintro ⟨hcl, rk, hrk⟩
      exfalso
      -- own entries that are not stuck are done
      have hdone : ∀ t, R.regd H t → (∀ e, (H.name t, e) ∉ stuck) → t ∈ gone'.map (·.2.ty) := by
        intro t ht hno
        obtain ⟨e, he, het⟩ := (hregd t).mp ht
        rcases List.mem_append.mp (h2.mem_iff.mpr he) with h | h
        · exact absurd h (hno e)
        · exact List.mem_map.mpr ⟨_, h, het⟩
      -- a stuck own entry has a stuck dependency of smaller rank
      have key : ∀ (n : Nat) (p : Ent), rk p.2.ty = n → p ∈ stuck → p.1 = H.name p.2.ty → False := by
        intro n
        induction n using Nat.strongRecOn with
        | _ n ih =>
          intro p hn hp hown
          have hpr : R.regd H p.2.ty := by
            rw [hregd]
            exact ⟨p.2, by rw [← hown]; exact h2.mem_iff.mp (by simp [hp]), rfl⟩
          have hnr := h5 p hp
          have hna : isAlias H p = false := by unfold isAlias; simpa using hown
          unfold ready at hnr
          rw [hna] at hnr
          simp only [Bool.false_eq_true, if_false] at hnr
          have : ∃ d ∈ H.deps p.2.ty, d ∉ gone'.map (·.2.ty) := by
            apply Decidable.byContradiction
            intro hall
            have : (H.deps p.2.ty).all (fun d => (gone'.map (·.2.ty)).contains d) = true := by
              simp only [List.all_eq_true, List.contains_iff_mem]
              intro d hd
              apply Decidable.byContradiction
              intro hx
              exact hall ⟨d, hd, hx⟩
            rw [this] at hnr
            cases hnr
          obtain ⟨d, hd, hdn⟩ := this
          have hdr := hcl _ d hpr hd
          apply hdn
          apply hdone d hdr
          intro e he
          have het : e.ty = d := by
            have h6 := mem_reg hs (p := (H.name d, e)) (h2.mem_iff.mp (by simp [he]))
            simp only at h6
            rw [show R.reg (H.name d) = some d from hdr] at h6
            exact (Option.some.inj h6).symm
          have := hrk _ d hpr hd
          exact ih (rk d) (by omega) (H.name d, e) (by simp only [het]) he (by simp only [het])
      obtain ⟨p, hp⟩ := List.exists_mem_of_ne_nil _ h4
      by_cases hown : p.1 = H.name p.2.ty
      · exact key _ p rfl hp hown
      · -- an alias whose target is done would be ready
        have hal : isAlias H p = true := by unfold isAlias; simpa using hown
        have hnr := h5 p hp
        unfold ready at hnr
        rw [if_pos hal] at hnr
        have hpG := h2.mem_iff.mp (show p ∈ stuck ++ gone' by simp [hp])
        have hpr : R.regd H p.2.ty := hinv.prim p hpG
        have := hdone _ hpr (fun e he => by
          have h6 := mem_reg hs (p := (H.name p.2.ty, e)) (h2.mem_iff.mp (by simp [he]))
          simp only at h6
          rw [show R.reg (H.name p.2.ty) = some p.2.ty from hpr] at h6
          have h7 := (Option.some.inj h6).symm
          exact key _ (H.name p.2.ty, e) rfl he (by simp only [h7]))
        rw [← List.contains_iff_mem] at this
        rw [this] at hnr
        cases hnr

/-- the registry of `exReg` can be exported: `/A`, then its alias, then the types that use it (the pointer and
the array are not persistent) -/
example : (save ascii exHeap (fun _ => true) exReg).2 = .ok () ∧
    (save ascii exHeap (fun _ => true) exReg).1.map (·.1) =
      ["/A".toList, "/N/B".toList, "/std/vector</A>".toList, "/N/S".toList] := by
  decide +kernel

/-! ### The theorems on concrete cases -/

example := C33_order ascii_inj exAcyclic exReachable (fun _ => true)

example := C33_outcome ascii_inj exAcyclic exReachable (fun _ => true)

end Verif.Exporter
