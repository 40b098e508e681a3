import Verif.ClangMeta
import Verif.TlbDoc

/-! C84: theorems. -/

namespace Verif.ClangMeta
open Verif Verif.Registry Verif.StdMap

/-! ### Paths -/

theorem takeWhile_part (p : Char → Bool) : ∀ (l : Str), (∀ c ∈ l.takeWhile p, p c = true) ∧
    (l = l.takeWhile p ∨ ∃ c r, p c = false ∧ l = l.takeWhile p ++ c :: r)
  | [] => ⟨by simp, .inl rfl⟩
  | a :: l => by
    obtain ⟨h1, h2⟩ := takeWhile_part p l
    by_cases ha : p a = true
    · rw [List.takeWhile_cons_of_pos ha]
      refine ⟨fun c hc => ?_, ?_⟩
      · rcases List.mem_cons.mp hc with rfl | hc
        · exact ha
        · exact h1 c hc
      · rcases h2 with h2 | ⟨c, r, h3, h4⟩
        · exact .inl (by rw [← h2])
        · exact .inr ⟨c, r, h3, by rw [List.cons_append, ← h4]⟩
    · rw [List.takeWhile_cons_of_neg ha]
      exact ⟨by simp, .inr ⟨a, l, by simpa using ha, rfl⟩⟩

theorem takeWhile_stop (p : Char → Bool) : ∀ (l : Str) (c : Char) (r : Str), (∀ x ∈ l, p x = true) → p c = false →
    (l ++ c :: r).takeWhile p = l
  | [], c, r, _, h => by simp [h]
  | a :: l, c, r, h1, h => by
    rw [List.cons_append, List.takeWhile_cons_of_pos (h1 a (by simp)), takeWhile_stop p l c r (fun x hx => h1 x (by simp [hx])) h]

theorem takeWhile_all (p : Char → Bool) : ∀ (l : Str), (∀ x ∈ l, p x = true) → l.takeWhile p = l
  | [], _ => rfl
  | a :: l, h => by rw [List.takeWhile_cons_of_pos (h a (by simp)), takeWhile_all p l (fun x hx => h x (by simp [hx]))]

theorem afterSlash_part (s : Str) : LastPart s (afterSlash s) := by
  obtain ⟨h1, h2⟩ := takeWhile_part (· ≠ '/') s.reverse
  refine ⟨fun hm => ?_, ?_⟩
  · have := h1 '/' (List.mem_reverse.mp hm)
    simp at this
  · rcases h2 with h2 | ⟨c, r, h3, h4⟩
    · left
      unfold afterSlash
      rw [← h2, List.reverse_reverse]
    · right
      refine ⟨r.reverse, ?_⟩
      have hc : c = '/' := by simpa using h3
      subst hc
      have := congrArg List.reverse h4
      rw [List.reverse_reverse] at this
      unfold afterSlash
      rw [List.reverse_append, List.reverse_cons, List.append_assoc, List.singleton_append] at this
      exact this

theorem part_afterSlash {s n : Str} (h : LastPart s n) : n = afterSlash s := by
  obtain ⟨h1, h2⟩ := h
  have hn : ∀ x ∈ n.reverse, (decide (x ≠ '/')) = true := by
    intro x hx
    have : x ≠ '/' := fun e => by subst e; exact h1 (List.mem_reverse.mp hx)
    simpa using this
  rcases h2 with rfl | ⟨pre, rfl⟩
  · unfold afterSlash
    rw [takeWhile_all _ _ hn, List.reverse_reverse]
  · unfold afterSlash
    rw [List.reverse_append, List.reverse_cons, List.append_assoc, List.singleton_append, takeWhile_stop _ _ _ _ hn (by simp),
      List.reverse_reverse]

theorem target_iff (links : Links) (path p : Str) : Target links path p ↔ p = doReadlink links path := by
  unfold doReadlink
  constructor
  · intro h
    cases h with
    | file h => rw [h]
    | link h => rw [h]
  · intro h
    subst h
    cases hl : links path with
    | none => exact .file hl
    | some t => exact .link hl

/-! ### Comments -/

theorem blank_iff (kids : List Inline) : blank kids = true ↔ Space kids := by
  induction kids with
  | nil => simp [blank, Space]
  | cons k r ih =>
    cases k with
    | text t =>
      simp only [blank, Bool.and_eq_true, List.all_eq_true, ih]
      constructor
      · rintro ⟨h1, h2⟩ k hk
        rcases List.mem_cons.mp hk with rfl | hk
        · exact ⟨t, rfl, h1⟩
        · exact h2 k hk
      · intro h
        refine ⟨?_, fun k hk => h k (by simp [hk])⟩
        obtain ⟨t', h1, h2⟩ := h (.text t) (by simp)
        cases h1
        exact h2
    | other =>
      simp only [blank, Bool.false_eq_true, false_iff]
      intro h
      obtain ⟨t, h1, _⟩ := h .other (by simp)
      cases h1

theorem kidsDoc_iff (kids : List Inline) (s : Str) : KidsDoc kids s ↔ s = kidsText kids := by
  constructor
  · intro h
    induction h with
    | nil => rfl
    | last => rfl
    | @text t r s hr _ ih =>
      cases r with
      | nil => exact absurd rfl hr
      | cons a r => simp only [kidsText, ih]
    | other _ ih => exact ih
  · intro h
    subst h
    induction kids with
    | nil => exact .nil
    | cons k r ih =>
      cases k with
      | text t =>
        cases r with
        | nil => exact .last
        | cons a r => exact .text (by simp) ih
      | other => exact .other ih

theorem doc_iff (bs : List Block) (s : Str) : Doc bs s ↔ blocksText bs = some s := by
  constructor
  · intro h
    induction h with
    | nil => rfl
    | @paragraph kids bs s r h1 h2 _ ih =>
      rw [(kidsDoc_iff _ _).mp h2]
      have : blank kids = false := by
        rw [← Bool.not_eq_true]
        exact fun hb => h1 ((blank_iff _).mp hb)
      simp only [blocksText, blockText, this, ih, Bool.false_eq_true, if_false]
    | space h1 _ ih =>
      simp only [blocksText, blockText, (blank_iff _).mpr h1, ih, if_true, List.nil_append]
    | verbatim _ ih => simp only [blocksText, blockText, ih]
    | command h1 _ ih =>
      rw [(kidsDoc_iff _ _).mp h1]
      simp only [blocksText, blockText, ih]
  · induction bs generalizing s with
    | nil => intro h; cases h; exact .nil
    | cons b bs ih =>
      intro h
      simp only [blocksText] at h
      cases hb : blockText b with
      | none => rw [hb] at h; cases h
      | some u =>
        cases hr : blocksText bs with
        | none => rw [hb, hr] at h; cases h
        | some r =>
          rw [hb, hr] at h
          cases h
          have hd := ih r hr
          cases b with
          | paragraph kids =>
            simp only [blockText] at hb
            cases hk : blank kids with
            | true =>
              rw [hk] at hb
              cases hb
              exact .space ((blank_iff _).mp hk) hd
            | false =>
              rw [hk] at hb
              cases hb
              exact .paragraph (fun hs => by rw [(blank_iff _).mpr hs] at hk; cases hk) ((kidsDoc_iff _ _).mpr rfl) hd
          | verbatimLine t => cases hb; exact .verbatim hd
          | command kids => cases hb; exact .command ((kidsDoc_iff _ _).mpr rfl) hd
          | other => cases hb

/-- lines of text are separated by newlines -/
theorem kidsText_lines : ∀ (ts : List Str), Lines ts (kidsText (ts.map .text))
  | [] => .nil
  | [t] => .one
  | t :: u :: ts => .cons (by simp) (kidsText_lines (u :: ts))

theorem flat_append (a b : Str) : flat (a ++ b) = flat a ++ flat b := by unfold flat; exact List.filter_append ..

theorem flat_nl (s : Str) : flat ('\n' :: s) = flat s := by
  unfold flat; rw [List.filter_cons_of_neg (by simp)]

theorem flat_kids (kids : List Inline) : flat (kidsText kids) = flat (texts kids).flatten := by
  induction kids with
  | nil => rfl
  | cons k r ih =>
    cases k with
    | text t =>
      cases r with
      | nil => simp [kidsText, texts]
      | cons a r =>
        simp only [kidsText, texts, List.flatten_cons, flat_append, flat_nl] at ih ⊢
        rw [ih]
    | other => exact ih

/-! ### Metadata -/

/-- `m'` has what `m` has and the values `P` -/
def Adds (m m' : Meta.MetaData) (P : Str → Str → Prop) : Prop :=
  Meta.Ok m' ∧ ∀ k v, v ∈ Meta.get m' k ↔ v ∈ Meta.get m k ∨ P k v

theorem adds_add {m : Meta.MetaData} (h : Meta.Ok m) (k v : Str) : Adds m (Meta.add m k v) (fun j w => j = k ∧ w = v) := by
  refine ⟨Meta.ok_add h k v, fun j w => ?_⟩
  unfold Meta.get
  rw [Meta.find_add h]
  by_cases hk : k = j
  · subst hk
    rw [if_pos rfl]
    cases find m k with
    | none => simp [mem_sinsert']
    | some vs =>
      show w ∈ sinsert v vs ↔ w ∈ vs ∨ _
      rw [mem_sinsert']
      constructor
      · rintro (rfl | h)
        · exact .inr ⟨rfl, rfl⟩
        · exact .inl h
      · rintro (h | ⟨_, rfl⟩)
        · exact .inr h
        · exact .inl rfl
  · rw [if_neg hk]
    exact ⟨.inl, fun h => h.resolve_right (fun h => hk h.1.symm)⟩

theorem adds_refl {m : Meta.MetaData} (h : Meta.Ok m) : Adds m m (fun _ _ => False) := ⟨h, fun _ _ => by simp⟩

theorem Adds.trans {a b c : Meta.MetaData} {P Q : Str → Str → Prop} (h1 : Adds a b P) (h2 : Adds b c Q) :
    Adds a c (fun k v => P k v ∨ Q k v) := ⟨h2.1, fun k v => by rw [h2.2, h1.2, or_assoc]⟩

theorem Adds.congr {a b : Meta.MetaData} {P Q : Str → Str → Prop} (h : Adds a b P) (hpq : ∀ k v, P k v ↔ Q k v) : Adds a b Q :=
  ⟨h.1, fun k v => by rw [h.2, hpq]⟩

theorem adds_fold (k : Str) : ∀ (l : List Str) {m : Meta.MetaData}, Meta.Ok m →
    Adds m (l.foldl (fun m b => Meta.add m k b) m) (fun j w => j = k ∧ w ∈ l)
  | [], m, h => (adds_refl h).congr (by simp)
  | b :: l, m, h => by
    have h1 := adds_add h k b
    have h2 := h1.trans (adds_fold k l h1.1)
    refine h2.congr (fun j w => ?_)
    simp only [List.mem_cons]
    constructor
    · rintro (⟨a, b⟩ | ⟨a, b⟩)
      · exact ⟨a, .inl b⟩
      · exact ⟨a, .inr b⟩
    · rintro ⟨a, b | b⟩
      · exact .inl ⟨a, b⟩
      · exact .inr ⟨a, b⟩

/-- what each function adds -/
def SourceP (links : Links) (d : Decl) (j v : Str) : Prop := ∃ w, d.place = some w ∧ j = "source_file_line".toList ∧
  v = doReadlink links (w.dir ++ '/' :: afterSlash w.file) ++ ':' :: Graph.natStr w.line
def BaseP (d : Decl) (j v : Str) : Prop := ∃ l, d.bases = some l ∧ j = "base_classes".toList ∧ v ∈ l
def DocP (d : Decl) (j v : Str) : Prop := ∃ bs, d.comment = some bs ∧ blocksText bs = some v ∧ j = "doc".toList
def NameP (d : Decl) (j v : Str) : Prop := j = "cxxname".toList ∧
  ((∃ n u, d.named = .typedefOf n u ∧ v = "typedef ".toList ++ n ++ ' ' :: u) ∨ d.named = .tag v)

theorem source_adds {links : Links} {d : Decl} {m m' : Meta.MetaData} (hm : Meta.Ok m) (h : sourceFileLine links d m = .ok m') :
    Adds m m' (SourceP links d) := by
  unfold sourceFileLine at h
  cases hw : d.place with
  | none => rw [hw] at h; cases h
  | some w =>
    rw [hw] at h
    by_cases he : afterSlash w.file = []
    · simp only [he, if_true] at h; cases h
    · simp only [he, if_false] at h
      cases h
      refine (adds_add hm _ _).congr (fun j v => ⟨fun ⟨a, b⟩ => ⟨w, hw, a, b⟩, fun ⟨w', a, b, c⟩ => ?_⟩)
      rw [hw] at a
      cases a
      exact ⟨b, c⟩

theorem base_adds (d : Decl) {m : Meta.MetaData} (hm : Meta.Ok m) : Adds m (baseClasses d m) (BaseP d) := by
  unfold baseClasses
  cases hb : d.bases with
  | none =>
    exact (adds_refl hm).congr (fun j v => ⟨False.elim, fun ⟨l, h, _⟩ => by rw [hb] at h; cases h⟩)
  | some l =>
    refine (adds_fold _ l hm).congr (fun j v => ⟨fun ⟨a, b⟩ => ⟨l, hb, a, b⟩, fun ⟨l', a, b, c⟩ => ?_⟩)
    rw [hb] at a
    cases a
    exact ⟨b, c⟩

theorem doc_adds (d : Decl) {m : Meta.MetaData} (hm : Meta.Ok m) : Adds m (doc d m) (DocP d) := by
  unfold doc
  cases hc : d.comment with
  | none => exact (adds_refl hm).congr (fun j v => ⟨False.elim, fun ⟨l, h, _⟩ => by rw [hc] at h; cases h⟩)
  | some bs =>
    simp only
    cases hs : blocksText bs with
    | none =>
      refine (adds_refl hm).congr (fun j v => ⟨False.elim, fun ⟨l, h, h2, _⟩ => ?_⟩)
      rw [hc] at h
      cases h
      rw [hs] at h2
      cases h2
    | some s =>
      refine (adds_add hm _ _).congr (fun j v => ⟨fun ⟨a, b⟩ => ⟨bs, hc, by rw [b]; exact hs, a⟩, fun ⟨l', a, b, c⟩ => ?_⟩)
      rw [hc] at a
      cases a
      rw [hs] at b
      cases b
      exact ⟨c, rfl⟩

theorem name_adds (d : Decl) {m : Meta.MetaData} (hm : Meta.Ok m) : Adds m (cxxname d m) (NameP d) := by
  unfold cxxname
  cases hn : d.named with
  | typedefOf n u =>
    refine (adds_add hm _ _).congr (fun j v => ⟨fun ⟨a, b⟩ => ⟨a, .inl ⟨n, u, hn, b⟩⟩, fun ⟨a, b⟩ => ?_⟩)
    rcases b with ⟨n', u', b, c⟩ | b
    · rw [hn] at b; cases b; exact ⟨a, c⟩
    · rw [hn] at b; cases b
  | tag n =>
    refine (adds_add hm _ _).congr (fun j v => ⟨fun ⟨a, b⟩ => ⟨a, .inr (by rw [hn, b])⟩, fun ⟨a, b⟩ => ?_⟩)
    rcases b with ⟨n', u', b, c⟩ | b
    · rw [hn] at b; cases b
    · rw [hn] at b; cases b; exact ⟨a, rfl⟩
  | other =>
    refine (adds_refl hm).congr (fun j v => ⟨False.elim, fun ⟨a, b⟩ => ?_⟩)
    rcases b with ⟨n', u', b, c⟩ | b <;> rw [hn] at b <;> cases b

theorem added_iff (links : Links) (k : What) (d : Decl) (j v : Str) : Added links k d j v ↔
    SourceP links d j v ∨ DocP d j v ∨ NameP d j v ∨ ((k = .opaque ∨ k = .compound) ∧ BaseP d j v) := by
  constructor
  · intro h
    cases h with
    | source h1 h2 h3 => exact .inl ⟨_, h1, rfl, by rw [(target_iff ..).mp h3, part_afterSlash h2]⟩
    | base h1 h2 h3 => exact .inr (.inr (.inr ⟨h1, _, h2, rfl, h3⟩))
    | doc h1 h2 => exact .inr (.inl ⟨_, h1, (doc_iff ..).mp h2, rfl⟩)
    | typedefOf h => exact .inr (.inr (.inl ⟨rfl, .inl ⟨_, _, h, rfl⟩⟩))
    | tag h => exact .inr (.inr (.inl ⟨rfl, .inr h⟩))
  · rintro (⟨w, h1, rfl, rfl⟩ | ⟨bs, h1, h2, rfl⟩ | ⟨rfl, ⟨n, u, h, rfl⟩ | h⟩ | ⟨h1, l, h2, rfl, h3⟩)
    · exact .source h1 (afterSlash_part _) ((target_iff ..).mpr rfl)
    · exact .doc h1 ((doc_iff ..).mpr h2)
    · exact .typedefOf h
    · exact .tag h
    · exact .base h1 h2 h3

/-- **C84, what is recorded**: the clang importer adds to each type the file (one symbolic link resolved) and line of its declaration, the
text of its comment, its C++ name, and for compounds and opaques the names of the direct base classes; what was there stays and nothing
else is added. -/
theorem C84_recorded {links : Links} {k : What} {d : Decl} {m m' : Meta.MetaData} {s : Meta.Spec} (hm : Meta.Hist m s)
    (h : describe links k d m = .ok m') (j v : Str) : v ∈ Meta.get m' j ↔ v ∈ Meta.get m j ∨ Added links k d j v := by
  have hm := Meta.hist_ok hm
  rw [added_iff]
  have key : ∃ P, Adds m m' P ∧ ∀ j v, P j v ↔ SourceP links d j v ∨ DocP d j v ∨ NameP d j v ∨ ((k = .opaque ∨ k = .compound) ∧ BaseP d j v) := by
    cases k with
    | container =>
      obtain ⟨m1, h1, h2⟩ := Res.bind_eq_ok.mp h
      cases h2
      have a := doc_adds d hm
      have b := source_adds a.1 h1
      exact ⟨_, (a.trans b).trans (name_adds d b.1), fun j v => by
        constructor
        · rintro ((h | h) | h)
          · exact .inr (.inl h)
          · exact .inl h
          · exact .inr (.inr (.inl h))
        · rintro (h | h | h | ⟨h | h, _⟩)
          · exact .inl (.inr h)
          · exact .inl (.inl h)
          · exact .inr h
          · cases h
          · cases h⟩
    | «opaque» =>
      obtain ⟨m1, h1, h2⟩ := Res.bind_eq_ok.mp h
      cases h2
      have a := base_adds d hm
      have b := source_adds a.1 h1
      have c := doc_adds d b.1
      exact ⟨_, ((a.trans b).trans c).trans (name_adds d c.1), fun j v => by
        constructor
        · rintro (((h | h) | h) | h)
          · exact .inr (.inr (.inr ⟨.inl rfl, h⟩))
          · exact .inl h
          · exact .inr (.inl h)
          · exact .inr (.inr (.inl h))
        · rintro (h | h | h | ⟨_, h⟩)
          · exact .inl (.inl (.inr h))
          · exact .inl (.inr h)
          · exact .inr h
          · exact .inl (.inl (.inl h))⟩
    | «enum» =>
      obtain ⟨m1, h1, h2⟩ := Res.bind_eq_ok.mp h
      cases h2
      have b := source_adds hm h1
      have c := doc_adds d b.1
      exact ⟨_, (b.trans c).trans (name_adds d c.1), fun j v => by
        constructor
        · rintro ((h | h) | h)
          · exact .inl h
          · exact .inr (.inl h)
          · exact .inr (.inr (.inl h))
        · rintro (h | h | h | ⟨h | h, _⟩)
          · exact .inl (.inl h)
          · exact .inl (.inr h)
          · exact .inr h
          · cases h
          · cases h⟩
    | compound =>
      obtain ⟨m1, h1, h2⟩ := Res.bind_eq_ok.mp h
      cases h2
      have b := source_adds hm h1
      have c := doc_adds d b.1
      have a := base_adds d c.1
      exact ⟨_, ((b.trans c).trans a).trans (name_adds d a.1), fun j v => by
        constructor
        · rintro (((h | h) | h) | h)
          · exact .inl h
          · exact .inr (.inl h)
          · exact .inr (.inr (.inr ⟨.inr rfl, h⟩))
          · exact .inr (.inr (.inl h))
        · rintro (h | h | h | ⟨_, h⟩)
          · exact .inl (.inl (.inl h))
          · exact .inl (.inl (.inr h))
          · exact .inr h
          · exact .inl (.inr h)⟩
  obtain ⟨P, h1, h2⟩ := key
  rw [h1.2, h2]

/-- **C84, every declaration in a file is described** (one whose name ends with a `/` ends the program). -/
theorem C84_described (links : Links) (k : What) (d : Decl) (m : Meta.MetaData) {w : Where} (h : d.place = some w) :
    ((∃ c, w.file.getLast? = some c ∧ c ≠ '/') ↔ ∃ m', describe links k d m = .ok m') ∧
    ((w.file.getLast? = none ∨ w.file.getLast? = some '/') → describe links k d m = .exn .exception) := by
  have hs : ∀ m, sourceFileLine links d m = if afterSlash w.file = [] then .exn .exception else
      .ok (Meta.add m "source_file_line".toList (doReadlink links (w.dir ++ '/' :: afterSlash w.file) ++ ':' :: Graph.natStr w.line)) := by
    intro m; unfold sourceFileLine; rw [h]
  have he : afterSlash w.file = [] ↔ (w.file.getLast? = none ∨ w.file.getLast? = some '/') := by
    unfold afterSlash
    rw [← List.head?_reverse]
    cases w.file.reverse with
    | nil => simp
    | cons c r =>
      by_cases hc : c = '/'
      · subst hc; simp
      · simp [hc]
  have h1 : (w.file.getLast? = none ∨ w.file.getLast? = some '/') → describe links k d m = .exn .exception := by
    intro hx
    have := he.mpr hx
    cases k <;> simp only [describe, hs, this, if_true, Res.bind]
  have h2 : ¬ (w.file.getLast? = none ∨ w.file.getLast? = some '/') → ∃ m', describe links k d m = .ok m' := by
    intro hx
    have hn : ¬ afterSlash w.file = [] := fun hy => hx (he.mp hy)
    cases k <;> simp only [describe, hs, hn, if_false, Res.bind] <;> exact ⟨_, rfl⟩
  refine ⟨⟨?_, ?_⟩, h1⟩
  · rintro ⟨c, h3, h4⟩
    apply h2
    rw [h3]
    rintro (h5 | h5)
    · cases h5
    · cases h5; exact h4 rfl
  · rintro ⟨m', h3⟩
    cases hl : w.file.getLast? with
    | none => rw [h1 (.inl hl)] at h3; cases h3
    | some c => exact ⟨c, rfl, fun hc => by subst hc; rw [h1 (.inr hl)] at h3; cases h3⟩

/-- **C84, documentation, a paragraph**: of a comment that is one paragraph of text, the lines are kept, separated by newlines. -/
theorem C84_lines_partial {b : Block} {ts : List Str} (h : Para b ts) {s : Str} : Doc [b] s ↔ Lines ts s := by
  have huniq : ∀ {ts : List Str} {s s' : Str}, Lines ts s → Lines ts s' → s = s' := by
    intro ts s s' h1
    induction h1 generalizing s' with
    | nil => intro h2; cases h2; rfl
    | one =>
      intro h2
      cases h2 with
      | one => rfl
      | cons hn _ => exact absurd rfl hn
    | cons hn _ ih =>
      intro h2
      cases h2 with
      | one => exact absurd rfl hn
      | cons _ h3 => rw [ih h3]
  have key : ∃ t, blocksText [b] = some t ∧ Lines ts t := by
    cases h with
    | paragraph h1 =>
      have : blank (ts.map .text) = false := by
        rw [← Bool.not_eq_true]
        intro hb
        obtain ⟨t, h2, c, h3, h4⟩ := h1
        obtain ⟨t', h5, h6⟩ := (blank_iff _).mp hb (.text t) (List.mem_map.mpr ⟨t, h2, rfl⟩)
        cases h5
        rw [h6 c h3] at h4
        cases h4
      exact ⟨_, by simp only [blocksText, blockText, this, Bool.false_eq_true, if_false, List.append_nil], kidsText_lines ts⟩
    | verbatim => exact ⟨_, rfl, by simpa using Lines.one⟩
    | command => exact ⟨_, rfl, by simpa using kidsText_lines ts⟩
  obtain ⟨t, h1, h2⟩ := key
  rw [doc_iff, h1]
  constructor
  · intro e; cases e; exact h2
  · intro hl; rw [huniq hl h2]

/-- **C84, documentation, nothing is lost**: a comment whose blocks are paragraphs, commands with text and verbatim lines is documentation,
and up to newlines it holds all texts of the comment in order, and nothing else. -/
theorem C84_text_partial {bs : List Block} {ts : List Str} (h : Says bs ts) : ∃ s, Doc bs s ∧ flat s = flat ts.flatten := by
  induction h with
  | nil => exact ⟨[], .nil, rfl⟩
  | @paragraph kids bs r h1 _ ih =>
    obtain ⟨s, h2, h3⟩ := ih
    exact ⟨_, .paragraph h1 ((kidsDoc_iff _ _).mpr rfl) h2, by
      rw [flat_append, flat_kids, h3, List.flatten_append, flat_append]⟩
  | space h1 _ ih =>
    obtain ⟨s, h2, h3⟩ := ih
    exact ⟨_, .space h1 h2, h3⟩
  | verbatim _ ih =>
    obtain ⟨s, h2, h3⟩ := ih
    exact ⟨_, .verbatim h2, by rw [flat_append, h3, List.flatten_cons, flat_append]⟩
  | @command kids bs r _ ih =>
    obtain ⟨s, h2, h3⟩ := ih
    exact ⟨_, .command ((kidsDoc_iff _ _).mpr rfl) h2, by rw [flat_append, flat_kids, h3, List.flatten_append, flat_append]⟩

/-- the documentation of a comment is unique -/
theorem C84_doc_unique {bs : List Block} {s s' : Str} (h : Doc bs s) (h' : Doc bs s') : s = s' := by
  rw [doc_iff] at h h'
  rw [h] at h'
  cases h'
  rfl

end Verif.ClangMeta
