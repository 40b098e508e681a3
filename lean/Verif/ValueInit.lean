import Verif.ValueBlock

/-! Initialisation of raw memory. -/

namespace Verif.Value
open Verif Verif.Layout

def _root_.Verif.Layout.IItem.size : IItem → Nat
  | .set _ => 1
  | .leave => 1
  | .cont c => c.size
def iitemsSize (l : List IItem) : Nat := (l.map IItem.size).sum

/-- an empty container object -/
def freshCell : Ty → Cell
  | .vec _ _ => .vec 0 []
  | _ => .str []
/-- the value of an empty container -/
def freshAV : Ty → AV
  | .vec _ _ => .seq 0 []
  | _ => .s []

/-- what initialisation makes of raw bytes: enum bytes are set, containers constructed empty, other bytes stay -/
def initM : List IItem → List UInt8 → Mem
  | [], _ => []
  | .set b :: K, bs => .byte b :: initM K (bs.drop 1)
  | .leave :: K, bs => .byte (bs.headD 0) :: initM K (bs.drop 1)
  | .cont c :: K, bs => freshCell c :: (List.replicate (c.size - 1) .tail ++ initM K (bs.drop c.size))
/-- the value after initialisation of raw bytes -/
def initV : List IItem → List UInt8 → List AV
  | [], _ => []
  | .set b :: K, bs => .b b :: initV K (bs.drop 1)
  | .leave :: K, bs => .b (bs.headD 0) :: initV K (bs.drop 1)
  | .cont c :: K, bs => freshAV c :: initV K (bs.drop c.size)

/-- containers are vectors or strings and have a size -/
def CItem : IItem → Prop
  | .cont c => 0 < c.size ∧ ((∃ cs e, c = .vec cs e) ∨ ∃ cs, c = .str cs)
  | _ => True

theorem iitemsSize_append (a b : List IItem) : iitemsSize (a ++ b) = iitemsSize a + iitemsSize b := by
  simp [iitemsSize]
theorem iitemsSize_cons (a : IItem) (b : List IItem) : iitemsSize (a :: b) = a.size + iitemsSize b := by
  simp [iitemsSize]

theorem initM_append (K K' : List IItem) : ∀ (bs : List UInt8),
    initM (K ++ K') bs = initM K bs ++ initM K' (bs.drop (iitemsSize K)) := by
  induction K with
  | nil => intro bs; simp [initM, iitemsSize]
  | cons i K ih =>
    intro bs
    cases i <;> simp [initM, ih, iitemsSize_cons, IItem.size, List.drop_drop, Nat.add_comm]

theorem initM_take (K : List IItem) : ∀ (bs bs' : List UInt8), bs.take (iitemsSize K) = bs'.take (iitemsSize K) →
    initM K bs = initM K bs' := by
  induction K with
  | nil => intro bs bs' _; rfl
  | cons i K ih =>
    intro bs bs' h
    rw [iitemsSize_cons] at h
    have hd : ∀ n, n ≤ i.size → (bs.drop i.size).take (iitemsSize K) = (bs'.drop i.size).take (iitemsSize K) := by
      intro n _
      have := congrArg (List.drop i.size) h
      rw [List.drop_take, List.drop_take] at this
      simpa using this
    have hd := hd 0 (by omega)
    cases i with
    | set b => simp only [initM]; simp only [IItem.size] at hd; rw [ih _ _ hd]
    | leave =>
      simp only [initM]
      simp only [IItem.size] at hd
      rw [ih _ _ hd]
      simp only [IItem.size] at h
      cases bs with
      | nil =>
        cases bs' with
        | nil => rfl
        | cons b bs' =>
          rw [Nat.add_comm] at h; simp at h
      | cons a bs =>
        cases bs' with
        | nil => rw [Nat.add_comm] at h; simp at h
        | cons b bs' =>
          rw [Nat.add_comm, List.take_succ_cons, List.take_succ_cons] at h
          simp only [List.cons.injEq] at h
          simp [h.1]
    | cont c => simp only [initM]; simp only [IItem.size] at hd; rw [ih _ _ hd]

theorem initM_length (K : List IItem) (hK : ∀ i ∈ K, CItem i) : ∀ bs, (initM K bs).length = iitemsSize K := by
  induction K with
  | nil => intro bs; rfl
  | cons i K ih =>
    intro bs
    have ih := ih (fun i h => hK i (List.mem_cons_of_mem _ h))
    have hi := hK i List.mem_cons_self
    cases i with
    | set b => simp [initM, ih, iitemsSize_cons, IItem.size]; omega
    | leave => simp [initM, ih, iitemsSize_cons, IItem.size]; omega
    | cont c =>
      have := hi.1
      simp [initM, ih, iitemsSize_cons, IItem.size]; omega

theorem initM_leave (n : Nat) : ∀ bs : List UInt8, bs.length = n → initM (List.replicate n .leave) bs = bs.map .byte := by
  induction n with
  | zero => intro bs h; rw [List.length_eq_zero_iff.mp h]; rfl
  | succ n ih =>
    intro bs h
    cases bs with
    | nil => simp at h
    | cons b bs =>
      rw [List.replicate_succ]
      simp only [initM, List.headD_cons, List.drop_one, List.tail_cons, List.map_cons]
      rw [ih bs (by simpa using h)]

theorem initM_set (d : List UInt8) : ∀ bs : List UInt8, initM (d.map .set) bs = d.map .byte := by
  induction d with
  | nil => intro bs; rfl
  | cons x d ih => intro bs; simp [initM, ih]

theorem mapM_words (d : List UInt8) :
    (d.map (fun b => Word.n b.toNat)).mapM wordByte = some d := by
  induction d with
  | nil => rfl
  | cons x d ih => simp [List.mapM_cons, ih, wordByte]

theorem mem_rep {α : Type} {n : Nat} {l : List α} {x : α} : x ∈ rep n l → x ∈ l := by
  induction n with
  | zero => simp
  | succ n ih => rw [rep_succ, List.mem_append]; exact fun h => h.elim id ih

/-- the repetition loop -/
theorem repeatInit {f : Nat} {body rest : List Word} {b : List IItem} (hK : ∀ i ∈ b, CItem i)
    (h : ∀ (pre : Mem) (bs : List UInt8) (post : Mem), pre.length + iitemsSize b < W → bs.length = iitemsSize b →
      walkInit f body ⟨pre ++ (bs.map .byte ++ post), pre.length⟩ =
        .ok rest ⟨pre ++ (initM b bs ++ post), pre.length + iitemsSize b⟩) :
    ∀ (n : Nat) (it : List Word) (pre : Mem) (bs : List UInt8) (post : Mem), (0 < n ∨ it = rest) →
      pre.length + iitemsSize (rep n b) < W → bs.length = iitemsSize (rep n b) →
      repeatM (walkInit f body) n it ⟨pre ++ (bs.map .byte ++ post), pre.length⟩ =
        .ok rest ⟨pre ++ (initM (rep n b) bs ++ post), pre.length + iitemsSize (rep n b)⟩ := by
  intro n
  induction n with
  | zero =>
    intro it pre bs post hn hW hl
    rcases hn with hn | hn
    · omega
    · subst hn
      have : bs = [] := List.length_eq_zero_iff.mp (by simpa [iitemsSize] using hl)
      subst this
      simp [repeatM, initM, iitemsSize]
  | succ n ih =>
    intro it pre bs post _ hW hl
    rw [rep_succ, iitemsSize_append] at hW hl
    have e1 : bs = bs.take (iitemsSize b) ++ bs.drop (iitemsSize b) := (List.take_append_drop _ _).symm
    have hl1 : (bs.take (iitemsSize b)).length = iitemsSize b := by rw [List.length_take]; omega
    have hl2 : (bs.drop (iitemsSize b)).length = iitemsSize (rep n b) := by rw [List.length_drop]; omega
    have h1 := h pre (bs.take (iitemsSize b)) ((bs.drop (iitemsSize b)).map .byte ++ post) (by omega) hl1
    have hml := initM_length b hK (bs.take (iitemsSize b))
    have h2 := ih rest (pre ++ initM b (bs.take (iitemsSize b))) (bs.drop (iitemsSize b)) post (Or.inr rfl)
      (by simp [hml]; omega) hl2
    simp only [repeatM]
    have e2 : bs.map Cell.byte ++ post =
        (bs.take (iitemsSize b)).map .byte ++ ((bs.drop (iitemsSize b)).map .byte ++ post) := by
      rw [← List.append_assoc, ← List.map_append, List.take_append_drop]
    rw [e2, h1]
    simp only [Out.bind_ok]
    simp only [List.length_append, hml, List.append_assoc] at h2
    rw [h2, rep_succ, initM_append, iitemsSize_append, initM_take b bs (bs.take (iitemsSize b)) (by rw [List.take_take, Nat.min_self])]
    simp [Nat.add_assoc]

theorem walkInit_enc (l : LI) : l.Pos → (∀ i ∈ l.expand, CItem i) → ∀ (f : Nat) (rest : List Word) (pre : Mem)
    (bs : List UInt8) (post : Mem), Stop rest → l.enc.length < f → pre.length + iitemsSize l.expand < W →
    bs.length = iitemsSize l.expand →
    walkInit f (l.enc ++ rest) ⟨pre ++ (bs.map .byte ++ post), pre.length⟩ =
      .ok rest ⟨pre ++ (initM l.expand bs ++ post), pre.length + iitemsSize l.expand⟩ := by
  have splitB : ∀ (n : Nat) (bs : List UInt8) (post : Mem), bs.map Cell.byte ++ post =
      (bs.take n).map .byte ++ ((bs.drop n).map .byte ++ post) := by
    intro n bs post
    rw [← List.append_assoc, ← List.map_append, List.take_append_drop]
  induction l with
  | nil =>
    intro _ _ f rest pre bs post hr hf hW hl
    cases f with
    | zero => simp at hf
    | succ f =>
      have : bs = [] := List.length_eq_zero_iff.mp (by simpa [LI.expand, iitemsSize] using hl)
      subst this
      rcases hr with rfl | ⟨x, rfl⟩
      · simp [LI.enc, walkInit, LI.expand, initM, iitemsSize]
      · simp [LI.enc, walkInit, LI.expand, initM, iitemsSize, FLAG_INIT_END]
  | ini d k ih =>
    intro hp hC f rest pre bs post hr hf hW hl
    cases f with
    | zero => simp at hf
    | succ f =>
      simp only [LI.expand, iitemsSize_append] at hW hl ⊢
      have hd : iitemsSize (d.map IItem.set) = d.length := by
        clear hl hW hC hf hp
        induction d with
        | nil => rfl
        | cons x d ih => rw [List.map_cons, iitemsSize_cons, ih]; simp [IItem.size]; omega
      rw [hd] at hW hl
      simp only [LI.enc, List.length_cons, List.length_append, List.length_map] at hf
      simp only [LI.enc, List.cons_append, walkInit, FLAG_INIT_END, FLAG_INIT, show ¬ (0:Nat) = 4 by decide, if_false, if_true,
        List.append_assoc]
      rw [if_neg (by simp)]
      rw [List.take_append_of_le_length (by simp), List.take_of_length_le (by simp), mapM_words]
      rw [List.drop_append_of_le_length (by simp), List.drop_of_length_le (by simp), List.nil_append]
      have e5 := writeBytes_app pre ((bs.take d.length).map .byte) d ((bs.drop d.length).map .byte ++ post)
        (by simp; omega) (bytes_not_live _)
      simp only []
      rw [splitB d.length, e5]
      simp only [Out.ofOpt_some, Out.bind_ok]
      have := ih hp (fun i h => hC i (by simp [LI.expand, h])) f rest (pre ++ d.map .byte) (bs.drop d.length) post hr
        (by omega) (by simp; omega) (by simp; omega)
      simp only [List.length_append, List.length_map, List.append_assoc] at this
      rw [wadd_eq (by omega), this, initM_append, initM_set, hd]
      simp [Nat.add_assoc]
  | sk n k ih =>
    intro hp hC f rest pre bs post hr hf hW hl
    cases f with
    | zero => simp at hf
    | succ f =>
      simp only [LI.expand, iitemsSize_append] at hW hl ⊢
      have hd : iitemsSize (List.replicate n IItem.leave) = n := by
        simp [iitemsSize, IItem.size]
      rw [hd] at hW hl
      simp only [LI.enc, List.length_cons] at hf
      simp only [LI.enc, List.cons_append, walkInit, FLAG_INIT_END, FLAG_INIT, FLAG_INIT_SKIP, show ¬ (3:Nat) = 4 by decide,
        show ¬ (3:Nat) = 0 by decide, if_false, if_true]
      have := ih hp (fun i h => hC i (by simp [LI.expand, h])) f rest (pre ++ (bs.take n).map .byte) (bs.drop n) post hr
        (by omega) (by simp; omega) (by simp; omega)
      simp only [List.length_append, List.length_map, List.append_assoc, List.length_take, Nat.min_eq_left (show n ≤ bs.length by omega)] at this
      rw [wadd_eq (by omega), splitB n, this, initM_append, hd]
      rw [initM_take (List.replicate n .leave) bs (bs.take n) (by rw [hd, List.take_take, Nat.min_self]),
        initM_leave n (bs.take n) (by simp; omega)]
      simp [Nat.add_assoc]
  | re n b k ihb ihk =>
    intro hp hC f rest pre bs post hr hf hW hl
    cases f with
    | zero => simp at hf
    | succ f =>
      simp only [LI.expand, iitemsSize_append] at hW hl ⊢
      simp only [LI.enc, List.length_cons, List.length_append] at hf
      have hCb : ∀ i ∈ b.expand, CItem i := by
        intro i hi
        refine hC i ?_
        simp only [LI.expand, List.mem_append]
        left
        have h0 := hp.1
        obtain ⟨m, rfl⟩ : ∃ m, n = m + 1 := ⟨n - 1, by omega⟩
        rw [rep_succ]; simp [hi]
      have hCr : ∀ i ∈ rep n b.expand, CItem i := fun i hi => hCb i (mem_rep hi)
      simp only [LI.enc, List.cons_append, walkInit, FLAG_INIT_END, FLAG_INIT, FLAG_INIT_SKIP, FLAG_INIT_REPEAT,
        show ¬ (1:Nat) = 4 by decide, show ¬ (1:Nat) = 3 by decide,
        show ¬ (1:Nat) = 0 by decide, if_false, if_true, List.append_assoc]
      have h1 := repeatInit (f := f) (body := b.enc ++ .n 4 :: (k.enc ++ rest)) (rest := .n 4 :: (k.enc ++ rest)) hCb
        (fun pre bs post h1 h2 => ihb hp.2.1 hCb f _ pre bs post (Or.inr ⟨_, rfl⟩) (by omega) h1 h2)
        n (b.enc ++ .n 4 :: (k.enc ++ rest)) pre (bs.take (iitemsSize (rep n b.expand)))
        ((bs.drop (iitemsSize (rep n b.expand))).map .byte ++ post) (Or.inl hp.1) (by omega) (by rw [List.length_take]; omega)
      rw [splitB (iitemsSize (rep n b.expand)), h1]
      simp only [Out.bind_ok]
      have hml := initM_length (rep n b.expand) hCr (bs.take (iitemsSize (rep n b.expand)))
      have := ihk hp.2.2 (fun i h => hC i (by simp [LI.expand, h])) f rest
        (pre ++ initM (rep n b.expand) (bs.take (iitemsSize (rep n b.expand)))) (bs.drop (iitemsSize (rep n b.expand))) post hr
        (by omega) (by simp [hml]; omega) (by simp; omega)
      simp only [List.length_append, hml, List.append_assoc] at this
      rw [this, initM_append, initM_take (rep n b.expand) bs (bs.take (iitemsSize (rep n b.expand))) (by rw [List.take_take, Nat.min_self])]
      simp [Nat.add_assoc]
  | co c k ih =>
    intro hp hC f rest pre bs post hr hf hW hl
    cases f with
    | zero => simp at hf
    | succ f =>
      have hc := hC (.cont c) (by simp [LI.expand])
      simp only [LI.expand, iitemsSize_cons, IItem.size] at hW hl ⊢
      simp only [LI.enc, List.length_cons] at hf
      simp only [LI.enc, List.cons_append, walkInit, FLAG_INIT_END, FLAG_INIT, FLAG_INIT_SKIP, FLAG_INIT_REPEAT,
        FLAG_INIT_CONTAINER, show ¬ (2:Nat) = 4 by decide, show ¬ (2:Nat) = 3 by decide,
        show ¬ (2:Nat) = 1 by decide, show ¬ (2:Nat) = 0 by decide, if_false, if_true]
      have this := ih hp (fun i h => hC i (by simp [LI.expand, h])) f rest
        (pre ++ (freshCell c :: List.replicate (c.size - 1) .tail)) (bs.drop c.size) post hr
        (by omega) (by have := hc.1; simp; omega) (by simp; omega)
      have e3 : (pre ++ (freshCell c :: List.replicate (c.size - 1) Cell.tail)).length = pre.length + c.size := by
        have := hc.1; simp; omega
      rw [e3] at this
      have e4 := construct_app pre ((bs.take c.size).map .byte) ((bs.drop c.size).map .byte ++ post) c.size (freshCell c) hc.1
        (by simp; omega) (bytes_not_live _)
      simp only [List.append_assoc, List.cons_append] at this
      rcases hc.2 with ⟨cs, e, rfl⟩ | ⟨cs, rfl⟩
      · simp only []
        rw [splitB (Ty.vec cs e).size]
        simp only [freshCell] at e4
        rw [e4]
        simp only [Out.ofOpt_some, Out.bind_ok]
        rw [wadd_eq (by omega)]
        simp only [freshCell] at this
        rw [this]
        simp [initM, freshCell, Nat.add_assoc]
      · simp only []
        rw [splitB (Ty.str cs).size]
        simp only [freshCell] at e4
        rw [e4]
        simp only [Out.ofOpt_some, Out.bind_ok]
        rw [wadd_eq (by omega)]
        simp only [freshCell] at this
        rw [this]
        simp [initM, freshCell, Nat.add_assoc]

/-! ### initialisation of a whole type -/

mutual
theorem ikinds_citem : ∀ (t : Ty), t.WF → ∀ i ∈ ikinds t, CItem i
  | .num n, _, i, hi => by rw [(List.mem_replicate.mp hi).2]; trivial
  | .enum n vs, _, i, hi => by
    simp only [ikinds] at hi
    split at hi
    · rw [(List.mem_replicate.mp hi).2]; trivial
    · obtain ⟨b, _, rfl⟩ := List.mem_map.mp hi; trivial
  | .ptr n, _, i, hi => by rw [(List.mem_replicate.mp hi).2]; trivial
  | .opaq n, _, i, hi => by rw [(List.mem_replicate.mp hi).2]; trivial
  | .vec c e, hw, i, hi => by
    simp only [ikinds, List.mem_singleton] at hi
    subst hi; exact ⟨hw.1, Or.inl ⟨_, _, rfl⟩⟩
  | .str c, hw, i, hi => by
    simp only [ikinds, List.mem_singleton] at hi
    subst hi; exact ⟨hw.1, Or.inr ⟨_, rfl⟩⟩
  | .arr d e, hw, i, hi => ikinds_citem e hw.2.2.2 i (mem_rep hi)
  | .comp n fs, hw, i, hi => ikindsF_citem fs hw.2 i hi
theorem ikindsF_citem : ∀ (fs : Fields) {cur n : Nat}, fs.WF cur n → ∀ i ∈ ikindsF cur n fs, CItem i
  | .nil, _, _, _, i, hi => by rw [(List.mem_replicate.mp hi).2]; trivial
  | .cons off t r, _, _, hw, i, hi => by
    simp only [ikindsF, List.mem_append] at hi
    rcases hi with (hi | hi) | hi
    · rw [(List.mem_replicate.mp hi).2]; trivial
    · exact ikinds_citem t hw.2.1 i hi
    · exact ikindsF_citem r hw.2.2 i hi
end

/-- an initialisation item and the byte it applies to -/
def IM : IItem → Item → Prop
  | .set _, .data => True
  | .leave, .data => True
  | .leave, .pad => True
  | .cont c, .cont c' => c = c'
  | _, _ => False

/-- pointwise correspondence -/
inductive F2 : List IItem → List Item → Prop where
  | nil : F2 [] []
  | cons {x y a b} : IM x y → F2 a b → F2 (x :: a) (y :: b)

theorem f2_replicate {a : IItem} {b : Item} (h : IM a b) (n : Nat) : F2 (List.replicate n a) (List.replicate n b) := by
  induction n with
  | zero => exact .nil
  | succ n ih => rw [List.replicate_succ, List.replicate_succ]; exact .cons h ih
theorem f2_append {a c : List IItem} {b d : List Item} (h : F2 a b) (h' : F2 c d) :
    F2 (a ++ c) (b ++ d) := by
  induction h with
  | nil => exact h'
  | cons h _ ih => exact .cons h ih
theorem f2_rep {a : List IItem} {b : List Item} (h : F2 a b) (n : Nat) : F2 (rep n a) (rep n b) := by
  induction n with
  | zero => exact .nil
  | succ n ih => exact f2_append h ih

mutual
theorem ikinds_match : ∀ t : Ty, F2 (ikinds t) (kinds t)
  | .num n => f2_replicate (by exact trivial) n
  | .enum n vs => by
    simp only [ikinds, kinds]
    split
    · exact f2_replicate (by exact trivial) n
    · rename_i h
      have hl := (enumInit_length n vs).resolve_left (by simpa using h)
      revert hl
      generalize enumInit n vs = d
      clear h
      intro hl
      subst hl
      induction d with
      | nil => exact .nil
      | cons x d ih => exact .cons (by exact trivial) ih
  | .ptr n => f2_replicate (by exact trivial) n
  | .opaq n => f2_replicate (by exact trivial) n
  | .vec c e => .cons rfl .nil
  | .str c => .cons rfl .nil
  | .arr d e => f2_rep (ikinds_match e) d
  | .comp n fs => ikindsF_match fs 0 n
theorem ikindsF_match : ∀ (fs : Fields) (cur n : Nat), F2 (ikindsF cur n fs) (kindsF cur n fs)
  | .nil, cur, n => f2_replicate (by exact trivial) _
  | .cons off t r, cur, n => f2_append (f2_append (f2_replicate (by exact trivial) _) (ikinds_match t)) (ikindsF_match r _ n)
end

theorem f2_size {a : List IItem} {b : List Item} (h : F2 a b) : iitemsSize a = itemsSize b := by
  induction h with
  | nil => rfl
  | @cons x y _ _ h _ ih =>
    have : x.size = y.size := by
      cases x <;> cases y <;> simp_all [IM, IItem.size, Item.size]
    rw [iitemsSize_cons, ih, this]; simp [itemsSize]

theorem ikinds_size (t : Ty) (hw : t.WF) : iitemsSize (ikinds t) = t.size := by
  rw [f2_size (ikinds_match t), kinds_size t hw]

/-- initialised memory is a valid value, with every container empty -/
theorem initM_abs (env : Env) {a : List IItem} {b : List Item} (h : F2 a b) (hc : ∀ i ∈ a, CItem i) :
    ∀ bs, Abs env b (initM a bs) (initV a bs) ∧ Clr (initV a bs) := by
  induction h with
  | nil => intro bs; exact ⟨.nil, trivial⟩
  | @cons x y _ _ h _ ih =>
    intro bs
    have ih := ih (fun i h => hc i (List.mem_cons_of_mem _ h))
    have hx := hc x List.mem_cons_self
    cases x with
    | set v =>
      cases y <;> simp [IM] at h
      exact ⟨.data (ih _).1, (ih _).2⟩
    | leave =>
      cases y <;> simp [IM] at h
      · exact ⟨.data (ih _).1, (ih _).2⟩
      · exact ⟨.pad (ih _).1, (ih _).2⟩
    | cont c =>
      cases y <;> simp [IM] at h
      subst h
      rcases hx.2 with ⟨cs, e, rfl⟩ | ⟨cs, rfl⟩
      · exact ⟨.vec hx.1 (n := 0) .nil (Nat.le_refl _) (Nat.zero_le _) (ih _).1, rfl, rfl, (ih _).2⟩
      · exact ⟨.str hx.1 (Nat.zero_le _) (ih _).1, rfl, (ih _).2⟩

/-- `Typelib::init` with the layout of a type, at a position of a buffer -/
theorem initL_spec {t : Ty} (hw : t.WF) (pre : Mem) (bs : List UInt8) (post : Mem) (hl : bs.length = t.size)
    (hW : pre.length + t.size < W) (ops : List Word) :
    initL ⟨ops, (layI t).enc⟩ (pre ++ (bs.map .byte ++ post)) pre.length =
      .ok () (pre ++ (initM (ikinds t) bs ++ post)) := by
  obtain ⟨j, hj⟩ := layI_expand t hw
  have hc := ikinds_citem t hw
  have hs := ikinds_size t hw
  rw [hj] at hc
  rw [hj, iitemsSize_append] at hs
  have hj' : iitemsSize (List.replicate j IItem.leave) = j := by simp [iitemsSize, IItem.size]
  rw [hj'] at hs
  have := walkInit_enc (layI t) (layI_pos t hw) (fun i h => hc i (by simp [h])) ((layI t).enc.length + 1) [] pre
    (bs.take (iitemsSize (layI t).expand)) ((bs.drop (iitemsSize (layI t).expand)).map .byte ++ post) (Or.inl rfl)
    (by omega) (by omega) (by simp; omega)
  simp only [List.append_nil] at this
  unfold initL
  have e2 : bs.map Cell.byte ++ post = (bs.take (iitemsSize (layI t).expand)).map .byte ++
      ((bs.drop (iitemsSize (layI t).expand)).map .byte ++ post) := by
    rw [← List.append_assoc, ← List.map_append, List.take_append_drop]
  simp only []
  rw [e2, this]
  simp only [Out.bind_ok, Out.conv_ok]
  rw [hj, initM_append, initM_take (layI t).expand bs (bs.take (iitemsSize (layI t).expand)) (by rw [List.take_take, Nat.min_self]),
    initM_leave j _ (by simp; omega)]
  simp

end Verif.Value
