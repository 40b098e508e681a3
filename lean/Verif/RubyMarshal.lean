import Verif.ValuePack
import Verif.RubyLayout

/-!
C87: marshalling from Ruby: `to_byte_array`, `from_buffer`, `marshalling_size` (bindings/ruby/lib/typelib/type.rb:579-581, 660-718,
bindings/ruby/ext/value.cc:463-479, 576-600), with their options.
-/

namespace Verif.RubyMarshal
open Verif Verif.Layout Verif.Value Verif.RubyLayout

/-! ### Model -/

/-- what becomes of a call from Ruby: a value, a Ruby exception, or a C++ exception that nobody catches (it leaves the function Ruby has
called, and the process ends) -/
inductive Call (α : Type) where
  | value (a : α)
  | raised (e : Err)
  | died
  | ub
  | fuel
  deriving DecidableEq

/-- options after `Type.validate_layout_options` (type.rb:389-394); none: an unknown key, refused with ArgumentError -/
structure Opts where
  acceptPointers : Bool
  acceptOpaques : Bool
  mergeSkipCopy : Bool
  removeTrailingSkips : Bool
  deriving DecidableEq

def validateOptions (g : Given) : Option Opts :=
  if g.any (fun kv => kv.1.unknown) then none
  else some ⟨g.getD .acceptPointers false, g.getD .acceptOpaques false, g.getD .mergeSkipCopy true, g.getD .removeTrailingSkips true⟩

/-- `layout_of(value.getType(), RTEST(pointers), RTEST(opaques), RTEST(merge), RTEST(remove_trailing_skips))` (value.cc:469, 580) -/
def layoutFor (o : Opts) (t : Ty) : Res ML :=
  layoutOf o.acceptPointers o.acceptOpaques o.mergeSkipCopy o.removeTrailingSkips t

/-- `value_do_byte_array` (value.cc:576-585): nothing is caught. `&buffer[0]` of an empty vector is undefined. -/
def doByteArray (env : Env) (t : Ty) (o : Opts) (m : Mem) : Call (List UInt8) :=
  match layoutFor o t with
  | .ok ml =>
    match dumpL (vecWrite env) ml m [] with
    | .ok () B => if B.isEmpty then .ub else .value B
    | .exn _ _ => .died
    | .ub => .ub
    | .fuel => .fuel
  | .exn _ => .died
  | .ub => .ub
  | .fuel => .fuel

/-- `to_byte_array` (type.rb:710-718), on a value whose converted fields have been written back (C67) -/
def toByteArray (env : Env) (t : Ty) (g : Given) (m : Mem) : Call (List UInt8) :=
  match validateOptions g with
  | some o => doByteArray env t o m
  | none => .raised .rbArg

/-- `value_do_from_buffer` (value.cc:463-479): the exceptions of `layout_of` are not caught, those of `load` become ArgumentError. The
second component is the memory of the value afterwards. -/
def doFromBuffer (env : Env) (t : Ty) (o : Opts) (input : List UInt8) (m : Mem) : Call Unit × Mem :=
  match layoutFor o t with
  | .ok ml =>
    match loadFinish t input (walk (loadI env (opsAt env (cdepth t)) input) (ml.ops.length + 1) ml.ops ⟨m, 0, 0⟩) with
    | .ok () m' => (.value (), m')
    | .exn _ m' => (.raised .rbArg, m')
    | .ub => (.ub, m)
    | .fuel => (.fuel, m)
  | .exn _ => (.died, m)
  | .ub => (.ub, m)
  | .fuel => (.fuel, m)

/-- `from_buffer` (type.rb:660-667) and `from_buffer_direct` (674-683); the buffer is a string -/
def fromBuffer (env : Env) (t : Ty) (g : Given) (input : List UInt8) (m : Mem) : Call Unit × Mem :=
  match validateOptions g with
  | some o => doFromBuffer env t o input m
  | none => (.raised .rbArg, m)

/-- conversion of a `size_t` to the `int` that `INT2NUM` takes -/
def toInt (n : Nat) : Int := if n % 2 ^ 32 < 2 ^ 31 then ((n % 2 ^ 32 : Nat) : Int) else ((n % 2 ^ 32 : Nat) : Int) - 2 ^ 32

/-- `value_marshalling_size` (value.cc:593-600): `none` is nil -/
def marshallingSize (t : Ty) (m : Mem) : Call (Option Int) :=
  match getDumpSize t m with
  | .ok () n => .value (some (toInt n))
  | .exn .noLayout _ => .value none
  | .exn _ _ => .died
  | .ub => .ub
  | .fuel => .fuel

/-! ### Specification -/

/-- the options in force: the defaults, except for those given -/
structure InForce (g : Given) (o : Opts) : Prop where
  known : ∀ k b, (k, b) ∈ g → k = .acceptOpaques ∨ k = .acceptPointers ∨ k = .mergeSkipCopy ∨ k = .removeTrailingSkips
  pointers : (g.lookup .acceptPointers = some o.acceptPointers) ∨ (g.lookup .acceptPointers = none ∧ o.acceptPointers = false)
  opaques : (g.lookup .acceptOpaques = some o.acceptOpaques) ∨ (g.lookup .acceptOpaques = none ∧ o.acceptOpaques = false)
  merge : (g.lookup .mergeSkipCopy = some o.mergeSkipCopy) ∨ (g.lookup .mergeSkipCopy = none ∧ o.mergeSkipCopy = true)
  skips : (g.lookup .removeTrailingSkips = some o.removeTrailingSkips) ∨
    (g.lookup .removeTrailingSkips = none ∧ o.removeTrailingSkips = true)

/-- a type without padding that is one number, perhaps repeated or wrapped -/
inductive OneNumber : Ty → Prop where
  | num {n} : OneNumber (.num n)
  | enum {n l} : OneNumber (.enum n l)
  | arr {d e} : OneNumber e → OneNumber (.arr d e)
  | wrap {t} : OneNumber t → OneNumber (.comp t.size (.cons 0 t .nil))

/-- types that can be marshalled with the given options: they have a layout, fit in memory, and when padding is to be left out the
elements of every vector either hold a container or are one number -/
structure Fit (o : Opts) (t : Ty) : Prop where
  wf : t.WF
  layout : t.HasLayout o.acceptPointers o.acceptOpaques
  size : t.size < HALF
  vectors : o.mergeSkipCopy = false → ∀ e, VecIn t e → (∃ c, Item.cont c ∈ kinds e) ∨ OneNumber e

/-- `B` is what stands for a value: its data bytes and the contents of its containers; padding only if `merge`, and not the
last `k` bytes of it at the end of the value (how many: C08, C82). `K` says which bytes of the value are in `B` (data) and which are not
(padding). -/
structure Marshalled (o : Opts) (t : Ty) (v : List AV) (B : List UInt8) (K : List Item) : Prop where
  items : ∃ X k, kinds t = X ++ List.replicate k .pad ∧ K = X.map (mp o.mergeSkipCopy) ++ List.replicate k .pad
  bytes : Packed o.mergeSkipCopy K v B

/-! ### Lemmas -/

theorem lookup_mem {g : Given} {k : Key} {b : Bool} (h : (k, b) ∈ g) : g.any (fun kv => kv.1.unknown) = false → k.unknown = false := by
  intro h1
  rw [List.any_eq_false] at h1
  simpa using h1 _ h

/-- the options used are the options in force -/
theorem validate_inForce {g : Given} {o : Opts} : validateOptions g = some o ↔ InForce g o := by
  have hD : ∀ k d b, g.getD k d = b ↔ (g.lookup k = some b ∨ (g.lookup k = none ∧ b = d)) := by
    intro k d b
    unfold Given.getD
    cases g.lookup k with
    | none => simp [eq_comm]
    | some c => simp
  obtain ⟨p, q, r, s⟩ := o
  unfold validateOptions
  constructor
  · intro h
    split at h
    · cases h
    · rename_i hu
      simp only [Option.some.injEq, Opts.mk.injEq] at h
      obtain ⟨h1, h2, h3, h4⟩ := h
      refine ⟨?_, (hD _ _ _).mp h1, (hD _ _ _).mp h2, (hD _ _ _).mp h3, (hD _ _ _).mp h4⟩
      intro k b hk
      have := lookup_mem hk (Bool.not_eq_true _ ▸ hu)
      cases k <;> simp [Key.unknown] at this <;> simp
  · rintro ⟨h0, h1, h2, h3, h4⟩
    have hu : ¬ g.any (fun kv => kv.1.unknown) = true := by
      intro h
      obtain ⟨⟨k, b⟩, hk, hk'⟩ := List.any_eq_true.mp h
      rcases h0 k b hk with rfl | rfl | rfl | rfl <;> simp [Key.unknown] at hk'
    rw [if_neg hu, (hD _ _ _).mpr h1, (hD _ _ _).mpr h2, (hD _ _ _).mpr h3, (hD _ _ _).mpr h4]

def tail : Nat → L
  | 0 => .nil
  | j + 1 => .sk 0 (tail j)

theorem tail_skip (j skc : Nat) : sT false (tail j) none 3 0 skc = .nil := by
  induction j generalizing skc with
  | zero => rfl
  | succ j ih => simp only [tail, sT, if_true, Nat.add_zero]; exact ih skc

theorem tail_copy (j c skc : Nat) (hc : c ≠ 0) : sT false (tail j) none 0 c skc = .mc c .nil := by
  cases j with
  | zero => simp [tail, sT, fin, flush, one, hc]
  | succ j =>
    simp only [tail, sT]
    rw [if_neg (by decide), if_neg (by decide), Nat.add_zero, tail_skip]
    simp [flush, one, hc]

theorem app_assoc (a b c : L) : (a.app b).app c = a.app (b.app c) := by
  induction a <;> simp [L.app, *]

theorem oneNumber_app {e : Ty} (h : OneNumber e) : e.WF → 0 < e.size → ∀ op skc j, op = 0 ∨ op = 3 →
    sT false ((rawL e).app (tail j)) none op 0 skc = .mc e.size .nil := by
  induction h with
  | @num n =>
    intro _ hs op skc j hop
    simp only [Ty.size] at hs
    simp only [rawL, L.app, sT, Ty.size]
    rcases hop with rfl | rfl
    · rw [if_pos rfl, Nat.zero_add, tail_copy _ _ _ (by omega)]
    · rw [if_neg (by decide), if_neg (by decide), tail_copy _ _ _ (by omega)]
      rfl
  | @enum n l =>
    intro _ hs op skc j hop
    simp only [Ty.size] at hs
    simp only [rawL, L.app, sT, Ty.size]
    rcases hop with rfl | rfl
    · rw [if_pos rfl, Nat.zero_add, tail_copy _ _ _ (by omega)]
    · rw [if_neg (by decide), if_neg (by decide), tail_copy _ _ _ (by omega)]
      rfl
  | @arr d e _ ih =>
    rintro ⟨h1, h2, h3, h4⟩ hs op skc j hop
    have := ih h4 h2 0 0 0 (Or.inl rfl)
    simp only [tail] at this
    have happ : (rawL e).app .nil = rawL e := by
      have : ∀ l : L, l.app .nil = l := by intro l; induction l <;> simp [L.app, *]
      exact this _
    rw [happ] at this
    have hsz : (Ty.arr d e).size = e.size * d := by
      simp only [Ty.size]; rw [wmul_eq h3, Nat.mul_comm]
    rw [hsz] at hs ⊢
    simp only [rawL, L.app, sT, this, single]
    rw [if_neg (by simp), tail_copy _ _ _ (by omega)]
    rfl
  | @wrap t _ ih =>
    rintro ⟨h1, h2, h3, h4⟩ hs op skc j hop
    simp only [Ty.size] at hs ⊢
    have e1 : wadd 0 t.size = t.size := by rw [wadd_eq (by omega)]; omega
    have e2 : wsub t.size t.size = 0 := by unfold wsub W; omega
    have e3 : wsub 0 0 = 0 := by unfold wsub W; omega
    simp only [rawL, rawLF, L.app, e1, e2, e3, app_assoc]
    have hj : (L.sk 0 (tail j)) = tail (j + 1) := rfl
    rw [hj]
    simp only [sT]
    rcases hop with rfl | rfl
    · rw [if_neg (by decide), if_neg (by decide), ih h3 hs 3 _ _ (Or.inr rfl)]
      rfl
    · rw [if_pos rfl]
      exact ih h3 hs 3 _ _ (Or.inr rfl)

theorem oneNumber_block {e : Ty} (h : OneNumber e) (he : ElemOk e) :
    sT false (rawL e) none 0 0 0 = .mc e.size .nil ∧ kinds e = List.replicate e.size .data := by
  have h1 := oneNumber_app h he.2.1 he.1 0 0 0 (Or.inl rfl)
  have happ : (rawL e).app .nil = rawL e := by
    have : ∀ l : L, l.app .nil = l := by intro l; induction l <;> simp [L.app, *]
    exact this _
  simp only [tail, happ] at h1
  have h2 := blk_expand (merge := false) he
  rw [h1] at h2
  simp only [L.expand, List.append_nil, map_mp_false] at h2
  exact ⟨h1, h2.symm⟩

/-- the containers of the layout of a type that can be marshalled -/
theorem layL_pblk {o : Opts} {t : Ty} (h : Fit o t) : (layL o.mergeSkipCopy o.removeTrailingSkips t).All (PBlk o.mergeSkipCopy (cdepth t)) := by
  refine all_mono ?_ _ (all_and _ (layL_all o.acceptPointers o.acceptOpaques o.mergeSkipCopy o.removeTrailingSkips t h.wf h.layout) (layL_vecIn _ _ t))
  rintro c b ⟨h1, h2⟩
  refine ⟨h1, ?_⟩
  rintro cs e rfl hmc
  obtain ⟨_, _, he, _, hbe⟩ := blk_vec h1
  have hm := (elem_memcpy he).1 hmc
  cases hmer : o.mergeSkipCopy with
  | true => rw [hmer] at hbe; exact ⟨hbe.trans hm.1, hm.2⟩
  | false =>
    rw [hmer] at hbe
    rcases h.vectors hmer e (h2 cs e rfl) with ⟨c, hc⟩ | h3
    · have : Item.cont c ∈ (kinds e).map (mp true) := List.mem_map.mpr ⟨_, hc, rfl⟩
      rw [hm.2] at this
      simp at this
    · obtain ⟨h4, h5⟩ := oneNumber_block h3 he
      exact ⟨hbe.trans h4, by rw [map_mp_false]; exact h5⟩

theorem layoutFor_eq {o : Opts} {t : Ty} (h : Fit o t) :
    layoutFor o t = .ok ⟨(layL o.mergeSkipCopy o.removeTrailingSkips t).enc, (layI t).enc⟩ :=
  layoutOf_eq _ _ _ _ t h.wf h.layout

/-- the value seen by the layout, and the padding after it -/
theorem split_value {o : Opts} {t : Ty} (h : Fit o t) {env : Env} : ∃ X k, kinds t = X ++ List.replicate k .pad ∧
    (layL o.mergeSkipCopy o.removeTrailingSkips t).expand = X.map (mp o.mergeSkipCopy) ∧
    (∀ m v, Valid env t m v → ∃ (cells : Mem) (vx : List AV) (pads : List UInt8), m = cells ++ pads.map .byte ∧ v = vx ++ pads.map .b ∧
      pads.length = k ∧ Abs env (X.map (mp o.mergeSkipCopy)) cells vx) ∧
    (∀ (cells : Mem) (vx : List AV) (pads : List UInt8), pads.length = k → Abs env (X.map (mp o.mergeSkipCopy)) cells vx →
      Valid env t (cells ++ pads.map .byte) (vx ++ pads.map .b)) := by
  obtain ⟨k, h1, _, _, X, h4, h5⟩ := lay_veq o.mergeSkipCopy o.removeTrailingSkips t h.wf
  refine ⟨X, k, h4, h5, ?_, ?_⟩
  · intro m v hv
    have hv := (h1 env m v).mpr hv
    obtain ⟨m1, m2, v1, v2, rfl, rfl, ha, hb⟩ := hv.split
    obtain ⟨bs, hbs, rfl, rfl⟩ := Abs.bytes (Or.inr rfl) hb
    exact ⟨m1, v1, bs, rfl, rfl, hbs, by rw [← h5]; exact ha⟩
  · intro cells vx pads hp ha
    rw [← h5] at ha
    refine (h1 env _ _).mp (ha.append ?_)
    rw [← hp]
    exact Abs.ofBytes env (Or.inr rfl) pads

theorem packed_pads (merge : Bool) (pads : List UInt8) : Packed merge (List.replicate pads.length .pad) (pads.map .b) [] := by
  induction pads with
  | nil => exact .nil
  | cons x p ih => exact .pad ih

/-- everything about the dump -/
theorem dump_fit {o : Opts} {t : Ty} (h : Fit o t) {env : Env} {m : Mem} {v : List AV} (hv : Valid env t m v) :
    ∃ B K, Marshalled o t v B K ∧
      (B.length ≤ env.maxAlloc → B ≠ [] → doByteArray env t o m = .value B) ∧
      (B = [] → doByteArray env t o m = .ub) ∧
      (env.maxAlloc < B.length → doByteArray env t o m = .died) := by
  obtain ⟨X, k, hX, hexp, hsp, _⟩ := split_value (env := env) h
  have hll := hv.length.1
  obtain ⟨cells, vx, pads, rfl, rfl, hk, ha⟩ := hsp m v hv
  rw [kinds_size t h.wf, List.length_append] at hll
  have ha' := Abs.map_mp.mp ha
  obtain ⟨B, hB⟩ := ha'.packed o.mergeSkipCopy
  refine ⟨B, X.map (mp o.mergeSkipCopy) ++ List.replicate k .pad, ⟨⟨X, k, hX, rfl⟩, ?_⟩, ?_⟩
  · have := hB.append (packed_pads o.mergeSkipCopy pads)
    rwa [hk, List.append_nil] at this
  · have key := dumpP_tri env (vecWrite_ok env) B (layL o.mergeSkipCopy o.removeTrailingSkips t) (layL_pblk h) (layL_pos _ _ t h.wf)
      cells (pads.map .byte) vx (by rw [hexp]; exact ha) (by have := h.size; omega) [] [] ⟨rfl, Nat.zero_le _⟩ (by rw [hexp]; exact hB) rfl
    unfold doByteArray
    rw [layoutFor_eq h]
    simp only [dumpL]
    cases hwk : walk (dumpI (vecWrite env)) ((layL o.mergeSkipCopy o.removeTrailingSkips t).enc.length + 1)
        (layL o.mergeSkipCopy o.removeTrailingSkips t).enc ⟨cells ++ pads.map .byte, 0, []⟩ with
    | ok it s =>
      rw [hwk] at key
      obtain ⟨rfl, h1, h2⟩ := key
      simp only [h1]
      cases B with
      | nil => simp
      | cons x B => simp at h2 ⊢; omega
    | exn e s =>
      rw [hwk] at key
      obtain ⟨p, r, h1, rfl, h3⟩ := key
      have := congrArg List.length h1
      simp only [List.length_append] at this
      simp only []
      refine ⟨fun h => by omega, ?_, by simp⟩
      rintro rfl
      simp at this; omega
    | ub => rw [hwk] at key; exact key.elim
    | fuel => rw [hwk] at key; exact key.elim

/-- the bytes are determined by the value -/
theorem Packed.unique {merge : Bool} {K : List Item} {v : List AV} {B B' : List UInt8} (h : Packed merge K v B) (h' : Packed merge K v B') :
    B = B' := by
  induction h generalizing B' with
  | nil => cases h'; rfl
  | data _ ih => cases h' with | data h => rw [ih h]
  | pad _ ih => cases h' with | pad h => exact ih h
  | vec _ _ ih1 ih => cases h' with | vec h1 h => rw [ih1 h1, ih h]
  | str _ ih => cases h' with | str h => rw [ih h]

theorem load_fit {o : Opts} {t : Ty} (h : Fit o t) {env : Env} {m : Mem} {v : List AV} (hv : Valid env t m v) {B : List UInt8}
    (hB : doByteArray env t o m = .value B) {dst : Mem} {w : List AV} (hd : Valid env t dst w) (hcf : Clr w ∨ Full v) :
    ∃ dst' v' K, doFromBuffer env t o B dst = (.value (), dst') ∧ Valid env t dst' v' ∧ Marshalled o t v B K ∧ VEq (kinds t) v v' ∧
      VEq K v v' ∧ Frame K w v' := by
  obtain ⟨X, k, hX, hexp, hsp, hback⟩ := split_value (env := env) h
  have hv0 := hv
  have hll := hv.length.1
  have hdl := hd.length.1
  obtain ⟨cells, vx, pads, rfl, rfl, hk, ha⟩ := hsp m v hv
  obtain ⟨dcells, dx, dpads, rfl, rfl, hdk, hda⟩ := hsp dst w hd
  rw [kinds_size t h.wf, List.length_append] at hll hdl
  obtain ⟨B0, hB0⟩ := (Abs.map_mp.mp ha).packed o.mergeSkipCopy
  -- the bytes are B0
  have hBB : B = B0 ∧ B0.length ≤ env.maxAlloc := by
    have key := dumpP_tri env (vecWrite_ok env) B0 (layL o.mergeSkipCopy o.removeTrailingSkips t) (layL_pblk h) (layL_pos _ _ t h.wf)
      cells (pads.map .byte) vx (by rw [hexp]; exact ha) (by have := h.size; omega) [] [] ⟨rfl, Nat.zero_le _⟩ (by rw [hexp]; exact hB0) rfl
    unfold doByteArray at hB
    rw [layoutFor_eq h] at hB
    simp only [dumpL] at hB
    cases hwk : walk (dumpI (vecWrite env)) ((layL o.mergeSkipCopy o.removeTrailingSkips t).enc.length + 1)
        (layL o.mergeSkipCopy o.removeTrailingSkips t).enc ⟨cells ++ pads.map .byte, 0, []⟩ with
    | ok it s =>
      rw [hwk] at key hB
      obtain ⟨rfl, h1, h2⟩ := key
      simp only [h1] at hB
      split at hB
      · cases hB
      · cases hB; exact ⟨rfl, h2⟩
    | exn e s => rw [hwk] at hB; cases hB
    | ub => rw [hwk] at key; exact key.elim
    | fuel => rw [hwk] at key; exact key.elim
  obtain ⟨rfl, hmax⟩ := hBB
  have hin : B.length < HALF := by have := env.hmax; simp only [HALF]; omega
  have key := loadP_tri (allOps env (cdepth t)) B hin (layL o.mergeSkipCopy o.removeTrailingSkips t) (layL_pblk h) (layL_pos _ _ t h.wf)
    ⟨[], dpads.map .byte, X.map (mp o.mergeSkipCopy), vx, dx, []⟩ ((layL o.mergeSkipCopy o.removeTrailingSkips t).enc.length + 1)
    ⟨dcells ++ dpads.map .byte, 0, 0⟩ (by omega) (by
      rw [hexp]
      exact ⟨Nat.zero_le _, [], [], [], [], [], dcells, dx, cells, vx, B, rfl, rfl, rfl, by
        have := h.size; simp only [List.length_append]; omega, .nil, hda, ha, hB0, by simp, rfl, rfl, or_left hcf, .nil, .nil⟩)
  unfold doFromBuffer
  rw [layoutFor_eq h]
  simp only []
  cases hwk : walk (loadI env (opsAt env (cdepth t)) B) ((layL o.mergeSkipCopy o.removeTrailingSkips t).enc.length + 1)
      (layL o.mergeSkipCopy o.removeTrailingSkips t).enc ⟨dcells ++ dpads.map .byte, 0, 0⟩ with
  | ok it s =>
    rw [hwk] at key
    obtain ⟨rfl, hidx, K1, x1, v1, u1, w1, y, vy, my, uy, B', p1, p2, p3, p4, p5, p6, p7, p8, p9, p10, p11, p12, p13, p14⟩ := key
    cases p6
    cases p7
    cases p8
    simp only [List.append_nil] at p1 p9 p10 p11
    subst p1 p10 p11
    simp only [List.nil_append] at p2
    have hend : s.idx = B.length := by
      have := List.drop_eq_nil_iff.mp p9
      omega
    unfold loadFinish
    simp only []
    rw [if_neg (by intro h; exact h.1 hend)]
    simp only []
    refine ⟨s.mem, v1 ++ dpads.map .b, X.map (mp o.mergeSkipCopy) ++ List.replicate k .pad, rfl, ?_, ⟨⟨X, k, hX, rfl⟩, ?_⟩, ?_, ?_, ?_⟩
    · rw [p2]; exact hback _ _ _ hdk p5
    · have := hB0.append (packed_pads o.mergeSkipCopy pads)
      rwa [hk, List.append_nil] at this
    · rw [hX]
      have := VEq.bytes_pad pads dpads (by omega)
      rw [hk] at this
      exact (VEq.of_map_mp p13).append this
    · have := VEq.bytes_pad pads dpads (by omega)
      rw [hk] at this
      exact p13.append this
    · have := Frame.bytes_pad dpads
      rw [hdk] at this
      exact p14.append this
  | exn e s => rw [hwk] at key; exact key.elim
  | ub => rw [hwk] at key; exact key.elim
  | fuel => rw [hwk] at key; exact key.elim


/-! ### Theorems -/

/-- C87: an option that does not exist is refused by an ArgumentError and nothing is touched. -/
theorem C87_unknown_option {env : Env} {t : Ty} {g : Given} {name : Str} {b : Bool} (h : (Key.other name, b) ∈ g) (m : Mem) (input : List UInt8) :
    toByteArray env t g m = .raised .rbArg ∧ fromBuffer env t g input m = (.raised .rbArg, m) := by
  have hv : validateOptions g = none := by
    unfold validateOptions
    rw [if_pos (List.any_eq_true.mpr ⟨_, h, rfl⟩)]
  unfold toByteArray fromBuffer
  rw [hv]
  exact ⟨rfl, rfl⟩

/-- C87 (partial): for every combination of options, `to_byte_array` gives the bytes that stand for the value. Missing: types that have
no layout with these options and, without merge_skip_copy, vectors of structures (the process ends: `C87_no_layout_counterexample`,
`C87_unmerged_counterexample`); a value without any byte to marshal (undefined behaviour: `C87_empty_counterexample`). -/
theorem C87_to_byte_array_partial {env : Env} {t : Ty} {g : Given} {o : Opts} (hg : InForce g o) (h : Fit o t) {m : Mem} {v : List AV}
    (hv : Valid env t m v) :
    ∃ B K, Marshalled o t v B K ∧ (B.length ≤ env.maxAlloc → B ≠ [] → toByteArray env t g m = .value B) ∧
      (env.maxAlloc < B.length → toByteArray env t g m = .died) := by
  obtain ⟨B, K, h1, h2, _, h3⟩ := dump_fit h hv
  refine ⟨B, K, h1, ?_⟩
  unfold toByteArray
  rw [validate_inForce.mpr hg]
  exact ⟨h2, h3⟩

/-- C87 (partial): for every combination of options, what `to_byte_array` returns is accepted by `from_buffer` with the same options; the
receiver becomes equal to the marshalled value: the bytes that were marshalled (`K`: data) are those of the value, the others are as they
were in the receiver. Missing: as above, and receivers with contents where the value has an empty container (`C46_load_empty_counterexample`). -/
theorem C87_round_trip_partial {env : Env} {t : Ty} {g : Given} {o : Opts} (hg : InForce g o) (h : Fit o t) {m : Mem} {v : List AV}
    (hv : Valid env t m v) {B : List UInt8} (hB : toByteArray env t g m = .value B) {dst : Mem} {w : List AV} (hd : Valid env t dst w)
    (hcf : Clr w ∨ Full v) :
    ∃ dst' v' K, fromBuffer env t g B dst = (.value (), dst') ∧ Valid env t dst' v' ∧ VEq (kinds t) v v' ∧
      Marshalled o t v B K ∧ VEq K v v' ∧ Frame K w v' := by
  unfold toByteArray at hB
  unfold fromBuffer
  rw [validate_inForce.mpr hg] at hB ⊢
  obtain ⟨dst', v', K, h1, h2, h3, h4, h5, h6⟩ := load_fit h hv hB hd hcf
  exact ⟨dst', v', K, h1, h2, h4, h3, h5, h6⟩

/-- C87 (partial): the same for `Type.from_buffer`, which makes the receiver: `new` initialises its memory, whatever it held (types that
need neither accept_pointers nor accept_opaques). -/
theorem C87_from_buffer_new_partial {env : Env} {t : Ty} {g : Given} {o : Opts} (hg : InForce g o) (h : Fit o t) (ht : t.HasLayout false false)
    {m : Mem} {v : List AV} (hv : Valid env t m v) {B : List UInt8} (hB : toByteArray env t g m = .value B) (raw : List UInt8)
    (hr : raw.length = t.size) :
    ∃ dst dst' v', init t (raw.map .byte) = .ok () dst ∧ fromBuffer env t g B dst = (.value (), dst') ∧ Valid env t dst' v' ∧
      VEq (kinds t) v v' := by
  obtain ⟨dst, w, h1, h2, h3, _⟩ := C17_init (env := env) (t := t) ⟨h.wf, ht, h.size⟩ raw hr
  obtain ⟨dst', v', K, h4, h5, h6, _⟩ := C87_round_trip_partial hg h hv hB h2 (Or.inl h3)
  exact ⟨dst, dst', v', h1, h4, h5, h6⟩

/-- without options, `to_byte_array` is `dump` -/
theorem default_dump {env : Env} {t : Ty} {m : Mem} {B : List UInt8} (h : toByteArray env t [] m = .value B) : dump env t m [] = .ok () B := by
  unfold toByteArray validateOptions at h
  simp only [List.any_nil, Bool.false_eq_true, if_false, Given.getD, List.lookup_nil] at h
  unfold doByteArray layoutFor at h
  unfold dump withLayout
  simp only [] at h
  cases hl : layoutOf false false true true t with
  | ok ml =>
    rw [hl] at h
    simp only [Out.ofRes_ok, Out.bind_ok] at h ⊢
    cases hd : dumpL (vecWrite env) ml m [] with
    | ok u B' =>
      rw [hd] at h
      simp only [] at h
      split at h
      · cases h
      · cases h; rfl
    | exn e s => rw [hd] at h; cases h
    | ub => rw [hd] at h; cases h
    | fuel => rw [hd] at h; cases h
  | exn e => rw [hl] at h; cases h
  | ub => rw [hl] at h; cases h
  | fuel => rw [hl] at h; cases h

/-- `marshalling_size` is the length of what `to_byte_array` returns, as a 32-bit integer -/
theorem marshallingSize_eq {env : Env} {t : Ty} (ht : OkType t) {m : Mem} {v : List AV} (hv : Valid env t m v) {B : List UInt8}
    (hB : toByteArray env t [] m = .value B) : marshallingSize t m = .value (some (toInt B.length)) := by
  obtain ⟨n, h1, h2, _⟩ := C11_dump_size_agrees ht hv (Nat.zero_le _) (default_dump hB)
  simp only [List.length_nil, Nat.zero_add] at h2
  unfold marshallingSize
  rw [h1, h2]

/-- C87 (partial): `marshalling_size` is the length of what `to_byte_array` returns, when no option is given and it is below 2^31. Missing:
`C87_size_counterexample`, `C87_size_options_counterexample`. -/
theorem C87_size_partial {env : Env} {t : Ty} (ht : OkType t) {m : Mem} {v : List AV} (hv : Valid env t m v) {B : List UInt8}
    (hB : toByteArray env t [] m = .value B) (hs : B.length < 2 ^ 31) : marshallingSize t m = .value (some (B.length : Int)) := by
  rw [marshallingSize_eq ht hv hB]
  unfold toInt
  rw [Nat.mod_eq_of_lt (by omega), if_pos hs]

theorem kinds_bytes (n : Nat) (hn : 0 < n) (hW : n < HALF) : OkType (.arr n (.num 1)) ∧ kinds (.arr n (.num 1)) = List.replicate n .data := by
  have hHW : HALF < W := by unfold W; decide
  refine ⟨⟨⟨hn, by decide, by simp only [Ty.size]; omega, by show 1 < W; unfold W; decide⟩, trivial, ?_⟩, ?_⟩
  · simp only [Ty.size]
    rw [wmul_eq (by omega)]; omega
  · show rep n (List.replicate 1 Item.data) = _
    rw [rep_replicate, Nat.mul_one]

/-- C87 is false for big values: for an array of `n` bytes, 2^31 ≤ n < 2^32, `to_byte_array` gives `n` bytes but `marshalling_size` is
negative. -/
theorem C87_size_counterexample {env : Env} (n : Nat) (h1 : 2 ^ 31 ≤ n) (h2 : n < 2 ^ 32) (h3 : n ≤ env.maxAlloc) :
    ∃ m v B, Valid env (.arr n (.num 1)) m v ∧ toByteArray env (.arr n (.num 1)) [] m = .value B ∧ B.length = n ∧
      marshallingSize (.arr n (.num 1)) m = .value (some ((n : Int) - 2 ^ 32)) := by
  obtain ⟨ht, hk⟩ := kinds_bytes n (by omega) (by simp only [HALF]; omega)
  have hv : Valid env (.arr n (.num 1)) ((List.replicate n (0 : UInt8)).map .byte) ((List.replicate n (0 : UInt8)).map .b) := by
    unfold Valid
    rw [hk]
    have := Abs.ofBytes env (Or.inl rfl) (i := .data) (List.replicate n 0)
    rwa [List.length_replicate] at this
  have hfit : Fit ⟨false, false, true, true⟩ (.arr n (.num 1)) := ⟨ht.1, ht.2.1, ht.2.2, nofun⟩
  have hg : InForce [] ⟨false, false, true, true⟩ := ⟨by simp, .inr ⟨rfl, rfl⟩, .inr ⟨rfl, rfl⟩, .inr ⟨rfl, rfl⟩, .inr ⟨rfl, rfl⟩⟩
  obtain ⟨B, K, ⟨⟨X, k, hX, rfl⟩, hP⟩, h4, _⟩ := C87_to_byte_array_partial hg hfit hv
  have hk0 : k = 0 := by
    cases k with
    | zero => rfl
    | succ k =>
      have : Item.pad ∈ kinds (.arr n (.num 1)) := by rw [hX]; simp [List.replicate_succ]
      rw [hk] at this
      simp at this
  subst hk0
  simp only [List.replicate_zero, List.append_nil] at hX hP
  rw [← hX, hk, List.map_replicate, mp_data] at hP
  have hBn := hP.bytes
  have hlen : B.length = n := by rw [hBn, List.length_replicate]
  have h5 := h4 (by omega) (by intro h; rw [h] at hlen; simp at hlen; omega)
  refine ⟨_, _, B, hv, h5, hlen, ?_⟩
  rw [marshallingSize_eq ht hv h5, hlen]
  unfold toInt
  rw [Nat.mod_eq_of_lt h2, if_neg (by omega)]

/-- C87 is false for types without a layout (pointers, opaques): `marshalling_size` says so by nil, `to_byte_array` and `from_buffer` let
the C++ exception out, which ends the process. -/
theorem C87_no_layout_counterexample {env : Env} {t : Ty} (h : layoutOf false false true true t = .exn .noLayout) (m : Mem) (input : List UInt8) :
    marshallingSize t m = .value none ∧ toByteArray env t [] m = .died ∧ fromBuffer env t [] input m = (.died, m) := by
  refine ⟨?_, ?_, ?_⟩
  · unfold marshallingSize getDumpSize withLayout
    rw [h]
    rfl
  · unfold toByteArray validateOptions
    simp only [List.any_nil, Bool.false_eq_true, if_false, Given.getD, List.lookup_nil]
    unfold doByteArray layoutFor
    simp only [h]
  · unfold fromBuffer validateOptions
    simp only [List.any_nil, Bool.false_eq_true, if_false, Given.getD, List.lookup_nil]
    unfold doFromBuffer layoutFor
    simp only [h]

/-- a structure with a pointer, an array of opaques -/
example : layoutOf false false true true (.comp 16 (.cons 0 (.num 4) (.cons 8 (.ptr 8) .nil))) = .exn .noLayout ∧
    layoutOf false false true true (.arr 2 (.opaq 3)) = .exn .noLayout := ⟨rfl, rfl⟩

/-- C87 (partial): whatever the bytes given to `from_buffer` without options, it returns or raises an ArgumentError and the receiver is a
valid value. Missing: buffers with a count whose size overflows (`C13_overflow_counterexample`); other options. -/
theorem C87_arbitrary_partial {env : Env} {t : Ty} (ht : OkType t) {dst : Mem} {w : List AV} (hd : Valid env t dst w)
    {input : List UInt8} (hin : input.length < HALF) (hno : ∀ e, VecIn t e → ∀ i, leVal ((input.drop i).take 8) * e.size < W) :
    ∃ dst' w', Valid env t dst' w' ∧ (fromBuffer env t [] input dst = (.value (), dst') ∨ fromBuffer env t [] input dst = (.raised .rbArg, dst')) := by
  obtain ⟨dst', w', h1, h2⟩ := C13_load_arbitrary_partial ht hd hin hno
  refine ⟨dst', w', h1, ?_⟩
  unfold fromBuffer validateOptions
  simp only [List.any_nil, Bool.false_eq_true, if_false, Given.getD, List.lookup_nil]
  unfold doFromBuffer layoutFor
  unfold load at h2
  rw [withLayout_ok ht] at h2
  simp only [layoutOf_eq false false true true t ht.1 ht.2.1]
  rcases h2 with h2 | ⟨e, h2⟩
  · simp only [] at h2; rw [h2]; exact .inl rfl
  · simp only [] at h2; rw [h2]; exact .inr rfl

end Verif.RubyMarshal
