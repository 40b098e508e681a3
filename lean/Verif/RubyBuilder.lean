import Verif.RegistryExamples
import Verif.RegistryMore
import Verif.CompoundModel
import Verif.EnumModel
import Verif.RubyConvert
import Verif.TypeBuilder

/-!
C61: defining types from Ruby (bindings/ruby/lib/typelib/registry.rb, `CompoundBuilder`, `EnumBuilder`; bindings/ruby/ext/registry.cc,
`registry_create_*`, `registry_alias`).

A C++ exception that no `catch` of the extension handles unwinds through the frames of the Ruby interpreter, which are C: the process
is terminated. This is `ub` here. Strings are passed with `StringValuePtr`, that is up to the first NUL: names are taken to have none.
-/

namespace Verif.RubyBuilder
open Verif Verif.Names Verif.Graph Verif.Registry Verif.RubyConvert Verif.CompoundModel Verif.EnumModel
open Verif.TypeBuilder (World toSizeT)

/-! ### Model -/

/-- one call to `CompoundBuilder#add(name, type, offset)`, or to `name=` (registry.rb:322-341) -/
structure FieldReq where
  name : Str
  ty : TId
  offset : Option Int
  deriving DecidableEq, Repr

/-- the loop of `CompoundBuilder#build` (registry.rb:305-313). `size` is `INT2FIX(getSize())` (value.cc:233), the size itself
below 2^62. -/
def fieldOffsets (sz : TId → Nat) : Int → List FieldReq → List (Str × TId × Int)
  | _, [] => []
  | cur, f :: r =>
    let o := f.offset.getD cur
    (f.name, f.ty, o) :: fieldOffsets sz (o + sz f.ty) r

/-- the loop of `registry_create_compound` (registry.cc:597-607): the `int` becomes a `size_t` -/
def addFields (sz : TId → Nat) : Comp → List (Str × TId × Int) → Res Comp
  | c, [] => .ok c
  | c, (n, t, o) :: r => num2int o >>= fun o => addFields sz (c.addField sz n t (toSizeT o)) r

/-- `reg.add(type, true, "")` and what all the `create` functions do with its exceptions (registry.cc:613-615, 648-650, 659-661,
688-690, 702-704). The new object is not freed if that fails. -/
def define (key : Char → Int) (w : World) (d : TypeDef) : World × Res TId :=
  match add key (w.1.alloc d) w.2 w.1.next true [] with
  | (R, .ok _) => ((w.1.alloc d, R), .ok w.1.next)
  | (R, .exn _) => ((w.1.alloc d, R), .exn .rbArg)
  | (R, .ub) => ((w.1.alloc d, R), .ub)
  | (R, .fuel) => ((w.1.alloc d, R), .fuel)

/-- `Registry#create_compound` (registry.rb:384-388, registry.cc:591-616). There is no test that the types of the fields are those
of this registry. -/
def createCompound (key : Char → Int) (w : World) (name : Str) (fs : List FieldReq) (size : Int) : World × Res TId :=
  match addFields w.1.size Comp.new (fieldOffsets w.1.size 0 fs) >>= fun c => num2int size >>= fun s =>
      .ok (if toSizeT s ≠ 0 then c.setSize (toSizeT s) else c) with
  | .ok c => define key w ⟨name, c.size, .comp c.fields⟩
  | .exn e => (w, .exn e)
  | .ub => (w, .ub)
  | .fuel => (w, .fuel)

/-- the loop of `EnumBuilder#build` (registry.rb:445-449) -/
def symbolValues : Int → List (Str × Option Int) → List (Str × Int)
  | _, [] => []
  | cur, (n, v) :: r => (n, v.getD cur) :: symbolValues (v.getD cur + 1) r

/-- the loop of `registry_create_enum` (registry.cc:630-640). The exception of `Enum::add` is not caught. -/
def addSymbols : Enum → List (Str × Int) → Res Enum
  | e, [] => .ok e
  | e, (n, v) :: r => num2int v >>= fun v =>
    match e.add n v with
    | (e, .ok ()) => addSymbols e r
    | _ => .ub

/-- `Registry#create_enum` (registry.rb:487-491, 439-451, registry.cc:624-652); `sizeof` of an enum is 4 -/
def createEnum (key : Char → Int) (w : World) (name : Str) (syms : List (Str × Option Int)) (size : Int) : World × Res TId :=
  if syms.isEmpty then (w, .exn .rbArg)
  else
    match Enum.new 0 >>= fun e => addSymbols e (symbolValues 0 syms) >>= fun e => num2int size >>= fun s =>
        .ok (e, if toSizeT s ≠ 0 then toSizeT s else 4) with
    | .ok (e, n) => define key w ⟨name, n, .enum e.values⟩
    | .exn e => (w, .exn e)
    | .ub => (w, .ub)
    | .fuel => (w, .fuel)

/-- `Registry#create_numeric` (registry.rb:352-361, registry.cc:672-691) -/
def createNumeric (key : Char → Int) (w : World) (name : Str) (size : Int) (cat : NumCat) : World × Res TId :=
  match num2int size with
  | .ok s => define key w ⟨name, toSizeT s, .num cat⟩
  | .exn e => (w, .exn e)
  | .ub => (w, .ub)
  | .fuel => (w, .fuel)

/-- `Registry#create_opaque` (registry.cc:655-662) -/
def createOpaque (key : Char → Int) (w : World) (name : Str) (size : Int) : World × Res TId :=
  match num2int size with
  | .ok s => define key w ⟨name, toSizeT s, .opaque⟩
  | .exn e => (w, .exn e)
  | .ub => (w, .ub)
  | .fuel => (w, .fuel)

/-- `Registry#create_null` (registry.cc:698-705) -/
def createNull (key : Char → Int) (w : World) (name : Str) : World × Res TId := define key w ⟨name, 0, .null⟩

/-- `Registry#alias(new, old)` (registry.cc:187-200): `BadName` and `Undefined` are caught, `AlreadyDefined` is not -/
def rbAlias (key : Char → Int) (H : Heap) (R : Reg) (new old : Str) : Reg × Res Unit :=
  match aliasAuto key H R old new [] with
  | (R, .exn .badName) => (R, .exn .rbArg)
  | (R, .exn .undefined) => (R, .exn .undefined)
  | (R, .exn _) => (R, .ub)
  | r => r

/-! ### Specification -/

/-- where the fields are put: each at its own offset if it was given one, else at the end of the field before (at `cur` for the
first) -/
def Placed (sz : TId → Nat) : Nat → List FieldReq → List Nat → Prop
  | _, [], offs => offs = []
  | cur, f :: fs, offs => ∃ o r, offs = o :: r ∧ (f.offset = none → o = cur) ∧ (∀ z, f.offset = some z → (o : Int) = z) ∧
      Placed sz (o + sz f.ty) fs r

/-- the values of symbols: the given one, else one more than that of the symbol before -/
def Numbered : Int → List (Str × Option Int) → List Int → Prop
  | _, [], vs => vs = []
  | cur, s :: ss, vs => ∃ v r, vs = v :: r ∧ (s.2 = none → v = cur) ∧ (∀ z, s.2 = some z → v = z) ∧ Numbered (v + 1) ss r

/-- the name can be used for a new type -/
def Free (R : Reg) (name : Str) : Prop := isValidTypename name true = true ∧ R.reg name = none

/-- the only change is the new type `d`, registered under its name -/
def Defined (key : Char → Int) (H : Heap) (R : Reg) (d : TypeDef) (o : World × Res TId) : Prop :=
  o.2 = .ok H.next ∧ o.1.1.get H.next = d ∧ (∀ u, u ≠ H.next → o.1.1.get u = H.get u) ∧
  (∀ n, o.1.2.reg n = if n = d.name then some H.next else R.reg n) ∧ Reachable key o.1.1 o.1.2

/-! ### Proofs -/

variable {key : Char → Int} {H : Heap} {R : Reg}

theorem define_spec (hk : ∀ a b, key a = key b → a = b) (hR : Reachable key H R) (d : TypeDef) (habs : isAbsoluteName d.name = true)
    (hel : d.kind.elem? = none) :
    (Free R d.name ∧ Defined key H R d (define key (H, R) d)) ∨
    (¬ Free R d.name ∧ (define key (H, R) d).2 = .exn .rbArg ∧ (define key (H, R) d).1.2 = R) := by
  have hget : (H.alloc d).get H.next = d := by simp [Heap.alloc]
  have hname : (H.alloc d).name H.next = d.name := by show ((H.alloc d).get H.next).name = _; rw [hget]
  have hkind : (H.alloc d).kind H.next = d.kind := by show ((H.alloc d).get H.next).kind = _; rw [hget]
  have hR' : Reachable key (H.alloc d) R := .alloc d hR (fun x hx => by rw [hel] at hx; cases hx)
  have hinv' := (reachable_inv hk hR').2
  have hop : OkOp (H.alloc d) (.add H.next true []) := ⟨Nat.lt_succ_self _, by rw [hname]; exact habs⟩
  have hreach : Reachable key (H.alloc d) (add key (H.alloc d) R H.next true []).1 := .op (.add H.next true []) hR' hop
  have hmd : ∀ al R1, modDep al (H.alloc d) R1 H.next = (R1, .ok ()) := by
    intro al R1
    unfold modDep
    rw [hkind, hel]
    cases d.kind.indirectName <;> rfl
  have hadd : add key (H.alloc d) R H.next true [] = addName key (H.alloc d) R d.name H.next true [] := by
    unfold add
    rw [hname]
    generalize addName key (H.alloc d) R d.name H.next true [] = a
    obtain ⟨R1, r1⟩ := a
    match r1 with
    | .ok () => simp only [hmd, ite_self]
    | .exn e => rfl
    | .ub => rfl
    | .fuel => rfl
  obtain ⟨_, _, hc⟩ := addName_spec hk hinv' d.name H.next true [] habs (.inl hname.symm) (Nat.lt_succ_self _)
  rw [← hadd] at hc
  unfold define
  generalize hg : add key (H.alloc d) R H.next true [] = a at hc hreach
  obtain ⟨R1, r1⟩ := a
  simp only at hc hreach
  simp only [hg]
  rcases hc with ⟨h1, h2, h3⟩ | ⟨h1, h2, u, h3, h4⟩ | ⟨h1, h2, h3⟩ | ⟨h1, h2, h3, h4⟩
  · right; subst h1; exact ⟨(fun hf => by rw [hf.1] at h2; exact absurd h2 (by simp)), rfl, h3⟩
  · right; subst h1; exact ⟨(fun hf => by rw [hf.2] at h3; cases h3), rfl, h2⟩
  · exfalso
    obtain ⟨e, he, het⟩ := reg_mem h3
    have := (reachable_inv hk hR).2.alloc _ he
    simp only at this
    rw [het] at this
    exact Nat.lt_irrefl _ this
  · left; subst h1
    refine ⟨⟨h3, h2⟩, rfl, hget, fun u hu => ?_, h4, hreach⟩
    show (if u = H.next then d else H.get u) = _
    rw [if_neg hu]

theorem placed_exists (sz : TId → Nat) : ∀ (fs : List FieldReq) (cur : Nat), (∀ f ∈ fs, ∀ z, f.offset = some z → 0 ≤ z) →
    ∃ offs, Placed sz cur fs offs ∧
      fieldOffsets sz cur fs = (fs.zip offs).map (fun p => (p.1.name, p.1.ty, (p.2 : Int)))
  | [], cur, _ => ⟨[], rfl, rfl⟩
  | f :: fs, cur, h => by
    have hf := h f (by simp)
    have ⟨o, ho1, ho2, ho3⟩ : ∃ o : Nat, (f.offset = none → o = cur) ∧ (∀ z, f.offset = some z → (o : Int) = z) ∧
        f.offset.getD (cur : Int) = (o : Int) := by
      cases hfo : f.offset with
      | none => exact ⟨cur, fun _ => rfl, fun z hz => by (cases hz), rfl⟩
      | some z => exact ⟨z.toNat, fun h => by (cases h), fun z' hz => by
          have := hf z hfo
          injection hz with hz
          omega, by have := hf z hfo; simp only [Option.getD_some]; omega⟩
    obtain ⟨r, hr1, hr2⟩ := placed_exists sz fs (o + sz f.ty) (fun g hg => h g (by simp [hg]))
    refine ⟨o :: r, ⟨o, r, rfl, ho1, ho2, hr1⟩, ?_⟩
    simp only [fieldOffsets, ho3, List.zip_cons_cons, List.map_cons]
    rw [← hr2]
    rw [show ((o : Int) + (sz f.ty : Int)) = ((o + sz f.ty : Nat) : Int) by omega]

theorem num2int_nat (n : Nat) : num2int (n : Int) = if n < 2147483648 then .ok (n : Int) else .exn .rbRange := by
  unfold num2int
  by_cases h : n < 2147483648
  · rw [if_pos h, if_pos ⟨by omega, by omega⟩]
  · rw [if_neg h, if_neg (by omega)]

theorem toSizeT_nat {n : Nat} (h : n < 2147483648) : toSizeT (n : Int) = n := by
  unfold toSizeT
  have : ((n : Int) % ((TypeBuilder.W : Nat) : Int)) = n := Int.emod_eq_of_lt (by omega) (by unfold TypeBuilder.W; omega)
  rw [this]; rfl

theorem addFields_spec (sz : TId → Nat) : ∀ (l : List (Str × TId × Nat)) (c : Comp),
    ((∀ a ∈ l, a.2.2 < 2147483648) → addFields sz c (l.map fun a => (a.1, a.2.1, (a.2.2 : Int))) = .ok (c.adds sz l)) ∧
    (¬ (∀ a ∈ l, a.2.2 < 2147483648) → addFields sz c (l.map fun a => (a.1, a.2.1, (a.2.2 : Int))) = .exn .rbRange)
  | [], c => ⟨fun _ => rfl, fun h => (h (by simp)).elim⟩
  | a :: l, c => by
    obtain ⟨h1, h2⟩ := addFields_spec sz l (c.addField sz a.1 a.2.1 a.2.2)
    simp only [List.map_cons, addFields, num2int_nat]
    by_cases ha : a.2.2 < 2147483648
    · rw [if_pos ha, Res.bind_ok, toSizeT_nat ha]
      constructor
      · intro h; exact h1 (fun b hb => h b (by simp [hb]))
      · intro h
        refine h2 (fun h' => h fun b hb => ?_)
        rcases List.mem_cons.mp hb with rfl | hb
        · exact ha
        · exact h' b hb
    · rw [if_neg ha]
      exact ⟨fun h => (ha (h a (by simp))).elim, fun _ => rfl⟩

/-- the offsets of the fields in the definition -/
def layFields (fs : List FieldReq) (offs : List Nat) : List FieldD := (fs.zip offs).map fun p => ⟨p.1.name, p.2, p.1.ty⟩

/-- **C61, compounds**: with the offsets that were given or follow from the field before, the compound is created exactly if the name
is free and the numbers fit in an `int`; then it has the fields as they were added, and the given size, or else the end of its
furthest field. Otherwise a Ruby exception is raised and the registry is unchanged. -/
theorem C61_compound (hk : ∀ a b, key a = key b → a = b) (hR : Reachable key H R) (name : Str) (habs : isAbsoluteName name = true)
    (fs : List FieldReq) (hpos : ∀ f ∈ fs, ∀ z, f.offset = some z → 0 ≤ z) (hsz : ∀ f ∈ fs, H.size f.ty < 2 ^ 62) (size : Nat) :
    ∃ offs, Placed H.size 0 fs offs ∧
      let o := createCompound key (H, R) name fs size
      ((Free R name ∧ size < 2147483648 ∧ ∀ x ∈ offs, x < 2147483648) → ∃ n, Defined key H R ⟨name, n, .comp (layFields fs offs)⟩ o ∧
        (size ≠ 0 → n = size) ∧
        (size = 0 → ∀ m, n ≤ m ↔ ∀ f ∈ layFields fs offs, f.offset + H.size f.ty ≤ m)) ∧
      (¬ (Free R name ∧ size < 2147483648 ∧ ∀ x ∈ offs, x < 2147483648) →
        (o.2 = .exn .rbArg ∨ o.2 = .exn .rbRange) ∧ o.1.2 = R) := by
  obtain ⟨offs, hp, hoff⟩ := placed_exists H.size fs 0 hpos
  refine ⟨offs, hp, ?_⟩
  intro o
  have ho : o = createCompound key (H, R) name fs size := rfl
  clear_value o
  have hlen : ∀ (fs : List FieldReq) (cur : Nat) (offs : List Nat), Placed H.size cur fs offs → offs.length = fs.length := by
    intro fs
    induction fs with
    | nil => intro cur offs h; rw [show offs = [] from h]; rfl
    | cons f fs ih => rintro cur offs ⟨x, r, rfl, _, _, hr⟩; simp [ih _ _ hr]
  have hl := hlen fs 0 offs hp
  let l : List (Str × TId × Nat) := (fs.zip offs).map fun p => (p.1.name, p.1.ty, p.2)
  have hmem : ∀ a ∈ l, a.2.2 ∈ offs ∧ H.size a.2.1 < 2 ^ 62 := by
    intro a ha
    obtain ⟨p, hp, rfl⟩ := List.mem_map.mp ha
    have := List.of_mem_zip hp
    exact ⟨this.2, hsz _ this.1⟩
  have hall : (∀ a ∈ l, a.2.2 < 2147483648) ↔ ∀ x ∈ offs, x < 2147483648 := by
    constructor
    · intro h x hx
      obtain ⟨i, hi, rfl⟩ := List.mem_iff_getElem.mp hx
      have h2 : (fs[i]'(by omega), offs[i]) ∈ fs.zip offs := by
        rw [List.mem_iff_getElem]
        exact ⟨i, by simp; omega, by simp⟩
      exact h ((fs[i]'(by omega)).name, (fs[i]'(by omega)).ty, offs[i]) (List.mem_map.mpr ⟨_, h2, rfl⟩)
    · intro h a ha; exact h _ (hmem a ha).1
  have hfo : fieldOffsets H.size 0 fs = l.map fun a => (a.1, a.2.1, (a.2.2 : Int)) := by
    have h0 : ((0 : Nat) : Int) = 0 := rfl
    rw [h0] at hoff
    rw [hoff]; simp [l]
  obtain ⟨hok, hexn⟩ := addFields_spec H.size l Comp.new
  unfold createCompound at ho
  simp only at ho
  have hsize : ((Comp.new.adds H.size l).fields) = layFields fs offs := by
    rw [adds_fields]; simp [Comp.new, l, layFields]
  rw [hfo] at ho
  by_cases hfit : ∀ x ∈ offs, x < 2147483648
  · rw [hok (hall.mpr hfit), Res.bind_ok, num2int_nat] at ho
    by_cases hs : size < 2147483648
    · rw [if_pos hs, Res.bind_ok, toSizeT_nat hs] at ho
      simp only at ho
      obtain ⟨n, hn⟩ : ∃ n, n = (if size ≠ 0 then (Comp.new.adds H.size l).setSize size else Comp.new.adds H.size l).size := ⟨_, rfl⟩
      have hf : (if size ≠ 0 then (Comp.new.adds H.size l).setSize size else Comp.new.adds H.size l).fields = layFields fs offs := by
        split
        · exact hsize
        · exact hsize
      rw [← hn, hf] at ho
      have hd := define_spec hk hR ⟨name, n, .comp (layFields fs offs)⟩ habs rfl
      rw [← ho] at hd
      rcases hd with ⟨hfree, hdef⟩ | ⟨hfree, h1, h2⟩
      · refine ⟨fun _ => ⟨n, hdef, fun h0 => ?_, fun h0 m => ?_⟩, fun h => (h ⟨hfree, hs, hfit⟩).elim⟩
        · rw [hn, if_pos h0]; rfl
        · rw [hn, if_neg (by simpa using h0), ← hsize]
          refine C36_size_exact H.size l (fun a ha => ?_) m
          have := hmem a ha
          have h3 := hfit _ this.1
          unfold W
          omega
      · exact ⟨fun h => (hfree h.1).elim, fun _ => ⟨.inl h1, h2⟩⟩
    · rw [if_neg hs] at ho
      refine ⟨fun h => (hs h.2.1).elim, fun _ => ?_⟩
      rw [ho]
      exact ⟨.inr rfl, rfl⟩
  · rw [hexn (fun h => hfit (hall.mp h))] at ho
    refine ⟨fun h => (hfit h.2.2).elim, fun _ => ?_⟩
    rw [ho]
    exact ⟨.inr rfl, rfl⟩

/-- **C61, automatic offsets**: fields without offsets follow each other, in order, without gaps. -/
theorem C61_automatic (sz : TId → Nat) (fs : List FieldReq) (hauto : ∀ f ∈ fs, f.offset = none) (offs : List Nat)
    (h : Placed sz 0 fs offs) (i : Nat) (f : FieldReq) (hf : fs[i]? = some f) :
    offs[i]? = some (((fs.take i).map fun g => sz g.ty).sum) := by
  have gen : ∀ (fs : List FieldReq) (cur : Nat) (offs : List Nat), (∀ f ∈ fs, f.offset = none) → Placed sz cur fs offs →
      ∀ i f, fs[i]? = some f → offs[i]? = some (cur + ((fs.take i).map fun g => sz g.ty).sum) := by
    intro fs
    induction fs with
    | nil => intro cur offs _ _ i f hf; simp at hf
    | cons g fs ih =>
      rintro cur offs ha ⟨o, r, rfl, ho, _, hr⟩ i f hf
      have ho := ho (ha g (by simp))
      cases i with
      | zero => simp [ho]
      | succ i =>
        have := ih _ r (fun f hf => ha f (by simp [hf])) hr i f (by simpa using hf)
        simp only [List.getElem?_cons_succ, List.take_succ_cons, List.map_cons, List.sum_cons]
        rw [this, ho]
        congr 1
        omega
  have := gen fs 0 offs hauto h i f hf
  simpa using this

theorem numbered_exists : ∀ (ss : List (Str × Option Int)) (cur : Int),
    ∃ vs, Numbered cur ss vs ∧ symbolValues cur ss = (ss.map (·.1)).zip vs ∧ vs.length = ss.length
  | [], cur => ⟨[], rfl, rfl, rfl⟩
  | (n, v) :: ss, cur => by
    obtain ⟨r, h1, h2, h3⟩ := numbered_exists ss (v.getD cur + 1)
    refine ⟨v.getD cur :: r, ⟨_, r, rfl, ?_, ?_, h1⟩, ?_, by simp [h3]⟩
    · intro h; simp only at h; rw [h]; rfl
    · intro z h; simp only at h; rw [h]; rfl
    · simp [symbolValues, h2]

/-- a value fits in an `int` -/
def IsInt (v : Int) : Prop := -2147483648 ≤ v ∧ v < 2147483648

theorem firstValue_none {cs : List (Str × Int)} {n : Str} (h : n ∉ cs.map (·.1)) : firstValue cs n = none := by
  unfold firstValue
  rw [Option.map_eq_none_iff, List.find?_eq_none]
  intro c hc e
  rw [beq_iff_eq] at e
  exact h (List.mem_map.mpr ⟨c, hc, e⟩)

theorem addSymbols_spec : ∀ (l cs : List (Str × Int)), ((cs ++ l).map (·.1)).Nodup →
    ((∀ a ∈ l, IsInt a.2) → addSymbols (Enum.run ⟨0 - 1, []⟩ cs) l = .ok (Enum.run ⟨0 - 1, []⟩ (cs ++ l))) ∧
    (¬ (∀ a ∈ l, IsInt a.2) → addSymbols (Enum.run ⟨0 - 1, []⟩ cs) l = .exn .rbRange)
  | [], cs, _ => ⟨fun _ => by simp [addSymbols], fun h => (h (by simp)).elim⟩
  | (n, v) :: l, cs, hnd => by
    have hn : n ∉ cs.map (·.1) := by
      rw [List.map_append, List.map_cons, List.nodup_append] at hnd
      intro hm
      exact hnd.2.2 _ hm _ (by simp) rfl
    have hadd := ((C35_add_conflict 0 cs n v).1 (.inl (firstValue_none hn))).1
    have hrun : Enum.run ⟨0 - 1, []⟩ (cs ++ [(n, v)]) = ((Enum.run ⟨0 - 1, []⟩ cs).add n v).1 := by
      rw [EnumModel.run_append]; rfl
    obtain ⟨h1, h2⟩ := addSymbols_spec l (cs ++ [(n, v)]) (by simpa using hnd)
    rw [hrun] at h1 h2
    simp only [addSymbols]
    by_cases hv : IsInt v
    · have e1 : num2int v = .ok v := by unfold num2int; exact if_pos hv
      rw [e1, Res.bind_ok]
      obtain ⟨e, r⟩ : ∃ e, e = (Enum.run ⟨0 - 1, []⟩ cs).add n v := ⟨_, rfl⟩
      rw [← r] at hadd h1 h2 ⊢
      obtain ⟨e, x⟩ := e
      simp only at hadd h1 h2
      subst hadd
      simp only
      constructor
      · intro h; rw [h1 (fun a ha => h a (by simp [ha]))]; simp
      · intro h
        refine h2 (fun h' => h fun b hb => ?_)
        rcases List.mem_cons.mp hb with rfl | hb
        · exact hv
        · exact h' b hb
    · have e1 : num2int v = .exn .rbRange := by unfold num2int; exact if_neg hv
      rw [e1]
      exact ⟨fun h => (hv (h (n, v) (by simp))).elim, fun _ => rfl⟩

theorem firstValue_mem {cs : List (Str × Int)} (hnd : (cs.map (·.1)).Nodup) {n : Str} {v : Int} :
    firstValue cs n = some v ↔ (n, v) ∈ cs := by
  induction cs with
  | nil => simp [firstValue]
  | cons c cs ih =>
    obtain ⟨m, w⟩ := c
    rw [List.map_cons, List.nodup_cons] at hnd
    have ih := ih hnd.2
    unfold firstValue at ih ⊢
    by_cases h : m = n
    · subst h
      simp only [List.find?_cons, beq_self_eq_true, Option.map_some, Option.some.injEq, List.mem_cons, Prod.mk.injEq, true_and]
      constructor
      · exact fun e => .inl e.symm
      · rintro (e | e)
        · exact e.symm
        · exact (hnd.1 (List.mem_map.mpr ⟨_, e, rfl⟩)).elim
    · have hb : (m == n) = false := by simpa using h
      simp only [List.find?_cons, hb, List.mem_cons, Prod.mk.injEq]
      rw [ih]
      constructor
      · exact .inr
      · rintro (⟨e, _⟩ | e)
        · exact (h e.symm).elim
        · exact e

/-- **C61, enums**: each symbol has the value it was given, or else one more than the symbol before; the enum is created exactly if
there is a symbol, the name is free and the numbers fit in an `int`. Otherwise a Ruby exception is raised and the registry is
unchanged. (For different symbols; see the counterexample.) -/
theorem C61_enum (hk : ∀ a b, key a = key b → a = b) (hR : Reachable key H R) (name : Str) (habs : isAbsoluteName name = true)
    (syms : List (Str × Option Int)) (hnd : (syms.map (·.1)).Nodup) (size : Nat) :
    ∃ vs, Numbered 0 syms vs ∧
      let o := createEnum key (H, R) name syms size
      ((syms ≠ [] ∧ Free R name ∧ size < 2147483648 ∧ ∀ x ∈ vs, IsInt x) →
        ∃ values, Defined key H R ⟨name, if size = 0 then 4 else size, .enum values⟩ o ∧
          ∀ n v, (n, v) ∈ values ↔ (n, v) ∈ (syms.map (·.1)).zip vs) ∧
      (¬ (syms ≠ [] ∧ Free R name ∧ size < 2147483648 ∧ ∀ x ∈ vs, IsInt x) →
        (o.2 = .exn .rbArg ∨ o.2 = .exn .rbRange) ∧ o.1.2 = R) := by
  obtain ⟨vs, hn, hv, hl⟩ := numbered_exists syms 0
  refine ⟨vs, hn, ?_⟩
  intro o
  have ho : o = createEnum key (H, R) name syms size := rfl
  clear_value o
  unfold createEnum at ho
  by_cases hem : syms = []
  · subst hem
    simp only [List.isEmpty_nil, if_true] at ho
    rw [ho]
    exact ⟨fun h => (h.1 rfl).elim, fun _ => ⟨.inl rfl, rfl⟩⟩
  rw [if_neg (by simpa using hem)] at ho
  have hkeys : ((syms.map (·.1)).zip vs).map (·.1) = syms.map (·.1) := List.map_fst_zip (by simp [hl])
  have hvals : ∀ P : Int → Prop, (∀ a ∈ (syms.map (·.1)).zip vs, P a.2) ↔ ∀ x ∈ vs, P x := by
    intro P
    have : ((syms.map (·.1)).zip vs).map (·.2) = vs := List.map_snd_zip (by simp [hl])
    constructor
    · intro h x hx
      rw [← this] at hx
      obtain ⟨a, ha, rfl⟩ := List.mem_map.mp hx
      exact h a ha
    · intro h a ha
      exact h _ (by rw [← this]; exact List.mem_map.mpr ⟨a, ha, rfl⟩)
  obtain ⟨hok, hexn⟩ := addSymbols_spec ((syms.map (·.1)).zip vs) [] (by simpa [hkeys] using hnd)
  rw [List.nil_append] at hok
  have hnew : Enum.new 0 = .ok ⟨0 - 1, []⟩ := rfl
  rw [hnew, Res.bind_ok, hv] at ho
  have hrun0 : Enum.run ⟨0 - 1, []⟩ [] = ⟨0 - 1, []⟩ := rfl
  rw [hrun0] at hok hexn
  by_cases hfit : ∀ x ∈ vs, IsInt x
  · rw [hok ((hvals _).mpr hfit), Res.bind_ok, num2int_nat] at ho
    by_cases hs : size < 2147483648
    · rw [if_pos hs, Res.bind_ok, toSizeT_nat hs] at ho
      simp only at ho
      have hsz : (if size ≠ 0 then size else 4) = if size = 0 then 4 else size := by
        by_cases h : size = 0 <;> simp [h]
      rw [hsz] at ho
      have hd := define_spec hk hR ⟨name, if size = 0 then 4 else size,
        .enum (Enum.run ⟨0 - 1, []⟩ ((syms.map (·.1)).zip vs)).values⟩ habs rfl
      rw [← ho] at hd
      rcases hd with ⟨hfree, hdef⟩ | ⟨hfree, h1, h2⟩
      · refine ⟨fun _ => ⟨_, hdef, fun n v => ?_⟩, fun h => (h ⟨hem, hfree, hs, hfit⟩).elim⟩
        obtain ⟨hsorted, hfind, _⟩ := run_spec 0 ((syms.map (·.1)).zip vs)
        rw [StdMap.mem_iff_find hsorted, hfind, firstValue_mem (by rw [hkeys]; exact hnd)]
      · exact ⟨fun h => (hfree h.2.1).elim, fun _ => ⟨.inl h1, h2⟩⟩
    · rw [if_neg hs] at ho
      refine ⟨fun h => (hs h.2.2.1).elim, fun _ => ?_⟩
      rw [ho]
      exact ⟨.inr rfl, rfl⟩
  · rw [hexn (fun h => hfit ((hvals _).mp h))] at ho
    refine ⟨fun h => (hfit h.2.2.2).elim, fun _ => ?_⟩
    rw [ho]
    exact ⟨.inr rfl, rfl⟩

/-- the outcome of a definition of a type of a given size -/
def SizedSpec (key : Char → Int) (H : Heap) (R : Reg) (d : TypeDef) (o : World × Res TId) : Prop :=
  ((Free R d.name ∧ d.size < 2147483648) → Defined key H R d o) ∧
  (¬ (Free R d.name ∧ d.size < 2147483648) → (o.2 = .exn .rbArg ∨ o.2 = .exn .rbRange) ∧ o.1.2 = R)

theorem sized_spec (hk : ∀ a b, key a = key b → a = b) (hR : Reachable key H R) (name : Str) (habs : isAbsoluteName name = true)
    (size : Nat) (k : Kind) (hel : k.elem? = none) (o : World × Res TId)
    (ho : (∀ s, num2int (size : Int) = .ok s → o = define key (H, R) ⟨name, toSizeT s, k⟩) ∧
      (∀ e, num2int (size : Int) = .exn e → o = ((H, R), .exn e))) : SizedSpec key H R ⟨name, size, k⟩ o := by
  rw [num2int_nat] at ho
  unfold SizedSpec
  simp only
  by_cases hs : size < 2147483648
  · rw [if_pos hs] at ho
    have ho := ho.1 _ rfl
    rw [toSizeT_nat hs] at ho
    have hd := define_spec hk hR ⟨name, size, k⟩ habs hel
    rw [← ho] at hd
    rcases hd with ⟨hfree, hdef⟩ | ⟨hfree, h1, h2⟩
    · exact ⟨fun _ => hdef, fun h => (h ⟨hfree, hs⟩).elim⟩
    · exact ⟨fun h => (hfree h.1).elim, fun _ => ⟨.inl h1, h2⟩⟩
  · rw [if_neg hs] at ho
    refine ⟨fun h => (hs h.2).elim, fun _ => ?_⟩
    rw [ho.2 _ rfl]
    exact ⟨.inr rfl, rfl⟩

theorem sized_null (hk : ∀ a b, key a = key b → a = b) (hR : Reachable key H R) (d : TypeDef) (habs : isAbsoluteName d.name = true)
    (hel : d.kind.elem? = none) (hs : d.size = 0) : SizedSpec key H R d (define key (H, R) d) := by
  have hs : d.size < 2147483648 := by omega
  rcases define_spec hk hR d habs hel with ⟨hfree, hdef⟩ | ⟨hfree, h1, h2⟩
  · exact ⟨fun _ => hdef, fun h => (h ⟨hfree, hs⟩).elim⟩
  · exact ⟨fun h => (hfree h.1).elim, fun _ => ⟨.inl h1, h2⟩⟩

theorem createNumeric_ok {w : World} {name : Str} {z s : Int} {cat : NumCat} (h : num2int z = .ok s) :
    createNumeric key w name z cat = define key w ⟨name, toSizeT s, .num cat⟩ := by
  unfold createNumeric
  generalize num2int z = r at h
  subst h
  rfl

theorem createNumeric_exn {w : World} {name : Str} {z : Int} {e : Err} {cat : NumCat} (h : num2int z = .exn e) :
    createNumeric key w name z cat = (w, .exn e) := by
  unfold createNumeric
  generalize num2int z = r at h
  subst h
  rfl

theorem createOpaque_ok {w : World} {name : Str} {z s : Int} (h : num2int z = .ok s) :
    createOpaque key w name z = define key w ⟨name, toSizeT s, .opaque⟩ := by
  unfold createOpaque
  generalize num2int z = r at h
  subst h
  rfl

theorem createOpaque_exn {w : World} {name : Str} {z : Int} {e : Err} (h : num2int z = .exn e) :
    createOpaque key w name z = (w, .exn e) := by
  unfold createOpaque
  generalize num2int z = r at h
  subst h
  rfl

/-- **C61, numeric, opaque and null types**. -/
theorem C61_simple (hk : ∀ a b, key a = key b → a = b) (hR : Reachable key H R) (name : Str) (habs : isAbsoluteName name = true)
    (size : Nat) (cat : NumCat) :
    SizedSpec key H R ⟨name, size, .num cat⟩ (createNumeric key (H, R) name size cat) ∧
    SizedSpec key H R ⟨name, size, .opaque⟩ (createOpaque key (H, R) name size) ∧
    SizedSpec key H R ⟨name, 0, .null⟩ (createNull key (H, R) name) := by
  refine ⟨?_, ?_, sized_null hk hR ⟨name, 0, .null⟩ habs rfl rfl⟩
  · exact sized_spec hk hR name habs size _ rfl _ ⟨fun s h => createNumeric_ok h, fun e h => createNumeric_exn h⟩
  · exact sized_spec hk hR name habs size _ rfl _ ⟨fun s h => createOpaque_ok h, fun e h => createOpaque_exn h⟩

/-- **C61, aliases**: if the new name is not taken by another type, `alias` gives the type the new name, or raises `ArgumentError`
or `NotFound`. -/
theorem C61_alias (hk : ∀ a b, key a = key b → a = b) (hR : Reachable key H R) (new old : Str)
    (habs : isAbsoluteName new = true) (hfree : ∀ u, R.get new = some u → R.get old = some u) :
    let o := rbAlias key H R new old
    (o.2 = .ok () ∨ o.2 = .exn .rbArg ∨ o.2 = .exn .undefined) ∧
    (o.2 = .ok () → ∃ t, R.get old = some t ∧ o.1.get new = some t) ∧
    (o.2 = .exn .undefined ↔ R.get old = none) ∧
    (∀ n u, isAbsoluteName n = true → R.get n = some u → o.1.get n = some u) := by
  intro o
  have ho : o = rbAlias key H R new old := rfl
  clear_value o
  obtain ⟨hac, hinv⟩ := reachable_inv hk hR
  unfold rbAlias aliasAuto at ho
  cases hold : R.get old with
  | none =>
    rw [hold] at ho
    simp only at ho
    rw [ho]
    exact ⟨.inr (.inr rfl), (fun h => by cases h), (by simp), fun n u _ h => h⟩
  | some t =>
    rw [hold] at ho
    simp only at ho
    obtain ⟨h1, h2, _, h4⟩ := C21_alias hk hac hR old new habs (isPersistent H new t) []
    have h5 := C25_alias_terminates hk hac hR old new habs (isPersistent H new t) []
    have h6 : (alias key H R old new (isPersistent H new t) []).2 ≠ .exn .undefined := by
      unfold alias
      obtain ⟨_, _, h7⟩ := aliasF_spec hk hac (H.next + 1) R old new (isPersistent H new t) [] t hinv habs hold (hinv.get_regd hold)
      intro he
      rw [he] at h7
      simp only at h7
      rcases h7 with ⟨h7, _⟩ | ⟨h7, _⟩ <;> cases h7
    generalize alias key H R old new (isPersistent H new t) [] = a at ho h1 h2 h4 h5 h6
    obtain ⟨R1, r⟩ := a
    simp only at h1 h2 h4 h5 h6
    rcases h5 with rfl | rfl | rfl | rfl
    · rw [ho]
      refine ⟨.inl rfl, fun _ => ?_, by simp, h2⟩
      rw [← hold]
      exact h1 rfl
    · rw [ho]
      exact ⟨.inr (.inl rfl), (fun h => by cases h), by simp, h2⟩
    · exact (h6 rfl).elim
    · obtain ⟨⟨u, hu1, hu2⟩, _⟩ := h4 rfl
      exact (hu2 (hfree u hu1)).elim

/-- **C61 fails for aliases on taken names**: the exception `AlreadyDefined` leaves the extension, for every registry and every valid
name that another type has. -/
theorem C61_alias_taken_counterexample (new old : Str) (hv : isValidTypename new true = true) {t u : TId} (ht : R.get old = some t)
    (hu : R.get new = some u) (hne : u ≠ t) : (rbAlias key H R new old).2 = .ub := by
  unfold rbAlias aliasAuto
  rw [ht]
  simp only [alias, aliasF, hv, ht, addName, hu, if_neg hne]
  rfl

/-! ### Examples and counterexamples -/

/-- `struct { int a; int b; int c @ 16; int d; }` -/
def exFields : List FieldReq :=
  [⟨"a".toList, 0, none⟩, ⟨"b".toList, 0, none⟩, ⟨"c".toList, 0, some 16⟩, ⟨"d".toList, 0, none⟩]

example : ∃ offs n, Placed exHeap.size 0 exFields offs ∧ offs = [0, 4, 8 + 8, 20] ∧
    Defined ascii exHeap exReg ⟨"/new/Compound".toList, n, .comp (layFields exFields offs)⟩
      (createCompound ascii (exHeap, exReg) "/new/Compound".toList exFields 0) := by
  obtain ⟨offs, h1, h2, _⟩ := C61_compound ascii_inj exReachable "/new/Compound".toList (by decide) exFields (by
    intro f hf z hz
    simp only [exFields, List.mem_cons, List.mem_nil_iff, or_false] at hf
    rcases hf with rfl | rfl | rfl | rfl <;> simp at hz
    omega) (by
    intro f hf
    simp only [exFields, List.mem_cons, List.mem_nil_iff, or_false] at hf
    rcases hf with rfl | rfl | rfl | rfl <;> decide) 0
  have ho : offs = [0, 4, 8 + 8, 20] := by
    obtain ⟨a, r, rfl, e1, _, b, r, rfl, e2, _, c, r, rfl, _, e3, d, r, rfl, e4, _, h5⟩ := h1
    have h5 : r = [] := h5
    have e1 := e1 rfl
    have e2 := e2 rfl
    have e3 := e3 16 rfl
    have e4 := e4 rfl
    have hs : exHeap.size 0 = 4 := rfl
    rw [hs] at e2 e4
    rw [h5, e4, e2, e1]
    have : c = 16 := by omega
    rw [this]
  obtain ⟨n, hn, _⟩ := h2 ⟨⟨by decide +kernel, by decide +kernel⟩, by decide, by rw [ho]; decide⟩
  exact ⟨offs, n, h1, ho, hn⟩

example : ∃ values, Defined ascii exHeap exReg ⟨"/new/Enum".toList, 4, .enum values⟩
      (createEnum ascii (exHeap, exReg) "/new/Enum".toList [("sym0".toList, some 15), ("sym1".toList, some 2), ("sym2".toList, none)] 0) ∧
      ("sym2".toList, 3) ∈ values := by
  obtain ⟨vs, h1, h2, _⟩ := C61_enum ascii_inj exReachable "/new/Enum".toList (by decide)
    [("sym0".toList, some 15), ("sym1".toList, some 2), ("sym2".toList, none)] (by decide) 0
  obtain ⟨a, r, rfl, _, e1, b, r, rfl, _, e2, c, r, rfl, e3, _, h5⟩ := h1
  have h5 : r = [] := h5
  have e1 := e1 15 rfl
  have e2 := e2 2 rfl
  have e3 := e3 rfl
  subst e1 e2 e3 h5
  obtain ⟨values, h3, h4⟩ := h2 ⟨by decide, ⟨by decide +kernel, by decide +kernel⟩, by decide, by unfold IsInt; decide⟩
  exact ⟨values, h3, (h4 _ _).mpr (List.mem_of_getElem? (i := 2) rfl)⟩

/-- **C61 fails for negative offsets**: they are taken modulo 2^64, and the compound is smaller than its field. -/
theorem C61_negative_counterexample :
    let o := createCompound ascii (exHeap, exReg) "/new/Compound".toList [⟨"a".toList, 0, some (-2)⟩] 0
    o.2 = .ok 9 ∧ o.1.1.get 9 = ⟨"/new/Compound".toList, 2, .comp [⟨"a".toList, 18446744073709551614, 0⟩]⟩ := by
  decide +kernel

/-- **C61 fails for explicit offsets**: nothing prevents fields from overlapping, nor a size that is too small. -/
theorem C61_overlap_counterexample :
    let o := createCompound ascii (exHeap, exReg) "/new/Compound".toList [⟨"a".toList, 0, some 0⟩, ⟨"b".toList, 0, some 2⟩] 1
    o.2 = .ok 9 ∧ o.1.1.get 9 = ⟨"/new/Compound".toList, 1, .comp [⟨"a".toList, 0, 0⟩, ⟨"b".toList, 2, 0⟩]⟩ := by
  decide +kernel

/-- **C61 fails for a symbol that is given two values**: the exception of `Enum::add` leaves the extension. -/
theorem C61_enum_twice_counterexample :
    (createEnum ascii (exHeap, exReg) "/new/Enum".toList [("a".toList, some 1), ("a".toList, some 2)] 0).2 = .ub := by
  decide +kernel

/-- **C61 fails for types of another registry**: a compound can be registered although the type of its field is not (type 5 exists,
but this registry does not have it). -/
theorem C61_foreign_counterexample :
    let o := createCompound ascii (exHeap, exReg) "/new/Compound".toList [⟨"a".toList, 5, none⟩] 0
    o.2 = .ok 9 ∧ o.1.1.deps 9 = [5] ∧ ∀ p ∈ o.1.2.global, p.2.ty ≠ 5 := by
  decide +kernel

/-! ### The theorems on concrete cases -/

example := C61_simple ascii_inj exReachable "/new/N".toList (by decide) 4 .uint

example := C61_alias ascii_inj exReachable "/C".toList "/A".toList (by decide)
  (fun u h => absurd h (by have : exReg.get "/C".toList = none := by decide +kernel
                           rw [this]; simp))

end Verif.RubyBuilder
