import Verif.ResizeExamples
import Verif.StdMap

/-! Property C91: resizing types from Ruby, `Registry#resize` and `Registry#resize_type`
(bindings/ruby/lib/typelib/registry.rb:243-269, bindings/ruby/ext/registry.cc:319-341): the conversion of the arguments, and their effect on
the registry through `Registry::resize` (C32). -/

namespace Verif.RubyResize
open Verif Verif.Graph Verif.Registry Verif.Resize Verif.StdMap

/-- a key of the hash: a type, a string, or another object -/
inductive Key where
  | typ (t : TId)
  | str (s : Str)
  | other
  deriving DecidableEq, Repr

/-- a value of the hash; floating-point numbers are given by their integral part -/
inductive Size where
  | int (z : Int)
  | float (z : Int)
  | other
  deriving DecidableEq, Repr

/-- the block of `resize` (registry.rb:258-264): the name of the type, or `to_str`; NoMethodError otherwise (written as a plain exception).
Simplification: objects other than types that respond to `name` are not modelled. -/
def nameOf (H : Heap) : Key → Res Str
  | .typ t => .ok (H.name t)
  | .str s => .ok s
  | .other => .exn .exception

/-- `typemap.map` (registry.rb:258-264): all names are computed before any size is looked at -/
def pairs (H : Heap) : List (Key × Size) → Res (List (Str × Size))
  | [] => .ok []
  | (k, z) :: r => nameOf H k >>= fun n => pairs H r >>= fun l => .ok ((n, z) :: l)

/-- `NUM2INT` (registry.cc:332) -/
def num2int (z : Int) : Res Int := if -2147483648 ≤ z ∧ z < 2147483648 then .ok z else .exn .rbRange

def sizeOf : Size → Res Int
  | .int z => num2int z
  | .float z => num2int z
  | .other => .exn .rbType

/-- the conversion of an `int` to `size_t` -/
def toSizeT (z : Int) : Nat := (z % 18446744073709551616).toNat

/-- the `char*` of a Ruby string, as the constructor of `std::string` takes it -/
def cut (s : Str) : Str := s.takeWhile (· ≠ '\x00')

/-- `std::map::insert`, which keeps the value of an existing key (registry.cc:330-332) -/
def minsertSorted (n : Str) (v : Nat) : List (Str × Nat) → List (Str × Nat)
  | [] => [(n, v)]
  | (m, w) :: r => if n = m then (m, w) :: r else if strLt n m then (n, v) :: (m, w) :: r else (m, w) :: minsertSorted n v r

/-- the loop of `registry_resize` (registry.cc:327-333) -/
def collect : List (Str × Size) → List (Str × Nat) → Res (List (Str × Nat))
  | [], m => .ok m
  | (n, z) :: r, m => sizeOf z >>= fun v => collect r (minsertSorted (cut n) (toSizeT v) m)

/-- the `std::map` given to `Registry::resize` -/
def request (H : Heap) (arg : List (Key × Size)) : Res (List (Str × Nat)) := pairs H arg >>= fun l => collect l []

/-- `Registry#resize` (registry.rb:257-269, registry.cc:319-341): exceptions of `Registry::resize` become RuntimeError -/
def rbResize (fuel : Nat) (H : Heap) (R : Reg) (arg : List (Key × Size)) : Heap × Res Unit :=
  match request H arg with
  | .ok req =>
    match resize fuel H R req with
    | (H', .exn _) => (H', .exn .runtime)
    | r => r
  | .exn e => (H, .exn e)
  | .ub => (H, .ub)
  | .fuel => (H, .fuel)

/-- `Registry#resize_type` (registry.rb:243-245) -/
def rbResizeType (fuel : Nat) (H : Heap) (R : Reg) (k : Key) (z : Size) : Heap × Res Unit := rbResize fuel H R [(k, z)]

/-! ### Specification -/

/-- the key names the type `n` -/
inductive Names (H : Heap) : Key → Str → Prop
  | typ (t : TId) : '\x00' ∉ H.name t → Names H (.typ t) (H.name t)
  | str (s : Str) : '\x00' ∉ s → Names H (.str s) s

/-- the size is the integer `z`, which an `int` can hold -/
inductive Is : Size → Int → Prop
  | int {z} : -2147483648 ≤ z → z < 2147483648 → Is (.int z) z
  | float {z} : -2147483648 ≤ z → z < 2147483648 → Is (.float z) z

/-- `Asked H arg l`: the hash `arg` asks for the sizes `l`, by name and in order; all sizes are representable and not negative -/
inductive Asked (H : Heap) : List (Key × Size) → List (Str × Nat) → Prop
  | nil : Asked H [] []
  | cons {k z n arg l} {v : Nat} : Names H k n → Is z (v : Int) → Asked H arg l → Asked H ((k, z) :: arg) ((n, v) :: l)

/-! ### The request -/

theorem is_nat {v : Nat} (h : v < 2147483648) : Is (.int (v : Int)) (v : Int) := .int (by omega) (by omega)

theorem mem_minsertSorted (n : Str) (v : Nat) : ∀ (m : List (Str × Nat)), (∀ p ∈ m, p.1 ≠ n) →
    ∀ q, q ∈ minsertSorted n v m ↔ q = (n, v) ∨ q ∈ m := by
  intro m
  induction m with
  | nil => intro _ q; simp [minsertSorted]
  | cons p m ih =>
    intro h q
    obtain ⟨k, w⟩ := p
    unfold minsertSorted
    rw [if_neg (fun e => h (k, w) (List.mem_cons_self ..) e.symm)]
    by_cases hl : strLt n k = true
    · rw [if_pos hl, List.mem_cons]
    · rw [if_neg hl, List.mem_cons, ih (fun p hp => h p (List.mem_cons_of_mem _ hp)), List.mem_cons]
      constructor
      · rintro (a | a | a)
        · exact .inr (.inl a)
        · exact .inl a
        · exact .inr (.inr a)
      · rintro (a | a | a)
        · exact .inr (.inl a)
        · exact .inl a
        · exact .inr (.inr a)

theorem minsertSorted_kept (n : Str) (v : Nat) : ∀ (m : List (Str × Nat)), m.Pairwise (fun a b => strLt a.1 b.1 = true) →
    (∃ p ∈ m, p.1 = n) → minsertSorted n v m = m := by
  intro m
  induction m with
  | nil => rintro _ ⟨p, hp, _⟩; cases hp
  | cons q m ih =>
    rintro hs ⟨p, hp, e⟩
    obtain ⟨k, w⟩ := q
    unfold minsertSorted
    by_cases hk : n = k
    · rw [if_pos hk]
    · rw [if_neg hk]
      rw [List.pairwise_cons] at hs
      have hm : p ∈ m := by
        rcases List.mem_cons.mp hp with rfl | hm
        · exact absurd e.symm hk
        · exact hm
      have hlt : strLt k n = true := by have := hs.1 p hm; rw [e] at this; exact this
      rw [if_neg (by rw [strLt_asymm hlt]; decide), ih hs.2 ⟨p, hm, e⟩]

theorem minsertSorted_sorted (n : Str) (v : Nat) : ∀ (m : List (Str × Nat)), m.Pairwise (fun a b => strLt a.1 b.1 = true) →
    (minsertSorted n v m).Pairwise (fun a b => strLt a.1 b.1 = true) := by
  intro m
  induction m with
  | nil => intro _; simp [minsertSorted]
  | cons q m ih =>
    intro hs
    obtain ⟨k, w⟩ := q
    unfold minsertSorted
    by_cases hk : n = k
    · rw [if_pos hk]; exact hs
    · rw [if_neg hk]
      have hs' := List.pairwise_cons.mp hs
      by_cases hl : strLt n k = true
      · rw [if_pos hl, List.pairwise_cons]
        refine ⟨fun p hp => ?_, hs⟩
        rcases List.mem_cons.mp hp with rfl | hp
        · exact hl
        · exact strLt_trans hl (hs'.1 p hp)
      · rw [if_neg hl, List.pairwise_cons]
        refine ⟨fun p hp => ?_, ih hs'.2⟩
        by_cases hx : ∃ q ∈ m, q.1 = n
        · rw [minsertSorted_kept n v m hs'.2 hx] at hp
          exact hs'.1 p hp
        · rcases (mem_minsertSorted n v m (fun q hq e => hx ⟨q, hq, e⟩) p).mp hp with rfl | hp
          · exact strLt_total hk (by simpa using hl)
          · exact hs'.1 p hp

theorem cut_eq {s : Str} (h : '\x00' ∉ s) : cut s = s := by
  unfold cut
  induction s with
  | nil => rfl
  | cons c s ih =>
    rw [List.takeWhile_cons, if_pos, ih (fun n => h (List.mem_cons_of_mem _ n))]
    simp only [ne_eq, decide_not, Bool.not_eq_true', decide_eq_false_iff_not]
    rintro rfl
    exact h (List.mem_cons_self ..)

theorem toSizeT_nat {v : Nat} (h : v < 18446744073709551616) : toSizeT (v : Int) = v := by
  unfold toSizeT
  omega

theorem names_ok {H : Heap} {k : Key} {n : Str} (h : Names H k n) : nameOf H k = .ok n ∧ cut n = n := by
  cases h with
  | typ t h => exact ⟨rfl, cut_eq h⟩
  | str s h => exact ⟨rfl, cut_eq h⟩

theorem is_ok {z : Size} {v : Int} (h : Is z v) : sizeOf z = .ok v ∧ -2147483648 ≤ v ∧ v < 2147483648 := by
  cases h with
  | int a b => exact ⟨if_pos ⟨a, b⟩, a, b⟩
  | float a b => exact ⟨if_pos ⟨a, b⟩, a, b⟩

theorem asked_pairs {H : Heap} {arg : List (Key × Size)} {l : List (Str × Nat)} (h : Asked H arg l) :
    ∃ ps, pairs H arg = .ok ps ∧ ∀ m, collect ps m = .ok (l.foldl (fun m p => minsertSorted p.1 p.2 m) m) := by
  induction h with
  | nil => exact ⟨[], rfl, fun _ => rfl⟩
  | @cons k z n v arg l hk hz _ ih =>
    obtain ⟨ps, e1, e2⟩ := ih
    obtain ⟨a1, a2⟩ := names_ok hk
    obtain ⟨b1, b2, b3⟩ := is_ok hz
    refine ⟨(n, z) :: ps, ?_, fun m => ?_⟩
    · unfold pairs
      rw [a1, Res.bind_ok, e1]
      rfl
    · unfold collect
      rw [b1, Res.bind_ok, a2, toSizeT_nat (by omega), e2]
      rfl

theorem foldl_sorted (l : List (Str × Nat)) : ∀ m : List (Str × Nat), m.Pairwise (fun a b => strLt a.1 b.1 = true) →
    (l.foldl (fun m p => minsertSorted p.1 p.2 m) m).Pairwise (fun a b => strLt a.1 b.1 = true) := by
  induction l with
  | nil => exact fun m h => h
  | cons p l ih => exact fun m h => ih _ (minsertSorted_sorted _ _ _ h)

theorem foldl_mem (l : List (Str × Nat)) : ∀ m : List (Str × Nat), m.Pairwise (fun a b => strLt a.1 b.1 = true) →
    (∀ p ∈ l, ∀ q ∈ m, q.1 ≠ p.1) → (l.map (·.1)).Nodup →
    ∀ q, q ∈ l.foldl (fun m p => minsertSorted p.1 p.2 m) m ↔ q ∈ m ∨ q ∈ l := by
  induction l with
  | nil => intro m _ _ _ q; simp
  | cons p l ih =>
    intro m hs hd hn q
    rw [List.map_cons, List.nodup_cons] at hn
    have hm := mem_minsertSorted p.1 p.2 m (fun r hr => hd p (List.mem_cons_self ..) r hr)
    rw [List.foldl_cons, ih _ (minsertSorted_sorted _ _ _ hs) ?_ hn.2, hm, List.mem_cons]
    · constructor
      · rintro ((a | a) | a)
        · exact .inr (.inl a)
        · exact .inl a
        · exact .inr (.inr a)
      · rintro (a | a | a)
        · exact .inl (.inr a)
        · exact .inl (.inl a)
        · exact .inr a
    · intro r hr s hs'
      rcases (hm s).mp hs' with rfl | hs'
      · intro e
        exact hn.1 (List.mem_map.mpr ⟨r, hr, e.symm⟩)
      · exact hd r (List.mem_cons_of_mem _ hr) s hs'

/-- **C91.** A hash of types or their names, each named once, and sizes from 0 to 2147483647 is passed on as it is: the map given to
`Registry::resize` has exactly these entries, sorted by name. -/
theorem C91_request (H : Heap) (arg : List (Key × Size)) (l : List (Str × Nat)) (h : Asked H arg l) (hn : (l.map (·.1)).Nodup) :
    ∃ req, request H arg = .ok req ∧ (∀ p, p ∈ req ↔ p ∈ l) ∧ req.Pairwise (fun a b => strLt a.1 b.1 = true) := by
  obtain ⟨ps, e1, e2⟩ := asked_pairs h
  refine ⟨l.foldl (fun m p => minsertSorted p.1 p.2 m) [], ?_, ?_, foldl_sorted l [] List.Pairwise.nil⟩
  · unfold request
    rw [e1, Res.bind_ok, e2]
  · intro p
    rw [foldl_mem l [] List.Pairwise.nil (fun _ _ _ h => nomatch h) hn]
    simp

/-! ### The effect -/

theorem rbResize_ok {fuel : Nat} {H : Heap} {R : Reg} {arg : List (Key × Size)} {req : List (Str × Nat)} (h : request H arg = .ok req) :
    (rbResize fuel H R arg).2 = match (resize fuel H R req).2 with
      | .exn _ => .exn .runtime
      | r => r := by
  unfold rbResize
  rw [h]
  simp only
  rcases resize fuel H R req with ⟨H', r⟩
  cases r <;> rfl

theorem explicit_congr {R : Reg} {l l' : List (Str × Nat)} (h : ∀ p, p ∈ l ↔ p ∈ l') (t : TId) : Explicit R l t ↔ Explicit R l' t := by
  unfold Explicit
  constructor
  · rintro ⟨p, hp, e⟩; exact ⟨p, (h p).mp hp, e⟩
  · rintro ⟨p, hp, e⟩; exact ⟨p, (h p).mpr hp, e⟩

/-- **C91 (partial).** If a hash asks for sizes from 0 to 2147483647, each type named once, `Registry#resize` succeeds and gives every type
of the registry the size that is asked for or that follows from it (`Sizing`: compounds grow with their fields, arrays with their elements),
shifts the fields of compounds by the growth of the fields before them, and changes nothing else. Missing, as in C32: compounds whose own size
is asked for, recursive types, growths that cancel; and the cases of the counterexamples below. -/
theorem C91_resize_partial {key : Char → Int} {H : Heap} {R : Reg} {g rk : TId → Nat} {arg : List (Key × Size)} {l : List (Str × Nat)}
    (h : Asked H arg l) (hn : (l.map (·.1)).Nodup)
    (hkey : ∀ a b, key a = key b → a = b) (hac : Acyclic H) (hr : Reachable key H R) (hsane : Sane H R) (hg : Sizing H R l g)
    (hnc : NoCancel H R l g) (hrk : Ranked H R l rk) {fuel : Nat} (hfuel : ∀ t, R.regd H t → rk t < fuel) :
    ∃ H', rbResize fuel H R arg = (H', .ok ()) ∧
      (∀ t, ¬ R.regd H t → H'.get t = H.get t) ∧
      (∀ t, R.regd H t → H'.name t = H.name t ∧ H'.size t = g t) ∧
      (∀ t, R.regd H t → Explicit R l t → H'.kind t = H.kind t) ∧
      (∀ t, R.regd H t → H.cat t ≠ .compound → H'.kind t = H.kind t) ∧
      (∀ t fs, R.regd H t → ¬ Explicit R l t → H.kind t = .comp fs →
        ∃ fs', H'.kind t = .comp fs' ∧ fs'.length = fs.length ∧
          ∀ (i : Nat) (f : FieldD), fs[i]? = some f → ∃ f', fs'[i]? = some f' ∧ f'.name = f.name ∧ f'.ty = f.ty ∧
            f'.offset < W ∧
            (f'.offset + sumOf H.size (fs.take i)) % W = (f.offset + sumOf g (fs.take i)) % W) := by
  obtain ⟨req, e1, e2, _⟩ := C91_request H arg l h hn
  have ex := fun t => explicit_congr (R := R) e2 t
  have hg' : Sizing H R req g :=
    { known := fun p hp => hg.known p ((e2 p).mp hp)
      explicit := fun p hp => hg.explicit p ((e2 p).mp hp)
      comp := fun t fs ht he => hg.comp t fs ht (fun n => he ((ex t).mpr n))
      arr := fun t d e ht he => hg.arr t d e ht (fun n => he ((ex t).mpr n))
      other := fun t ht he => hg.other t ht (fun n => he ((ex t).mpr n))
      range := hg.range }
  obtain ⟨H', h1, h2, h3, h4, h5, h6⟩ := C32_resize_partial hkey hac hr hsane hg'
    (fun t fs ht he => hnc t fs ht (fun n => he ((ex t).mpr n))) (fun t d ht he => hrk t d ht (fun n => he ((ex t).mpr n))) hfuel
  refine ⟨H', ?_, h2, h3, fun t ht he => h4 t ht ((ex t).mpr he), h5, fun t fs ht he => h6 t fs ht (fun n => he ((ex t).mp n))⟩
  unfold rbResize
  rw [e1]
  simp only [h1]

/-- **C91 (partial).** `resize_type` gives the type, named by its class or its name, the size asked for, under the same conditions. -/
theorem C91_resize_type_partial {key : Char → Int} {H : Heap} {R : Reg} {g rk : TId → Nat} {k : Key} {n : Str} {z : Size} {v : Nat} {t : TId}
    (hk : Names H k n) (hz : Is z v) (ht : R.get n = some t) (hreg : R.regd H t)
    (hkey : ∀ a b, key a = key b → a = b) (hac : Acyclic H) (hr : Reachable key H R) (hsane : Sane H R) (hg : Sizing H R [(n, v)] g)
    (hnc : NoCancel H R [(n, v)] g) (hrk : Ranked H R [(n, v)] rk) {fuel : Nat} (hfuel : ∀ t, R.regd H t → rk t < fuel) :
    ∃ H', rbResizeType fuel H R k z = (H', .ok ()) ∧ H'.size t = v ∧ ∀ u, R.regd H u → H'.size u = g u := by
  obtain ⟨H', h1, _, h3, _⟩ := C91_resize_partial (.cons hk hz .nil) (by simp) hkey hac hr hsane hg hnc hrk hfuel
  refine ⟨H', h1, ?_, fun u hu => (h3 u hu).2⟩
  rw [(h3 t hreg).2, hg.explicit (n, v) (List.mem_singleton.mpr rfl) t ht]

/-- **C91.** Whatever exception `Registry::resize` throws, Ruby code gets a RuntimeError, and none where it throws none; the types are as the
C++ function leaves them. -/
theorem C91_exception (fuel : Nat) (H : Heap) (R : Reg) (arg : List (Key × Size)) (req : List (Str × Nat)) (h : request H arg = .ok req) :
    (rbResize fuel H R arg).1 = (resize fuel H R req).1 ∧
    ((∃ e, (resize fuel H R req).2 = .exn e) → (rbResize fuel H R arg).2 = .exn .runtime) ∧
    ((∀ e, (resize fuel H R req).2 ≠ .exn e) → (rbResize fuel H R arg).2 = (resize fuel H R req).2) := by
  refine ⟨?_, ?_, ?_⟩
  · unfold rbResize
    rw [h]
    simp only
    rcases resize fuel H R req with ⟨H', r⟩
    cases r <;> rfl
  · rintro ⟨e, he⟩
    rw [rbResize_ok h, he]
  · intro he
    rw [rbResize_ok h]
    cases hx : (resize fuel H R req).2 <;> first | rfl | exact absurd hx (he _)

/-! ### Exceptions -/

/-- the key or the size cannot be converted -/
inductive Bad : Key × Size → Prop
  | key {z} : Bad (.other, z)
  | size {k} : Bad (k, .other)
  | large {k z} : z < -2147483648 ∨ 2147483648 ≤ z → Bad (k, .int z)
  | largeFloat {k z} : z < -2147483648 ∨ 2147483648 ≤ z → Bad (k, .float z)

theorem sizeOf_bad {k : Key} {z : Size} (hk : k ≠ .other) : (Bad (k, z) ↔ ∃ e, sizeOf z = .exn e) ∧ (¬ Bad (k, z) ↔ ∃ v, sizeOf z = .ok v) := by
  have main : (Bad (k, z) ∧ ∃ e, sizeOf z = .exn e) ∨ (¬ Bad (k, z) ∧ ∃ v, sizeOf z = .ok v) := by
    cases z with
    | other => exact .inl ⟨.size, _, rfl⟩
    | int z =>
      unfold sizeOf num2int
      by_cases h : -2147483648 ≤ z ∧ z < 2147483648
      · refine .inr ⟨?_, z, if_pos h⟩
        intro hb
        cases hb with
        | key => exact hk rfl
        | large h' => omega
      · exact .inl ⟨.large (by omega), _, if_neg h⟩
    | float z =>
      unfold sizeOf num2int
      by_cases h : -2147483648 ≤ z ∧ z < 2147483648
      · refine .inr ⟨?_, z, if_pos h⟩
        intro hb
        cases hb with
        | key => exact hk rfl
        | largeFloat h' => omega
      · exact .inl ⟨.largeFloat (by omega), _, if_neg h⟩
  rcases main with ⟨a, e, he⟩ | ⟨a, v, hv⟩
  · exact ⟨⟨fun _ => ⟨e, he⟩, fun _ => a⟩, ⟨fun n => absurd a n, fun ⟨v, hv⟩ => by rw [he] at hv; cases hv⟩⟩
  · exact ⟨⟨fun n => absurd n a, fun ⟨e, he⟩ => by rw [hv] at he; cases he⟩, ⟨fun _ => ⟨v, hv⟩, fun _ => a⟩⟩

theorem collect_bad (l : List (Str × Size)) : ∀ m, (∃ e, collect l m = .exn e ∧ ∃ p ∈ l, ∃ e, sizeOf p.2 = .exn e) ∨
    ((∃ req, collect l m = .ok req) ∧ ∀ p ∈ l, ∃ v, sizeOf p.2 = .ok v) := by
  induction l with
  | nil => intro m; exact .inr ⟨⟨m, rfl⟩, nofun⟩
  | cons p l ih =>
    intro m
    obtain ⟨n, z⟩ := p
    unfold collect
    cases hz : sizeOf z with
    | ok v =>
      rw [Res.bind_ok]
      rcases ih (minsertSorted (cut n) (toSizeT v) m) with ⟨e, h1, p, hp, h2⟩ | ⟨h1, h2⟩
      · exact .inl ⟨e, h1, p, List.mem_cons_of_mem _ hp, h2⟩
      · refine .inr ⟨h1, fun p hp => ?_⟩
        rcases List.mem_cons.mp hp with rfl | hp
        · exact ⟨v, hz⟩
        · exact h2 p hp
    | exn e => exact .inl ⟨e, rfl, (n, z), List.mem_cons_self .., e, hz⟩
    | ub => exfalso; cases z <;> simp only [sizeOf, num2int] at hz <;> (try split at hz) <;> cases hz
    | fuel => exfalso; cases z <;> simp only [sizeOf, num2int] at hz <;> (try split at hz) <;> cases hz

theorem pairs_bad (H : Heap) (arg : List (Key × Size)) : (pairs H arg = .exn .exception ∧ ∃ p ∈ arg, p.1 = .other) ∨
    (∃ l, pairs H arg = .ok l ∧ l.map (·.2) = arg.map (·.2) ∧ ∀ p ∈ arg, p.1 ≠ .other) := by
  induction arg with
  | nil => exact .inr ⟨[], rfl, rfl, nofun⟩
  | cons p arg ih =>
    obtain ⟨k, z⟩ := p
    unfold pairs
    have step : ∀ n, nameOf H k = .ok n → k ≠ .other → ((nameOf H k >>= fun n => pairs H arg >>= fun l => .ok ((n, z) :: l)) = .exn .exception ∧
        ∃ p ∈ (k, z) :: arg, p.1 = .other) ∨ (∃ l, (nameOf H k >>= fun n => pairs H arg >>= fun l => .ok ((n, z) :: l)) = .ok l ∧
        l.map (·.2) = ((k, z) :: arg).map (·.2) ∧ ∀ p ∈ (k, z) :: arg, p.1 ≠ .other) := by
      intro n hn hk
      rw [hn, Res.bind_ok]
      rcases ih with ⟨e, p, hp, h⟩ | ⟨l, e, h1, h2⟩
      · rw [e]
        exact .inl ⟨rfl, p, List.mem_cons_of_mem _ hp, h⟩
      · rw [e, Res.bind_ok]
        refine .inr ⟨_, rfl, by simp [h1], fun p hp => ?_⟩
        rcases List.mem_cons.mp hp with rfl | hp
        · exact hk
        · exact h2 p hp
    cases k with
    | typ t => exact step _ rfl nofun
    | str s => exact step _ rfl nofun
    | other => exact .inl ⟨rfl, _, List.mem_cons_self .., rfl⟩

/-- **C91.** If a key is neither a type nor a string, or a size is not a number or does not fit an `int`, an exception is raised and the
registry is unchanged, wherever that entry is in the hash. Otherwise `Registry::resize` is called. -/
theorem C91_bad (fuel : Nat) (H : Heap) (R : Reg) (arg : List (Key × Size)) :
    ((∃ p ∈ arg, Bad p) → ∃ e, rbResize fuel H R arg = (H, .exn e)) ∧
    ((∀ p ∈ arg, ¬ Bad p) → ∃ req, request H arg = .ok req) := by
  have main : ((∃ p ∈ arg, Bad p) ∧ ∃ e, request H arg = .exn e) ∨ ((∀ p ∈ arg, ¬ Bad p) ∧ ∃ req, request H arg = .ok req) := by
    unfold request
    rcases pairs_bad H arg with ⟨e, p, hp, h⟩ | ⟨l, e, h1, h2⟩
    · rw [e]
      obtain ⟨k, z⟩ := p
      refine .inl ⟨⟨(k, z), hp, ?_⟩, _, rfl⟩
      cases (h : k = .other)
      exact .key
    · rw [e, Res.bind_ok]
      rcases collect_bad l [] with ⟨e, g1, p, hp, g2⟩ | ⟨g1, g2⟩
      · have : p.2 ∈ arg.map (·.2) := h1 ▸ List.mem_map.mpr ⟨p, hp, rfl⟩
        obtain ⟨q, hq, eq⟩ := List.mem_map.mp this
        refine .inl ⟨⟨q, hq, ?_⟩, e, g1⟩
        obtain ⟨k, z⟩ := q
        exact ((sizeOf_bad (h2 _ hq)).1).mpr (by rw [show z = p.2 from eq]; exact g2)
      · refine .inr ⟨fun q hq => ?_, g1⟩
        have : q.2 ∈ l.map (·.2) := h1.symm ▸ List.mem_map.mpr ⟨q, hq, rfl⟩
        obtain ⟨p, hp, eq⟩ := List.mem_map.mp this
        obtain ⟨k, z⟩ := q
        exact ((sizeOf_bad (h2 _ hq)).2).mpr (by have := g2 p hp; rw [eq] at this; exact this)
  rcases main with ⟨hb, e, he⟩ | ⟨hb, h⟩
  · refine ⟨fun _ => ⟨e, by unfold rbResize; rw [he]⟩, fun n => ?_⟩
    obtain ⟨p, hp, h⟩ := hb
    exact absurd h (n p hp)
  · exact ⟨fun ⟨p, hp, n⟩ => absurd n (hb p hp), fun _ => h⟩

/-! ### Counterexamples -/

/-- **C91.** A negative size is not refused: for every type of the registry, `resize_type(type, -k)` asks for 2⁶⁴ - k bytes. -/
theorem C91_negative_counterexample (H : Heap) (t : TId) (k : Nat) (h0 : '\x00' ∉ H.name t) (h : 0 < k) (h' : k ≤ 2147483648) :
    request H [(.typ t, .int (-(k : Int)))] = .ok [(H.name t, 18446744073709551616 - k)] := by
  unfold request pairs pairs nameOf
  simp only [Res.bind_ok]
  have hs : sizeOf (.int (-(k : Int))) = .ok (-(k : Int)) := if_pos ⟨by omega, by omega⟩
  unfold collect collect
  rw [hs, Res.bind_ok, cut_eq h0]
  unfold minsertSorted toSizeT
  have : ((-(k : Int)) % 18446744073709551616).toNat = 18446744073709551616 - k := by omega
  rw [this]

/-- **C91.** A type given twice, by its class and by its name, gets the first of the two sizes; the second is ignored without an error. -/
theorem C91_twice_counterexample (H : Heap) (t : TId) (a b : Nat) (h0 : '\x00' ∉ H.name t) (ha : a < 2147483648) (hb : b < 2147483648) :
    request H [(.typ t, .int a), (.str (H.name t), .int b)] = .ok [(H.name t, a)] := by
  have has : Asked H [(.typ t, .int a), (.str (H.name t), .int b)] [(H.name t, a), (H.name t, b)] :=
    .cons (.typ t h0) (is_nat (by assumption)) (.cons (.str _ h0) (is_nat (by assumption)) .nil)
  obtain ⟨ps, e1, e2⟩ := asked_pairs has
  unfold request
  rw [e1, Res.bind_ok, e2]
  simp [minsertSorted]

/-- **C91.** The name of a type that the registry does not have is undefined behaviour (a null pointer is dereferenced), where an exception
would be expected. -/
theorem C91_unknown_counterexample (H : Heap) (R : Reg) (fuel v : Nat) (n : Str) (h0 : '\x00' ∉ n) (hv : v < 2147483648)
    (h : R.get n = none) : (rbResizeType fuel H R (.str n) (.int v)).2 = .ub := by
  have has : Asked H [(.str n, .int v)] [(n, v)] := .cons (.str _ h0) (is_nat (by assumption)) .nil
  obtain ⟨ps, e1, e2⟩ := asked_pairs has
  have er : request H [(.str n, .int v)] = .ok [(n, v)] := by
    unfold request
    rw [e1, Res.bind_ok, e2]
    simp [minsertSorted]
  rw [rbResizeType, rbResize_ok er]
  have := C32_unknown_name_ub R H fuel n v [] h
  rw [this]

/-! ### Examples -/

/-- the registry of C32: `/A` (with an alias) of 4 bytes is resized to 8, by its alias -/
def exArg : List (Key × Size) := [(.str "/Alias".toList, .int 8)]

theorem exAsked : Asked rzHeap exArg rzReq := .cons (.str _ (by decide)) (.int (by decide) (by decide)) .nil

/-- the hypotheses of `C91_resize_partial` hold of it: the compound grows to 48 bytes -/
example : ∃ H', rbResize 3 rzHeap rzReg exArg = (H', .ok ()) ∧ H'.size 4 = 48 := by
  have hfuel : ∀ t, rzReg.regd rzHeap t → rzRank t < 3 := by
    intro t ht
    have hlt := rz_lt ht
    match t, hlt with
    | 0, _ | 1, _ | 2, _ | 3, _ | 4, _ => decide
  have hgrow : ∀ p ∈ rzReq, ∀ t, rzReg.get p.1 = some t → rzHeap.size t ≤ p.2 := by
    intro p hp t ht
    have := (rz_explicit t).mp ⟨p, hp, ht⟩
    subst this
    simp only [rzReq, List.mem_singleton] at hp
    subst hp
    decide
  obtain ⟨H', h1, _, h3, _⟩ := C91_resize_partial exAsked (by decide) ascii_inj rzAcyclic rzReachable rzSane rzSizing
    (noCancel_of_growth rzSane rzSizing rzRanked hgrow) rzRanked hfuel
  exact ⟨H', h1, (h3 4 (by show rzReg.reg _ = _; decide +kernel)).2⟩

/-- several types, sorted by name; a size that is too large after a good one -/
example : request rzHeap [(.typ 3, .int 16), (.str "/A".toList, .float 8)] = .ok [("/A".toList, 8), ("/B".toList, 16)] ∧
    rbResize 3 rzHeap rzReg [(.typ 3, .int 16), (.str "/A".toList, .int 2147483648)] = (rzHeap, .exn .rbRange) :=
  ⟨by decide +kernel, rfl⟩

/-- `C91_resize_type_partial` applies to it (the hypotheses on the registry are those of the example above) -/
example : Names rzHeap (.str "/Alias".toList) "/Alias".toList ∧ Is (.int 8) ((8 : Nat) : Int) ∧ rzReg.get "/Alias".toList = some 0 ∧
    rzReq = [("/Alias".toList, 8)] :=
  ⟨.str _ (by decide), .int (by decide) (by decide), by decide +kernel, rfl⟩

/-- a compound whose field has no registered type: `Registry::resize` throws Undefined, Ruby gets RuntimeError -/
example : (resize 3 cxHeap (run ascii cxHeap Reg.empty [.addAuto 2 []]) []).2 = .exn .undefined ∧
    (rbResize 3 cxHeap (run ascii cxHeap Reg.empty [.addAuto 2 []]) []).2 = .exn .runtime := by decide +kernel

/-- the counterexamples apply to the types of this registry -/
example : '\x00' ∉ rzHeap.name 0 ∧ rzReg.get "/Unknown".toList = none := by decide +kernel

end Verif.RubyResize
