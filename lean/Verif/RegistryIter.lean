import Verif.RegistryProps
import Verif.RegistryExamples

/-!
C58: enumeration of a registry: `Registry::begin`, `end`, `begin(prefix)`, `end(prefix)` (registry.cc:533-552), `RegistryIterator`
(registryiterator.hh:13-61), and the loops of the Ruby bindings over them (bindings/ruby/ext/registry.cc:385-442,
`Registry#each` of lib/typelib/registry.rb:81-95).

An iterator is a position in the table, which is ordered by `nameSort`; the past-the-end position is the length. Reading or
incrementing past the end is undefined. The block is not modelled: it must not erase entries.
-/

namespace Verif.RegistryIter
open Verif Verif.Names Verif.Graph Verif.Registry

/-- `std::map::lower_bound` (used by registry.cc:537): the first position whose key is not before `k` -/
def lowerBound (key : Char → Int) (l : List (Str × Entry)) (k : Str) : Nat :=
  l.findIdx (fun p => !nameSort key p.1 k)

/-- `it.getName().compare(0, prefix.length(), prefix) == 0` -/
def hasPrefix (pre : Str) (p : Str × Entry) : Bool := p.1.take pre.length == pre

/-- `Registry::begin(prefix)` (registry.cc:535-542) -/
def beginAt (key : Char → Int) (l : List (Str × Entry)) (pre : Str) : Nat :=
  let it := lowerBound key l pre
  match l[it]? with
  | some p => if hasPrefix pre p then it else l.length
  | none => l.length

/-- the loop of `Registry::end(prefix)` (registry.cc:547-548) from a position -/
def endLoop (pre : Str) (l : List (Str × Entry)) (it : Nat) : Nat :=
  match h : l[it]? with
  | some p => if hasPrefix pre p then endLoop pre l (it + 1) else it
  | none => it
termination_by l.length - it
decreasing_by
  have := (List.getElem?_eq_some_iff.mp h).1
  omega

/-- `Registry::end(prefix)` (registry.cc:543-552) -/
def endAt (key : Char → Int) (l : List (Str × Entry)) (pre : Str) : Nat := endLoop pre l (beginAt key l pre)

/-- `for (; it != end; ++it)`: the entries it goes through -/
def walk (l : List (Str × Entry)) (it fin : Nat) : Res (List (Str × Entry)) :=
  if it = fin then .ok []
  else match h : l[it]? with
    | some p => match walk l (it + 1) fin with
      | .ok r => .ok (p :: r)
      | e => e
    | none => .ub
termination_by l.length - it
decreasing_by
  have := (List.getElem?_eq_some_iff.mp h).1
  omega

/-- `yield_types` with `with_aliases` (registry.cc of the bindings, 387-395): names and types -/
def yieldAll (l : List (Str × Entry)) (it fin : Nat) : Res (List (Str × TId)) :=
  match walk l it fin with
  | .ok r => .ok (r.map fun p => (p.1, p.2.ty))
  | .exn e => .exn e
  | .ub => .ub
  | .fuel => .fuel

/-- `yield_types` without `with_aliases` (396-403): the types, without the aliases -/
def yieldTypes (H : Heap) (l : List (Str × Entry)) (it fin : Nat) : Res (List TId) :=
  match walk l it fin with
  | .ok r => .ok ((r.filter fun p => !isAlias H p).map fun p => p.2.ty)
  | .exn e => .exn e
  | .ub => .ub
  | .fuel => .fuel

/-- `registry_each_type(filter, true)` (420-442): an empty filter (or `nil`) means everything -/
def eachName (key : Char → Int) (R : Reg) (filter : Str) : Res (List (Str × TId)) :=
  if filter = [] then yieldAll R.global 0 R.global.length
  else yieldAll R.global (beginAt key R.global filter) (endAt key R.global filter)

/-- `registry_each_type(filter, false)` -/
def eachType (key : Char → Int) (H : Heap) (R : Reg) (filter : Str) : Res (List TId) :=
  if filter = [] then yieldTypes H R.global 0 R.global.length
  else yieldTypes H R.global (beginAt key R.global filter) (endAt key R.global filter)

/-- `Registry::size` (registry.cc:466) -/
def size (R : Reg) : Nat := R.global.length

/-! ### Proofs -/

theorem hasPrefix_eq (pre : Str) (p : Str × Entry) : hasPrefix pre p = pre.isPrefixOf p.1 := by
  unfold hasPrefix
  rw [Bool.eq_iff_iff, List.isPrefixOf_iff_prefix, List.prefix_iff_eq_take, beq_iff_eq]
  exact ⟨fun h => h.symm, fun h => h.symm⟩

theorem walk_drop (l : List (Str × Entry)) : ∀ (it n : Nat), it + n ≤ l.length → walk l it (it + n) = .ok ((l.drop it).take n) := by
  intro it n
  induction n generalizing it with
  | zero => intro _; unfold walk; simp
  | succ n ih =>
    intro h
    unfold walk
    rw [if_neg (by omega)]
    have hlt : it < l.length := by omega
    have e : it + (n + 1) = (it + 1) + n := by omega
    have hi := ih (it + 1) (by omega)
    rw [← e] at hi
    split
    · rename_i p hp
      rw [hi]
      have : l[it] = p := by
        rw [List.getElem?_eq_getElem hlt] at hp
        exact Option.some.inj hp
      rw [List.drop_eq_getElem_cons hlt, this]
      rfl
    · rename_i hp
      rw [List.getElem?_eq_getElem hlt] at hp
      cases hp

theorem endLoop_eq (pre : Str) (l : List (Str × Entry)) : ∀ it, it ≤ l.length →
    endLoop pre l it = it + ((l.drop it).takeWhile (hasPrefix pre)).length := by
  intro it
  induction hn : l.length - it generalizing it with
  | zero =>
    intro h
    have : it = l.length := by omega
    subst this
    unfold endLoop
    split
    · rename_i p hp; simp at hp
    · simp
  | succ n ih =>
    intro h
    unfold endLoop
    have hlt : it < l.length := by omega
    rw [List.drop_eq_getElem_cons hlt]
    split
    · rename_i p hp
      have hpe : l[it] = p := by
        rw [List.getElem?_eq_getElem hlt] at hp
        exact Option.some.inj hp
      rw [hpe]
      split
      · rename_i hpp
        rw [ih (it + 1) (by omega) (by omega), List.takeWhile_cons_of_pos hpp]
        simp; omega
      · rename_i hpp
        rw [List.takeWhile_cons_of_neg hpp]; simp
    · rename_i hp
      rw [List.getElem?_eq_getElem hlt] at hp
      cases hp

theorem drop_lowerBound (key : Char → Int) (l : List (Str × Entry)) (k : Str) :
    l.drop (lowerBound key l k) = l.dropWhile (fun p => nameSort key p.1 k) ∧ lowerBound key l k ≤ l.length := by
  unfold lowerBound
  refine ⟨?_, List.findIdx_le_length⟩
  induction l with
  | nil => rfl
  | cons p l ih =>
    rw [List.findIdx_cons]
    cases h : nameSort key p.1 k with
    | true =>
      rw [List.dropWhile_cons_of_pos (by exact h)]
      simpa using ih
    | false =>
      rw [List.dropWhile_cons_of_neg (by rw [h]; decide)]
      simp

theorem beginAt_eq (key : Char → Int) (l : List (Str × Entry)) (pre : Str) :
    beginAt key l pre ≤ l.length ∧
    (l.drop (beginAt key l pre)).takeWhile (hasPrefix pre) = (l.dropWhile (fun p => nameSort key p.1 pre)).takeWhile (hasPrefix pre) := by
  obtain ⟨h1, h2⟩ := drop_lowerBound key l pre
  unfold beginAt
  rw [← h1]
  dsimp only
  generalize lowerBound key l pre = it at h2
  cases hp : l[it]? with
  | none =>
    dsimp only
    have : it = l.length := by
      have := List.getElem?_eq_none_iff.mp hp
      omega
    subst this
    exact ⟨Nat.le_refl _, rfl⟩
  | some p =>
    dsimp only
    split
    · exact ⟨h2, rfl⟩
    · rename_i hpp
      refine ⟨Nat.le_refl _, ?_⟩
      obtain ⟨hlt, hpe⟩ := List.getElem?_eq_some_iff.mp hp
      rw [List.drop_eq_getElem_cons hlt, hpe, List.takeWhile_cons_of_neg hpp]
      simp

/-- the entries between `begin(prefix)` and `end(prefix)` -/
theorem walk_prefix (key : Char → Int) (hk : ∀ a b, key a = key b → a = b) {l : List (Str × Entry)} (hs : Sorted key l) (pre : Str) :
    walk l (beginAt key l pre) (endAt key l pre) = .ok (l.filter (fun p => pre.isPrefixOf p.1)) := by
  obtain ⟨h1, h2⟩ := beginAt_eq key l pre
  have hsc := scan_eq_filter key hk pre (fun p : Str × Entry => p.1) l hs
  have hf : hasPrefix pre = fun p : Str × Entry => pre.isPrefixOf p.1 := funext (hasPrefix_eq pre)
  unfold endAt
  rw [endLoop_eq _ _ _ h1]
  have hle : ((l.drop (beginAt key l pre)).takeWhile (hasPrefix pre)).length ≤ (l.drop (beginAt key l pre)).length :=
    (List.takeWhile_sublist _).length_le
  rw [List.length_drop] at hle
  rw [walk_drop l _ _ (by omega)]
  rw [← hsc, ← hf, ← h2]
  congr 1
  have := List.prefix_iff_eq_take.mp (List.takeWhile_prefix (hasPrefix pre) (l := l.drop (beginAt key l pre)))
  exact this.symm

theorem walk_each (key : Char → Int) (hk : ∀ a b, key a = key b → a = b) {R : Reg} (hs : Sorted key R.global) (pre : Str) :
    eachName key R pre = .ok ((R.global.filter (fun p => pre.isPrefixOf p.1)).map fun p => (p.1, p.2.ty)) ∧
    ∀ H : Heap, eachType key H R pre =
      .ok (((R.global.filter (fun p => pre.isPrefixOf p.1)).filter fun p => !isAlias H p).map fun p => p.2.ty) := by
  unfold eachName eachType yieldAll yieldTypes
  by_cases hp : pre = []
  · subst hp
    have h := walk_drop R.global 0 R.global.length (by omega)
    rw [Nat.zero_add] at h
    have e : (R.global.filter fun p => List.isPrefixOf ([] : Str) p.1) = R.global :=
      List.filter_eq_self.mpr (fun p _ => by simp)
    rw [if_pos rfl, h, e]
    simp
  · rw [if_neg hp, walk_prefix key hk hs pre]
    simp [hp]

theorem sorted_nodup {key : Char → Int} {l : List (Str × Entry)} (h : Sorted key l) : (l.map (·.1)).Nodup := by
  unfold List.Nodup
  rw [List.pairwise_map]
  refine h.imp ?_
  intro a b hab e
  rw [e, nameSort_irrefl] at hab
  cases hab

/-- **C58, names**: `each(prefix, with_aliases: true)` ends, gives every name that starts with the prefix exactly once, in the
order of names, with the type it stands for, and nothing else. (`nil` and the empty string are the prefix of everything.) -/
theorem C58_names {key : Char → Int} (hk : ∀ a b, key a = key b → a = b) {H : Heap} {R : Reg} (hR : Reachable key H R)
    (pre : Str) : ∃ l, eachName key R pre = .ok l ∧
      (∀ n t, (n, t) ∈ l ↔ isAbsoluteName n = true ∧ R.get n = some t ∧ pre <+: n) ∧
      l.Pairwise (fun a b => nameSort key a.1 b.1 = true) ∧ (l.map (·.1)).Nodup := by
  have hi := (reachable_inv hk hR).2
  refine ⟨_, (walk_each key hk hi.sorted pre).1, fun n t => ?_, ?_, ?_⟩
  · simp only [List.mem_map, List.mem_filter, List.isPrefixOf_iff_prefix, Prod.mk.injEq]
    constructor
    · rintro ⟨p, ⟨h1, h2⟩, rfl, rfl⟩
      have hr := mem_reg hi.sorted h1
      have ha := (hi.names p h1).2
      exact ⟨ha, by rw [hi.abs _ ha]; exact hr, h2⟩
    · rintro ⟨ha, hg, hp⟩
      rw [hi.abs n ha] at hg
      obtain ⟨e, hm, he⟩ := reg_mem hg
      exact ⟨(n, e), ⟨hm, hp⟩, rfl, he⟩
  · rw [List.pairwise_map]
    exact List.Pairwise.imp (fun h => h) (hi.sorted.filter _)
  · rw [List.map_map]
    exact sorted_nodup (key := key) (List.Pairwise.filter (fun p : Str × Entry => pre.isPrefixOf p.1) hi.sorted)

/-- **C58, types**: `each(prefix)` gives every registered type whose own name starts with the prefix exactly once, in the order of
the names, and nothing else; a type that has only an alias with this prefix is not given. -/
theorem C58_types {key : Char → Int} (hk : ∀ a b, key a = key b → a = b) {H : Heap} {R : Reg} (hR : Reachable key H R)
    (pre : Str) : ∃ l, eachType key H R pre = .ok l ∧ (∀ t, t ∈ l ↔ Regd H R t ∧ pre <+: H.name t) ∧
      l.Pairwise (fun a b => nameSort key (H.name a) (H.name b) = true) ∧ l.Nodup := by
  have hi := (reachable_inv hk hR).2
  have hpw : ((((R.global.filter (fun p => pre.isPrefixOf p.1)).filter fun p => !isAlias H p).map fun p => p.2.ty)).Pairwise
      (fun a b => nameSort key (H.name a) (H.name b) = true) := by
    rw [List.pairwise_map]
    refine List.Pairwise.imp_of_mem ?_ ((hi.sorted.filter _).filter _)
    intro a b ha hb hab
    have h1 := (List.mem_filter.mp ha).2
    have h2 := (List.mem_filter.mp hb).2
    simp only [isAlias, Bool.not_eq_true', bne_eq_false_iff_eq] at h1 h2
    rw [← h1, ← h2]
    exact hab
  refine ⟨_, (walk_each key hk hi.sorted pre).2 H, fun t => ?_, hpw, ?_⟩
  · simp only [List.mem_map, List.mem_filter, List.isPrefixOf_iff_prefix, isAlias, Bool.not_eq_true', bne_eq_false_iff_eq]
    constructor
    · rintro ⟨p, ⟨⟨h1, h2⟩, h3⟩, rfl⟩
      rw [← h3]
      refine ⟨?_, h2⟩
      rw [hi.regd_iff]
      exact hi.prim p h1
    · rintro ⟨hr, hp⟩
      obtain ⟨e, hm, he⟩ := reg_mem ((hi.regd_iff t).mp hr)
      exact ⟨(H.name t, e), ⟨⟨hm, hp⟩, by rw [he]⟩, he⟩
  · refine hpw.imp ?_
    intro a b hab e
    rw [e, nameSort_irrefl] at hab
    cases hab

/-- **C58, size**: `size` is the number of names, aliases included. -/
theorem C58_size {key : Char → Int} (hk : ∀ a b, key a = key b → a = b) {H : Heap} {R : Reg} (hR : Reachable key H R) :
    ∃ l, eachName key R [] = .ok l ∧ size R = l.length := by
  have hi := (reachable_inv hk hR).2
  refine ⟨_, (walk_each key hk hi.sorted []).1, ?_⟩
  have e : (R.global.filter fun p => List.isPrefixOf ([] : Str) p.1) = R.global :=
    List.filter_eq_self.mpr (fun p _ => by simp)
  rw [e]
  simp [size]

/-! ### Examples: `/N/B` and `/N/B*` are aliases of `/A` and `/A*` -/

example : eachName ascii exReg "/N".toList =
    .ok [("/N/B".toList, 0), ("/N/B*".toList, 1), ("/N/B*[2]".toList, 2), ("/N/S".toList, 4)] ∧
    eachType ascii exHeap exReg "/N".toList = .ok [4] ∧ eachType ascii exHeap exReg "/A*".toList = .ok [1, 2] ∧
    eachType ascii exHeap exReg "/M".toList = .ok [] ∧ size exReg = 9 := by
  rw [(walk_each ascii ascii_inj (reachable_inv ascii_inj exReachable).2.sorted _).1,
    (walk_each ascii ascii_inj (reachable_inv ascii_inj exReachable).2.sorted _).2,
    (walk_each ascii ascii_inj (reachable_inv ascii_inj exReachable).2.sorted _).2,
    (walk_each ascii ascii_inj (reachable_inv ascii_inj exReachable).2.sorted _).2]
  decide +kernel

example := C58_names ascii_inj exReachable "/N".toList
example := C58_types ascii_inj exReachable "/A*".toList
example := C58_size ascii_inj exReachable

end Verif.RegistryIter
