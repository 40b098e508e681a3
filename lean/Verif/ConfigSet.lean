import Verif.StdMap

/-!
C43. Model of `typelib/utilmm/configset.{hh,cc}`: `utilmm::config_set`.
-/

namespace Verif.ConfigSet
open Verif Verif.Registry Verif.StdMap

/-- `std::multimap<std::string, α>` in iteration order. -/
abbrev MMap (α : Type) := List (Str × α)

/-- `multimap::insert`: after the elements with an equivalent key (C++11, [associative.reqmts]). -/
def minsert {α : Type} (k : Str) (v : α) : MMap α → MMap α
  | [] => [(k, v)]
  | (m, x) :: r => if strLt k m then (k, v) :: (m, x) :: r else (m, x) :: minsert k v r

/-- `multimap::lower_bound`; also what `find` returns in libstdc++ when the key is present (the standard allows
any element with that key). -/
def lowerBound {α : Type} (l : MMap α) (k : Str) : MMap α := l.dropWhile (fun p => strLt p.1 k)

/-- `multimap::find(k) != end()` -/
def mhas {α : Type} (l : MMap α) (k : Str) : Bool :=
  match lowerBound l k with
  | (m, _) :: _ => !strLt k m
  | [] => false

/-- `multimap::erase(k)`: removes the range of the key. -/
def merase {α : Type} (l : MMap α) (k : Str) : MMap α :=
  l.takeWhile (fun p => strLt p.1 k) ++ (lowerBound l k).dropWhile (fun p => !strLt k p.1)

/-- identity of a `config_set` object -/
abbrev Id := Nat

/-- a `config_set` object (configset.hh:38-42); `m_parent` is only returned -/
structure Node where
  values : MMap Str
  children : MMap Id

def Node.new : Node := ⟨[], []⟩

/-- `insert(name, value)` (configset.cc:64-65) -/
def insert (s : Node) (name value : Str) : Node := { s with values := minsert name value s.values }

/-- `insert(name, list)` (configset.cc:66-71) -/
def insertList (s : Node) (name : Str) : List Str → Node
  | [] => s
  | v :: l => insertList (insert s name v) name l

/-- `insert(name, child)` (configset.cc:72-73) -/
def insertChild (s : Node) (name : Str) (c : Id) : Node := { s with children := minsert name c s.children }

/-- `set(name, value)` (configset.cc:74-78) -/
def set (s : Node) (name value : Str) : Node := insert { s with values := merase s.values name } name value

/-- `set(name, list)` (configset.cc:79-83) -/
def setList (s : Node) (name : Str) (l : List Str) : Node :=
  insertList { s with values := merase s.values name } name l

/-- `erase(name)` (configset.cc:84-85) -/
def erase (s : Node) (name : Str) : Node := { s with values := merase s.values name }

/-- `empty()` (configset.cc:15-16) -/
def Node.empty (s : Node) : Bool := s.values.isEmpty && s.children.isEmpty

/-- `exists(name)` (configset.cc:57-62) -/
def Node.has (s : Node) (name : Str) : Bool := mhas s.values name || mhas s.children name

/-- `children(name)` (configset.cc:29-46): `equal_range` -/
def Node.kids (s : Node) (name : Str) : List Id :=
  ((lowerBound s.children name).takeWhile (fun p => !strLt name p.1)).map (·.2)

/-- `child(name)` (configset.cc:47-54); `none` is the static empty set -/
def Node.child (s : Node) (name : Str) : Option Id := (s.kids name).head?

/-- `get<stringlist>` (configset.cc:98-110) -/
def Node.getStrings (s : Node) (name : Str) (dflt : List Str) : List Str :=
  let it := if mhas s.values name then lowerBound s.values name else []
  let values := (it.takeWhile (fun p => p.1 == name)).map (·.2)
  if values.isEmpty then dflt else values

/-- the conversion loop of `get<std::list<T>>` (configset.hh:148-151); `none` is `bad_lexical_cast` -/
def convAll {T : Type} (conv : Str → Option T) : List Str → Option (List T)
  | [] => some []
  | v :: l => do
    let x ← conv v
    let r ← convAll conv l
    some (x :: r)

/-- `get<std::list<T>>` (configset.hh:139-153); `conv` is `config_set::convert<T>`. -/
def Node.getList {T : Type} (conv : Str → Option T) (s : Node) (name : Str) (dflt : List T) : Option (List T) :=
  let values := s.getStrings name []
  if values.isEmpty then some dflt else convAll conv values

/-- `get<T>` (configset.hh:155-162): the first of the list -/
def Node.getOne {T : Type} (conv : Str → Option T) (s : Node) (name : Str) (dflt : T) : Option T :=
  (s.getList conv name [dflt]).bind List.head?

/-- `convert<bool>` (configset.cc:89-96) -/
def convBool (v : Str) : Option Bool :=
  if v = ['t', 'r', 'u', 'e'] ∨ v = ['1'] then some true
  else if v = ['f', 'a', 'l', 's', 'e'] ∨ v = ['0'] then some false
  else none

/-- the live `config_set` objects -/
abbrev Mem := Id → Option Node

mutual
/-- `delete set`: `~config_set` calls `clear` (configset.cc:10-13, 17-26). Deleting an object that is not alive is
undefined. -/
def destroy : Nat → Mem → Id → Res Mem
  | 0, _, _ => .fuel
  | f + 1, h, i =>
    match h i with
    | none => .ub
    | some nd => do
      let h' ← destroyAll f h (nd.children.map (·.2))
      .ok (fun j => if j = i then none else h' j)
/-- the loop of `clear` over the children, in the order of the map -/
def destroyAll : Nat → Mem → List Id → Res Mem
  | 0, _, _ => .fuel
  | _ + 1, h, [] => .ok h
  | f + 1, h, c :: l => do
    let h' ← destroy f h c
    destroyAll f h' l
end

/-! ### Specification: what the calls so far say about a name -/

/-- modifying calls -/
inductive Op where
  | insert (name value : Str)
  | insertList (name : Str) (values : List Str)
  | insertChild (name : Str) (child : Id)
  | set (name value : Str)
  | setList (name : Str) (values : List Str)
  | erase (name : Str)

def step (s : Node) : Op → Node
  | .insert n v => insert s n v
  | .insertList n l => insertList s n l
  | .insertChild n c => insertChild s n c
  | .set n v => set s n v
  | .setList n l => setList s n l
  | .erase n => erase s n

def run (ops : List Op) : Node := ops.foldl step Node.new

/-- the values of `k` after one more call -/
def valuesAfter (k : Str) (l : List Str) : Op → List Str
  | .insert n v => if n = k then l ++ [v] else l
  | .insertList n vs => if n = k then l ++ vs else l
  | .insertChild _ _ => l
  | .set n v => if n = k then [v] else l
  | .setList n vs => if n = k then vs else l
  | .erase n => if n = k then [] else l

/-- the values stored under `k`, in the order of insertion since the last `set` or `erase` -/
def valuesOf (k : Str) (ops : List Op) : List Str := ops.foldl (valuesAfter k) []

/-- the child that a call adds under `k` -/
def childOp (k : Str) : Op → Option Id
  | .insertChild n c => if n = k then some c else none
  | _ => none

/-- the children stored under `k`, in the order of insertion -/
def childrenOf (k : Str) (ops : List Op) : List Id := ops.filterMap (childOp k)

/-! ### Lemmas -/

/-- keys in order, equal keys allowed -/
def MMSorted {α : Type} (l : MMap α) : Prop := l.Pairwise (fun a b => strLt b.1 a.1 = false)

/-- the values of a key -/
def vals {α : Type} (l : MMap α) (k : Str) : List α := (l.filter (fun p => p.1 == k)).map (·.2)

theorem mem_minsert {α : Type} {k : Str} {v : α} {l : MMap α} {p : Str × α} (h : p ∈ minsert k v l) :
    p = (k, v) ∨ p ∈ l := by
  induction l with
  | nil => simpa [minsert] using h
  | cons q r ih =>
    unfold minsert at h
    split at h
    · simpa using h
    · rcases List.mem_cons.mp h with h | h
      · simp [h]
      · rcases ih h with h | h
        · exact .inl h
        · exact .inr (List.mem_cons_of_mem _ h)

theorem sorted_minsert {α : Type} {k : Str} {v : α} {l : MMap α} (h : MMSorted l) : MMSorted (minsert k v l) := by
  induction l with
  | nil => simp [minsert, MMSorted]
  | cons q r ih =>
    unfold minsert
    have h1 := List.pairwise_cons.mp h
    by_cases hk : strLt k q.1 = true
    · rw [if_pos hk]
      refine List.pairwise_cons.mpr ⟨?_, h⟩
      intro b hb
      rcases List.mem_cons.mp hb with rfl | hb
      · exact strLt_asymm hk
      · cases hbk : strLt b.1 k with
        | false => rfl
        | true =>
          have := strLt_trans hbk hk
          rw [h1.1 b hb] at this
          simp at this
    · rw [if_neg hk]
      refine List.pairwise_cons.mpr ⟨?_, ih h1.2⟩
      intro b hb
      rcases mem_minsert hb with rfl | hb
      · simpa using hk
      · exact h1.1 b hb

theorem vals_minsert {α : Type} {k : Str} {v : α} {l : MMap α} (h : MMSorted l) (x : Str) :
    vals (minsert k v l) x = if k = x then vals l x ++ [v] else vals l x := by
  induction l with
  | nil => by_cases e : k = x <;> simp [minsert, vals, e]
  | cons q r ih =>
    have h1 := List.pairwise_cons.mp h
    unfold minsert
    by_cases hk : strLt k q.1 = true
    · rw [if_pos hk]
      by_cases e : k = x
      · subst e
        -- nothing in the list has key `k`
        have hne : ∀ p ∈ q :: r, ¬ (p.1 == k) = true := by
          intro p hp hpk
          have hpk : p.1 = k := by simpa using hpk
          rcases List.mem_cons.mp hp with rfl | hp
          · rw [hpk, strLt_irrefl] at hk; simp at hk
          · have := h1.1 p hp
            rw [hpk, hk] at this
            simp at this
        have : (q :: r).filter (fun p => p.1 == k) = [] := by
          rw [List.filter_eq_nil_iff]; exact hne
        simp only [vals, List.filter_cons (x := (k, v)), beq_self_eq_true, if_true] at this ⊢
        rw [this]
        simp
      · simp [vals, List.filter_cons (x := (k, v)), e]
    · rw [if_neg hk]
      have := ih h1.2
      by_cases e : k = x
      · simp only [vals, List.filter_cons, e, if_true] at this ⊢
        by_cases hq : q.1 == x
        · simp [hq, this]
        · simp [hq, this]
      · simp only [vals, List.filter_cons, e, if_false] at this ⊢
        by_cases hq : q.1 == x
        · simp [hq, this]
        · simp [hq, this]

theorem lowerBound_mem {α : Type} {l : MMap α} (h : MMSorted l) {k : Str} {p : Str × α}
    (hp : p ∈ lowerBound l k) : strLt p.1 k = false := by
  induction l with
  | nil => simp [lowerBound] at hp
  | cons q r ih =>
    have h1 := List.pairwise_cons.mp h
    simp only [lowerBound, List.dropWhile_cons] at hp ih
    by_cases hq : strLt q.1 k = true
    · rw [if_pos hq] at hp; exact ih h1.2 hp
    · rw [if_neg hq] at hp
      rcases List.mem_cons.mp hp with rfl | hp
      · simpa using hq
      · cases hpk : strLt p.1 k with
        | false => rfl
        | true =>
          have hqp := h1.1 p hp
          by_cases e : q.1 = p.1
          · rw [e] at hq; exact absurd hpk hq
          · have := strLt_trans (strLt_total (Ne.symm e) hqp) hpk
            exact absurd this hq

theorem sorted_lowerBound {α : Type} {l : MMap α} (h : MMSorted l) (k : Str) : MMSorted (lowerBound l k) :=
  List.Pairwise.sublist (List.dropWhile_sublist _) h

/-- the elements with a given key are a block that starts at the lower bound -/
theorem block {α : Type} {l : MMap α} (h : MMSorted l) (k : Str) :
    ((lowerBound l k).takeWhile (fun p => !strLt k p.1)) = l.filter (fun p => p.1 == k) := by
  induction l with
  | nil => rfl
  | cons q r ih =>
    have h1 := List.pairwise_cons.mp h
    rw [List.filter_cons]
    by_cases hq : strLt q.1 k = true
    · have hne : (q.1 == k) = false := by
        have : q.1 ≠ k := by intro e; rw [e, strLt_irrefl] at hq; simp at hq
        simp [this]
      simp only [lowerBound, List.dropWhile_cons, hq, if_true, hne, Bool.false_eq_true, if_false]
      exact ih h1.2
    · have hlb0 : lowerBound (q :: r) k = q :: r := by
        simp [lowerBound, List.dropWhile_cons, hq]
      rw [hlb0, List.takeWhile_cons]
      by_cases e : q.1 = k
      · have : strLt k q.1 = false := by rw [e, strLt_irrefl]
        rw [if_pos (by simp [this]), if_pos (by simp [e])]
        congr 1
        have hlb : lowerBound r k = r := by
          cases r with
          | nil => rfl
          | cons p r' =>
            have := h1.1 p (by simp)
            rw [e] at this
            simp [lowerBound, List.dropWhile_cons, this]
        have := ih h1.2
        rw [hlb] at this
        exact this
      · have hgt : strLt k q.1 = true := strLt_total e (by simpa using hq)
        have hne : (q.1 == k) = false := by simp [e]
        simp only [hgt, Bool.not_true, Bool.false_eq_true, if_false, hne]
        symm
        rw [List.filter_eq_nil_iff]
        intro p hp hpk
        have hpk : p.1 = k := by simpa using hpk
        have := h1.1 p hp
        rw [hpk, hgt] at this
        simp at this

theorem mhas_iff {α : Type} {l : MMap α} (h : MMSorted l) (k : Str) : mhas l k = !(vals l k).isEmpty := by
  unfold vals
  rw [← block h k]
  unfold mhas
  cases hl : lowerBound l k with
  | nil => rfl
  | cons p r =>
    simp only [List.takeWhile_cons]
    cases hs : strLt k p.1 <;> simp [hs]

theorem dropWhile_block {α : Type} {l : MMap α} (h : MMSorted l) (k : Str) (hl : ∀ p ∈ l, strLt p.1 k = false) :
    l.dropWhile (fun p => !strLt k p.1) = l.filter (fun p => p.1 != k) := by
  induction l with
  | nil => rfl
  | cons q r ih =>
    have h1 := List.pairwise_cons.mp h
    have hq := hl q (by simp)
    rw [List.dropWhile_cons, List.filter_cons]
    by_cases e : q.1 = k
    · have : strLt k q.1 = false := by rw [e, strLt_irrefl]
      have e2 : (q.1 != k) = false := by simp [e]
      simp only [this, Bool.not_false, if_true, e2, Bool.false_eq_true, if_false]
      exact ih h1.2 (fun p hp => hl p (List.mem_cons_of_mem _ hp))
    · have hgt : strLt k q.1 = true := strLt_total e hq
      have e2 : (q.1 != k) = true := by simp [e]
      simp only [hgt, Bool.not_true, Bool.false_eq_true, if_false, e2, if_true]
      congr 1
      symm
      rw [List.filter_eq_self]
      intro p hp
      have : p.1 ≠ k := by
        intro ep
        have := h1.1 p hp
        rw [ep, hgt] at this
        simp at this
      simp [this]

theorem merase_eq {α : Type} {l : MMap α} (h : MMSorted l) (k : Str) :
    merase l k = l.filter (fun p => p.1 != k) := by
  unfold merase
  rw [dropWhile_block (sorted_lowerBound h k) k (fun p hp => lowerBound_mem h hp)]
  have e : l.filter (fun p => p.1 != k)
      = (l.takeWhile (fun p => strLt p.1 k) ++ l.dropWhile (fun p => strLt p.1 k)).filter (fun p => p.1 != k) := by
    rw [List.takeWhile_append_dropWhile]
  rw [e, List.filter_append]
  congr 1
  symm
  rw [List.filter_eq_self]
  intro p hp
  have := List.all_eq_true.mp (List.all_takeWhile (p := fun p : Str × α => strLt p.1 k) (l := l)) p hp
  have : p.1 ≠ k := by
    intro e
    rw [e, strLt_irrefl] at this
    simp at this
  simp [this]

theorem sorted_merase {α : Type} {l : MMap α} (h : MMSorted l) (k : Str) : MMSorted (merase l k) := by
  rw [merase_eq h]; exact List.Pairwise.sublist List.filter_sublist h

theorem vals_merase {α : Type} {l : MMap α} (h : MMSorted l) (k x : Str) :
    vals (merase l k) x = if k = x then [] else vals l x := by
  rw [merase_eq h]
  unfold vals
  rw [List.filter_filter]
  by_cases e : k = x
  · subst e
    rw [if_pos rfl, List.filter_eq_nil_iff.mpr]
    · rfl
    · intro p _ hp
      simp at hp
  · rw [if_neg e]
    congr 1
    apply List.filter_congr
    intro p _
    by_cases hp : p.1 = x
    · have : p.1 ≠ k := by rw [hp]; exact Ne.symm e
      simp [hp, Ne.symm e]
    · simp [hp]

/-- the invariant of a `config_set` -/
structure Inv (s : Node) (v : Str → List Str) (c : Str → List Id) : Prop where
  sv : MMSorted s.values
  sc : MMSorted s.children
  values : ∀ k, vals s.values k = v k
  children : ∀ k, vals s.children k = c k

theorem inv_insert {s : Node} {v c} (h : Inv s v c) (n x : Str) :
    Inv (insert s n x) (fun k => if n = k then v k ++ [x] else v k) c := by
  refine ⟨sorted_minsert h.sv, h.sc, ?_, h.children⟩
  intro k
  rw [show (insert s n x).values = minsert n x s.values from rfl, vals_minsert h.sv, h.values]

theorem inv_insertList {s : Node} {v c} (n : Str) (l : List Str) (h : Inv s v c) :
    Inv (insertList s n l) (fun k => if n = k then v k ++ l else v k) c := by
  induction l generalizing s v with
  | nil => simpa [insertList] using h
  | cons x l ih =>
    have := ih (inv_insert h n x)
    simp only [insertList]
    have e : (fun k => if n = k then (if n = k then v k ++ [x] else v k) ++ l else if n = k then v k ++ [x] else v k)
        = fun k => if n = k then v k ++ x :: l else v k := by
      funext k; by_cases hk : n = k <;> simp [hk]
    rw [e] at this
    exact this

theorem inv_erase {s : Node} {v c} (h : Inv s v c) (n : Str) :
    Inv (erase s n) (fun k => if n = k then [] else v k) c := by
  refine ⟨sorted_merase h.sv n, h.sc, ?_, h.children⟩
  intro k
  rw [show (erase s n).values = merase s.values n from rfl, vals_merase h.sv, h.values]

theorem inv_run (ops : List Op) : Inv (run ops) (fun k => valuesOf k ops) (fun k => childrenOf k ops) := by
  unfold run valuesOf childrenOf
  have key : ∀ (ops : List Op) (s : Node) (v : Str → List Str) (c : Str → List Id), Inv s v c →
      Inv (ops.foldl step s) (fun k => ops.foldl (valuesAfter k) (v k)) (fun k => c k ++ ops.filterMap (childOp k)) := by
    intro ops
    induction ops with
    | nil => intro s v c h; simpa using h
    | cons o r ih =>
      intro s v c h
      simp only [List.foldl_cons]
      cases o with
      | insert n x => exact ih _ _ _ (inv_insert h n x)
      | insertList n l => exact ih _ _ _ (inv_insertList n l h)
      | insertChild n i =>
        have h' : Inv (insertChild s n i) v (fun k => if n = k then c k ++ [i] else c k) := by
          refine ⟨h.sv, sorted_minsert h.sc, h.values, ?_⟩
          intro k
          rw [show (insertChild s n i).children = minsert n i s.children from rfl, vals_minsert h.sc, h.children]
        have := ih _ _ _ h'
        have e : (fun k => (if n = k then c k ++ [i] else c k) ++ r.filterMap (childOp k))
            = (fun k => c k ++ (Op.insertChild n i :: r).filterMap (childOp k)) := by
          funext k; by_cases hk : n = k <;> simp [hk, childOp, List.filterMap_cons]
        rw [e] at this
        exact this
      | set n x =>
        have h' := inv_insert (inv_erase h n) n x
        have e : (fun k => if n = k then (if n = k then [] else v k) ++ [x] else if n = k then [] else v k)
            = fun k => valuesAfter k (v k) (.set n x) := by
          funext k; by_cases hk : n = k <;> simp [hk, valuesAfter]
        rw [e] at h'
        exact ih _ _ _ h'
      | setList n l =>
        have h' := inv_insertList n l (inv_erase h n)
        have e : (fun k => if n = k then (if n = k then [] else v k) ++ l else if n = k then [] else v k)
            = fun k => valuesAfter k (v k) (.setList n l) := by
          funext k; by_cases hk : n = k <;> simp [hk, valuesAfter]
        rw [e] at h'
        exact ih _ _ _ h'
      | erase n => exact ih _ _ _ (inv_erase h n)
  have := key ops Node.new (fun _ => []) (fun _ => []) ⟨List.Pairwise.nil, List.Pairwise.nil, fun _ => rfl, fun _ => rfl⟩
  simpa using this

/-! ### The properties -/

/-- **C43** Reading a name gives the values stored under it since the last `set` or `erase`, in order of
insertion, or the default when there is none. -/
theorem C43_get_strings (ops : List Op) (k : Str) (dflt : List Str) :
    (run ops).getStrings k dflt = if valuesOf k ops = [] then dflt else valuesOf k ops := by
  have hi := inv_run ops
  have hb := block hi.sv k
  have hv := hi.values k
  have hcong : ∀ l : MMap Str, (∀ p ∈ l, strLt p.1 k = false) →
      l.takeWhile (fun p => p.1 == k) = l.takeWhile (fun p => !strLt k p.1) := by
    intro l
    induction l with
    | nil => intro _; rfl
    | cons q r ih =>
      intro h
      have hq := h q (by simp)
      have hr := ih (fun p hp => h p (List.mem_cons_of_mem _ hp))
      rw [List.takeWhile_cons, List.takeWhile_cons, hr]
      by_cases e : q.1 = k
      · have : strLt k q.1 = false := by rw [e, strLt_irrefl]
        simp [e, strLt_irrefl]
      · have : strLt k q.1 = true := strLt_total e hq
        simp [this, e]
  unfold Node.getStrings
  simp only [mhas_iff hi.sv k, hv]
  by_cases he : valuesOf k ops = []
  · simp [he]
  · have hne : (valuesOf k ops).isEmpty = false := by simp [he]
    simp only [hne, Bool.not_false, if_true]
    rw [hcong _ (fun p hp => lowerBound_mem hi.sv hp), hb]
    unfold vals at hv
    rw [hv]
    simp [he]

/-- **C43** the children of a name are those inserted under it, in order of insertion; `child` is the first one. -/
theorem C43_children (ops : List Op) (k : Str) :
    (run ops).kids k = childrenOf k ops ∧ (run ops).child k = (childrenOf k ops).head? := by
  have hi := inv_run ops
  have : (run ops).kids k = childrenOf k ops := by
    unfold Node.kids
    rw [block hi.sc k]
    exact hi.children k
  exact ⟨this, by rw [Node.child, this]⟩

/-- **C43** a name exists iff it has a value or a child; the set is empty iff no name exists. -/
theorem C43_exists_empty (ops : List Op) :
    (∀ k, (run ops).has k = true ↔ valuesOf k ops ≠ [] ∨ childrenOf k ops ≠ []) ∧
    ((run ops).empty = true ↔ ∀ k, valuesOf k ops = [] ∧ childrenOf k ops = []) := by
  have hi := inv_run ops
  have hemp : ∀ {α : Type} (l : MMap α), l.isEmpty = true ↔ ∀ k, vals l k = [] := by
    intro α l
    cases l with
    | nil => simp [vals]
    | cons p r =>
      simp only [List.isEmpty_cons, Bool.false_eq_true, false_iff]
      intro h
      have := h p.1
      simp [vals] at this
  constructor
  · intro k
    unfold Node.has
    rw [mhas_iff hi.sv, mhas_iff hi.sc, hi.values, hi.children]
    simp
  · unfold Node.empty
    rw [Bool.and_eq_true, hemp, hemp]
    constructor
    · rintro ⟨h1, h2⟩ k
      exact ⟨(hi.values k).symm.trans (h1 k), (hi.children k).symm.trans (h2 k)⟩
    · intro h
      exact ⟨fun k => (hi.values k).trans (h k).1, fun k => (hi.children k).trans (h k).2⟩

theorem convAll_spec {T : Type} (conv : Str → Option T) (l : List Str) (r : List T) :
    convAll conv l = some r ↔ l.map conv = r.map some := by
  induction l generalizing r with
  | nil => cases r <;> simp [convAll]
  | cons v l ih =>
    cases r with
    | nil =>
      simp only [convAll, List.map_cons, List.map_nil]
      cases conv v <;> cases convAll conv l <;> simp
    | cons x r =>
      simp only [convAll, List.map_cons, List.cons.injEq, ← ih]
      cases conv v <;> cases convAll conv l <;> simp

/-- **C43** typed access: the list is converted element by element (the conversion of any of them may fail), the
scalar is the first one; defaults apply exactly when the name has no value. -/
theorem C43_get_typed {T : Type} (conv : Str → Option T) (ops : List Op) (k : Str) :
    (valuesOf k ops = [] → ∀ d, (run ops).getList conv k d = some d) ∧
    (valuesOf k ops ≠ [] → ∀ d r, (run ops).getList conv k d = some r ↔ (valuesOf k ops).map conv = r.map some) ∧
    (valuesOf k ops = [] → ∀ d, (run ops).getOne conv k d = some d) ∧
    (∀ d x (r : List T), (valuesOf k ops).map conv = some x :: r.map some → (run ops).getOne conv k d = some x) := by
  have hs := C43_get_strings ops k []
  refine ⟨?_, ?_, ?_, ?_⟩
  · intro h d
    unfold Node.getList
    rw [hs]
    simp [h]
  · intro h d r
    unfold Node.getList
    rw [hs]
    simp only [h, if_false, List.isEmpty_iff]
    exact convAll_spec conv _ _
  · intro h d
    unfold Node.getOne Node.getList
    rw [hs]
    simp [h]
  · intro d x r h
    have hne : valuesOf k ops ≠ [] := by intro e; rw [e] at h; simp at h
    unfold Node.getOne Node.getList
    rw [hs]
    simp only [hne, if_false, List.isEmpty_iff]
    rw [(convAll_spec conv _ (x :: r)).mpr (by simpa using h)]
    rfl

/-- Reading a single value converts all the values of the name: it fails when a later one cannot be converted. -/
theorem C43_get_one_converts_all :
    ∃ ops k, (valuesOf k ops).head? = some ['1'] ∧ convBool ['1'] = some true ∧
      (run ops).getOne convBool k false = none :=
  ⟨[.insert ['a'] ['1'], .insert ['a'] ['x']], ['a'], by decide +kernel, by decide +kernel, by decide +kernel⟩

/-! ### Destruction -/

mutual
/-- a tree of sets -/
inductive Tree where
  | node (id : Id) (kids : Forest)
inductive Forest where
  | nil
  | cons (t : Tree) (r : Forest)
end

mutual
def Tree.ids : Tree → List Id
  | .node i ks => i :: ks.ids
def Forest.ids : Forest → List Id
  | .nil => []
  | .cons t r => t.ids ++ r.ids
end

def Tree.root : Tree → Id
  | .node i _ => i
def Forest.roots : Forest → List Id
  | .nil => []
  | .cons t r => t.root :: r.roots

mutual
/-- the objects of the tree are alive and have the children of the tree, in any order of names -/
def Tree.In (h : Mem) : Tree → Prop
  | .node i ks => (∃ nd, h i = some nd ∧ nd.children.map (·.2) = ks.roots) ∧ ks.In h
def Forest.In (h : Mem) : Forest → Prop
  | .nil => True
  | .cons t r => t.In h ∧ r.In h
end

mutual
def Tree.weight : Tree → Nat
  | .node _ ks => ks.weight + 1
def Forest.weight : Forest → Nat
  | .nil => 1
  | .cons t r => t.weight + r.weight + 1
end

mutual
theorem in_congr {h h' : Mem} : ∀ t : Tree, (∀ i ∈ t.ids, h' i = h i) → t.In h → t.In h'
  | .node i ks, he, ⟨⟨nd, h1, h2⟩, h3⟩ => by
    refine ⟨⟨nd, ?_, h2⟩, inF_congr ks (fun j hj => he j ?_) h3⟩
    · rw [he i (by simp [Tree.ids])]; exact h1
    · simp [Tree.ids, hj]
theorem inF_congr {h h' : Mem} : ∀ t : Forest, (∀ i ∈ t.ids, h' i = h i) → t.In h → t.In h'
  | .nil, _, _ => trivial
  | .cons t r, he, ⟨h1, h2⟩ =>
    ⟨in_congr t (fun j hj => he j (by simp [Forest.ids, hj])) h1,
     inF_congr r (fun j hj => he j (by simp [Forest.ids, hj])) h2⟩
end

mutual
theorem destroy_spec : ∀ (t : Tree) (f : Nat) (h : Mem), t.weight ≤ f → t.In h → t.ids.Nodup →
    ∃ h', destroy f h t.root = .ok h' ∧ ∀ i, h' i = if i ∈ t.ids then none else h i
  | .node i ks, f, h, hf, ⟨⟨nd, h1, h2⟩, h3⟩, hnd => by
    cases f with
    | zero => simp [Tree.weight] at hf
    | succ f =>
      simp only [Tree.ids, List.nodup_cons] at hnd
      obtain ⟨h', e, hh⟩ := destroyAll_spec ks f h (by simp only [Tree.weight] at hf; omega) h3 hnd.2
      refine ⟨fun j => if j = i then none else h' j, ?_, ?_⟩
      · simp only [Tree.root, destroy, h1, h2, e, Res.bind_ok]
        rfl
      · intro j
        by_cases e : j = i
        · simp [e, Tree.ids]
        · simp [e, Tree.ids, hh j]
theorem destroyAll_spec : ∀ (t : Forest) (f : Nat) (h : Mem), t.weight ≤ f → t.In h → t.ids.Nodup →
    ∃ h', destroyAll f h t.roots = .ok h' ∧ ∀ i, h' i = if i ∈ t.ids then none else h i
  | .nil, f, h, hf, _, _ => by
    cases f with
    | zero => simp [Forest.weight] at hf
    | succ f => exact ⟨h, rfl, fun i => by simp [Forest.ids]⟩
  | .cons t r, f, h, hf, ⟨h1, h2⟩, hnd => by
    cases f with
    | zero => simp [Forest.weight] at hf
    | succ f =>
      simp only [Forest.ids, List.nodup_append] at hnd
      simp only [Forest.weight] at hf
      obtain ⟨h', e1, hh1⟩ := destroy_spec t f h (by omega) h1 hnd.1
      have h2' : r.In h' := by
        refine inF_congr r ?_ h2
        intro j hj
        rw [hh1 j, if_neg]
        intro hjt
        exact hnd.2.2 j hjt j hj rfl
      obtain ⟨h'', e2, hh2⟩ := destroyAll_spec r f h' (by omega) h2' hnd.2.1
      refine ⟨h'', by simp only [Forest.roots, destroyAll, e1, e2, Res.bind_ok], ?_⟩
      intro j
      rw [hh2 j, hh1 j]
      simp only [Forest.ids, List.mem_append]
      by_cases a : j ∈ r.ids <;> by_cases b : j ∈ t.ids <;> simp [a, b]
end

/-- **C43** Deleting the root of a tree of sets deletes every set of the tree, exactly once, and nothing else.
(Deleting a set that is not alive would be undefined: the outcome is a normal return.) -/
theorem C43_destroy (t : Tree) (h : Mem) (hin : t.In h) (hnd : t.ids.Nodup) :
    ∃ f h', destroy f h t.root = .ok h' ∧ ∀ i, h' i = if i ∈ t.ids then none else h i :=
  ⟨_, destroy_spec t _ h (Nat.le_refl _) hin hnd⟩

/-- A set inserted twice is deleted twice. -/
theorem C43_shared_child_double_delete (f : Nat) (h : Mem) (a b : Str) (c r : Id)
    (hr : h r = some (run [.insertChild a c, .insertChild b c])) (hc : h c = some Node.new) :
    destroy (f + 5) h r = .ub := by
  have hk : (run [.insertChild a c, .insertChild b c]).children.map (·.2) = [c, c] := by
    by_cases e : strLt b a = true <;> simp [run, step, insertChild, Node.new, minsert, e]
  simp [destroy, hr, hk, destroyAll, hc, Node.new]

/-! ### Instances -/

example : valuesOf ['a'] [.insert ['a'] ['1'], .set ['b'] ['x'], .setList ['a'] [['2'], ['3']], .insert ['a'] ['4'],
    .insertChild ['a'] 7] = [['2'], ['3'], ['4']] := by decide +kernel

/-- a root with two children under different names, one of which has a child -/
def exMem : Mem := fun i =>
  if i = 0 then some (run [.insertChild ['b'] 1, .insertChild ['a'] 2])
  else if i = 1 then some (run [.insertChild ['c'] 3])
  else if i = 2 ∨ i = 3 then some Node.new else none

example : (Tree.node 0 (.cons (.node 2 .nil) (.cons (.node 1 (.cons (.node 3 .nil) .nil)) .nil))).In exMem := by
  simp only [Tree.In, Forest.In, Forest.roots, Tree.root]
  refine ⟨⟨run [.insertChild ['b'] 1, .insertChild ['a'] 2], rfl, by decide +kernel⟩,
    ⟨⟨Node.new, rfl, rfl⟩, trivial⟩, ⟨⟨run [.insertChild ['c'] 3], rfl, by decide +kernel⟩,
      ⟨⟨Node.new, rfl, rfl⟩, trivial⟩, trivial⟩, trivial⟩

/-! ### The theorems on concrete cases -/

example := C43_destroy (.node 0 (.cons (.node 2 .nil) (.cons (.node 1 (.cons (.node 3 .nil) .nil)) .nil))) exMem
  (by
    simp only [Tree.In, Forest.In, Forest.roots, Tree.root]
    exact ⟨⟨run [.insertChild ['b'] 1, .insertChild ['a'] 2], rfl, by decide +kernel⟩,
      ⟨⟨Node.new, rfl, rfl⟩, trivial⟩, ⟨⟨run [.insertChild ['c'] 3], rfl, by decide +kernel⟩,
        ⟨⟨Node.new, rfl, rfl⟩, trivial⟩, trivial⟩, trivial⟩)
  (by decide +kernel)

example := C43_shared_child_double_delete 0
  (fun i => if i = 0 then some (run [.insertChild ['a'] 1, .insertChild ['b'] 1]) else if i = 1 then some Node.new else none)
  ['a'] ['b'] 1 0 rfl rfl

end Verif.ConfigSet
