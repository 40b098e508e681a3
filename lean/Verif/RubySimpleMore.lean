import Verif.RubySimpleCex

/-!
Property C69: compounds built from arrays, and which objects numbers are built from.
-/

namespace Verif.RubySimple
open Verif Verif.RubyConvert

theorem assignArray_iff {f : Nat → Str → S → List V → Except Exn (List V)} : ∀ (l : List S) (ks : List Str) (i : Nat) (c r : List V),
    assignArray f i ks l c = .ok r ↔ l.length ≤ ks.length ∧ assignAll f i (ks.zip l) c = .ok r := by
  intro l
  induction l with
  | nil =>
    intro ks i c r
    simp [assignArray, assignAll]
  | cons x l ih =>
    intro ks i c r
    cases ks with
    | nil => simp [assignArray]
    | cons k ks =>
      simp only [assignArray, List.zip_cons_cons, assignAll, List.length_cons, Nat.add_le_add_iff_right]
      cases f i k x c with
      | error e => simp
      | ok c1 => exact ih ks (i + 1) c1 r

theorem zip_fst_prefix : ∀ (ks : List Str) (l : List S), (ks.zip l).map (·.1) <+: ks
  | [], _ => by simp
  | k :: ks, [] => by simp
  | k :: ks, x :: l => by
    simp only [List.zip_cons_cons, List.map_cons, List.cons_prefix_cons]
    exact ⟨trivial, zip_fst_prefix ks l⟩

theorem names_toList : ∀ fs : Fs, fs.names = fs.toList.map (·.1)
  | .nil => rfl
  | .cons n t rest => by simp only [Fs.names, Fs.toList, List.map_cons, names_toList rest]

/-- **C69, arrays**: a compound is built from an array exactly when there are not more elements than fields and each field accepts
the element with the same index. The fields without an element keep whatever the memory that `new` returned holds. -/
theorem C69_fields_array (env : Env) (he : Sane env) (fs : Fs) (hs : Sound (.comp fs)) (l : List S) (p : List Nat) (r : List V) :
    fromRuby env (.comp fs) p (.arr l) = .ok (.seq r) ↔
      l.length ≤ fs.toList.length ∧ r.length = fs.toList.length ∧
      (∀ (a : Nat) s, l[a]? = some s → ∃ (n : Str) (t : T) (v : V), fs.toList[a]? = some (n, t) ∧
        fromRuby env t (a :: p) s = .ok v ∧ r[a]? = some v) ∧
      (∀ j, l.length ≤ j → ∀ l', env.junk p (.comp fs) = .seq l' → r[j]? = l'[j]?) := by
  have hn : (fs.toList.map (·.1)).Nodup := hs.1
  have e1 : fromRuby env (.comp fs) p (.arr l) = .ok (.seq r) ↔
      l.length ≤ fs.toList.length ∧ fromRuby env (.comp fs) p (.hash (fs.names.zip l)) = .ok (.seq r) := by
    simp only [fromRuby, map_ok]
    constructor
    · rintro ⟨a, h1, h2⟩
      cases h2
      obtain ⟨g1, g2⟩ := (assignArray_iff ..).mp h1
      rw [names_toList, List.length_map] at g1
      exact ⟨g1, r, g2, rfl⟩
    · rintro ⟨g1, a, h1, h2⟩
      cases h2
      exact ⟨r, (assignArray_iff ..).mpr ⟨by rw [names_toList, List.length_map]; exact g1, h1⟩, rfl⟩
  rw [e1]
  have key : ∀ hle : l.length ≤ fs.toList.length, ∀ a : Nat, (fs.names.zip l)[a]? = (l[a]?).bind (fun s => (fs.toList[a]?).map (fun x : Str × T => (x.1, s))) := by
    intro hle a
    rw [names_toList]
    by_cases ha : a < l.length
    · have hb : a < fs.toList.length := by omega
      rw [List.getElem?_eq_getElem (by rw [List.length_zip, List.length_map]; omega), List.getElem?_eq_getElem ha, List.getElem?_eq_getElem hb]
      simp
    · rw [List.getElem?_eq_none (by rw [List.length_zip]; omega), List.getElem?_eq_none (by omega)]
      rfl
  have hzn : ((fs.names.zip l).map (·.1)).Nodup := by
    rw [names_toList]
    exact List.Sublist.nodup (zip_fst_prefix _ l).sublist hn
  rw [C69_hash env he fs hs (fs.names.zip l) hzn p r]
  constructor
  · rintro ⟨hle, h1, h2, h3⟩
    refine ⟨hle, h1, fun a s hs' => ?_, fun j hj l' hl' => ?_⟩
    · have hlt : a < fs.toList.length := by have := (List.getElem?_eq_some_iff.mp hs').1; omega
      obtain ⟨j, t, v, g1, g2, g3⟩ := h2 a (fs.toList[a]).1 s (by rw [key hle, hs', List.getElem?_eq_getElem hlt]; rfl)
      have hj : j = a := by
        obtain ⟨hj, g1⟩ := List.getElem?_eq_some_iff.mp g1
        have := (List.getElem_inj (i := j) (j := a) (h₀ := by rw [List.length_map]; exact hj) (h₁ := by rw [List.length_map]; exact hlt) hn).mp (by
          rw [List.getElem_map, List.getElem_map, g1])
        exact this
      subst hj
      exact ⟨_, t, v, g1, g2, g3⟩
    · by_cases hjl : j < fs.toList.length
      · refine h3 j (fs.toList[j]).1 (fs.toList[j]).2 (List.getElem?_eq_getElem hjl) (fun hm => ?_) l' hl'
        obtain ⟨x, hx, hx1⟩ := List.mem_map.mp hm
        obtain ⟨a, ha⟩ := List.getElem?_of_mem hx
        rw [key hle] at ha
        cases hla : l[a]? with
        | none => rw [hla] at ha; cases ha
        | some s =>
          have hlt : a < l.length := (List.getElem?_eq_some_iff.mp hla).1
          have hlt' : a < fs.toList.length := by omega
          rw [hla, List.getElem?_eq_getElem hlt'] at ha
          simp only [Option.bind_some, Option.map_some, Option.some.injEq] at ha
          rw [← ha] at hx1
          have := (List.getElem_inj (i := a) (j := j) (h₀ := by rw [List.length_map]; exact hlt') (h₁ := by rw [List.length_map]; exact hjl) hn).mp (by
            rw [List.getElem_map, List.getElem_map]; exact hx1)
          omega
      · have hj := junk_fields he p fs hs
        have hlen := ((okFields_iff fs _).mp hj).1
        rw [hl'] at hlen
        have hlen : l'.length = fs.toList.length := hlen
        rw [List.getElem?_eq_none (by omega), List.getElem?_eq_none (by omega)]
  · rintro ⟨hle, h1, h2, h3⟩
    refine ⟨hle, h1, fun a k s hks => ?_, fun j n t hj hnot l' hl' => ?_⟩
    · rw [key hle] at hks
      cases hla : l[a]? with
      | none => rw [hla] at hks; cases hks
      | some s' =>
        obtain ⟨n, t, v, g1, g2, g3⟩ := h2 a s' hla
        rw [hla, g1] at hks
        simp only [Option.bind_some, Option.map_some, Option.some.injEq, Prod.mk.injEq] at hks
        obtain ⟨rfl, rfl⟩ := hks
        exact ⟨a, t, v, g1, g2, g3⟩
    · by_cases hjl : j < l.length
      · exact absurd (List.mem_map.mpr ⟨(n, l[j]), List.mem_of_getElem? (i := j) (by
          rw [key hle, List.getElem?_eq_getElem hjl, hj]; rfl), rfl⟩) hnot
      · exact h3 j (by omega) l' hl'

theorem memOf_load (m : Mem) (k : Nat) : ∀ i, i < k → memOf (load m 0 k) i = m i := by
  intro i hi
  unfold memOf
  have hl := load_length m k 0
  rw [List.getD_eq_getElem?_getD, List.getElem?_eq_getElem (by rw [hl]; exact hi)]
  rw [Option.getD_some, load_eq, Nat.zero_add]

/-- **C69, integers**: an integer is built from the Ruby integers that can be assigned to the type (C52), and holds them modulo its
size; a `RangeError` is raised for the others, and an `ArgumentError` for the objects that are not numbers. -/
theorem C69_integer (env : Env) (sg : Bool) (k : Nat) (hk : CSize k) (p : List Nat) :
    (∀ z, Accepted sg k z → ∃ bs, fromRuby env (.int sg k) p (.int z) = .ok (.num bs) ∧ bs.length = k ∧ LowBytes k (memOf bs) 0 z) ∧
    (∀ z, ¬ Accepted sg k z → fromRuby env (.int sg k) p (.int z) = .error .range) ∧
    (∀ s, (∀ z, s ≠ .int z) → (∀ d, s ≠ .float d) → fromRuby env (.int sg k) p s = .error .arg) := by
  refine ⟨fun z hz => ?_, fun z hz => ?_, fun s h1 h2 => ?_⟩
  · obtain ⟨m', e1, e2, _⟩ := (C52_set sg k hk (memOf []) 0 z).1 hz
    refine ⟨load m' 0 k, by simp only [fromRuby, numFromRuby, intFromRuby, putInt, rval, e1]; rfl, load_length _ _ _, fun i hi => ?_⟩
    have := e2 i hi
    rw [Nat.zero_add] at this ⊢
    rw [memOf_load m' k i hi, this]
  · have := (C52_set sg k hk (memOf []) 0 z).2 hz
    simp only [fromRuby, numFromRuby, intFromRuby, putInt, rval, this]
    rfl
  · have : putInt sg k (rval s) = .error .type := by
      unfold putInt
      rw [C52_set_other sg k (memOf []) 0 (rval s) (by
        intro z hz
        cases s with
        | int y => exact h1 y rfl
        | _ => cases hz)]
      rfl
    cases s with
    | int y => exact absurd rfl (h1 y)
    | float d => exact absurd rfl (h2 d)
    | _ => simp only [fromRuby, numFromRuby, intFromRuby, this]; rfl

example : ∃ n t v, (Fs.cons (nm "a") (.int true 4) (.cons (nm "b") .bool .nil)).toList[0]? = some (n, t) ∧
    fromRuby env0 t [0] (.int 7) = .ok v ∧ ([.num [7, 0, 0, 0], .num [0]] : List V)[0]? = some v :=
  ((C69_fields_array env0 env0_sane (.cons (nm "a") (.int true 4) (.cons (nm "b") .bool .nil))
    ⟨by decide, by simp [SoundFields, Sound, CSize]⟩ [.int 7] [] [.num [7, 0, 0, 0], .num [0]]).mp rfl).2.2.1 0 _ rfl
example : fromRuby env0 (.comp (.cons (nm "a") (.int true 4) .nil)) [] (.arr [.int 7, .int 8]) = .error .noMethod := rfl
example : fromRuby env0 (.int true 2) [] (.int 2147483648) = .error .range :=
  (C69_integer env0 true 2 (by simp [CSize]) []).2.1 _ (by unfold Accepted; decide)
example : fromRuby env0 (.int true 2) [] (.int 2147483647) = .ok (.num [255, 255]) := rfl
example : fromRuby env0 (.int true 2) [] .nil = .error .arg :=
  (C69_integer env0 true 2 (by simp [CSize]) []).2.2 _ nofun nofun

end Verif.RubySimple
