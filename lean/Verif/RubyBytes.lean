import Verif.ValueProps

/-!
C65: values that the Ruby bindings build from bytes and give back as bytes: `ContainerType.of_size`
(bindings/ruby/lib/typelib/container_type.rb:250-253), Ruby strings and `/std/string`
(bindings/ruby/lib/typelib/standard_convertions.rb:28-37), packed arrays
(`to_simple_value(pack_simple_arrays: true)`, container_type.rb:416-427, array_type.rb:217-228).
-/

namespace Verif.RubyBytes
open Verif Verif.Layout Verif.Value

/-! ### Model -/

/-- `Type.from_buffer(string)`: `new` (raw memory, then `init`: bindings/ruby/ext/value.cc:445-461) followed by `load`
(lib/typelib/type.rb:579-581 and 660-682, ext/value.cc:464-479: any C++ exception becomes an ArgumentError). `raw` is what
the allocated memory holds. -/
def fromBuffer (env : Env) (t : Ty) (raw input : List UInt8) : Out Mem Unit :=
  match init t (raw.map .byte) with
  | .ok _ m => load env t input m
  | r => r

/-- `ContainerType.of_size(size, element)` (container_type.rb:250-253) on a container of type `.vec cs e`; the memory of the element is
`m`. `[size].pack("Q")` is the count on 8 bytes (little-endian machine). -/
def ofSize (env : Env) (cs : Nat) (e : Ty) (n : Nat) (m : Mem) (raw : List UInt8) : Out Mem Unit :=
  match dump env e m [] with
  | .ok _ B => fromBuffer env (.vec cs e) raw (le64 n ++ rep n B)
  | .exn x _ => .exn x []
  | .ub => .ub
  | .fuel => .fuel

/-- A Ruby string: its characters, each encoded as at least one byte. -/
abbrev RStr := List (List UInt8)

/-- `String#length` -/
def RStr.len (s : RStr) : Nat := s.length
/-- `String#bytes` -/
def RStr.bytes (s : RStr) : List UInt8 := s.flatten

/-- `[s].pack("A#{n}")`: the first `n` *bytes*, filled with spaces -/
def packA (n : Nat) (bs : List UInt8) : List UInt8 := bs.take n ++ List.replicate (n - bs.length) 32

/-- the conversion of a Ruby string to `/std/string` (standard_convertions.rb:28-30):
`wrap([value.length, value].pack("QA#{value.length}"))` -/
def stringFromRuby (env : Env) (cs : Nat) (s : RStr) (raw : List UInt8) : Out Mem Unit :=
  fromBuffer env (.str cs) raw (le64 s.len ++ packA s.len s.bytes)

/-- the conversion of a `/std/string` to Ruby (standard_convertions.rb:31-37): the bytes `to_byte_array[8..-1]` -/
def stringToRuby (env : Env) (cs : Nat) (m : Mem) : Out Unit (List UInt8) :=
  match dump env (.str cs) m [] with
  | .ok _ B => .ok (B.drop 8) ()
  | .exn x _ => .exn x ()
  | .ub => .ub
  | .fuel => .fuel

/-- The `data` entry of `to_simple_value(pack_simple_arrays: true)` on a container of numbers, before the Base64 encoding: `to_byte_array[8..-1]`
(container_type.rb:418-422) -/
def packedContainer (env : Env) (cs : Nat) (e : Ty) (m : Mem) : Out Unit (List UInt8) :=
  match dump env (.vec cs e) m [] with
  | .ok _ B => .ok (B.drop 8) ()
  | .exn x _ => .exn x ()
  | .ub => .ub
  | .fuel => .fuel

/-- the same on an array: `to_byte_array` (array_type.rb:219-223) -/
def packedArray (env : Env) (d : Nat) (e : Ty) (m : Mem) : Out Unit (List UInt8) :=
  match dump env (.arr d e) m [] with
  | .ok _ B => .ok B ()
  | .exn x _ => .exn x ()
  | .ub => .ub
  | .fuel => .fuel

/-- `pack_code` of a numeric type (numeric_type.rb:45-90), on a little-endian machine; `none` is `nil` -/
def packCode (integer unsigned : Bool) (size : Nat) : Option String :=
  if integer then
    match size, unsigned with
    | 1, true => some "C"
    | 1, false => some "c"
    | 2, true => some "S<"
    | 2, false => some "s<"
    | 4, true => some "L<"
    | 4, false => some "l<"
    | 8, true => some "Q<"
    | 8, false => some "q<"
    | _, _ => none
  else
    match size with
    | 4 => some "e"
    | 8 => some "E"
    | _ => none

/-! ### Specification -/

/-- the last byte of a value of the type is not padding -/
def NoTailPad (t : Ty) : Prop := ∀ X, kinds t ≠ X ++ [.pad]

/-- a type without strings and vectors: its values are plain bytes -/
def Plain (t : Ty) : Prop := ∀ c, Item.cont c ∉ kinds t

/-- `"x".unpack(code + "*")` for a code of `k` bytes: the bytes of each number (`k` is the size that the code names) -/
def chunks (k : Nat) : Nat → List UInt8 → List (List UInt8)
  | 0, _ => []
  | n + 1, bs => bs.take k :: chunks k n (bs.drop k)

/-- number of bytes that a pack code reads (`String#unpack`) -/
def codeSize (c : String) : Nat :=
  if c = "C" ∨ c = "c" then 1 else if c = "S<" ∨ c = "s<" then 2 else if c = "L<" ∨ c = "l<" ∨ c = "e" then 4 else 8

/-! ### Lemmas -/

theorem abs_rep {env : Env} {K : List Item} {m : Mem} {v : List AV} (h : Abs env K m v) (n : Nat) :
    Abs env (rep n K) (rep n m) (rep n v) := by
  induction n with
  | zero => exact .nil
  | succ n ih => simp only [rep_succ]; exact h.append ih

theorem encL_rep (n : Nat) (v : List AV) : encL (rep n v) = rep n (encL v) := by
  induction n with
  | zero => rfl
  | succ n ih => simp only [rep_succ, encL_append, ih]

theorem abs_plain {env : Env} {K : List Item} (hp : ∀ c, Item.cont c ∉ K) (bs : List UInt8) (hl : bs.length = K.length) :
    Abs env K (bs.map .byte) (bs.map .b) := by
  induction K generalizing bs with
  | nil => rw [List.length_eq_zero_iff.mp hl]; exact .nil
  | cons k K ih =>
    obtain ⟨b, r, rfl⟩ : ∃ b r, bs = b :: r := by
      cases bs with
      | nil => simp at hl
      | cons b r => exact ⟨b, r, rfl⟩
    have := ih (fun c hc => hp c (List.mem_cons_of_mem _ hc)) r (by simpa using hl)
    cases k with
    | data => exact .data this
    | pad => exact .pad this
    | cont c => exact absurd (List.mem_cons_self ..) (hp c)

theorem plain_encL {env : Env} {K : List Item} {m : Mem} {v : List AV} (h : Abs env K m v) (hp : ∀ c, Item.cont c ∉ K) :
    ∃ bs : List UInt8, m = bs.map .byte ∧ v = bs.map .b ∧ encL v = bs := by
  induction h with
  | nil => exact ⟨[], rfl, rfl, rfl⟩
  | @data K m v x h ih =>
    obtain ⟨bs, rfl, rfl, h3⟩ := ih (fun c hc => hp c (List.mem_cons_of_mem _ hc))
    exact ⟨x :: bs, rfl, rfl, by simp [encL, AV.enc, h3]⟩
  | @pad K m v x h ih =>
    obtain ⟨bs, rfl, rfl, h3⟩ := ih (fun c hc => hp c (List.mem_cons_of_mem _ hc))
    exact ⟨x :: bs, rfl, rfl, by simp [encL, AV.enc, h3]⟩
  | vec => exact absurd (List.mem_cons_self ..) (hp _)
  | str => exact absurd (List.mem_cons_self ..) (hp _)

theorem replicate_tail {α : Type} (k : Nat) (a : α) : List.replicate (k + 1) a = List.replicate k a ++ [a] := by
  rw [List.replicate_succ']

/-- without trailing padding the dump is the whole value -/
theorem dump_noTail {env : Env} {t : Ty} (ht : OkType t) (hp : NoTailPad t) {m : Mem} {v : List AV} (hv : Valid env t m v)
    (hle : (encL v).length ≤ env.maxAlloc) : dump env t m [] = .ok () (encL v) := by
  obtain ⟨cells, vx, pads, h1, h2, h3, ⟨X, vx', pads', h4, _, h5, h6⟩, h7, _⟩ := dump_all ht hv
  have hk : pads'.length = 0 := by
    cases hq : pads'.length with
    | zero => rfl
    | succ q => rw [hq, replicate_tail, ← List.append_assoc] at h4; exact absurd h4 (hp _)
  rw [List.length_eq_zero_iff.mp hk] at h5
  simp only [List.map_nil, List.append_nil] at h5
  subst h5
  rw [← h6] at hle ⊢
  have := (h7 [] (Nat.zero_le _)).1 (by simpa using hle)
  simpa using this

theorem vec_noTail (cs : Nat) (e : Ty) : NoTailPad (.vec cs e) := by
  intro X h
  rcases X with _ | ⟨a, _ | ⟨b, X⟩⟩ <;> simp [kinds] at h

theorem str_noTail (cs : Nat) : NoTailPad (.str cs) := by
  intro X h
  rcases X with _ | ⟨a, _ | ⟨b, X⟩⟩ <;> simp [kinds] at h

theorem vec_parts {cs : Nat} {e : Ty} (h : OkType (.vec cs e)) : 0 < cs ∧ cs < W ∧ ElemOk e := by
  obtain ⟨⟨h1, h2, h3, h4⟩, h5, _⟩ := h
  exact ⟨h1, h2, h3, h4, h5⟩

theorem expand_single {env : Env} {t c : Ty} (hw : t.WF) (hk : kinds t = [.cont c]) : (layL true true t).expand = [.cont c] := by
  obtain ⟨k, _, ⟨X, h1, h2⟩, _⟩ := lay_pad_unique (env := env) hw
  rw [hk] at h1
  have hk0 : k = 0 := by
    cases k with
    | zero => rfl
    | succ q =>
      rw [replicate_tail, ← List.append_assoc] at h1
      rcases hX : X ++ List.replicate q Item.pad with _ | ⟨a, _ | ⟨b, r⟩⟩ <;> rw [hX] at h1 <;> simp at h1
  subst hk0
  simp only [List.replicate_zero, List.append_nil] at h1
  rw [h2, ← h1]
  rfl

/-! ### Theorems: of_size -/

/-- C65, `of_size`. When the last byte of the element type is not padding, `of_size(n, element)` is a valid container with `n`
elements equal to the given one. -/
theorem C65_of_size {env : Env} {cs : Nat} {e : Ty} (hc : OkType (.vec cs e)) (he : OkType e) (hp : NoTailPad e)
    {m : Mem} {v : List AV} (hv : Valid env e m v) (n : Nat) (hn : n < W) (hmem : n * e.size ≤ env.maxAlloc)
    (hel : (encL v).length ≤ env.maxAlloc) (hbuf : 8 + n * (encL v).length ≤ env.maxAlloc) (raw : List UInt8) (hr : raw.length = cs) :
    ∃ m' v', ofSize env cs e n m raw = .ok () m' ∧ Valid env (.vec cs e) m' v' ∧
      VEq (kinds (.vec cs e)) [.seq n (rep n v)] v' := by
  obtain ⟨h0, _, hel'⟩ := vec_parts hc
  have hab : Abs env (rep n (kinds e)) (rep n m) (rep n v) := abs_rep hv n
  have hsz : (rep n m).length = n * e.size := abs_elems hel' hab
  have hsrc : Valid env (.vec cs e) (.vec (n * e.size) (rep n m) :: (List.replicate (cs - 1) .tail ++ []))
      [.seq n (rep n v)] := .vec h0 hab (by omega) hmem .nil
  have henc : encL [.seq n (rep n v)] = le64 n ++ rep n (encL v) := by simp [encL, AV.enc, encL_rep]
  have hd := dump_noTail hc (vec_noTail cs e) hsrc (by rw [henc]; simp [le64_length, rep_length]; omega)
  rw [henc] at hd
  obtain ⟨dst, dst', v', h1, h2, h3, h4⟩ := C10_dump_init_load hc hsrc hd raw hr
  refine ⟨dst', v', ?_, h3, h4⟩
  unfold ofSize
  rw [dump_noTail he hp hv hel]
  simp only [fromBuffer, h1]
  exact h2

/-- C65 fails for elements that end with padding: for every element of plain bytes whose dump leaves out trailing padding
and every `n > 0`, `of_size(n, element)` raises (the `n` copies are shorter than `n` elements). -/
theorem C65_of_size_padding_counterexample {env : Env} {cs : Nat} {e : Ty} (hc : OkType (.vec cs e)) (_he : OkType e)
    (hpl : Plain e) {m : Mem} {v : List AV} (hv : Valid env e m v) {B : List UInt8} (hd : dump env e m [] = .ok () B)
    (hB : B.length < e.size) (n : Nat) (hn : n ≠ 0) (hmem : 8 + n * e.size ≤ env.maxAlloc) (raw : List UInt8) (hr : raw.length = cs) :
    ∃ x m' w, ofSize env cs e n m raw = .exn x m' ∧ Valid env (.vec cs e) m' w := by
  have hmax := env.hmax
  obtain ⟨h0, _, hel'⟩ := vec_parts hc
  have hks := kinds_size e hel'.2.1
  have hlen : (kinds e).length = e.size := by rw [← hv.length.2]; have := hv.length.1; rw [hks] at this; rw [← this]; obtain ⟨bs, rfl, rfl, _⟩ := plain_encL hv hpl; simp
  obtain ⟨dst, w, i1, i2, i3, _⟩ := C17_init (env := env) hc raw hr
  have hexp := expand_single (env := env) (t := .vec cs e) hc.1 rfl
  have hlt : n * B.length < n * e.size := Nat.mul_lt_mul_of_pos_left hB (Nat.pos_of_ne_zero hn)
  have hnW : n < W := by
    have : n ≤ n * e.size := Nat.le_mul_of_pos_right n hel'.1
    unfold W; omega
  have hplr : ∀ k c, Item.cont c ∉ rep k (kinds e) := fun k c hc => hpl c (mem_rep hc)
  have key := load_all hc i2 (input := le64 n ++ rep n B)
    (by simp only [List.length_append, le64_length, rep_length, HALF]; omega)
    (Or.inr (by
      rw [hexp]
      refine ⟨List.replicate (n * e.size - n * B.length) 0, _, [.seq n ((rep n B ++ List.replicate (n * e.size - n * B.length) 0).map .b)], [],
        .vec h0 (abs_plain (hplr n) (rep n B ++ List.replicate (n * e.size - n * B.length) 0) (by simp [rep_length, hlen]; omega)) (Nat.le_refl _) ?_ .nil, ?_⟩
      · simp [rep_length]; omega
      · simp only [encL, AV.enc, encL_bytes, List.append_nil, List.append_assoc]))
  unfold ofSize
  rw [hd]
  simp only [fromBuffer, i1]
  cases hl : load env (.vec cs e) (le64 n ++ rep n B) dst with
  | ok a s =>
    rw [hl] at key
    obtain ⟨w', mu, u, r, k1, k2, k3, k4, k5⟩ := key
    rw [hexp] at k2
    cases k2 with
    | @vec _ _ _ cap buf n' flat mm vv _ hb hl' hm' hn' =>
      cases hn'
      simp only [encL, AV.enc, List.append_nil, List.append_assoc] at k3
      have c1 := List.append_inj k3 (by simp [le64_length])
      have c2 := vec_count_le hel' hb
      have c3 := le64_inj hnW (by unfold W; omega) c1.1
      subst c3
      have c4 := abs_elems hel' hb
      obtain ⟨bs, rfl, rfl, c5⟩ := plain_encL hb (hplr _)
      have c6 := congrArg List.length c1.2
      rw [c5] at c6
      simp [rep_length] at c6 c4
      omega
  | exn x s =>
    rw [hl] at key
    obtain ⟨⟨w', h1⟩, _⟩ := key
    exact ⟨x, s, w', rfl, h1⟩
  | ub => rw [hl] at key; exact key.elim
  | fuel => rw [hl] at key; exact key.elim

/-! ### Theorems: strings -/

theorem packA_eq {s : RStr} (h : ∀ c ∈ s, c ≠ []) : packA s.len s.bytes = s.bytes.take s.len ∧ s.len ≤ s.bytes.length := by
  have : s.length ≤ s.flatten.length := by
    induction s with
    | nil => simp
    | cons c s ih =>
      have h1 := ih (fun d hd => h d (List.mem_cons_of_mem _ hd))
      have h2 : c.length ≠ 0 := fun h0 => h c (List.mem_cons_self ..) (List.length_eq_zero_iff.mp h0)
      simp at h1 ⊢
      omega
  refine ⟨?_, this⟩
  unfold packA RStr.len RStr.bytes
  rw [Nat.sub_eq_zero_of_le this]
  simp

/-- C65, strings: a Ruby string converted to `/std/string` and back gives its first `length` *bytes*, where `length` is its
number of *characters*. -/
theorem C65_string {env : Env} {cs : Nat} (hcs : 0 < cs) (hcs' : cs < HALF) (s : RStr) (hs : ∀ c ∈ s, c ≠ [])
    (hmem : 8 + s.len ≤ env.maxAlloc) (raw : List UInt8) (hr : raw.length = cs) :
    ∃ m v, stringFromRuby env cs s raw = .ok () m ∧ Valid env (.str cs) m v ∧
      stringToRuby env cs m = .ok (s.bytes.take s.len) () := by
  obtain ⟨hpk, hle⟩ := packA_eq hs
  have ht : OkType (.str cs) := ⟨⟨hcs, by unfold W; simp only [HALF] at hcs'; omega⟩, trivial, hcs'⟩
  have hlen : (s.bytes.take s.len).length = s.len := by simp; omega
  have hv : Valid env (.str cs) (.str (s.bytes.take s.len) :: (List.replicate (cs - 1) .tail ++ [])) [.s (s.bytes.take s.len)] :=
    .str hcs (by omega) .nil
  have henc : encL [.s (s.bytes.take s.len)] = le64 s.len ++ s.bytes.take s.len := by simp only [encL, AV.enc, hlen, List.append_nil]
  have hd := dump_noTail ht (str_noTail cs) hv (by rw [henc]; simp only [List.length_append, le64_length, hlen]; omega)
  rw [henc] at hd
  obtain ⟨dst, m', v', h1, h2, h3, h4⟩ := C10_dump_init_load ht hv hd raw hr
  refine ⟨m', v', ?_, h3, ?_⟩
  · unfold stringFromRuby fromBuffer
    rw [hpk, h1]
    exact h2
  · have hv' : v' = [.s (s.bytes.take s.len)] := by
      cases h4 with
      | str h => cases h; rfl
    subst hv'
    unfold stringToRuby
    rw [dump_noTail ht (str_noTail cs) h3 (by rw [henc]; simp only [List.length_append, le64_length, hlen]; omega), henc]
    simp only []
    rw [List.drop_left' (le64_length _)]

theorem take_len_iff {s : RStr} (hs : ∀ c ∈ s, c ≠ []) : s.bytes.take s.len = s.bytes ↔ ∀ c ∈ s, c.length = 1 := by
  have hle := (packA_eq hs).2
  constructor
  · intro h
    have h1 := congrArg List.length h
    simp only [List.length_take] at h1
    have h2 : s.flatten.length = s.length := by
      show s.bytes.length = s.len
      omega
    clear h h1 hle
    induction s with
    | nil => simp
    | cons c s ih =>
      have h3 := (packA_eq (s := s) (fun d hd => hs d (List.mem_cons_of_mem _ hd))).2
      simp only [RStr.len, RStr.bytes] at h3
      have h4 : c.length ≠ 0 := fun h0 => hs c (List.mem_cons_self ..) (List.length_eq_zero_iff.mp h0)
      have h5 : c.length + s.flatten.length = s.length + 1 := by simpa using h2
      intro d hd
      rcases List.mem_cons.mp hd with rfl | hd
      · omega
      · exact ih (fun d hd => hs d (List.mem_cons_of_mem _ hd)) (by omega) d hd
  · intro h
    have : s.flatten.length = s.length := by
      clear hle hs
      induction s with
      | nil => rfl
      | cons c s ih =>
        have h1 := h c (List.mem_cons_self ..)
        have h2 := ih (fun d hd => h d (List.mem_cons_of_mem _ hd))
        simp at h2 ⊢
        omega
    exact List.take_of_length_le (by show s.flatten.length ≤ s.length; omega)

/-- C65, strings: the round trip keeps the string exactly when every character is one byte. -/
theorem C65_string_round_trip {env : Env} {cs : Nat} (hcs : 0 < cs) (hcs' : cs < HALF) (s : RStr) (hs : ∀ c ∈ s, c ≠ [])
    (hmem : 8 + s.len ≤ env.maxAlloc) (raw : List UInt8) (hr : raw.length = cs) :
    ∃ m, stringFromRuby env cs s raw = .ok () m ∧
      (stringToRuby env cs m = .ok s.bytes () ↔ ∀ c ∈ s, c.length = 1) := by
  obtain ⟨m, v, h1, _, h2⟩ := C65_string hcs hcs' s hs hmem raw hr
  refine ⟨m, h1, ?_⟩
  rw [h2, ← take_len_iff hs]
  constructor
  · intro h; injection h
  · intro h; rw [h]

/-! ### Theorems: packed arrays -/

theorem num_noTail (k : Nat) : NoTailPad (.num k) := by
  intro X h
  have h1 := congrArg List.reverse h
  simp only [kinds, List.reverse_replicate, List.reverse_append, List.reverse_cons, List.reverse_nil, List.nil_append,
    List.singleton_append] at h1
  cases k with
  | zero => simp at h1
  | succ k => simp [List.replicate_succ] at h1

theorem plain_num (k : Nat) : Plain (.num k) := by
  intro c hc
  simp [kinds] at hc

/-- the chunks of a concatenation of blocks of the same size -/
theorem chunks_flatten (k : Nat) : ∀ (l : List (List UInt8)), (∀ b ∈ l, b.length = k) → chunks k l.length l.flatten = l := by
  intro l
  induction l with
  | nil => intro _; rfl
  | cons b l ih =>
    intro h
    have hb := h b (List.mem_cons_self ..)
    have := ih (fun d hd => h d (List.mem_cons_of_mem _ hd))
    simp only [List.length_cons, List.flatten_cons, chunks]
    rw [List.take_left' hb, List.drop_left' hb, this]

/-- C65, packed containers of numbers: `data` holds the bytes of the elements one after the other, so that reading it by pieces of
the size of the element gives back the elements. -/
theorem C65_packed_container {env : Env} {cs k cap : Nat} (hk : 0 < k) (hkW : k < HALF) (hcs : 0 < cs) (hcs' : cs < HALF)
    (nums : List (List UInt8)) (hnum : ∀ b ∈ nums, b.length = k) (hcap : nums.length * k ≤ cap) (hcap' : cap ≤ env.maxAlloc)
    (hbuf : 8 + nums.length * k ≤ env.maxAlloc) :
    ∃ data, packedContainer env cs (.num k) (.vec cap (nums.flatten.map .byte) :: List.replicate (cs - 1) .tail) = .ok data () ∧
      chunks k nums.length data = nums ∧ data.length = nums.length * k := by
  have hW : HALF < W := by unfold W; decide
  have ht : OkType (.vec cs (.num k)) := ⟨⟨hcs, by omega, hk, by show k < W; omega⟩, trivial, hcs'⟩
  have hl : nums.flatten.length = nums.length * k := by
    clear hcap hbuf
    induction nums with
    | nil => simp
    | cons b l ih =>
      have hb := hnum b (List.mem_cons_self ..)
      have := ih (fun d hd => hnum d (List.mem_cons_of_mem _ hd))
      simp only [List.flatten_cons, List.length_append, List.length_cons, this, hb, Nat.add_mul]
      omega
  have hab : Abs env (rep nums.length (kinds (.num k))) (nums.flatten.map .byte) (nums.flatten.map .b) :=
    abs_plain (fun c hc => plain_num k c (mem_rep hc)) _ (by simp [rep_length, kinds, hl])
  have hv : Valid env (.vec cs (.num k)) (.vec cap (nums.flatten.map .byte) :: (List.replicate (cs - 1) .tail ++ []))
      [.seq nums.length (nums.flatten.map .b)] := .vec hcs hab (by rw [List.length_map, hl]; exact hcap) hcap' .nil
  rw [List.append_nil] at hv
  have henc : encL [.seq nums.length (nums.flatten.map .b)] = le64 nums.length ++ nums.flatten := by
    simp only [encL, AV.enc, encL_bytes, List.append_nil]
  have hd := dump_noTail ht (vec_noTail _ _) hv (by rw [henc]; simp only [List.length_append, le64_length, hl]; omega)
  refine ⟨nums.flatten, ?_, chunks_flatten k nums hnum, hl⟩
  unfold packedContainer
  rw [hd, henc]
  simp only []
  rw [List.drop_left' (le64_length _)]

/-- C65, packed arrays of numbers: the bytes of the elements one after the other, without a count. -/
theorem C65_packed_array {env : Env} {k : Nat} (hk : 0 < k) (nums : List (List UInt8)) (hne : nums ≠ [])
    (hnum : ∀ b ∈ nums, b.length = k) (hbuf : nums.length * k ≤ env.maxAlloc) :
    ∃ data, packedArray env nums.length (.num k) (nums.flatten.map .byte) = .ok data () ∧
      chunks k nums.length data = nums ∧ data.length = nums.length * k := by
  have hmax := env.hmax
  have hpos : 0 < nums.length := List.length_pos_iff.mpr hne
  have hl : nums.flatten.length = nums.length * k := by
    clear hbuf hpos hne
    induction nums with
    | nil => simp
    | cons b l ih =>
      have hb := hnum b (List.mem_cons_self ..)
      have := ih (fun d hd => hnum d (List.mem_cons_of_mem _ hd))
      simp only [List.flatten_cons, List.length_append, List.length_cons, this, hb, Nat.add_mul]
      omega
  have hkle : k ≤ nums.length * k := Nat.le_mul_of_pos_left k hpos
  have ht : OkType (.arr nums.length (.num k)) :=
    ⟨⟨hpos, hk, by show nums.length * k < W; unfold W; omega, by show k < W; unfold W; omega⟩, trivial,
      by simp only [Ty.size, wmul, HALF]; rw [Nat.mod_eq_of_lt (by unfold W; omega)]; omega⟩
  have hkk : kinds (.arr nums.length (.num k)) = List.replicate (nums.length * k) .data := by
    show rep nums.length (List.replicate k Item.data) = _
    rw [rep_replicate]
  have hnt : NoTailPad (.arr nums.length (.num k)) := by
    intro X h
    rw [hkk] at h
    exact num_noTail (nums.length * k) X h
  have hv : Valid env (.arr nums.length (.num k)) (nums.flatten.map .byte) (nums.flatten.map .b) := by
    refine abs_plain ?_ _ ?_
    · intro c hc; rw [hkk] at hc; simp at hc
    · rw [hkk, hl]; simp
  have hd := dump_noTail ht hnt hv (by rw [encL_bytes, hl]; exact hbuf)
  refine ⟨nums.flatten, ?_, chunks_flatten k nums hnum, hl⟩
  unfold packedArray
  rw [hd, encL_bytes]

theorem packCode_big (integer unsigned : Bool) (j : Nat) : packCode integer unsigned (j + 9) = none := by
  cases integer <;> cases unsigned <;> rfl

/-- The pack code that goes with the data names the size of the element; there is one exactly for integers of 1, 2, 4 or 8 bytes and floats of 4
or 8 bytes. -/
theorem C65_pack_code (integer unsigned : Bool) (k : Nat) :
    (∀ c, packCode integer unsigned k = some c → codeSize c = k) ∧
    (packCode integer unsigned k = none ↔ ¬ (k = 4 ∨ k = 8 ∨ (integer = true ∧ (k = 1 ∨ k = 2)))) := by
  by_cases h : 9 ≤ k
  · obtain ⟨j, rfl⟩ : ∃ j, k = j + 9 := ⟨k - 9, by omega⟩
    rw [packCode_big]
    exact ⟨(fun c hc => by cases hc), (fun _ => by omega), (fun _ => rfl)⟩
  · have hk : k = 0 ∨ k = 1 ∨ k = 2 ∨ k = 3 ∨ k = 4 ∨ k = 5 ∨ k = 6 ∨ k = 7 ∨ k = 8 := by omega
    have hg : ∀ o : Option String, (∀ c, o = some c → codeSize c = k) ↔ o.all (fun c => codeSize c == k) = true := by
      intro o
      cases o with
      | none => exact ⟨fun _ => rfl, fun _ c hc => by cases hc⟩
      | some d => exact ⟨fun h => by simpa using h d rfl, fun h c hc => by injection hc with hc; rw [← hc]; simpa using h⟩
    rw [hg]
    cases integer <;> cases unsigned <;> rcases hk with rfl | rfl | rfl | rfl | rfl | rfl | rfl | rfl | rfl <;> decide

end Verif.RubyBytes
