import Verif.Basic

/-!
Model of `typelib/typename.cc` and of `nameSort` (`typelib/registry.cc`).
-/

namespace Verif.Names
open Verif

/-- `'/'`: `NamespaceMark` (typename.hh:11, the separator of namespaces). -/
def mark : Char := '/'

/-- `Typelib::nameSort` (registry.cc:25-44). `key` is the numeric value of a `char` on the platform
(`c1 < c2` compares `char`s, which may be signed). The index loop is a recursion on both strings. -/
def nameSort (key : Char → Int) : Str → Str → Bool
  | [], [] => false                 -- name1.length() < name2.length()
  | [], _ :: _ => true
  | _ :: _, [] => false             -- name2.length() <= i
  | c1 :: r1, c2 :: r2 =>
    if c1 ≠ c2 then
      if c1 = '/' then true
      else if c2 = '/' then false
      else decide (key c1 < key c2)
    else nameSort key r1 r2

/-- `isAbsoluteName` (typename.cc:42-46). -/
def isAbsoluteName : Str → Bool
  | [] => false
  | c :: _ => c == '/'

/-- The character test of `isValidIdentifier` (typename.cc:32); `isalnum` in the "C" locale. -/
def identChar (c : Char) : Bool :=
  c == '_' || c == ' ' || c.isAlphanum || c == '<' || c == '>'

/-- `isValidIdentifier` (typename.cc:24-37). -/
def isValidIdentifier (s : Str) : Bool := !s.isEmpty && s.all identChar

/-- characters of `"-0123456789"` (typename.cc:50). -/
def intChar (c : Char) : Bool := c == '-' || c.isDigit

/-- `isValidTypeBasename` (typename.cc:48-66). `s[0]` of an empty `std::string` is `'\0'`.
With `s = "*…"` and no leading '/' the C++ takes `modifiers - pos = 0` characters, with `"/*"`, one
position after the slash: both are `takeWhile`. -/
def isValidTypeBasename (s : Str) (absolute acceptInts : Bool) : Bool :=
  if acceptInts && s.all intChar then true
  else if absolute && s.head? != some '/' then false
  else
    let body := if s.head? == some '/' then s.drop 1 else s
    isValidIdentifier (body.takeWhile (fun c => c != '*' && c != '['))

/-- Main loop of `splitTypename` (typename.cc:76-92). `cur` is the text between `start_pos` and `i`. -/
def splitGo (lvl : Int) (cur : Str) : Str → List Str
  | [] => if cur.isEmpty then [] else [cur]
  | c :: r =>
    if c = '/' then
      if lvl = 0 then cur :: splitGo lvl [] r else splitGo lvl (cur ++ [c]) r
    else if c = '<' then splitGo (lvl + 1) (cur ++ [c]) r
    else if c = '>' then splitGo (lvl - 1) (cur ++ [c]) r
    else splitGo lvl (cur ++ [c]) r

/-- `splitTypename` (typename.cc:68-95). -/
def splitTypename : Str → List Str
  | '/' :: r => splitGo 0 [] r
  | s => splitGo 0 [] s

/-- `getNormalizedNamespace` (typename.cc:212-217). -/
def getNormalizedNamespace (name : Str) : Str :=
  if name.isEmpty then ['/']
  else if name.getLast? ≠ some '/' then name ++ ['/']
  else name

/-- `isInNamespace` (typename.cc:200-210). -/
def isInNamespace (type nspace : Str) (recursive : Bool) : Bool :=
  let norm := getNormalizedNamespace nspace
  if type.take norm.length ≠ norm then false
  else if recursive then true
  else (splitTypename (type.drop norm.length)).length == 1

/-- `getTypename` (typename.cc:219-225). -/
def getTypename (name : Str) : Str := ((splitTypename name).getLast?).getD []

/-- `getNamespace` (typename.cc:284-297). -/
def getNamespace (name : Str) : Str :=
  match splitTypename name with
  | [] => ['/']
  | l => (l.dropLast.flatMap (fun c => '/' :: c)) ++ ['/']

/-- `getRelativeName` (typename.cc:227-233). `*ns.rbegin()` on an empty string is undefined;
`std::string(name, size, npos)` throws `std::out_of_range` past the end. -/
def getRelativeName (name ns : Str) : Res Str :=
  if ns.isEmpty then .ub
  else
    let size := if ns.getLast? ≠ some '/' then ns.length + 1 else ns.length
    if size > name.length then .exn .outOfRange else .ok (name.drop size)

/-- `std::string::find(pat) != npos`. -/
def strFind : Str → Str → Bool
  | [], pat => pat.isPrefixOf []
  | c :: s, pat => pat.isPrefixOf (c :: s) || strFind s pat

/-- the common prefix of two token lists, and what is left of the first one
(loop of typename.cc:251-258, plus iterator `it1`). -/
def commonTokens : List Str → List Str → List Str × List Str
  | a :: as, b :: bs =>
    if a = b then let (c, r) := commonTokens as bs; (a :: c, r) else ([], a :: as)
  | as, _ => ([], as)

/-- the disambiguation loop of typename.cc:271-275; `common` is kept in reverse, so that
`common_tokens.back()` is the head. -/
def disambiguate (ns : Str) : List Str → Str → List Str × Str
  | [], result => ([], result)
  | c :: cs, result =>
    if strFind ns result then disambiguate ns cs (c ++ '/' :: result) else (c :: cs, result)

/-- `getMinimalPathTo` (typename.cc:235-282). `*it1` at `tok1.end()` is undefined behaviour
(typename.cc:266); it happens when the type's namespace is a token-wise prefix of `ns`. -/
def getMinimalPathTo (fullName ns : Str) : Res Str :=
  let typeNs := getNamespace fullName
  if isInNamespace fullName ns true then getRelativeName (getNamespace fullName) ns
  else if strFind ns typeNs || strFind ns fullName then .ok typeNs
  else
    let tok1 := splitTypename typeNs
    let tok2 := splitTypename ns
    let (common, rest) := commonTokens tok1 tok2
    if common.isEmpty then .ok typeNs
    else
      match rest with
      | [] => .ub
      | x :: xs =>
        let result := x ++ xs.flatMap (fun t => '/' :: t)
        let (common', result') := disambiguate ns common.reverse result
        if common'.isEmpty then .ok typeNs
        else if result'.isEmpty then .ok result'
        else .ok (result' ++ ['/'])

/-- `boost::tokenizer` with `char_separator("/", "")` (typename.hh:15-20): the non-empty
pieces between separators. -/
def tokensGo (cur : Str) : Str → List Str
  | [] => if cur.isEmpty then [] else [cur]
  | c :: r =>
    if c = '/' then (if cur.isEmpty then [] else [cur]) ++ tokensGo [] r
    else tokensGo (cur ++ [c]) r

def tokens (s : Str) : List Str := tokensGo [] s

/-- `isValidNamespace` (typename.cc:183-198). Inside `namespace Typelib` the name `NameTokenizer`
denotes the header's tokenizer, which drops empty tokens. -/
def isValidNamespace (name : Str) (absolute : Bool) : Bool :=
  if name.isEmpty then false
  else if absolute && name.head? != some '/' then false
  else (tokens name).all isValidIdentifier

/-- `s[i]`, which is `'\0'` at the end of a `std::string`. -/
def charAt (s : Str) (i : Nat) : Char := (s[i]?).getD '\x00'

/-- `string(s, b, e - b)`. -/
def sub (s : Str) (b e : Nat) : Str := (s.drop b).take (e - b)

mutual
/-- `isValidTypename(s, pos, absolute, accept_integers)` (typename.cc:97-174); the result is the pair
(valid, end position). Fuel bounds the recursion; `none` means "out of fuel". Integers are not
expected to overflow (`int` positions: names shorter than 2^31). -/
def validTn (fuel : Nat) (s : Str) (pos : Nat) (absolute acceptInts : Bool) : Option (Bool × Nat) :=
  match fuel with
  | 0 => none
  | f + 1 => validLoop f s (if charAt s pos = '/' then pos + 1 else pos) pos absolute acceptInts

/-- the `for` loop of typename.cc:103-173, from index `i` with the given `start_pos`. -/
def validLoop (fuel : Nat) (s : Str) (i startPos : Nat) (absolute acceptInts : Bool) :
    Option (Bool × Nat) :=
  match fuel with
  | 0 => none
  | f + 1 =>
    if i < s.length then
      let c := charAt s i
      if c = '/' then
        if !isValidTypeBasename (sub s startPos i) absolute acceptInts then some (false, i)
        else validLoop f s (i + 1) i absolute acceptInts
      else if c = '<' then
        if !isValidTypeBasename (sub s startPos i) absolute acceptInts then some (false, i)
        else
          match validArgs f s i with
          | none => none
          | some (false, j) => some (false, j)
          | some (true, j) =>
            if j + 1 < s.length then
              if charAt s (j + 1) = '/' then validLoop f s (j + 2) (j + 1) absolute acceptInts
              else if charAt s (j + 1) ≠ '>' ∧ charAt s (j + 1) ≠ '[' ∧ charAt s (j + 1) ≠ ',' then
                some (false, j + 1)
              else validLoop f s (j + 1) (j + 1) absolute acceptInts
            else validLoop f s (j + 1) (j + 1) absolute acceptInts
      else if c = '[' then
        if startPos ≠ i ∧ !isValidTypeBasename (sub s startPos i) absolute acceptInts then some (false, i)
        else if i + 1 = s.length then some (false, i)
        else validLoop f s (i + 1) (i + 1) absolute acceptInts
      else if c = ']' then
        if startPos = i then some (false, startPos)
        else if (sub s startPos i).any (fun d => !d.isDigit) then some (false, startPos)
        else if i + 1 < s.length then
          if charAt s (i + 1) = '/' then validLoop f s (i + 2) (i + 1) absolute acceptInts
          else if charAt s (i + 1) ≠ '>' ∧ charAt s (i + 1) ≠ '[' then some (false, i + 1)
          else validLoop f s (i + 1) (i + 1) absolute acceptInts
        else validLoop f s (i + 1) (i + 1) absolute acceptInts
      else if c = '>' ∨ c = ',' then
        some (isValidTypeBasename (sub s startPos i) true true, i)
      else validLoop f s (i + 1) startPos absolute acceptInts
    else
      if startPos ≠ s.length then
        some (isValidTypeBasename (sub s startPos s.length) absolute acceptInts, s.length)
      else some (true, s.length)

/-- the `while (s[i] != '>')` loop over template arguments (typename.cc:116-125). Returns the position
of the closing '>', or the rejection. -/
def validArgs (fuel : Nat) (s : Str) (i : Nat) : Option (Bool × Nat) :=
  match fuel with
  | 0 => none
  | f + 1 =>
    if charAt s i = '>' then some (true, i)
    else
      match validTn f s (i + 1) true true with
      | none => none
      | some (ok, j) =>
        if !ok then some (false, j)
        else if j = s.length ∨ (charAt s j ≠ ',' ∧ charAt s j ≠ '>') then some (false, j)
        else validArgs f s j
end

/-- fuel that is always enough, see `NameProps.isValidTypename_total`. -/
def nameFuel (s : Str) : Nat := 4 * s.length + 8

/-- `isValidTypename(name, absolute)` (typename.cc:176-181). -/
def isValidTypename (name : Str) (absolute : Bool) : Bool :=
  if name.isEmpty then false
  else match validTn (nameFuel name) name 0 absolute false with
    | some (b, _) => b
    | none => false

end Verif.Names
