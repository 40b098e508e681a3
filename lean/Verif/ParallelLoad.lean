import Verif.Basic

/-!
# Loading C++ headers with several threads (`GCCXMLLoader.load`)

`Registry#import` of a C++ header ends in `GCCXMLLoader.load`
(bindings/ruby/lib/typelib/gccxml.rb:1041-1099).  The call hands every required
file to an external tool (`castxml` or `gccxml`), converts each XML output into
a registry, and finally merges these registries into the registry given by the
caller.  With `parallel_level` above one the tool calls run in
`parallel_level - 1` Ruby threads, the conversions in one more, the three
communicate by `Queue`s, and a job server (a pool of tokens shared with `make`)
limits how many of them work at the same time.

The model is a transition system: one step is one operation on a queue, one
operation on the job server, one tool call returning, or one thread ending.
Ruby's `Queue` operations are atomic and every interleaving of these steps is
an execution of the model.  The outcome of a tool call or of a conversion is
chosen by the environment at the moment of the call; it may be an exception.

Not modelled: exceptions thrown into a thread from outside (`Interrupt`,
`Thread#raise`), failures to create a thread, a job server whose own methods
raise, and the contents of XML files and registries (types `X`, `R`, `G` below;
the conversion itself is the subject of C71, merging of C29).
-/

namespace Verif.PLoad

/-- How a block of Ruby code run by one of the two thread bodies ends.
`quiet` stands for the exceptions the thread body swallows: `ThreadError`
(gccxml.rb:1115, meant for the empty queue) and `StopIteration` (rescued by
`Kernel#loop`, gccxml.rb:1104 and 1124) in a parsing thread, `StopIteration` in
the registry thread.  `err` stands for every other exception. -/
inductive Outcome (α E : Type) where
  | ok (a : α)
  | err (e : E)
  | quiet

/-- What `load` is run with.  `parse f o`: the tool may end with `o` on file `f`
(`castxml`/`gccxml`, gccxml.rb:958-1023); `conv x o`:
`registry_from_gccxml_output` may end with `o` on the XML `x`
(gccxml.rb:1139-1143); `merge g r`: `Registry#merge`, the new contents of the
registry and the exception if it raised (gccxml.rb:1098); `shared`: other
processes take tokens from and give tokens to the job server. -/
structure Tools (F X R G E : Type) where
  parse : F → Outcome X E → Prop
  conv : X → Outcome R E → Prop
  merge : G → R → G × Option E
  shared : Bool

/-- What can be seen from outside: tool calls and conversions as they return,
the merges, and the traffic with the job server. -/
inductive Event (F X R E : Type) where
  | parsed (f : F) (o : Outcome X E)
  | converted (x : X) (o : Outcome R E)
  | merged (r : R) (e : Option E)
  | acquire
  | release
  | silent

/-- Where a parsing thread is in `parsing_thread` (gccxml.rb:1101-1121):
`start` before `in_queue.pop(true)`; `want f` inside `job_server.get`, before
its block; `run f` inside the block; `push x` before `out_queue.push`;
`clear1`/`clear2` before the two `clear` calls of the rescue clause; `ended`
returned; `dead e` ended by the exception `e`. -/
inductive PState (F X E : Type) where
  | start
  | want (f : F)
  | run (f : F)
  | push (x : X)
  | clear1 (e : E)
  | clear2 (e : E)
  | ended
  | dead (e : E)

/-- Where the registry thread is in `registry_thread` (gccxml.rb:1123-1137). -/
inductive RState (X R E : Type) where
  | pop
  | want (x : X)
  | run (x : X)
  | push (r : R)
  | clear1 (e : E)
  | clear2 (e : E)
  | ended
  | dead (e : E)

/-- Where the calling thread is in `load` (gccxml.rb:1064-1098): `put` before
`job_server.put`; `join i` waiting for the `i`-th parsing thread's value;
`nil`/`nilE e` before `xml_queue.push(nil)`, normally or with `e` propagating;
`joinR` waiting for the registry thread; `get`/`getE e` in the `job_server.get`
of the outer `ensure`; `merge` in the final loop; `done` returned; `raised e`
left by the exception `e`. -/
inductive MState (E : Type) where
  | put
  | join (i : Nat)
  | nil
  | nilE (e : E)
  | joinR
  | get
  | getE (e : E)
  | merge
  | done
  | raised (e : E)

/-- The shared state: the three queues (gccxml.rb:1053-1056), the states of the
threads, the job server's tokens (`none`: the `NullJobServer` of
gccxml.rb:1033-1039, which never blocks) and the caller's registry. -/
structure St (F X R G E : Type) where
  fileQ : List F
  xmlQ : List (Option X)
  regQ : List R
  ps : List (PState F X E)
  r : RState X R E
  m : MState E
  pool : Option Nat
  reg : G

/-- `job_server.get`: blocks (`none`) while the pool has no token. -/
def take : Option Nat → Option (Option Nat)
  | none => some none
  | some 0 => none
  | some (n + 1) => some (some n)

/-- `job_server.put`. -/
def give : Option Nat → Option Nat
  | none => none
  | some n => some (n + 1)

variable {F X R G E : Type}

/-- One step of a parsing thread, on the file queue, the XML queue, the token
pool and its own state (`parsing_thread`, gccxml.rb:1101-1121).
`job_server.get` with a block takes a token, runs the block and gives the token
back whichever way the block ends. -/
inductive PStep (T : Tools F X R G E) :
    List F × List (Option X) × Option Nat × PState F X E → Event F X R E →
    List F × List (Option X) × Option Nat × PState F X E → Prop where
  | pop (f : F) (fq : List F) (xq : List (Option X)) (k : Option Nat) :
      PStep T (f :: fq, xq, k, .start) .silent (fq, xq, k, .want f)
  | empty (xq : List (Option X)) (k : Option Nat) :
      PStep T ([], xq, k, .start) .silent ([], xq, k, .ended)
  | acquire (f : F) (fq : List F) (xq : List (Option X)) (k k' : Option Nat) :
      take k = some k' →
      PStep T (fq, xq, k, .want f) .acquire (fq, xq, k', .run f)
  | ok (f : F) (x : X) (fq : List F) (xq : List (Option X)) (k : Option Nat) :
      T.parse f (.ok x) →
      PStep T (fq, xq, k, .run f) (.parsed f (.ok x)) (fq, xq, give k, .push x)
  | err (f : F) (e : E) (fq : List F) (xq : List (Option X)) (k : Option Nat) :
      T.parse f (.err e) →
      PStep T (fq, xq, k, .run f) (.parsed f (.err e)) (fq, xq, give k, .clear1 e)
  | quiet (f : F) (fq : List F) (xq : List (Option X)) (k : Option Nat) :
      T.parse f .quiet →
      PStep T (fq, xq, k, .run f) (.parsed f .quiet) (fq, xq, give k, .ended)
  | push (x : X) (fq : List F) (xq : List (Option X)) (k : Option Nat) :
      PStep T (fq, xq, k, .push x) .silent (fq, xq ++ [some x], k, .start)
  | clear1 (e : E) (fq : List F) (xq : List (Option X)) (k : Option Nat) :
      PStep T (fq, xq, k, .clear1 e) .silent ([], xq, k, .clear2 e)
  | clear2 (e : E) (fq : List F) (xq : List (Option X)) (k : Option Nat) :
      PStep T (fq, xq, k, .clear2 e) .silent (fq, [], k, .dead e)

/-- One step of the registry thread, on the XML queue, the registry queue, the
token pool and its own state (`registry_thread`, gccxml.rb:1123-1137). -/
inductive RStep (T : Tools F X R G E) :
    List (Option X) × List R × Option Nat × RState X R E → Event F X R E →
    List (Option X) × List R × Option Nat × RState X R E → Prop where
  | pop (x : X) (xq : List (Option X)) (rq : List R) (k : Option Nat) :
      RStep T (some x :: xq, rq, k, .pop) .silent (xq, rq, k, .want x)
  | last (xq : List (Option X)) (rq : List R) (k : Option Nat) :
      RStep T (none :: xq, rq, k, .pop) .silent (xq, rq, k, .ended)
  | acquire (x : X) (xq : List (Option X)) (rq : List R) (k k' : Option Nat) :
      take k = some k' →
      RStep T (xq, rq, k, .want x) .acquire (xq, rq, k', .run x)
  | ok (x : X) (r : R) (xq : List (Option X)) (rq : List R) (k : Option Nat) :
      T.conv x (.ok r) →
      RStep T (xq, rq, k, .run x) (.converted x (.ok r)) (xq, rq, give k, .push r)
  | err (x : X) (e : E) (xq : List (Option X)) (rq : List R) (k : Option Nat) :
      T.conv x (.err e) →
      RStep T (xq, rq, k, .run x) (.converted x (.err e)) (xq, rq, give k, .clear1 e)
  | quiet (x : X) (xq : List (Option X)) (rq : List R) (k : Option Nat) :
      T.conv x .quiet →
      RStep T (xq, rq, k, .run x) (.converted x .quiet) (xq, rq, give k, .ended)
  | push (r : R) (xq : List (Option X)) (rq : List R) (k : Option Nat) :
      RStep T (xq, rq, k, .push r) .silent (xq, rq ++ [r], k, .pop)
  | clear1 (e : E) (xq : List (Option X)) (rq : List R) (k : Option Nat) :
      RStep T (xq, rq, k, .clear1 e) .silent ([], rq, k, .clear2 e)
  | clear2 (e : E) (xq : List (Option X)) (rq : List R) (k : Option Nat) :
      RStep T (xq, rq, k, .clear2 e) .silent (xq, [], k, .dead e)

/-- One step of the whole program.  `main*`: the calling thread, gccxml.rb:1078-1098
(`Thread#value` waits for the thread and raises its exception). -/
inductive Step (T : Tools F X R G E) :
    St F X R G E → Event F X R E → St F X R G E → Prop where
  | parser (s : St F X R G E) (l r : List (PState F X E)) (p p' : PState F X E)
      (ev : Event F X R E) (fq : List F) (xq : List (Option X)) (k : Option Nat) :
      s.ps = l ++ p :: r →
      PStep T (s.fileQ, s.xmlQ, s.pool, p) ev (fq, xq, k, p') →
      Step T s ev { s with fileQ := fq, xmlQ := xq, pool := k, ps := l ++ p' :: r }
  | registry (s : St F X R G E) (r' : RState X R E)
      (ev : Event F X R E) (xq : List (Option X)) (rq : List R) (k : Option Nat) :
      RStep T (s.xmlQ, s.regQ, s.pool, s.r) ev (xq, rq, k, r') →
      Step T s ev { s with xmlQ := xq, regQ := rq, pool := k, r := r' }
  | mainPut (s : St F X R G E) : s.m = .put →
      Step T s .release { s with pool := give s.pool, m := .join 0 }
  | mainJoin (s : St F X R G E) (i : Nat) : s.m = .join i → s.ps[i]? = some .ended →
      Step T s .silent { s with m := .join (i + 1) }
  | mainJoinErr (s : St F X R G E) (i : Nat) (e : E) : s.m = .join i →
      s.ps[i]? = some (.dead e) → Step T s .silent { s with m := .nilE e }
  | mainJoined (s : St F X R G E) : s.m = .join s.ps.length →
      Step T s .silent { s with m := .nil }
  | mainNil (s : St F X R G E) : s.m = .nil →
      Step T s .silent { s with xmlQ := s.xmlQ ++ [none], m := .joinR }
  | mainNilErr (s : St F X R G E) (e : E) : s.m = .nilE e →
      Step T s .silent { s with xmlQ := s.xmlQ ++ [none], m := .getE e }
  | mainJoinR (s : St F X R G E) : s.m = .joinR → s.r = .ended →
      Step T s .silent { s with m := .get }
  | mainJoinRErr (s : St F X R G E) (e : E) : s.m = .joinR → s.r = .dead e →
      Step T s .silent { s with m := .getE e }
  | mainGet (s : St F X R G E) (k : Option Nat) : s.m = .get → take s.pool = some k →
      Step T s .acquire { s with pool := k, m := .merge }
  | mainGetErr (s : St F X R G E) (e : E) (k : Option Nat) : s.m = .getE e →
      take s.pool = some k → Step T s .acquire { s with pool := k, m := .raised e }
  | mainMerge (s : St F X R G E) (r : R) (rq : List R) (g : G) : s.m = .merge →
      s.regQ = r :: rq → T.merge s.reg r = (g, none) →
      Step T s (.merged r none) { s with regQ := rq, reg := g }
  | mainMergeErr (s : St F X R G E) (r : R) (rq : List R) (g : G) (e : E) : s.m = .merge →
      s.regQ = r :: rq → T.merge s.reg r = (g, some e) →
      Step T s (.merged r (some e)) { s with regQ := rq, reg := g, m := .raised e }
  | mainDone (s : St F X R G E) : s.m = .merge → s.regQ = [] →
      Step T s .silent { s with m := .done }

/-- Other processes change the number of tokens in a shared pool. -/
inductive Other (T : Tools F X R G E) : St F X R G E → St F X R G E → Prop where
  | mk (s : St F X R G E) (n n' : Nat) : T.shared = true → s.pool = some n →
      Other T s { s with pool := some n' }

/-- The state once `load` has created its queues and threads, for
`parallel_level = k + 1` (gccxml.rb:1046-1076).  A thread which `load` has not
created yet behaves as one which has not been scheduled yet. -/
def start (files : List F) (k : Nat) (pool : Option Nat) (g : G) : St F X R G E where
  fileQ := files
  xmlQ := []
  regQ := []
  ps := List.replicate k .start
  r := .pop
  m := .put
  pool := pool
  reg := g

/-- The executions from `s0`: what has been seen so far and the current state. -/
inductive Run (T : Tools F X R G E) (s0 : St F X R G E) :
    List (Event F X R E) → St F X R G E → Prop where
  | init : Run T s0 [] s0
  | step {tr : List (Event F X R E)} {s s' : St F X R G E} {ev : Event F X R E} :
      Run T s0 tr s → Step T s ev s' → Run T s0 (tr ++ [ev]) s'
  | other {tr : List (Event F X R E)} {s s' : St F X R G E} :
      Run T s0 tr s → Other T s s' → Run T s0 tr s'

/-! ## Reading a history -/

/-- The files the tool was called on. -/
def parsedFiles : List (Event F X R E) → List F
  | [] => []
  | .parsed f _ :: tr => f :: parsedFiles tr
  | _ :: tr => parsedFiles tr

/-- The XML documents the tool has produced. -/
def produced : List (Event F X R E) → List X
  | [] => []
  | .parsed _ (.ok x) :: tr => x :: produced tr
  | _ :: tr => produced tr

/-- The XML documents that were converted (or whose conversion failed). -/
def convertedXml : List (Event F X R E) → List X
  | [] => []
  | .converted x _ :: tr => x :: convertedXml tr
  | _ :: tr => convertedXml tr

/-- The registries which the conversions have returned. -/
def results : List (Event F X R E) → List R
  | [] => []
  | .converted _ (.ok r) :: tr => r :: results tr
  | _ :: tr => results tr

/-- The registries merged into the caller's, in that order. -/
def mergedRegs : List (Event F X R E) → List R
  | [] => []
  | .merged r _ :: tr => r :: mergedRegs tr
  | _ :: tr => mergedRegs tr

/-- The exceptions raised by the tool or by a conversion. -/
def failures : List (Event F X R E) → List E
  | [] => []
  | .parsed _ (.err e) :: tr => e :: failures tr
  | .converted _ (.err e) :: tr => e :: failures tr
  | _ :: tr => failures tr

/-- The exceptions raised by merges. -/
def mergeFailures : List (Event F X R E) → List E
  | [] => []
  | .merged _ (some e) :: tr => e :: mergeFailures tr
  | _ :: tr => mergeFailures tr

/-- The number of exceptions which the threads swallow. -/
def swallowed : List (Event F X R E) → Nat
  | [] => 0
  | .parsed _ .quiet :: tr => swallowed tr + 1
  | .converted _ .quiet :: tr => swallowed tr + 1
  | _ :: tr => swallowed tr

/-- Tokens taken from the job server. -/
def acquired : List (Event F X R E) → Nat
  | [] => 0
  | .acquire :: tr => acquired tr + 1
  | _ :: tr => acquired tr

/-- Tokens given (back) to the job server: explicitly, or when the block of a
`job_server.get` ends. -/
def released : List (Event F X R E) → Nat
  | [] => 0
  | .release :: tr => released tr + 1
  | .parsed _ _ :: tr => released tr + 1
  | .converted _ _ :: tr => released tr + 1
  | _ :: tr => released tr

/-- The registry after merging a list of registries into it, one by one, when
every merge succeeds. -/
inductive MergeAll (T : Tools F X R G E) : G → List R → G → Prop where
  | nil (g : G) : MergeAll T g [] g
  | snoc {g g1 g2 : G} {rs : List R} {r : R} : MergeAll T g rs g1 → T.merge g1 r = (g2, none) →
      MergeAll T g (rs ++ [r]) g2

/-- `load` has returned or raised. -/
def Finished : MState E → Prop
  | .done => True
  | .raised _ => True
  | _ => False

end Verif.PLoad
