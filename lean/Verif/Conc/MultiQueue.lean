/-
C08. The lock-free broadcast queue `MultiQueue` (clasp/util/multi_queue.h 30-216), as an interleaving of atomic steps.

There are `m` threads (`maxQ_`), each holding one consumer handle obtained from `addThread()`; every thread
may publish and consume. Publishing is either the concurrent `publish` or `unsafePublish`, which callers must serialise
(GlobalDistribution uses the former, Enumerator::SharedQueue the latter).

Every atomic read, write, read-modify-write of the C++ text on shared memory is one step; steps of different threads
interleave arbitrarily (sequential consistency: the code uses `std::atomic` with default ordering).
Writes to memory owned by one thread are merged into one step where nobody else can look.
`operator new` is an oracle that returns an address never returned before (nodes are never given back before the
destructor).

Besides the program state, the state carries history variables (`log`, `fin`, `hist`, `del`, and the bookkeeping
`st`, `fs`, `tp`, `pos`, `dd`, `rc`); no step's effect on the program state depends on them.
-/
import Mathlib.Logic.Function.Basic
import Mathlib.Data.Fintype.Basic
namespace Clasp.MQ

/-- Node addresses; address 0 is the embedded node `head_` (multi_queue.h:210). -/
abbrev Addr := Nat

/-- Program counter of a thread with its local variables. `rx` tells whether the call is `unsafePublish`. -/
inductive PC (T : Type)
  | idle
  -- allocate (186-198) → RawStack::tryPop (39-49)
  | popTop (rx : Bool) (x : T)                                     -- n = top
  | popNext (rx : Bool) (x : T) (n : Addr)                         -- next = n->next
  | popCas (rx : Bool) (x : T) (n : Addr) (nx : Option Addr)       -- compare_and_swap(top, n, next)
  | new (rx : Bool) (x : T)                                        -- operator new
  | init1 (rx : Bool) (x : T) (n : Addr)                           -- n->next = 0
  | init2 (rx : Bool) (x : T) (n : Addr)                           -- n->refs = maxR; new (&n->data) T(in)
  -- publish (157-178), newNode = n
  | pubTail (x : T) (n : Addr)                                     -- assumedTail = tail_
  | pubNext (x : T) (n a : Addr)                                   -- assumedNext = assumedTail->next
  | pubCheck (x : T) (n a : Addr) (an : Option Addr)               -- if (assumedTail != tail_) ... if (assumedNext != 0)
  | pubHelp (x : T) (n a an : Addr)                                -- compare_and_swap(tail_, assumedTail, assumedNext)
  | pubCas (x : T) (n a : Addr)                                    -- compare_and_swap(assumedTail->next, 0, newNode)
  | pubSwing (x : T) (n a : Addr) (i : Nat)                        -- compare_and_swap(tail_, assumedTail, newNode)
  -- publishRelaxed (181-184)
  | rlxTail (x : T) (n : Addr)                                     -- read tail_
  | rlxLink (x : T) (n a : Addr)                                   -- tail->next = n
  | rlxSwing (x : T) (n : Addr) (i : Nat)                          -- tail_ = n
  -- tryConsume (126-136) / pop (141-146), with release (203-209); `rd` = tryConsume
  | conTail (rd : Bool)                                            -- cId != tail_
  | conMove (rd : Bool)                                            -- n = cId; cId = cId->next
  | conDec (rd : Bool) (n : Addr)                                  -- n != &head_ && --refs == 0
  | relNext (rd : Bool) (n : Addr)                                 -- read n->next
  | relHead (rd : Bool) (n : Addr) (nx : Option Addr)              -- head_.next = ...
  | relDel (rd : Bool) (n : Addr)                                  -- deleter_(n->data)
  | push1 (rd : Bool) (n : Addr)                                   -- RawStack::push (50-56): assumedTop = top
  | push2 (rd : Bool) (n : Addr) (tp : Option Addr)                -- n->next = assumedTop
  | push3 (rd : Bool) (n : Addr) (tp : Option Addr)                -- compare_and_swap(top, assumedTop, n)
  | conRead (rd : Bool)                                            -- out = toNode(cId)->data
deriving DecidableEq

/-- Bookkeeping: what an address is used for. -/
inductive Cls (m : Nat)
  | unused
  | free
  | priv (t : Fin m)
  | linked (i : Nat)
deriving DecidableEq

/-- the queue, the handles of the `m` threads and ghost state (multi_queue.h; see the fields) -/
structure St (T : Type) (m : Nat) where
  /-- multi_queue.h:34 `RawNode::next` -/
  next : Addr → Option Addr
  /-- multi_queue.h:82 `Node::refs` -/
  refs : Addr → Int
  /-- multi_queue.h:83 `Node::data`; `none` while no object is alive there -/
  data : Addr → Option T
  /-- multi_queue.h:211 `tail_` -/
  tail : Addr
  /-- multi_queue.h:57,212 `free_.top` -/
  top  : Option Addr
  /-- control state of each thread -/
  pc   : Fin m → PC T
  /-- the `ThreadId` handle of each thread -/
  cur  : Fin m → Addr
  /-- a null pointer was followed or dead data was accessed -/
  bad  : Bool
  -- history
  /-- items in the order in which they were linked into the queue, with their nodes -/
  log  : List (Addr × T)
  /-- publish calls that have returned: position of the item in `log` (from 1) and item -/
  fin  : List (Nat × T)
  /-- what each thread's finished tryConsume (`some item`) and pop (`none`) calls delivered -/
  hist : Fin m → List (Option T)
  /-- items handed to the deleter, in order -/
  del  : List T
  st   : Addr → Cls m
  fs   : List Addr
  tp   : Nat
  pos  : Fin m → Nat
  dd   : Fin m → Nat
  rc   : Nat

variable {T : Type} {m : Nat}

/-- multi_queue.h:88-91 constructor (without `reserve`); 116-118 every thread calls `addThread` (returns `&head_`). -/
def init (T : Type) (m : Nat) : St T m where
  next := fun _ => none
  refs := fun _ => 0
  data := fun _ => none
  tail := 0
  top := none
  pc := fun _ => .idle
  cur := fun _ => 0
  bad := false
  log := []
  fin := []
  hist := fun _ => []
  del := []
  st := fun a => if a = 0 then .linked 0 else .unused
  fs := []
  tp := 0
  pos := fun _ => 0
  dd := fun _ => 0
  rc := 0

/-- What an idle thread may do. -/
inductive Cmd (T : Type)
  | publish (x : T)
  | unsafePublish (x : T)
  | tryConsume
  | pop

/-- Is the thread inside a publish call (`some true`: unsafePublish)? -/
def PC.inPub : PC T → Option Bool
  | .popTop rx _ | .popNext rx _ _ | .popCas rx _ _ _ | .new rx _ | .init1 rx _ _ | .init2 rx _ _ => some rx
  | .pubTail .. | .pubNext .. | .pubCheck .. | .pubHelp .. | .pubCas .. | .pubSwing .. => some false
  | .rlxTail .. | .rlxLink .. | .rlxSwing .. => some true
  | _ => none

/-- The contract of the callers (multi_queue.h:148-152): unsafePublish is never called while another publish is in
progress, nor the other way round. -/
def mayStart (s : St T m) (t : Fin m) : Cmd T → Prop
  | .publish _ => ∀ t', t' ≠ t → (s.pc t').inPub ≠ some true
  | .unsafePublish _ => ∀ t', t' ≠ t → (s.pc t').inPub = none
  | _ => True

/-- entering a call -/
def Cmd.pc : Cmd T → PC T
  | .publish x => .popTop false x
  | .unsafePublish x => .popTop true x
  | .tryConsume => .conTail true
  | .pop => .conTail false

/-- One atomic step of thread `t`; `c` is the call chosen if it is idle, `f` the address `operator new` would return. -/
def step (s : St T m) (t : Fin m) (c : Cmd T) (f : Addr) : St T m :=
  let go (s : St T m) (p : PC T) : St T m := { s with pc := Function.update s.pc t p }
  match s.pc t with
  | .idle => go s c.pc
  -- multi_queue.h:42
  | .popTop rx x => match s.top with
    | none => go s (.new rx x)
    | some n => go s (.popNext rx x n)
  -- 46
  | .popNext rx x n => go s (.popCas rx x n (s.next n))
  -- 47
  | .popCas rx x n nx =>
    if s.top = some n then
      go { s with top := nx, fs := s.fs.tail, st := Function.update s.st n (.priv t) } (.init1 rx x n)
    else go s (.popTop rx x)
  -- 197
  | .new rx x => go { s with st := Function.update s.st f (.priv t) } (.init1 rx x f)
  -- 192 (or 81)
  | .init1 rx x n => go { s with next := Function.update s.next n none } (.init2 rx x n)
  -- 193-195 (or 81), then 158 resp. 154
  | .init2 rx x n =>
    go { s with refs := Function.update s.refs n m, data := Function.update s.data n (some x) }
      (if rx then .rlxTail x n else .pubTail x n)
  -- 161
  | .pubTail x n => go s (.pubNext x n s.tail)
  -- 162
  | .pubNext x n a => go s (.pubCheck x n a (s.next a))
  -- 163-172; `continue` jumps to the loop condition, i.e. to the compare_and_swap of line 173
  | .pubCheck x n a an =>
    if a ≠ s.tail then go s (.pubCas x n a)
    else match an with
      | some an => go s (.pubHelp x n a an)
      | none => go s (.pubCas x n a)
  -- 170
  | .pubHelp x n a an =>
    go (if s.tail = a then { s with tail := an, tp := s.tp + 1 } else s) (.pubCas x n a)
  -- 173
  | .pubCas x n a =>
    if s.next a = none then
      go { s with next := Function.update s.next a (some n), log := s.log ++ [(n, x)],
                  st := Function.update s.st n (.linked (s.log.length + 1)) } (.pubSwing x n a (s.log.length + 1))
    else go s (.pubTail x n)
  -- 177
  | .pubSwing x n a i =>
    go (if s.tail = a then { s with tail := n, tp := s.tp + 1, fin := s.fin ++ [(i, x)] }
        else { s with fin := s.fin ++ [(i, x)] }) .idle
  -- 182
  | .rlxTail x n => go s (.rlxLink x n s.tail)
  | .rlxLink x n a =>
      go { s with next := Function.update s.next a (some n), log := s.log ++ [(n, x)],
                  st := Function.update s.st n (.linked (s.log.length + 1)) } (.rlxSwing x n (s.log.length + 1))
  -- 183
  | .rlxSwing x n i => go { s with tail := n, tp := s.tp + 1, fin := s.fin ++ [(i, x)] } .idle
  -- 127 (and hasItems, 119)
  | .conTail rd => if s.cur t = s.tail then go s .idle else go s (.conMove rd)
  -- 128-130, 143-144
  | .conMove rd =>
    match s.next (s.cur t) with
    | none => go { s with bad := true } .idle
    | some a => go { s with cur := Function.update s.cur t a, pos := Function.update s.pos t (s.pos t + 1) }
                  (.conDec rd (s.cur t))
  -- 204
  | .conDec rd n =>
    let s' := { s with dd := Function.update s.dd t (s.dd t + 1) }
    if n = 0 then go s' (.conRead rd)
    else
      let r := s.refs n - 1
      if r = 0 then
        go { s' with refs := Function.update s.refs n r, rc := s.rc + 1, st := Function.update s.st n (.priv t) } (.relNext rd n)
      else go { s' with refs := Function.update s.refs n r } (.conRead rd)
  -- 205
  | .relNext rd n => go s (.relHead rd n (s.next n))
  | .relHead rd n nx => go { s with next := Function.update s.next 0 nx } (.relDel rd n)
  -- 206
  | .relDel rd n =>
    match s.data n with
    | none => go { s with bad := true } (.push1 rd n)
    | some x => go { s with data := Function.update s.data n none, del := s.del ++ [x] } (.push1 rd n)
  -- 207, 50-56
  | .push1 rd n => go s (.push2 rd n s.top)
  | .push2 rd n tp => go { s with next := Function.update s.next n tp } (.push3 rd n tp)
  | .push3 rd n tp =>
    if s.top = tp then
      go { s with top := some n, fs := n :: s.fs, st := Function.update s.st n .free } (.conRead rd)
    else go s (.push1 rd n)
  -- 132
  | .conRead rd =>
    if rd then
      match s.data (s.cur t) with
      | none => go { s with bad := true } .idle
      | some x => go { s with hist := Function.update s.hist t (s.hist t ++ [some x]) } .idle
    else go { s with hist := Function.update s.hist t (s.hist t ++ [none]) } .idle

/-- All runs: any number of steps of any threads in any order. -/
inductive Reachable : St T m → Prop
  | init : Reachable (init T m)
  | step {s} (t : Fin m) (c : Cmd T) (f : Addr) :
      Reachable s → (s.pc t = .idle → mayStart s t c) → s.st f = .unused → Reachable (step s t c f)

/-- multi_queue.h:100-106 destructor, first loop (all threads idle): the nodes visited from `head_.next` and the items
handed to the deleter. `fuel` bounds the number of nodes. -/
def destroy (s : St T m) : Nat → Option Addr → List (Option T)
  | 0, _ => []
  | _, none => []
  | k + 1, some a => s.data a :: destroy s k (s.next a)

end Clasp.MQ
