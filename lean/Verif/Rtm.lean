import Verif.Base

/-!
# Spinlocks with hardware lock elision

`spinlock_rtm` (`include/boost/fiber/detail/spinlock_rtm.hpp`), the spinlock of a library built with
`BOOST_USE_TSX`, over an abstract transactional memory in the style of Intel's RTM
(`include/boost/fiber/detail/rtm.hpp`).

A transaction buffers its writes and remembers the locations it has read and written; it can be rolled
back at any moment, with any status, for no reason at all (the hardware gives no guarantee that a
transaction ever commits). Transactions are flattened: a nested `XBEGIN` only increments a depth and a
rollback undoes the outermost transaction. A write that becomes visible - a plain store, or a commit -
dooms every other transaction that has read or written the location: it can do nothing any more but be
rolled back. (The hardware detects some conflicts earlier; since rollbacks are possible at any moment
that is a special case.) Without transactions memory is sequentially consistent here.

The threads run arbitrary programs that lock, try to lock, unlock, read and write. A program is a
function from what its thread has done so far to what it wants to do next; a rollback takes a thread back
to an earlier past.

Simplifications: `splk_` is `spinlock_ttas` or `spinlock_ttas_adaptive`, whose `lock` is an exchange that
is repeated until it succeeds (`spinlock_ttas.hpp:87`; the reads before it are only delays, see
`Verif.Spinlock`). With the futex variants `spinlock_rtm` does not compile: they have no member `state_`.
Delays (`cpu_relax`, `yield`, the random back-off of `spinlock_rtm.hpp:57-68`) are left to the schedule.
-/

namespace Verif.Rtm

abbrev Tid := Nat
abbrev Lock := Nat
abbrev Addr := Nat

/-- A memory location: the word `state_` of a lock (`spinlock_ttas.hpp:34`) or an object of the user. -/
inductive Loc where
  | state (l : Lock)
  | data (a : Addr)
  deriving DecidableEq, Repr

/-- `spinlock_status::locked`, `spinlock_status.hpp:15`. -/
def locked : Nat := 0
/-- `spinlock_status::unlocked`, `spinlock_status.hpp:16`. -/
def unlocked : Nat := 1

/-- What a thread can ask for next. -/
inductive Req where
  | lock (l : Lock)
  | tryLock (l : Lock)
  | unlock (l : Lock)
  | read (a : Addr)
  | write (a : Addr) (v : Nat)
  deriving DecidableEq, Repr

/-- What a thread has done: the completed requests with their results. -/
inductive Done where
  | acquired (l : Lock)
  | failed (l : Lock)
  | released (l : Lock)
  | got (a : Addr) (v : Nat)
  | put (a : Addr) (v : Nat)
  deriving DecidableEq, Repr

/-- Completed operations of all threads, the latest first. -/
abbrev Hist := List (Tid × Done)

/-- What one thread has done, the latest first. -/
def mine (h : Hist) (t : Tid) : List Done := (h.filter (fun e => e.1 == t)).map (fun e => e.2)

/-- The programs of the threads: given the past of its thread, what it wants next (`none`: it has ended). -/
abbrev Prog := Tid → List Done → Option Req

/-- `rtm_status`, `rtm.hpp:26-38`: why a transaction was rolled back (the bits that the code looks at). -/
structure Status where
  explicitAbort : Bool
  mayRetry : Bool
  conflict : Bool
  nested : Bool
  deriving DecidableEq, Repr

/-- Where a thread is. `begin_ l r`, `check l r`, `wait l r`, `fall l`: in `lock` (before `rtm_begin` in
round `r`, `spinlock_rtm.hpp:40-42`; before the load of `state_`, `:44`; in the loop that waits for the
lock to become free, `:74`; before the exchange of the fallback, `:99` and `spinlock_ttas.hpp:87`).
`tbegin l`, `tcheck l`: in `try_lock` (`:103`, `:108`). `unl l`, `xend l`, `fin l`: in `unlock` (`:117`,
`:118`, `:120` and `spinlock_ttas.hpp:112`). `fault`: the processor has raised a fault, since `XEND` was
executed outside of a transaction. `run`: in the program. -/
inductive Pc where
  | run
  | begin_ (l : Lock) (r : Nat)
  | check (l : Lock) (r : Nat)
  | wait (l : Lock) (r : Nat)
  | fall (l : Lock)
  | tbegin (l : Lock)
  | tcheck (l : Lock)
  | unl (l : Lock)
  | xend (l : Lock)
  | fin (l : Lock)
  | fault
  deriving DecidableEq, Repr

/-- A transaction: its nesting depth, where it began (`ret`), the locations read, the buffered writes
(the latest first), what the thread has done in it (the latest first), whether it is doomed. `held` is a
ghost: the locks that are held by speculation. -/
structure Tx where
  depth : Nat
  ret : Pc
  rs : List Loc
  ws : List (Loc × Nat)
  log : List Done
  held : List Lock
  doomed : Bool
  deriving DecidableEq, Repr

/-- A thread. `rollbacks` is a ghost: how often the thread was rolled back since it last completed an
operation for good. -/
structure Thread where
  pc : Pc
  tx : Option Tx
  rollbacks : Nat
  deriving DecidableEq, Repr

/-- The machine: the memory, the operations that have been completed for good, the threads. -/
structure State where
  mem : Loc → Nat
  hist : Hist
  th : Tid → Thread

/-- At the beginning all locks are free (`spinlock_ttas.hpp:34`) and all objects contain 0. -/
def init : State :=
  { mem := fun x => match x with | .state _ => unlocked | .data _ => 0,
    hist := [], th := fun _ => { pc := .run, tx := none, rollbacks := 0 } }

/-- The memory with writes applied to it. -/
def written (ws : List (Loc × Nat)) (m : Loc → Nat) : Loc → Nat :=
  fun x => (ws.lookup x).getD (m x)

/-- What a thread sees in memory: its own buffered writes first. -/
def look (s : State) (t : Tid) (x : Loc) : Nat :=
  match (s.th t).tx with
  | none => s.mem x
  | some T => written T.ws s.mem x

/-- The past of a thread, as the thread knows it. -/
def past (s : State) (t : Tid) : List Done :=
  match (s.th t).tx with
  | none => mine s.hist t
  | some T => T.log ++ mine s.hist t

/-- Whether a transaction has read or written one of these locations. -/
def Tx.meets (T : Tx) (ws : List (Loc × Nat)) : Bool :=
  ws.any (fun w => T.rs.contains w.1 || T.ws.any (fun v => v.1 == w.1))

/-- Make operations and writes of a thread visible: conflicting transactions of other threads are doomed. -/
def publish (s : State) (t : Tid) (log : List Done) (ws : List (Loc × Nat)) : State :=
  { mem := written ws s.mem,
    hist := log.map (fun d => (t, d)) ++ s.hist,
    th := fun u =>
      if u = t then { s.th u with rollbacks := 0 }
      else match (s.th u).tx with
        | none => s.th u
        | some T => { s.th u with tx := some { T with doomed := T.doomed || T.meets ws } } }

/-- Change one thread. -/
def State.set (s : State) (t : Tid) (k : Thread) : State := { s with th := upd s.th t k }

/-- Complete an operation `d` that has read `rs` and writes `ws`: inside of a transaction it is recorded,
outside it is visible at once. -/
def perform (s : State) (t : Tid) (d : Done) (rs : List Loc) (ws : List (Loc × Nat)) : State :=
  match (s.th t).tx with
  | some T =>
    s.set t { s.th t with pc := .run, tx := some { T with rs := rs ++ T.rs, ws := ws ++ T.ws, log := d :: T.log } }
  | none => (publish s t [d] ws).set t { pc := .run, tx := none, rollbacks := 0 }

/-- `rtm_begin`, `rtm.hpp:40-51`: the outermost one remembers where to return to. -/
def enter (s : State) (t : Tid) (here pc : Pc) : State :=
  match (s.th t).tx with
  | some T => s.set t { s.th t with pc := pc, tx := some { T with depth := T.depth + 1 } }
  | none =>
    s.set t { s.th t with
      pc := pc, tx := some { depth := 1, ret := here, rs := [], ws := [], log := [], held := [], doomed := false } }

/-- `BOOST_FIBERS_RETRY_THRESHOLD`, `config.hpp:55`. -/
def retryThreshold : Nat := 64

/-- The head of the loop of `lock`, `spinlock_rtm.hpp:40`. -/
def round (l : Lock) (r : Nat) : Pc :=
  if r < retryThreshold then .begin_ l r else .fall l

/-- A rollback: `rtm_begin` of the outermost transaction returns a status. In `lock`
(`spinlock_rtm.hpp:53-97`) the next round is tried, or the lock is waited for, or the fallback is taken; in
`try_lock` (`:103-105`) the answer is `false`. -/
def rollback (s : State) (t : Tid) (T : Tx) (st : Status) : State :=
  match T.ret with
  | .begin_ l r =>
    s.set t
      { pc := if st.mayRetry || st.conflict then round l (r + 1)
              else if st.explicitAbort && !st.nested then .wait l r
              else .fall l,
        tx := none, rollbacks := (s.th t).rollbacks + 1 }
  | .tbegin l => (publish s t [.failed l] []).set t { pc := .run, tx := none, rollbacks := 0 }
  | _ => s

/-- `rtm_abort_lock_not_free`, `rtm.hpp:64-73`. -/
def notFree (T : Tx) : Status :=
  { explicitAbort := true, mayRetry := false, conflict := false, nested := 1 < T.depth }

/-- The load of `state_` in a transaction, in `lock` (`spinlock_rtm.hpp:44-50`) and `try_lock`
(`:108-111`): if the lock is free it is held from now on, otherwise the transaction is rolled back. -/
def elide (s : State) (t : Tid) (l : Lock) : State :=
  match (s.th t).tx with
  | none => s
  | some T =>
    if look s t (.state l) = unlocked then
      s.set t { s.th t with
        pc := .run,
        tx := some { T with rs := .state l :: T.rs, log := .acquired l :: T.log, held := l :: T.held } }
    else rollback s t T (notFree T)

/-- `rtm_end`, `rtm.hpp:53-62`, in `unlock` (`spinlock_rtm.hpp:118`): the outermost one commits. -/
def leave (s : State) (t : Tid) (l : Lock) : State :=
  match (s.th t).tx with
  | none => s.set t { s.th t with pc := .fault }
  | some T =>
    if 1 < T.depth then
      s.set t { s.th t with
        pc := .run,
        tx := some { T with depth := T.depth - 1, log := .released l :: T.log, held := T.held.erase l } }
    else
      (publish s t (.released l :: T.log) T.ws).set t { pc := .run, tx := none, rollbacks := 0 }

/-- A thread loads `x` and goes on at `pc`. -/
def load (s : State) (t : Tid) (x : Loc) (pc : Pc) : State :=
  match (s.th t).tx with
  | none => s.set t { s.th t with pc := pc }
  | some T => s.set t { s.th t with pc := pc, tx := some { T with rs := x :: T.rs } }

/-- Whether a thread is in a transaction that can only be rolled back. -/
def doomed (s : State) (t : Tid) : Bool :=
  match (s.th t).tx with
  | none => false
  | some T => T.doomed

/-- The next instruction of a thread. -/
def instr (prog : Prog) (s : State) (t : Tid) : Option State :=
  match (s.th t).pc with
  | .run =>
    match prog t (past s t) with
    | none => none
    | some (.lock l) => some (s.set t { s.th t with pc := round l 0 })
    | some (.tryLock l) => some (s.set t { s.th t with pc := .tbegin l })
    | some (.unlock l) => some (s.set t { s.th t with pc := .unl l })
    | some (.read a) => some (perform s t (.got a (look s t (.data a))) [.data a] [])
    | some (.write a v) => some (perform s t (.put a v) [] [(.data a, v)])
  | .begin_ l r => some (enter s t (.begin_ l r) (.check l r))
  | .check l _ => some (elide s t l)
  | .wait l r =>
    if look s t (.state l) = locked then some s
    else some (load s t (.state l) (round l (r + 1)))
  | .fall l =>
    if look s t (.state l) = locked then some (load s t (.state l) (.fall l))
    else some (perform s t (.acquired l) [.state l] [(.state l, locked)])
  | .tbegin l => some (enter s t (.tbegin l) (.tcheck l))
  | .tcheck l => some (elide s t l)
  | .unl l =>
    if look s t (.state l) = unlocked then some (load s t (.state l) (.xend l))
    else some (load s t (.state l) (.fin l))
  | .xend l => some (leave s t l)
  | .fin l => some (perform s t (.released l) [] [(.state l, unlocked)])
  | .fault => none

/-- What happens next: a thread executes an instruction, or the hardware rolls a transaction back. -/
inductive Ev where
  | step (t : Tid)
  | abort (t : Tid) (st : Status)

/-- One step of the machine. -/
def step (prog : Prog) (s : State) : Ev → Option (State × List Unit)
  | .step t => if doomed s t then none else (instr prog s t).map (fun s' => (s', []))
  | .abort t st =>
    match (s.th t).tx with
    | none => none
    | some T => some (rollback s t T st, [])

/-! ## Specification: the same programs with ordinary locks -/

/-- Who holds a lock after a history. -/
def owner : Hist → Lock → Option Tid
  | [], _ => none
  | (t, .acquired k) :: h, l => if k = l then some t else owner h l
  | (_, .released k) :: h, l => if k = l then none else owner h l
  | _ :: h, l => owner h l

/-- The value of an object after a history. -/
def value : Hist → Addr → Nat
  | [], _ => 0
  | (_, .put b v) :: h, a => if b = a then v else value h a
  | _ :: h, a => value h a

/-- What may happen after a history when the programs run with ordinary locks, which are held by one
thread at a time, on ordinary memory: a thread gets a lock only when nobody holds it, reads what was
written last, and does what its program says. (`try_lock` may fail at any time here.) -/
def Allowed (prog : Prog) (h : Hist) : Tid × Done → Prop
  | (t, .acquired l) =>
    (prog t (mine h t) = some (.lock l) ∨ prog t (mine h t) = some (.tryLock l)) ∧ owner h l = none
  | (t, .failed l) => prog t (mine h t) = some (.tryLock l)
  | (t, .released l) => prog t (mine h t) = some (.unlock l) ∧ owner h l = some t
  | (t, .got a v) => prog t (mine h t) = some (.read a) ∧ value h a = v
  | (t, .put a v) => prog t (mine h t) = some (.write a v)

/-- A history of the programs with ordinary locks. -/
def Legal (prog : Prog) : Hist → Prop
  | [] => True
  | e :: h => Allowed prog h e ∧ Legal prog h

/-- Whether a thread with this past holds a lock. -/
def holding : List Done → Lock → Bool
  | [], _ => false
  | .acquired k :: p, l => if k = l then true else holding p l
  | .released k :: p, l => if k = l then false else holding p l
  | _ :: p, l => holding p l

/-- Programs that use locks properly: they unlock what they hold, and lock what they do not hold. -/
def Proper (prog : Prog) : Prop :=
  (∀ t p l, prog t p = some (.unlock l) → holding p l = true) ∧
  (∀ t p l, prog t p = some (.lock l) → holding p l = false) ∧
  (∀ t p l, prog t p = some (.tryLock l) → holding p l = false)

end Verif.Rtm
