import Verif.WeakKnow
import Verif.Rtm

/-!
# Programs with locks on weak memory

Any number of threads run arbitrary programs (`Prog` of `Verif/Rtm.lean`: what a thread does next depends on what it has seen)
that share non-atomic data and any number of locks. The locks are the class `spinlock_ttas`, which is what
`boost::fibers::detail::spinlock` is by default (`detail/spinlock.hpp:69-72`), with its memory orders, on the memory of `Verif/Weak.lean`.
Every event carries the timestamp of the message that is read or written.

The rest of the model assumes sequentially consistent memory and takes a critical section as one step. The theorems about
this machine say when that is right.

There is a data race when a thread writes data and an earlier read or write by another thread did not happen before, or reads data and an
earlier write by another thread did not happen before; reads do not race with each other.

Simplifications: the random backoff of `lock()` (`detail/spinlock_ttas.hpp:60-97`) only waits, and is left out.
-/

namespace Verif.WeakDrf

open Verif.Weak
open Verif.Rtm (Tid Lock Addr Req Done Hist Prog mine owner value Legal holding)

/-- Where the word `state_` of a lock is. -/
def lk (l : Lock) : Nat := 2 * l

/-- A number for a pair of numbers. -/
def pair (a i : Nat) : Nat := 2 ^ a * (2 * i + 1)

/-- Where the writes of data are counted. -/
def wr (a : Addr) : Nat := 2 * pair a 0 + 1

/-- Where the reads of data by thread `t` are counted. -/
def rd (a : Addr) (t : Tid) : Nat := 2 * pair a (t + 1) + 1

/-- Thread `t` does not know all accesses that are counted at `x`: they did not all happen before. -/
def ignores (m : Mem) (t : Tid) (x : Nat) : Bool := decide (m.cur t x < m.last x)

/-- A read is a race: it does not come after all writes. -/
def readRace (m : Mem) (t : Tid) (a : Addr) : Bool := ignores m t (wr a)

/-- A write is a race: it does not come after all writes and all reads in the history. -/
def writeRace (m : Mem) (h : Hist) (t : Tid) (a : Addr) : Bool :=
  ignores m t (wr a) || h.any fun e => match e.2 with
    | .got b _ => b == a && ignores m t (rd a e.1)
    | _ => false

/-- Where a thread is. -/
inductive Pc
  /-- in its own code -/
  | run
  /-- `lock()`, at the loop `while ( spinlock_status::locked == state_.load( relaxed) )`, `detail/spinlock_ttas.hpp:57` -/
  | test (l : Lock)
  /-- `lock()`, at `state_.exchange( locked, acquire)`, `detail/spinlock_ttas.hpp:87` -/
  | xchg (l : Lock)
  deriving DecidableEq, Repr

structure State where
  mem : Mem
  /-- the values of the data -/
  data : Addr → Nat
  /-- what has happened, latest first -/
  hist : Hist
  pc : Tid → Pc
  /-- there was a data race: the behaviour is undefined -/
  ub : Bool

/-- All locks are free, all data 0. (`spinlock_status::unlocked` is written 0 and `locked` 1 here, as in `Verif/WeakLock.lean`.) -/
def init : State := ⟨Weak.start (fun _ => 0), fun _ => 0, [], fun _ => .run, false⟩

/-- `state_.exchange( spinlock_status::locked, std::memory_order_acquire)`, reading the message `ts` (`detail/spinlock_ttas.hpp:87,108`). -/
def exchange (m : Mem) (t : Tid) (l : Lock) (ts : Nat) : Option (Nat × Mem) := rmw m t (lk l) ts (fun _ => 1) true false

/-- Thread `t` goes on: the next memory operation of its program, or of the lock operation it is in. After a data race nothing is
said about the program any more. -/
def step (prog : Prog) (s : State) : Tid × Nat → Option (State × List Unit)
  | (t, ts) =>
    if s.ub then none else
    match s.pc t with
    | .run =>
      match prog t (mine s.hist t) with
      | none => none
      | some (.lock l) => some ({ s with pc := upd s.pc t (.test l) }, [])
      -- `detail/spinlock_ttas.hpp:107-109`
      | some (.tryLock l) =>
        match exchange s.mem t l ts with
        | none => none
        | some (v, m) =>
          if v = 0 then some ({ s with mem := m, hist := (t, .acquired l) :: s.hist }, [])
          else some ({ s with mem := m, hist := (t, .failed l) :: s.hist }, [])
      -- `state_.store( unlocked, release)`, `detail/spinlock_ttas.hpp:111-113`
      | some (.unlock l) =>
        match store s.mem t (lk l) ts 0 true with
        | none => none
        | some m => some ({ s with mem := m, hist := (t, .released l) :: s.hist }, [])
      | some (.read a) =>
        some ({ s with mem := (touch s.mem t (rd a t)).2, ub := readRace s.mem t a, hist := (t, .got a (s.data a)) :: s.hist }, [])
      | some (.write a v) =>
        some ({ s with mem := (touch s.mem t (wr a)).2, ub := writeRace s.mem s.hist t a, data := upd s.data a v,
                       hist := (t, .put a v) :: s.hist }, [])
    | .test l =>
      match load s.mem t (lk l) ts false with
      | none => none
      | some (v, m) => some ({ s with mem := m, pc := upd s.pc t (if v = 0 then .xchg l else .test l) }, [])
    | .xchg l =>
      match exchange s.mem t l ts with
      | none => none
      | some (v, m) =>
        if v = 0 then some ({ s with mem := m, pc := upd s.pc t .run, hist := (t, .acquired l) :: s.hist }, [])
        else some ({ s with mem := m, pc := upd s.pc t (.test l) }, [])

/-! ## Specification -/

/-- Who has the right to access data: a thread, or nobody until a lock is taken. -/
inductive Right
  | thread (t : Tid)
  | lock (l : Lock)
  deriving DecidableEq, Repr

/-- After one more thing has happened, the right to access some data has moved from `r` to `r'` at most between a lock and the thread that
takes or releases it. -/
def Moves (t : Tid) (d : Done) (r r' : Right) : Prop :=
  r' = r ∨ (∃ l, d = .acquired l ∧ r = .lock l ∧ r' = .thread t) ∨ (∃ l, d = .released l ∧ r = .thread t ∧ r' = .lock l)

/-- The programs share data with the help of the locks. The right to access data has shares, numbered arbitrarily; who has one share may read, who has all
may write. One can say, at any point of any sequentially consistent history, who has which shares, such that only threads
that have a right access the data, and shares are handed on only by
putting them into a lock that one releases and taking them from a lock that one takes. -/
def Disciplined (prog : Prog) : Prop :=
  ∃ right : Hist → Addr → Nat → Right, ∀ t d h, Legal prog ((t, d) :: h) →
    (∀ a v, d = .got a v → ∃ i, right h a i = .thread t) ∧ (∀ a v, d = .put a v → ∀ i, right h a i = .thread t) ∧
      ∀ a i, Moves t d (right h a i) (right ((t, d) :: h) a i)

/-- The simplest case: each piece of data belongs to a lock, and threads access it only while they hold the lock. -/
def Guarded (prog : Prog) (guard : Addr → Lock) : Prop :=
  ∀ h t a, Legal prog h → (prog t (mine h t) = some (.read a) ∨ ∃ v, prog t (mine h t) = some (.write a v)) → owner h (guard a) = some t

/-- Threads unlock only locks they hold. -/
def Unlocks (prog : Prog) : Prop := ∀ h t l, Legal prog h → prog t (mine h t) = some (.unlock l) → owner h l = some t

/-- Histories in which `try_lock` fails only while somebody holds the lock. -/
def Honest : Hist → Prop
  | [] => True
  | (_, .failed l) :: h => owner h l ≠ none ∧ Honest h
  | _ :: h => Honest h

/-- A thread with this past holds a lock, and has already released another one since it had none. -/
def Shrinking : List Done → Prop
  | [] => False
  | .released l :: p => ∃ k, holding (.released l :: p) k = true
  | _ :: p => Shrinking p

/-- Threads that hold several locks at a time take all of them before they release the first one. -/
def TwoPhase (prog : Prog) : Prop :=
  ∀ h t l, Legal prog h → (prog t (mine h t) = some (.lock l) ∨ prog t (mine h t) = some (.tryLock l)) → ¬ Shrinking (mine h t)

/-- Critical sections are not interrupted: when another thread does something while thread `t` holds a lock, then `t` has done
all it will do in this history. -/
def Atomic (h : Hist) : Prop :=
  ∀ later u d earlier t l, h = later ++ (u, d) :: earlier → u ≠ t → owner earlier l = some t → mine later t = []

end Verif.WeakDrf
