import Verif.Base

/-!
# The echo server and its clients: `examples/asio/autoecho.cpp`

One thread runs the `io_context`, the server, a session per connection and the clients, all of them fibers (`:230-261`). What a fiber does
between two places where it may be suspended is one step: asynchronous operations and `barrier.wait()` (`:218`). A connection carries two
streams of bytes. Writing delivers any pieces, in order, to the other end; `async_read_some` takes any non-empty piece of at most `max_length`
bytes of what has arrived. An operation may fail at any moment (observation `fault`).

Simplifications: `std::cout` and the names of threads and fibers are left out (the mutex of `FiberNames`, `:68-74`, is never held by a suspended
fiber); the number of clients, the iterations and the messages are parameters (`:242-243`, `:191-193`). `barrier.wait()` behaves as proved in
C14 to C16: the last of `n` callers gets `true` at once, the others are released.
-/

namespace Verif.Echo

/-- `max_length` (`autoecho.cpp:26`). -/
def maxLength : Nat := 1024

/-- The program: `clients`, `iterations` (`autoecho.cpp:242-243`), and the message of client `i` in iteration `k` (`:191-193`). -/
structure Prog where
  n : Nat
  its : Nat
  msg : Nat → Nat → List Nat

/-- A session (`session`, `autoecho.cpp:123-151`). -/
inductive SPc
  | new                        -- the connection is not accepted
  | reading                    -- `async_read_some` (`:128-130`)
  | writing (rest : List Nat)  -- `async_write` (`:137-140`), `rest` is to be delivered
  | done
  deriving DecidableEq, Repr

/-- A client (`client`, `autoecho.cpp:181-225`). -/
inductive CPc
  | top (k : Nat)                              -- before iteration `k` (`:184`)
  | writing (k c : Nat) (rest : List Nat)      -- `async_write` on connection `c` (`:196-199`)
  | reading (k c : Nat)                        -- `async_read_some` (`:206-208`)
  | waiting                                    -- in `barrier.wait()` (`:218`)
  | done                                       -- behind the barrier (`:224`)
  | quit                                       -- `return` in the loop (`:201`, `:210`)
  deriving DecidableEq, Repr

structure State where
  cli : Nat → CPc
  ses : Nat → SPc
  up : Nat → List Nat          -- arrived at the session and not read
  down : Nat → List Nat        -- arrived at the client and not read
  gone : Nat → Bool            -- the client has closed the connection
  backlog : List Nat           -- connections to be accepted
  next : Nat                   -- connections made so far
  arrived : List Nat           -- callers of `barrier.wait()` so far
  opn : Bool                   -- the acceptor is open
  stopped : Bool               -- `io_ctx->stop()` was called (`:174`)
  crashed : Bool               -- an exception has left a fiber: `std::terminate`

inductive Event
  | connect (i : Nat) (ok : Bool)
  | cpush (i j : Nat)                          -- `j` bytes of the message of client `i` are delivered
  | cwfail (i : Nat) (eof : Bool)
  | cread (i j : Nat)                          -- the client reads `j` bytes
  | ceof (i : Nat)
  | crfail (i : Nat)
  | arrive (i : Nat)
  | pass (i : Nat)
  | accept
  | afail
  | abort
  | sread (c j : Nat)
  | spush (c j : Nat)
  | seof (c : Nat)
  | sfail (c : Nat)
  deriving DecidableEq, Repr

inductive Obs
  | reply (i k : Nat) (data : List Nat)        -- client `i` prints the reply of iteration `k` (`:214`)
  | finished (i : Nat)                         -- client `i` is behind the barrier (`:224`)
  | closes (i : Nat)                           -- client `i` closes the acceptor (`:221`)
  | quit (i : Nat)                             -- client `i` returns before (`:201`, `:210`)
  | terminate (i : Nat)                        -- `std::terminate`: an exception leaves the fiber of client `i`
  | stop                                       -- `io_ctx->stop()` (`:174`)
  | fault                                      -- an operation fails
  deriving DecidableEq, Repr

def init : State :=
  { cli := fun _ => .top 0, ses := fun _ => .new, up := fun _ => [], down := fun _ => [], gone := fun _ => false, backlog := [], next := 0,
    arrived := [], opn := true, stopped := false, crashed := false }

/-- An exception leaves the fiber of client `i` (`autoecho.cpp:189`, `:203`, `:212`). -/
def crash (a : State) (i : Nat) : State × List Obs := ({ a with crashed := true }, [.fault, .terminate i])

/-- One step. After `std::terminate` nothing happens, after `io_ctx->stop()` no operation completes any more: only fibers that are ready go on. -/
def step (P : Prog) (a : State) (e : Event) : Option (State × List Obs) :=
  if a.crashed then none else
  match e with
  | .pass i =>                          -- a released client
    if a.cli i = .waiting ∧ a.arrived.length = P.n then some ({ a with cli := upd a.cli i .done }, [.finished i]) else none
  | e => if a.stopped then none else
    match e with
    | .connect i ok =>                  -- `:185-189`
      match a.cli i with
      | .top k =>
        if i < P.n ∧ k < P.its then
          if ok then
            if a.opn then
              some ({ a with cli := upd a.cli i (.writing k a.next (P.msg i k)), backlog := a.backlog ++ [a.next], next := a.next + 1 }, [])
            else none
          else some (crash a i)
        else none
      | _ => none
    | .cpush i j =>                     -- `:196-199`
      match a.cli i with
      | .writing k c rest =>
        if 0 < j ∧ j ≤ rest.length then
          some ({ a with up := upd a.up c (a.up c ++ rest.take j),
                         cli := upd a.cli i (if rest.drop j = [] then .reading k c else .writing k c (rest.drop j)) }, [])
        else none
      | _ => none
    | .cwfail i eof =>                  -- `:200-204`; the destructor of the socket closes the connection
      match a.cli i with
      | .writing _ c _ =>
        if eof then some ({ a with cli := upd a.cli i .quit, gone := upd a.gone c true }, [.fault, .quit i]) else some (crash a i)
      | _ => none
    | .cread i j =>                     -- `:206-208`, `:214`, end of the loop body: the destructor of the socket
      match a.cli i with
      | .reading k c =>
        if 0 < j ∧ j ≤ (a.down c).length ∧ j ≤ maxLength then
          some ({ a with down := upd a.down c ((a.down c).drop j), gone := upd a.gone c true, cli := upd a.cli i (.top (k + 1)) },
            [.reply i k ((a.down c).take j)])
        else none
      | _ => none
    | .ceof i =>                        -- `:209-210`: the session has ended and everything is read
      match a.cli i with
      | .reading _ c =>
        if a.ses c = .done ∧ a.down c = [] then some ({ a with cli := upd a.cli i .quit, gone := upd a.gone c true }, [.quit i]) else none
      | _ => none
    | .crfail i =>                      -- `:211-212`
      match a.cli i with
      | .reading _ _ => some (crash a i)
      | _ => none
    | .arrive i =>                      -- `:217-224`
      match a.cli i with
      | .top k =>
        if i < P.n ∧ k = P.its then
          if a.arrived.length + 1 = P.n then
            some ({ a with arrived := i :: a.arrived, cli := upd a.cli i .done, opn := false }, [.closes i, .finished i])
          else some ({ a with arrived := i :: a.arrived, cli := upd a.cli i .waiting }, [])
        else none
      | _ => none
    | .accept =>                        -- `:159-169`
      match a.backlog with
      | c :: l => if a.opn then some ({ a with backlog := l, ses := upd a.ses c .reading }, []) else none
      | [] => none
    | .afail => some ({ a with stopped := true }, [.fault, .stop])                 -- `:165-166`, `:171-174`
    | .abort => if a.opn then none else some ({ a with stopped := true }, [.stop]) -- `operation_aborted` after `a.close()`, `:165-166`, `:171-174`
    | .sread c j =>                     -- `:128-130`, `:137`
      match a.ses c with
      | .reading =>
        if 0 < j ∧ j ≤ (a.up c).length ∧ j ≤ maxLength then
          some ({ a with up := upd a.up c ((a.up c).drop j), ses := upd a.ses c (.writing ((a.up c).take j)) }, [])
        else none
      | _ => none
    | .spush c j =>                     -- `:137-140`
      match a.ses c with
      | .writing rest =>
        if 0 < j ∧ j ≤ rest.length then
          some ({ a with down := upd a.down c (a.down c ++ rest.take j),
                         ses := upd a.ses c (if rest.drop j = [] then .reading else .writing (rest.drop j)) }, [])
        else none
      | _ => none
    | .seof c =>                        -- `:131-132`
      if a.ses c = .reading ∧ a.up c = [] ∧ a.gone c then some ({ a with ses := upd a.ses c .done }, []) else none
    | .sfail c =>                       -- `:133-134`, `:141-144`, `:148-150`
      match a.ses c with
      | .reading | .writing _ => some ({ a with ses := upd a.ses c .done }, [.fault])
      | _ => none
    | .pass _ => none

end Verif.Echo
