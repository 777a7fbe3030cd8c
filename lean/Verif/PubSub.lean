import Verif.Base

/-!
# The publish/subscribe server of the examples: `examples/asio/ps/server.cpp`

One thread runs the `io_context` and all fibers (`:359-381`), so what a fiber does between two places where it may be suspended is one step. A
fiber is suspended only in asynchronous operations and in `cond_.wait` (`:171`): no fiber is suspended while it holds `registry::mtx_`, and
`subscriber_session::mtx_` is held across no suspension but that of `cond_.wait`, which releases it; so locking never waits. `cond_.wait`
returns only after a notification (C10), and a fiber notified once is resumed once (C07, C42).

Simplifications: the order in which a `std::set` is visited is left out (all subscribers are notified within one step); what is written to
`std::cout`, and allocation failures, are not modelled. An asynchronous operation ends at an arbitrary moment with data or with an error (C98).
-/

namespace Verif.PubSub

/-- `max_length` (`server.cpp:23`). -/
def maxLength : Nat := 1024

/-- A `std::string` without null characters. -/
abbrev Text := List Nat

/-- `"<fini>"` (`server.cpp:175`, `:222`). -/
def fini : Text := [60, 102, 105, 110, 105, 62]

/-- The `std::string` made from a `char[max_length]`: the characters before the first null character; without one the constructor reads behind
the end of the array (`server.cpp:161`, `:172`, `:266`, `:284`). -/
def text (buf : List Nat) : Option Text := if 0 ∈ buf then some (buf.takeWhile (· ≠ 0)) else none

/-- A publisher session (`publisher_session`, `server.cpp:235-298`). -/
inductive PPc
  | new
  | naming             -- reads the name of the queue (`:257-260`)
  | active (q : Text)  -- reads a message (`:274-277`)
  | done
  deriving DecidableEq, Repr

/-- A subscriber session (`subscriber_session`, `server.cpp:132-217`). -/
inductive SPc
  | new
  | naming                          -- reads the name of the queue (`:152-155`)
  | waiting (q : Text)              -- in `cond_.wait`, not notified (`:171`)
  | woken (q : Text)                -- in `cond_.wait`, notified
  | writing (q : Text) (m : Text)   -- in `async_write` (`:182-185`)
  | done
  deriving DecidableEq, Repr

structure State where
  queues : Text → Option (List Nat)  -- `registry::queues_`, with `subscriptions::subscribers_`
  ppc    : Nat → PPc
  spc    : Nat → SPc
  data   : Nat → Text                -- `subscriber_session::data_`, as far as it is a message

inductive Event
  | connectP (p : Nat)
  | connectS (s : Nat)
  | readP (p : Nat) (b : Option (List Nat))  -- the `async_read` of publisher `p` ends with `max_length` characters, or an error (or eof)
  | readS (s : Nat) (b : Option (List Nat))
  | resume (s : Nat)                         -- the notified subscriber `s` is resumed
  | wrote (s : Nat) (ok : Bool)              -- the `async_write` of subscriber `s` ends

inductive Obs
  | registered (p : Nat) (q : Text)
  | rejected (p : Nat) (q : Text)              -- "queue already exists"
  | published (p : Nat) (q m : Text)
  | refused (p : Nat) (q m : Text)             -- "queue does not exist": the message of `p`
  | left (p : Nat) (q : Text)                  -- the session of publisher `p` ends and unregisters `q`
  | subscribed (s : Nat) (q : Text)
  | unknown (s : Nat) (q : Text)               -- "queue does not exist": the subscription of `s`
  | sends (s : Nat) (m : Text)                 -- begins to write `m` to the client of `s`
  | sent (s : Nat) (m : Text)                  -- `m` is written
  | closed (s : Nat)                           -- the session of subscriber `s` ends
  | ub
  deriving DecidableEq, Repr

def init : State := { queues := fun _ => none, ppc := fun _ => .new, spc := fun _ => .new, data := fun _ => [] }

/-- `map[k] = v` -/
def put (f : Text → Option (List Nat)) (q : Text) (v : Option (List Nat)) : Text → Option (List Nat) := fun q' => if q' = q then v else f q'

/-- `cond_.notify_one()` seen by the subscriber (`server.cpp:207`). -/
def SPc.notify : SPc → SPc
  | .waiting q => .woken q
  | c => c

/-- `subscriber_session::publish` for all subscribers in `l` (`server.cpp:203-208`, `:220-231`). A message is shorter than `max_length`, being
made by `text`. -/
def notifyAll (a : State) (l : List Nat) (m : Text) : State :=
  { a with spc := fun s => if s ∈ l then (a.spc s).notify else a.spc s, data := fun s => if s ∈ l then m else a.data s }

/-- `registry::unregister_queue` (`server.cpp:69-72`, `:107-110`), with `~subscriptions` (`:220-224`). -/
def unregister (a : State) (q : Text) : State :=
  match a.queues q with
  | none => a
  | some l => { notifyAll a l fini with queues := put a.queues q none }

/-- The end of `publisher_session::run` (`server.cpp:289-292`). -/
def leave (a : State) (p : Nat) (q : Text) : State := { unregister a q with ppc := upd a.ppc p .done }

/-- `registry::unsubscribe` (`server.cpp:83-88`, `:119-122`). -/
def unsubscribe (a : State) (s : Nat) (q : Text) : State :=
  match a.queues q with
  | none => a
  | some l => { a with queues := put a.queues q (some (l.filter (· ≠ s))) }

/-- The end of `subscriber_session::run` (`server.cpp:196-199`). -/
def close (a : State) (s : Nat) (q : Text) : State := { unsubscribe a s q with spc := upd a.spc s .done }

/-- One step. -/
def step (a : State) : Event → Option (State × List Obs)
  | .connectP p =>                   -- `server.cpp:303-328`
    if a.ppc p = .new then some ({ a with ppc := upd a.ppc p .naming }, []) else none
  | .connectS s =>                   -- `server.cpp:331-356`
    if a.spc s = .new then some ({ a with spc := upd a.spc s .naming }, []) else none
  | .readP p b =>
    match a.ppc p, b with
    | .naming, none => some (leave a p [], [.left p []])                         -- `:261-263`, `:286-292`; `queue` is still empty
    | .naming, some b =>
      if b.length = maxLength then
        match text b with
        | none => some ({ a with ppc := upd a.ppc p .done }, [.ub])
        | some q =>                                                              -- `:266-268`, `register_queue_` (`:61-67`)
          match a.queues q with
          | some _ => some (leave a p q, [.rejected p q, .left p q])             -- the exception is caught at `:286`, then `:292`
          | none => some ({ a with queues := put a.queues q (some []), ppc := upd a.ppc p (.active q) }, [.registered p q])
      else none
    | .active q, none => some (leave a p q, [.left p q])                         -- `:278-282`
    | .active q, some b =>
      if b.length = maxLength then
        match text b with
        | none => some ({ a with ppc := upd a.ppc p .done }, [.ub])
        | some m =>                                                              -- `:284`, `publish_` (`:90-97`)
          match a.queues q with
          | none => some (leave a p q, [.refused p q m, .left p q])
          | some l => some (notifyAll a l m, [.published p q m])
      else none
    | _, _ => none
  | .readS s b =>
    match a.spc s, b with
    | .naming, none => some (close a s [], [.closed s])                          -- `:156-158`, `:193-199`
    | .naming, some b =>
      if b.length = maxLength then
        match text b with
        | none => some ({ a with spc := upd a.spc s .done }, [.ub])
        | some q =>                                                              -- `:161-163`, `subscribe_` (`:74-81`)
          match a.queues q with
          | none => some (close a s q, [.unknown s q, .closed s])
          | some l => some ({ a with queues := put a.queues q (some (s :: l)), spc := upd a.spc s (.waiting q) }, [.subscribed s q])
      else none
    | _, _ => none
  | .resume s =>                     -- `:172-182`
    match a.spc s with
    | .woken q =>
      if a.data s = fini then some (close a s q, [.closed s])
      else some ({ a with spc := upd a.spc s (.writing q (a.data s)) }, [.sends s (a.data s)])
    | _ => none
  | .wrote s ok =>                   -- `:186-190`
    match a.spc s with
    | .writing q m => if ok then some ({ a with spc := upd a.spc s (.waiting q) }, [.sent s m]) else some (close a s q, [.closed s])
    | _ => none

end Verif.PubSub
