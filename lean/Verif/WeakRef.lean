import Verif.Weak

/-!
# Reference counting under weak memory

`intrusive_ptr_add_ref` and `intrusive_ptr_release` of `context` (`context.hpp:374-386,407-419`), `shared_state_base`
(`future/detail/shared_state.hpp:143-154`), `algorithm` (`algo/algorithm.hpp:52-63,76-87`) and `fss_cleanup_function`
(`detail/fss.hpp:39-50`), which are all alike, on the memory of `Verif/Weak.lean`.

Location 0 is `use_count_`. The uses of the object by thread `w` are accesses to location `w + 1`: uses by different threads do not
conflict with each other (the object takes care of that), but the destruction conflicts with all of them.
-/

namespace Verif.WeakRef

open Weak

/-- Where a thread is in `intrusive_ptr_release`. -/
inductive Pc
  | out
  /-- the counter was 1; about to execute the acquire fence -/
  | fence
  /-- about to destroy the object -/
  | destroy
  deriving DecidableEq, Repr

structure State where
  mem : Mem
  /-- the owners of the references -/
  refs : List Nat
  pc : Nat → Pc

/-- The object is created by thread 0 with one reference. -/
def init : State := ⟨Weak.start (fun x => if x = 0 then 1 else 0), [0], fun _ => .out⟩

inductive Event
  /-- thread `w` uses the object through a reference of its own -/
  | use (w : Nat)
  /-- thread `w` copies a reference -/
  | add (w t : Nat)
  /-- thread `w` hands a reference over to thread `u`; the hand-over itself synchronises (by a lock or the like) -/
  | pass (w u : Nat)
  /-- thread `w` gives a reference up -/
  | drop (w t : Nat)
  | fence (w : Nat)
  /-- thread `w` destroys the object; `us`: threads for whose uses a race is looked for -/
  | destroy (w : Nat) (us : List Nat)
  deriving DecidableEq, Repr

inductive Obs
  | used (w : Nat)
  | dropped (w : Nat)
  | destroyed (w : Nat)
  /-- data race: the object is destroyed by `w` although a use of it does not happen before -/
  | race (w : Nat)
  deriving DecidableEq, Repr

def step (s : State) : Event → Option (State × List Obs)
  | .use w => if w ∈ s.refs then some ({ s with mem := (touch s.mem w (w + 1)).2 }, [.used w]) else none
  -- `use_count_.fetch_add( 1, relaxed)`
  | .add w t =>
    if w ∈ s.refs then
      match rmw s.mem w 0 t (fun v => v + 1) false false with
      | none => none
      | some (_, m) => some ({ s with mem := m, refs := w :: s.refs }, [])
    else none
  | .pass w u =>
    if w ∈ s.refs then
      some ({ s with
        mem := { s.mem with cur := upd s.mem.cur u (join (s.mem.cur u) (s.mem.cur w)), acq := upd s.mem.acq u (join (s.mem.acq u) (s.mem.cur w)) },
        refs := u :: s.refs.erase w }, [])
    else none
  -- `use_count_.fetch_sub( 1, release)`
  | .drop w t =>
    if w ∈ s.refs ∧ s.pc w = .out then
      match rmw s.mem w 0 t (fun v => v - 1) false true with
      | none => none
      | some (v, m) =>
        some ({ s with mem := m, refs := s.refs.erase w, pc := if v = 1 then upd s.pc w .fence else s.pc }, [.dropped w])
    else none
  -- `std::atomic_thread_fence( acquire)`
  | .fence w => if s.pc w = .fence then some ({ s with mem := fenceAcq s.mem w, pc := upd s.pc w .destroy }, []) else none
  -- `delete p`, `ctx->~context()` and the like
  | .destroy w us =>
    if s.pc w = .destroy then
      some ({ s with pc := upd s.pc w .out },
        [if us.any (fun u => decide (s.mem.cur w (u + 1) < s.mem.last (u + 1))) then .race w else .destroyed w])
    else none

end Verif.WeakRef
