import Verif.WaitInv

/-!
# Futures, promises and packaged tasks

`include/boost/fiber/future/{future,promise,packaged_task,async}.hpp`,
`future/detail/{shared_state,shared_state_object,task_base,task_object}.hpp`.

A *handle* is one `promise`, `packaged_task`, `future` or `shared_future` object of the program, named by a
number; a *result* is one shared state, named by a number. Simplifications:

* `shared_state_base::mtx_` is held only for straight-line code: "set the result", "test `ready_`", and "test
  `ready_`, take the spinlock of `waiters_`, release `mtx_`" (`condition_variable.hpp:66-77`: the spinlock is
  taken before the lock is released). Nobody who holds that spinlock ever asks for `mtx_`, so each of these is
  one atomic step and the mutex itself does not appear (C01, C02 are about the mutex, C09 about the order).
* The notification (`waiters_.notify_all()`, after `mtx_` was released) is a step of its own.
* The reference count updates of one handle operation are merged into one step; they are atomic
  read-modify-writes of which only the last can free the result.
* `R`, `R &` and `void` differ only in what a value is. Copying or moving a value, allocating memory and
  copying the callable do not throw. A stored `exception_ptr` is not null.
* The callable of a `packaged_task` is its outcome: `invoke h out` is a call of `operator()` during which the
  callable returns or throws `out`.
* A deadline is already a `steady_clock` time point.

Using one handle from several fibers at once is allowed where the code only reads the handle (`users`);
operations that modify a handle need it to be otherwise unused, as for any C++ object.
-/

namespace Verif.Fut

abbrev Sid := Nat
abbrev Hid := Nat

/-- What a `std::exception_ptr` stored in a result can be: an exception of the user, `broken_promise`
(`shared_state.hpp:54-61`) or `promise_already_satisfied` (`task_object.hpp:71-73`). -/
inductive Exn (E : Type)
  | user (e : E) | broken | satisfied
  deriving DecidableEq, Repr

/-- What a ready result holds. -/
inductive Outcome (V E : Type)
  | value (v : V) | exn (x : Exn E)
  deriving DecidableEq, Repr

def Outcome.isValue {V E : Type} : Outcome V E → Bool
  | .value _ => true
  | .exn _ => false

inductive Kind
  | promise | task | future | shared
  deriving DecidableEq, Repr

/-- Promises and packaged tasks produce, futures and shared futures receive. -/
def Kind.provider : Kind → Bool
  | .promise | .task => true
  | .future | .shared => false

/-- The members of a handle: `obtained_` (`promise.hpp:30`, `packaged_task.hpp:34`; always `false` for futures)
and the intrusive pointer (`promise.hpp:31`, `packaged_task.hpp:35`, `future.hpp:30`). -/
structure Handle where
  kind     : Kind
  obtained : Bool
  st       : Option Sid
  deriving DecidableEq, Repr

/-- The operations of the API. `h` is the object operated on, `h'` the other object involved. -/
inductive Op (V E : Type)
  | mkPromise (h : Hid)                 -- promise<R> h;                           `promise.hpp:33-53`
  | mkTask (h : Hid)                    -- packaged_task<...> h{ fn };             `packaged_task.hpp:43-71`
  | mkEmpty (k : Kind) (h : Hid)        -- a default constructed task or future    `packaged_task.hpp:38`, `future.hpp:125,271`
  | getFuture (h h' : Hid)              -- future<R> h' = h.get_future();          `promise.hpp:78-87`, `packaged_task.hpp:105-115`
  | setValue (h : Hid) (v : V)          -- h.set_value(v);                         `promise.hpp:123-135`
  | setExc (h : Hid) (e : E)            -- h.set_exception(e);                     `promise.hpp:94-99`
  | invoke (h : Hid) (out : V ⊕ E)      -- h(args...); the callable does `out`     `packaged_task.hpp:117-122`
  | reset (h : Hid)                     -- h.reset();                              `packaged_task.hpp:124-132`
  | move (h h' : Hid)                   -- T h'{ std::move(h) };                   `promise.hpp:64-68`, `packaged_task.hpp:82-86`, `future.hpp:44-47`
  | share (h h' : Hid)                  -- shared_future<R> h' = h.share();        `future.hpp:283-285`
  | moveAssign (h h' : Hid)             -- h' = std::move(h);                      `promise.hpp:70-76`, `packaged_task.hpp:88-94`, `future.hpp:56-62`
  | swap (h h' : Hid)                   -- h.swap(h');                             `promise.hpp:89-92`, `packaged_task.hpp:96-99`
  | copy (h h' : Hid)                   -- shared_future<R> h'{ h };               `future.hpp:40-42`
  | copyAssign (h h' : Hid)             -- h' = h; (shared futures)                `future.hpp:49-54`
  | destroy (h : Hid)                   -- the destructor                          `promise.hpp:55-59`, `packaged_task.hpp:73-77`
  | get (h : Hid)                       -- h.get();                                `future.hpp:143-150`
  | wait (h : Hid)                      -- h.wait();                               `future.hpp:75-80`
  | waitUntil (h : Hid) (d : Nat)       -- h.wait_until(d), h.wait_for(d - now())  `future.hpp:82-96`
  | getExc (h : Hid)                    -- h.get_exception_ptr();                  `future.hpp:68-73`
  | valid (h : Hid)                     -- h.valid();                              `future.hpp:64-66`, `packaged_task.hpp:101-103`
  deriving DecidableEq, Repr

/-- The exceptions the library itself throws (`exceptions.hpp`). -/
inductive Err
  | futureUninitialized | promiseUninitialized | taskUninitialized
  | alreadyRetrieved | alreadySatisfied
  deriving DecidableEq, Repr

/-- How a call ends. -/
inductive Res (V E : Type)
  | ok                               -- returned (nothing, or a handle)
  | value (v : V)                    -- returned the stored value
  | threw (x : Exn E)                -- rethrew the stored exception
  | err (x : Err)                    -- threw an exception of the library
  | ready | timeout                  -- future_status
  | exc (x : Option (Exn E))         -- returned an exception_ptr
  | bool (b : Bool)
  deriving DecidableEq, Repr

/-- On what a call relies while it runs: a handle object that must stay as it is, or a reference of its own
(`tmp` in `future::get`, the handle being destroyed or overwritten). -/
inductive Use
  | handle (h : Hid) | own
  deriving DecidableEq, Repr

/-- Where a fiber is. -/
inductive Pc (V E : Type)
  | idle
  | set (op : Op V E) (h : Hid) (i : Sid) (out : Outcome V E) (again : Bool)  -- about to lock `mtx_` and set the result
  | owner (op : Op V E) (i : Sid)                                    -- about to lock `mtx_` in `owner_destroyed`
  | notify (op : Op V E) (u : Use) (i : Sid)                         -- result set, about to notify
  | enter (op : Op V E) (u : Use) (i : Sid)                          -- about to lock `mtx_` and test `ready_`
  | enq (op : Op V E) (u : Use) (i : Sid)                            -- spinlock of `waiters_` held, about to enqueue and suspend
  | waiting (op : Op V E) (u : Use) (i : Sid) (ep : Nat)             -- suspended
  | unlink (op : Op V E) (u : Use) (i : Sid) (ep : Nat)              -- resumed late, about to unlink
  | last (op : Op V E) (u : Use) (i : Sid)                           -- timed out, about to lock `mtx_` and test `ready_` once more
  deriving DecidableEq, Repr

structure State (V E : Type) where
  hd    : Hid → Option Handle        -- the handles that exist
  users : Hid → List Fid             -- the fibers inside a call that relies on the handle
  next  : Sid                        -- results created so far
  refs  : Sid → Nat                  -- `use_count_`
  live  : Sid → Bool                 -- created and not yet freed
  res   : Sid → Option (Outcome V E) -- `ready_`, `except_`, `storage_`
  splk  : Sid → Option Fid           -- holder of the spinlock of `waiters_`
  q     : Sid → List Waker           -- the wait queue of `waiters_`
  c     : Ctxs
  pc    : Fid → Pc V E
  now   : Nat

inductive Event (V E : Type)
  | call (f : Fid) (op : Op V E)
  | run (f : Fid)
  | timer (f : Fid)
  | tick (n : Nat)
  | elsewhere (f : Fid) (n : Nat)

inductive Obs (V E : Type)
  | called (f : Fid) (op : Op V E) (i : Option Sid)              -- the call and the result its handle refers to
  | stored (f : Fid) (i : Sid) (out : Outcome V E)               -- the result becomes ready
  | notified (f : Fid) (i : Sid) (ws : List Fid)                 -- the blocked waiters made runnable
  | ret (f : Fid) (op : Op V E) (i : Option Sid) (r : Res V E) (t : Nat)
  | freed (i : Sid) (val : Bool)                                 -- the shared state is destroyed; was a value destroyed with it
  | ub (i : Sid)                                                 -- a shared state was accessed after it was freed
  deriving DecidableEq, Repr

variable {V E : Type}

def init : State V E :=
  { hd := fun _ => none, users := fun _ => [], next := 0, refs := fun _ => 0, live := fun _ => false,
    res := fun _ => none, splk := fun _ => none, q := fun _ => [], c := Ctxs.init, pc := fun _ => .idle, now := 0 }

/-- `intrusive_ptr_add_ref` (`shared_state.hpp:143-146`). -/
def addRef (s : State V E) (i : Sid) : State V E × List (Obs V E) :=
  if s.live i then ({ s with refs := upd s.refs i (s.refs i + 1) }, []) else (s, [.ub i])

/-- `intrusive_ptr_release` (`shared_state.hpp:148-154`), `~shared_state` (`:194-198`: the value is destroyed iff
`ready_ && ! except_`). -/
def release (s : State V E) (i : Sid) : State V E × List (Obs V E) :=
  if s.live i then
    if s.refs i = 1 then
      ({ s with refs := upd s.refs i 0, live := upd s.live i false },
        [.freed i (match s.res i with | some o => o.isValue | none => false)])
    else ({ s with refs := upd s.refs i (s.refs i - 1) }, [])
  else (s, [.ub i])

/-- A new shared state with the single reference of handle `h`. -/
def create (s : State V E) (h : Hid) (k : Kind) : State V E :=
  { s with hd := upd s.hd h (some ⟨k, false, some s.next⟩), next := s.next + 1,
           refs := upd s.refs s.next 1, live := upd s.live s.next true }

/-- The exception of an operation on a handle without shared state. -/
def uninit : Kind → Err
  | .promise => .promiseUninitialized
  | .task => .taskUninitialized
  | .future | .shared => .futureUninitialized

/-- The end of a handle operation that does not wait for anything. -/
def ret (s : State V E) (f : Fid) (op : Op V E) (i : Option Sid) (r : Res V E) (o : List (Obs V E) := []) :
    Option (State V E × List (Obs V E)) :=
  some (s, o ++ [.ret f op i r s.now])

/-- Start of a call that relies on handle `h` while it runs. -/
def start (s : State V E) (f : Fid) (h : Hid) (p : Pc V E) : Option (State V E × List (Obs V E)) :=
  some ({ s with users := upd s.users h (f :: s.users h), pc := upd s.pc f p }, [])

/-- A handle object with contents `y` disappears (destroyed, or its contents were moved to a temporary that is
destroyed): promises and tasks whose future was retrieved first call `owner_destroyed`
(`promise.hpp:55-59`, `packaged_task.hpp:73-77`); then the pointer is released. -/
def discard (s : State V E) (f : Fid) (op : Op V E) (i : Option Sid) (y : Handle) : Option (State V E × List (Obs V E)) :=
  match y.st with
  | none => ret s f op i .ok
  | some j =>
    if y.kind.provider ∧ y.obtained then some ({ s with pc := upd s.pc f (.owner op j) }, [])
    else ret (release s j).1 f op i .ok (release s j).2

/-- May `h` be modified? In the strict reading nobody else is using it. With `lax` a promise may be modified as
soon as every call still inside it has made the result ready and is merely notifying. -/
def free (lax : Bool) (s : State V E) (h : Hid) : Bool :=
  (s.users h).all fun f => lax && match s.pc f with | .notify _ _ _ => true | _ => false

/-- The calls on a handle that exists with contents `x`. `none`: the program has no such call (wrong kind of
object, name in use, or a forbidden concurrent use). -/
def callOn (lax : Bool) (s : State V E) (f : Fid) (op : Op V E) (h : Hid) (x : Handle) :
    Option (State V E × List (Obs V E)) :=
  match op with
  | .mkPromise _ | .mkTask _ | .mkEmpty _ _ => none
  | .getFuture _ h' =>       -- `promise.hpp:78-87`, `packaged_task.hpp:105-115`
    if x.kind.provider ∧ s.hd h' = none then
      if x.obtained then ret s f op x.st (.err .alreadyRetrieved)
      else match x.st with
        | none => ret s f op x.st (.err (uninit x.kind))
        | some i =>
          let s1 := { s with hd := upd (upd s.hd h (some { x with obtained := true })) h' (some ⟨.future, false, some i⟩) }
          ret (addRef s1 i).1 f op x.st .ok (addRef s1 i).2
    else none
  | .setValue _ v =>         -- `promise.hpp:123-135`, `shared_state.hpp:203-211`
    if x.kind = .promise then
      match x.st with
      | none => ret s f op x.st (.err .promiseUninitialized)
      | some i => start s f h (.set op h i (.value v) false)
    else none
  | .setExc _ e =>           -- `promise.hpp:94-99`, `shared_state.hpp:116-119`
    if x.kind = .promise then
      match x.st with
      | none => ret s f op x.st (.err .promiseUninitialized)
      | some i => start s f h (.set op h i (.exn (.user e)) false)
    else none
  | .invoke _ out =>         -- `packaged_task.hpp:117-122`, `task_object.hpp:56-74`
    if x.kind = .task then
      match x.st with
      | none => ret s f op x.st (.err .taskUninitialized)
      | some i => match out with
        | .inl v => start s f h (.set op h i (.value v) true)
        | .inr e => start s f h (.set op h i (.exn (.user e)) false)
    else none
  | .reset _ =>              -- `packaged_task.hpp:124-132`: the old state is only held by `tmp`, whose `obtained_` is false
    if x.kind = .task ∧ free lax s h then
      match x.st with
      | none => ret s f op x.st (.err .taskUninitialized)
      | some i => ret (release (create s h .task) i).1 f op x.st .ok (release (create s h .task) i).2
    else none
  | .move _ h' =>            -- `promise.hpp:64-68`, `packaged_task.hpp:82-86`, `future.hpp:44-47`
    if s.hd h' = none ∧ free lax s h then
      ret { s with hd := upd (upd s.hd h' (some x)) h (some ⟨x.kind, false, none⟩) } f op x.st .ok
    else none
  | .share _ h' =>           -- `future.hpp:283-285`, `share()`
    if x.kind = .future ∧ s.hd h' = none ∧ free lax s h then
      ret { s with hd := upd (upd s.hd h' (some ⟨.shared, false, x.st⟩)) h (some ⟨x.kind, false, none⟩) } f op x.st .ok
    else none
  | .moveAssign _ h' =>      -- `promise.hpp:70-76`, `packaged_task.hpp:88-94`, `future.hpp:56-62,302-310`
    if h = h' then ret s f op x.st .ok
    else match s.hd h' with
      | none => none
      | some y =>
        if (x.kind = y.kind ∨ x.kind = .future ∧ y.kind = .shared) ∧ free lax s h ∧ free lax s h' then
          discard { s with hd := upd (upd s.hd h' (some ⟨y.kind, x.obtained, x.st⟩)) h (some ⟨x.kind, false, none⟩) }
            f op y.st y
        else none
  | .swap _ h' =>            -- `promise.hpp:89-92`, `packaged_task.hpp:96-99`
    match s.hd h' with
    | none => none
    | some y =>
      if x.kind = y.kind ∧ x.kind.provider ∧ free lax s h ∧ free lax s h' then
        ret { s with hd := upd (upd s.hd h (some y)) h' (some x) } f op x.st .ok
      else none
  | .copy _ h' =>            -- `future.hpp:40-42`
    if x.kind = .shared ∧ s.hd h' = none then
      match x.st with
      | none => ret { s with hd := upd s.hd h' (some x) } f op x.st .ok
      | some i =>
        let s1 := { s with hd := upd s.hd h' (some x) }
        ret (addRef s1 i).1 f op x.st .ok (addRef s1 i).2
    else none
  | .copyAssign _ h' =>      -- `future.hpp:49-54`
    if h = h' then ret s f op x.st .ok
    else match s.hd h' with
      | none => none
      | some y =>
        if x.kind = .shared ∧ y.kind = .shared ∧ free lax s h' then
          let s1 := { s with hd := upd s.hd h' (some x) }
          match x.st with
          | none => discard s1 f op y.st y
          | some i =>
            match discard (addRef s1 i).1 f op y.st y with
            | none => none
            | some (s2, o) => some (s2, (addRef s1 i).2 ++ o)
        else none
  | .destroy _ =>            -- `promise.hpp:55-59`, `packaged_task.hpp:73-77`, `future.hpp:38`
    if free lax s h then discard { s with hd := upd s.hd h none } f op x.st x else none
  | .get _ =>                -- `future.hpp:143-150` (the state is swapped into `tmp`); shared: `future.hpp:306-311`
    if x.kind = .future then
      if free lax s h then
        match x.st with
        | none => ret s f op x.st (.err .futureUninitialized)
        | some i =>
          some ({ s with hd := upd s.hd h (some { x with st := none }), pc := upd s.pc f (.enter op .own i) }, [])
      else none
    else if x.kind = .shared then
      match x.st with
      | none => ret s f op x.st (.err .futureUninitialized)
      | some i => start s f h (.enter op (.handle h) i)
    else none
  | .wait _ | .waitUntil _ _ | .getExc _ =>     -- `future.hpp:68-96`
    if x.kind.provider then none
    else match x.st with
      | none => ret s f op x.st (.err .futureUninitialized)
      | some i => start s f h (.enter op (.handle h) i)
  | .valid _ =>              -- `future.hpp:64-66`, `packaged_task.hpp:101-103`
    if x.kind = .promise then none else ret s f op x.st (.bool x.st.isSome)

/-- The handle an operation is applied to. -/
def Op.subject : Op V E → Hid
  | .mkPromise h | .mkTask h | .mkEmpty _ h | .getFuture h _ | .setValue h _ | .setExc h _ | .invoke h _ | .reset h
  | .move h _ | .share h _ | .moveAssign h _ | .swap h _ | .copy h _ | .copyAssign h _ | .destroy h | .get h
  | .wait h | .waitUntil h _ | .getExc h | .valid h => h

def call (lax : Bool) (s : State V E) (f : Fid) (op : Op V E) : Option (State V E × List (Obs V E)) :=
  match s.hd op.subject with
  | none =>
    match op with
    | .mkPromise h => ret (create s h .promise) f op (some s.next) .ok
    | .mkTask h => ret (create s h .task) f op (some s.next) .ok
    | .mkEmpty k h =>
      if k = .promise then none else ret { s with hd := upd s.hd h (some ⟨k, false, none⟩) } f op none .ok
    | _ => none
  | some x => callOn lax s f op op.subject x

/-- The result a call is about: the one its handle refers to, or the one it creates; for an assignment the one the
target gives up. -/
def sidOf (s : State V E) (op : Op V E) : Option Sid :=
  match op with
  | .mkPromise _ | .mkTask _ => some s.next
  | .moveAssign _ h' | .copyAssign _ h' => (s.hd h').bind Handle.st
  | _ => (s.hd op.subject).bind Handle.st

/-- The deadline of a call (`shared_state.hpp:92-99`). -/
def Op.dl : Op V E → Option Nat
  | .waitUntil _ d => some d
  | _ => none

/-- What a waiting call returns once the result is ready: `get_` (`shared_state.hpp:180-187`),
`get_exception_ptr_` (`:72-76`), `wait_` (`:78-81`), `wait_until_` (`:92-99`). -/
def outcome (op : Op V E) (out : Outcome V E) : Res V E :=
  match op with
  | .get _ => match out with | .value v => .value v | .exn x => .threw x
  | .getExc _ => match out with | .value _ => .exc none | .exn x => .exc (some x)
  | .waitUntil _ _ => .ready
  | _ => .ok

/-- The end of a call: leave the handle, or drop the call's own reference. -/
def finish (s : State V E) (f : Fid) (op : Op V E) (u : Use) (i : Sid) (r : Res V E) (o : List (Obs V E) := []) :
    Option (State V E × List (Obs V E)) :=
  match u with
  | .handle h =>
    some ({ s with users := upd s.users h ((s.users h).erase f), pc := upd s.pc f .idle },
      o ++ [.ret f op (some i) r s.now])
  | .own =>
    let s1 := { s with pc := upd s.pc f .idle }
    some ((release s1 i).1, o ++ (release s1 i).2 ++ [.ret f op (some i) r s.now])

/-- The shared state a fiber is working on. -/
def Pc.sid : Pc V E → Option Sid
  | .idle => none
  | .set _ _ i _ _ | .owner _ i | .notify _ _ i | .enter _ _ i | .enq _ _ i | .waiting _ _ i _ | .unlink _ _ i _
  | .last _ _ i => some i

def runLive (s : State V E) (f : Fid) : Option (State V E × List (Obs V E)) :=
  match s.pc f with
  | .idle => none
  | .set op h i out again =>     -- `set_value_`, `set_exception_` (`shared_state.hpp:63-70,162-178`), `run` (`task_object.hpp:56-74`)
    match s.res i with
    | some _ =>
      if again then some ({ s with pc := upd s.pc f (.set op h i (.exn .satisfied) false) }, [])
      else finish s f op (.handle h) i (.err .alreadySatisfied)
    | none =>
      some ({ s with res := upd s.res i (some out), pc := upd s.pc f (.notify op (.handle h) i) }, [.stored f i out])
  | .owner op i =>               -- `owner_destroyed_` (`shared_state.hpp:54-61`)
    match s.res i with
    | some _ => finish s f op .own i .ok
    | none =>
      some ({ s with res := upd s.res i (some (.exn .broken)), pc := upd s.pc f (.notify op .own i) },
        [.stored f i (.exn .broken)])
  | .notify op u i =>            -- `waiters_.notify_all()` (`shared_state.hpp:51`)
    if s.splk i = none then
      let (c, ws) := notifyAll s.c (s.q i)
      finish { s with c := c, q := upd s.q i [] } f op u i .ok [.notified f i ws]
    else none
  | .enter op u i =>             -- `while ( ! ready_) wait( lk)` (`condition_variable.hpp:66-91,120-128`)
    match s.res i with
    | some out => finish s f op u i (outcome op out)
    | none =>
      if s.splk i = none then
        some ({ s with splk := upd s.splk i (some f), pc := upd s.pc f (.enq op u i) }, [])
      else none
  | .enq op u i =>
    let (c, l) := enqueue s.c (s.q i) f
    some ({ s with c := c, q := upd s.q i l, splk := upd s.splk i none, pc := upd s.pc f (.waiting op u i (s.c.epoch f + 1)) }, [])
  | .waiting op u i ep =>
    if s.c.ready f then
      match op.dl with
      | none => some ({ s with c := consumeReady s.c f, pc := upd s.pc f (.enter op u i) }, [])
      | some d =>
        if s.now < d then some ({ s with c := consumeReady s.c f, pc := upd s.pc f (.enter op u i) }, [])
        else some ({ s with c := consumeReady s.c f, pc := upd s.pc f (.unlink op u i ep) }, [])
    else none
  | .unlink op u i ep =>
    if s.splk i = none then
      some ({ s with q := upd s.q i ((s.q i).filter (· ≠ ⟨f, ep⟩)), pc := upd s.pc f (.last op u i) }, [])
    else none
  | .last op u i =>              -- `return pred()` after a timeout (`condition_variable.hpp:124`)
    match s.res i with
    | some out => finish s f op u i (outcome op out)
    | none => finish s f op u i .timeout

/-- A step of a fiber that touches a freed shared state is undefined behaviour. -/
def run (s : State V E) (f : Fid) : Option (State V E × List (Obs V E)) :=
  match (s.pc f).sid with
  | none => none
  | some i => if s.live i then runLive s f else some ({ s with pc := upd s.pc f .idle }, [.ub i])

def step (lax : Bool) (s : State V E) : Event V E → Option (State V E × List (Obs V E))
  | .call f op =>
    if (s.pc f).sid = none then
      match call lax s f op with
      | none => none
      | some (s', o) => some (s', .called f op (sidOf s op) :: o)
    else none
  | .run f => run s f
  | .timer f =>        -- `scheduler::sleep2ready_` (`src/scheduler.cpp:66-94`)
    match s.pc f with
    | .waiting op _ _ ep =>
      match op.dl with
      | some d => if d ≤ s.now then some ({ s with c := (wake s.c ⟨f, ep⟩).1 }, []) else none
      | none => none
    | _ => none
  | .tick n => some ({ s with now := s.now + n }, [])
  | .elsewhere f n =>
    if (s.pc f).sid = none then
      some ({ s with c := { s.c with epoch := upd s.c.epoch f (s.c.epoch f + n) } }, [])
    else none

end Verif.Fut
