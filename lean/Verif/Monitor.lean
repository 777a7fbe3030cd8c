import Verif.WeakDrf

/-!
# Objects made of critical sections

Most objects of the library work in the same way: an operation takes the lock of the object, reads and writes the members of the object, and releases
the lock; it then returns, or it has to wait and goes on with another critical section later. (`buffered_channel`: `splk_`,
`buffered_channel.hpp:43`; the mutexes: `wait_queue_splk_`, `mutex.hpp:37`; `barrier` and the shared state of futures: a mutex of the library, `barrier.hpp:30`,
`future/detail/shared_state.hpp:43`.) Such objects are given by their code (`Lib`); `Verif/MonitorMutex.lean` and others have the code of the library.

Programs that call operations of such objects, and read and write data of their own, are turned into programs with locks (`compile`) as in
`Verif/WeakDrf.lean`. The specification is the same program with every critical section as a single step. -/

namespace Verif.Monitor

open Verif.Rtm (Tid Lock Addr Req Done Hist Prog mine owner value Legal Allowed holding)
open Verif.WeakDrf

abbrev Obj := Nat

/-- What an operation does next in its critical section. -/
inductive Act (Op Res : Type)
  | read (a : Addr)
  | write (a : Addr) (v : Nat)
  /-- releases the lock and returns -/
  | ret (r : Res)
  /-- releases the lock and waits; then goes on as `op` -/
  | again (op : Op)

/-- The code of the operations. -/
structure Lib (Op Res : Type) where
  /-- what thread `t` does next in operation `op` on object `o`, after the accesses `log` (latest first) in this critical section -/
  code : Obj → Tid → Op → List Done → Act Op Res
  /-- the object a variable is a member of; `none`: data of the user -/
  home : Addr → Option Obj
  /-- the lock is taken by calling `try_lock` until it succeeds, not by `lock`, before this section of an operation -/
  tries : Op → Bool
  /-- operations access members of their object only -/
  member : ∀ o t op log a, (code o t op log = .read a ∨ ∃ v, code o t op log = .write a v) → home a = some o

variable {Op Res : Type}

/-- What a user's thread can ask for. -/
inductive UReq (Op : Type)
  | read (a : Addr)
  | write (a : Addr) (v : Nat)
  | call (o : Obj) (op : Op)

/-- What a user's thread has done. -/
inductive UDone (Op Res : Type)
  | got (a : Addr) (v : Nat)
  | put (a : Addr) (v : Nat)
  | did (o : Obj) (op : Op) (r : Res)

/-- A program: what a thread does next, given what it has done (latest first). -/
abbrev UProg (Op Res : Type) := Tid → List (UDone Op Res) → Option (UReq Op)

/-! ## The program with locks -/

/-- Where a thread is. -/
inductive Pc (Op : Type)
  /-- in the user's code -/
  | user
  /-- about to take the lock of `o` again -/
  | enter (o : Obj) (op : Op)
  /-- in a critical section -/
  | sec (o : Obj) (op : Op) (log : List Done)

structure Th (Op Res : Type) where
  past : List (UDone Op Res)
  pc : Pc Op

/-- How a thread goes on after it has done `d`. -/
def feed (lib : Lib Op Res) (V : UProg Op Res) (t : Tid) (x : Th Op Res) (d : Done) : Th Op Res :=
  match x.pc, d with
  | .user, .got a v => ⟨.got a v :: x.past, .user⟩
  | .user, .put a v => ⟨.put a v :: x.past, .user⟩
  | .user, .acquired _ =>
    match V t x.past with
    | some (.call o op) => ⟨x.past, .sec o op []⟩
    | _ => x
  | .enter o op, .acquired _ => ⟨x.past, .sec o op []⟩
  | .sec o op log, .released _ =>
    match lib.code o t op log with
    | .ret r => ⟨.did o op r :: x.past, .user⟩
    | .again op' => ⟨x.past, .enter o op'⟩
    | _ => x
  | .sec o op log, d => ⟨x.past, .sec o op (d :: log)⟩
  | _, _ => x

/-- Where a thread is after what it has done with locks and data. -/
def th (lib : Lib Op Res) (V : UProg Op Res) (t : Tid) : List Done → Th Op Res
  | [] => ⟨[], .user⟩
  | d :: p => feed lib V t (th lib V t p) d

/-- Taking the lock of an object. -/
def take (lib : Lib Op Res) (o : Obj) (op : Op) : Req := if lib.tries op then .tryLock o else .lock o

/-- What a thread wants next. -/
def want (lib : Lib Op Res) (V : UProg Op Res) (t : Tid) (x : Th Op Res) : Option Req :=
  match x.pc with
  | .user =>
    match V t x.past with
    | none => none
    | some (.read a) => some (.read a)
    | some (.write a v) => some (.write a v)
    | some (.call o op) => some (take lib o op)
  | .enter o op => some (take lib o op)
  | .sec o op log =>
    match lib.code o t op log with
    | .read a => some (.read a)
    | .write a v => some (.write a v)
    | .ret _ => some (.unlock o)
    | .again _ => some (.unlock o)

/-- The program with locks. Object `o` has lock `o`. -/
def compile (lib : Lib Op Res) (V : UProg Op Res) : Prog := fun t p => want lib V t (th lib V t p)

/-! ## Specification: critical sections are single steps -/

/-- What happens in a program whose critical sections are single steps. -/
inductive Ev (Op Res : Type)
  | got (a : Addr) (v : Nat)
  | put (a : Addr) (v : Nat)
  /-- a critical section of operation `op` on `o`, with its accesses (latest first) and how it ended -/
  | sect (o : Obj) (op : Op) (log : List Done) (out : Act Op Res)

/-- A history, latest first. -/
abbrev UHist (Op Res : Type) := List (Tid × Ev Op Res)

/-- The values after the accesses of a critical section. -/
def after (mem : Addr → Nat) : List Done → Addr → Nat
  | [], a => mem a
  | .put b v :: l, a => if b = a then v else after mem l a
  | _ :: l, a => after mem l a

/-- The values after a history. -/
def uval : UHist Op Res → Addr → Nat
  | [], _ => 0
  | (_, .got _ _) :: h, a => uval h a
  | (_, .put b v) :: h, a => if b = a then v else uval h a
  | (_, .sect _ _ log _) :: h, a => after (uval h) log a

/-- What a thread has done, as its user sees it. -/
def upast : UHist Op Res → Tid → List (UDone Op Res)
  | [], _ => []
  | (u, e) :: h, t =>
    if u = t then
      match e with
      | .got a v => .got a v :: upast h t
      | .put a v => .put a v :: upast h t
      | .sect o op _ (.ret r) => .did o op r :: upast h t
      | .sect _ _ _ _ => upast h t
    else upast h t

/-- The operation in which a thread waits. -/
def pend : UHist Op Res → Tid → Option (Obj × Op)
  | [], _ => none
  | (u, e) :: h, t =>
    if u = t then
      match e with
      | .sect o _ _ (.again op) => some (o, op)
      | _ => none
    else pend h t

/-- `log` are accesses of operation `op`, with nobody else in between, beginning with the values `mem`. -/
def Ran (lib : Lib Op Res) (o : Obj) (t : Tid) (op : Op) (mem : Addr → Nat) : List Done → Prop
  | [] => True
  | .got a v :: l => lib.code o t op l = .read a ∧ after mem l a = v ∧ Ran lib o t op mem l
  | .put a v :: l => lib.code o t op l = .write a v ∧ Ran lib o t op mem l
  | _ :: _ => False

/-- What may happen next when critical sections are single steps on ordinary memory. -/
def UAllowed (lib : Lib Op Res) (V : UProg Op Res) (h : UHist Op Res) : Tid × Ev Op Res → Prop
  | (t, .got a v) => pend h t = none ∧ V t (upast h t) = some (.read a) ∧ uval h a = v
  | (t, .put a v) => pend h t = none ∧ V t (upast h t) = some (.write a v)
  | (t, .sect o op log out) =>
    (pend h t = some (o, op) ∨ (pend h t = none ∧ V t (upast h t) = some (.call o op))) ∧ Ran lib o t op (uval h) log ∧
      out = lib.code o t op log ∧ ((∃ r, out = .ret r) ∨ ∃ op', out = .again op')

/-- The histories of a program whose critical sections are single steps. -/
def ULegal (lib : Lib Op Res) (V : UProg Op Res) : UHist Op Res → Prop
  | [] => True
  | e :: h => UAllowed lib V h e ∧ ULegal lib V h

/-- What the program with locks has done, by critical sections: a section happens when it releases its lock. -/
def uhist (lib : Lib Op Res) (V : UProg Op Res) : Hist → UHist Op Res
  | [] => []
  | (t, d) :: h =>
    match (th lib V t (mine h t)).pc, d with
    | .user, .got a v => (t, .got a v) :: uhist lib V h
    | .user, .put a v => (t, .put a v) :: uhist lib V h
    | .sec o op log, .released _ => (t, .sect o op log (lib.code o t op log)) :: uhist lib V h
    | _, _ => uhist lib V h

/-- Who has the right to access data of the user. -/
inductive URight
  | thread (t : Tid)
  | obj (o : Obj)
  deriving DecidableEq, Repr

/-- The right moves at most between an object and a thread that is in a critical section of it. -/
def UMoves (t : Tid) (e : Ev Op Res) (r r' : URight) : Prop :=
  r' = r ∨ ∃ o op log out, e = .sect o op log out ∧ ((r = .obj o ∧ r' = .thread t) ∨ (r = .thread t ∧ r' = .obj o))

/-- The program shares its data with the help of the objects, as far as one can see when critical sections are single steps. The right to access data has shares,
numbered arbitrarily: threads read only data of which they have a share, write only data of which they have all shares, and shares are handed on
through objects only. -/
def UDisciplined (lib : Lib Op Res) (V : UProg Op Res) : Prop :=
  ∃ right : UHist Op Res → Addr → Nat → URight, ∀ t e h, ULegal lib V ((t, e) :: h) →
    (∀ a v, e = .got a v → lib.home a = none ∧ ∃ i, right h a i = .thread t) ∧ (∀ a v, e = .put a v → lib.home a = none ∧ ∀ i, right h a i = .thread t) ∧
      ∀ a i, lib.home a = none → UMoves t e (right h a i) (right ((t, e) :: h) a i)

/-- It is enough to say who has all shares. -/
theorem UDisciplined.of_one {lib : Lib Op Res} {V : UProg Op Res} (right : UHist Op Res → Addr → URight)
    (h : ∀ t e h, ULegal lib V ((t, e) :: h) → (∀ a v, e = .got a v ∨ e = .put a v → lib.home a = none ∧ right h a = .thread t) ∧
      ∀ a, lib.home a = none → UMoves t e (right h a) (right ((t, e) :: h) a)) : UDisciplined lib V :=
  ⟨fun h a _ => right h a, fun t e h' hl =>
    ⟨fun a v he => have := (h t e h' hl).1 a v (.inl he); ⟨this.1, 0, this.2⟩,
      fun a v he => have := (h t e h' hl).1 a v (.inr he); ⟨this.1, fun _ => this.2⟩, fun a _ => (h t e h' hl).2 a⟩⟩

end Verif.Monitor
