import Verif.Props.WeakDrf
import Verif.MonitorLive
import Verif.MonitorMutex

/-!
# Properties of objects made of critical sections, on weak memory
-/

namespace Verif.Props.Monitor

open Verif Verif.Weak Verif.WeakDrf Verif.Monitor
open Verif.Rtm (Tid Lock Addr Req Done Hist Prog mine owner value Legal Allowed holding owner_iff)

variable {Op Res : Type}

/-- Programs that share data with the help of objects whose operations are critical sections have no data race under the C++ memory model, inside the
objects or outside. What the threads see is what they could see if every critical section were a single step on ordinary memory. It is enough
to look at such histories to know that the programs are disciplined. -/
theorem operations_are_single_steps (lib : Lib Op Res) (V : UProg Op Res) (hd : UDisciplined lib V) (s : State) (tr : List Unit)
    (h : Reach (step (compile lib V)) init s tr) :
    s.ub = false ∧ ULegal lib V (uhist lib V s.hist) ∧ ∀ t, (th lib V t (mine s.hist t)).past = upast (uhist lib V s.hist) t := by
  obtain ⟨hc, hd⟩ := Monitor.disciplined hd
  obtain ⟨h1, h2⟩ := WeakDrf.no_race_and_sequentially_consistent _ (unlocks hc) hd s tr h
  have hi := inv_legal hc h2
  exact ⟨h1, hi.legal, hi.past⟩

/-- The converse. -/
theorem every_history_of_operations_happens (lib : Lib Op Res) (V : UProg Op Res) (hd : UDisciplined lib V) (uh : UHist Op Res) (hl : ULegal lib V uh) :
    ∃ s tr, Reach (step (compile lib V)) init s tr ∧ uhist lib V s.hist = uh := by
  obtain ⟨hc, hd⟩ := Monitor.disciplined hd
  obtain ⟨h, h1, h2, h3, _⟩ := realise hc hl
  obtain ⟨s, tr, h4, h5⟩ := WeakDrf.every_sequential_history_happens _ (unlocks hc) hd h h1 h2
  exact ⟨s, tr, h4, by rw [h5, h3]⟩

/-! ## Mutexes -/

/-- The history of a program with mutexes that runs on weak memory. -/
def mutexHist (U : Prog) (h : Hist) : Hist := Mutex.locks (uhist Mutex.lib (Mutex.calls U) h)

/-- What a fiber has seen of such a program. -/
def mutexPast (U : Prog) (h : Hist) (t : Tid) : List Done := (th Mutex.lib (Mutex.calls U) t (mine h t)).past.map Mutex.dn

/-- Data that are shared with the help of mutexes of the library: no data race, neither of the data nor inside the mutexes; a mutex is held by one fiber at
a time, and a read returns what was written last. -/
theorem mutexes_are_locks (U : Prog) (hu : Unlocks U) (hp : Mutex.Plain U) (hd : Disciplined U) (s : State) (tr : List Unit)
    (h : Reach (step (compile Mutex.lib (Mutex.calls U))) init s tr) :
    s.ub = false ∧ Legal U (mutexHist U s.hist) ∧ ∀ t, mutexPast U s.hist t = mine (mutexHist U s.hist) t := by
  obtain ⟨h1, h2, h3⟩ := operations_are_single_steps _ _ (Mutex.disciplined hu hp hd) s tr h
  refine ⟨h1, (Mutex.minv_legal hu hp h2).legal, fun t => ?_⟩
  unfold mutexPast mutexHist
  rw [h3, Mutex.mine_locks]

/-- The simplest case: each piece of data belongs to a mutex and is accessed only while the fiber holds it. -/
theorem data_guarded_by_mutexes (U : Prog) (guard : Addr → Lock) (hu : Unlocks U) (hp : Mutex.Plain U) (hg : Guarded U guard) (s : State)
    (tr : List Unit) (h : Reach (step (compile Mutex.lib (Mutex.calls U))) init s tr) :
    s.ub = false ∧ Legal U (mutexHist U s.hist) ∧ ∀ t, mutexPast U s.hist t = mine (mutexHist U s.hist) t :=
  mutexes_are_locks U hu hp (WeakDrf.guarded_programs_are_disciplined U guard hg) s tr h

/-- Critical sections of mutexes are single steps. -/
theorem critical_sections_of_mutexes_are_atomic (U : Prog) (hu : Unlocks U) (hp : Mutex.Plain U) (hd : Disciplined U) (h2 : TwoPhase U) (s : State)
    (tr : List Unit) (h : Reach (step (compile Mutex.lib (Mutex.calls U))) init s tr) :
    ∃ h', Legal U h' ∧ Atomic h' ∧ ∀ t, mutexPast U s.hist t = mine h' t := by
  obtain ⟨_, h3, h4⟩ := mutexes_are_locks U hu hp hd s tr h
  obtain ⟨right, hR⟩ := hd
  obtain ⟨h', h5, h6, h7⟩ := reorder h2 hR h3
  exact ⟨h', h5, h7, fun t => by rw [h4, h6.1]⟩

/-- Every history of a program with mutexes can happen. -/
theorem every_history_of_mutexes_happens (U : Prog) (hu : Unlocks U) (hp : Mutex.Plain U) (hd : Disciplined U) (h : Hist) (hl : Legal U h) :
    ∃ s tr, Reach (step (compile Mutex.lib (Mutex.calls U))) init s tr ∧ mutexHist U s.hist = h := by
  obtain ⟨uh, h1, h2⟩ := Mutex.realise hu hp hl
  obtain ⟨s, tr, h3, h4⟩ := every_history_of_operations_happens _ _ (Mutex.disciplined hu hp hd) uh h1
  exact ⟨s, tr, h3, by unfold mutexHist; rw [h4, h2]⟩

/-- Objects whose operations are critical sections of mutexes of the library, on weak memory: their operations are single steps, too. -/
theorem operations_with_mutexes_are_single_steps (lib : Lib Op Res) (hn : ∀ op, lib.tries op = false) (V : UProg Op Res) (hd : UDisciplined lib V) (s : State) (tr : List Unit)
    (h : Reach (step (compile Mutex.lib (Mutex.calls (compile lib V)))) init s tr) :
    s.ub = false ∧ ULegal lib V (uhist lib V (mutexHist (compile lib V) s.hist)) ∧
      ∀ t, (th lib V t (mutexPast (compile lib V) s.hist t)).past = upast (uhist lib V (mutexHist (compile lib V) s.hist)) t := by
  obtain ⟨hc, hd⟩ := Monitor.disciplined hd
  obtain ⟨h1, h2, h3⟩ := mutexes_are_locks _ (unlocks hc) (Mutex.plain_compile hc hn) hd s tr h
  have hi := inv_legal hc h2
  exact ⟨h1, hi.legal, fun t => by rw [h3]; exact hi.past t⟩

/-! ## Examples -/

open Verif.Props.WeakDrf (counter counter_past counter_unlocks counter_guarded counter_two_phase)

theorem counter_plain : Mutex.Plain counter := by
  intro h t l hl
  refine ⟨?_, ?_⟩
  · unfold counter; split <;> simp
  · intro hr ho
    rw [owner_iff hl, (counter_past hl t).1] at ho
    unfold counter at hr ho
    grind

/-- Any number of fibers increment a number, under a mutex. -/
example (s : State) (tr : List Unit) (h : Reach (step (compile Mutex.lib (Mutex.calls counter))) init s tr) :
    s.ub = false ∧ Legal counter (mutexHist counter s.hist) :=
  have h1 := data_guarded_by_mutexes _ _ counter_unlocks counter_plain counter_guarded s tr h
  ⟨h1.1, h1.2.1⟩

example (s : State) (tr : List Unit) (h : Reach (step (compile Mutex.lib (Mutex.calls counter))) init s tr) :
    ∃ h', Legal counter h' ∧ Atomic h' ∧ ∀ t, mutexPast counter s.hist t = mine h' t :=
  critical_sections_of_mutexes_are_atomic _ counter_unlocks counter_plain (WeakDrf.guarded_programs_are_disciplined _ _ counter_guarded)
    counter_two_phase s tr h

/-- A run on weak memory. Fiber 7 takes the mutex; fiber 8 finds it taken, adds itself to the queue and suspends; fiber 7 writes 1, takes fiber 8 from the queue
and releases the mutex; fiber 8 takes it and reads 1. -/
def run : List (Tid × Nat) :=
  [(7, 1), (7, 0), (7, 0), (7, 2), (7, 2), (7, 2), (7, 3), (7, 3), (8, 3), (8, 2), (8, 2), (8, 4), (8, 4), (8, 4), (8, 4), (7, 5), (7, 4), (7, 4), (7, 6),
    (7, 6), (7, 6), (7, 6), (7, 6), (7, 7), (8, 7), (8, 6), (8, 6), (8, 8), (8, 8), (8, 8), (8, 9), (8, 9)]

example : ((exec (step (compile Mutex.lib (Mutex.calls counter))) init run).map fun r => (r.1.ub, mutexHist counter r.1.hist)) =
    some (false, [(8, .put 0 2), (8, .got 0 1), (8, .acquired 0), (7, .released 0), (7, .put 0 1), (7, .got 0 0), (7, .acquired 0)]) := by
  decide +kernel

/-- The same, as critical sections of the spinlock. -/
example : ((exec (step (compile Mutex.lib (Mutex.calls counter))) init run).map fun r =>
    ((uhist Mutex.lib (Mutex.calls counter) r.1.hist).filterMap fun e => match e with
      | (t, .sect _ op log _) => some (t, op, log)
      | _ => none).reverse) =
    some [(7, .lock, [.put 1 8, .got 1 0]), (8, .lock, [.put 2 1, .got 2 0, .got 1 8]), (7, .unlock, [.put 2 0, .got 2 1, .put 1 0, .got 1 8]),
      (8, .lock, [.put 1 9, .got 1 0])] := by
  decide +kernel

/-- Without the mutex there is a race. -/
example : ((exec (step (compile Mutex.lib (Mutex.calls WeakDrf.careless))) init [(0, 0), (1, 0)]).map fun r => r.1.ub) = some true := by decide +kernel

end Verif.Props.Monitor
