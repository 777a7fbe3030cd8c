import Verif.Props.Monitor
import Verif.MonitorBarrierInv

/-!
# Properties of programs with phases between barriers, on weak memory
-/

namespace Verif.Props.MonitorBarrier

open Verif Verif.Monitor Verif.Monitor.Barrier
open Verif.WeakDrf (State step)
open Verif.Rtm (Tid Lock Addr Req Done Hist Prog mine)
open Verif.Props.Monitor (mutexHist mutexPast)

/-- The program on weak memory: barriers made of mutexes made of spinlocks. -/
def machine (init : Obj → Nat) (V : UProg Op Res) : Prog := compile Mutex.lib (Mutex.calls (compile (lib init) V))

/-- What a thread has seen. -/
def seen (init : Obj → Nat) (V : UProg Op Res) (s : State) (t : Tid) : List (UDone Op Res) :=
  (th (lib init) V t (mutexPast (compile (lib init) V) s.hist t)).past

/-- The critical sections of the barriers. -/
def sections (init : Obj → Nat) (V : UProg Op Res) (s : State) : UHist Op Res := uhist (lib init) V (mutexHist (compile (lib init) V) s.hist)

/-- Programs that go through phases with a barrier between them, and in each phase use each piece of data either in one thread only or only for reading, have no data race
on weak memory, and see what they could see if `wait` were made of single steps on ordinary memory. -/
theorem phases_do_not_race (init : Obj → Nat) (hn : 0 < init 0) (V : UProg Op Res) (plan : Plan) (hp : Phased init V plan) (s : State) (tr : List Unit)
    (h : Reach (step (machine init V)) WeakDrf.init s tr) :
    s.ub = false ∧ ULegal (lib init) V (sections init V s) ∧ ∀ t, seen init V s t = upast (sections init V s) t :=
  Monitor.operations_with_mutexes_are_single_steps (lib init) (fun _ => rfl) V (phased_disciplined hn hp) s tr h

/-- No thread is in a later phase than another one, unless the other one is in `wait` and just has not returned yet. -/
theorem phases_are_separated (init : Obj → Nat) (hn : 0 < init 0) (V : UProg Op Res) (plan : Plan) (hp : Phased init V plan) (s : State) (tr : List Unit)
    (h : Reach (step (machine init V)) WeakDrf.init s tr) (t u : Tid) (ht : t < init 0) (hu : u < init 0) (hlt : phase (seen init V s u) < phase (seen init V s t)) :
    phase (seen init V s t) = phase (seen init V s u) + 1 ∧ pend (sections init V s) u ≠ none := by
  obtain ⟨_, h2, h3⟩ := phases_do_not_race init hn V plan hp s tr h
  have hi := binv_legal hp h2
  rw [h3] at hlt ⊢
  rw [h3] at hlt ⊢
  have h4 := phase_le hi ht
  rcases hi.where_ u with ⟨_, h5⟩ | ⟨_, _, h5⟩ | ⟨_, c, h5, h6, h7⟩
  · have := h5 hu; omega
  · omega
  · exact ⟨by omega, by rw [h6]; simp⟩

/-- In each phase that somebody has left, `wait` has returned `true` to exactly one thread. -/
theorem one_leader_per_phase (init : Obj → Nat) (hn : 0 < init 0) (V : UProg Op Res) (plan : Plan) (hp : Phased init V plan) (s : State) (tr : List Unit)
    (h : Reach (step (machine init V)) WeakDrf.init s tr) (k : Nat) (t : Tid) (ht : t < init 0) (hk : k < phase (seen init V s t)) :
    ∃ u, u < init 0 ∧ (results (seen init V s u))[k]? = some true ∧ ∀ u', u' < init 0 → (results (seen init V s u'))[k]? = some true → u' = u := by
  obtain ⟨_, h2, h3⟩ := phases_do_not_race init hn V plan hp s tr h
  have hi := binv_legal hp h2
  rw [h3] at hk
  have h4 := phase_le hi ht
  obtain ⟨u, h5, h6, h7⟩ := one_true hp h2 k (by omega)
  exact ⟨u, h5, by rw [h3]; exact h6, fun u' hu' h8 => h7 u' hu' (by rw [h3] at h8; exact h8)⟩

/-! ## Example: a stencil -/

/-- Two arrays; in phase `k` one of them is read by all, and thread `t` writes element `t` of the other one. -/
def cell (k t : Nat) : Addr := dataAt (2 * t + k % 2)

/-- Thread `t` reads both neighbours of element `t` in one array and writes the sum to the other array; then all wait, and go on with the arrays exchanged. -/
def stencil (n : Nat) : UProg Op Res := fun t p =>
  if t < n then
    match p with
    | .put _ _ :: _ => some (.call 0 .wait)
    | .got _ v :: .got _ w :: _ => some (.write (cell (phase p + 1) t) (v + w + 1))
    | .got _ _ :: _ => some (.read (cell (phase p) ((t + n - 1) % n)))
    | _ => some (.read (cell (phase p) ((t + 1) % n)))
  else none

def halves : Plan := fun k a => if a % 4 = 2 * (k % 2) then none else some (a / 4)

theorem cell_data (k t : Nat) : home (cell k t) = none := home_data _

theorem halves_read (k t : Nat) : halves k (cell k t) = none := by
  have h : (2 * (2 * t + k % 2)) % 4 = 2 * (k % 2) := by omega
  unfold halves cell dataAt
  exact if_pos h

theorem halves_write (k t : Nat) : halves k (cell (k + 1) t) = some t := by
  have h : (2 * (2 * t + (k + 1) % 2)) % 4 ≠ 2 * (k % 2) ∧ 2 * (2 * t + (k + 1) % 2) / 4 = t := by omega
  unfold halves cell dataAt
  rw [if_neg h.1, h.2]

theorem stencil_phased (init : Obj → Nat) : Phased init (stencil (init 0)) halves := by
  intro h t _
  generalize upast h t = p
  by_cases ht : t < init 0
  · refine ⟨fun a ha => ?_, fun a v ha => ?_, fun o op ho => ?_⟩
    · simp only [stencil, ht, if_true] at ha
      split at ha <;> simp at ha
      · rw [← ha, halves_read]; exact ⟨cell_data _ _, ht, .inr rfl⟩
      · rw [← ha, halves_read]; exact ⟨cell_data _ _, ht, .inr rfl⟩
    · simp only [stencil, ht, if_true] at ha
      split at ha <;> simp at ha
      rw [← ha.1, halves_write]; exact ⟨cell_data _ _, ht, rfl⟩
    · simp only [stencil, ht, if_true] at ho
      split at ho <;> simp at ho
      exact ⟨ho.1.symm, ho.2.symm, ht⟩
  · simp [stencil, ht]

/-- For any number of threads there is no data race, without a lock around the data. -/
example (n : Nat) (hn : 0 < n) (s : State) (tr : List Unit) (h : Reach (step (machine (fun _ => n) (stencil n))) WeakDrf.init s tr) : s.ub = false :=
  (phases_do_not_race (fun _ => n) hn (stencil n) halves (stencil_phased fun _ => n) s tr h).1

/-- A run on weak memory with two threads: thread 0 arrives and waits, thread 1 arrives and goes on, and reads what thread 0 has written, thread 0 goes on, and reads what thread 1
has written. -/
def run : List (Tid × Nat) :=
  [(0, 1), (0, 1), (0, 1), (0, 1), (0, 0), (0, 0), (0, 2), (0, 2), (0, 2), (0, 3), (0, 3), (0, 3), (0, 3), (0, 2), (0, 2), (0, 4), (0, 4), (0, 4), (0, 4), (0, 5), (1, 5), (1, 5), (1, 5),
    (1, 5), (1, 4), (1, 4), (1, 6), (1, 6), (1, 6), (1, 7), (1, 7), (1, 7), (1, 7), (1, 7), (1, 6), (1, 6), (1, 8), (1, 8), (1, 8), (1, 8), (1, 9), (0, 8), (0, 8), (0, 10), (0, 10), (0, 10),
    (0, 11), (0, 11), (0, 10), (0, 10), (0, 12), (0, 12), (0, 12), (0, 12), (0, 13), (0, 13), (0, 13), (0, 13), (1, 13), (0, 12)]

example : ((exec (step (machine (fun _ => 2) (stencil 2))) WeakDrf.init run).map fun r =>
    (r.1.ub, results (seen (fun _ => 2) (stencil 2) r.1 0), results (seen (fun _ => 2) (stencil 2) r.1 1), r.1.hist.take 5)) =
    some (false, [false], [true], [(1, .got 6 1), (0, .put 0 3), (0, .got 18 1), (0, .got 18 1), (0, .released 0)]) := by
  decide +kernel

/-- Without the barrier there is a race. -/
def hurry : UProg Op Res
  | t, [] => some (.read (cell 0 ((t + 1) % 2)))
  | t, _ => some (.write (cell 0 t) 1)

example : ((exec (step (machine (fun _ => 2) hurry)) WeakDrf.init [(0, 0), (1, 0), (0, 0)]).map fun r => r.1.ub) = some true := by decide +kernel

end Verif.Props.MonitorBarrier
