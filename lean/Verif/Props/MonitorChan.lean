import Verif.Props.Monitor
import Verif.MonitorChanInv

/-!
# Properties of programs that hand data over through buffered channels, on weak memory
-/

namespace Verif.Props.MonitorChan

open Verif Verif.Weak Verif.Monitor Verif.Monitor.Chan
open Verif.WeakDrf (State init step)
open Verif.Rtm (Tid Lock Addr Req Done Hist Prog mine)

theorem careful_clean {Op Res : Type} {lib : Lib Op Res} {V : UProg Op Res} {pt : Ports Op Res} {first : Addr → Tid} (hc : Careful lib V pt first) :
    Clean lib V := by
  intro t e h hl a v he
  refine ((hc h t hl.2).1 a ?_).1
  rcases he with rfl | rfl
  · exact .inl hl.1.2.1
  · exact .inr ⟨v, hl.1.2⟩

/-- Careful programs share their data properly. -/
theorem careful_programs_are_disciplined (C : Chans) (V : UProg Op Res) (named : Nat → Bool) (first : Addr → Tid) (hc : Careful (lib C) V (ports named) first) :
    UDisciplined (lib C) V ∧ ∀ h, ULegal (lib C) V h → ∀ t a, has (ports named) first t (upast h t) a ↔ place (ports named) first h a = .thread t := by
  have hcl := careful_clean hc
  obtain ⟨h1, h2⟩ := handoff hc (repeats named) (Kept C named first) (kept_init named first) (fun _ _ _ hl hk hg => kept_step hcl hl hk hg)
    (fun _ _ _ _ _ _ _ hl hk ht => kept_safe hcl hl hk ht)
  exact ⟨h1, fun h hl => (h2 h hl).2⟩

/-- What a thread has seen of a program that uses channels, on weak memory. -/
def seen (C : Chans) (V : UProg Op Res) (s : State) (t : Tid) : List (UDone Op Res) := (th (lib C) V t (mine s.hist t)).past

/-- The critical sections of all channels, on weak memory. -/
def sections (C : Chans) (V : UProg Op Res) (s : State) : UHist Op Res := uhist (lib C) V s.hist

/-- Programs that hand data over through channels - every thread accesses only data it had in the beginning, or has popped the name of, and has not pushed
the name of since; other elements are no names and may be pushed and popped at will -
have no data race on weak memory, and at no time two threads have the same data. They see what they could see if the operations on channels were
single steps on ordinary memory. -/
theorem data_handed_over_through_channels (C : Chans) (V : UProg Op Res) (named : Nat → Bool) (first : Addr → Tid) (hc : Careful (lib C) V (ports named) first) (s : State) (tr : List Unit)
    (h : Reach (step (compile (lib C) V)) init s tr) :
    s.ub = false ∧ ULegal (lib C) V (sections C V s) ∧ (∀ t, seen C V s t = upast (sections C V s) t) ∧
      ∀ t u a, has (ports named) first t (seen C V s t) a → has (ports named) first u (seen C V s u) a → t = u := by
  obtain ⟨hd, hI⟩ := careful_programs_are_disciplined C V named first hc
  obtain ⟨h1, h2, h3⟩ := Monitor.operations_are_single_steps _ _ hd s tr h
  refine ⟨h1, h2, h3, fun t u a ht hu => ?_⟩
  unfold seen at ht hu
  rw [h3, hI _ h2] at ht hu
  rw [ht] at hu
  cases hu; rfl

/-- On weak memory, too, what is popped from a channel is what was pushed, in this order and each element once, and no index is ever out of range;
for all programs that share their data properly, by whatever objects. -/
theorem channels_are_queues (C : Chans) (V : UProg Op Res) (hd : UDisciplined (lib C) V) (s : State) (tr : List Unit)
    (h : Reach (step (compile (lib C) V)) init s tr) :
    (∀ o, ∃ rest, pushed o (sections C V s) = popped o (sections C V s) ++ rest ∧ rest.length < C.cap o) ∧
      ∀ t o op log, (t, .sect o op log (.ret .oob)) ∉ sections C V s := by
  obtain ⟨hcl, _⟩ := Monitor.disciplined hd
  obtain ⟨_, h2, _⟩ := Monitor.operations_are_single_steps _ _ hd s tr h
  obtain ⟨X, hX, hP⟩ := fifo hcl h2
  refine ⟨fun o => ⟨X o, hP o, (hX o).1⟩, ?_⟩
  intro t o op log hm
  suffices H : ∀ uh, ULegal (lib C) V uh → (t, .sect o op log (.ret .oob)) ∉ uh from H _ h2 hm
  intro uh
  induction uh with
  | nil => simp
  | cons e uh ih =>
    obtain ⟨u, e⟩ := e
    intro hl hm
    rcases List.mem_cons.1 hm with h5 | h5
    · obtain ⟨X, hX, _⟩ := fifo hcl hl.2
      cases h5
      rcases step_content hcl hl hX with ⟨o, op, log, v, h6, _⟩ | ⟨o, op, log, v, ys, h6, _⟩ | ⟨_, _, h6, _⟩
      · cases h6
      · cases h6
      · exact h6 _ _ _ rfl
    · exact ih hl.2 h5

/-! ## Example: a pipeline -/

/-- Thread 0 writes 0 to data 0, 1, 2, … and pushes their names to channel 1. Thread `t`, for `t > 0`, pops names from channel `t`, increments the data, and pushes
the names to channel `t + 1`. -/
def pipeline : UProg Op Res
  | 0, [] => some (.write (dataAt 0) 0)
  | 0, .did _ (.push v) .success :: _ => some (.write (dataAt (v + 1)) 0)
  | 0, .put a _ :: _ => some (.call 1 (.push (a / 2)))
  | 0, _ => none
  | _ + 1, .did _ .pop (.value v) :: _ => some (.read (dataAt v))
  | _ + 1, .got a x :: _ => some (.write a (x + 1))
  | t + 1, .put a _ :: _ => some (.call (t + 2) (.push (a / 2)))
  | t + 1, _ => some (.call (t + 1) .pop)

/-- All elements are names of data. -/
def every : Nat → Bool := fun _ => true

/-- All data belong to thread 0 in the beginning. -/
def source : Addr → Tid := fun _ => 0

/-- What a thread has. -/
def Holds (t : Tid) (p : List (UDone Op Res)) : Prop :=
  (∀ a x q, p = .got a x :: q ∨ p = .put a x :: q → (∃ v, a = dataAt v) ∧ has (ports every) source t p a) ∧
    (t = 0 → (p = [] → ∀ v, has (ports every) source t p (dataAt v)) ∧
      (∀ o v q, p = .did o (.push v) .success :: q → ∀ w, v < w → has (ports every) source t p (dataAt w)) ∧
      ∀ v x q, p = .put (dataAt v) x :: q → ∀ w, v ≤ w → has (ports every) source t p (dataAt w))

theorem half (v : Nat) : dataAt v / 2 = v := by
  have h : ∀ m : Nat, 2 * m / 2 = m := fun m => by omega
  exact h v

theorem from0 {p : List (UDone Op Res)} {o : Obj} {op : Op} (h : pipeline 0 p = some (.call o op)) : ∃ a x q, p = .put a x :: q ∧ op = .push (a / 2) := by
  unfold pipeline at h
  split at h <;> simp at h
  · exact ⟨_, _, _, rfl, h.2.symm⟩
  all_goals (simp at *)

theorem holds {C : Chans} : ∀ {h : UHist Op Res}, ULegal (lib C) pipeline h → ∀ t, Holds t (upast h t)
  | [], _, t => ⟨by simp [upast], fun h => by subst h; simp [upast, has, source]⟩
  | (u, e) :: h, hl, t => by
    have ih := holds hl.2 t
    rcases Decidable.em (t = u) with hu | hu
    case inr => rw [upast_other hu]; exact ih
    subst hu
    have ha := hl.1
    obtain ⟨ih1, ih2⟩ := ih
    cases e with
    | got a v =>
      obtain ⟨_, hV, _⟩ := ha
      have hp : upast ((t, .got a v) :: h) t = .got a v :: upast h t := by simp [upast]
      rw [hp]
      generalize upast h t = p at *
      have hq : ∃ w q o, a = dataAt w ∧ p = .did o .pop (.value w) :: q ∧ t ≠ 0 := by
        unfold pipeline at hV
        split at hV <;> simp at hV
        exact ⟨_, _, _, hV.symm, rfl, by simp⟩
      obtain ⟨w, q, o, rfl, rfl, ht⟩ := hq
      refine ⟨?_, fun h => absurd h ht⟩
      intro a' x q' hh
      simp at hh
      obtain ⟨⟨rfl, rfl⟩, rfl⟩ := hh
      exact ⟨⟨w, rfl⟩, by simp [has, ports, name, every]⟩
    | put a v =>
      obtain ⟨_, hV⟩ := ha
      have hp : upast ((t, .put a v) :: h) t = .put a v :: upast h t := by simp [upast]
      rw [hp]
      generalize upast h t = p at *
      have hq : (∃ w, a = dataAt w) ∧ has (ports every) source t p a ∧ (t = 0 → ∀ v, a = dataAt v → ∀ w, v ≤ w → has (ports every) source t p (dataAt w)) := by
        unfold pipeline at hV
        split at hV <;> simp at hV
        · obtain ⟨rfl, rfl⟩ := hV
          exact ⟨⟨0, rfl⟩, (ih2 rfl).1 rfl 0, fun _ v _ w _ => (ih2 rfl).1 rfl w⟩
        · obtain ⟨rfl, rfl⟩ := hV
          rename_i o v q
          refine ⟨⟨_, rfl⟩, (ih2 rfl).2.1 _ _ _ rfl _ (by omega), fun _ u hu w hw => ?_⟩
          rw [dataAt_inj] at hu
          exact (ih2 rfl).2.1 _ _ _ rfl _ (by omega)
        · obtain ⟨rfl, rfl⟩ := hV
          rename_i a x q
          have := ih1 _ _ _ (.inl rfl)
          exact ⟨this.1, this.2, fun h => by simp at h⟩
      refine ⟨?_, fun ht => ⟨by simp, by simp, ?_⟩⟩
      · intro a' x q' hh
        simp at hh
        obtain ⟨⟨rfl, rfl⟩, rfl⟩ := hh
        exact ⟨hq.1, hq.2.1⟩
      · intro v' x q' hh w hw
        simp at hh
        obtain ⟨⟨rfl, rfl⟩, rfl⟩ := hh
        exact hq.2.2 ht v' rfl w hw
    | sect o op log out =>
      cases out with
      | read a => rcases ha.2.2.2 with ⟨r, h1⟩ | ⟨r, h1⟩ <;> cases h1
      | write a v => rcases ha.2.2.2 with ⟨r, h1⟩ | ⟨r, h1⟩ <;> cases h1
      | again op' =>
        have hp : upast ((t, .sect o op log (.again op')) :: h) t = upast h t := by simp [upast]
        rw [hp]; exact ⟨ih1, ih2⟩
      | ret r =>
        have hp : upast ((t, .sect o op log (.ret r)) :: h) t = .did o op r :: upast h t := by simp [upast]
        have hcall : ∃ op0, pipeline t (upast h t) = some (.call o op0) ∧ (ports every).offers op = (ports every).offers op0 := by
          rcases ha.1 with h1 | ⟨_, h1⟩
          · exact pend_call (repeats every) hl.2 t o op h1
          · exact ⟨op, h1, rfl⟩
        rw [hp]
        generalize upast h t = p at *
        refine ⟨by simp, fun ht => ⟨by simp, ?_, by simp⟩⟩
        subst ht
        intro o' v q hh w hw
        simp at hh
        obtain ⟨⟨rfl, rfl, rfl⟩, rfl⟩ := hh
        obtain ⟨op0, hV, ho⟩ := hcall
        have hq : ∃ v' x q', p = .put (dataAt v') x :: q' ∧ v' = v := by
          obtain ⟨a, x, q, rfl, rfl⟩ := from0 hV
          obtain ⟨⟨v', rfl⟩, _⟩ := ih1 _ _ _ (.inr rfl)
          simp [ports, name, every, offer, half, dataAt_inj] at ho
          exact ⟨v', x, q, rfl, ho.symm⟩
        obtain ⟨v', x, q', rfl, rfl⟩ := hq
        refine ⟨?_, .inr ((ih2 rfl).2.2 _ _ _ rfl w (by omega))⟩
        simp [ports, name, every, offer, dataAt_inj]; omega

theorem pipeline_careful (C : Chans) : Careful (lib C) pipeline (ports every) source := by
  intro h t hl
  obtain ⟨ih1, ih2⟩ := holds hl t
  generalize upast h t = p at *
  refine ⟨?_, ?_⟩
  · intro a hV
    suffices H : (∃ w, a = dataAt w) ∧ has (ports every) source t p a by
      obtain ⟨⟨w, rfl⟩, h⟩ := H
      exact ⟨home_data C w, h⟩
    unfold pipeline at hV
    split at hV <;> simp at hV
    · subst hV; exact ⟨⟨0, rfl⟩, (ih2 rfl).1 rfl 0⟩
    · subst hV; exact ⟨⟨_, rfl⟩, (ih2 rfl).2.1 _ _ _ rfl _ (by omega)⟩
    · subst hV; exact ⟨⟨_, rfl⟩, by simp [has, ports, name, every]⟩
    · subst hV; exact ih1 _ _ _ (.inl rfl)
  · intro o op a hV ho
    unfold pipeline at hV
    split at hV <;> simp at hV
    · obtain ⟨rfl, rfl⟩ := hV
      have := ih1 _ _ _ (.inr rfl)
      obtain ⟨⟨w, rfl⟩, h2⟩ := this
      simp [ports, name, every, offer, half] at ho
      subst ho; exact h2
    · obtain ⟨rfl, rfl⟩ := hV
      have := ih1 _ _ _ (.inr rfl)
      obtain ⟨⟨w, rfl⟩, h2⟩ := this
      simp [ports, name, every, offer, half] at ho
      subst ho; exact h2
    · obtain ⟨rfl, rfl⟩ := hV
      simp [ports, name, every, offer] at ho

/-- A pipeline of any length, with channels of any capacities, has no data race. -/
example (C : Chans) (s : State) (tr : List Unit) (h : Reach (step (compile (lib C) pipeline)) init s tr) : s.ub = false :=
  (data_handed_over_through_channels C pipeline every source (pipeline_careful C) s tr h).1

/-- Channels of capacity 2. -/
def two : Chans := ⟨fun _ => 2, 2, fun _ => Nat.le_refl _, fun _ => Nat.le_refl _⟩

/-- A run on weak memory: thread 1 pops, finds the channel empty and waits; thread 0 writes data 0 and pushes its name, thread 1 pops it, increments the data,
and pushes the name to channel 2. -/
def run : List (Tid × Nat) :=
  [(1, 0), (1, 2), (1, 2), (1, 2), (1, 2), (1, 2), (1, 2), (0, 3), (0, 2), (0, 4), (0, 4), (0, 4), (0, 4), (0, 4), (0, 4), (0, 4), (0, 4), (0, 5), (1, 4),
    (1, 6), (1, 6), (1, 6), (1, 6), (1, 6), (1, 6), (1, 7), (1, 7), (1, 0), (1, 8), (1, 8), (1, 8), (1, 8), (1, 8), (1, 8), (1, 8)]

/-- What happened, latest first. -/
inductive Note
  | access (t : Tid) (a : Addr) (v : Nat)
  | op (t : Tid) (o : Obj) (op : Op) (r : Res)
  | waits (t : Tid) (o : Obj) (op : Op)
  deriving DecidableEq

def note : Tid × Ev Op Res → Note
  | (t, .got a v) => .access t a v
  | (t, .put a v) => .access t a v
  | (t, .sect o op _ (.ret r)) => .op t o op r
  | (t, .sect o op _ _) => .waits t o op

example : ((exec (step (compile (lib two) pipeline)) init run).map fun r => (r.1.ub, (sections two pipeline r.1).map note)) =
    some (false, [.op 1 2 (.push 0) .success, .access 1 0 1, .access 1 0 0, .op 1 1 .pop (.value 0), .access 0 2 0, .op 0 1 (.push 0) .success,
      .access 0 0 0, .waits 1 1 .pop]) := by
  decide +kernel

example : ((exec (step (compile (lib two) pipeline)) init run).map fun r =>
    (pushed 1 (sections two pipeline r.1), popped 1 (sections two pipeline r.1), pushed 2 (sections two pipeline r.1), popped 2 (sections two pipeline r.1))) =
    some ([0], [0], [0], []) := by
  decide +kernel

/-- Thread 0 pushes the name first and writes the data then: not careful. -/
def hasty : UProg Op Res
  | 0, [] => some (.call 1 (.push 0))
  | 0, [.did _ _ _] => some (.write (dataAt 0) 7)
  | 1, [] => some (.call 1 .pop)
  | 1, [.did _ _ (.value v)] => some (.read (dataAt v))
  | _, _ => none

/-- There is a race. -/
example : ((exec (step (compile (lib two) hasty)) init
    [(0, 0), (0, 2), (0, 2), (0, 2), (0, 2), (0, 2), (0, 2), (0, 2), (1, 2), (1, 4), (1, 4), (1, 4), (1, 4), (1, 4), (1, 4), (0, 5), (1, 5)]).map fun r => r.1.ub) = some true := by
  decide +kernel

end Verif.Props.MonitorChan
