import Verif.Props.Monitor
import Verif.MonitorFutureInv

/-!
# Properties of programs with promises and futures, on weak memory
-/

namespace Verif.Props.MonitorFuture

open Verif Verif.Monitor Verif.Monitor.Future
open Verif.WeakDrf (State step)
open Verif.Rtm (Tid Lock Addr Req Done Hist Prog mine)
open Verif.Props.Monitor (mutexHist mutexPast)

/-- The program on weak memory: shared states made of mutexes made of spinlocks. -/
def machine (V : UProg Op Res) : Prog := compile Mutex.lib (Mutex.calls (compile lib V))

/-- What a thread has seen. -/
def seen (V : UProg Op Res) (s : State) (t : Tid) : List (UDone Op Res) := (th lib V t (mutexPast (compile lib V) s.hist t)).past

/-- The critical sections of the shared states. -/
def sections (V : UProg Op Res) (s : State) : UHist Op Res := uhist lib V (mutexHist (compile lib V) s.hist)

/-- Programs that publish data with promises, and use them only where the futures are ready, have no data race on weak memory, and see what they could see if the operations were made of single
steps on ordinary memory. -/
theorem published_data_do_not_race (V : UProg Op Res) (plan : Plan) (first : Addr → Nat → Tid) (hp : Planned plan first V) (s : State) (tr : List Unit)
    (h : Reach (step (machine V)) WeakDrf.init s tr) :
    s.ub = false ∧ ULegal lib V (sections V s) ∧ ∀ t, seen V s t = upast (sections V s) t :=
  Monitor.operations_with_mutexes_are_single_steps lib (fun _ => rfl) V (planned_disciplined hp) s tr h

/-- Everybody gets what the promise was set to. -/
theorem futures_get_what_was_set (V : UProg Op Res) (plan : Plan) (first : Addr → Nat → Tid) (hp : Planned plan first V) (s : State) (tr : List Unit)
    (h : Reach (step (machine V)) WeakDrf.init s tr) (t u : Tid) (o : Obj) (out : Out) (hset : .did o (.set out) .ok ∈ seen V s t) (op : Op) (r : Res)
    (hr : .did o op r ∈ seen V s u) (hl : late r = true) : tells r out := by
  obtain ⟨_, h2, h3⟩ := published_data_do_not_race V plan first hp s tr h
  have hi := finv_legal hp h2
  rw [h3] at hset hr
  have h4 := hi.setTo t o out hset
  obtain ⟨out', h5, h6⟩ := hi.told u o op r hr hl
  rw [h4] at h5; cases h5; exact h6

/-- Everybody gets the same. -/
theorem futures_agree (V : UProg Op Res) (plan : Plan) (first : Addr → Nat → Tid) (hp : Planned plan first V) (s : State) (tr : List Unit)
    (h : Reach (step (machine V)) WeakDrf.init s tr) (t u : Tid) (o : Obj) (out out' : Out) (op op' : Op) (ht : .did o op (.got out) ∈ seen V s t)
    (hu : .did o op' (.got out') ∈ seen V s u) : out = out' := by
  obtain ⟨_, h2, h3⟩ := published_data_do_not_race V plan first hp s tr h
  have hi := finv_legal hp h2
  rw [h3] at ht hu
  obtain ⟨x, h5, rfl⟩ := hi.told t o op _ ht rfl
  obtain ⟨y, h6, rfl⟩ := hi.told u o op' _ hu rfl
  rw [h5] at h6; cases h6; rfl

/-- A promise is set at most once. -/
theorem promises_are_set_once (V : UProg Op Res) (plan : Plan) (first : Addr → Nat → Tid) (hp : Planned plan first V) (s : State) (tr : List Unit)
    (h : Reach (step (machine V)) WeakDrf.init s tr) (o : Obj) :
    (∀ t u, hasSet (seen V s t) o → hasSet (seen V s u) o → t = u) ∧ ∀ t, ((seen V s t).filter (setsOf o)).length ≤ 1 := by
  obtain ⟨_, h2, h3⟩ := published_data_do_not_race V plan first hp s tr h
  have := set_once hp h2 o
  simp only [h3]
  exact this

/-- A future gets a value or an exception only if somebody set the promise to it, or destroyed the promise. -/
theorem outcomes_are_not_made_up (V : UProg Op Res) (plan : Plan) (first : Addr → Nat → Tid) (hp : Planned plan first V) (s : State) (tr : List Unit)
    (h : Reach (step (machine V)) WeakDrf.init s tr) (t : Tid) (o : Obj) (op : Op) (out : Out) (ht : .did o op (.got out) ∈ seen V s t) :
    ∃ u, .did o (.set out) .ok ∈ seen V s u ∨ (out = broken ∧ .did o .destroy .done ∈ seen V s u) := by
  obtain ⟨_, h2, h3⟩ := published_data_do_not_race V plan first hp s tr h
  have hi := finv_legal hp h2
  rw [h3] at ht
  obtain ⟨x, h5, rfl⟩ := hi.told t o op _ ht rfl
  simp only [h3]
  exact origin hp h2 o x h5

/-! ## Example: a shared future and one future per reader -/

/-- What a thread has done is what it asked for. -/
def Past (V : UProg Op Res) (t : Tid) : List (UDone Op Res) → Prop
  | [] => True
  | .got a _ :: p => V t p = some (.read a) ∧ Past V t p
  | .put a v :: p => V t p = some (.write a v) ∧ Past V t p
  | .did o op r :: p => V t p = some (.call o op) ∧ (op = .get → ∃ out, r = .got out) ∧ Past V t p

/-- Operations that wait go on with what they are, unless they are waiting with a timeout. -/
theorem again_same {m m' : Addr → Nat} {o : Obj} {op op' : Op} (h : (sec o op).eval m = (m', .again op')) (hn : ∀ n, op ≠ .waitFor n) : op' = op := by
  match op with
  | .set (.value v) => simp only [sec, Sec.eval] at h; split at h <;> simp [Sec.eval] at h
  | .set (.error e) => simp only [sec, Sec.eval] at h; split at h <;> simp [Sec.eval] at h
  | .destroy => simp only [sec, Sec.eval] at h; split at h <;> simp [Sec.eval] at h
  | .get =>
    simp only [sec, Sec.eval] at h
    split at h
    · simp [Sec.eval] at h; exact h.2.symm
    · simp only [Sec.eval] at h; split at h <;> simp [Sec.eval] at h
  | .wait =>
    simp only [sec, Sec.eval] at h
    split at h
    · simp [Sec.eval] at h; exact h.2.symm
    · simp [Sec.eval] at h
  | .getException =>
    simp only [sec, Sec.eval] at h
    split at h
    · simp [Sec.eval] at h; exact h.2.symm
    · simp only [Sec.eval] at h; split at h <;> simp [Sec.eval] at h
  | .waitFor n => exact absurd rfl (hn n)

theorem get_gets {m m' : Addr → Nat} {o : Obj} {r : Res} (h : (sec o .get).eval m = (m', .ret r)) : ∃ out, r = .got out := by
  simp only [sec, Sec.eval] at h
  split at h
  · simp [Sec.eval] at h
  · simp only [Sec.eval] at h; split at h <;> simp [Sec.eval] at h <;> exact ⟨_, h.2.symm⟩

theorem asked {V : UProg Op Res} (hn : ∀ t p o n, V t p ≠ some (.call o (.waitFor n))) : ∀ {h : UHist Op Res}, ULegal lib V h → ∀ t,
    (∀ o op, pend h t = some (o, op) → V t (upast h t) = some (.call o op)) ∧ Past V t (upast h t)
  | [], _, t => ⟨fun o op h => by simp [pend] at h, trivial⟩
  | (u, e) :: h, hl, t => by
    obtain ⟨ih1, ih2⟩ := asked hn hl.2 t
    by_cases hu : t = u
    · subst hu
      cases e with
      | got a v => exact ⟨fun o op h => by simp [pend] at h, by simp only [upast, if_true]; exact ⟨hl.1.2.1, ih2⟩⟩
      | put a v => exact ⟨fun o op h => by simp [pend] at h, by simp only [upast, if_true]; exact ⟨hl.1.2, ih2⟩⟩
      | sect o op log x =>
        have h2 := sect_eval (sec := fun o _ op => sec o op) hl.1
        have h3 : V t (upast h t) = some (.call o op) := by
          rcases h2.1 with h4 | h4
          · exact ih1 o op h4
          · exact h4.2
        cases x with
        | read b => rcases hl.1.2.2.2 with ⟨r, h1⟩ | ⟨r, h1⟩ <;> cases h1
        | write b v => rcases hl.1.2.2.2 with ⟨r, h1⟩ | ⟨r, h1⟩ <;> cases h1
        | again op' =>
          have h4 := again_same h2.2 (fun n hop => hn t (upast h t) o n (by rw [h3, hop]))
          subst h4
          refine ⟨fun o' op'' hp => ?_, by simpa [upast] using ih2⟩
          simp only [pend, if_true] at hp
          cases hp
          simpa [upast] using h3
        | ret r =>
          refine ⟨fun o op h => by simp [pend] at h, ?_⟩
          simp only [upast, if_true]
          exact ⟨h3, fun hop => by subst hop; exact get_gets h2.2, ih2⟩
    · rw [pend_other hu, upast_other hu]; exact ⟨ih1, ih2⟩

/-- The data. -/
def cell : Addr := dataAt 0

/-- Thread 0 writes the data and sets promise 0; threads 1 to `n` have a shared future of it: they get its value, read the data and set their own promises 1 to `n`. Thread 0 gets
the values of all of these and writes the data again. -/
def fanout (n : Nat) : UProg Op Res := fun t p =>
  if t = 0 then
    if p.length = 0 then some (.write cell 7)
    else if p.length = 1 then some (.call 0 (.set (.value 5)))
    else if p.length < n + 2 then some (.call (p.length - 1) .get)
    else if p.length = n + 2 then some (.write cell 8)
    else none
  else if t ≤ n then
    if p.length = 0 then some (.call 0 .get)
    else if p.length = 1 then some (.read cell)
    else if p.length = 2 then some (.call t (.set (.value t)))
    else none
  else none

/-- Promise 0 gives share `i` to thread `i`, promise `i` gives it back to thread 0. -/
def ways (n : Nat) : Plan := fun o _ a i => if a = cell ∧ 1 ≤ i ∧ i ≤ n then (if o = 0 then some i else if o = i then some 0 else none) else none

/-- In the beginning thread 0 has everything. -/
def mainFirst : Addr → Nat → Tid := fun _ _ => 0

theorem main_has (n : Nat) : ∀ p, Past (fanout n) 0 p → (∀ o op r, .did o op r ∈ p → o + 2 ≤ p.length) ∧
    ∀ i, (i = 0 ∨ n < i ∨ p.length ≤ 1 ∨ i + 2 ≤ p.length) → has (ways n) mainFirst 0 p cell i
  | [], _ => ⟨fun o op r h => by simp at h, fun i _ => rfl⟩
  | .got a v :: p, hp => by
    have := hp.1
    simp only [fanout, if_true] at this
    repeat' split at this
    all_goals cases this
  | .put a v :: p, hp => by
    obtain ⟨h1, h2⟩ := main_has n p hp.2
    have h3 := hp.1
    simp only [fanout, if_true] at h3
    refine ⟨fun o op r hm => ?_, fun i hi => ?_⟩
    · simp only [List.mem_cons, reduceCtorEq, false_or] at hm
      have := h1 o op r hm
      simp only [List.length_cons]; omega
    · simp only [List.length_cons] at hi
      show has (ways n) mainFirst 0 p cell i
      refine h2 i ?_
      split at h3
      · omega
      · split at h3
        · cases h3
        · split at h3
          · cases h3
          · split at h3
            · omega
            · cases h3
  | .did o op r :: p, hp => by
    obtain ⟨h3, hg, hp⟩ := hp
    obtain ⟨h1, h2⟩ := main_has n p hp
    simp only [fanout, if_true] at h3
    split at h3
    · cases h3
    rename_i hl0
    have ho : o + 1 = p.length ∨ (o = 0 ∧ p.length = 1) := by
      split at h3
      · cases h3; exact .inr ⟨rfl, by assumption⟩
      · split at h3
        · cases h3; left; rw [Nat.sub_add_cancel (by omega)]
        · split at h3 <;> cases h3
    have ho' : o + 1 = p.length := by
      rcases ho with h | ⟨h, h'⟩
      · exact h
      · rw [h, h']
    refine ⟨fun o' op' r' hm => ?_, fun i hi => ?_⟩
    · simp only [List.length_cons]
      rcases List.mem_cons.1 hm with h4 | h4
      · cases h4; exact Nat.le_of_eq (congrArg (· + 1) ho')
      · have := h1 _ _ _ h4
        exact Nat.le_succ_of_le this
    · simp only [List.length_cons] at hi
      split at h3
      · rename_i hl1
        cases h3
        refine ⟨?_, .inl (h2 i (by omega))⟩
        have hw : ways n 0 (.value 5) cell i = none := by
          have : ¬ (1 ≤ i ∧ i ≤ n) := by omega
          simp [ways, this]
        cases r <;> first | exact hw | trivial
      · split at h3
        · rename_i hl1 hl2
          cases h3
          refine ⟨trivial, ?_⟩
          by_cases hi' : i + 1 = p.length ∧ 1 ≤ i ∧ i ≤ n
          · right
            obtain ⟨out, rfl⟩ := hg rfl
            have hne : ¬ p.length - 1 = 0 := by omega
            have heq : p.length - 1 = i := by omega
            refine ⟨⟨rfl, fun out' _ => ?_⟩, ?_⟩
            · unfold ways
              rw [if_pos ⟨rfl, hi'.2⟩, if_neg hne, if_pos heq]
            · rintro ⟨op', r', h4, _⟩
              have h5 := h1 _ _ _ h4
              have h6 : ¬ p.length - 1 + 2 ≤ p.length := by omega
              exact h6 h5
          · left
            exact h2 i (by omega)
        · split at h3 <;> cases h3

theorem reader_has (n : Nat) (t : Tid) (h0 : t ≠ 0) (hn : t ≤ n) : ∀ p, Past (fanout n) t p → p.length = 1 ∨ p.length = 2 → has (ways n) mainFirst t p cell t
  | [], _, h => by simp at h
  | .got a v :: p, hp, hl => by
    have h1 := hp.1
    simp only [fanout, h0, hn, if_true, if_false] at h1
    have := reader_has n t h0 hn p hp.2
    repeat' split at h1
    all_goals first | exact this (by omega) | cases h1
  | .put a v :: p, hp, hl => by
    have h1 := hp.1
    simp only [fanout, h0, hn, if_true, if_false] at h1
    repeat' split at h1
    all_goals cases h1
  | .did o op r :: p, hp, hl => by
    obtain ⟨h1, hg, h2⟩ := hp
    simp only [fanout, h0, hn, if_true, if_false] at h1
    simp only [List.length_cons] at hl
    split at h1
    · rename_i hl0
      cases h1
      obtain ⟨out, rfl⟩ := hg rfl
      have : p = [] := List.length_eq_zero_iff.1 hl0
      subst this
      refine ⟨trivial, .inr ⟨⟨rfl, fun out' _ => ?_⟩, fun ⟨_, _, h3, _⟩ => by cases h3⟩⟩
      unfold ways
      rw [if_pos ⟨rfl, Nat.one_le_iff_ne_zero.2 h0, hn⟩, if_pos rfl]
    · split at h1
      · cases h1
      · split at h1
        · omega
        · cases h1

theorem fanout_planned (n : Nat) : Planned (ways n) mainFirst (fanout n) := by
  intro h t hl
  have hnw : ∀ t p o k, fanout n t p ≠ some (.call o (.waitFor k)) := by
    intro t p o k hc
    unfold fanout at hc
    repeat' split at hc
    all_goals cases hc
  have hp := (asked hnw hl t).2
  generalize upast h t = p at hp
  have hdata : home cell = none := home_data 0
  by_cases h0 : t = 0
  · subst h0
    have hm := (main_has n p hp).2
    refine ⟨fun a ha => ?_, fun a v ha => ?_, fun o out ha a i hi => ?_, fun o ha => ?_⟩ <;> simp only [fanout, if_true] at ha
    · repeat' split at ha
      all_goals cases ha
    · split at ha
      · cases ha; exact ⟨hdata, fun i => hm i (by omega)⟩
      · split at ha
        · cases ha
        · split at ha
          · cases ha
          · split at ha
            · cases ha; exact ⟨hdata, fun i => hm i (by omega)⟩
            · cases ha
    · have hc : a = cell := by
        refine Decidable.byContradiction fun hne => hi ?_
        simp [ways, hne]
      subst hc
      split at ha
      · cases ha
      · split at ha
        · exact hm i (by omega)
        · split at ha
          · cases ha
          · split at ha <;> cases ha
    · repeat' split at ha
      all_goals cases ha
  · by_cases hn : t ≤ n
    · have hm := reader_has n t h0 hn p hp
      refine ⟨fun a ha => ?_, fun a v ha => ?_, fun o out ha a i hi => ?_, fun o ha => ?_⟩ <;> simp only [fanout, h0, hn, if_true, if_false] at ha
      · split at ha
        · cases ha
        · split at ha
          · cases ha; exact ⟨hdata, t, hm (by omega)⟩
          · split at ha <;> cases ha
      · repeat' split at ha
        all_goals cases ha
      · split at ha
        · cases ha
        · split at ha
          · cases ha
          · split at ha
            · cases ha
              have hc : a = cell ∧ i = t := by
                refine Decidable.byContradiction fun hne => hi ?_
                unfold ways
                split
                · rename_i h1
                  exact if_neg fun h2 => hne ⟨h1.1, h2.symm⟩
                · rfl
              obtain ⟨rfl, rfl⟩ := hc
              exact hm (by omega)
            · cases ha
      · repeat' split at ha
        all_goals cases ha
    · simp [fanout, h0, hn]

/-- For any number of readers there is no data race, although many threads read the data at the same time, and without a lock around the data. -/
example (n : Nat) (s : State) (tr : List Unit) (h : Reach (step (machine (fanout n))) WeakDrf.init s tr) : s.ub = false :=
  (published_data_do_not_race (fanout n) (ways n) mainFirst (fanout_planned n) s tr h).1

/-- What the operations of a thread returned (latest first). -/
def replies (V : UProg Op Res) (s : State) (t : Tid) : List Res := (seen V s t).filterMap fun d => match d with | .did _ _ r => some r | _ => none

/-- A run on weak memory with one reader: it waits for the future, thread 0 writes the data and sets the promise, the reader gets the value, reads the data and sets its own promise,
thread 0 gets that value and writes the data again. -/
def run : List (Tid × Nat) :=
  [(1, 1), (1, 0), (1, 0), (1, 2), (1, 2), (1, 2), (1, 3), (1, 3), (1, 2), (1, 2), (1, 4), (1, 4), (1, 4), (1, 4), (0, 5), (0, 5), (0, 4), (0, 4), (0, 6), (0, 6),
    (0, 6), (0, 7), (0, 7), (0, 7), (0, 7), (0, 6), (0, 6), (0, 8), (0, 8), (0, 8), (0, 8), (1, 9), (1, 8), (1, 8), (1, 10), (1, 10), (1, 10), (1, 11), (1, 11),
    (1, 11), (1, 11), (1, 10), (1, 10), (1, 12), (1, 12), (1, 12), (1, 12), (1, 13), (1, 13), (1, 0), (1, 0), (1, 14), (1, 14), (1, 14), (1, 15), (1, 15), (1,
    15), (1, 15), (1, 14), (1, 14), (1, 16), (1, 16), (1, 16), (1, 16), (0, 17), (0, 16), (0, 16), (0, 18), (0, 18), (0, 18), (0, 19), (0, 19), (0, 19), (0,
    19), (0, 18), (0, 18), (0, 20), (0, 20), (0, 20), (0, 20), (0, 21)]

example : ((exec (step (machine (fanout 1))) WeakDrf.init run).map fun r => (r.1.ub, replies (fanout 1) r.1 0, replies (fanout 1) r.1 1, r.1.hist.take 1)) =
    some (false, [.got (.value 1), .ok], [.ok, .got (.value 5)], [(0, .put cell 8)]) := by
  decide +kernel

/-- Reading the data without asking the future is a race. -/
def eager : UProg Op Res
  | 0, [] => some (.write cell 7)
  | 1, [] => some (.read cell)
  | _, _ => none

example : ((exec (step (machine eager)) WeakDrf.init [(0, 0), (1, 0)]).map fun r => r.1.ub) = some true := by decide +kernel

/-- Thread 0 destroys the promise without having set it, and then tries to set it (through another handle); thread 1 gets `broken_promise`. -/
def forgets : UProg Op Res
  | 0, [] => some (.call 0 .destroy)
  | 0, [_] => some (.call 0 (.set (.value 3)))
  | 1, [] => some (.call 0 .get)
  | 1, [_] => some (.call 0 .getException)
  | _, _ => none

theorem forgets_planned : Planned (fun _ _ _ _ => none) mainFirst forgets := by
  intro h t _
  generalize upast h t = p
  refine ⟨fun a ha => ?_, fun a v ha => ?_, fun o out ha a i hi => absurd rfl hi, fun o ha => .inr fun a i hi => absurd rfl hi⟩ <;> unfold forgets at ha <;> split at ha <;> cases ha

example : ((exec (step (machine forgets)) WeakDrf.init
    [(0, 1), (0, 0), (0, 0), (0, 2), (0, 2), (0, 2), (0, 3), (0, 3), (0, 3), (0, 3), (0, 2), (0, 2), (0, 4), (0, 4), (0, 4), (0, 4), (1, 5), (1, 4), (1, 4), (1, 6),
      (1, 6), (1, 6), (1, 7), (1, 7), (1, 7), (1, 6), (1, 6), (1, 8), (1, 8), (1, 8), (1, 8), (0, 9), (0, 8), (0, 8), (0, 10), (0, 10), (0, 10), (0, 11), (0,
      11), (0, 10), (0, 10), (0, 12), (0, 12), (0, 12), (0, 12), (1, 13), (1, 12), (1, 12), (1, 14), (1, 14), (1, 14), (1, 15), (1, 15), (1, 15), (1, 14), (1,
      14), (1, 16), (1, 16), (1, 16), (1, 16)]).map
    fun r => (r.1.ub, replies forgets r.1 0, replies forgets r.1 1)) = some (false, [.already, .done], [.hasError 0, .got broken]) := by
  decide +kernel

end Verif.Props.MonitorFuture
