import Verif.LockOrder

/-!
# The order of the locks

Every function of the library takes its locks in the order of `rank`, and a fiber that is switched holds no lock but the one it hands over. From that the waiting for locks has no
cycles.
-/

namespace Verif.LockOrder

/-- The order of the locks: a lock is only waited for by one that holds locks of higher rank. -/
def rank : Lk → Nat
  | .cv _ => 4
  | .prod _ => 3
  | .mtx _ | .ctx _ | .chan _ | .cons _ => 2
  | .remote _ | .queue _ | .shared | .sleep _ => 1

/-- No context switch in `c`. -/
def NoSwitch : Code → Prop
  | .done => True
  | .acq _ k => NoSwitch k
  | .rel _ k => NoSwitch k
  | .tryAcq _ y n => NoSwitch y ∧ NoSwitch n
  | .branch k => ∀ i, NoSwitch (k i)
  | .switch .. => False

/-- No lock is handed over in `c`. -/
def HandsNothing : Code → Prop
  | .done => True
  | .acq _ k => HandsNothing k
  | .rel _ k => HandsNothing k
  | .tryAcq _ y n => HandsNothing y ∧ HandsNothing n
  | .branch k => ∀ i, HandsNothing (k i)
  | .switch r _ k => r = none ∧ HandsNothing k

/-- With the locks `h` held, `c` waits for locks of lower rank than those held only, releases locks it holds only, holds exactly the lock it hands over when it is switched and
holds `post` in the end. -/
def Ordered : List Lk → List Lk → Code → Prop
  | post, h, .done => h = post
  | post, h, .acq l k => (∀ m ∈ h, rank l < rank m) ∧ Ordered post (l :: h) k
  | post, h, .rel l k => l ∈ h ∧ Ordered post (h.erase l) k
  | post, h, .tryAcq l y n => Ordered post (l :: h) y ∧ Ordered post h n
  | post, h, .branch k => ∀ i, Ordered post h (k i)
  | post, h, .switch r p k => h = r.toList ∧ Ordered [] r.toList p ∧ NoSwitch p ∧ Ordered post [] k

theorem ordered_bind {c k : Code} {h p q : List Lk} (hc : Ordered p h c) (hk : Ordered q p k) : Ordered q h (c.bind k) := by
  induction c generalizing h with
  | done => simp only [Ordered] at hc; subst hc; exact hk
  | acq l c ih => exact ⟨hc.1, ih hc.2⟩
  | rel l c ih => exact ⟨hc.1, ih hc.2⟩
  | tryAcq l y n ih1 ih2 => exact ⟨ih1 hc.1, ih2 hc.2⟩
  | branch f ih => intro i; exact ih i (hc i)
  | switch r p c _ ih => exact ⟨hc.1, hc.2.1, hc.2.2.1, ih hc.2.2.2⟩

theorem ord_done {p : List Lk} : Ordered p p .done := rfl

/-! ### The functions of the library -/

/-- all locks of `h` rank above the locks of the schedulers -/
def Above (n : Nat) (h : List Lk) : Prop := ∀ m ∈ h, n < rank m

theorem ord_inside {l : Lk} {p h : List Lk} {k : Code} (hl : Above (rank l) h) (hk : Ordered p h k) : Ordered p h (inside l k) := by
  refine ⟨hl, ?_, ?_⟩ <;> simp [hk]

theorem ord_times {f : Code → Code} {p h : List Lk} (hf : ∀ k, Ordered p h k → Ordered p h (f k)) (n : Nat) {k : Code} (hk : Ordered p h k) :
    Ordered p h (times f n k) := by
  induction n with
  | zero => exact hk
  | succ n ih => exact hf _ ih

theorem ord_schedule {p h : List Lk} {k : Code} (hh : Above 1 h) (hk : Ordered p h k) : Ordered p h (schedule k) := by
  intro i
  match i with
  | 0 => exact hk
  | 1 => exact ord_inside hh hk
  | t + 2 => exact ord_inside (l := .queue t) hh hk

theorem ord_hasReady {p h : List Lk} {k : Code} (hh : Above 1 h) (hk : Ordered p h k) : Ordered p h (hasReady k) := by
  intro i
  match i with
  | 0 => exact hk
  | 1 => exact ord_inside hh hk
  | t + 2 => exact ord_inside (l := .queue t) hh hk

theorem ord_algoNotify {p h : List Lk} {k : Code} (hh : Above 1 h) (hk : Ordered p h k) : Ordered p h (algoNotify k) := by
  intro i
  match i with
  | 0 => exact hk
  | t + 1 => exact ord_inside (l := .sleep t) hh hk

theorem ord_scheduleRemote {p h : List Lk} {k : Code} (hh : Above 1 h) (hk : Ordered p h k) : Ordered p h (scheduleRemote k) :=
  fun t => ord_inside (l := .remote t) hh (ord_algoNotify hh hk)

theorem ord_wake {p h : List Lk} {k : Code} (hh : Above 1 h) (hk : Ordered p h k) : Ordered p h (wake k) := by
  intro i
  match i with
  | 0 => exact hk
  | 1 => exact ord_schedule hh hk
  | t + 2 => exact ord_scheduleRemote hh hk

theorem ord_notify {p h : List Lk} {k : Code} (hh : Above 1 h) (hk : Ordered p h k) : Ordered p h (notify k) :=
  fun n => ord_times (fun _ => ord_wake hh) n hk

theorem ord_pickNext {p h : List Lk} {k : Code} (hh : Above 1 h) (hk : Ordered p h k) : Ordered p h (pickNext k) := by
  intro i
  match i with
  | 0 => exact hk
  | 1 => exact ord_inside hh hk
  | t + 2 => exact ord_inside (l := .queue t) hh (fun n => ord_times (f := fun k => .branch fun u => inside (.queue u) k) (fun _ hk u => ord_inside (l := .queue u) hh hk) n hk)

theorem above_one {l : Lk} (hl : 1 < rank l) : Above 1 [l] := by
  intro m hm
  simp at hm
  exact hm ▸ hl

theorem above_nil {n : Nat} : Above n [] := by intro m hm; cases hm

theorem above_mono {m n : Nat} {h : List Lk} (hmn : m ≤ n) (hh : Above n h) : Above m h := fun l hl => by have := hh l hl; omega

theorem above_cons {n : Nat} {l : Lk} {h : List Lk} (hl : n < rank l) (hh : Above n h) : Above n (l :: h) := by
  intro m hm
  simp at hm
  rcases hm with rfl | hm
  · exact hl
  · exact hh m hm

theorem ord_suspendLk {l : Lk} {p : List Lk} {k : Code} (hl : 1 < rank l) (hk : Ordered p [] k) : Ordered p [l] (suspendLk l k) :=
  ord_pickNext (above_one hl) ⟨rfl, by simp [Ordered], by simp [NoSwitch], hk⟩

theorem ns_inside {l : Lk} {k : Code} (hk : NoSwitch k) : NoSwitch (inside l k) := hk

theorem ns_times {f : Code → Code} (hf : ∀ k, NoSwitch k → NoSwitch (f k)) (n : Nat) {k : Code} (hk : NoSwitch k) : NoSwitch (times f n k) := by
  induction n with
  | zero => exact hk
  | succ n ih => exact hf _ ih

theorem ns_schedule {k : Code} (hk : NoSwitch k) : NoSwitch (schedule k) := by
  intro i
  match i with
  | 0 => exact hk
  | 1 => exact hk
  | _ + 2 => exact hk

theorem ns_algoNotify {k : Code} (hk : NoSwitch k) : NoSwitch (algoNotify k) := by
  intro i
  match i with
  | 0 => exact hk
  | _ + 1 => exact hk

theorem ns_scheduleRemote {k : Code} (hk : NoSwitch k) : NoSwitch (scheduleRemote k) := fun _ => ns_algoNotify hk

theorem ns_wake {k : Code} (hk : NoSwitch k) : NoSwitch (wake k) := by
  intro i
  match i with
  | 0 => exact hk
  | 1 => exact ns_schedule hk
  | _ + 2 => exact ns_scheduleRemote hk

theorem ns_notify {k : Code} (hk : NoSwitch k) : NoSwitch (notify k) := fun n => ns_times (fun _ => ns_wake) n hk

theorem ord_resched {k : Code} {p : List Lk} (hk : Ordered p [] k) :
    Ordered p [] (.switch none (.branch fun | 0 => schedule .done | _ + 1 => scheduleRemote .done) k) := by
  refine ⟨rfl, ?_, ?_, hk⟩
  · intro i
    match i with
    | 0 => exact ord_schedule above_nil rfl
    | _ + 1 => exact ord_scheduleRemote above_nil rfl
  · intro i
    match i with
    | 0 => exact ns_schedule trivial
    | _ + 1 => exact ns_scheduleRemote trivial

theorem ord_yield {p : List Lk} {k : Code} (hk : Ordered p [] k) : Ordered p [] (yield k) :=
  ord_pickNext above_nil (ord_resched hk)

theorem ord_suspend {p : List Lk} {k : Code} (hk : Ordered p [] k) : Ordered p [] (suspend k) :=
  ord_pickNext above_nil ⟨rfl, rfl, trivial, hk⟩

theorem ord_relock {l : Lk} {k : Code} (hk : Ordered [] [l] k) (n : Nat) : Ordered [] [] (relock l n k) := by
  induction n with
  | zero => rfl
  | succ n ih => exact ⟨hk, ord_yield ih⟩

theorem ord_suspendUntil {l : Lk} {a b : Code} (hl : 1 < rank l) (ha : Ordered [] [] a) (hb : Ordered [] [] b) : Ordered [] [l] (suspendUntil l a b) := by
  refine ord_suspendLk hl ?_
  intro i
  match i with
  | 0 => exact hb
  | n + 1 => exact ord_relock (show Ordered [] [l] (.rel l a) from ⟨by simp, by simpa using ha⟩) n

theorem ord_rel {l : Lk} {p h : List Lk} {k : Code} (hk : Ordered p h k) : Ordered p (l :: h) (.rel l k) := ⟨by simp, by simpa using hk⟩

theorem ord_lockRounds {m : Nat} {k : Code} (hk : Ordered [] [] k) (n : Nat) : Ordered [] [] (lockRounds m n k) := by
  induction n with
  | zero => rfl
  | succ n ih =>
    refine ⟨above_nil, ?_⟩
    intro i
    match i with
    | 0 => exact ord_rel hk
    | 1 => exact ord_rel rfl
    | _ + 2 => exact ord_suspendLk (by simp [rank]) ih

theorem ord_mutexLock {m : Nat} {k : Code} (hk : Ordered [] [] k) : Ordered [] [] (mutexLock m k) := fun n => ord_lockRounds hk n

theorem ord_lockUntilRounds {m : Nat} {k : Code} (hk : Ordered [] [] k) (n : Nat) : Ordered [] [] (lockUntilRounds m n k) := by
  induction n with
  | zero => exact hk
  | succ n ih =>
    refine ⟨above_nil, ?_⟩
    intro i
    match i with
    | 0 => exact ord_rel hk
    | _ + 1 => exact ord_suspendUntil (by simp [rank]) hk ih

theorem ord_mutexUnlock {m : Nat} {p h : List Lk} {a k : Code} (hh : Above 2 h) (ha : Ordered p h a) (hk : Ordered p h k) : Ordered p h (mutexUnlock m a k) := by
  refine ⟨hh, ?_⟩
  intro i
  match i with
  | 0 => exact ord_rel ha
  | 1 => exact ord_rel hk
  | _ + 2 => exact ord_notify (above_cons (by simp [rank]) (above_mono (by omega) hh)) (ord_rel hk)

theorem ord_cvNotify {c : Nat} {k : Code} {p : List Lk} (hk : Ordered p [] k) : Ordered p [] (cvNotify c k) :=
  ⟨above_nil, ord_notify (above_one (by simp [rank])) (ord_rel hk)⟩

theorem ord_cvWait {c m : Nat} {k : Code} (hk : Ordered [] [] k) : Ordered [] [] (cvWait c m k) :=
  ⟨above_nil, ord_mutexUnlock (by intro l hl; simp at hl; subst hl; simp [rank]) (ord_rel rfl) (ord_suspendLk (by simp [rank]) (ord_mutexLock hk))⟩

theorem ord_cvWaitUntil {c m : Nat} {k : Code} (hk : Ordered [] [] k) : Ordered [] [] (cvWaitUntil c m k) :=
  ⟨above_nil, ord_mutexUnlock (by intro l hl; simp at hl; subst hl; simp [rank]) (ord_rel rfl)
    (ord_suspendUntil (by simp [rank]) (ord_mutexLock hk) (ord_mutexLock hk))⟩

theorem ord_cvWaitAny {c : Nat} {u l : Code} (hu : Ordered [.cv c] [.cv c] u) (hl : Ordered [] [] l) : Ordered [] [] (cvWaitAny c u l) :=
  ⟨above_nil, ordered_bind hu (ord_suspendLk (by simp [rank]) hl)⟩

theorem ord_chanRounds {c : Nat} {k : Code} (hk : Ordered [] [] k) (n : Nat) : Ordered [] [] (chanRounds c n k) := by
  induction n with
  | zero => rfl
  | succ n ih =>
    refine ⟨?_, ord_yield ih⟩
    intro i
    match i with
    | 0 => exact ord_rel hk
    | 1 => exact ord_notify (above_one (by simp [rank])) (ord_rel hk)
    | _ + 2 => exact ord_suspendLk (by simp [rank]) ih

theorem ord_chanUntilRounds {c : Nat} {k : Code} (hk : Ordered [] [] k) (n : Nat) : Ordered [] [] (chanUntilRounds c n k) := by
  induction n with
  | zero => rfl
  | succ n ih =>
    refine ⟨?_, ord_yield ih⟩
    intro i
    match i with
    | 0 => exact ord_rel hk
    | 1 => exact ord_notify (above_one (by simp [rank])) (ord_rel hk)
    | _ + 2 => exact ord_suspendUntil (by simp [rank]) hk ih

theorem ord_chanTry {c : Nat} {k : Code} (hk : Ordered [] [] k) : Ordered [] [] (chanTry c k) :=
  fun n => ord_relock (ord_notify (above_one (by simp [rank])) (ord_notify (above_one (by simp [rank])) (ord_rel hk))) n

theorem ord_unbufClose {c : Nat} {k : Code} (hk : Ordered [] [] k) : Ordered [] [] (unbufClose c k) := by
  have key : Ordered [] [] (.acq (.prod c) (notify (.acq (.cons c) (notify (.rel (.cons c) (.rel (.prod c) k)))))) := by
    refine ⟨above_nil, ord_notify (above_one (by simp [rank])) ⟨?_, ord_notify ?_ (ord_rel (ord_rel hk))⟩⟩
    · simp [rank]
    · simp [Above, rank]
  intro i
  match i with
  | 0 => exact hk
  | 1 => exact key
  | _ + 2 => exact ord_wake above_nil key

theorem ord_unbufPushRounds {c : Nat} {k : Code} (hk : Ordered [] [] k) (n : Nat) : Ordered [] [] (unbufPushRounds c n k) := by
  induction n with
  | zero => rfl
  | succ n ih =>
    intro i
    match i with
    | 0 => exact hk
    | 1 => exact ⟨above_nil, ord_notify (above_one (by simp [rank])) (ord_suspendLk (by simp [rank]) hk)⟩
    | 2 => exact ⟨above_nil, ord_rel hk⟩
    | 3 => exact ⟨above_nil, ord_rel ih⟩
    | _ + 4 => exact ⟨above_nil, ord_suspendLk (by simp [rank]) ih⟩

theorem ord_unbufPushUntilRounds {c : Nat} {k : Code} (hk : Ordered [] [] k) (n : Nat) : Ordered [] [] (unbufPushUntilRounds c n k) := by
  induction n with
  | zero => rfl
  | succ n ih =>
    intro i
    match i with
    | 0 => exact hk
    | 1 => exact ⟨above_nil, ord_notify (above_one (by simp [rank])) (ord_suspendLk (by simp [rank]) hk)⟩
    | 2 => exact ⟨above_nil, ord_rel hk⟩
    | 3 => exact ⟨above_nil, ord_rel ih⟩
    | _ + 4 => exact ⟨above_nil, ord_suspendUntil (by simp [rank]) hk ih⟩

theorem ord_unbufPopRounds {c : Nat} {k : Code} (hk : Ordered [] [] k) (n : Nat) : Ordered [] [] (unbufPopRounds c n k) := by
  induction n with
  | zero => rfl
  | succ n ih =>
    intro i
    match i with
    | 0 => exact ⟨above_nil, ord_notify (above_one (by simp [rank])) (ord_rel (ord_wake above_nil hk))⟩
    | 1 => exact ⟨above_nil, ord_rel hk⟩
    | 2 => exact ⟨above_nil, ord_rel ih⟩
    | _ + 3 => exact ⟨above_nil, ord_suspendLk (by simp [rank]) ih⟩

theorem ord_unbufPopUntilRounds {c : Nat} {k : Code} (hk : Ordered [] [] k) (n : Nat) : Ordered [] [] (unbufPopUntilRounds c n k) := by
  induction n with
  | zero => rfl
  | succ n ih =>
    intro i
    match i with
    | 0 => exact ⟨above_nil, ord_notify (above_one (by simp [rank])) (ord_rel (ord_wake above_nil hk))⟩
    | 1 => exact ⟨above_nil, ord_rel hk⟩
    | 2 => exact ⟨above_nil, ord_rel ih⟩
    | _ + 3 => exact ⟨above_nil, ord_suspendUntil (by simp [rank]) hk ih⟩

theorem ord_dispatchRound (t : Tid) : Ordered [] [] (dispatchRound t) := by
  refine ord_algoNotify above_nil fun n => ord_times (f := fun k => .branch fun f => destroyCtx f k) (fun k hk f => ord_inside above_nil hk) n ?_
  refine ord_inside above_nil fun m => ord_times (fun k => ord_schedule above_nil) m ?_
  refine fun i => ord_times (fun k => ord_wake above_nil) i (ord_pickNext above_nil ?_)
  intro j
  match j with
  | 0 => rfl
  | 1 => exact ord_inside above_nil (ord_inside above_nil rfl)
  | _ + 2 => exact ⟨rfl, ord_schedule above_nil rfl, ns_schedule trivial, rfl⟩

theorem ord_setAlgo {k : Code} (hk : Ordered [] [] k) : Ordered [] [] (setAlgo k) :=
  fun n => ord_times (fun _ hk => ord_hasReady above_nil (ord_pickNext above_nil (ord_schedule above_nil hk))) n (ord_hasReady above_nil hk)

/-- A call with locks of the library only, or with a lock of the user whose `unlock` waits for nothing but locks that rank below that of the condition variable. -/
def Call.Fine : Call → Prop
  | .waitAny c u l => Ordered [.cv c] [.cv c] u ∧ Ordered [] [] l
  | _ => True

theorem ord_call {c : Call} (h : c.Fine) : Ordered [] [] c.code := by
  cases c with
  | lock m n => exact ord_lockRounds ord_done n
  | tryLock m =>
    refine ⟨above_nil, ?_⟩
    intro i
    match i with
    | 0 => exact ord_rel ord_done
    | _ + 1 => exact ord_rel (ord_yield ord_done)
  | tryLockUntil m n => exact ord_lockUntilRounds ord_done n
  | unlock m => exact ord_mutexUnlock above_nil ord_done ord_done
  | notifyOne c => exact ord_cvNotify ord_done
  | notifyAll c => exact ord_cvNotify ord_done
  | wait c m => exact ord_cvWait ord_done
  | waitUntil c m => exact ord_cvWaitUntil ord_done
  | waitAny c u l => exact ord_cvWaitAny h.1 h.2
  | push c n => exact ord_chanRounds ord_done n
  | pushUntil c n => exact ord_chanUntilRounds ord_done n
  | pop c n => exact ord_chanRounds ord_done n
  | popUntil c n => exact ord_chanUntilRounds ord_done n
  | tryPush c => exact ord_chanTry ord_done
  | tryPop c => exact ord_chanTry ord_done
  | close c => exact ord_chanTry ord_done
  | unbufPush c n => exact ord_unbufPushRounds ord_done n
  | unbufPushUntil c n => exact ord_unbufPushUntilRounds ord_done n
  | unbufPop c n => exact ord_unbufPopRounds ord_done n
  | unbufPopUntil c n => exact ord_unbufPopUntilRounds ord_done n
  | unbufClose c => exact ord_unbufClose ord_done
  | join f =>
    refine ⟨above_nil, ?_⟩
    intro i
    match i with
    | 0 => exact ord_rel ord_done
    | _ + 1 => exact ord_suspendLk (by simp [rank]) ord_done
  | exit f => exact ⟨above_nil, ord_notify (above_one (by simp [rank])) (ord_rel (ord_suspend ord_done))⟩
  | destroy f => exact ord_inside above_nil ord_done
  | post => exact ord_schedule above_nil ord_done
  | dispatch => exact ord_resched ord_done
  | yield => exact ord_yield ord_done
  | sleep => exact ord_suspend ord_done
  | useAlgorithm => exact ord_setAlgo ord_done
  | round t => exact ord_dispatchRound t

/-! ### What the dispatcher does -/

theorem hn_times {f : Code → Code} (hf : ∀ k, HandsNothing k → HandsNothing (f k)) (n : Nat) {k : Code} (hk : HandsNothing k) : HandsNothing (times f n k) := by
  induction n with
  | zero => exact hk
  | succ n ih => exact hf _ ih

theorem hn_schedule {k : Code} (hk : HandsNothing k) : HandsNothing (schedule k) := by
  intro i
  match i with
  | 0 => exact hk
  | 1 => exact hk
  | _ + 2 => exact hk

theorem hn_algoNotify {k : Code} (hk : HandsNothing k) : HandsNothing (algoNotify k) := by
  intro i
  match i with
  | 0 => exact hk
  | _ + 1 => exact hk

theorem hn_wake {k : Code} (hk : HandsNothing k) : HandsNothing (wake k) := by
  intro i
  match i with
  | 0 => exact hk
  | 1 => exact hn_schedule hk
  | _ + 2 => exact fun _ => hn_algoNotify hk

theorem hn_pickNext {k : Code} (hk : HandsNothing k) : HandsNothing (pickNext k) := by
  intro i
  match i with
  | 0 => exact hk
  | 1 => exact hk
  | t + 2 => exact fun n => hn_times (f := fun k => .branch fun u => inside (.queue u) k) (fun _ hk _ => hk) n hk

theorem hn_dispatchRound (t : Tid) : HandsNothing (dispatchRound t) := by
  refine hn_algoNotify fun n => hn_times (f := fun k => .branch fun f => destroyCtx f k) (fun k hk f => hk) n ?_
  refine fun m => hn_times (fun k => hn_schedule) m ?_
  refine fun i => hn_times (fun k => hn_wake) i (hn_pickNext ?_)
  intro j
  match j with
  | 0 => trivial
  | 1 => trivial
  | _ + 2 => exact ⟨rfl, trivial⟩

/-! ### The invariant -/

structure Inv (n : Nat) (s : State) (held : Agent → List Lk) : Prop where
  own : ∀ l a, s.owner l = some a ↔ l ∈ held a
  nodup : ∀ a, (held a).Nodup
  ord : ∀ a, Ordered [] (held a) (s.code a)
  post : ∀ t, NoSwitch (s.code (.post t))
  rest : ∀ f, (∀ t, t < n → s.cur t ≠ f) → held (.fib f) = []
  busy : ∀ t, t < n → (s.code (.post t)).isDone = false → held (.fib (s.cur t)) = []
  gone : ∀ t, ¬ t < n → s.code (.post t) = .done
  inj : ∀ t u, t < n → u < n → s.cur t = s.cur u → t = u
  place : ∀ t, t < n → ∀ u, s.cur t = .disp u → u = t
  disp : ∀ t, HandsNothing (s.code (.fib (.disp t)))

theorem inv_init (n : Nat) : Inv n init (fun _ => []) := by
  constructor <;> simp [init, Ordered, NoSwitch, HandsNothing]

def Event.Fine : Event → Prop
  | .begin _ c => c.Fine
  | _ => True

theorem isDone_iff {c : Code} : c.isDone = true ↔ c = .done := by
  cases c <;> simp [Code.isDone]

theorem hn_of_begin {t : Tid} {c : Call} (h : mayCall (.disp t) c = true) : HandsNothing c.code := by
  cases c <;> simp [mayCall] at h
  exact hn_dispatchRound _

/-- Thread `t` executes the code of `a`. -/
def Runs (s : State) (t : Tid) (a : Agent) : Prop :=
  (a = .fib (s.cur t) ∧ s.code (.post t) = .done) ∨ (a = .post t ∧ s.code (.post t) ≠ .done)

theorem runs_agent (s : State) (t : Tid) : Runs s t (s.agent t) := by
  simp only [State.agent, Runs]
  by_cases hd : (s.code (.post t)).isDone = true
  · rw [if_pos hd]
    exact .inl ⟨rfl, isDone_iff.1 hd⟩
  · rw [if_neg hd]
    exact .inr ⟨rfl, fun h => hd (isDone_iff.2 h)⟩

theorem inv_local {n : Nat} {s : State} {held : Agent → List Lk} (hi : Inv n s held) {t : Tid} (ht : t < n) {a : Agent} (hr : Runs s t a)
    {own : Lk → Option Agent} {c : Code} {h : List Lk} (ho : ∀ l b, own l = some b ↔ l ∈ if b = a then h else held b)
    (hn : h.Nodup) (hc : Ordered [] h c) (hp : ∀ u, a = .post u → NoSwitch c)
    (hd : ∀ u, a = .fib (.disp u) → HandsNothing c) :
    Inv n (setCode { s with owner := own } a c) (fun b => if b = a then h else held b) := by
  have hi' := hi
  obtain ⟨h1, h2, h3, h4, h5, h6, h7, h8, h9, h10⟩ := hi
  refine ⟨ho, ?_, ?_, ?_, ?_, ?_, ?_, h8, h9, ?_⟩
  · intro b; split
    · exact hn
    · exact h2 b
  · intro b; simp only [setCode]; split
    · exact hc
    · exact h3 b
  · intro u; simp only [setCode]; split
    · rename_i hu; exact hp u hu.symm
    · exact h4 u
  · intro f hf
    simp only [setCode] at hf
    have : Agent.fib f ≠ a := by
      intro hfa
      rcases hr with ⟨hr, -⟩ | ⟨hr, -⟩
      · rw [hr] at hfa; cases hfa; exact hf t ht rfl
      · rw [hr] at hfa; cases hfa
    simp only [if_neg this]
    exact h5 f hf
  · intro u hu hb
    simp only [setCode] at hb ⊢
    rcases hr with ⟨hr, hd'⟩ | ⟨hr, hd'⟩
    · by_cases hut : u = t
      · subst hut
        rw [if_neg (by rw [hr]; simp), hd'] at hb
        cases hb
      · have : Agent.fib (s.cur u) ≠ a := by
          rw [hr]; intro h; simp only [Agent.fib.injEq] at h; exact hut (h8 u t hu ht h)
        rw [if_neg (by rw [hr]; simp)] at hb
        simp only [if_neg this]
        exact h6 u hu hb
    · have : Agent.fib (s.cur u) ≠ a := by rw [hr]; simp
      simp only [if_neg this]
      by_cases hut : u = t
      · subst hut
        refine h6 u hu ?_
        cases hx : s.code (.post u) <;> simp_all [Code.isDone]
      · rw [if_neg (by rw [hr]; simp [hut])] at hb
        exact h6 u hu hb
  · intro u hu
    simp only [setCode]
    split
    · rename_i hua
      rcases hr with ⟨hr, -⟩ | ⟨hr, -⟩
      · rw [hr] at hua; cases hua
      · rw [hr] at hua; cases hua; exact absurd ht hu
    · exact h7 u hu
  · intro u
    simp only [setCode]
    split
    · rename_i hua; exact hd u hua.symm
    · exact h10 u

theorem inv_step {n : Nat} {s s' : State} {held : Agent → List Lk} {e : Event} {o : List Event} (hi : Inv n s held) (hf : e.Fine)
    (h : step n s e = some (s', o)) : ∃ held', Inv n s' held' := by
  simp only [step] at h
  split at h
  case isFalse => cases h
  rename_i ht
  have hr := runs_agent s e.thread
  generalize s.agent e.thread = a at h hr
  have hord := hi.ord a
  have hdisp : ∀ u, a = .fib (.disp u) → HandsNothing (s.code a) := fun u hu => hu ▸ hi.disp u
  split at h
  · -- begin
    rename_i _ _ t c hc
    rw [hc] at hord
    split at h <;> cases h
    rename_i hm
    have ha : a = .fib (s.cur t) := by
      rcases hr with hr | hr
      · exact hr.1
      · rw [hr.1] at hc; exact absurd hc hr.2
    refine ⟨_, inv_local (own := s.owner) (h := []) hi ht hr ?_ (by simp) (ord_call hf) ?_ ?_⟩
    · intro l b
      rw [hi.own]
      split
      · rename_i hb; rw [hb, hord]
      · rfl
    · intro u hu; rw [ha] at hu; cases hu
    · intro u hu
      rw [ha] at hu
      simp only [Agent.fib.injEq] at hu
      rw [hu] at hm
      exact hn_of_begin hm
  · -- acq
    rename_i _ _ t l k hc
    rw [hc] at hord
    split at h <;> cases h
    rename_i hfree
    have hl : l ∉ held a := fun hm => by rw [(hi.own l a).2 hm] at hfree; cases hfree
    refine ⟨_, inv_local (own := fun m => if m = l then some a else s.owner m) (h := l :: held a) hi ht hr ?_ (by simp [hl, hi.nodup]) hord.2 ?_ ?_⟩
    · intro m b
      have := hi.own m b
      have := hi.own l b
      grind
    · intro u hu; have := hi.post u; rw [← hu, hc] at this; exact this
    · intro u hu; have := hdisp u hu; rw [hc] at this; exact this
  · -- rel
    rename_i _ _ t l k hc
    rw [hc] at hord
    cases h
    refine ⟨_, inv_local (own := fun m => if m = l then none else s.owner m) (h := (held a).erase l) hi ht hr ?_ ((hi.nodup a).erase l) hord.2 ?_ ?_⟩
    · intro m b
      have h1 := hi.own m b
      have h2 := hi.own l b
      have h3 := (hi.own l a).2 hord.1
      have h4 := (hi.nodup a).mem_erase_iff (a := m) (b := l)
      grind
    · intro u hu; have := hi.post u; rw [← hu, hc] at this; exact this
    · intro u hu; have := hdisp u hu; rw [hc] at this; exact this
  · -- tryAcq
    rename_i _ _ t l y k hc
    rw [hc] at hord
    split at h <;> cases h
    · rename_i hfree
      have hl : l ∉ held a := fun hm => by rw [(hi.own l a).2 hm] at hfree; cases hfree
      refine ⟨_, inv_local (own := fun m => if m = l then some a else s.owner m) (h := l :: held a) hi ht hr ?_ (by simp [hl, hi.nodup]) hord.1 ?_ ?_⟩
      · intro m b
        have := hi.own m b
        have := hi.own l b
        grind
      · intro u hu; have := hi.post u; rw [← hu, hc] at this; exact this.1
      · intro u hu; have := hdisp u hu; rw [hc] at this; exact this.1
    · refine ⟨_, inv_local (own := s.owner) (h := held a) hi ht hr ?_ (hi.nodup a) hord.2 ?_ ?_⟩
      · intro m b; have := hi.own m b; grind
      · intro u hu; have := hi.post u; rw [← hu, hc] at this; exact this.2
      · intro u hu; have := hdisp u hu; rw [hc] at this; exact this.2
  · -- choose
    rename_i _ _ t i k hc
    rw [hc] at hord
    cases h
    refine ⟨_, inv_local (own := s.owner) (h := held a) hi ht hr ?_ (hi.nodup a) (hord i) ?_ ?_⟩
    · intro m b; have := hi.own m b; grind
    · intro u hu; have := hi.post u; rw [← hu, hc] at this; exact this i
    · intro u hu; have := hdisp u hu; rw [hc] at this; exact this i
  · -- switch
    rename_i _ _ t g r p k hc
    rw [hc] at hord
    split at h <;> cases h
    rename_i hg
    obtain ⟨ha, hg⟩ := hg
    obtain ⟨hh, hp1, hp2, hk⟩ := hord
    have hpd : s.code (.post t) = .done := by
      rcases hr with hr | hr
      · exact hr.2
      · rw [hr.1] at ha; cases ha
    have hp0 : held (.post t) = [] := by have := hi.ord (.post t); rw [hpd] at this; exact this
    simp only [mayResume, Bool.and_eq_true, List.all_eq_true, List.mem_range] at hg
    obtain ⟨hg1, hg2⟩ := hg
    have hg1 : ∀ u, u < n → s.cur u ≠ g := fun u hu h => by have := hg1 u hu; simp [h] at this
    have ht : t < n := ht
    have hgf : held (.fib g) = [] := hi.rest g hg1
    refine ⟨fun b => if b = .post t then r.toList else if b = a then [] else held b, ?_⟩
    subst ha
    constructor
    · intro l b
      have h1 := hi.own l b
      cases r with
      | none =>
        simp only [setCur, setCode, Option.toList]
        simp only [Option.toList] at hh
        grind
      | some m =>
        simp only [setCur, setCode, setOwner, Option.toList]
        simp only [Option.toList] at hh
        have h2 := hi.own l (.fib (s.cur t))
        have h3 := hi.own m (.fib (s.cur t))
        grind
    · intro b
      have := hi.nodup b
      cases r <;> grind
    · intro b
      have := hi.ord b
      cases r <;> simp only [setCur, setCode, setOwner] <;> grind
    · intro u
      have := hi.post u
      cases r <;> simp only [setCur, setCode, setOwner] <;> grind
    · intro f hf
      have hf' : ∀ u, u < n → (if u = t then g else s.cur u) ≠ f := fun u hu => by
        have := hf u hu
        cases r <;> exact this
      by_cases hft : f = s.cur t
      · simp [hft]
      · have : held (.fib f) = [] := by
          refine hi.rest f fun u hu => ?_
          by_cases hut : u = t
          · subst hut; exact fun h => hft h.symm
          · have := hf' u hu; rwa [if_neg hut] at this
        simp [hft, this]
    · intro u hu hb
      have hb' : (if (Agent.post u) = .post t then p else s.code (.post u)).isDone = false := by
        cases r <;> simpa [setCur, setCode, setOwner] using hb
      have hx : (if u = t then g else s.cur u) = g ∨ u ≠ t := by by_cases hut : u = t <;> simp [hut]
      have goal : (if Agent.fib (if u = t then g else s.cur u) = Agent.fib (s.cur t) then ([] : List Lk) else held (.fib (if u = t then g else s.cur u))) = [] := by
        by_cases hut : u = t
        · rw [if_pos hut, hgf]; simp
        · rw [if_neg hut]
          rw [if_neg (by simpa using hut)] at hb'
          rw [hi.busy u hu hb']; simp
      cases r <;> simpa [setCur, setCode, setOwner] using goal
    · intro u hu
      have hut : u ≠ t := fun h => hu (h ▸ ht)
      have := hi.gone u hu
      cases r <;> simp [setCur, setCode, setOwner, hut, this]
    · intro u v hu hv huv
      have huv' : (if u = t then g else s.cur u) = (if v = t then g else s.cur v) := by cases r <;> exact huv
      have h1 := hi.inj u v hu hv
      have h2 := hg1 u hu
      have h3 := hg1 v hv
      grind
    · intro u hu v huv
      have huv' : (if u = t then g else s.cur u) = .disp v := by cases r <;> exact huv
      by_cases hut : u = t
      · rw [if_pos hut] at huv'
        rw [huv'] at hg2
        simpa [hut] using hg2
      · rw [if_neg hut] at huv'
        exact hi.place u hu v huv'
    · intro u
      have h1 := hi.disp u
      have h2 : s.cur t = .disp u → HandsNothing k := by
        intro h
        have := hdisp u (by rw [h])
        rw [hc] at this
        exact this.2
      have goal : HandsNothing (if Agent.fib (.disp u) = .fib (s.cur t) then k else s.code (.fib (.disp u))) := by
        split
        · rename_i h; simp only [Agent.fib.injEq] at h; exact h2 h.symm
        · exact h1
      cases r <;> simpa [setCur, setCode, setOwner] using goal
  · cases h

/-- In a trace of calls that are fine the invariant holds. -/
theorem inv_reach {n : Nat} {s : State} {tr : List Event} (h : Reach (step n) init s tr) (hf : ∀ e ∈ tr, e.Fine) : ∃ held, Inv n s held := by
  induction h with
  | refl => exact ⟨_, inv_init n⟩
  | @tail s s' tr o e hr he ih =>
    obtain ⟨held, hi⟩ := ih fun e' he' => hf e' (by simp [he'])
    refine inv_step hi ?_ he
    have : o = [e] := by
      simp only [step] at he
      grind
    exact hf e (by simp [this])

end Verif.LockOrder
