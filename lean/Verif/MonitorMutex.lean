import Verif.MonitorInv

/-!
# The mutex of the library on weak memory

`boost::fibers::mutex` (`src/mutex.cpp`): its members `owner_` and `wait_queue_` are protected by the spinlock `wait_queue_splk_`
(`include/boost/fiber/mutex.hpp:37-39`). Fibers are threads here: fibers of the same thread, and fibers that migrate, have more order between their
operations, see `Verif/WeakFiber.lean`.

Simplifications: the wait queue is the number of its elements. A fiber that suspends may go on at any time and then looks at `owner_` again: what wakes it
is the subject of other parts of the model; here fewer assumptions mean more executions. `try_lock` is left out, since it reads `owner_` without the spinlock
(`src/mutex.cpp:59`), a data race (`Verif/WeakMutex.lean`, C82).
-/

namespace Verif.Monitor.Mutex

open Verif.Rtm (Tid Lock Addr Req Done Hist Prog mine owner value Legal Allowed holding)
open Verif.WeakDrf Verif.Monitor

inductive Op
  | lock
  | unlock
  deriving DecidableEq, Repr

/-- What an operation returns or throws. -/
inductive Res
  | ok
  /-- `lock_error`: `resource_deadlock_would_occur` -/
  | deadlock
  /-- `lock_error`: `operation_not_permitted` -/
  | notOwner
  deriving DecidableEq, Repr

/-- Where the user's data are. -/
def dataAt (a : Addr) : Addr := 3 * a

/-- Where `owner_` of a mutex is. `nullptr` is 0, a pointer to the context of fiber `t` is `t + 1`. -/
def ownerAt (m : Lock) : Addr := 3 * m + 1

/-- Where `wait_queue_` of a mutex is. -/
def queueAt (m : Lock) : Addr := 3 * m + 2

/-- The critical sections of `mutex::lock` (one round of the loop, `src/mutex.cpp:26-41`) and `mutex::unlock` (`src/mutex.cpp:63-74`). -/
def code (m : Obj) (t : Tid) : Op → List Done → Act Op Res
  -- `active_ctx == owner_`, `nullptr == owner_`
  | .lock, [] => .read (ownerAt m)
  | .lock, [.got _ v] =>
    if v = t + 1 then .ret .deadlock else if v = 0 then .write (ownerAt m) (t + 1) else .read (queueAt m)
  | .lock, [.put _ _, _] => .ret .ok
  -- `wait_queue_.suspend_and_wait( lk, active_ctx)`: the fiber is added to the queue, the spinlock is released
  | .lock, [.got _ n, _] => .write (queueAt m) (n + 1)
  | .lock, _ => .again .lock
  -- `active_ctx != owner_`
  | .unlock, [] => .read (ownerAt m)
  | .unlock, [.got _ v] => if v = t + 1 then .write (ownerAt m) 0 else .ret .notOwner
  -- `wait_queue_.notify_one()`
  | .unlock, [.put _ _, _] => .read (queueAt m)
  | .unlock, [.got _ n, _, _] => if n = 0 then .ret .ok else .write (queueAt m) (n - 1)
  | .unlock, _ => .ret .ok

/-- The object a variable is a member of. -/
def home (a : Addr) : Option Obj := if a % 3 = 0 then none else some (a / 3)

theorem home_data (a : Addr) : home (dataAt a) = none := by simp [home, dataAt]

theorem home_owner (m : Lock) : home (ownerAt m) = some m := by
  have h : ∀ m : Nat, (3 * m + 1) % 3 = 1 ∧ (3 * m + 1) / 3 = m := by omega
  simp [home, ownerAt, h m]

theorem home_queue (m : Lock) : home (queueAt m) = some m := by
  have h : ∀ m : Nat, (3 * m + 2) % 3 = 2 ∧ (3 * m + 2) / 3 = m := by omega
  simp [home, queueAt, h m]

theorem code_member (o : Obj) (t : Tid) (op : Op) (log : List Done) (a : Addr)
    (h : code o t op log = .read a ∨ ∃ v, code o t op log = .write a v) : home a = some o := by
  have h1 : a = ownerAt o ∨ a = queueAt o := by
    unfold code at h
    split at h <;> grind
  rcases h1 with rfl | rfl
  · exact home_owner o
  · exact home_queue o

/-- The mutexes of the library. -/
def lib : Lib Op Res := ⟨code, home, fun _ => false, code_member⟩

/-! ## Programs with mutexes -/

/-- What a fiber has done with mutexes and data, given the results of its operations. (Exceptions do not happen in the programs below.) -/
def dn : UDone Op Res → Done
  | .got a v => .got (a / 3) v
  | .put a v => .put (a / 3) v
  | .did m .lock .ok => .acquired m
  | .did m .unlock .ok => .released m
  | .did m _ _ => .failed m

/-- A program with locks becomes a program that calls `lock` and `unlock` of mutexes. -/
def calls (U : Prog) : UProg Op Res := fun t p =>
  match U t (p.map dn) with
  | some (.lock m) => some (.call m .lock)
  | some (.unlock m) => some (.call m .unlock)
  | some (.read a) => some (.read (dataAt a))
  | some (.write a v) => some (.write (dataAt a) v)
  | some (.tryLock _) => none
  | none => none

/-- The history of a program with mutexes, as a history of a program with locks: a mutex is taken when `lock` returns. -/
def locks : UHist Op Res → Hist
  | [] => []
  | (t, .got a v) :: h => (t, .got (a / 3) v) :: locks h
  | (t, .put a v) :: h => (t, .put (a / 3) v) :: locks h
  | (t, .sect m op _ (.ret r)) :: h => (t, dn (.did m op r)) :: locks h
  | (_, .sect _ _ _ _) :: h => locks h

/-- Fibers do not take a mutex they have, and do not call `try_lock`. -/
def Plain (U : Prog) : Prop :=
  ∀ h t l, Legal U h → U t (mine h t) ≠ some (.tryLock l) ∧ (U t (mine h t) = some (.lock l) → owner h l ≠ some t)

/-! ## Critical sections -/

theorem ran_lock {m : Obj} {t : Tid} {mem : Addr → Nat} {log : List Done} (hr : Ran lib m t .lock mem log)
    (ho : (∃ r, code m t .lock log = .ret r) ∨ ∃ op, code m t .lock log = .again op) :
    (mem (ownerAt m) = t + 1 ∧ code m t .lock log = .ret .deadlock ∧ log = [.got (ownerAt m) (t + 1)]) ∨
    (mem (ownerAt m) = 0 ∧ code m t .lock log = .ret .ok ∧ log = [.put (ownerAt m) (t + 1), .got (ownerAt m) 0]) ∨
    (mem (ownerAt m) ≠ 0 ∧ code m t .lock log = .again .lock ∧
      ∃ v n, log = [.put (queueAt m) (n + 1), .got (queueAt m) n, .got (ownerAt m) v]) := by
  match log with
  | [] => simp [code] at ho
  | [x] => cases x <;> simp [Ran, lib, code, after] at hr ho ⊢ <;> grind
  | [x, y] => cases x <;> simp only [Ran] at hr <;> cases y <;> simp [Ran, lib, code, after] at hr ho ⊢ <;> grind
  | [x, y, z] =>
    cases x <;> simp only [Ran] at hr <;> cases y <;> simp only [Ran, and_false, false_and] at hr <;> cases z <;>
      simp [Ran, lib, code, after] at hr ho ⊢ <;> grind
  | x :: y :: z :: w :: l => cases x <;> simp [Ran, lib, code] at hr

theorem ran_unlock {m : Obj} {t : Tid} {mem : Addr → Nat} {log : List Done} (hr : Ran lib m t .unlock mem log)
    (ho : (∃ r, code m t .unlock log = .ret r) ∨ ∃ op, code m t .unlock log = .again op) :
    (mem (ownerAt m) ≠ t + 1 ∧ code m t .unlock log = .ret .notOwner ∧ ∃ v, log = [.got (ownerAt m) v]) ∨
    (mem (ownerAt m) = t + 1 ∧ code m t .unlock log = .ret .ok ∧
      (log = [.got (queueAt m) 0, .put (ownerAt m) 0, .got (ownerAt m) (t + 1)] ∨
        ∃ n, log = [.put (queueAt m) n, .got (queueAt m) (n + 1), .put (ownerAt m) 0, .got (ownerAt m) (t + 1)])) := by
  match log with
  | [] => simp [code] at ho
  | [x] => cases x <;> simp [Ran, lib, code, after] at hr ho ⊢ <;> grind
  | [x, y] => cases x <;> simp only [Ran] at hr <;> cases y <;> simp [Ran, lib, code, after] at hr ho ⊢ <;> grind
  | [x, y, z] =>
    cases x <;> simp only [Ran] at hr <;> cases y <;> simp only [Ran, and_false, false_and] at hr <;> cases z <;>
      simp [Ran, lib, code, after] at hr ho ⊢ <;> grind
  | [x, y, z, w] =>
    cases x <;> simp only [Ran] at hr <;> cases y <;> simp only [Ran, and_false, false_and] at hr <;> cases z <;>
      simp only [Ran, and_false, false_and] at hr <;> cases w <;> simp [Ran, lib, code, after] at hr ho ⊢ <;> grind
  | x :: y :: z :: w :: w' :: l => cases x <;> simp [Ran, lib, code] at hr

/-! ## Mutexes are locks -/

theorem mine_locks (h : UHist Op Res) (t : Tid) : mine (locks h) t = (upast h t).map dn := by
  induction h with
  | nil => rfl
  | cons e h ih =>
    obtain ⟨u, e⟩ := e
    by_cases hu : t = u
    · subst hu
      cases e with
      | got a v => simp [locks, mine_cons_same, upast, dn, ih]
      | put a v => simp [locks, mine_cons_same, upast, dn, ih]
      | sect o op log out => cases out <;> simp [locks, mine_cons_same, upast, ih]
    · rw [upast_other hu]
      cases e with
      | got a v => simp only [locks]; rw [mine_cons_other hu, ih]
      | put a v => simp only [locks]; rw [mine_cons_other hu, ih]
      | sect o op log out =>
        cases out <;> simp only [locks]
        · exact ih
        · exact ih
        · rw [mine_cons_other hu, ih]
        · exact ih

/-- `owner_` of a mutex whose owner is known. -/
def ptr : Option Tid → Nat
  | none => 0
  | some t => t + 1

structure MInv (U : Prog) (h : UHist Op Res) : Prop where
  legal : Legal U (locks h)
  own : ∀ m, uval h (ownerAt m) = ptr (owner (locks h) m)
  data : ∀ a, uval h (dataAt a) = value (locks h) a
  wait : ∀ t m op, pend h t = some (m, op) → op = .lock ∧ U t (mine (locks h) t) = some (.lock m)

theorem ne_addr (a m k : Nat) : dataAt a ≠ ownerAt m ∧ dataAt a ≠ queueAt m ∧ ownerAt m ≠ queueAt k ∧ (ownerAt m = ownerAt k ↔ m = k) ∧
    (dataAt a = dataAt k ↔ a = k) ∧ dataAt a / 3 = a := by
  have h : ∀ a m k : Nat, 3 * a ≠ 3 * m + 1 ∧ 3 * a ≠ 3 * m + 2 ∧ 3 * m + 1 ≠ 3 * k + 2 ∧ (3 * m + 1 = 3 * k + 1 ↔ m = k) ∧ (3 * a = 3 * k ↔ a = k) ∧
      3 * a / 3 = a := by omega
  exact h a m k

/-- What happens, as the user sees it. -/
theorem step_cases {U : Prog} (hu : Unlocks U) (hp : Plain U) {h : UHist Op Res} {t : Tid} {e : Ev Op Res} (hi : MInv U h)
    (ha : UAllowed lib (calls U) h (t, e)) :
    (∃ a, e = .got (dataAt a) (uval h (dataAt a)) ∧ U t (mine (locks h) t) = some (.read a)) ∨
    (∃ a v, e = .put (dataAt a) v ∧ U t (mine (locks h) t) = some (.write a v)) ∨
    (∃ m, e = .sect m .lock [.put (ownerAt m) (t + 1), .got (ownerAt m) 0] (.ret .ok) ∧ U t (mine (locks h) t) = some (.lock m) ∧
      owner (locks h) m = none) ∨
    (∃ m v n, e = .sect m .lock [.put (queueAt m) (n + 1), .got (queueAt m) n, .got (ownerAt m) v] (.again .lock) ∧
      U t (mine (locks h) t) = some (.lock m)) ∨
    (∃ m log, e = .sect m .unlock log (.ret .ok) ∧ U t (mine (locks h) t) = some (.unlock m) ∧ owner (locks h) m = some t ∧
      (log = [.got (queueAt m) 0, .put (ownerAt m) 0, .got (ownerAt m) (t + 1)] ∨
        ∃ n, log = [.put (queueAt m) n, .got (queueAt m) (n + 1), .put (ownerAt m) 0, .got (ownerAt m) (t + 1)])) := by
  have hcall : ∀ q, calls U t (upast h t) = some q → ∃ r, U t (mine (locks h) t) = some r ∧
      ((∃ m, r = .lock m ∧ q = .call m .lock) ∨ (∃ m, r = .unlock m ∧ q = .call m .unlock) ∨ (∃ a, r = .read a ∧ q = .read (dataAt a)) ∨
        ∃ a v, r = .write a v ∧ q = .write (dataAt a) v) := by
    intro q hq
    rw [mine_locks]
    unfold calls at hq
    split at hq <;> simp_all
    exact ⟨_, _, ⟨rfl, rfl⟩, hq.symm⟩
  cases e with
  | got a v =>
    obtain ⟨_, hV, hv⟩ := ha
    obtain ⟨r, hr, hq⟩ := hcall _ hV
    rcases hq with ⟨m, rfl, hq⟩ | ⟨m, rfl, hq⟩ | ⟨b, rfl, hq⟩ | ⟨b, w, rfl, hq⟩ <;> cases hq
    exact .inl ⟨b, by rw [hv], hr⟩
  | put a v =>
    obtain ⟨_, hV⟩ := ha
    obtain ⟨r, hr, hq⟩ := hcall _ hV
    rcases hq with ⟨m, rfl, hq⟩ | ⟨m, rfl, hq⟩ | ⟨b, rfl, hq⟩ | ⟨b, w, rfl, hq⟩ <;> cases hq
    exact .inr (.inl ⟨b, v, rfl, hr⟩)
  | sect m op log out =>
    obtain ⟨hV, hran, rfl, hout⟩ := ha
    have hr : (op = .lock ∧ U t (mine (locks h) t) = some (.lock m)) ∨ (op = .unlock ∧ U t (mine (locks h) t) = some (.unlock m)) := by
      rcases hV with hV | ⟨_, hV⟩
      · exact .inl (hi.wait t m op hV)
      · obtain ⟨r, hr, hq⟩ := hcall _ hV
        rcases hq with ⟨m, rfl, hq⟩ | ⟨m, rfl, hq⟩ | ⟨b, rfl, hq⟩ | ⟨b, w, rfl, hq⟩ <;> cases hq
        · exact .inl ⟨rfl, hr⟩
        · exact .inr ⟨rfl, hr⟩
    have ho := hi.own m
    rcases hr with ⟨rfl, hr⟩ | ⟨rfl, hr⟩
    · have hne := (hp _ t m hi.legal).2 hr
      rcases ran_lock hran hout with ⟨h1, _, _⟩ | ⟨h1, h2, rfl⟩ | ⟨h1, h2, v, n, rfl⟩
      · exfalso
        rw [ho] at h1
        cases hw : owner (locks h) m with
        | none => rw [hw] at h1; simp [ptr] at h1
        | some u =>
          rw [hw] at h1 hne
          simp only [ptr, Nat.add_right_cancel_iff] at h1
          exact hne (by rw [h1])
      · refine .inr (.inr (.inl ⟨m, by rw [show lib.code = code from rfl, h2], hr, ?_⟩))
        rw [ho] at h1
        cases hw : owner (locks h) m with
        | none => rfl
        | some u => rw [hw] at h1; simp [ptr] at h1
      · exact .inr (.inr (.inr (.inl ⟨m, v, n, by rw [show lib.code = code from rfl, h2], hr⟩)))
    · have how := hu _ t m hi.legal hr
      rcases ran_unlock hran hout with ⟨h1, _, _⟩ | ⟨h1, h2, h3⟩
      · rw [ho, how] at h1; simp [ptr] at h1
      · exact .inr (.inr (.inr (.inr ⟨m, log, by rw [show lib.code = code from rfl, h2], hr, how, h3⟩)))

theorem minv_step {U : Prog} (hu : Unlocks U) (hp : Plain U) {h : UHist Op Res} {t : Tid} {e : Ev Op Res} (hi : MInv U h)
    (ha : UAllowed lib (calls U) h (t, e)) : MInv U ((t, e) :: h) := by
  have hpo : ∀ u, u ≠ t → pend ((t, e) :: h) u = pend h u := fun u hut => pend_other hut e h
  have hmo : ∀ d u, u ≠ t → mine ((t, d) :: locks h) u = mine (locks h) u := fun d u hut => mine_cons_other hut d _
  have hw := hi.wait
  have ho := hi.own
  have hda := hi.data
  have hne := ne_addr
  rcases step_cases hu hp hi ha with ⟨a, rfl, hr⟩ | ⟨a, v, rfl, hr⟩ | ⟨m, rfl, hr, hn⟩ | ⟨m, v, n, rfl, hr⟩ | ⟨m, log, rfl, hr, how, hlog⟩
  · refine ⟨⟨⟨?_, ?_⟩, hi.legal⟩, ?_, ?_, ?_⟩
    · rw [(hne a 0 0).2.2.2.2.2]; exact hr
    · rw [(hne a 0 0).2.2.2.2.2]; exact (hda a).symm
    · intro m; exact ho m
    · intro b; exact hda b
    · intro u m op hpe
      by_cases hut : u = t
      · subst hut; simp [pend] at hpe
      · rw [hpo u hut] at hpe; simp only [locks]; rw [hmo _ u hut]; exact hw u m op hpe
  · refine ⟨⟨?_, hi.legal⟩, ?_, ?_, ?_⟩
    · rw [(hne a 0 0).2.2.2.2.2]; exact hr
    · intro m; simp only [uval, locks, owner, (hne a m 0).1, if_false]; exact ho m
    · intro b
      simp only [uval, locks, value, (hne a 0 0).2.2.2.2.2, (hne a 0 b).2.2.2.2.1, hda]
    · intro u m op hpe
      by_cases hut : u = t
      · subst hut; simp [pend] at hpe
      · rw [hpo u hut] at hpe; simp only [locks]; rw [hmo _ u hut]; exact hw u m op hpe
  · refine ⟨⟨⟨.inl hr, hn⟩, hi.legal⟩, ?_, ?_, ?_⟩
    · intro k
      simp only [uval, locks, after, dn, owner, (hne 0 m k).2.2.2.1]
      split
      · rfl
      · exact ho k
    · intro b
      simp only [uval, locks, after, dn, value, (hne b m 0).1.symm, if_false]; exact hda b
    · intro u m' op hpe
      by_cases hut : u = t
      · subst hut; simp [pend] at hpe
      · rw [hpo u hut] at hpe; simp only [locks]; rw [hmo _ u hut]; exact hw u m' op hpe
  · refine ⟨hi.legal, ?_, ?_, ?_⟩
    · intro k
      simp only [uval, locks, after, (hne 0 k m).2.2.1.symm, if_false]; exact ho k
    · intro b
      simp only [uval, locks, after, (hne b m 0).2.1.symm, if_false]; exact hda b
    · intro u m' op hpe
      by_cases hut : u = t
      · subst hut
        simp [pend] at hpe
        obtain ⟨rfl, rfl⟩ := hpe
        exact ⟨rfl, hr⟩
      · rw [hpo u hut] at hpe; exact hw u m' op hpe
  · have haf : ∀ k, uval ((t, .sect m .unlock log (.ret .ok)) :: h) (ownerAt k) = if m = k then 0 else uval h (ownerAt k) := by
      intro k
      rcases hlog with rfl | ⟨n, rfl⟩ <;> simp only [uval, after, (hne 0 k m).2.2.1.symm, (hne 0 m k).2.2.2.1, if_false]
    have had : ∀ b, uval ((t, .sect m .unlock log (.ret .ok)) :: h) (dataAt b) = uval h (dataAt b) := by
      intro b
      rcases hlog with rfl | ⟨n, rfl⟩ <;> simp only [uval, after, (hne b m 0).2.1.symm, (hne b m 0).1.symm, if_false]
    refine ⟨⟨⟨hr, how⟩, hi.legal⟩, ?_, ?_, ?_⟩
    · intro k
      rw [haf]
      simp only [locks, dn, owner]
      split
      · rfl
      · exact ho k
    · intro b; rw [had]; exact hda b
    · intro u m' op hpe
      by_cases hut : u = t
      · subst hut; simp [pend] at hpe
      · rw [hpo u hut] at hpe; simp only [locks]; rw [hmo _ u hut]; exact hw u m' op hpe

theorem minv_legal {U : Prog} (hu : Unlocks U) (hp : Plain U) : ∀ {h : UHist Op Res}, ULegal lib (calls U) h → MInv U h
  | [], _ => ⟨trivial, fun _ => rfl, fun _ => rfl, fun _ _ _ h => by simp [pend] at h⟩
  | (_, _) :: _, hl => minv_step hu hp (minv_legal hu hp hl.2) hl.1

theorem disciplined {U : Prog} (hu : Unlocks U) (hp : Plain U) (hd : Disciplined U) : UDisciplined lib (calls U) := by
  obtain ⟨right, hR⟩ := hd
  refine ⟨fun h a i => match right (locks h) (a / 3) i with | .thread t => .thread t | .lock m => .obj m, ?_⟩
  intro t e h hl
  have hi := minv_legal hu hp hl.2
  have hi' := minv_legal hu hp hl
  have hne := ne_addr
  have hL := hi'.legal
  rcases step_cases hu hp hi hl.1 with ⟨a, rfl, hr⟩ | ⟨a, v, rfl, hr⟩ | ⟨m, rfl, hr, hn⟩ | ⟨m, v, n, rfl, hr⟩ | ⟨m, log, rfl, hr, how, hlog⟩
  · have hRu := hR _ _ _ hL
    rw [(hne a 0 0).2.2.2.2.2] at hRu
    refine ⟨?_, by simp, ?_⟩
    · intro b w hb
      simp at hb; obtain ⟨rfl, rfl⟩ := hb
      obtain ⟨i, h1⟩ := hRu.1 a _ rfl
      exact ⟨home_data a, i, by simp only [(hne a 0 0).2.2.2.2.2, h1]⟩
    · intro b i _
      refine .inl ?_
      have := hRu.2.2 (b / 3) i
      simp only [Moves] at this
      simp only [locks, (hne a 0 0).2.2.2.2.2]
      rcases this with h1 | ⟨_, h1, _⟩ | ⟨_, h1, _⟩
      · rw [h1]
      · cases h1
      · cases h1
  · have hRu := hR _ _ _ hL
    rw [(hne a 0 0).2.2.2.2.2] at hRu
    refine ⟨by simp, ?_, ?_⟩
    · intro b w hb
      simp at hb; obtain ⟨rfl, rfl⟩ := hb
      refine ⟨home_data a, fun i => ?_⟩
      simp only [(hne a 0 0).2.2.2.2.2, hRu.2.1 a _ rfl]
    · intro b i _
      refine .inl ?_
      have := hRu.2.2 (b / 3) i
      simp only [Moves] at this
      simp only [locks, (hne a 0 0).2.2.2.2.2]
      rcases this with h1 | ⟨_, h1, _⟩ | ⟨_, h1, _⟩
      · rw [h1]
      · cases h1
      · cases h1
  · have hRu := (hR _ _ _ hL).2.2
    refine ⟨by simp, by simp, ?_⟩
    intro b i _
    simp only [locks]
    rcases hRu (b / 3) i with h1 | ⟨l, h1, h2, h3⟩ | ⟨l, h1, h2, h3⟩
    · left; rw [h1]
    · cases h1
      right
      exact ⟨m, _, _, _, rfl, .inl ⟨by rw [h2], by rw [h3]⟩⟩
    · cases h1
  · exact ⟨by simp, by simp, fun b i _ => .inl rfl⟩
  · have hRu := (hR _ _ _ hL).2.2
    refine ⟨by simp, by simp, ?_⟩
    intro b i _
    simp only [locks]
    rcases hRu (b / 3) i with h1 | ⟨l, h1, h2, h3⟩ | ⟨l, h1, h2, h3⟩
    · left; rw [h1]
    · cases h1
    · cases h1
      right
      exact ⟨m, _, _, _, rfl, .inr ⟨by rw [h2], by rw [h3]⟩⟩

/-- Operations of objects take the lock of their object once. -/
theorem plain_compile {Op' Res' : Type} {lib' : Lib Op' Res'} {V : UProg Op' Res'} (hc : Clean lib' V) (hn : ∀ op, lib'.tries op = false) :
    Plain (compile lib' V) := by
  intro h t l hl
  have hi := inv_legal hc hl
  change want lib' V t (at_ lib' V h t) ≠ _ ∧ (want lib' V t (at_ lib' V h t) = _ → _)
  rw [ne_eq, ne_eq, hi.own]
  unfold want take
  simp only [hn]
  cases hpc : (at_ lib' V h t).pc with
  | user => refine ⟨?_, fun _ => by simp⟩; simp only; split <;> simp
  | enter o op => simp
  | sec o op log => refine ⟨?_, ?_⟩ <;> simp only <;> split <;> simp

/-- Each history of a program with locks is one of the program with mutexes. -/
theorem realise {U : Prog} (hu : Unlocks U) (hp : Plain U) : ∀ {h : Hist}, Legal U h → ∃ uh, ULegal lib (calls U) uh ∧ locks uh = h := by
  suffices H : ∀ {h : Hist}, Legal U h → ∃ uh, ULegal lib (calls U) uh ∧ locks uh = h ∧ ∀ t, pend uh t = none by
    intro h hl
    obtain ⟨uh, h1, h2, _⟩ := H hl
    exact ⟨uh, h1, h2⟩
  intro h hl
  induction h with
  | nil => exact ⟨[], trivial, rfl, fun _ => rfl⟩
  | cons e h ih =>
    obtain ⟨t, d⟩ := e
    obtain ⟨uh, h1, rfl, h3⟩ := ih hl.2
    have hi := minv_legal hu hp h1
    have hne := ne_addr
    have ha := hl.1
    have hcall : calls U t (upast uh t) = match U t (mine (locks uh) t) with
        | some (.lock m) => some (.call m .lock)
        | some (.unlock m) => some (.call m .unlock)
        | some (.read a) => some (.read (dataAt a))
        | some (.write a v) => some (.write (dataAt a) v)
        | some (.tryLock _) => none
        | none => none := by rw [mine_locks]; rfl
    have hpe : ∀ e, (∀ o op log op', e ≠ Ev.sect o op log (.again op')) → ∀ u, pend ((t, e) :: uh) u = none := by
      intro e he u
      by_cases hut : u = t
      · subst hut
        cases e with
        | got a v => simp [pend]
        | put a v => simp [pend]
        | sect o op log out => cases out <;> first | exact absurd rfl (he _ _ _ _) | simp [pend]
      · rw [pend_other hut]; exact h3 u
    cases d with
    | got a v =>
      refine ⟨(t, .got (dataAt a) v) :: uh, ⟨⟨h3 t, by rw [hcall, ha.1], by rw [hi.data]; exact ha.2⟩, h1⟩, by simp [locks, (hne a 0 0).2.2.2.2.2],
        hpe _ (by simp)⟩
    | put a v =>
      have ha' : U t (mine (locks uh) t) = _ := ha
      refine ⟨(t, .put (dataAt a) v) :: uh, ⟨⟨h3 t, by rw [hcall, ha']⟩, h1⟩, by simp [locks, (hne a 0 0).2.2.2.2.2], hpe _ (by simp)⟩
    | acquired m =>
      have hq : U t (mine (locks uh) t) = some (.lock m) := by
        rcases ha.1 with h4 | h4
        · exact h4
        · exact absurd h4 (hp _ t m hi.legal).1
      have ho := hi.own m
      rw [ha.2] at ho
      refine ⟨(t, .sect m .lock [.put (ownerAt m) (t + 1), .got (ownerAt m) 0] (.ret .ok)) :: uh,
        ⟨⟨.inr ⟨h3 t, by rw [hcall, hq]⟩, ⟨?_, ?_, ?_, trivial⟩, rfl, .inl ⟨_, rfl⟩⟩, h1⟩, rfl, hpe _ (by simp)⟩
      · simp [lib, code]
      · simp [lib, code]
      · exact ho
    | released m =>
      have ho := hi.own m
      rw [ha.2] at ho
      have hb : calls U t (upast uh t) = some (.call m .unlock) := by rw [hcall, ha.1]
      cases hn : uval uh (queueAt m) with
      | zero =>
        refine ⟨(t, .sect m .unlock [.got (queueAt m) 0, .put (ownerAt m) 0, .got (ownerAt m) (t + 1)] (.ret .ok)) :: uh,
          ⟨⟨.inr ⟨h3 t, hb⟩, ⟨rfl, ?_, ?_, rfl, ?_, trivial⟩, rfl, .inl ⟨_, rfl⟩⟩, h1⟩, rfl, hpe _ (by simp)⟩
        · simp only [after, (hne 0 m m).2.2.1, if_false]; exact hn
        · simp [lib, code]
        · exact ho
      | succ n =>
        refine ⟨(t, .sect m .unlock [.put (queueAt m) n, .got (queueAt m) (n + 1), .put (ownerAt m) 0, .got (ownerAt m) (t + 1)] (.ret .ok)) :: uh,
          ⟨⟨.inr ⟨h3 t, hb⟩, ⟨?_, rfl, ?_, ?_, rfl, ?_, trivial⟩, rfl, .inl ⟨_, rfl⟩⟩, h1⟩, rfl, hpe _ (by simp)⟩
        · simp [lib, code]
        · simp only [after, (hne 0 m m).2.2.1, if_false]; exact hn
        · simp [lib, code]
        · exact ho
    | failed m => exact absurd ha (hp _ t m hi.legal).1

end Verif.Monitor.Mutex
