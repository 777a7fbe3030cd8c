import Verif.MutexTurn
import Verif.Fair

/-!
# Mutexes on fair executions: the calls that return whatever the others do

`try_lock()` and `unlock()` (`src/mutex.cpp:42-76`, `src/timed_mutex.cpp:57-91`, `src/recursive_mutex.cpp:40-73`,
`src/recursive_timed_mutex.cpp:64-96`) and `try_lock_until()`/`try_lock_for()` (`src/timed_mutex.cpp:18-37`, `src/recursive_timed_mutex.cpp:18-43`).
-/

namespace Verif.Mutex

variable {k : Kind} {r : Verif.Run (step k) init}

/-- Time does not go back. -/
theorem now_step {s s' : State} {o : List Obs} {e : Event} (hs : step k s e = some (s', o)) : s.now ≤ s'.now := by
  cases e with
  | run g =>
    simp only [step, run] at hs
    split at hs <;> (try split at hs) <;> (try split at hs) <;> simp only [Option.some.injEq, Prod.mk.injEq, reduceCtorEq] at hs <;>
      obtain ⟨rfl, rfl⟩ := hs <;> simp
  | call g op =>
    simp only [step] at hs
    split at hs <;> simp only [Option.some.injEq, Prod.mk.injEq, reduceCtorEq] at hs
    obtain ⟨rfl, rfl⟩ := hs; simp
  | timer g =>
    simp only [step] at hs
    split at hs <;> (try split at hs) <;> simp only [Option.some.injEq, Prod.mk.injEq, reduceCtorEq] at hs
    obtain ⟨rfl, rfl⟩ := hs; simp
  | tick n => simp only [step, Option.some.injEq, Prod.mk.injEq] at hs; obtain ⟨rfl, rfl⟩ := hs; simp
  | elsewhere g n =>
    simp only [step] at hs
    split at hs <;> simp only [Option.some.injEq, Prod.mk.injEq, reduceCtorEq] at hs
    obtain ⟨rfl, rfl⟩ := hs; simp

theorem now_le {i j : Nat} (hij : i ≤ j) : (r.st i).now ≤ (r.st j).now := by
  obtain ⟨d, rfl⟩ := Nat.le.dest hij
  clear hij
  induction d with
  | zero => exact Nat.le_refl _
  | succ d ih => exact Nat.le_trans ih (now_step (r.next (i + d)))

/-- The call that a fiber is in. -/
def opAt : Pc → Option Op
  | .idle => none
  | .lockEntry | .lockWait _ => some .lock
  | .tryEntry | .tryYield => some .tryLock
  | .untilEntry d | .untilCS d | .untilWait _ d | .untilUnlink _ d => some (.tryLockUntil d)
  | .unlockEntry => some .unlock

/-- The call has come to its end: it returned, or it threw. -/
def Ends (f : Fid) (op : Op) (o : List Obs) : Prop :=
  (∃ e, .threw f op e ∈ o) ∨
    match op with
    | .lock => .lockRet f ∈ o
    | .tryLock => ∃ b, .tryRet f b ∈ o
    | .tryLockUntil d => ∃ b t, .untilRet f d b t ∈ o
    | .unlock => ∃ w, .unlockRet f w ∈ o

/-- How many steps are left, for a timed call when its deadline has passed. -/
def lateRank : Pc → Nat
  | .idle | .lockEntry | .lockWait _ => 0
  | .tryEntry => 2
  | .tryYield => 1
  | .untilEntry _ => 4
  | .untilCS _ => 3
  | .untilWait _ _ => 2
  | .untilUnlink _ _ => 1
  | .unlockEntry => 1

/-- Every step of such a call brings it closer to its end. -/
theorem late_run {s s' : State} {f : Fid} {op : Op} {o : List Obs} (h : opAt (s.pc f) = some op) (hop : op ≠ .lock)
    (hd : ∀ d, op = .tryLockUntil d → d ≤ s.now) (hs : step k s (.run f) = some (s', o)) :
    (opAt (s'.pc f) = some op ∧ lateRank (s'.pc f) < lateRank (s.pc f)) ∨ Ends f op o := by
  simp only [step, run] at hs
  cases hp : s.pc f <;> rw [hp] at h <;> simp only [opAt, Option.some.injEq, reduceCtorEq] at h <;> subst h <;>
    simp only [ne_eq, not_true_eq_false] at hop <;> simp only [hp] at hs <;>
    (repeat' split at hs) <;> simp only [Option.some.injEq, Prod.mk.injEq, reduceCtorEq] at hs <;> obtain ⟨rfl, rfl⟩ := hs
  all_goals first
    | (exact .inr (.inl ⟨_, List.mem_singleton.2 rfl⟩))
    | (refine .inr (.inr ?_); simp; done)
    | (left; simp [opAt, lateRank]; done)
    | (have := hd _ rfl; omega)

/-- Whoever is not asleep can go on. -/
theorem late_enabled {s : State} {f : Fid} {op : Op} (h : opAt (s.pc f) = some op) (hop : op ≠ .lock)
    (hw : ∀ ep d, s.pc f = .untilWait ep d → s.c.ready f = true) : step k s (.run f) ≠ none := by
  simp only [step, run]
  cases hp : s.pc f <;> rw [hp] at h <;> simp only [opAt, Option.some.injEq, reduceCtorEq] at h <;> subst h <;>
    simp only [ne_eq, not_true_eq_false] at hop <;> simp only [] <;> (try rw [hw _ _ hp]) <;> (repeat' split) <;> simp_all

/-- Whoever waits with a deadline that has passed is woken. -/
theorem late_woken (ht : r.Fair Event.timer) {i : Nat} {f : Fid} {ep d : Nat} (hnow : d ≤ (r.st i).now)
    (hp : (r.st i).pc f = .untilWait ep d) : ∃ j, i ≤ j ∧ (r.st j).pc f = .untilWait ep d ∧ (r.st j).c.ready f = true := by
  refine Classical.byContradiction fun hno => ?_
  have hst : ∀ n, (r.st (i + n)).pc f = .untilWait ep d := by
    intro n
    induction n with
    | zero => exact hp
    | succ n ih =>
      rw [← Nat.add_assoc, pc_other (r.next (i + n)) (f := f) ?_ (by rw [ih]; simp)]
      · exact ih
      · intro he
        have hn := r.next (i + n)
        rw [he] at hn
        simp only [step, run, ih] at hn
        split at hn
        · rename_i hrd; exact hno ⟨i + n, by omega, ih, hrd⟩
        · cases hn
  have hst' : ∀ j, i ≤ j → (r.st j).pc f = .untilWait ep d := fun j hj => by
    have := hst (j - i); rwa [Nat.add_sub_cancel' hj] at this
  obtain ⟨j, hj, h1, h2⟩ := r.leads ht (f := f) (P := fun j => i ≤ j) (Nat.le_refl _) (fun j _ h1 _ => by omega)
    (fun j h1 => by
      have := now_le (r := r) h1
      simp [step, hst' j h1, show d ≤ (r.st j).now by omega])
  have hn := r.next j
  have hle := now_le (r := r) hj
  have hpj := hst' j hj
  rw [h2] at hn
  simp only [step, hpj, show d ≤ (r.st j).now by omega, if_true, Option.some.injEq, Prod.mk.injEq] at hn
  refine hno ⟨j + 1, by omega, hst' _ (by omega), ?_⟩
  rw [← hn.1]
  have hi := reach_inv (r.reach j)
  simp only [wake]
  split
  · simp
  · rename_i hne
    rcases hi.qi.bound f ⟨ep, some d⟩ (by simp [hpj, regOf]) with h | h
    · exact absurd h (by simpa using hne)
    · exact hi.uw f ep d hpj h

/-- A call with a deadline that has passed, or one that does not wait, comes to its end. -/
theorem late_ends (hf : r.Fair Event.run) {i : Nat} {f : Fid} {op : Op} (hop : op ≠ .lock)
    (hd : ∀ d, op = .tryLockUntil d → r.Fair Event.timer ∧ d ≤ (r.st i).now) : ∀ n j, i ≤ j → opAt ((r.st j).pc f) = some op → lateRank ((r.st j).pc f) ≤ n →
      ∃ m, j ≤ m ∧ Ends f op (r.ob m) := by
  intro n
  induction n with
  | zero =>
    intro j _ h h0
    cases hp : (r.st j).pc f <;> rw [hp] at h h0 <;> simp [opAt, lateRank] at h h0 <;> exact absurd h.symm hop
  | succ n ih =>
    intro j hj h hn
    have main : ∀ j, i ≤ j → opAt ((r.st j).pc f) = some op → lateRank ((r.st j).pc f) ≤ n + 1 →
        (∀ ep d, (r.st j).pc f = .untilWait ep d → (r.st j).c.ready f = true) → ∃ m, j ≤ m ∧ Ends f op (r.ob m) := by
      intro j hj h hn hrd
      obtain ⟨m, hm, ⟨h0, h1, h2⟩, he⟩ := r.leads hf (f := f)
        (P := fun m => i ≤ m ∧ (r.st m).pc f = (r.st j).pc f ∧ ∀ ep d, (r.st m).pc f = .untilWait ep d → (r.st m).c.ready f = true) ⟨hj, rfl, hrd⟩
        (fun m hm ⟨h0, h1, h2⟩ he => by
          have hne : (r.st m).pc f ≠ .idle := by rw [h1]; intro h'; rw [h'] at h; cases h
          have h3 := pc_other (r.next m) he hne
          refine ⟨by omega, by rw [h3]; exact h1, fun ep d h4 => ?_⟩
          rw [h3] at h4
          exact Run.ready_stays (r.next m) he (h2 ep d h4))
        (fun m ⟨_, h1, h2⟩ => late_enabled (by rw [h1]; exact h) hop h2)
      have hn' := r.next m
      rw [he] at hn'
      rcases late_run (f := f) (op := op) (by rw [h1]; exact h) hop (fun d h' => Nat.le_trans (hd d h').2 (now_le h0)) hn' with ⟨h3, h4⟩ | h3
      · rw [h1] at h4
        obtain ⟨m', hm', h5⟩ := ih (m + 1) (by omega) h3 (by omega)
        exact ⟨m', by omega, h5⟩
      · exact ⟨m, hm, h3⟩
    by_cases hw : ∃ ep d, (r.st j).pc f = .untilWait ep d
    · obtain ⟨ep, d, hp⟩ := hw
      have hop' : op = .tryLockUntil d := by rw [hp] at h; simp [opAt] at h; exact h.symm
      obtain ⟨m, hm, h1, h2⟩ := late_woken (hd d hop').1 (Nat.le_trans (hd d hop').2 (now_le hj)) hp
      obtain ⟨m', hm', h3⟩ := main m (by omega) (by rw [h1, ← hp]; exact h) (by rw [h1, ← hp]; exact hn) (fun _ _ _ => h2)
      exact ⟨m', by omega, h3⟩
    · exact main j hj h hn (fun ep d h' => absurd ⟨ep, d, h'⟩ hw)

/-- A fiber stays in its call until it ends. -/
theorem in_call {s s' : State} {f : Fid} {op : Op} {o : List Obs} {e : Event} (h : opAt (s.pc f) = some op) (hs : step k s e = some (s', o)) :
    opAt (s'.pc f) = some op ∨ Ends f op o := by
  by_cases he : e = .run f
  · subst he
    simp only [step, run] at hs
    cases hp : s.pc f <;> rw [hp] at h <;> simp only [opAt, Option.some.injEq, reduceCtorEq] at h <;> subst h <;> simp only [hp] at hs <;>
      (repeat' split at hs) <;> simp only [Option.some.injEq, Prod.mk.injEq, reduceCtorEq] at hs <;> obtain ⟨rfl, rfl⟩ := hs
    all_goals first
      | (exact .inr (.inl ⟨_, List.mem_singleton.2 rfl⟩))
      | (refine .inr (.inr ?_); simp; done)
      | (left; simp [opAt]; done)
  · left
    rw [pc_other hs he (by intro h'; rw [h'] at h; cases h)]; exact h

/-- A timed attempt does not throw. -/
theorem no_timed_throw {s s' : State} {o : List Obs} {e : Event} (hi : Inv k s) (hs : step k s e = some (s', o)) (f : Fid) (d : Nat) (x : Err) :
    .threw f (.tryLockUntil d) x ∉ o := by
  cases e with
  | run g =>
    have hk := hi.tk g
    simp only [step, run] at hs
    split at hs <;> (try split at hs) <;> (try split at hs) <;> simp only [Option.some.injEq, Prod.mk.injEq, reduceCtorEq] at hs <;>
      obtain ⟨rfl, rfl⟩ := hs <;> simp
    rename_i h1 _ _ h2
    rw [h1] at hk
    rw [untilCS_eq _ _ _ (hk rfl)] at h2
    grind
  | call g op =>
    simp only [step] at hs
    split at hs <;> simp only [Option.some.injEq, Prod.mk.injEq, reduceCtorEq] at hs
    obtain ⟨rfl, rfl⟩ := hs; simp
  | timer g =>
    simp only [step] at hs
    split at hs <;> (try split at hs) <;> simp only [Option.some.injEq, Prod.mk.injEq, reduceCtorEq] at hs
    obtain ⟨rfl, rfl⟩ := hs
    split <;> simp
  | tick n => simp only [step, Option.some.injEq, Prod.mk.injEq] at hs; obtain ⟨rfl, rfl⟩ := hs; simp
  | elsewhere g n =>
    simp only [step] at hs
    split at hs <;> simp only [Option.some.injEq, Prod.mk.injEq, reduceCtorEq] at hs
    obtain ⟨rfl, rfl⟩ := hs; simp

/-- A call begins with `called`. -/
theorem called_in {s s' : State} {f : Fid} {op : Op} {o : List Obs} {e : Event} (hs : step k s e = some (s', o)) (hc : .called f op ∈ o) :
    opAt (s'.pc f) = some op := by
  cases e with
  | run g =>
    simp only [step, run] at hs
    split at hs <;> (try split at hs) <;> (try split at hs) <;> simp only [Option.some.injEq, Prod.mk.injEq, reduceCtorEq] at hs <;>
      obtain ⟨rfl, rfl⟩ := hs <;> simp at hc
  | call g op =>
    simp only [step] at hs
    split at hs <;> simp only [Option.some.injEq, Prod.mk.injEq, reduceCtorEq] at hs
    obtain ⟨rfl, rfl⟩ := hs
    simp at hc
    obtain ⟨rfl, rfl⟩ := hc
    cases op <;> simp [entry, opAt]
  | timer g =>
    simp only [step] at hs
    split at hs <;> (try split at hs) <;> simp only [Option.some.injEq, Prod.mk.injEq, reduceCtorEq] at hs
    obtain ⟨rfl, rfl⟩ := hs
    split at hc <;> simp at hc
  | tick n => simp only [step, Option.some.injEq, Prod.mk.injEq] at hs; obtain ⟨rfl, rfl⟩ := hs; simp at hc
  | elsewhere g n =>
    simp only [step] at hs
    split at hs <;> simp only [Option.some.injEq, Prod.mk.injEq, reduceCtorEq] at hs
    obtain ⟨rfl, rfl⟩ := hs; simp at hc

/-- A call that does not wait ends; a timed one does if its deadline passes. -/
theorem call_ends (hf : r.Fair Event.run) {i : Nat} {f : Fid} {op : Op} (hop : op ≠ .lock)
    (hd : ∀ d, op = .tryLockUntil d → r.Fair Event.timer ∧ ∃ n, d ≤ (r.st n).now) (hc : .called f op ∈ r.ob i) : ∃ j, i < j ∧ Ends f op (r.ob j) := by
  have hd' : ∃ n, ∀ d, op = .tryLockUntil d → r.Fair Event.timer ∧ d ≤ (r.st n).now := by
    cases op with
    | tryLockUntil d => obtain ⟨ht, n, hn⟩ := hd d rfl; exact ⟨n, fun d' h => by cases h; exact ⟨ht, hn⟩⟩
    | _ => exact ⟨0, fun d h => by cases h⟩
  obtain ⟨n, hn⟩ := hd'
  refine Classical.byContradiction fun hno => ?_
  have hst : ∀ m, opAt ((r.st (i + 1 + m)).pc f) = some op := by
    intro m
    induction m with
    | zero => exact called_in (r.next i) hc
    | succ m ih => exact (in_call ih (r.next _)).resolve_right (fun h => hno ⟨i + 1 + m, by omega, h⟩)
  obtain ⟨j, hj, h⟩ := late_ends hf hop hn _ (i + 1 + n) (by omega) (hst n) (Nat.le_refl _)
  exact hno ⟨j, by omega, h⟩

end Verif.Mutex
