import Verif.WorkPoolLive

/-!
# C104 A pool of threads that run fibers until all fibers are done

`c.n` threads, the main thread being 0; `c.m` worker fibers, of which fiber `w` yields `c.y w` times, so that it has run when it has made `c.y w + 1` rounds. `.ran w t`: worker `w` has made one on thread `t`. `.left t`: thread `t` waits no more for the workers. `.joined`: the main thread has joined all others.
-/

namespace Verif.Props.WorkPool
open Verif Verif.WorkPool

/-- No worker makes more rounds than it has. -/
theorem not_twice {c : Cfg} {s : State} {tr : List Obs} (hn : 0 < c.n) (h : Reach (step c) (init c) s tr) (w : Nat) : rounds w tr ≤ c.y w + 1 := by
  have hi := reach_inv hn h
  by_cases hw : w < launched c.m (s.pc 0)
  · rcases hi.rounds.fin w hw with h | h | ⟨t, h⟩
    · omega
    · have := hi.rounds.rdy w h; omega
    · have := hi.rounds.run t w h; omega
  · have := (hi.rounds.new w (by omega)).1; omega

theorem all_done {c : Cfg} {s : State} {tr : List Obs} (h : Inv c s tr) (h0 : s.count = 0) (he : (s.pc 0).early = false) {w : Nat} (hw : w < c.m) : rounds w tr = c.y w + 1 := by
  have h1 : launched c.m (s.pc 0) = c.m := by cases hp : s.pc 0 <;> simp [hp, Pc.early, launched] at he ⊢
  have h2 : (s.pc 0).isIncr = 0 := by cases hp : s.pc 0 <;> simp [hp, Pc.early, Pc.isIncr] at he ⊢
  have h3 := h.counts.cnt
  have h4 : s.ready = [] := List.length_eq_zero_iff.1 (by omega)
  have h5 := tsum_zero.1 (show tsum c.n Pc.live s.pc = 0 by omega)
  rcases h.rounds.fin w (by omega) with h | h' | ⟨t, h'⟩
  · exact h
  · simp [h4] at h'
  · have ht : t < c.n := Nat.lt_of_not_le fun hc => by have := h.shape.out t hc; simp [h'] at this
    have := h5 t ht
    simp [h', Pc.live] at this

/-- Before any thread leaves, every worker has made all its rounds; after that, none runs. -/
theorem none_left_behind {c : Cfg} {s : State} {a b : List Obs} {t w : Nat} (hn : 0 < c.n) (h : Reach (step c) (init c) s (a ++ .left t :: b)) (hw : w < c.m) :
    rounds w a = c.y w + 1 ∧ rounds w b = 0 := by
  suffices hh : rounds w a = c.y w + 1 by
    refine ⟨hh, ?_⟩
    have := not_twice hn h w
    have e : a ++ Obs.left t :: b = a ++ ([.left t] ++ b) := rfl
    rw [e, rounds_append, rounds_append, rounds_left] at this
    omega
  generalize htr : a ++ Obs.left t :: b = tr at h
  induction h generalizing b with
  | refl => simp at htr
  | @tail s s' tr o e h1 hs ih =>
    have hi := reach_inv hn h1
    have key : o = [] ∨ (∃ x, o = [x]) := by
      cases e with
      | go i =>
        simp only [step] at hs
        cases hp : s.pc i <;> simp only [hp] at hs <;> (repeat' split at hs) <;> simp only [Option.some.injEq, Prod.mk.injEq, reduceCtorEq] at hs <;> obtain ⟨_, rfl⟩ := hs <;> simp
      | pick i v => simp only [step] at hs; split at hs <;> simp only [Option.some.injEq, Prod.mk.injEq, reduceCtorEq] at hs; obtain ⟨_, rfl⟩ := hs; simp
      | resume i => simp only [step] at hs; split at hs <;> simp only [Option.some.injEq, Prod.mk.injEq, reduceCtorEq] at hs; obtain ⟨_, rfl⟩ := hs; simp
    have last : .left t ∈ o → rounds w tr = c.y w + 1 := by
      intro hm
      cases e with
      | go i =>
        simp only [step] at hs
        cases hp : s.pc i <;> simp only [hp] at hs <;> (repeat' split at hs) <;> simp only [Option.some.injEq, Prod.mk.injEq, reduceCtorEq] at hs <;> obtain ⟨_, rfl⟩ := hs <;> simp at hm
        all_goals
          refine all_done hi (hi.waits.z i (by simp [hp, Pc.zero])) ?_ hw
          cases hh : (s.pc 0).early with
          | false => rfl
          | true =>
            have h0 : i ≠ 0 := by intro h0; subst h0; simp [hp, Pc.early] at hh
            by_cases hin : i < c.n
            · have := hi.shape.early hh i (by omega) hin; simp [hp] at this
            · have := hi.shape.out i (by omega); simp [hp] at this
      | pick i v => simp only [step] at hs; split at hs <;> simp only [Option.some.injEq, Prod.mk.injEq, reduceCtorEq] at hs; obtain ⟨_, rfl⟩ := hs; simp at hm
      | resume i => simp only [step] at hs; split at hs <;> simp only [Option.some.injEq, Prod.mk.injEq, reduceCtorEq] at hs; obtain ⟨_, rfl⟩ := hs; simp at hm
    rcases List.append_eq_append_iff.1 htr with ⟨l, h2, h3⟩ | ⟨l, h2, h3⟩
    · cases l with
      | nil =>
        simp only [List.append_nil, List.nil_append] at h2 h3
        subst h2
        exact last (by simp [← h3])
      | cons x l =>
        simp only [List.cons_append, List.cons.injEq] at h3
        obtain ⟨rfl, rfl⟩ := h3
        exact ih h2.symm
    · rcases key with rfl | ⟨x, rfl⟩
      · simp at h3
      · cases l with
        | nil =>
          simp only [List.append_nil, List.nil_append] at h2 h3
          subst h2
          exact last (by simp [h3])
        | cons y l => simp at h3

/-- When the main thread has joined the others, all have ended, no fiber is ready, and nothing uses or waits for the mutex and the condition variable, which are about to be destroyed. -/
theorem quiet_at_end {c : Cfg} {s : State} {tr : List Obs} (hn : 0 < c.n) (h : Reach (step c) (init c) s tr) (hj : .joined ∈ tr) :
    (∀ t, s.pc t = .ended) ∧ s.ready = [] ∧ s.mtx = none ∧ s.splk = none ∧ s.waiters = [] := by
  have hi := reach_inv hn h
  have h1 : ∀ t, s.pc t = .ended := by
    clear hi
    induction h with
    | refl => simp at hj
    | @tail s s' tr o e h1 hs ih =>
      have hi := reach_inv hn h1
      rcases List.mem_append.1 hj with hj | hj
      · have := ih hj
        cases e with
        | go i => simp [step, this] at hs
        | pick i v => simp [step, this] at hs
        | resume i => simp [step, this] at hs
      · cases e with
        | go i =>
          simp only [step] at hs
          cases hp : s.pc i <;> simp only [hp] at hs <;> (repeat' split at hs) <;> simp only [Option.some.injEq, Prod.mk.injEq, reduceCtorEq] at hs <;> obtain ⟨rfl, rfl⟩ := hs <;> first | (simp at hj; done) | skip
          rename_i hall _
          have h0 := hi.shape.joinz i hp
          subst h0
          intro t
          simp only [Verif.upd_apply]
          split
          · rfl
          · simp only [List.all_eq_true, List.mem_range, decide_eq_true_eq] at hall
            by_cases ht : t < c.n
            · rcases hall t ht with h | h
              · contradiction
              · exact h
            · exact hi.shape.out t (by omega)
        | pick i v => simp only [step] at hs; split at hs <;> simp only [Option.some.injEq, Prod.mk.injEq, reduceCtorEq] at hs; obtain ⟨_, rfl⟩ := hs; simp at hj
        | resume i => simp only [step] at hs; split at hs <;> simp only [Option.some.injEq, Prod.mk.injEq, reduceCtorEq] at hs; obtain ⟨_, rfl⟩ := hs; simp at hj
  refine ⟨h1, ?_, ?_, ?_, ?_⟩
  · have := hi.counts.cnt
    rw [hi.waits.zend 0 hn (h1 0), h1 0] at this
    simp [Pc.isIncr] at this
    exact List.length_eq_zero_iff.1 (by omega)
  · cases hm : s.mtx with
    | none => rfl
    | some t => have := (hi.locks.mtx t).1 hm; simp [h1, Pc.holdsM] at this
  · cases hm : s.splk with
    | none => rfl
    | some t => have := (hi.locks.splk t).1 hm; simp [h1, Pc.holdsS] at this
  · cases hm : s.waiters with
    | nil => rfl
    | cons t l => have := (hi.waits.wait t).1 (.inl (by simp [hm])); simp [h1, Pc.susp] at this

theorem left_all {c : Cfg} {s : State} {tr : List Obs} (hn : 0 < c.n) (h : Reach (step c) (init c) s tr) :
    (∀ t, t < c.n → s.pc t = .ended ∨ s.pc t = .join → .left t ∈ tr) ∧ (s.pc 0 = .ended → .joined ∈ tr) := by
  induction h with
  | refl => refine ⟨fun t ht h => ?_, fun h => by simp [init] at h⟩; by_cases h0 : t = 0 <;> simp [init, h0, ht] at h
  | @tail s s' tr o e h1 hs ih =>
    have hi := reach_inv hn h1
    have hj := hi.shape.joinz
    clear hi
    obtain ⟨i1, i2⟩ := ih
    cases e with
    | go i =>
      simp only [step] at hs
      cases hp : s.pc i <;> simp only [hp] at hs <;> (repeat' split at hs) <;> simp only [Option.some.injEq, Prod.mk.injEq, reduceCtorEq] at hs <;> obtain ⟨rfl, rfl⟩ := hs <;>
        simp only [List.append_nil, List.mem_append, List.mem_singleton] <;> grind [Verif.upd_apply]
    | pick i v =>
      simp only [step] at hs; split at hs <;> simp only [Option.some.injEq, Prod.mk.injEq, reduceCtorEq] at hs; obtain ⟨rfl, rfl⟩ := hs
      simp only [List.append_nil]; grind [Verif.upd_apply]
    | resume i =>
      simp only [step] at hs; split at hs <;> simp only [Option.some.injEq, Prod.mk.injEq, reduceCtorEq] at hs; obtain ⟨rfl, rfl⟩ := hs
      simp only [List.append_nil]; grind [Verif.upd_apply]

/-- The program comes to its end: however threads interleave, there are only so many steps; and as long as the main thread has not joined the others, some thread can make one. When none can, all workers have run to their ends and all threads have left. -/
theorem ends {c : Cfg} {s : State} {tr : List Obs} {es : List Event} (hn : 0 < c.n) (h : exec (step c) (init c) es = some (s, tr)) :
    es.length ≤ 10 * c.m + 33 * c.n + 1 + 2 * total c.m c.y ∧
      ((∀ e, step c s e = none) → .joined ∈ tr ∧ (∀ t, t < c.n → .left t ∈ tr) ∧ ∀ w, w < c.m → rounds w tr = c.y w + 1) := by
  refine ⟨?_, fun hs => ?_⟩
  · have := exec_length hn (inv_init hn) h
    rw [measure_init hn] at this
    omega
  · have hr := reach_of_exec h
    have hi := reach_inv hn hr
    have h1 := stuck_ended hi hs
    have h2 := left_all hn hr
    exact ⟨h2.2 (h1 0), fun t ht => h2.1 t ht (.inl (h1 t)), fun w hw => all_done hi (hi.waits.zend 0 hn (h1 0)) (by simp [h1, Pc.early]) hw⟩

/-! ## Examples -/

-- two threads and two workers, of which the first yields once; it goes on on the other thread; the last worker wakes both main fibers
def cfg2 : Cfg := { n := 2, m := 2, y := fun w => if w = 0 then 1 else 0 }

def run2 : List Event :=
  [.go 0, .go 0, .go 0, .go 0, .go 0, .go 0, .go 1, .go 0, .go 1] ++ [.go 0, .go 0, .go 0, .go 0, .go 0] ++ [.go 1, .go 1, .go 1, .go 1, .go 1] ++
  [.pick 0 0, .go 0, .pick 1 0, .pick 0 1, .go 0, .go 0, .go 0, .go 0, .go 0] ++ [.go 1, .go 1, .go 1, .go 1, .go 1, .go 1, .go 1] ++
  [.resume 0, .resume 1, .go 1, .go 1, .go 1, .go 0, .go 0, .go 0, .go 0]

example : ∃ s, exec (step cfg2) (init cfg2) run2 = some (s, [.ran 0 0, .ran 1 0, .ran 0 1, .left 1, .left 0, .joined]) ∧ ∀ t, t < 2 → s.pc t = .ended :=
  ⟨_, rfl, by decide⟩

-- no workers: nobody waits
example : ∃ s, exec (step { n := 1, m := 0, y := fun _ => 0 }) (init { n := 1, m := 0, y := fun _ => 0 }) [.go 0, .go 0, .go 0, .go 0, .go 0, .go 0, .go 0] = some (s, [.left 0, .joined]) := ⟨_, rfl⟩

end Verif.Props.WorkPool
