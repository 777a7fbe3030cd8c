import Verif.WorkPool

/-!
# Invariants of the pool of threads
-/

namespace Verif.WorkPool
open Verif

/-! ## Sums over threads -/

def tsum (n : Nat) (f : Pc → Nat) (pc : Nat → Pc) : Nat := ((List.range n).map fun t => f (pc t)).sum

theorem tsum_succ {n : Nat} {f : Pc → Nat} {pc : Nat → Pc} : tsum (n + 1) f pc = tsum n f pc + f (pc n) := by
  simp [tsum, List.range_succ]

theorem tsum_congr {n : Nat} {f : Pc → Nat} {pc pc' : Nat → Pc} (h : ∀ t, t < n → f (pc t) = f (pc' t)) : tsum n f pc = tsum n f pc' := by
  induction n with
  | zero => rfl
  | succ n ih => rw [tsum_succ, tsum_succ, ih (fun t ht => h t (by omega)), h n (by omega)]

theorem tsum_upd {n : Nat} {f : Pc → Nat} {pc : Nat → Pc} {t : Nat} {p : Pc} (ht : t < n) : tsum n f (Verif.upd pc t p) + f (pc t) = tsum n f pc + f p := by
  induction n with
  | zero => omega
  | succ n ih =>
    rw [tsum_succ, tsum_succ]
    by_cases h : t = n
    · subst h
      rw [tsum_congr (n := t) (f := f) (pc := Verif.upd pc t p) (pc' := pc) (fun i hi => by rw [Verif.upd_other _ _ (by omega)]), Verif.upd_same]
      omega
    · have := ih (by omega)
      rw [Verif.upd_other _ _ (fun h' => h h'.symm)]
      omega

theorem tsum_zero {n : Nat} {f : Pc → Nat} {pc : Nat → Pc} : tsum n f pc = 0 ↔ ∀ t, t < n → f (pc t) = 0 := by
  induction n with
  | zero => simp [tsum]
  | succ n ih =>
    rw [tsum_succ]
    constructor
    · intro h t ht
      by_cases h' : t = n
      · subst h'; omega
      · exact ih.1 (by omega) t (by omega)
    · intro h
      have := ih.2 (fun t ht => h t (by omega))
      have := h n (by omega)
      omega

theorem tsum_full {n : Nat} {f : Pc → Nat} {pc : Nat → Pc} (hf : ∀ p, f p ≤ 1) : tsum n f pc ≤ n ∧ (tsum n f pc = n ↔ ∀ t, t < n → f (pc t) = 1) := by
  induction n with
  | zero => simp [tsum]
  | succ n ih =>
    rw [tsum_succ]
    have h1 := hf (pc n)
    refine ⟨by omega, fun h t ht => ?_, fun h => ?_⟩
    · by_cases h' : t = n
      · subst h'; omega
      · exact ih.2.1 (by omega) t (by omega)
    · have := ih.2.2 (fun t ht => h t (by omega))
      have := h n (by omega)
      omega

/-! ## The invariant -/

def Pc.early : Pc → Bool
  | .launch _ | .incr _ => true
  | _ => false

def Pc.holdsM : Pc → Bool
  | .check | .wait1 | .wait2 | .dec _ | .unl _ _ | .leave => true
  | _ => false

def Pc.holdsS : Pc → Bool
  | .wait2 | .wait3 | .notify _ => true
  | _ => false

def Pc.runs : Pc → Option Nat
  | .work w | .decLock w | .dec w | .unl w _ | .notLock w | .notify w | .finish w => some w
  | _ => none

/-- A worker that has not been counted off. -/
def Pc.live : Pc → Nat
  | .work _ | .decLock _ | .dec _ => 1
  | _ => 0

def Pc.passed : Pc → Nat
  | .launch _ | .incr _ | .notStarted | .barrier => 0
  | _ => 1

/-- Its main fiber is suspended. -/
def Pc.susp : Pc → Bool
  | .idle | .work _ | .decLock _ | .dec _ | .unl _ _ | .notLock _ | .notify _ | .finish _ => true
  | _ => false

/-- About to wake all that wait. -/
def Pc.pend : Pc → Bool
  | .unl _ true | .notLock _ | .notify _ => true
  | _ => false

def Pc.zero : Pc → Bool
  | .unl _ true | .notLock _ | .notify _ | .relock | .leave | .join => true
  | _ => false

def Pc.isIncr : Pc → Nat
  | .incr _ => 1
  | _ => 0

/-- The workers that have been launched are those less than this. -/
def launched (m : Nat) : Pc → Nat
  | .launch i => i
  | .incr i => i + 1
  | _ => m

structure Shape (c : Cfg) (s : State) : Prop where
  out : ∀ t, c.n ≤ t → s.pc t = .ended
  early : (s.pc 0).early = true → ∀ t, 0 < t → t < c.n → s.pc t = .notStarted
  late : (s.pc 0).early = false → ∀ t, s.pc t ≠ .notStarted
  only0 : ∀ t, (s.pc t).early = true → t = 0
  bound : ∀ i, s.pc 0 = .launch i → i ≤ c.m
  bound' : ∀ i, s.pc 0 = .incr i → i < c.m
  joinz : ∀ t, s.pc t = .join → t = 0

structure Locks (s : State) : Prop where
  mtx : ∀ t, s.mtx = some t ↔ (s.pc t).holdsM = true
  splk : ∀ t, s.splk = some t ↔ (s.pc t).holdsS = true

structure Fibers (c : Cfg) (s : State) : Prop where
  nodup : s.ready.Nodup
  readyL : ∀ w, w ∈ s.ready → w < launched c.m (s.pc 0)
  apart : ∀ t w, (s.pc t).runs = some w → w ∉ s.ready
  one : ∀ t t' w, (s.pc t).runs = some w → (s.pc t').runs = some w → t = t'
  runL : ∀ t w, (s.pc t).runs = some w → w < c.m

structure Counts (c : Cfg) (s : State) : Prop where
  cnt : s.count + (s.pc 0).isIncr = s.ready.length + tsum c.n Pc.live s.pc
  arr : s.arrived = tsum c.n Pc.passed s.pc
  gone : ∀ t, t < c.n → s.pc t ≠ .inBarrier → (s.pc t).passed = 1 → s.arrived = c.n

/-- Someone is about to wake all that wait. -/
def pends (pc : Nat → Pc) : Prop := ∃ t, (pc t).pend = true

theorem pends_keep {pc : Nat → Pc} {t : Nat} {p : Pc} (h : pends pc) (ht : (pc t).pend = false ∨ p.pend = true) : pends (Verif.upd pc t p) := by
  obtain ⟨t', h'⟩ := h
  by_cases he : t' = t
  · subst he
    exact ⟨t', by rcases ht with ht | ht <;> simp_all⟩
  · exact ⟨t', by rw [Verif.upd_other _ _ he]; exact h'⟩

theorem pends_new {pc : Nat → Pc} {t : Nat} {p : Pc} (h : p.pend = true) : pends (Verif.upd pc t p) := ⟨t, by simpa using h⟩

structure Waits (c : Cfg) (s : State) : Prop where
  wait : ∀ t, (t ∈ s.waiters ∨ s.woken t = true) ↔ (s.pc t).susp = true
  excl : ∀ t, t ∈ s.waiters → s.woken t = false
  wok : ∀ t, s.woken t = true → s.count = 0
  nz : ∀ t, t ∈ s.waiters → 0 < s.count ∨ pends s.pc
  nzw : ∀ t, s.pc t = .wait1 ∨ s.pc t = .wait2 → 0 < s.count
  nz3 : ∀ t, s.pc t = .wait3 → 0 < s.count ∨ pends s.pc
  z : ∀ t, (s.pc t).zero = true → s.count = 0
  zend : ∀ t, t < c.n → s.pc t = .ended → s.count = 0

/-- Some thread runs worker `w`. -/
def working (w : Nat) (pc : Nat → Pc) : Prop := ∃ t, pc t = .work w

theorem working_keep {w : Nat} {pc : Nat → Pc} {t : Nat} {p : Pc} (h : working w pc) (ht : pc t ≠ .work w ∨ p = .work w) : working w (Verif.upd pc t p) := by
  obtain ⟨t', h'⟩ := h
  by_cases he : t' = t
  · subst he
    exact ⟨t', by rcases ht with ht | ht <;> simp_all⟩
  · exact ⟨t', by rw [Verif.upd_other _ _ he]; exact h'⟩

theorem working_new {w : Nat} {pc : Nat → Pc} {t : Nat} : working w (Verif.upd pc t (.work w)) := ⟨t, by simp⟩

theorem working_not {w : Nat} {pc : Nat → Pc} (h : ∀ t, pc t ≠ .work w) : ¬ working w pc := fun ⟨t, h'⟩ => h t h'

structure Rounds (c : Cfg) (s : State) (tr : List Obs) : Prop where
  rdy : ∀ w, w ∈ s.ready → rounds w tr + s.left w = c.y w
  run : ∀ t w, s.pc t = .work w → rounds w tr + s.left w = c.y w
  fin : ∀ w, w < launched c.m (s.pc 0) → rounds w tr = c.y w + 1 ∨ w ∈ s.ready ∨ working w s.pc
  new : ∀ w, launched c.m (s.pc 0) ≤ w → rounds w tr = 0 ∧ s.left w = c.y w

theorem rounds_append {w : Nat} {a b : List Obs} : rounds w (a ++ b) = rounds w a + rounds w b := by simp [rounds]

theorem rounds_nil {w : Nat} : rounds w [] = 0 := rfl

theorem rounds_ran {w w' t : Nat} : rounds w [.ran w' t] = if w' = w then 1 else 0 := by simp only [rounds, List.countP_cons, List.countP_nil]; simp

theorem rounds_left {w t : Nat} : rounds w [.left t] = 0 := by simp [rounds]

theorem rounds_joined {w : Nat} : rounds w [.joined] = 0 := by simp [rounds]

theorem shape_step {c : Cfg} {s s' : State} {o : List Obs} {e : Event} (hn : 0 < c.n) (h : Shape c s) (he : step c s e = some (s', o)) : Shape c s' := by
  obtain ⟨left, ready, count, mtx, splk, waiters, woken, arrived, pc⟩ := s
  obtain ⟨out, early, late, only0, bound, bound', joinz⟩ := h
  dsimp only at *
  cases e with
  | go t =>
    simp only [step] at he
    cases hpc : pc t <;> simp only [hpc] at he <;> (repeat' split at he) <;> simp only [Option.some.injEq, Prod.mk.injEq, reduceCtorEq] at he <;> obtain ⟨rfl, rfl⟩ := he
    all_goals constructor
    all_goals dsimp only
    all_goals first | assumption | grind [Verif.upd_apply, Pc.early]
  | pick t w =>
    simp only [step] at he
    split at he <;> simp only [Option.some.injEq, Prod.mk.injEq, reduceCtorEq] at he <;> obtain ⟨rfl, rfl⟩ := he
    all_goals constructor
    all_goals dsimp only
    all_goals first | assumption | grind [Verif.upd_apply, Pc.early]
  | resume t =>
    simp only [step] at he
    split at he <;> simp only [Option.some.injEq, Prod.mk.injEq, reduceCtorEq] at he <;> obtain ⟨rfl, rfl⟩ := he
    all_goals constructor
    all_goals dsimp only
    all_goals first | assumption | grind [Verif.upd_apply, Pc.early]

theorem locks_step {c : Cfg} {s s' : State} {o : List Obs} {e : Event} (hh : Shape c s) (h : Locks s) (he : step c s e = some (s', o)) : Locks s' := by
  obtain ⟨left, ready, count, mtx, splk, waiters, woken, arrived, pc⟩ := s
  obtain ⟨out, early, late, only0, bound, bound', joinz⟩ := hh
  obtain ⟨hm, hs⟩ := h
  clear bound bound' late
  dsimp only at *
  cases e with
  | go t =>
    simp only [step] at he
    cases hpc : pc t <;> simp only [hpc] at he <;> (repeat' split at he) <;> simp only [Option.some.injEq, Prod.mk.injEq, reduceCtorEq] at he <;> obtain ⟨rfl, rfl⟩ := he
    all_goals constructor
    all_goals dsimp only
    all_goals first | assumption | grind [Verif.upd_apply, Pc.early, Pc.holdsM, Pc.holdsS]
  | pick t w =>
    simp only [step] at he
    split at he <;> simp only [Option.some.injEq, Prod.mk.injEq, reduceCtorEq] at he <;> obtain ⟨rfl, rfl⟩ := he
    all_goals constructor
    all_goals dsimp only
    all_goals first | assumption | grind [Verif.upd_apply, Pc.holdsM, Pc.holdsS]
  | resume t =>
    simp only [step] at he
    split at he <;> simp only [Option.some.injEq, Prod.mk.injEq, reduceCtorEq] at he <;> obtain ⟨rfl, rfl⟩ := he
    all_goals constructor
    all_goals dsimp only
    all_goals first | assumption | grind [Verif.upd_apply, Pc.holdsM, Pc.holdsS]

theorem fibers_step {c : Cfg} {s s' : State} {o : List Obs} {e : Event} (hh : Shape c s) (h : Fibers c s) (he : step c s e = some (s', o)) : Fibers c s' := by
  obtain ⟨left, ready, count, mtx, splk, waiters, woken, arrived, pc⟩ := s
  obtain ⟨out, early, late, only0, bound, bound', joinz⟩ := hh
  obtain ⟨nodup, readyL, apart, one, runL⟩ := h
  dsimp only at *
  have hle : launched c.m (pc 0) ≤ c.m := by cases h0 : pc 0 <;> simp [launched] <;> grind
  have hlate : ∀ t, pc t ≠ .notStarted → pc t ≠ .ended → (pc t).early = false → launched c.m (pc 0) = c.m := by
    intro t h1 h2 h3
    have : (pc 0).early = false := by grind [Pc.early]
    cases h0 : pc 0 <;> simp [launched] <;> grind [Pc.early]
  cases e with
  | go t =>
    simp only [step] at he
    cases hpc : pc t <;> simp only [hpc] at he <;> (repeat' split at he) <;> simp only [Option.some.injEq, Prod.mk.injEq, reduceCtorEq] at he <;> obtain ⟨rfl, rfl⟩ := he
    all_goals constructor
    all_goals dsimp only
    all_goals first | assumption | grind [Verif.upd_apply, Pc.early, Pc.runs, launched, List.nodup_append, List.Nodup.erase, List.mem_of_mem_erase, List.Nodup.mem_erase_iff]
  | pick t w =>
    simp only [step] at he
    split at he <;> simp only [Option.some.injEq, Prod.mk.injEq, reduceCtorEq] at he <;> obtain ⟨rfl, rfl⟩ := he
    all_goals constructor
    all_goals dsimp only
    all_goals first | assumption | grind [Verif.upd_apply, Pc.early, Pc.runs, launched, List.nodup_append, List.Nodup.erase, List.mem_of_mem_erase, List.Nodup.mem_erase_iff]
  | resume t =>
    simp only [step] at he
    split at he <;> simp only [Option.some.injEq, Prod.mk.injEq, reduceCtorEq] at he <;> obtain ⟨rfl, rfl⟩ := he
    all_goals constructor
    all_goals dsimp only
    all_goals first | assumption | grind [Verif.upd_apply, Pc.early, Pc.runs, launched, List.nodup_append, List.Nodup.erase, List.mem_of_mem_erase, List.Nodup.mem_erase_iff]

set_option maxHeartbeats 2000000 in
theorem waits_step {c : Cfg} {s s' : State} {o : List Obs} {e : Event} (hh : Shape c s) (hk : Locks s) (h : Waits c s) (he : step c s e = some (s', o)) : Waits c s' := by
  obtain ⟨left, ready, count, mtx, splk, waiters, woken, arrived, pc⟩ := s
  obtain ⟨out, early, late, only0, bound, bound', joinz⟩ := hh
  obtain ⟨hm, hsp⟩ := hk
  obtain ⟨wait, excl, wok, nz, nzw, nz3, z, zend⟩ := h
  clear bound bound'
  dsimp only at *
  cases e with
  | go t =>
    simp only [step] at he
    cases hpc : pc t <;> simp only [hpc] at he <;> (repeat' split at he) <;> simp only [Option.some.injEq, Prod.mk.injEq, reduceCtorEq] at he <;> obtain ⟨rfl, rfl⟩ := he
    all_goals constructor
    all_goals dsimp only
    all_goals first | assumption | grind [Verif.upd_apply, Pc.early, Pc.holdsM, Pc.holdsS, Pc.susp, Pc.pend, Pc.zero, pends_keep, pends_new]
  | pick t w =>
    simp only [step] at he
    split at he <;> simp only [Option.some.injEq, Prod.mk.injEq, reduceCtorEq] at he <;> obtain ⟨rfl, rfl⟩ := he
    all_goals constructor
    all_goals dsimp only
    all_goals first | assumption | grind [Verif.upd_apply, Pc.early, Pc.holdsM, Pc.holdsS, Pc.susp, Pc.pend, Pc.zero, pends_keep, pends_new]
  | resume t =>
    simp only [step] at he
    split at he <;> simp only [Option.some.injEq, Prod.mk.injEq, reduceCtorEq] at he <;> obtain ⟨rfl, rfl⟩ := he
    all_goals constructor
    all_goals dsimp only
    all_goals first | assumption | grind [Verif.upd_apply, Pc.early, Pc.holdsM, Pc.holdsS, Pc.susp, Pc.pend, Pc.zero, pends_keep, pends_new]

set_option maxHeartbeats 1000000 in
theorem rounds_step {c : Cfg} {s s' : State} {tr o : List Obs} {e : Event} (hh : Shape c s) (hf : Fibers c s) (h : Rounds c s tr) (he : step c s e = some (s', o)) : Rounds c s' (tr ++ o) := by
  obtain ⟨left, ready, count, mtx, splk, waiters, woken, arrived, pc⟩ := s
  obtain ⟨out, early, late, only0, bound, bound', joinz⟩ := hh
  obtain ⟨nodup, readyL, apart, one, runL⟩ := hf
  obtain ⟨rdy, run, fin, new⟩ := h
  dsimp only at *
  have hnot : ∀ w, (pc 0).early = true → ¬ working w pc := by
    intro w h1
    apply working_not
    intro t h2
    grind [Pc.early]
  have hlate : ∀ t, pc t ≠ .notStarted → pc t ≠ .ended → (pc t).early = false → launched c.m (pc 0) = c.m := by
    intro t h1 h2 h3
    have : (pc 0).early = false := by grind [Pc.early]
    cases h0 : pc 0 <;> simp [launched] <;> grind [Pc.early]
  cases e with
  | go t =>
    simp only [step] at he
    cases hpc : pc t <;> simp only [hpc] at he <;> (repeat' split at he) <;> simp only [Option.some.injEq, Prod.mk.injEq, reduceCtorEq] at he <;> obtain ⟨rfl, rfl⟩ := he
    all_goals clear bound'
    all_goals constructor
    all_goals dsimp only
    all_goals first | assumption | grind [Verif.upd_apply, Pc.early, Pc.runs, launched, List.mem_of_mem_erase, List.Nodup.mem_erase_iff, rounds_append, rounds_nil, rounds_ran, rounds_left, rounds_joined, working_keep, working_new]
  | pick t w =>
    simp only [step] at he
    split at he <;> simp only [Option.some.injEq, Prod.mk.injEq, reduceCtorEq] at he <;> obtain ⟨rfl, rfl⟩ := he
    all_goals clear bound'
    all_goals constructor
    all_goals dsimp only
    all_goals first | assumption | grind [Verif.upd_apply, Pc.early, Pc.runs, launched, List.mem_of_mem_erase, List.Nodup.mem_erase_iff, rounds_append, rounds_nil, rounds_ran, rounds_left, rounds_joined, working_keep, working_new]
  | resume t =>
    simp only [step] at he
    split at he <;> simp only [Option.some.injEq, Prod.mk.injEq, reduceCtorEq] at he <;> obtain ⟨rfl, rfl⟩ := he
    all_goals clear bound'
    all_goals constructor
    all_goals dsimp only
    all_goals first | assumption | grind [Verif.upd_apply, Pc.early, Pc.runs, launched, List.mem_of_mem_erase, List.Nodup.mem_erase_iff, rounds_append, rounds_nil, rounds_ran, rounds_left, rounds_joined, working_keep, working_new]

theorem counts_step {c : Cfg} {s s' : State} {o : List Obs} {e : Event} (hh : Shape c s) (h : Counts c s) (he : step c s e = some (s', o)) : Counts c s' := by
  obtain ⟨left, ready, count, mtx, splk, waiters, woken, arrived, pc⟩ := s
  obtain ⟨out, early, late, only0, bound, bound', joinz⟩ := hh
  obtain ⟨cnt, arr, gone⟩ := h
  clear bound bound'
  dsimp only at *
  have hl : ∀ {t p}, pc t ≠ .ended → tsum c.n Pc.live (Verif.upd pc t p) + (pc t).live = tsum c.n Pc.live pc + p.live := fun h' => tsum_upd (Nat.lt_of_not_le fun hc => h' (out _ hc))
  have hp : ∀ {t p}, pc t ≠ .ended → tsum c.n Pc.passed (Verif.upd pc t p) + (pc t).passed = tsum c.n Pc.passed pc + p.passed := fun h' => tsum_upd (Nat.lt_of_not_le fun hc => h' (out _ hc))
  have hfp := (tsum_full (n := c.n) (f := Pc.passed) (pc := pc) (fun p => by cases p <;> simp [Pc.passed]))
  cases e with
  | go t =>
    simp only [step] at he
    cases hpc : pc t <;> simp only [hpc] at he <;> (repeat' split at he) <;> simp only [Option.some.injEq, Prod.mk.injEq, reduceCtorEq] at he <;> obtain ⟨rfl, rfl⟩ := he
    case launch.isFalse i _ =>
      have h0 := only0 t (by simp [hpc, Pc.early])
      subst h0
      have h1 := early (by simp [hpc, Pc.early])
      have h2 : ∀ t, t < c.n → (pc t).live = 0 ∧ (pc t).passed = 0 := by
        intro t ht
        by_cases h0 : t = 0
        · subst h0; simp [hpc, Pc.live, Pc.passed]
        · simp [h1 t (by omega) ht, Pc.live, Pc.passed]
      have e1 : tsum c.n Pc.live pc = 0 := tsum_zero.2 fun t ht => (h2 t ht).1
      have e2 : tsum c.n Pc.passed pc = 0 := tsum_zero.2 fun t ht => (h2 t ht).2
      have e3 : tsum c.n Pc.live (fun t => if t < c.n then .barrier else .ended) = 0 := tsum_zero.2 fun t ht => by simp [ht, Pc.live]
      have e4 : tsum c.n Pc.passed (fun t => if t < c.n then .barrier else .ended) = 0 := tsum_zero.2 fun t ht => by simp [ht, Pc.passed]
      refine ⟨?_, by dsimp only; rw [e4, arr, e2], ?_⟩
      · dsimp only; rw [e3]; rw [e1] at cnt
        simp [hpc, Pc.isIncr] at cnt
        by_cases hn : 0 < c.n <;> simp [hn, Pc.isIncr, cnt]
      · dsimp only; intro t ht h1 h2; simp [ht, Pc.passed] at h2
    case dec w =>
      have h1 := hl (t := t) (p := .unl w (decide (count - 1 = 0))) (by simp [hpc])
      have h2 := hp (t := t) (p := .unl w (decide (count - 1 = 0))) (by simp [hpc])
      have h3 : (pc 0).early = false := by
        cases h : (pc 0).early with
        | false => rfl
        | true =>
          have h0 : t ≠ 0 := by intro h0; subst h0; simp [hpc, Pc.early] at h
          by_cases hn : t < c.n
          · have := early h t (by omega) hn; simp [hpc] at this
          · have := out t (by omega); simp [hpc] at this
      have h4 : ∀ p : Pc, p.early = false → p.isIncr = 0 := by intro p; cases p <;> simp [Pc.early, Pc.isIncr]
      have h5 := h4 _ h3
      have h6 : (Verif.upd pc t (.unl w (decide (count - 1 = 0))) 0).isIncr = 0 := by
        simp only [Verif.upd_apply]; split
        · rfl
        · exact h5
      simp only [hpc, Pc.live, Pc.passed] at h1 h2
      refine ⟨by dsimp only; omega, by dsimp only; omega, ?_⟩
      dsimp only
      grind [Verif.upd_apply, Pc.passed]
    all_goals constructor
    all_goals dsimp only
    all_goals first
      | (have := hl (t := t) (p := Pc.launch 0); grind [Verif.upd_apply, Pc.early, Pc.live, Pc.passed, Pc.isIncr])
  | pick t w =>
    simp only [step] at he
    split at he <;> simp only [Option.some.injEq, Prod.mk.injEq, reduceCtorEq] at he <;> obtain ⟨rfl, rfl⟩ := he
    rename_i hg
    have := List.length_erase_of_mem hg.2
    have := List.length_pos_of_mem hg.2
    constructor
    all_goals dsimp only
    all_goals grind [Verif.upd_apply, Pc.early, Pc.live, Pc.passed, Pc.isIncr]
  | resume t =>
    simp only [step] at he
    split at he <;> simp only [Option.some.injEq, Prod.mk.injEq, reduceCtorEq] at he <;> obtain ⟨rfl, rfl⟩ := he
    constructor
    all_goals dsimp only
    all_goals grind [Verif.upd_apply, Pc.early, Pc.live, Pc.passed, Pc.isIncr]

structure Inv (c : Cfg) (s : State) (tr : List Obs) : Prop where
  shape : Shape c s
  locks : Locks s
  fibers : Fibers c s
  counts : Counts c s
  waits : Waits c s
  rounds : Rounds c s tr

theorem step_inv {c : Cfg} {s s' : State} {tr o : List Obs} {e : Event} (hn : 0 < c.n) (h : Inv c s tr) (he : step c s e = some (s', o)) : Inv c s' (tr ++ o) :=
  ⟨shape_step hn h.shape he, locks_step h.shape h.locks he, fibers_step h.shape h.fibers he, counts_step h.shape h.counts he, waits_step h.shape h.locks h.waits he, rounds_step h.shape h.fibers h.rounds he⟩

theorem inv_init {c : Cfg} (hn : 0 < c.n) : Inv c (init c) [] := by
  have h2 : ∀ t, t < c.n → ((init c).pc t).live = 0 ∧ ((init c).pc t).passed = 0 := by
    intro t ht
    by_cases h0 : t = 0 <;> simp [init, h0, ht, Pc.live, Pc.passed]
  have e1 : tsum c.n Pc.live (init c).pc = 0 := tsum_zero.2 fun t ht => (h2 t ht).1
  have e2 : tsum c.n Pc.passed (init c).pc = 0 := tsum_zero.2 fun t ht => (h2 t ht).2
  refine ⟨?_, ?_, ?_, ⟨?_, ?_, ?_⟩, ?_, ?_⟩
  · constructor <;> simp only [init] <;> grind [Pc.early]
  · constructor <;> simp only [init] <;> grind [Pc.holdsM, Pc.holdsS]
  · constructor <;> simp only [init] <;> grind [Pc.runs]
  · rw [e1]; simp [init, Pc.isIncr]
  · rw [e2]; rfl
  · intro t ht h1 h3; have := (h2 t ht).2; omega
  · constructor <;> simp only [init] <;> grind [Pc.susp, Pc.zero]
  · constructor <;> simp only [init] <;> grind [launched, rounds_nil]

theorem reach_inv {c : Cfg} {s : State} {tr : List Obs} (hn : 0 < c.n) (h : Reach (step c) (init c) s tr) : Inv c s tr := by
  induction h with
  | refl => exact inv_init hn
  | tail e _ hs ih => exact step_inv hn ih hs

end Verif.WorkPool
