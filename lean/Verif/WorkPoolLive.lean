import Verif.WorkPoolInv

/-!
# The pool of threads: all threads end
-/

namespace Verif.WorkPool
open Verif

/-- A run can end only with the program. -/
theorem stuck_ended {c : Cfg} {s : State} {tr : List Obs} (h : Inv c s tr) (hs : ∀ e, step c s e = none) : ∀ t, s.pc t = .ended := by
  obtain ⟨left, ready, count, mtx, splk, waiters, woken, arrived, pc⟩ := s
  obtain ⟨⟨out, early, late, only0, bound, bound', joinz⟩, ⟨hm, hsp⟩, ⟨nodup, readyL, apart, one, runL⟩, ⟨cnt, arr, gone⟩, ⟨wait, excl, wok, nz, nzw, nz3, z, zend⟩, -⟩ := h
  dsimp only at *
  have hgo := fun t => hs (.go t)
  have hpick := fun t w => hs (.pick t w)
  have hres := fun t => hs (.resume t)
  clear hs
  simp only [step] at hgo hpick hres
  -- nobody has the spinlock
  have h1 : splk = none := by
    cases hh : splk with
    | none => rfl
    | some t =>
      have := (hsp t).1 hh
      have hg := hgo t
      cases hp : pc t <;> simp [hp, Pc.holdsS] at this hg
  have h2 : mtx = none := by
    cases hh : mtx with
    | none => rfl
    | some t =>
      have := (hm t).1 hh
      have hg := hgo t
      cases hp : pc t <;> simp [hp, Pc.holdsM, h1] at this hg
      · split at hg <;> simp at hg
  have h3 : ∀ t, pc t = .inBarrier ∨ pc t = .idle ∨ pc t = .join ∨ pc t = .ended ∨ pc t = .notStarted := by
    intro t
    have hg := hgo t
    cases hp : pc t <;> simp only [hp, h1, h2] at hg <;> first | (simp; done) | (simp at hg; done) | (split at hg <;> simp at hg)
  have h4 : ∀ t, pc t ≠ .notStarted := late (by rcases h3 0 with h | h | h | h | h <;> simp [h, Pc.early])
  have h5 : ∀ t, pc t ≠ .inBarrier := by
    intro t ht
    have hg := hgo t
    have : arrived = c.n := by
      rw [arr]
      refine ((tsum_full fun p => by cases p <;> simp [Pc.passed]).2).2 fun i _ => ?_
      rcases h3 i with h | h | h | h | h <;> first | (exact absurd h (h4 i)) | simp [h, Pc.passed]
    simp [ht, this] at hg
  have h6 : ∀ t, pc t ≠ .idle := by
    intro t ht
    have hw : woken t = false := by
      have := hres t
      cases hh : woken t <;> simp [ht, hh] at this
      rfl
    have hr : ready = [] := by
      cases hh : ready with
      | nil => rfl
      | cons w l => have := hpick t w; simp [ht, hh] at this
    have hq : t ∈ waiters := by
      have := (wait t).2 (by simp [ht, Pc.susp])
      simpa [hw] using this
    have hl : tsum c.n Pc.live pc = 0 := tsum_zero.2 fun i _ => by rcases h3 i with h | h | h | h | h <;> simp [h, Pc.live]
    rcases nz t hq with h | ⟨i, h⟩
    · simp [hr, hl] at cnt; omega
    · rcases h3 i with h' | h' | h' | h' | h' <;> simp [h', Pc.pend] at h
  have h7 : ∀ t, pc t ≠ .join := by
    intro t ht
    have hg := hgo t
    simp only [ht] at hg
    split at hg
    · simp at hg
    · rename_i hc
      apply hc
      simp only [List.all_eq_true, List.mem_range, decide_eq_true_eq]
      intro i hi
      rcases h3 i with h | h | h | h | h
      · exact absurd h (h5 i)
      · exact absurd h (h6 i)
      · exact .inl (joinz i h)
      · exact .inr h
      · exact absurd h (h4 i)
  intro t
  rcases h3 t with h | h | h | h | h
  · exact absurd h (h5 t)
  · exact absurd h (h6 t)
  · exact absurd h (h7 t)
  · exact h
  · exact absurd h (h4 t)

/-! ## How many steps there are -/

def rank (c : Cfg) (count : Nat) : Pc → Nat
  | .launch i => 10 * (c.m - i) + 34
  | .incr i => 10 * (c.m - i) + 25
  | .notStarted | .barrier => 33
  | .inBarrier => 32
  | .lock => 30
  | .check => if count = 0 then 5 else 29
  | .wait1 => 28
  | .wait2 => 27
  | .wait3 => 26
  | .idle => 20
  | .work _ => 27
  | .decLock _ => 26
  | .dec _ => 25
  | .unl _ _ => 24
  | .notLock _ => 23
  | .notify _ => 22
  | .finish _ => 21
  | .relock => 19
  | .leave => 4
  | .join => 3
  | .ended => 0

def total (m : Nat) (f : Nat → Nat) : Nat := ((List.range m).map f).sum

theorem total_upd {m : Nat} {f : Nat → Nat} {w v : Nat} (hw : w < m) : total m (Verif.upd f w v) + f w = total m f + v := by
  have hs : ∀ {m : Nat} {f : Nat → Nat}, total (m + 1) f = total m f + f m := by intro m f; simp [total, List.range_succ]
  induction m with
  | zero => omega
  | succ m ih =>
    rw [hs, hs]
    by_cases h : w = m
    · subst h
      have : total w (Verif.upd f w v) = total w f := by
        unfold total
        congr 1
        apply List.map_congr_left
        intro i hi
        rw [Verif.upd_other]
        have := List.mem_range.1 hi
        omega
      rw [this, Verif.upd_same]; omega
    · have := ih (by omega)
      rw [Verif.upd_other _ _ (fun h' => h h'.symm)]
      omega

def measure (c : Cfg) (s : State) : Nat := tsum c.n (rank c s.count) s.pc + 8 * s.ready.length + 2 * total c.m s.left

theorem tsum_mono {n : Nat} {f g : Pc → Nat} {pc : Nat → Pc} (h : ∀ t, t < n → f (pc t) ≤ g (pc t)) : tsum n f pc ≤ tsum n g pc := by
  induction n with
  | zero => simp [tsum]
  | succ n ih =>
    rw [tsum_succ, tsum_succ]
    have := ih fun t ht => h t (by omega)
    have := h n (by omega)
    omega

theorem tsum_const {n k : Nat} {f : Pc → Nat} {pc : Nat → Pc} (h : ∀ t, t < n → f (pc t) = k) : tsum n f pc = n * k := by
  induction n with
  | zero => simp [tsum]
  | succ n ih => rw [tsum_succ, ih fun t ht => h t (by omega), h n (by omega), Nat.add_mul]; omega

theorem measure_step {c : Cfg} {s s' : State} {tr o : List Obs} {e : Event} (h : Inv c s tr) (he : step c s e = some (s', o)) : measure c s' < measure c s := by
  obtain ⟨left, ready, count, mtx, splk, waiters, woken, arrived, pc⟩ := s
  obtain ⟨⟨out, early, late, only0, bound, bound', joinz⟩, ⟨hm, hsp⟩, ⟨nodup, readyL, apart, one, runL⟩, ⟨cnt, arr, gone⟩, ⟨wait, excl, wok, nz, nzw, nz3, z, zend⟩, -⟩ := h
  dsimp only at *
  have htn : ∀ {t}, pc t ≠ .ended → t < c.n := fun h' => Nat.lt_of_not_le fun hc => h' (out _ hc)
  have hr : ∀ {t p}, pc t ≠ .ended → tsum c.n (rank c count) (Verif.upd pc t p) + rank c count (pc t) = tsum c.n (rank c count) pc + rank c count p := fun h' => tsum_upd (htn h')
  cases e with
  | go t =>
    simp only [step] at he
    have hr := fun p => @hr t p
    cases hpc : pc t <;> simp only [hpc] at he <;> (repeat' split at he) <;> simp only [Option.some.injEq, Prod.mk.injEq, reduceCtorEq] at he <;> obtain ⟨rfl, rfl⟩ := he <;>
      simp only [measure, List.length_append, List.length_cons, List.length_nil]
    case launch.isTrue i hi =>
      have := hr (.incr i) (by simp [hpc])
      simp only [hpc, rank] at this
      omega
    case launch.isFalse i hi =>
      have h0 := only0 t (by simp [hpc, Pc.early])
      subst h0
      have hn := htn (t := 0) (by simp [hpc])
      have h1 : tsum c.n (rank c count) (fun t => if t < c.n then .barrier else .ended) = c.n * 33 := tsum_const fun t ht => by simp [ht, rank]
      have h2 : tsum c.n (rank c count) (Verif.upd pc 0 .barrier) = c.n * 33 := tsum_const fun t ht => by
        by_cases h0 : t = 0
        · subst h0; simp [rank]
        · rw [Verif.upd_other _ _ h0, early (by simp [hpc, Pc.early]) t (by omega) ht]; rfl
      have := hr .barrier (by simp [hpc])
      simp only [hpc, rank] at this
      omega
    case incr i =>
      have h0 := only0 t (by simp [hpc, Pc.early])
      subst h0
      have h1 : tsum c.n (rank c (count + 1)) (Verif.upd pc 0 (.launch (i + 1))) = tsum c.n (rank c count) (Verif.upd pc 0 (.launch (i + 1))) := by
        unfold tsum
        congr 1
        apply List.map_congr_left
        intro t ht
        have ht := List.mem_range.1 ht
        by_cases h0 : t = 0
        · subst h0; simp [rank]
        · rw [Verif.upd_other _ _ h0, early (by simp [hpc, Pc.early]) t (by omega) ht]; rfl
      have := hr (.launch (i + 1)) (by simp [hpc])
      have := bound' i hpc
      simp only [hpc, rank] at *
      omega
    case dec w =>
      have h1 : tsum c.n (rank c (count - 1)) (Verif.upd pc t (.unl w (decide (count - 1 = 0)))) ≤ tsum c.n (rank c count) (Verif.upd pc t (.unl w (decide (count - 1 = 0)))) := by
        apply tsum_mono
        intro i _
        generalize Verif.upd pc t (.unl w (decide (count - 1 = 0))) i = p
        cases p <;> simp only [rank] <;> first | omega | (split <;> split <;> omega)
      have := hr (.unl w (decide (count - 1 = 0))) (by simp [hpc])
      simp only [hpc, rank] at this
      omega
    case work.isFalse w hw =>
      have h1 := total_upd (f := left) (v := left w - 1) (runL t w (by simp [hpc, Pc.runs]))
      have := hr .idle (by simp [hpc])
      simp only [hpc, rank] at this
      omega
    case relock.isTrue hx =>
      have h0 := z t (by simp [hpc, Pc.zero])
      have := hr .check (by simp [hpc])
      simp only [hpc, rank, h0, if_true] at this
      simp only [h0] at this ⊢
      omega
    case check.isTrue h0 =>
      have := hr .leave (by simp [hpc])
      simp only [hpc, rank, if_pos h0] at this
      omega
    case check.isFalse h0 =>
      have := hr .wait1 (by simp [hpc])
      simp only [hpc, rank, if_neg h0] at this
      omega
    case lock.isTrue hx =>
      have := hr .check (by simp [hpc])
      simp only [hpc, rank] at this
      split at this <;> omega
    all_goals
      first
        | (have := hr .inBarrier (by simp [hpc]); simp only [hpc, rank] at this; omega)
        | (have := hr .lock (by simp [hpc]); simp only [hpc, rank] at this; omega)
        | (have := hr .wait2 (by simp [hpc]); simp only [hpc, rank] at this; omega)
        | (have := hr .wait3 (by simp [hpc]); simp only [hpc, rank] at this; omega)
        | (have := hr .idle (by simp [hpc]); simp only [hpc, rank] at this; omega)
        | (have := hr .join (by simp [hpc]); simp only [hpc, rank] at this; omega)
        | (have := hr .ended (by simp [hpc]); simp only [hpc, rank] at this; omega)
        | (rename_i w _; have := hr (.decLock w) (by simp [hpc]); simp only [hpc, rank] at this; omega)
        | (rename_i w _; have := hr (.dec w) (by simp [hpc]); simp only [hpc, rank] at this; omega)
        | (rename_i w _; have := hr (.notify w) (by simp [hpc]); simp only [hpc, rank] at this; omega)
        | (rename_i w _ _; have := hr (.notLock w) (by simp [hpc]); simp only [hpc, rank] at this; omega)
        | (rename_i w _ _; have := hr (.finish w) (by simp [hpc]); simp only [hpc, rank] at this; omega)
        | (rename_i w; have := hr (.finish w) (by simp [hpc]); simp only [hpc, rank] at this; omega)
  | pick t w =>
    simp only [step] at he
    split at he <;> simp only [Option.some.injEq, Prod.mk.injEq, reduceCtorEq] at he
    obtain ⟨rfl, rfl⟩ := he
    rename_i hg
    have h1 := List.length_erase_of_mem hg.2
    have h2 := List.length_pos_of_mem hg.2
    have := @hr t (.work w) (by simp [hg.1])
    simp only [hg.1, rank] at this
    simp only [measure]
    omega
  | resume t =>
    simp only [step] at he
    split at he <;> simp only [Option.some.injEq, Prod.mk.injEq, reduceCtorEq] at he
    obtain ⟨rfl, rfl⟩ := he
    rename_i hg
    have := @hr t .relock (by simp [hg.1])
    simp only [hg.1, rank] at this
    simp only [measure]
    omega

theorem measure_init {c : Cfg} (hn : 0 < c.n) : measure c (init c) = 10 * c.m + 33 * c.n + 1 + 2 * total c.m c.y := by
  have h2 : tsum c.n (rank c 0) (Verif.upd (init c).pc 0 .barrier) = c.n * 33 := tsum_const fun t ht => by
    by_cases h0 : t = 0
    · subst h0; simp [rank]
    · rw [Verif.upd_other _ _ h0]; simp [init, h0, ht, rank]
  have := tsum_upd (f := rank c 0) (pc := (init c).pc) (p := .barrier) hn
  have h3 : (init c).pc 0 = .launch 0 := rfl
  simp only [h3, rank] at this
  have h4 : (init c).count = 0 := rfl
  have h5 : (init c).ready = [] := rfl
  have h6 : (init c).left = c.y := rfl
  simp only [measure, h4, h5, h6, List.length_nil]
  omega

theorem exec_length {c : Cfg} (hn : 0 < c.n) : ∀ {es : List Event} {s s' : State} {tr o : List Obs}, Inv c s tr → exec (step c) s es = some (s', o) → es.length + measure c s' ≤ measure c s := by
  intro es
  induction es with
  | nil =>
    intro s s' tr o hi he
    simp only [exec, Option.some.injEq, Prod.mk.injEq] at he
    obtain ⟨rfl, rfl⟩ := he
    simp
  | cons e es ih =>
    intro s s' tr o hi he
    simp only [exec] at he
    split at he
    · cases he
    · rename_i s1 o1 h1
      split at he
      · cases he
      · rename_i s2 o2 h2
        simp only [Option.some.injEq, Prod.mk.injEq] at he
        obtain ⟨rfl, rfl⟩ := he
        have a := measure_step hi h1
        have b := ih (step_inv hn hi h1) h2
        simp only [List.length_cons]
        omega

end Verif.WorkPool
