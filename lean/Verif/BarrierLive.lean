import Verif.Fair
import Verif.Props.Barrier

/-!
# Fair infinite executions of the barrier

The machine is `Verif.Barrier` (`src/barrier.cpp:30-44`). The fibers of a list `L` use a barrier for `n`.
-/

namespace Verif.Barrier

/-- Number of calls that have returned. -/
def retsOf (f : Fid) (tr : List Obs) : Nat := tr.countP fun o => decide (o = .ret f true) || decide (o = .ret f false)

/-- 1 if the fiber has been counted in batch `cyc` and is still in `wait()`. -/
def inB (cyc : Nat) (p : Pc) : Nat := if cycOf p = some cyc then 1 else 0

def pending : Pc → Nat
  | .locking | .body => 1
  | _ => 0

def busyPc : Pc → Nat
  | .idle => 0
  | _ => 1

/-- The fibers of `L` and nobody else use the barrier. -/
structure J (n : Nat) (L : List Fid) (s : State) (tr : List Obs) : Prop where
  out : ∀ f, f ∉ L → s.pc f = .idle
  cyc : ∀ f c, cycOf (s.pc f) = some c → c ≤ s.cycle
  tot : lsum L (fun f => countedOf f tr) + s.current = n * (s.cycle + 1)
  cur : s.current + lsum L (fun f => inB s.cycle (s.pc f)) = n
  pos : 0 < s.current
  calls : ∀ f, callsOf f tr = countedOf f tr + pending (s.pc f)
  rets : ∀ f, callsOf f tr = retsOf f tr + busyPc (s.pc f)

theorem lsum_zero {L : List Nat} {f : Nat → Nat} (h : ∀ x, f x = 0) : lsum L f = 0 := by
  induction L with
  | nil => rfl
  | cons x L ih => simp [h, ih]

theorem countedOf_append (f : Fid) (t t' : List Obs) : countedOf f (t ++ t') = countedOf f t + countedOf f t' := by
  simp [countedOf]

theorem J_init {n : Nat} {L : List Fid} (hn : 0 < n) : J n L (init n) [] := by
  constructor <;> simp [init, cycOf, pending, busyPc, callsOf, countedOf, retsOf, hn]
  · exact lsum_zero (fun _ => rfl)
  · exact lsum_zero (fun _ => rfl)

theorem J_step {n : Nat} {L : List Fid} (hL : L.Nodup) (hn : 0 < n) {s s' : State} {tr o : List Obs} {e : Event} (h : J n L s tr)
    (hs : step n s e = some (s', o)) (hc : ∀ f, Obs.called f ∈ o → f ∈ L) : J n L s' (tr ++ o) := by
  obtain ⟨out, cyc, tot, cur, pos, calls, rets⟩ := h
  -- a step that leaves the batch and its members alone
  have quiet : ∀ (f : Fid) (p : Pc) (m : Option Fid) (q : List Waker) (c : Ctxs) (o : List Obs), (f ∈ L ∨ p = .idle) →
      cycOf p = cycOf (s.pc f) ∨ (∀ c, cycOf p ≠ some c) ∧ (∀ c, cycOf (s.pc f) = some c → c ≠ s.cycle) →
      (∀ g, countedOf g o = 0) → (∀ g, callsOf g o + pending (s.pc g) = pending (upd s.pc f p g)) →
      (∀ g, callsOf g o + busyPc (s.pc g) = retsOf g o + busyPc (upd s.pc f p g)) →
      J n L { s with mtx := m, q := q, c := c, pc := upd s.pc f p } (tr ++ o) := by
    intro f p m q c o hf hp h1 h2 h3
    have hin : ∀ g, inB s.cycle (upd s.pc f p g) = inB s.cycle (s.pc g) := by
      intro g
      simp only [upd_apply]
      split
      · subst_vars
        rcases hp with hp | ⟨hp1, hp2⟩
        · simp [inB, hp]
        · have := hp1 s.cycle
          simp only [inB, this, if_false]
          split
          · rename_i hh; exact absurd rfl (hp2 _ hh)
          · rfl
      · rfl
    refine ⟨?_, ?_, ?_, ?_, pos, ?_, ?_⟩
    · intro g hg
      simp only [upd_apply]
      split
      · subst_vars
        rcases hf with hf | hf
        · exact absurd hf hg
        · exact hf
      · exact out g hg
    · intro g c hg
      simp only [upd_apply] at hg
      split at hg
      · rcases hp with hp | ⟨hp, _⟩
        · rw [hp] at hg; exact cyc f c hg
        · exact absurd hg (hp c)
      · exact cyc g c hg
    · simpa only [countedOf_append, h1, Nat.add_zero] using tot
    · simpa only [hin] using cur
    · intro g
      have := calls g; have := h1 g; have := h2 g
      simp only [countedOf, callsOf, List.countP_append] at *
      omega
    · intro g
      have := rets g; have := h3 g
      simp only [retsOf, callsOf, List.countP_append] at *
      omega
  cases e with
  | call f =>
    simp only [step] at hs
    split at hs <;> simp only [Option.some.injEq, Prod.mk.injEq, reduceCtorEq] at hs
    rename_i hp
    obtain ⟨rfl, rfl⟩ := hs
    refine quiet f .locking s.mtx s.q s.c [.called f] (.inl (hc f (by simp))) (.inl (by simp [hp, cycOf])) (by simp [countedOf]) ?_ ?_
    · intro g; simp only [upd_apply]; split
      · subst_vars; simp [hp, pending, callsOf]
      · rename_i hg; simp [callsOf, Ne.symm hg]
    · intro g; simp only [upd_apply]; split
      · subst_vars; simp [hp, busyPc, callsOf, retsOf]
      · rename_i hg; simp [callsOf, retsOf, Ne.symm hg]
  | elsewhere f k =>
    simp only [step] at hs
    split at hs <;> simp only [Option.some.injEq, Prod.mk.injEq, reduceCtorEq] at hs
    obtain ⟨rfl, rfl⟩ := hs
    simp only [List.append_nil]
    exact ⟨out, cyc, tot, cur, pos, calls, rets⟩
  | run f =>
    have hfL : s.pc f ≠ .idle → f ∈ L := fun hp => Classical.byContradiction fun hn => hp (out f hn)
    simp only [step, run] at hs
    split at hs
    · cases hs
    · rename_i hp
      split at hs <;> simp only [Option.some.injEq, Prod.mk.injEq, reduceCtorEq] at hs
      obtain ⟨rfl, rfl⟩ := hs
      refine quiet f .body (some f) s.q s.c [] (.inl (hfL (by simp [hp]))) (.inl (by simp [hp, cycOf])) (by simp [countedOf]) ?_ ?_ <;>
        intro g <;> simp only [upd_apply] <;> split <;> simp_all [pending, busyPc, callsOf, retsOf]
    · rename_i hp
      have hf := hfL (by simp [hp])
      have hnf : inB s.cycle (s.pc f) = 0 := by simp [inB, hp, cycOf]
      have htot : lsum L (fun g => countedOf g (tr ++ [.arrived f])) = lsum L (fun g => countedOf g tr) + 1 := by
        have h2 := lsum_one hL (f := fun g => countedOf g (tr ++ [.arrived f])) (g := fun g => countedOf g tr) hf
          (fun g _ hg => by simp [countedOf, Ne.symm hg])
        have h3 : countedOf f (tr ++ [.arrived f]) = countedOf f tr + 1 := by simp [countedOf]
        simp only [h3] at h2
        omega
      split at hs <;> simp only [Option.some.injEq, Prod.mk.injEq] at hs <;> obtain ⟨rfl, rfl⟩ := hs
      · rename_i h1
        have hnew : ∀ g, inB (s.cycle + 1) (upd s.pc f .unlocking g) = 0 := by
          intro g
          by_cases hgf : g = f
          · subst hgf; simp [inB, cycOf]
          · simp only [upd_other s.pc Pc.unlocking hgf, inB]
            exact if_neg fun hh => by have := cyc g _ hh; omega
        refine ⟨?_, ?_, ?_, ?_, by simp only; omega, ?_, ?_⟩
        · intro g hg; simp only [upd_apply]; split
          · subst_vars; exact absurd hf hg
          · exact out g hg
        · intro g c hg
          simp only [upd_apply] at hg
          split at hg
          · simp [cycOf] at hg
          · have := cyc g c hg; simp only; omega
        · simp only [htot]
          rw [Nat.mul_add n (s.cycle + 1) 1]
          omega
        · have := lsum_zero (L := L) hnew
          simp only; omega
        · intro g; have := calls g; simp only [callsOf, countedOf, List.countP_append, upd_apply] at *
          split
          · subst_vars; simp [hp, pending] at *; omega
          · rename_i hg; simp [Ne.symm hg]; omega
        · intro g; have := rets g; simp only [callsOf, retsOf, List.countP_append, upd_apply] at *
          split
          · subst_vars; simp [hp, busyPc] at *; omega
          · simp; omega
      · rename_i h1
        have hin : ∀ g, g ≠ f → inB s.cycle (upd s.pc f (.check s.cycle) g) = inB s.cycle (s.pc g) := fun g hg => by simp [hg]
        have hinf : inB s.cycle (upd s.pc f (.check s.cycle) f) = 1 := by simp [inB, cycOf]
        refine ⟨?_, ?_, ?_, ?_, by simp only; omega, ?_, ?_⟩
        · intro g hg; simp only [upd_apply]; split
          · subst_vars; exact absurd hf hg
          · exact out g hg
        · intro g c hg
          simp only [upd_apply] at hg
          split at hg
          · simp [cycOf] at hg; simp only; omega
          · have := cyc g c hg; simp only; omega
        · simp only [htot]; omega
        · have h2 := lsum_one hL (f := fun g => inB s.cycle (upd s.pc f (.check s.cycle) g)) (g := fun g => inB s.cycle (s.pc g)) hf
            (fun g _ hg => hin g hg)
          simp only [hinf, hnf] at h2
          simp only; omega
        · intro g; have := calls g; simp only [callsOf, countedOf, List.countP_append, upd_apply] at *
          split
          · subst_vars; simp [hp, pending] at *; omega
          · rename_i hg; simp [Ne.symm hg]; omega
        · intro g; have := rets g; simp only [callsOf, retsOf, List.countP_append, upd_apply] at *
          split
          · subst_vars; simp [hp, busyPc] at *; omega
          · simp; omega
    · rename_i hp
      simp only [Option.some.injEq, Prod.mk.injEq] at hs; obtain ⟨rfl, rfl⟩ := hs
      refine quiet f .notifying none s.q s.c [] (.inl (hfL (by simp [hp]))) (.inl (by simp [hp, cycOf])) (by simp [countedOf]) ?_ ?_ <;>
        intro g <;> simp only [upd_apply] <;> split <;> simp_all [pending, busyPc, callsOf, retsOf]
    · rename_i hp
      simp only [Option.some.injEq, Prod.mk.injEq] at hs; obtain ⟨rfl, rfl⟩ := hs
      refine quiet f .idle s.mtx [] _ [.ret f true] (.inr rfl) (.inl (by simp [hp, cycOf])) (by simp [countedOf]) ?_ ?_
      · intro g; simp only [upd_apply]; split <;> simp_all [pending, callsOf]
      · intro g; simp only [upd_apply]; split
        · subst_vars; simp [hp, busyPc, callsOf, retsOf]
        · rename_i hg; simp [callsOf, retsOf, Ne.symm hg]
    · rename_i c hp
      split at hs <;> simp only [Option.some.injEq, Prod.mk.injEq] at hs <;> obtain ⟨rfl, rfl⟩ := hs
      · rename_i hne
        refine quiet f .idle none s.q s.c [.ret f false] (.inr rfl) (.inr ⟨by simp [cycOf], fun c' h' => ?_⟩) (by simp [countedOf]) ?_ ?_
        · simp only [hp, cycOf, Option.some.injEq] at h'; subst h'; exact hne
        · intro g; simp only [upd_apply]; split <;> simp_all [pending, callsOf]
        · intro g; simp only [upd_apply]; split
          · subst_vars; simp [hp, busyPc, callsOf, retsOf]
          · rename_i hg; simp [callsOf, retsOf, Ne.symm hg]
      · refine quiet f _ none _ _ [] (.inl (hfL (by simp [hp]))) (.inl (by simp [hp, cycOf])) (by simp [countedOf]) ?_ ?_ <;>
          intro g <;> simp only [upd_apply] <;> split <;> simp_all [pending, busyPc, callsOf, retsOf]
    · rename_i c ep hp
      split at hs <;> simp only [Option.some.injEq, Prod.mk.injEq, reduceCtorEq] at hs
      obtain ⟨rfl, rfl⟩ := hs
      refine quiet f _ s.mtx s.q _ [] (.inl (hfL (by simp [hp]))) (.inl (by simp [hp, cycOf])) (by simp [countedOf]) ?_ ?_ <;>
        intro g <;> simp only [upd_apply] <;> split <;> simp_all [pending, busyPc, callsOf, retsOf]
    · rename_i c hp
      split at hs <;> simp only [Option.some.injEq, Prod.mk.injEq, reduceCtorEq] at hs
      obtain ⟨rfl, rfl⟩ := hs
      refine quiet f _ (some f) s.q s.c [] (.inl (hfL (by simp [hp]))) (.inl (by simp [hp, cycOf])) (by simp [countedOf]) ?_ ?_ <;>
        intro g <;> simp only [upd_apply] <;> split <;> simp_all [pending, busyPc, callsOf, retsOf]

/-- With as many users as the barrier is for, everyone is counted once in each batch. -/
def Once (L : List Fid) (s : State) (tr : List Obs) : Prop := ∀ f ∈ L, countedOf f tr = s.cycle + inB s.cycle (s.pc f)

theorem once_step {n : Nat} {L : List Fid} (hL : L.Nodup) (hlen : L.length = n) {s s' : State} {tr o : List Obs} {e : Event} (h : J n L s tr)
    (hs : step n s e = some (s', o)) (ho : Once L s tr) : Once L s' (tr ++ o) := by
  intro g hg
  have hog := ho g hg
  have hcyc := h.cyc g
  cases e with
  | call f | elsewhere f k =>
    simp only [step] at hs
    split at hs <;> simp only [Option.some.injEq, Prod.mk.injEq, reduceCtorEq] at hs
    obtain ⟨rfl, rfl⟩ := hs
    simp only [countedOf_append, inB, countedOf, List.countP_nil, List.countP_cons] at *
    grind [upd_apply, cycOf]
  | run f =>
    have hall : s.pc f = .body → s.current = 1 → f ∈ L → ∀ g ∈ L, g ≠ f → inB s.cycle (s.pc g) = 1 := fun hp h1 hf =>
      lsum_rest (f := fun g => inB s.cycle (s.pc g)) (a := f) (fun x _ => by simp only [inB]; split <;> simp) hf (by simp [inB, hp, cycOf])
        (by have := h.cur; omega) hL
    have hfL : s.pc f ≠ .idle → f ∈ L := fun hp => Classical.byContradiction fun hn => hp (h.out f hn)
    have hpos := h.pos
    simp only [step, run] at hs
    split at hs <;> (try split at hs) <;> simp only [Option.some.injEq, Prod.mk.injEq, reduceCtorEq] at hs
    all_goals obtain ⟨rfl, rfl⟩ := hs
    case h_3.isTrue hp h1 =>
      have h3 := hall hp (by omega) (hfL (by simp [hp]))
      by_cases hgf : g = f
      · subst hgf
        simp [countedOf, inB, cycOf, hp] at hog ⊢
        omega
      · have h4 := h3 g hg hgf
        have h5 : inB (s.cycle + 1) (s.pc g) = 0 := by
          simp only [inB]; exact if_neg fun hh => by have := hcyc _ hh; omega
        simp only [countedOf_append, upd_other s.pc Pc.unlocking hgf, h5]
        simp [countedOf, Ne.symm hgf] at hog ⊢
        omega
    all_goals
      simp only [countedOf_append, inB, countedOf, List.countP_nil, List.countP_cons] at *
      grind [upd_apply, cycOf]

/-! ## Progress -/

/-- How many steps the fiber can make before it sleeps or returns, with room for those it wakes. -/
def w (n : Nat) (p : Pc) (ready : Bool) : Nat :=
  match p with
  | .idle => 0
  | .locking => 3 * n + 4
  | .body => 3 * n + 3
  | .unlocking => 3 * n + 2
  | .notifying => 3 * n + 1
  | .check _ => 2
  | .waiting _ _ => if ready then 4 else 1
  | .relocking _ => 3

theorem w_idle (n : Nat) (b : Bool) : w n .idle b = 0 := rfl
theorem w_locking (n : Nat) (b : Bool) : w n .locking b = 3 * n + 4 := rfl
theorem w_notifying (n : Nat) (b : Bool) : w n .notifying b = 3 * n + 1 := rfl

/-- The number of calls that may still come, weighted, plus the steps of those under way. -/
def meas (m k : Nat) (L : List Fid) (s : State) (tr : List Obs) : Nat :=
  lsum L fun g => (3 * m + 5) * (k - callsOf g tr) + w m (s.pc g) (s.c.ready g)

theorem callsOf_append (f : Fid) (t t' : List Obs) : callsOf f (t ++ t') = callsOf f t + callsOf f t' := by
  simp [callsOf]

theorem retsOf_append (f : Fid) (t t' : List Obs) : retsOf f (t ++ t') = retsOf f t + retsOf f t' := by
  simp [retsOf]

theorem meas_step {n k m : Nat} {L : List Fid} (hL : L.Nodup) (hlen : L.length = m) {s s' : State} {tr o : List Obs} {e : Event}
    (hi : Inv s) (h : J n L s tr) (hs : step n s e = some (s', o)) (hc : ∀ f, Obs.called f ∈ o → f ∈ L)
    (hk : ∀ f ∈ L, callsOf f (tr ++ o) ≤ k) (he : ∀ f j, e ≠ .elsewhere f j) : meas m k L s' (tr ++ o) < meas m k L s tr := by
  have dec : ∀ f ∈ L, ∀ s' o, (∀ g, callsOf g o = 0) → (∀ g, g ≠ f → s'.pc g = s.pc g ∧ s'.c.ready g = s.c.ready g) →
      w m (s'.pc f) (s'.c.ready f) < w m (s.pc f) (s.c.ready f) → meas m k L s' (tr ++ o) < meas m k L s tr := by
    intro f hf s' o h0 hg hw
    have := lsum_one hL (f := fun g => (3 * m + 5) * (k - callsOf g (tr ++ o)) + w m (s'.pc g) (s'.c.ready g))
      (g := fun g => (3 * m + 5) * (k - callsOf g tr) + w m (s.pc g) (s.c.ready g)) hf (fun g _ hgf => by
        simp only [callsOf_append, h0, (hg g hgf).1, (hg g hgf).2, Nat.add_zero])
    simp only [callsOf_append, h0, Nat.add_zero] at this
    simp only [meas, callsOf_append, h0, Nat.add_zero]
    omega
  have hoff : ∀ f, regOf (s.pc f) = none → s.c.ready f = false := hi.w.off
  cases e with
  | elsewhere f m => exact absurd rfl (he f m)
  | call f =>
    simp only [step] at hs
    split at hs <;> simp only [Option.some.injEq, Prod.mk.injEq, reduceCtorEq] at hs
    rename_i hp
    obtain ⟨rfl, rfl⟩ := hs
    have hf := hc f (by simp)
    have hkf := hk f hf
    have := lsum_one hL (f := fun g => (3 * m + 5) * (k - callsOf g (tr ++ [.called f])) + w m (upd s.pc f .locking g) (s.c.ready g))
      (g := fun g => (3 * m + 5) * (k - callsOf g tr) + w m (s.pc g) (s.c.ready g)) hf (fun g _ hgf => by
        simp [callsOf_append, callsOf, hgf, Ne.symm hgf])
    have h1 : callsOf f (tr ++ [.called f]) = callsOf f tr + 1 := by simp [callsOf]
    rw [h1] at hkf
    simp only [h1, upd_same, hp, w_idle, w_locking] at this
    have h2 : k - callsOf f tr = (k - (callsOf f tr + 1)) + 1 := by omega
    rw [h2, Nat.mul_add] at this
    simp only [meas]
    omega
  | run f =>
    have hfL : s.pc f ≠ .idle → f ∈ L := fun hp => Classical.byContradiction fun hn => hp (h.out f hn)
    simp only [step, run] at hs
    split at hs
    · cases hs
    · rename_i hp
      split at hs <;> simp only [Option.some.injEq, Prod.mk.injEq, reduceCtorEq] at hs
      obtain ⟨rfl, rfl⟩ := hs
      exact dec f (hfL (by simp [hp])) _ _ (by simp [callsOf]) (fun g hg => by simp [hg]) (by simp [hp, w])
    · rename_i hp
      split at hs <;> simp only [Option.some.injEq, Prod.mk.injEq] at hs <;> obtain ⟨rfl, rfl⟩ := hs
      · exact dec f (hfL (by simp [hp])) _ _ (by simp [callsOf]) (fun g hg => by simp [hg]) (by simp [hp, w])
      · exact dec f (hfL (by simp [hp])) _ _ (by simp [callsOf]) (fun g hg => by simp [hg]) (by simp [hp, w])
    · rename_i hp
      simp only [Option.some.injEq, Prod.mk.injEq] at hs; obtain ⟨rfl, rfl⟩ := hs
      exact dec f (hfL (by simp [hp])) _ _ (by simp [callsOf]) (fun g hg => by simp [hg]) (by simp [hp, w])
    · rename_i hp
      simp only [Option.some.injEq, Prod.mk.injEq] at hs; obtain ⟨rfl, rfl⟩ := hs
      have := lsum_one_le hL (c := 3) (f := fun g => (3 * m + 5) * (k - callsOf g (tr ++ [.ret f true])) + w m (upd s.pc f .idle g) ((notifyAll s.c s.q).1.ready g))
        (g := fun g => (3 * m + 5) * (k - callsOf g tr) + w m (s.pc g) (s.c.ready g)) (hfL (by simp [hp])) (fun g _ hgf => by
          have : callsOf g (tr ++ [.ret f true]) = callsOf g tr := by simp [callsOf]
          simp only [this, upd_other s.pc Pc.idle hgf]
          have : w m (s.pc g) ((notifyAll s.c s.q).1.ready g) ≤ w m (s.pc g) (s.c.ready g) + 3 := by
            unfold w; split <;> (try omega)
            split <;> split <;> omega
          omega)
      have h1 : callsOf f (tr ++ [.ret f true]) = callsOf f tr := by simp [callsOf]
      simp only [h1, upd_same, hp, w_idle, w_notifying, hlen] at this
      simp only [meas]
      omega
    · rename_i c hp
      split at hs <;> simp only [Option.some.injEq, Prod.mk.injEq] at hs <;> obtain ⟨rfl, rfl⟩ := hs
      · exact dec f (hfL (by simp [hp])) _ _ (by simp [callsOf]) (fun g hg => by simp [hg]) (by simp [hp, w])
      · exact dec f (hfL (by simp [hp])) _ _ (by simp [callsOf]) (fun g hg => by simp [hg, enqueue, createWaker])
          (by simp [hp, w, enqueue, createWaker, hoff f (by simp [hp, regOf])])
    · rename_i c ep hp
      split at hs <;> simp only [Option.some.injEq, Prod.mk.injEq, reduceCtorEq] at hs
      rename_i hr
      obtain ⟨rfl, rfl⟩ := hs
      exact dec f (hfL (by simp [hp])) _ _ (by simp [callsOf]) (fun g hg => by simp [hg, consumeReady]) (by simp [hp, w, hr])
    · rename_i c hp
      split at hs <;> simp only [Option.some.injEq, Prod.mk.injEq, reduceCtorEq] at hs
      obtain ⟨rfl, rfl⟩ := hs
      exact dec f (hfL (by simp [hp])) _ _ (by simp [callsOf]) (fun g hg => by simp [hg]) (by simp [hp, w])

/-- Where nobody can take a step, everyone sleeps for the batch that is being collected, or is outside. -/
theorem stuck {n : Nat} {s : State} (hi : Inv s) (hq : ∀ f, step n s (.run f) = none) (f : Fid) :
    s.pc f = .idle ∨ ∃ ep, s.pc f = .waiting s.cycle ep := by
  have hm : s.mtx = none := by
    cases hmm : s.mtx with
    | none => rfl
    | some g =>
      have hg := (hi.hl g).1 hmm
      have := hq g
      simp only [step, run] at this
      revert this hg
      cases hp : s.pc g <;> simp [hasLock] <;> split <;> simp
  have hpc : ∀ g, s.pc g = .idle ∨ ∃ c ep, s.pc g = .waiting c ep ∧ s.c.ready g = false := by
    intro g
    have := hq g
    simp only [step, run, hm] at this
    revert this
    cases hp : s.pc g <;> simp <;> split <;> simp
  rcases hpc f with h1 | ⟨c, ep, h1, h2⟩
  · exact .inl h1
  · refine .inr ⟨ep, ?_⟩
    by_cases hc : c = s.cycle
    · rw [← hc]; exact h1
    · obtain ⟨g, hg⟩ := hi.ann f c ep h1 h2 hc
      rcases hpc g with h3 | ⟨_, _, h3, _⟩ <;> simp [h3, isAnnouncing] at hg

theorem lsum_all {L : List Nat} {f : Nat → Nat} (h : ∀ x ∈ L, f x = 1) : lsum L f = L.length := by
  induction L with
  | nil => rfl
  | cons x L ih => simp [h x (by simp), ih (fun y hy => h y (by simp [hy]))]; omega


/-! ## Infinite executions -/

/-- Only the fibers of `L` call `wait()`. -/
def Only {n : Nat} (L : List Fid) (r : Run (step n) (init n)) : Prop := ∀ i f, Obs.called f ∈ r.ob i → f ∈ L

section
variable {n : Nat} {L : List Fid} {r : Run (step n) (init n)}

theorem J_run (hn : 0 < n) (hL : L.Nodup) (ho : Only L r) : ∀ i, J n L (r.st i) (r.tr i)
  | 0 => by rw [r.start]; exact J_init hn
  | i + 1 => J_step hL hn (J_run hn hL ho i) (r.next i) (ho i)

theorem once_run (hn : 0 < n) (hL : L.Nodup) (hlen : L.length = n) (ho : Only L r) : ∀ i, Once L (r.st i) (r.tr i)
  | 0 => by rw [r.start]; intro f _; simp [init, inB, cycOf, countedOf, Run.tr]
  | i + 1 => once_step hL hlen (J_run hn hL ho i) (r.next i) (once_run hn hL hlen ho i)

/-- With boundedly many calls the execution comes to rest. -/
theorem settle (hn : 0 < n) (hL : L.Nodup) (ho : Only L r) (hf : r.Fair Event.run) {k N : Nat}
    (hk : ∀ i, N ≤ i → ∀ f ∈ L, callsOf f (r.tr i) ≤ k) :
    ∃ M, N ≤ M ∧ (∀ i, M ≤ i → r.ob i = []) ∧ ∀ f, step n (r.st M) (.run f) = none := by
  have hdec : ∀ i, N ≤ i → (∀ f m, r.ev i ≠ .elsewhere f m) → meas L.length k L (r.st (i + 1)) (r.tr (i + 1)) < meas L.length k L (r.st i) (r.tr i) :=
    fun i hi he => meas_step hL rfl (reach_inv (r.reach i)) (J_run hn hL ho i) (r.next i) (ho i) (hk (i + 1) (by omega)) he
  have hels : ∀ i f m, r.ev i = .elsewhere f m → r.ob i = [] ∧ (∀ g, (r.st (i + 1)).pc g = (r.st i).pc g) ∧
      (r.st (i + 1)).mtx = (r.st i).mtx ∧ (r.st (i + 1)).current = (r.st i).current ∧ (r.st (i + 1)).cycle = (r.st i).cycle ∧
      (r.st (i + 1)).c.ready = (r.st i).c.ready := by
    intro i f m he
    have := r.next i
    rw [he] at this
    simp only [step] at this
    split at this <;> simp only [Option.some.injEq, Prod.mk.injEq, reduceCtorEq] at this
    obtain ⟨h1, h2⟩ := this
    rw [← h1, ← h2]
    simp
  obtain ⟨M, hM, hb, hq⟩ := r.settles hf (μ := fun i => meas L.length k L (r.st i) (r.tr i))
    (busy := fun i => ∀ f m, r.ev i ≠ .elsewhere f m) (N := N)
    (by
      intro i hi
      by_cases he : ∀ f m, r.ev i ≠ .elsewhere f m
      · exact Nat.le_of_lt (hdec i hi he)
      · simp only [Classical.not_forall, Classical.not_not] at he
        obtain ⟨f, m, he⟩ := he
        obtain ⟨h1, h2, h3, h4, h5, h6⟩ := hels i f m he
        simp only [Run.tr, h1, List.append_nil, meas, h2, h6, Nat.le_refl])
    (fun i hi he => hdec i hi he)
    (by intro i f _ he f' m; simp [he])
    (by
      intro i f hi he
      simp only [Classical.not_forall, Classical.not_not] at he
      obtain ⟨g, m, he⟩ := he
      obtain ⟨h1, h2, h3, h4, h5, h6⟩ := hels i g m he
      simp only [step, run, h2, h3, h4, h5, h6]
      cases (r.st i).pc f <;> simp <;> split <;> simp)
  refine ⟨M, hM, fun i hi => ?_, hq⟩
  have := hb i hi
  simp only [Classical.not_forall, Classical.not_not] at this
  obtain ⟨f, m, he⟩ := this
  exact (hels i f m he).1

end

end Verif.Barrier
