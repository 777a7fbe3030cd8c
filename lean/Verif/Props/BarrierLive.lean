import Verif.BarrierLive

/-!
# Property C108: every wait() on a barrier returns when the batch is complete

`Run` and `Run.Fair` (whoever can go on goes on) are in `Verif/Fair.lean`; `callsOf`, `retsOf` count the calls a fiber has made and those
that have returned; `Only L r`: nobody but the fibers of `L` uses the barrier.
-/

namespace Verif.Props.BarrierLive

open Verif Verif.Barrier

variable {n : Nat} {L : List Fid} {r : Run (step n) (init n)}

/-- **C108.** `n` fibers use a barrier for `n`. If each has called `wait()` `k` times, then, however they are scheduled, the time comes
when `k` calls of each have returned. -/
theorem wait_returns (hn : 0 < n) (hL : L.Nodup) (hlen : L.length = n) (ho : Only L r) (hf : r.Fair Event.run) {k i : Nat}
    (hk : ∀ f ∈ L, k ≤ callsOf f (r.tr i)) : ∃ j, i ≤ j ∧ ∀ f ∈ L, k ≤ retsOf f (r.tr j) := by
  have mono : ∀ f i j, i ≤ j → callsOf f (r.tr i) ≤ callsOf f (r.tr j) ∧ retsOf f (r.tr i) ≤ retsOf f (r.tr j) := by
    intro f i j hij
    obtain ⟨t, ht⟩ := r.tr_le hij
    rw [ht, callsOf_append, retsOf_append]
    omega
  have each : ∀ f ∈ L, ∃ j, i ≤ j ∧ k ≤ retsOf f (r.tr j) := by
    intro f hfL
    refine Classical.byContradiction fun hno => ?_
    have hlt : ∀ j, i ≤ j → retsOf f (r.tr j) < k := fun j hj => Classical.byContradiction fun hh => hno ⟨j, hj, by omega⟩
    have hcy : ∀ j, i ≤ j → (r.st j).cycle ≤ k := by
      intro j hj
      have h1 := once_run hn hL hlen ho j f hfL
      have h2 := (J_run hn hL ho j).calls f
      have h3 := (J_run hn hL ho j).rets f
      have h4 := hlt j hj
      have h5 : busyPc ((r.st j).pc f) ≤ 1 := by cases (r.st j).pc f <;> simp [busyPc]
      omega
    obtain ⟨M, hM, _, hq⟩ := settle hn hL ho hf (k := k + 2) (N := i) (by
      intro j hj g hg
      have h1 := once_run hn hL hlen ho j g hg
      have h2 := (J_run hn hL ho j).calls g
      have h3 := hcy j hj
      have h4 : inB (r.st j).cycle ((r.st j).pc g) ≤ 1 := by simp only [inB]; split <;> simp
      have h5 : pending ((r.st j).pc g) ≤ 1 := by cases (r.st j).pc g <;> simp [pending]
      omega)
    have hst := stuck (reach_inv (r.reach M)) hq
    have hJ := J_run hn hL ho M
    have hO := once_run hn hL hlen ho M
    have hpend : ∀ g, pending ((r.st M).pc g) = 0 := by
      intro g; rcases hst g with h | ⟨ep, h⟩ <;> simp [h, pending]
    have hcM : k ≤ (r.st M).cycle + 1 := by
      have h1 := hO f hfL
      have h2 := hJ.calls f
      have h3 := (mono f i M hM).1
      have h4 := hk f hfL
      have h5 : inB (r.st M).cycle ((r.st M).pc f) ≤ 1 := by simp only [inB]; split <;> simp
      rw [hpend] at h2
      omega
    have hfb : k = (r.st M).cycle + 1 := by
      have h1 := hO f hfL
      have h2 := hJ.calls f
      have h3 := hJ.rets f
      have h4 := hlt M hM
      have h6 := (mono f i M hM).1
      have h7 := hk f hfL
      rw [hpend] at h2
      rcases hst f with h | ⟨ep, h⟩ <;> simp [h, busyPc, inB, cycOf] at * <;> omega
    have hall : ∀ g ∈ L, inB (r.st M).cycle ((r.st M).pc g) = 1 := by
      intro g hg
      have h1 := hO g hg
      have h2 := hJ.calls g
      have h6 := (mono g i M hM).1
      have h7 := hk g hg
      rw [hpend] at h2
      have h5 : inB (r.st M).cycle ((r.st M).pc g) ≤ 1 := by simp only [inB]; split <;> simp
      omega
    have h1 := lsum_all hall
    have h2 := hJ.cur
    have h3 := hJ.pos
    omega
  have : ∀ L' : List Fid, (∀ f ∈ L', f ∈ L) → ∃ j, i ≤ j ∧ ∀ f ∈ L', k ≤ retsOf f (r.tr j) := by
    intro L'
    induction L' with
    | nil => intro _; exact ⟨i, Nat.le_refl i, by simp⟩
    | cons x L' ih =>
      intro hsub
      obtain ⟨j, h1, h2⟩ := ih (fun f hf => hsub f (by simp [hf]))
      obtain ⟨j', h3, h4⟩ := each x (hsub x (by simp))
      refine ⟨max j j', by omega, fun f hf => ?_⟩
      rcases List.mem_cons.1 hf with rfl | hf
      · exact Nat.le_trans h4 (mono f j' _ (by omega)).2
      · exact Nat.le_trans (h2 f hf) (mono f j _ (by omega)).2
  exact this L (fun _ h => h)

/-- **C108.** Any number of fibers use a barrier for `n`, any number of times, and stop calling. Then in the end exactly the calls of the
complete batches have returned: of `c` calls, `n * (c / n)`. -/
theorem batches_return (hn : 0 < n) (hL : L.Nodup) (ho : Only L r) (hf : r.Fair Event.run) {i : Nat}
    (hend : ∀ j, i ≤ j → ∀ f, Obs.called f ∉ r.ob j) :
    ∃ M, i ≤ M ∧ ∀ j, M ≤ j → lsum L (fun f => retsOf f (r.tr j)) = n * (lsum L (fun f => callsOf f (r.tr j)) / n) := by
  have hsame : ∀ j, i ≤ j → ∀ f, callsOf f (r.tr j) = callsOf f (r.tr i) := by
    intro j hj f
    obtain ⟨d, rfl⟩ := Nat.le.dest hj
    clear hj
    induction d with
    | zero => rfl
    | succ d ih =>
      have : callsOf f (r.ob (i + d)) = 0 := by
        simp only [callsOf, List.countP_eq_zero, decide_eq_true_eq]
        intro o ho' h; exact hend (i + d) (by omega) f (h ▸ ho')
      rw [← Nat.add_assoc]
      simp only [Run.tr, callsOf_append, this, ih]
      omega
  have hbound : ∀ (L : List Fid) (f : Fid), f ∈ L → callsOf f (r.tr i) ≤ lsum L (fun f => callsOf f (r.tr i)) := by
    intro L f hf
    induction L with
    | nil => cases hf
    | cons x L ih =>
      simp only [lsum_cons]
      rcases List.mem_cons.1 hf with rfl | hf
      · omega
      · have := ih hf; omega
  obtain ⟨M, hM, hob, hq⟩ := settle hn hL ho hf (k := lsum L (fun f => callsOf f (r.tr i))) (N := i)
    (fun j hj f hf => by rw [hsame j hj f]; exact hbound L f hf)
  have htr : ∀ j, M ≤ j → r.tr j = r.tr M := by
    intro j hj
    obtain ⟨d, rfl⟩ := Nat.le.dest hj
    clear hj
    induction d with
    | zero => rfl
    | succ d ih => rw [← Nat.add_assoc]; simp only [Run.tr, hob (M + d) (by omega), List.append_nil, ih]
  refine ⟨M, hM, fun j hj => ?_⟩
  rw [htr j hj]
  have hst := stuck (reach_inv (r.reach M)) hq
  have hJ := J_run hn hL ho M
  have hcalls : lsum L (fun f => callsOf f (r.tr M)) = lsum L (fun f => countedOf f (r.tr M)) :=
    lsum_congr fun f _ => by
      have := hJ.calls f
      rcases hst f with h | ⟨ep, h⟩ <;> simp [h, pending] at this <;> omega
  have hadd : ∀ (L : List Fid) (f g h : Fid → Nat), (∀ x ∈ L, f x = g x + h x) → lsum L f = lsum L g + lsum L h := by
    intro L f g h hx
    induction L with
    | nil => rfl
    | cons x L ih =>
      simp only [lsum_cons]
      have := hx x (by simp)
      have := ih (fun y hy => hx y (by simp [hy]))
      omega
  have hrets : lsum L (fun f => callsOf f (r.tr M)) = lsum L (fun f => retsOf f (r.tr M)) +
      lsum L (fun f => inB (r.st M).cycle ((r.st M).pc f)) := hadd L (fun f => callsOf f (r.tr M)) (fun f => retsOf f (r.tr M)) (fun f => inB (r.st M).cycle ((r.st M).pc f))
    fun f _ => by
      have := hJ.rets f
      rcases hst f with h | ⟨ep, h⟩ <;> simp [h, busyPc, inB, cycOf] at this ⊢ <;> omega
  have h1 := hJ.tot
  have h2 := hJ.cur
  have h3 := hJ.pos
  rw [Nat.mul_add, Nat.mul_one] at h1
  have h4 : lsum L (fun f => callsOf f (r.tr M)) = (n - (r.st M).current) + n * (r.st M).cycle := by omega
  have h5 : lsum L (fun f => callsOf f (r.tr M)) / n = (r.st M).cycle := by
    rw [h4, Nat.add_mul_div_left _ _ hn, Nat.div_eq_of_lt (by omega), Nat.zero_add]
  rw [h5]
  omega

/-! ## With more fibers than the barrier is for -/

/-- Fiber 2 is about to lock the barrier's mutex; fiber 1 has been through the barrier `m` times. -/
def late (m : Nat) : State where
  mtx := none
  current := 1
  cycle := m
  q := []
  c := Ctxs.init
  pc := upd (fun _ => .idle) 2 .locking

/-- What C108 needs "as many fibers as the barrier is for" for: on a barrier for one, a fiber that calls `wait()` again and again keeps
another one from getting the mutex for ever, under a fair schedule. -/
theorem starves : ∃ r : Run (step 1) (init 1), r.Fair Event.run ∧ Only [1, 2] r ∧ (∃ i, Obs.called 2 ∈ r.ob i) ∧
    (∀ k, ∃ i, k ≤ retsOf 1 (r.tr i)) ∧ ∀ i, retsOf 2 (r.tr i) = 0 := by
  have hpc : ∀ (p : Pc) (g : Fid), upd (upd (upd (fun _ => Pc.idle) 2 Pc.locking) 1 p) 1 Pc.idle g = upd (fun _ => Pc.idle) 2 Pc.locking g := by
    intro p g; simp only [upd_apply]; split <;> simp_all
  have hcyc : ∀ m, exec (step 1) (late m) [.call 1, .run 1, .run 1, .run 1, .run 1] =
      some (late (m + 1), [.called 1, .arrived 1, .ret 1 true]) := by
    intro m
    simp [exec, step, run, late, notifyAll, Ctxs.init]
    funext g; simp only [upd_apply]; split <;> simp_all
  obtain ⟨r, h1, h2, h3, h4, h5⟩ := Run.lasso (step := step 1) (init := init 1) (pre := [.call 2]) (st := late) (t0 := [.called 2])
    (evs := [.call 1, .run 1, .run 1, .run 1, .run 1]) (t := fun _ => [.called 1, .arrived 1, .ret 1 true]) (by simp)
    (by simp [exec, step, late, init, Ctxs.init]) hcyc
  simp only [List.length_cons, List.length_nil, Nat.zero_add, Nat.reduceAdd] at h1 h2 h3 h4 h5
  have hinfl : ∀ i, ∃ m, i ≤ 1 + 5 * m := fun i => ⟨i, by omega⟩
  have htr : ∀ m, retsOf 2 (r.tr (1 + 5 * m)) = 0 ∧ retsOf 1 (r.tr (1 + 5 * m)) = m ∧ ∀ f, Obs.called f ∈ r.tr (1 + 5 * m) → f ∈ [1, 2] := by
    intro m
    induction m with
    | zero => simp [h4, retsOf]
    | succ m ih =>
      rw [h5 m]
      obtain ⟨a, b, c⟩ := ih
      refine ⟨by rw [retsOf_append, a]; rfl, by rw [retsOf_append, b]; rfl, fun f hf => ?_⟩
      rcases List.mem_append.1 hf with hf | hf
      · exact c f hf
      · simp at hf; simp [hf]
  have hmem : ∀ i o, o ∈ r.ob i → ∃ m, o ∈ r.tr (1 + 5 * m) := by
    intro i o ho
    obtain ⟨m, hm⟩ := hinfl (i + 1)
    obtain ⟨t, ht⟩ := r.tr_le hm
    exact ⟨m, by rw [ht]; simp [Run.tr, ho]⟩
  refine ⟨r, fun f i => ?_, fun i f hf => ?_, ⟨0, ?_⟩, fun k => ⟨_, Nat.le_of_eq (htr k).2.1.symm⟩, fun i => ?_⟩
  · by_cases hf1 : f = 1
    · exact ⟨1 + 5 * i + 1, by omega, .inl (by rw [h2 i 1 (by omega), hf1]; rfl)⟩
    · by_cases hf2 : f = 2
      · refine ⟨1 + 5 * i + 2, by omega, .inr ?_⟩
        obtain ⟨t, ht, _⟩ := r.part [.call 1, .run 1] (1 + 5 * i) (fun j hj => by
          match j, hj with
          | 0, _ => exact h2 i 0 (by omega)
          | 1, _ => exact h2 i 1 (by omega))
        rw [h3 i] at ht
        simp [exec, step, run, late, Ctxs.init] at ht
        rw [← ht.1, hf2]
        simp [step, run]
      · exact ⟨1 + 5 * i, by omega, .inr (by rw [h3 i]; simp [step, run, late, hf2])⟩
  · obtain ⟨m, hm⟩ := hmem i _ hf
    exact (htr m).2.2 f hm
  · have : r.tr 1 = r.ob 0 := by simp [Run.tr]
    rw [← this, h4]; simp
  · obtain ⟨m, hm⟩ := hinfl i
    obtain ⟨t, ht⟩ := r.tr_le hm
    have := (htr m).1
    rw [ht, retsOf_append] at this
    omega

/-! ## The hypotheses can be met -/

/-- Fibers 1 and 2 meet at a barrier for two; 1 sleeps until 2 has come. -/
def meet : List Event := [.call 1, .run 1, .run 1, .run 1, .call 2, .run 2, .run 2, .run 2, .run 2, .run 1, .run 1, .run 1]

/-- `wait_returns` and `batches_return`: a fair execution in which both fibers have called once. -/
example : ∃ r : Run (step 2) (init 2), r.Fair Event.run ∧ Only [1, 2] r ∧ (∀ f ∈ [1, 2], 1 ≤ callsOf f (r.tr 5)) ∧
    (∀ j, 12 ≤ j → ∀ f, Obs.called f ∉ r.ob j) ∧ retsOf 1 (r.tr 5) = 0 ∧ retsOf 1 (r.tr 12) = 1 := by
  have hx : ∃ s, exec (step 2) (init 2) meet = some (s, [.called 1, .arrived 1, .called 2, .arrived 2, .ret 2 true, .ret 1 false]) ∧
      step 2 s (.elsewhere 3 0) = some (s, []) ∧ ∀ f, step 2 s (.run f) = none := by
    refine ⟨_, rfl, ?_, ?_⟩
    · simp [step, upd_apply, Ctxs.init, init, consumeReady, notifyAll, enqueue, createWaker, wake]
      funext g; simp only [upd_apply]; split <;> simp_all
    · intro f
      simp only [step, run]
      simp only [upd_apply, init]
      split <;> simp_all
  obtain ⟨s, h0, hi, hq⟩ := hx
  obtain ⟨r, h1, h2⟩ := Run.rests h0 hi
  have hlen : meet.length = 12 := rfl
  have h5 : r.tr 5 = [.called 1, .arrived 1, .called 2] := by
    obtain ⟨t, ht, ht'⟩ := r.part (meet.take 5) 0 (fun j hj => by
      rw [Nat.zero_add, h1 j (by simp [hlen] at hj ⊢; omega)]; simp)
    rw [r.start] at ht
    have hc : ∃ s, exec (step 2) (init 2) (meet.take 5) = some (s, [.called 1, .arrived 1, .called 2]) := ⟨_, rfl⟩
    obtain ⟨s', hs'⟩ := hc
    rw [hs'] at ht
    simp only [Option.some.injEq, Prod.mk.injEq] at ht
    have : r.tr 5 = r.tr 0 ++ t := ht'
    rw [this, ← ht.2]; rfl
  have h12 := (h2 12 (by simp [hlen])).2.2
  refine ⟨r, r.rests_fair h2 hq, fun i f hf => ?_, ?_, fun j hj f hf => ?_, ?_, ?_⟩
  · by_cases hij : 12 ≤ i
    · have a := (h2 i (by omega)).2.2
      have b := (h2 (i + 1) (by omega)).2.2
      simp only [Run.tr, a] at b
      have : r.ob i = [] := by simpa using b
      simp [this] at hf
    · obtain ⟨t, ht⟩ := r.tr_le (show i + 1 ≤ 12 by omega)
      have : Obs.called f ∈ r.tr 12 := by rw [ht]; simp [Run.tr, hf]
      rw [h12] at this
      simp at this
      simpa using this
  · intro f hf; rw [h5]; simp at hf; rcases hf with rfl | rfl <;> decide
  · have a := (h2 j (by omega)).2.2
    have b := (h2 (j + 1) (by omega)).2.2
    simp only [Run.tr, a] at b
    have : r.ob j = [] := by simpa using b
    simp [this] at hf
  · rw [h5]; rfl
  · rw [h12]; rfl

end Verif.Props.BarrierLive
