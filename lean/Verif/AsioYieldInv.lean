import Verif.AsioYield

/-! # Invariant of asynchronous operations -/

namespace Verif.AsioYield

/-- Before the result is delivered. -/
@[grind] def FPc.live : FPc → Bool
  | .unborn | .done => false
  | _ => true

@[grind] def HPc.holds : HPc → Bool
  | .locked | .set | .written => true
  | _ => false

@[grind] def HPc.past : HPc → Bool
  | .set | .written | .unlocked | .finished => true
  | _ => false

/-- The result of operation `k`. -/
def isResult (k : Nat) : Obs → Bool
  | .returned j _ => j == k
  | .threw j _ => j == k
  | _ => false

structure OpInv (o : Op) : Prop where
  unborn : o.pc = .unborn → o.hpc = .pending ∧ o.copies = 0 ∧ o.refs = 0 ∧ o.freed = false
  refs   : o.refs = o.copies + if o.pc.live then 1 else 0
  freed  : o.freed = true ↔ o.pc ≠ .unborn ∧ o.refs = 0
  lockF  : o.lock = some .fiber ↔ o.pc = .locked ∨ o.pc = .parked
  lockH  : o.lock = some .handler ↔ o.hpc.holds
  keep   : o.hpc ≠ .pending → o.hpc ≠ .finished → o.copies ≠ 0
  comp   : o.st = .complete ↔ o.hpc.past
  wait   : o.st = .waiting ↔ (o.pc = .parked ∨ o.pc = .blocked) ∧ ¬ o.hpc.past
  blk    : o.pc = .blocked → o.hpc.past → o.hpc ≠ .finished ∧ o.seen = .waiting
  seen   : o.hpc.past → o.hpc ≠ .finished → o.seen = .waiting → o.pc = .blocked
  park   : o.pc = .parked → o.st = .waiting
  pass   : o.pc = .passed ∨ o.pc = .done ∨ o.pc = .ready → o.hpc = .finished ∨ o.hpc = .unlocked
  val    : o.hpc ≠ .pending → o.val = o.hval
  ec     : o.hpc.past → o.hpc ≠ .set → o.bound = none → o.ec = o.hec

/-- What the trace says about operation `k`. -/
structure TrInv (k : Nat) (o : Op) (tr : List Obs) : Prop where
  strt : ∀ f b, .started f k b ∈ tr ↔ o.pc ≠ .unborn ∧ f = o.own ∧ b = o.bound
  comp : ∀ v e, .completed k v e ∈ tr ↔ o.hpc ≠ .pending ∧ v = o.hval ∧ e = o.hec
  stor : ∀ x e, .stored k x e ∈ tr ↔ o.hpc.past ∧ o.hpc ≠ .set ∧ o.bound = some x ∧ e = o.hec
  ret  : ∀ v, .returned k v ∈ tr → o.pc = .done ∧ v = o.hval ∧ (o.bound = none → o.hec = 0)
  thr  : ∀ e, .threw k e ∈ tr → o.pc = .done ∧ e = o.hec ∧ o.bound = none ∧ e ≠ 0
  once : tr.countP (isResult k) = if o.pc = .done then 1 else 0
  del  : tr.count (.deleted k) = if o.freed then 1 else 0
  wok  : tr.count (.woken k) = if o.hpc = .finished ∧ o.seen = .waiting then 1 else 0

structure Inv (s : State) (tr : List Obs) : Prop where
  op   : ∀ k, OpInv (s.op k)
  said : ∀ k, TrInv k (s.op k) tr
  noub : .ub ∉ tr
  busy : ∀ k, (s.op k).pc.live → s.busy (s.op k).own = some k

/-- Observations about operation `k`. -/
def about (k : Nat) : Obs → Bool
  | .started _ j _ => j == k
  | .completed j _ _ => j == k
  | .stored j _ _ => j == k
  | .returned j _ => j == k
  | .threw j _ => j == k
  | .woken j => j == k
  | .deleted j => j == k
  | .ub => false

theorem TrInv.other {k j : Nat} {o : Op} {tr ob : List Obs} (h : TrInv j o tr) (hj : j ≠ k) (ha : ∀ x ∈ ob, about k x) : TrInv j o (tr ++ ob) := by
  have hn : ∀ x ∈ ob, about j x = false ∧ isResult j x = false := by
    intro x hx
    have := ha x hx
    cases x <;> simp [about, isResult] at this ⊢ <;> omega
  have h1 : ob.countP (isResult j) = 0 := by simp only [List.countP_eq_zero]; intro x hx; simp [(hn x hx).2]
  have h2 : ob.count (.deleted j) = 0 := List.count_eq_zero.2 fun hx => by simpa [about] using (hn _ hx).1
  have h3 : ob.count (.woken j) = 0 := List.count_eq_zero.2 fun hx => by simpa [about] using (hn _ hx).1
  obtain ⟨a1, a2, a3, a4, a5, a6, a7, a8⟩ := h
  refine ⟨?_, ?_, ?_, ?_, ?_, by rw [List.countP_append, a6, h1]; simp, by rw [List.count_append, a7, h2]; simp, by rw [List.count_append, a8, h3]; simp⟩
  · intro f b; rw [List.mem_append, ← a1]; have := fun h => (hn (.started f j b) h).1; simp [about] at this; simp [this]
  · intro f b; rw [List.mem_append, ← a2]; have := fun h => (hn (.completed j f b) h).1; simp [about] at this; simp [this]
  · intro f b; rw [List.mem_append, ← a3]; have := fun h => (hn (.stored j f b) h).1; simp [about] at this; simp [this]
  · intro v h; rcases List.mem_append.1 h with h | h
    · exact a4 v h
    · simpa [about] using (hn _ h).1
  · intro v h; rcases List.mem_append.1 h with h | h
    · exact a5 v h
    · simpa [about] using (hn _ h).1

/-- One operation changes, and the observations are about it. -/
theorem inv_op {s : State} {tr ob : List Obs} {k : Nat} {o : Op} {busy' : Nat → Option Nat} {var' : Nat → Nat} (I : Inv s tr) (h1 : OpInv o) (h2 : TrInv k o (tr ++ ob))
    (ha : ∀ x ∈ ob, about k x) (hb : o.pc.live → busy' o.own = some k) (hb' : ∀ j, j ≠ k → (s.op j).pc.live → busy' (s.op j).own = some j) :
    Inv { op := upd s.op k o, busy := busy', var := var' } (tr ++ ob) := by
  refine ⟨fun j => ?_, fun j => ?_, ?_, fun j hj => ?_⟩
  · by_cases hj : j = k
    · subst hj; simpa using h1
    · simpa [hj] using I.op j
  · by_cases hj : j = k
    · subst hj; simpa using h2
    · simpa [hj] using (I.said j).other hj ha
  · have := I.noub; simp only [List.mem_append, not_or]; exact ⟨this, fun h => by simpa [about] using ha _ h⟩
  · by_cases hjk : j = k
    · subst hjk; simp only [upd_same] at hj ⊢; exact hb hj
    · simp only [upd_other _ _ hjk] at hj ⊢; exact hb' j hjk hj

theorem op_touch {o : Op} (h : OpInv o) (hl : o.pc.live ∨ o.copies ≠ 0) : touch o = [] := by
  obtain ⟨h1, h2, h3, -⟩ := h
  simp only [touch]; grind

theorem inv_init : Inv init [] := by
  constructor
  case op => intro k; constructor <;> simp [init, FPc.live, HPc.holds, HPc.past]
  case said => intro k; constructor <;> simp [init, HPc.past]
  all_goals simp [init, FPc.live]

local macro "fin" : tactic => `(tactic|
  (constructor <;> (try simp only [List.mem_append, List.countP_append, List.count_append, List.countP_cons, List.countP_nil, List.count_cons, List.count_nil, isResult, beq_iff_eq, List.mem_cons, List.not_mem_nil, or_false, reduceCtorEq, Obs.started.injEq, Obs.completed.injEq, Obs.stored.injEq, Obs.returned.injEq, Obs.threw.injEq, Obs.woken.injEq, Obs.deleted.injEq]) <;> grind))

set_option maxHeartbeats 2000000 in
theorem inv_step {s s' : State} {tr o : List Obs} {e : Event} (I : Inv s tr) (he : step s e = some (s', o)) : Inv s' (tr ++ o) := by
  have hbusy := I.busy
  cases e with
  | start f k b =>
    simp only [step, setOp] at he
    split at he
    · rename_i hc
      simp only [Option.some.injEq, Prod.mk.injEq] at he
      obtain ⟨rfl, rfl⟩ := he
      obtain ⟨a1, a2, a3, a4, a5, a6, a7, a8, a9, a10, a11, a12, a13, a14⟩ := I.op k
      obtain ⟨b1, b2, b3, b4, b5, b6, b7, b8⟩ := I.said k
      refine inv_op I ?_ ?_ (by simp [about]) (by simp) ?_
      · constructor <;> simp [FPc.live, HPc.holds, HPc.past]
      · fin
      · intro j hj hl; have := hbusy j hl; simp only [upd_apply]; grind
    · cases he
  | fiber k =>
    have hO := I.op k
    have hT := I.said k
    have ht : (s.op k).pc.live → touch (s.op k) = [] := fun h => op_touch hO (.inl h)
    obtain ⟨a1, a2, a3, a4, a5, a6, a7, a8, a9, a10, a11, a12, a13, a14⟩ := hO
    obtain ⟨b1, b2, b3, b4, b5, b6, b7, b8⟩ := hT
    have hph : (s.op k).hpc.past → ¬ (s.op k).hpc.holds → (s.op k).hpc = .finished ∨ (s.op k).hpc = .unlocked := by
      cases (s.op k).hpc <;> simp [HPc.past, HPc.holds]
    simp only [step, fiber, setOp] at he
    cases hp : (s.op k).pc <;> simp only [hp, reduceCtorEq] at he
    case called =>
      split at he
      · rw [ht (by rw [hp]; rfl)] at he
        simp only [Option.some.injEq, Prod.mk.injEq] at he
        obtain ⟨rfl, rfl⟩ := he
        refine inv_op I ?_ ?_ (by simp) (fun _ => hbusy k (by rw [hp]; rfl)) (fun j _ hl => hbusy j hl)
        · clear b1 b2 b3 b4 b5 b6 b7 b8 hbusy I; fin
        · clear a7 a8 hbusy I; fin
      · cases he
    case locked =>
      rw [ht (by rw [hp]; rfl)] at he
      split at he
      · simp only [Option.some.injEq, Prod.mk.injEq] at he
        obtain ⟨rfl, rfl⟩ := he
        refine inv_op I ?_ ?_ (by simp) (fun _ => hbusy k (by rw [hp]; rfl)) (fun j _ hl => hbusy j hl)
        · clear b1 b2 b3 b4 b5 b6 b7 b8 hbusy I; fin
        · clear a7 a8 hbusy I; fin
      · simp only [Option.some.injEq, Prod.mk.injEq] at he
        obtain ⟨rfl, rfl⟩ := he
        refine inv_op I ?_ ?_ (by simp) (fun _ => hbusy k (by rw [hp]; rfl)) (fun j _ hl => hbusy j hl)
        · clear b1 b2 b3 b4 b5 b6 b7 b8 hbusy I; fin
        · clear a7 a8 hbusy I; fin
    case parked =>
      rw [ht (by rw [hp]; rfl)] at he
      simp only [Option.some.injEq, Prod.mk.injEq] at he
      obtain ⟨rfl, rfl⟩ := he
      refine inv_op I ?_ ?_ (by simp) (fun _ => hbusy k (by rw [hp]; rfl)) (fun j _ hl => hbusy j hl)
      · clear b1 b2 b3 b4 b5 b6 b7 b8 hbusy I; fin
      · clear a7 a8 hbusy I; fin
    case ready =>
      simp only [Option.some.injEq, Prod.mk.injEq] at he
      obtain ⟨rfl, rfl⟩ := he
      refine inv_op I ?_ ?_ (by simp) (fun _ => hbusy k (by rw [hp]; rfl)) (fun j _ hl => hbusy j hl)
      · clear b1 b2 b3 b4 b5 b6 b7 b8 hbusy I; fin
      · clear a7 a8 hbusy I; fin
    case passed =>
      rw [ht (by rw [hp]; rfl)] at he
      have hbk := hbusy k (by rw [hp]; rfl)
      simp only [release, List.nil_append] at he
      split at he <;> rename_i hr <;> split at he <;> simp only [Option.some.injEq, Prod.mk.injEq] at he <;> obtain ⟨rfl, rfl⟩ := he
      all_goals
        refine inv_op I ?_ ?_ (by simp [about]) (by simp [FPc.live]) (fun j hj hl => by have := hbusy j hl; simp only [upd_apply]; grind)
        · clear b1 b2 b3 b4 b5 b6 b7 b8 hbusy I; fin
        · clear a7 a8 hbusy I; fin
  | call k v e =>
    have hO := I.op k
    have hT := I.said k
    obtain ⟨a1, a2, a3, a4, a5, a6, a7, a8, a9, a10, a11, a12, a13, a14⟩ := hO
    obtain ⟨b1, b2, b3, b4, b5, b6, b7, b8⟩ := hT
    simp only [step, setOp] at he
    split at he
    · have hst : stack (s.op k) = [] := by simp only [stack]; grind
      rw [hst] at he
      simp only [Option.some.injEq, Prod.mk.injEq] at he
      obtain ⟨rfl, rfl⟩ := he
      refine inv_op I ?_ ?_ (by simp [about]) (fun h => hbusy k h) (fun j _ hl => hbusy j hl)
      · clear b1 b2 b3 b4 b5 b6 b7 b8 hbusy I; fin
      · clear a7 a8 hbusy I; fin
    · cases he
  | handler k =>
    have hO := I.op k
    have hT := I.said k
    have ht : (s.op k).copies ≠ 0 → touch (s.op k) = [] := fun h => op_touch hO (.inr h)
    obtain ⟨a1, a2, a3, a4, a5, a6, a7, a8, a9, a10, a11, a12, a13, a14⟩ := hO
    obtain ⟨b1, b2, b3, b4, b5, b6, b7, b8⟩ := hT
    simp only [step, handler, setOp] at he
    cases hp : (s.op k).hpc <;> simp only [hp, reduceCtorEq] at he
    case moved =>
      rw [ht (by grind)] at he
      split at he
      · simp only [Option.some.injEq, Prod.mk.injEq] at he
        obtain ⟨rfl, rfl⟩ := he
        refine inv_op I ?_ ?_ (by simp [about]) (fun h => hbusy k h) (fun j _ hl => hbusy j hl)
        · clear b1 b2 b3 b4 b5 b6 b7 b8 hbusy I; fin
        · clear a7 a8 hbusy I; fin
      · cases he
    case locked =>
      rw [ht (by grind)] at he
      simp only [Option.some.injEq, Prod.mk.injEq] at he
      obtain ⟨rfl, rfl⟩ := he
      refine inv_op I ?_ ?_ (by simp [about]) (fun h => hbusy k h) (fun j _ hl => hbusy j hl)
      · clear b1 b2 b3 b4 b5 b6 b7 b8 hbusy I; fin
      · clear a7 a8 hbusy I; fin
    case set =>
      have hst : stack (s.op k) = [] := by simp only [stack]; grind
      rw [hst] at he
      split at he <;> simp only [Option.some.injEq, Prod.mk.injEq] at he <;> obtain ⟨rfl, rfl⟩ := he
      all_goals
        refine inv_op I ?_ ?_ (by simp [about]) (fun h => hbusy k h) (fun j _ hl => hbusy j hl)
        · clear b1 b2 b3 b4 b5 b6 b7 b8 hbusy I; fin
        · clear a7 a8 hbusy I; fin
    case written =>
      rw [ht (by grind)] at he
      simp only [Option.some.injEq, Prod.mk.injEq] at he
      obtain ⟨rfl, rfl⟩ := he
      refine inv_op I ?_ ?_ (by simp [about]) (fun h => hbusy k h) (fun j _ hl => hbusy j hl)
      · clear b1 b2 b3 b4 b5 b6 b7 b8 hbusy I; fin
      · clear a7 a8 hbusy I; fin
    case unlocked =>
      split at he
      · have hb : (s.op k).pc = .blocked := by grind
        rw [if_pos hb] at he
        simp only [Option.some.injEq, Prod.mk.injEq] at he
        obtain ⟨rfl, rfl⟩ := he
        refine inv_op I ?_ ?_ (by simp [about]) (fun h => hbusy k (by rw [hb]; rfl)) (fun j _ hl => hbusy j hl)
        · clear b1 b2 b3 b4 b5 b6 b7 b8 hbusy I; fin
        · clear a7 a8 hbusy I; fin
      · simp only [Option.some.injEq, Prod.mk.injEq] at he
        obtain ⟨rfl, rfl⟩ := he
        refine inv_op I ?_ ?_ (by simp [about]) (fun h => hbusy k h) (fun j _ hl => hbusy j hl)
        · clear b1 b2 b3 b4 b5 b6 b7 b8 hbusy I; fin
        · clear a7 a8 hbusy I; fin
  | copy k =>
    have hO := I.op k
    have hT := I.said k
    have ht : (s.op k).copies ≠ 0 → touch (s.op k) = [] := fun h => op_touch hO (.inr h)
    obtain ⟨a1, a2, a3, a4, a5, a6, a7, a8, a9, a10, a11, a12, a13, a14⟩ := hO
    obtain ⟨b1, b2, b3, b4, b5, b6, b7, b8⟩ := hT
    simp only [step, setOp] at he
    split at he
    · rw [ht (by grind)] at he
      simp only [Option.some.injEq, Prod.mk.injEq] at he
      obtain ⟨rfl, rfl⟩ := he
      refine inv_op I ?_ ?_ (by simp [about]) (fun h => hbusy k h) (fun j _ hl => hbusy j hl)
      · clear b1 b2 b3 b4 b5 b6 b7 b8 hbusy I; fin
      · clear a7 a8 hbusy I; fin
    · cases he
  | drop k =>
    have hO := I.op k
    have hT := I.said k
    have ht : (s.op k).copies ≠ 0 → touch (s.op k) = [] := fun h => op_touch hO (.inr h)
    obtain ⟨a1, a2, a3, a4, a5, a6, a7, a8, a9, a10, a11, a12, a13, a14⟩ := hO
    obtain ⟨b1, b2, b3, b4, b5, b6, b7, b8⟩ := hT
    simp only [step, setOp] at he
    split at he
    · rw [ht (by grind)] at he
      simp only [release, List.nil_append] at he
      split at he <;> simp only [Option.some.injEq, Prod.mk.injEq] at he <;> obtain ⟨rfl, rfl⟩ := he
      all_goals
        refine inv_op I ?_ ?_ (by simp [about]) (fun h => hbusy k h) (fun j _ hl => hbusy j hl)
        · clear b1 b2 b3 b4 b5 b6 b7 b8 hbusy I; fin
        · clear a7 a8 hbusy I; fin
    · cases he

theorem inv_reach {s : State} {tr : List Obs} (h : Reach step init s tr) : Inv s tr :=
  h.inv Inv inv_init fun _ _ _ _ _ _ I he => inv_step I he

end Verif.AsioYield
