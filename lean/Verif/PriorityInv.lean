import Verif.Priority

/-!
# Fibers with priorities: what they mean, and invariants
-/

namespace Verif.Priority

/-! ## What can be told from the observations -/

structure Spec where
  /-- how many observations there were -/
  n : Nat
  /-- since when the fiber has been ready, with its priority -/
  since : Nat → Option Nat
  prio : Nat → Int

def Spec.feed (p : Spec) : Obs → Spec
  | .ready y _ => { p with n := p.n + 1, since := upd p.since y (some p.n) }
  | .set y q => { p with n := p.n + 1, prio := upd p.prio y q }
  | .ran x => { p with n := p.n + 1, since := upd p.since x none }
  | _ => { p with n := p.n + 1 }

/-- In the beginning all priorities are 0, and the dispatcher is ready. -/
def Spec.start : Spec := { n := 1, since := fun x => if x = disp then some 0 else none, prio := fun _ => 0 }

def spec (tr : List Obs) : Spec := tr.foldl Spec.feed Spec.start

/-! ## The queue -/

/-- `a` comes before `b`. -/
def before (p : Spec) (a b : Nat) : Prop := p.prio b < p.prio a ∨ p.prio a = p.prio b ∧ ∃ i j, p.since a = some i ∧ p.since b = some j ∧ i < j

structure QInv (p : Spec) (prio : Nat → Int) (q : List Nat) : Prop where
  prio : prio = p.prio
  nodup : q.Nodup
  mem : ∀ y, y ∈ q ↔ ∃ k, p.since y = some k
  lt : ∀ y k, p.since y = some k → k < p.n
  sorted : q.Pairwise (before p)

theorem mem_insert {prio : Nat → Int} {x y : Nat} {q : List Nat} : y ∈ insert prio x q ↔ y = x ∨ y ∈ q := by
  induction q with
  | nil => simp [insert]
  | cons a q ih =>
    simp only [insert]
    split
    · simp
    · simp [ih]; grind

theorem nodup_insert {prio : Nat → Int} {x : Nat} {q : List Nat} (h : q.Nodup) (hx : x ∉ q) : (insert prio x q).Nodup := by
  induction q with
  | nil => simp [insert]
  | cons a q ih =>
    simp only [insert]
    split
    · simp_all
    · simp at h hx ⊢
      exact ⟨by simp [mem_insert]; grind, ih h.2 hx.2⟩

theorem length_insert {prio : Nat → Int} {x : Nat} {q : List Nat} : (insert prio x q).length = q.length + 1 := by
  induction q with
  | nil => simp [insert]
  | cons a q ih => simp only [insert]; split <;> simp [ih]

/-- A fiber becomes ready. -/
theorem QInv.ready {p : Spec} {prio : Nat → Int} {q : List Nat} (h : QInv p prio q) {y : Nat} (hy : y ∉ q) (r : Int) : QInv (p.feed (.ready y r)) prio (insert prio y q) := by
  have hpr : (p.feed (.ready y r)).prio = p.prio := rfl
  have hb : ∀ a b, a ∈ q → b ∈ q → before p a b → before (p.feed (.ready y r)) a b := by
    intro a b ha hb hab
    have h1 : a ≠ y := by rintro rfl; exact hy ha
    have h2 : b ≠ y := by rintro rfl; exact hy hb
    simpa [before, Spec.feed, upd_other, h1, h2] using hab
  have hlast : ∀ a, a ∈ q → ¬ prio a < prio y → before (p.feed (.ready y r)) a y := by
    intro a ha hlt
    have h1 : a ≠ y := by rintro rfl; exact hy ha
    obtain ⟨k, hk⟩ := (h.mem a).1 ha
    rw [h.prio] at hlt
    have := h.lt a k hk
    simp only [before, Spec.feed, upd_same, upd_other _ _ h1, hk]
    rcases Int.lt_or_eq_of_le (Int.not_lt.1 hlt) with h2 | h2
    · exact .inl h2
    · exact .inr ⟨h2.symm, k, p.n, rfl, rfl, this⟩
  refine ⟨by rw [h.prio]; rfl, nodup_insert h.nodup hy, fun x => ?_, fun x k hk => ?_, ?_⟩
  · rw [mem_insert, h.mem]
    by_cases hx : x = y
    · subst hx; simp [Spec.feed]
    · simp [Spec.feed, hx]
  · by_cases hx : x = y
    · subst hx; simp [Spec.feed] at hk ⊢; omega
    · simp [Spec.feed, hx] at hk ⊢; have := h.lt x k hk; omega
  · have hs := h.sorted
    have hp := h.prio
    clear h
    induction q with
    | nil => simp [insert]
    | cons a q ih =>
      rw [List.pairwise_cons] at hs
      simp only [insert]
      split
      · rename_i hlt
        have hle : ∀ b ∈ a :: q, p.prio b ≤ p.prio a := by
          intro b hbb
          rcases List.mem_cons.1 hbb with rfl | hbb
          · exact Int.le_refl _
          · have := hs.1 b hbb; unfold before at this; omega
        rw [List.pairwise_cons]
        refine ⟨fun b hbb => .inl ?_, ?_⟩
        · have := hle b hbb; rw [hp] at hlt; rw [hpr]; omega
        · rw [List.pairwise_cons]
          exact ⟨fun b hbb => hb a b (by simp) (by simp [hbb]) (hs.1 b hbb),
            hs.2.imp_of_mem fun ha hbb hab => hb _ _ (by simp [ha]) (by simp [hbb]) hab⟩
      · rename_i hlt
        rw [List.pairwise_cons]
        refine ⟨fun b hbb => ?_, ih (by grind) (fun a b ha hb => by grind) (fun a ha => by grind) hs.2⟩
        rcases mem_insert.1 hbb with rfl | hbb
        · exact hlast a (by simp) hlt
        · exact hb a b (by simp) (by simp [hbb]) (hs.1 b hbb)

/-- The first fiber of the queue runs. -/
theorem QInv.ran {p : Spec} {prio : Nat → Int} {x : Nat} {q : List Nat} (h : QInv p prio (x :: q)) : QInv (p.feed (.ran x)) prio q := by
  have hn := h.nodup
  rw [List.nodup_cons] at hn
  have hs := h.sorted
  rw [List.pairwise_cons] at hs
  refine ⟨h.prio, hn.2, fun y => ?_, fun y k hk => ?_, hs.2.imp_of_mem fun {a b} ha hb hab => ?_⟩
  · by_cases hy : y = x
    · subst hy; simp [Spec.feed, hn.1]
    · have := h.mem y; simp [hy] at this; simp [Spec.feed, hy, this]
  · by_cases hy : y = x
    · subst hy; simp [Spec.feed] at hk
    · simp [Spec.feed, hy] at hk ⊢; have := h.lt y k hk; omega
  · have h1 : a ≠ x := by rintro rfl; exact hn.1 ha
    have h2 : b ≠ x := by rintro rfl; exact hn.1 hb
    simpa [before, Spec.feed, h1, h2] using hab

/-- The priority of a fiber that is not in the queue is set. -/
theorem QInv.set {p : Spec} {prio : Nat → Int} {y : Nat} {q : List Nat} (h : QInv p prio q) (hy : y ∉ q) (r : Int) : QInv (p.feed (.set y r)) (upd prio y r) q := by
  refine ⟨by rw [h.prio]; rfl, h.nodup, h.mem, fun y k hk => by have := h.lt y k hk; simp [Spec.feed]; omega, h.sorted.imp_of_mem fun {a b} ha hb hab => ?_⟩
  have h1 : a ≠ y := by rintro rfl; exact hy ha
  have h2 : b ≠ y := by rintro rfl; exact hy hb
  simpa [before, Spec.feed, h1, h2] using hab

/-- The priority of a fiber is set to what it was. -/
theorem QInv.same {p : Spec} {prio : Nat → Int} {y : Nat} {q : List Nat} (h : QInv p prio q) : QInv (p.feed (.set y (prio y))) prio q := by
  have e : upd p.prio y (prio y) = p.prio := by funext z; rw [h.prio]; simp only [upd_apply]; split <;> simp_all
  refine ⟨by simp only [Spec.feed]; rw [e]; exact h.prio, h.nodup, h.mem, fun y k hk => by have := h.lt y k hk; simp [Spec.feed]; omega, h.sorted.imp fun {a b} hab => ?_⟩
  simpa [before, Spec.feed, e] using hab

/-- Another observation. -/
theorem QInv.other {p : Spec} {prio : Nat → Int} {q : List Nat} (h : QInv p prio q) {o : Obs} (ho : p.feed o = { p with n := p.n + 1 }) : QInv (p.feed o) prio q := by
  rw [ho]
  exact ⟨h.prio, h.nodup, h.mem, fun y k hk => by have := h.lt y k hk; show k < p.n + 1; omega, h.sorted⟩

/-- The priority of a fiber in the queue is set. -/
theorem QInv.move {p : Spec} {prio : Nat → Int} {y : Nat} {q : List Nat} (h : QInv p prio q) (r : Int) :
    QInv ((p.feed (.set y r)).feed (.ready y r)) (upd prio y r) (insert (upd prio y r) y (q.erase y)) := by
  let p' : Spec := { n := p.n + 1, since := upd p.since y none, prio := upd p.prio y r }
  have e : (p.feed (.set y r)).feed (.ready y r) = p'.feed (.ready y r) := by
    simp only [Spec.feed, p', Spec.mk.injEq, true_and, and_true]
    funext z; simp only [upd_apply]; split <;> rfl
  rw [e]
  have hm : ∀ z, z ∈ q.erase y ↔ z ∈ q ∧ z ≠ y := fun z => by rw [h.nodup.mem_erase_iff]; grind
  refine QInv.ready ⟨by rw [h.prio], h.nodup.erase y, fun z => ?_, fun z k hk => ?_, ?_⟩ (by simp [hm]) r
  · rw [hm, h.mem]
    by_cases hz : z = y
    · subst hz; simp [p']
    · simp [p', hz]
  · by_cases hz : z = y
    · subst hz; simp [p'] at hk
    · simp [p', hz] at hk ⊢; have := h.lt z k hk; omega
  · refine (h.sorted.sublist List.erase_sublist).imp_of_mem fun {a b} ha hb hab => ?_
    simpa [before, p', ((hm a).1 ha).2, ((hm b).1 hb).2] using hab

/-! ## The scheduler -/

/-- `l`: the fibers the dispatcher has taken from the remote queue, and not yet made ready. -/
structure InvL (l : List Nat) (s : State) (tr : List Obs) : Prop where
  q : QInv (spec tr) s.prio s.queue
  st : ∀ y, s.st y = .ready ↔ y ∈ s.queue
  run : ∀ y, s.st y = .running ↔ y = s.cur
  dprio : s.prio disp = 0
  dst : s.st disp = .ready ∨ s.st disp = .running
  rst : ∀ y, y ∈ s.remoteq ++ l ↔ s.st y = .remote
  rnodup : (s.remoteq ++ l).Nodup
  sst : ∀ y t, (t, y) ∈ s.sleepq ↔ s.st y = .asleep t
  snodup : (s.sleepq.map (·.2)).Nodup
  sorted : s.sleepq.Pairwise (fun a b => a.1 ≤ b.1)
  noub : .ub ∉ tr

abbrev Inv (s : State) (tr : List Obs) : Prop := InvL [] s tr

theorem spec_append (a b : List Obs) : spec (a ++ b) = b.foldl Spec.feed (spec a) := by simp [spec]

theorem init_inv : Inv init [] := by
  constructor
  · refine ⟨rfl, by simp [init], fun y => ?_, fun y k hk => ?_, by simp [init]⟩
    · simp [init, spec, Spec.start]
    · simp only [spec, List.foldl_nil, Spec.start] at hk ⊢; split at hk <;> simp_all
  all_goals simp [init, disp]
  all_goals grind

/-- A fiber that is not ready becomes ready. -/
theorem schedule_inv {l : List Nat} {s : State} {tr : List Obs} {y : Nat} (h : InvL l s tr) (h1 : s.st y ≠ .ready) (h2 : s.st y ≠ .running) (h3 : s.st y ≠ .remote) :
    InvL l (schedule s y).1 (tr ++ (schedule s y).2) := by
  have hq : y ∉ s.queue := fun hc => h1 ((h.st y).2 hc)
  simp only [schedule]
  constructor
  · simp only [spec_append, List.foldl_cons, List.foldl_nil]; exact h.q.ready hq _
  · intro z; have := h.st z; simp only [mem_insert]; grind [upd_apply]
  · intro z; have := h.run z; have := h.run y; grind [upd_apply]
  · exact h.dprio
  · have := h.dst; grind [upd_apply]
  · intro z; have := h.rst z; grind [upd_apply]
  · exact h.rnodup
  · intro z t; have := h.sst z t; simp only [List.mem_filter]; grind [upd_apply]
  · exact h.snodup.sublist (List.filter_sublist.map _)
  · exact h.sorted.sublist List.filter_sublist
  · have := h.noub; simp [this]

theorem schedule_remote {l : List Nat} {s : State} {tr : List Obs} {y : Nat} (h : InvL (y :: l) s tr) : InvL l (schedule s y).1 (tr ++ (schedule s y).2) := by
  have hr := (h.rst y).1 (by simp)
  have hq : y ∉ s.queue := fun hc => by have := (h.st y).2 hc; simp [hr] at this
  have hn := h.rnodup
  have hy : y ∉ s.remoteq ++ l := by
    rw [List.nodup_append] at hn
    have := hn.2.1; have := hn.2.2
    grind
  simp only [schedule]
  constructor
  · simp only [spec_append, List.foldl_cons, List.foldl_nil]; exact h.q.ready hq _
  · intro z; have := h.st z; simp only [mem_insert]; grind [upd_apply]
  · intro z; have := h.run z; have := h.run y; grind [upd_apply]
  · exact h.dprio
  · have := h.dst; grind [upd_apply]
  · intro z; have := h.rst z; grind [upd_apply]
  · exact hn.sublist (List.Sublist.append (List.Sublist.refl _) (List.sublist_cons_self _ _))
  · intro z t; have := h.sst z t; simp only [List.mem_filter]; grind [upd_apply]
  · exact h.snodup.sublist (List.filter_sublist.map _)
  · exact h.sorted.sublist List.filter_sublist
  · have := h.noub; simp [this]

theorem scheduleAll_remote : ∀ {l : List Nat} {s : State} {tr : List Obs}, InvL l s tr → Inv (scheduleAll s l).1 (tr ++ (scheduleAll s l).2) := by
  intro l
  induction l with
  | nil => intro s tr h; simpa [scheduleAll] using h
  | cons y l ih =>
    intro s tr h
    have := ih (schedule_remote h)
    simpa [scheduleAll] using this

theorem schedule_st {s : State} {y z : Nat} (h : z ≠ y) : (schedule s y).1.st z = s.st z := by simp [schedule, h]

theorem scheduleAll_asleep : ∀ {l : List Nat} {s : State} {tr : List Obs}, Inv s tr → l.Nodup → (∀ y ∈ l, ∃ t, s.st y = .asleep t) → Inv (scheduleAll s l).1 (tr ++ (scheduleAll s l).2) := by
  intro l
  induction l with
  | nil => intro s tr h _ _; simpa [scheduleAll] using h
  | cons y l ih =>
    intro s tr h hn hl
    rw [List.nodup_cons] at hn
    obtain ⟨t, ht⟩ := hl y (by simp)
    have := ih (schedule_inv h (y := y) (by simp [ht]) (by simp [ht]) (by simp [ht])) hn.2 (fun z hz => by
      rw [schedule_st (by rintro rfl; exact hn.1 hz)]; exact hl z (by simp [hz]))
    simpa [scheduleAll] using this

theorem mem_sleepIns {t x : Nat} {a : Nat × Nat} {q : List (Nat × Nat)} : a ∈ sleepIns t x q ↔ a = (t, x) ∨ a ∈ q := by
  induction q with
  | nil => simp [sleepIns]
  | cons b q ih => simp only [sleepIns]; split <;> simp [ih]; grind

theorem nodup_sleepIns {t x : Nat} {q : List (Nat × Nat)} (h : (q.map (·.2)).Nodup) (hx : ∀ u, (u, x) ∉ q) : ((sleepIns t x q).map (·.2)).Nodup := by
  induction q with
  | nil => simp [sleepIns]
  | cons b q ih =>
    simp only [List.map_cons, List.nodup_cons] at h
    have hx' : ∀ u, (u, x) ∉ q := fun u hu => hx u (by simp [hu])
    have hbx : b.2 ≠ x := fun e => hx b.1 (by simp [← e])
    simp only [sleepIns]
    split
    · simp only [List.map_cons, List.nodup_cons]
      refine ⟨?_, h⟩
      simp only [List.mem_cons, List.mem_map, not_or, not_exists, not_and]
      exact ⟨fun e => hbx e.symm, fun c hc e => hx' c.1 (by rw [← e]; exact hc)⟩
    · simp only [List.map_cons, List.nodup_cons]
      refine ⟨?_, ih h.2 hx'⟩
      simp only [List.mem_map, not_exists, not_and]
      intro c hc e
      rcases mem_sleepIns.1 hc with rfl | hc
      · exact hbx e.symm
      · exact h.1 (List.mem_map.2 ⟨c, hc, e⟩)

theorem sorted_sleepIns {t x : Nat} {q : List (Nat × Nat)} (h : q.Pairwise (fun a b => a.1 ≤ b.1)) : (sleepIns t x q).Pairwise (fun a b => a.1 ≤ b.1) := by
  induction q with
  | nil => simp [sleepIns]
  | cons b q ih =>
    rw [List.pairwise_cons] at h
    simp only [sleepIns]
    split
    · rename_i hlt
      rw [List.pairwise_cons]
      refine ⟨fun c hc => ?_, List.pairwise_cons.2 h⟩
      rcases List.mem_cons.1 hc with rfl | hc
      · simp; omega
      · have := h.1 c hc; simp at hlt ⊢; omega
    · rename_i hlt
      rw [List.pairwise_cons]
      refine ⟨fun c hc => ?_, ih h.2⟩
      rcases mem_sleepIns.1 hc with rfl | hc
      · simp at hlt ⊢; omega
      · exact h.1 c hc

/-- A fiber that yields: the first fiber of the queue runs, and the other one is put into the queue. -/
theorem leave_ready {s : State} {tr : List Obs} (h : Inv s tr) (hne : s.queue ≠ []) : Inv (leave s .ready).1 (tr ++ (leave s .ready).2) := by
  cases hq : s.queue with
  | nil => exact absurd hq hne
  | cons x q =>
    have hc := (h.run s.cur).2 rfl
    have hx := (h.st x).2 (by simp [hq])
    have hxc : x ≠ s.cur := by rintro rfl; simp [hc] at hx
    have hQ := h.q
    rw [hq] at hQ
    have hst : ∀ y, s.st y = .ready ↔ y = x ∨ y ∈ q := fun y => by rw [h.st, hq]; simp
    have hxq : x ∉ q := (List.nodup_cons.1 hQ.nodup).1
    have hcq : s.cur ∉ q := fun hh => by have := (hst s.cur).2 (.inr hh); simp [hc] at this
    simp only [leave, hq, if_true, schedule]
    constructor
    · simp only [spec_append, List.foldl_cons, List.foldl_nil]; exact hQ.ran.ready hcq _
    · intro z; have := hst z; simp only [mem_insert]; grind [upd_apply]
    · intro z; have := h.run z; grind [upd_apply]
    · exact h.dprio
    · have := h.dst; grind [upd_apply]
    · intro z; have := h.rst z; grind [upd_apply]
    · exact h.rnodup
    · intro z t; have := h.sst z t; simp only [List.mem_filter]; grind [upd_apply]
    · exact h.snodup.sublist (List.filter_sublist.map _)
    · exact h.sorted.sublist List.filter_sublist
    · have := h.noub; simp [this]

/-- A fiber that does not stay ready. -/
theorem leave_not {s : State} {tr : List Obs} {r : St} (h : Inv s tr) (hr : r = .blocked ∨ r = .ended) (hd : s.cur ≠ disp) (hne : s.queue ≠ []) : Inv (leave s r).1 (tr ++ (leave s r).2) := by
  cases hq : s.queue with
  | nil => exact absurd hq hne
  | cons x q =>
    have hc := (h.run s.cur).2 rfl
    have hx := (h.st x).2 (by simp [hq])
    have hxc : x ≠ s.cur := by rintro rfl; simp [hc] at hx
    have hQ := h.q
    rw [hq] at hQ
    have hst : ∀ y, s.st y = .ready ↔ y = x ∨ y ∈ q := fun y => by rw [h.st, hq]; simp
    have hxq : x ∉ q := (List.nodup_cons.1 hQ.nodup).1
    have hrr : r ≠ .ready := by rcases hr with rfl | rfl <;> simp
    simp only [leave, hq, if_neg hrr]
    constructor
    · simp only [spec_append, List.foldl_cons, List.foldl_nil]; exact hQ.ran
    · intro z; have := hst z; grind [upd_apply]
    · intro z; have := h.run z; grind [upd_apply]
    · exact h.dprio
    · have := h.dst; grind [upd_apply]
    · intro z; have := h.rst z; grind [upd_apply]
    · exact h.rnodup
    · intro z t; have := h.sst z t; grind [upd_apply]
    · exact h.snodup
    · exact h.sorted
    · have := h.noub; simp [this]

/-- A fiber that falls asleep. -/
theorem leave_asleep {s : State} {tr : List Obs} {t : Nat} (h : Inv s tr) (hd : s.cur ≠ disp) (hne : s.queue ≠ []) :
    Inv (leave { s with sleepq := sleepIns t s.cur s.sleepq } (.asleep t)).1 (tr ++ (leave { s with sleepq := sleepIns t s.cur s.sleepq } (.asleep t)).2) := by
  cases hq : s.queue with
  | nil => exact absurd hq hne
  | cons x q =>
    have hc := (h.run s.cur).2 rfl
    have hx := (h.st x).2 (by simp [hq])
    have hxc : x ≠ s.cur := by rintro rfl; simp [hc] at hx
    have hQ := h.q
    rw [hq] at hQ
    have hst : ∀ y, s.st y = .ready ↔ y = x ∨ y ∈ q := fun y => by rw [h.st, hq]; simp
    have hxq : x ∉ q := (List.nodup_cons.1 hQ.nodup).1
    simp only [leave, hq, reduceCtorEq, if_false]
    constructor
    · simp only [spec_append, List.foldl_cons, List.foldl_nil]; exact hQ.ran
    · intro z; have := hst z; grind [upd_apply]
    · intro z; have := h.run z; grind [upd_apply]
    · exact h.dprio
    · have := h.dst; grind [upd_apply]
    · intro z; have := h.rst z; grind [upd_apply]
    · exact h.rnodup
    · intro z u; have := h.sst z u; simp only [mem_sleepIns]; grind [upd_apply]
    · exact nodup_sleepIns h.snodup fun u hu => by have := (h.sst s.cur u).1 hu; simp [hc] at this
    · exact sorted_sleepIns h.sorted
    · have := h.noub; simp [this]

theorem queue_ne {s : State} {tr : List Obs} (h : Inv s tr) (hd : s.cur ≠ disp) : s.queue ≠ [] := by
  have hr : s.st disp = .ready := by
    rcases h.dst with h1 | h1
    · exact h1
    · exact absurd ((h.run disp).1 h1).symm hd
  have := (h.st disp).1 hr
  intro e; simp [e] at this

theorem inv_step {s s' : State} {e : Event} {tr o : List Obs} (h : Inv s tr) (he : step s e = some (s', o)) : Inv s' (tr ++ o) := by
  cases e with
  | tick n =>
    simp only [step, Option.some.injEq, Prod.mk.injEq] at he; obtain ⟨rfl, rfl⟩ := he
    rw [List.append_nil]
    exact ⟨h.q, h.st, h.run, h.dprio, h.dst, h.rst, h.rnodup, h.sst, h.snodup, h.sorted, h.noub⟩
  | remote y =>
    simp only [step] at he
    have key : (s.st y = .blocked ∨ ∃ t, s.st y = .asleep t) ∧ s' = { s with remoteq := s.remoteq ++ [y], st := upd s.st y .remote, sleepq := s.sleepq.filter (·.2 ≠ y) } ∧ o = [] := by
      split at he
      · simp only [Option.some.injEq, Prod.mk.injEq] at he; exact ⟨.inl (by assumption), he.1.symm, he.2.symm⟩
      · simp only [Option.some.injEq, Prod.mk.injEq] at he; exact ⟨.inr ⟨_, by assumption⟩, he.1.symm, he.2.symm⟩
      · cases he
    obtain ⟨hy, rfl, rfl⟩ := key
    have h1 := h.rst y
    rw [List.append_nil]
    constructor
    · exact h.q
    · intro z; have := h.st z; grind [upd_apply]
    · intro z; have := h.run z; have := h.run y; grind [upd_apply]
    · exact h.dprio
    · have := h.dst; grind [upd_apply]
    · intro z; have := h.rst z; grind [upd_apply]
    · have := h.rnodup; grind
    · intro z t; have := h.sst z t; simp only [List.mem_filter]; grind [upd_apply]
    · exact h.snodup.sublist (List.filter_sublist.map _)
    · exact h.sorted.sublist List.filter_sublist
    · exact h.noub
  | turn =>
    simp only [step] at he
    split at he
    · rename_i hd
      have h0 : InvL s.remoteq { s with remoteq := [] } tr :=
        ⟨h.q, h.st, h.run, h.dprio, h.dst, by have := h.rst; simpa using this, by have := h.rnodup; simpa using this, h.sst, h.snodup, h.sorted, h.noub⟩
      have h1 := scheduleAll_remote h0
      have hsl : ((scheduleAll { s with remoteq := [] } s.remoteq).1.sleepq.takeWhile (·.1 ≤ (scheduleAll { s with remoteq := [] } s.remoteq).1.now)).Sublist
        (scheduleAll { s with remoteq := [] } s.remoteq).1.sleepq := List.takeWhile_sublist _
      have h2 := scheduleAll_asleep h1 (h1.snodup.sublist (hsl.map _)) (fun y hy => by
        obtain ⟨a, ha, rfl⟩ := List.mem_map.1 hy
        exact ⟨a.1, (h1.sst a.2 a.1).1 (hsl.subset ha)⟩)
      split at he
      · simp only [Option.some.injEq, Prod.mk.injEq] at he; obtain ⟨rfl, rfl⟩ := he
        rw [← List.append_assoc]; exact h2
      · rename_i hq
        simp only [Option.some.injEq, Prod.mk.injEq] at he; obtain ⟨rfl, rfl⟩ := he
        have := leave_ready h2 (by rw [hq]; simp)
        rw [← List.append_assoc, ← List.append_assoc]; exact this
    · cases he
  | yield =>
    simp only [step] at he
    split at he; · cases he
    rename_i hd
    simp only [Option.some.injEq, Prod.mk.injEq] at he; obtain ⟨rfl, rfl⟩ := he
    have h1 : Inv s (tr ++ [.yielded s.cur]) :=
      ⟨by rw [spec_append]; exact h.q.other (o := .yielded s.cur) rfl, h.st, h.run, h.dprio, h.dst, h.rst, h.rnodup, h.sst, h.snodup, h.sorted, by have := h.noub; simp [this]⟩
    have := leave_ready h1 (queue_ne h hd)
    simpa using this
  | block =>
    simp only [step] at he
    split at he; · cases he
    rename_i hd
    simp only [Option.some.injEq] at he
    have := leave_not h (.inl rfl) hd (queue_ne h hd)
    rw [he] at this; exact this
  | sleep t =>
    simp only [step] at he
    split at he; · cases he
    rename_i hd
    simp only [Option.some.injEq] at he
    have := leave_asleep (t := t) h hd (queue_ne h hd)
    rw [he] at this; exact this
  | finish =>
    simp only [step] at he
    split at he; · cases he
    rename_i hd
    split at he; · cases he
    simp only [Option.some.injEq] at he
    have := leave_not h (.inr rfl) hd (queue_ne h hd)
    rw [he] at this; exact this
  | post y =>
    simp only [step] at he
    split at he; · cases he
    split at he
    · rename_i hu
      simp only [Option.some.injEq] at he
      have := schedule_inv (y := y) h (by simp [hu]) (by simp [hu]) (by simp [hu])
      rw [he] at this; exact this
    · cases he
  | dispatch y =>
    simp only [step] at he
    split at he; · cases he
    rename_i hd
    split at he
    · rename_i hu
      simp only [Option.some.injEq, Prod.mk.injEq] at he; obtain ⟨rfl, rfl⟩ := he
      have hc := (h.run s.cur).2 rfl
      have hcq : s.cur ∉ s.queue := fun hh => by have := (h.st s.cur).2 hh; simp [hc] at this
      have hyc : y ≠ s.cur := by rintro rfl; simp [hc] at hu
      simp only [schedule]
      constructor
      · simp only [spec_append, List.foldl_cons, List.foldl_nil]; exact (h.q.other (o := .started y) rfl).ready hcq _
      · intro z; have := h.st z; simp only [mem_insert]; grind [upd_apply]
      · intro z; have := h.run z; grind [upd_apply]
      · exact h.dprio
      · have := h.dst; grind [upd_apply]
      · intro z; have := h.rst z; grind [upd_apply]
      · exact h.rnodup
      · intro z t; have := h.sst z t; simp only [List.mem_filter]; grind [upd_apply]
      · exact h.snodup.sublist (List.filter_sublist.map _)
      · exact h.sorted.sublist List.filter_sublist
      · have := h.noub; simp [this]
    · cases he
  | wake y =>
    simp only [step] at he
    split at he; · cases he
    split at he
    · rename_i hu
      simp only [Option.some.injEq] at he
      have := schedule_inv (y := y) h (by simp [hu]) (by simp [hu]) (by simp [hu])
      rw [he] at this; exact this
    · rename_i hu
      simp only [Option.some.injEq] at he
      have := schedule_inv (y := y) h (by simp [hu]) (by simp [hu]) (by simp [hu])
      rw [he] at this; exact this
    · cases he
  | setPriority y p =>
    simp only [step] at he
    split at he; · cases he
    split at he; · cases he
    rename_i hy
    have hyd : y ≠ disp := fun e => hy (.inl e)
    split at he
    · rename_i hp
      simp only [Option.some.injEq, Prod.mk.injEq] at he; obtain ⟨rfl, rfl⟩ := he
      subst hp
      exact ⟨by rw [spec_append]; exact h.q.same, h.st, h.run, h.dprio, h.dst, h.rst, h.rnodup, h.sst, h.snodup, h.sorted, by have := h.noub; simp [this]⟩
    split at he
    · rename_i hp hq
      simp only [Option.some.injEq, Prod.mk.injEq] at he; obtain ⟨rfl, rfl⟩ := he
      refine ⟨by simp only [spec_append, List.foldl_cons, List.foldl_nil]; exact h.q.move p, fun z => ?_, h.run, ?_, h.dst, h.rst, h.rnodup, h.sst, h.snodup, h.sorted, by have := h.noub; simp [this]⟩
      · have := h.st z
        simp only [mem_insert, h.q.nodup.mem_erase_iff]
        grind
      · simp [Ne.symm hyd, h.dprio]
    · rename_i hp hq
      simp only [Option.some.injEq, Prod.mk.injEq] at he; obtain ⟨rfl, rfl⟩ := he
      refine ⟨by simp only [spec_append, List.foldl_cons, List.foldl_nil]; exact h.q.set hq p, h.st, h.run, ?_, h.dst, h.rst, h.rnodup, h.sst, h.snodup, h.sorted, by have := h.noub; simp [this]⟩
      simp [Ne.symm hyd, h.dprio]

theorem reach_inv {s : State} {tr : List Obs} (h : Reach step init s tr) : Inv s tr := by
  induction h with
  | refl => exact init_inv
  | tail e _ hs ih => exact inv_step ih hs

/-! ## All observations of a run are as they should be -/

/-- What has to hold when something is observed. -/
def okObs (p : Spec) : Obs → Prop
  | .ran x => (∃ k, p.since x = some k) ∧ ∀ y, y ≠ x → (∃ k, p.since y = some k) → before p x y
  | .ready y r => r = p.prio y
  | .started x => p.since x = none
  | .yielded x => p.since x = none
  | .set _ _ => True
  | .ub => False

def Good : Spec → List Obs → Prop
  | _, [] => True
  | p, o :: os => okObs p o ∧ Good (p.feed o) os

theorem good_append {p : Spec} {a b : List Obs} : Good p (a ++ b) ↔ Good p a ∧ Good (a.foldl Spec.feed p) b := by
  induction a generalizing p with
  | nil => simp [Good]
  | cons o a ih => simp [Good, ih, and_assoc]

theorem good_mid {p : Spec} {a b : List Obs} {o : Obs} (h : Good p (a ++ o :: b)) : okObs (a.foldl Spec.feed p) o := (good_append.1 h).2.1

theorem good_schedule {l : List Nat} {s : State} {tr : List Obs} {y : Nat} (h : InvL l s tr) : Good (spec tr) (schedule s y).2 := by
  simp [schedule, Good, okObs, h.q.prio]

theorem good_scheduleAll {l : List Nat} : ∀ {p : Spec} {s : State}, p.prio = s.prio → Good p (scheduleAll s l).2 := by
  induction l with
  | nil => intro p s _; simp [scheduleAll, Good]
  | cons y l ih =>
    intro p s hp
    simp only [scheduleAll, schedule, List.cons_append, List.nil_append, Good, okObs, hp, true_and]
    exact ih (by simp [Spec.feed, hp])

theorem good_leave {s : State} {tr : List Obs} {r : St} (h : QInv (spec tr) s.prio s.queue) (hne : s.queue ≠ []) : Good (spec tr) (leave s r).2 := by
  cases hq : s.queue with
  | nil => exact absurd hq hne
  | cons x q =>
    rw [hq] at h
    have h1 : okObs (spec tr) (.ran x) := by
      refine ⟨(h.mem x).1 (by simp), fun y hy hk => ?_⟩
      have := (h.mem y).2 hk
      have hs := h.sorted
      rw [List.pairwise_cons] at hs
      rcases List.mem_cons.1 this with rfl | hm
      · exact absurd rfl hy
      · exact hs.1 y hm
    simp only [leave, hq]
    by_cases hr : r = .ready
    · simp only [hr, if_true, schedule, Good, and_true]
      exact ⟨h1, by simp only [okObs, Spec.feed, h.prio]⟩
    · simp only [hr, if_false, Good, h1, true_and]

theorem good_step {s s' : State} {e : Event} {tr o : List Obs} (h : Inv s tr) (he : step s e = some (s', o)) : Good (spec tr) o := by
  have hcn : (spec tr).since s.cur = none := by
    have hc := (h.run s.cur).2 rfl
    cases hh : (spec tr).since s.cur with
    | none => rfl
    | some k => have := (h.st s.cur).2 ((h.q.mem _).2 ⟨k, hh⟩); simp [hc] at this
  cases e with
  | tick n => simp only [step, Option.some.injEq, Prod.mk.injEq] at he; obtain ⟨rfl, rfl⟩ := he; trivial
  | remote y => simp only [step] at he; split at he <;> simp only [Option.some.injEq, Prod.mk.injEq, reduceCtorEq] at he <;> (obtain ⟨rfl, rfl⟩ := he; trivial)
  | turn =>
    simp only [step] at he
    split at he
    · rename_i hd
      have h0 : InvL s.remoteq { s with remoteq := [] } tr :=
        ⟨h.q, h.st, h.run, h.dprio, h.dst, by have := h.rst; simpa using this, by have := h.rnodup; simpa using this, h.sst, h.snodup, h.sorted, h.noub⟩
      have h1 := scheduleAll_remote h0
      have g1 : Good (spec tr) (scheduleAll { s with remoteq := [] } s.remoteq).2 := good_scheduleAll h.q.prio.symm
      have hsl : ((scheduleAll { s with remoteq := [] } s.remoteq).1.sleepq.takeWhile (·.1 ≤ (scheduleAll { s with remoteq := [] } s.remoteq).1.now)).Sublist
        (scheduleAll { s with remoteq := [] } s.remoteq).1.sleepq := List.takeWhile_sublist _
      have h2 := scheduleAll_asleep h1 (h1.snodup.sublist (hsl.map _)) (fun y hy => by
        obtain ⟨a, ha, rfl⟩ := List.mem_map.1 hy
        exact ⟨a.1, (h1.sst a.2 a.1).1 (hsl.subset ha)⟩)
      have g2 := good_scheduleAll (l := ((scheduleAll { s with remoteq := [] } s.remoteq).1.sleepq.takeWhile (·.1 ≤ (scheduleAll { s with remoteq := [] } s.remoteq).1.now)).map (·.2)) h1.q.prio.symm
      rw [spec_append] at g2
      have g12 := good_append.2 ⟨g1, g2⟩
      split at he
      · simp only [Option.some.injEq, Prod.mk.injEq] at he; obtain ⟨rfl, rfl⟩ := he
        exact g12
      · rename_i hq
        simp only [Option.some.injEq, Prod.mk.injEq] at he; obtain ⟨rfl, rfl⟩ := he
        refine good_append.2 ⟨g12, ?_⟩
        have g3 := good_leave (r := .ready) h2.q (by rw [hq]; simp)
        rw [List.append_assoc, spec_append] at g3
        exact g3
    · cases he
  | yield =>
    simp only [step] at he
    split at he; · cases he
    rename_i hd
    simp only [Option.some.injEq, Prod.mk.injEq] at he; obtain ⟨rfl, rfl⟩ := he
    have h1 : QInv (spec (tr ++ [.yielded s.cur])) s.prio s.queue := by rw [spec_append]; exact h.q.other (o := .yielded s.cur) rfl
    have := good_leave (r := .ready) h1 (queue_ne h hd)
    rw [spec_append] at this
    exact ⟨hcn, this⟩
  | block =>
    simp only [step] at he
    split at he; · cases he
    rename_i hd
    simp only [Option.some.injEq] at he
    have := good_leave (r := .blocked) h.q (queue_ne h hd)
    rw [he] at this; exact this
  | sleep t =>
    simp only [step] at he
    split at he; · cases he
    rename_i hd
    simp only [Option.some.injEq] at he
    have hq := queue_ne h hd
    have := good_leave (s := { s with sleepq := sleepIns t s.cur s.sleepq }) (r := .asleep t) h.q hq
    rw [he] at this; exact this
  | finish =>
    simp only [step] at he
    split at he; · cases he
    rename_i hd
    split at he; · cases he
    simp only [Option.some.injEq] at he
    have := good_leave (r := .ended) h.q (queue_ne h hd)
    rw [he] at this; exact this
  | post y =>
    simp only [step] at he
    split at he; · cases he
    split at he
    · simp only [Option.some.injEq] at he
      have := good_schedule (y := y) h
      rw [he] at this; exact this
    · cases he
  | dispatch y =>
    simp only [step] at he
    split at he; · cases he
    split at he
    · rename_i hu
      simp only [Option.some.injEq, Prod.mk.injEq] at he; obtain ⟨rfl, rfl⟩ := he
      have hyn : (spec tr).since y = none := by
        cases hh : (spec tr).since y with
        | none => rfl
        | some k => have := (h.st y).2 ((h.q.mem _).2 ⟨k, hh⟩); simp [hu] at this
      simp [Good, okObs, hyn, schedule, Spec.feed, h.q.prio]
    · cases he
  | wake y =>
    simp only [step] at he
    split at he; · cases he
    split at he
    · simp only [Option.some.injEq] at he
      have := good_schedule (y := y) h
      rw [he] at this; exact this
    · simp only [Option.some.injEq] at he
      have := good_schedule (y := y) h
      rw [he] at this; exact this
    · cases he
  | setPriority y p =>
    simp only [step] at he
    split at he; · cases he
    split at he; · cases he
    split at he
    · simp only [Option.some.injEq, Prod.mk.injEq] at he; obtain ⟨rfl, rfl⟩ := he
      simp [Good, okObs]
    split at he
    · simp only [Option.some.injEq, Prod.mk.injEq] at he; obtain ⟨rfl, rfl⟩ := he
      simp [Good, okObs, Spec.feed]
    · simp only [Option.some.injEq, Prod.mk.injEq] at he; obtain ⟨rfl, rfl⟩ := he
      simp [Good, okObs]

theorem reach_good {s : State} {tr : List Obs} (h : Reach step init s tr) : Good Spec.start tr := by
  induction h with
  | refl => trivial
  | tail e h1 hs ih => exact good_append.2 ⟨ih, good_step (reach_inv h1) hs⟩

/-! ## How long a fiber waits in the queue -/

theorem idx_cons_ne {a x : Nat} {q : List Nat} (h : a ≠ x) : (a :: q).idxOf x = q.idxOf x + 1 := by
  have : (a == x) = false := by simpa using h
  simp [List.idxOf_cons, this]

theorem idx_insert {prio : Nat → Int} {x y : Nat} {q : List Nat} (hx : x ∈ q) (hs : q.Pairwise (fun a b => prio b ≤ prio a)) (hp : prio y ≤ prio x) (hy : y ≠ x) :
    (insert prio y q).idxOf x = q.idxOf x := by
  induction q with
  | nil => simp at hx
  | cons a q ih =>
    rw [List.pairwise_cons] at hs
    have hle : prio x ≤ prio a := by
      rcases List.mem_cons.1 hx with rfl | h
      · exact Int.le_refl _
      · exact hs.1 x h
    have : ¬ prio a < prio y := by omega
    simp only [insert, this, if_false]
    by_cases ha : a = x
    · subst ha; simp
    · rw [idx_cons_ne ha, idx_cons_ne ha, ih (by grind) hs.2]

theorem idx_erase {x y : Nat} {q : List Nat} (hy : y ≠ x) : (q.erase y).idxOf x ≤ q.idxOf x := by
  induction q with
  | nil => simp
  | cons a q ih =>
    by_cases ha : a = y
    · subst ha; rw [List.erase_cons_head, idx_cons_ne hy]; omega
    · rw [List.erase_cons_tail (by simpa using ha)]
      by_cases hx : a = x
      · subst hx; simp
      · rw [idx_cons_ne hx, idx_cons_ne hx]; omega

theorem QInv.le {p : Spec} {prio : Nat → Int} {q : List Nat} (h : QInv p prio q) : q.Pairwise (fun a b => prio b ≤ prio a) := by
  refine h.sorted.imp fun {a b} hab => ?_
  rw [h.prio]; unfold before at hab; omega

/-- The number of times a fiber was taken from the queue. -/
def runs (tr : List Obs) : Nat := tr.countP (fun o => match o with | .ran _ => true | _ => false)

/-- What is not to happen while fiber `x`, of priority `p`, waits for its turn. -/
def quietFor (x : Nat) (p : Int) : Obs → Prop
  | .ready _ r => r ≤ p
  | .set y _ => y ≠ x
  | .ran y => y ≠ x
  | _ => True

/-- `x` is still in the queue, and nearer to its front by the number of fibers that ran. -/
structure Near (x : Nat) (s s' : State) (n : Nat) : Prop where
  mem : x ∈ s'.queue
  prio : s'.prio x = s.prio x
  idx : n + s'.queue.idxOf x ≤ s.queue.idxOf x

theorem Near.trans {x : Nat} {s s1 s2 : State} {m n : Nat} (h1 : Near x s s1 m) (h2 : Near x s1 s2 n) : Near x s s2 (m + n) :=
  ⟨h2.mem, h2.prio.trans h1.prio, by have := h1.idx; have := h2.idx; omega⟩

theorem runs_append {a b : List Obs} : runs (a ++ b) = runs a + runs b := by simp [runs]

theorem near_schedule {x y : Nat} {s : State} (hs : s.queue.Pairwise (fun a b => s.prio b ≤ s.prio a)) (hx : x ∈ s.queue) (hy : y ≠ x) (hq : s.prio y ≤ s.prio x) : Near x s (schedule s y).1 0 := by
  refine ⟨by simp [schedule, mem_insert, hx], rfl, ?_⟩
  simp only [schedule]
  rw [idx_insert hx hs hq hy]; omega

theorem sorted_insert {prio : Nat → Int} {y : Nat} {q : List Nat} (hs : q.Pairwise (fun a b => prio b ≤ prio a)) : (insert prio y q).Pairwise (fun a b => prio b ≤ prio a) := by
  induction q with
  | nil => simp [insert]
  | cons a q ih =>
    have hs' := hs
    rw [List.pairwise_cons] at hs
    simp only [insert]
    split
    · rename_i hlt
      rw [List.pairwise_cons]
      refine ⟨fun b hb => ?_, hs'⟩
      rcases List.mem_cons.1 hb with rfl | hb
      · omega
      · have := hs.1 b hb; omega
    · rename_i hlt
      rw [List.pairwise_cons]
      refine ⟨fun b hb => ?_, ih hs.2⟩
      rcases mem_insert.1 hb with rfl | hb
      · omega
      · exact hs.1 b hb

theorem near_scheduleAll {x : Nat} : ∀ {l : List Nat} {s : State}, s.queue.Pairwise (fun a b => s.prio b ≤ s.prio a) → x ∈ s.queue → x ∉ l → (∀ o ∈ (scheduleAll s l).2, quietFor x (s.prio x) o) →
    Near x s (scheduleAll s l).1 (runs (scheduleAll s l).2) := by
  intro l
  induction l with
  | nil => intro s _ hx _ _; exact ⟨hx, rfl, by simp [scheduleAll, runs]⟩
  | cons y l ih =>
    intro s hs hx hl ho
    simp only [scheduleAll] at ho ⊢
    have hyx : y ≠ x := fun e => hl (by simp [e])
    have h1 := near_schedule hs hx hyx (by have := ho (.ready y (s.prio y)) (by simp [schedule]); simpa [quietFor] using this)
    have h2 := ih (s := (schedule s y).1) (by simp only [schedule]; exact sorted_insert hs) h1.mem (fun e => hl (by simp [e])) (fun o hh => by rw [h1.prio]; exact ho o (by simp [hh]))
    have := h1.trans h2
    simpa [runs_append, schedule, runs] using this

theorem near_leave {x : Nat} {s : State} {r : St} (hs : s.queue.Pairwise (fun a b => s.prio b ≤ s.prio a)) (hx : x ∈ s.queue) (hc : s.cur ≠ x) (ho : ∀ o ∈ (leave s r).2, quietFor x (s.prio x) o) :
    Near x s (leave s r).1 (runs (leave s r).2) := by
  cases hq : s.queue with
  | nil => simp [hq] at hx
  | cons a q =>
    simp only [leave, hq] at ho ⊢
    rw [hq] at hx hs
    rw [List.pairwise_cons] at hs
    have ha : a ≠ x := by
      have := ho (.ran a) (by split <;> simp)
      simpa [quietFor] using this
    have hxq : x ∈ q := by grind
    by_cases hr : r = .ready
    · simp only [hr, if_true] at ho ⊢
      have hp : s.prio s.cur ≤ s.prio x := by
        have := ho (.ready s.cur (s.prio s.cur)) (by simp [schedule])
        simpa [quietFor] using this
      refine ⟨by simp [schedule, mem_insert, hxq], rfl, ?_⟩
      simp only [schedule]
      rw [idx_insert hxq hs.2 hp hc, hq, idx_cons_ne ha]
      simp [runs]; omega
    · simp only [hr, if_false] at ho ⊢
      refine ⟨hxq, rfl, ?_⟩
      rw [hq, idx_cons_ne ha]
      simp [runs]; omega

theorem near_step {x : Nat} {s s' : State} {e : Event} {tr o : List Obs} (h : Inv s tr) (hx : x ∈ s.queue) (he : step s e = some (s', o)) (ho : ∀ ob ∈ o, quietFor x (s.prio x) ob) :
    Near x s s' (runs o) := by
  have hs := h.q.le
  have hxr := (h.st x).2 hx
  have hc : s.cur ≠ x := by
    rintro rfl; have := (h.run s.cur).2 rfl; simp [hxr] at this
  have hrefl : Near x s s 0 := ⟨hx, rfl, by omega⟩
  cases e with
  | tick n => simp only [step, Option.some.injEq, Prod.mk.injEq] at he; obtain ⟨rfl, rfl⟩ := he; exact ⟨hx, rfl, by simp [runs]⟩
  | remote y =>
    simp only [step] at he
    split at he <;> simp only [Option.some.injEq, Prod.mk.injEq, reduceCtorEq] at he <;> (obtain ⟨rfl, rfl⟩ := he; exact ⟨hx, rfl, by simp [runs]⟩)
  | turn =>
    simp only [step] at he
    split at he
    · rename_i hd
      have h0 : InvL s.remoteq { s with remoteq := [] } tr :=
        ⟨h.q, h.st, h.run, h.dprio, h.dst, by have := h.rst; simpa using this, by have := h.rnodup; simpa using this, h.sst, h.snodup, h.sorted, h.noub⟩
      have h1 := scheduleAll_remote h0
      have hsl : ((scheduleAll { s with remoteq := [] } s.remoteq).1.sleepq.takeWhile (·.1 ≤ (scheduleAll { s with remoteq := [] } s.remoteq).1.now)).Sublist
        (scheduleAll { s with remoteq := [] } s.remoteq).1.sleepq := List.takeWhile_sublist _
      have h2 := scheduleAll_asleep h1 (h1.snodup.sublist (hsl.map _)) (fun y hy => by
        obtain ⟨a, ha, rfl⟩ := List.mem_map.1 hy
        exact ⟨a.1, (h1.sst a.2 a.1).1 (hsl.subset ha)⟩)
      have q1 : ∀ ob ∈ (scheduleAll { s with remoteq := [] } s.remoteq).2, ob ∈ o := by
        split at he <;> (simp only [Option.some.injEq, Prod.mk.injEq] at he; obtain ⟨rfl, rfl⟩ := he; intro ob hb; simp [hb])
      have n1 : Near x { s with remoteq := [] } _ _ := near_scheduleAll (s := { s with remoteq := [] }) (l := s.remoteq) hs hx
        (fun hm => by have := (h.rst x).1 (by simp [hm]); simp [hxr] at this) (fun ob hb => ho ob (q1 ob hb))
      have n1' : Near x s _ _ := Near.trans (m := 0) (s1 := { s with remoteq := [] }) ⟨hx, rfl, by simp⟩ n1
      have q2 : ∀ ob ∈ (scheduleAll (scheduleAll { s with remoteq := [] } s.remoteq).1 (((scheduleAll { s with remoteq := [] } s.remoteq).1.sleepq.takeWhile (·.1 ≤ (scheduleAll { s with remoteq := [] } s.remoteq).1.now)).map (·.2))).2, ob ∈ o := by
        split at he <;> (simp only [Option.some.injEq, Prod.mk.injEq] at he; obtain ⟨rfl, rfl⟩ := he; intro ob hb; simp [hb])
      have n2 := near_scheduleAll (x := x) (l := ((scheduleAll { s with remoteq := [] } s.remoteq).1.sleepq.takeWhile (·.1 ≤ (scheduleAll { s with remoteq := [] } s.remoteq).1.now)).map (·.2)) h1.q.le n1.mem
        (fun hm => by
          obtain ⟨a, ha, e⟩ := List.mem_map.1 hm
          have h3 := (h1.sst a.2 a.1).1 (hsl.subset ha)
          have h4 := (h1.st x).2 n1.mem
          rw [e] at h3; simp [h3] at h4)
        (fun ob hb => by rw [n1'.prio]; exact ho ob (q2 ob hb))
      have n12 := n1'.trans n2
      split at he
      · simp only [Option.some.injEq, Prod.mk.injEq] at he; obtain ⟨rfl, rfl⟩ := he
        rw [runs_append]; simpa using n12
      · rename_i hq
        simp only [Option.some.injEq, Prod.mk.injEq] at he; obtain ⟨rfl, rfl⟩ := he
        have n3 := near_leave (x := x) (r := .ready) h2.q.le n12.mem (by
          intro e
          have h3 := (h2.run x).2 e.symm
          have h4 := (h2.st x).2 n12.mem
          simp [h3] at h4) (fun ob hb => by rw [n12.prio]; exact ho ob (by simp [hb]))
        have := n12.trans n3
        rw [runs_append, runs_append]; simpa using this
    · cases he
  | yield =>
    simp only [step] at he
    split at he; · cases he
    simp only [Option.some.injEq, Prod.mk.injEq] at he; obtain ⟨rfl, rfl⟩ := he
    have := near_leave (r := .ready) hs hx hc (fun ob hb => ho ob (by simp [hb]))
    simpa [runs] using this
  | block =>
    simp only [step] at he
    split at he; · cases he
    simp only [Option.some.injEq] at he
    have := near_leave (r := .blocked) hs hx hc (by rw [he]; exact ho)
    rw [he] at this; exact this
  | sleep t =>
    simp only [step] at he
    split at he; · cases he
    simp only [Option.some.injEq] at he
    have := near_leave (s := { s with sleepq := sleepIns t s.cur s.sleepq }) (r := .asleep t) hs hx hc (by rw [he]; exact ho)
    rw [he] at this; exact ⟨this.mem, this.prio, this.idx⟩
  | finish =>
    simp only [step] at he
    split at he; · cases he
    split at he; · cases he
    simp only [Option.some.injEq] at he
    have := near_leave (r := .ended) hs hx hc (by rw [he]; exact ho)
    rw [he] at this; exact this
  | post y =>
    simp only [step] at he
    split at he; · cases he
    split at he
    · rename_i hu
      simp only [Option.some.injEq] at he
      have := near_schedule (y := y) hs hx (by rintro rfl; simp [hxr] at hu) (by
        have := ho (.ready y (s.prio y)) (by have e := congrArg (·.2) he; simp only at e; rw [← e]; simp [schedule]); simpa [quietFor] using this)
      rw [he] at this
      have e := congrArg (·.2) he; simp only [schedule] at e; rw [← e]; simpa [runs] using this
    · cases he
  | dispatch y =>
    simp only [step] at he
    split at he; · cases he
    split at he
    · simp only [Option.some.injEq, Prod.mk.injEq] at he; obtain ⟨rfl, rfl⟩ := he
      have := near_schedule (s := { s with cur := y, st := upd s.st y .running }) (y := s.cur) hs hx hc (by
        have := ho (.ready s.cur (s.prio s.cur)) (by simp [schedule]); simpa [quietFor] using this)
      exact ⟨this.mem, this.prio, by have := this.idx; simpa [runs, schedule] using this⟩
    · cases he
  | wake y =>
    simp only [step] at he
    split at he; · cases he
    have key : s.st y ≠ .ready ∧ schedule s y = (s', o) := by
      split at he <;> simp_all
    obtain ⟨hu, he⟩ := key
    have := near_schedule (y := y) hs hx (by rintro rfl; exact hu hxr) (by
      have := ho (.ready y (s.prio y)) (by have e := congrArg (·.2) he; simp only at e; rw [← e]; simp [schedule]); simpa [quietFor] using this)
    rw [he] at this
    have e := congrArg (·.2) he; simp only [schedule] at e; rw [← e]; simpa [runs] using this
  | setPriority y p =>
    simp only [step] at he
    split at he; · cases he
    split at he; · cases he
    split at he
    · simp only [Option.some.injEq, Prod.mk.injEq] at he; obtain ⟨rfl, rfl⟩ := he
      simpa [runs] using hrefl
    split at he
    · simp only [Option.some.injEq, Prod.mk.injEq] at he; obtain ⟨rfl, rfl⟩ := he
      have hyx : y ≠ x := by have := ho (.set y p) (by simp); simpa [quietFor] using this
      have hp : p ≤ s.prio x := by have := ho (.ready y p) (by simp); simpa [quietFor] using this
      have hm : x ∈ s.queue.erase y := (List.mem_erase_of_ne (Ne.symm hyx)).2 hx
      have hs2 : (s.queue.erase y).Pairwise (fun a b => upd s.prio y p b ≤ upd s.prio y p a) := by
        refine (hs.sublist List.erase_sublist).imp_of_mem fun {a b} ha hb hab => ?_
        have h1 := (h.q.nodup.mem_erase_iff.1 ha).1
        have h2 := (h.q.nodup.mem_erase_iff.1 hb).1
        simpa [h1, h2] using hab
      refine ⟨by simp [mem_insert, hm], by simp [Ne.symm hyx], ?_⟩
      show runs _ + (insert (upd s.prio y p) y (s.queue.erase y)).idxOf x ≤ _
      rw [idx_insert hm hs2 (by simpa [Ne.symm hyx] using hp) hyx]
      have := idx_erase (q := s.queue) hyx
      simpa [runs] using this
    · simp only [Option.some.injEq, Prod.mk.injEq] at he; obtain ⟨rfl, rfl⟩ := he
      have hyx : y ≠ x := by have := ho (.set y p) (by simp); simpa [quietFor] using this
      exact ⟨hx, by simp [Ne.symm hyx], by simp [runs]⟩

theorem near_reach {x : Nat} {s0 s1 : State} {tr0 tr : List Obs} (h0 : Reach step init s0 tr0) (hx : x ∈ s0.queue) (h : Reach step s0 s1 tr) (ho : ∀ ob ∈ tr, quietFor x (s0.prio x) ob) :
    Near x s0 s1 (runs tr) := by
  induction h with
  | refl => exact ⟨hx, rfl, by simp [runs]⟩
  | tail e h1 hs ih =>
    have n1 := ih (fun ob hb => ho ob (by simp [hb]))
    have n2 := near_step (reach_inv (h0.trans h1)) n1.mem hs (fun ob hb => by rw [n1.prio]; exact ho ob (by simp [hb]))
    rw [runs_append]; exact n1.trans n2

/-! ## A turn of the dispatcher -/

theorem scheduleAll_mem {y : Nat} : ∀ {l : List Nat} {s : State}, y ∈ l → .ready y (s.prio y) ∈ (scheduleAll s l).2 := by
  intro l
  induction l with
  | nil => intro s h; simp at h
  | cons z l ih =>
    intro s h
    simp only [scheduleAll]
    rcases List.mem_cons.1 h with rfl | h
    · simp [schedule]
    · have := ih (s := (schedule s z).1) h; simp only [List.mem_append]; exact .inr this

theorem scheduleAll_fields : ∀ {l : List Nat} {s : State}, (scheduleAll s l).1.prio = s.prio ∧ (scheduleAll s l).1.now = s.now ∧ ∀ z, z ∉ l → (scheduleAll s l).1.st z = s.st z := by
  intro l
  induction l with
  | nil => intro s; simp [scheduleAll]
  | cons z l ih =>
    intro s
    simp only [scheduleAll]
    obtain ⟨h1, h2, h3⟩ := ih (s := (schedule s z).1)
    refine ⟨h1, h2, fun w hw => ?_⟩
    rw [h3 w (fun hh => hw (by simp [hh])), schedule_st (fun e => hw (by simp [e]))]

theorem mem_takeWhile {n : Nat} {a : Nat × Nat} : ∀ {q : List (Nat × Nat)}, q.Pairwise (fun a b => a.1 ≤ b.1) → a ∈ q → a.1 ≤ n → a ∈ q.takeWhile (·.1 ≤ n) := by
  intro q
  induction q with
  | nil => intro _ h _; simp at h
  | cons b q ih =>
    intro hs ha hn
    rw [List.pairwise_cons] at hs
    have hb : b.1 ≤ n := by
      rcases List.mem_cons.1 ha with rfl | h
      · exact hn
      · have := hs.1 a h; omega
    rw [List.takeWhile_cons]
    simp only [hb, decide_true, if_true, List.mem_cons]
    rcases List.mem_cons.1 ha with rfl | h
    · exact .inl rfl
    · exact .inr (ih hs.2 h hn)

theorem turn_ready {s s' : State} {tr o : List Obs} {x : Nat} (h : Inv s tr) (he : step s .turn = some (s', o)) (hx : s.st x = .remote ∨ ∃ t, s.st x = .asleep t ∧ t ≤ s.now) : .ready x (s.prio x) ∈ o := by
  simp only [step] at he
  split at he
  · have h0 : InvL s.remoteq { s with remoteq := [] } tr :=
      ⟨h.q, h.st, h.run, h.dprio, h.dst, by have := h.rst; simpa using this, by have := h.rnodup; simpa using this, h.sst, h.snodup, h.sorted, h.noub⟩
    have h1 := scheduleAll_remote h0
    obtain ⟨f1, f2, f3⟩ := scheduleAll_fields (l := s.remoteq) (s := { s with remoteq := [] })
    have key : .ready x (s.prio x) ∈ (scheduleAll { s with remoteq := [] } s.remoteq).2 ∨
        .ready x (s.prio x) ∈ (scheduleAll (scheduleAll { s with remoteq := [] } s.remoteq).1 (((scheduleAll { s with remoteq := [] } s.remoteq).1.sleepq.takeWhile (·.1 ≤ (scheduleAll { s with remoteq := [] } s.remoteq).1.now)).map (·.2))).2 := by
      rcases hx with hx | ⟨t, hx, ht⟩
      · left
        have := (h.rst x).2 hx
        exact scheduleAll_mem (s := { s with remoteq := [] }) (by simpa using this)
      · right
        have hnr : x ∉ s.remoteq := fun hm => by have := (h.rst x).1 (by simp [hm]); simp [hx] at this
        have h2 : (t, x) ∈ (scheduleAll { s with remoteq := [] } s.remoteq).1.sleepq := (h1.sst x t).2 (by rw [f3 x hnr]; exact hx)
        have h3 := mem_takeWhile (n := (scheduleAll { s with remoteq := [] } s.remoteq).1.now) h1.sorted h2 (by rw [f2]; exact ht)
        have := scheduleAll_mem (s := (scheduleAll { s with remoteq := [] } s.remoteq).1) (List.mem_map (f := fun a : Nat × Nat => a.2) |>.2 ⟨_, h3, rfl⟩)
        rw [f1] at this; exact this
    split at he <;> (simp only [Option.some.injEq, Prod.mk.injEq] at he; obtain ⟨rfl, rfl⟩ := he; grind)
  · cases he

end Verif.Priority
