import Verif.WaitStuff

/-!
# Waiting for the first, and for all of several functions: invariants
-/

namespace Verif.WaitStuff

theorem length_le {n : Nat} : ∀ {l : List Nat}, l.Nodup → (∀ i ∈ l, i < n) → l.length ≤ n := by
  induction n with
  | zero => intro l _ h; cases l with
    | nil => simp
    | cons a l => exact absurd (h a (by simp)) (by omega)
  | succ n ih =>
    intro l hn h
    have := ih (l := l.erase n) (hn.erase n) (fun i hi => by
      have h1 := h i (List.mem_of_mem_erase hi)
      have h2 : i ≠ n := by rintro rfl; exact absurd hi (by simp [hn.mem_erase_iff])
      omega)
    have := List.length_erase (a := n) (l := l)
    grind

theorem mem_of_length {n : Nat} {l : List Nat} (hn : l.Nodup) (h : ∀ i ∈ l, i < n) (hl : n ≤ l.length) {i : Nat} (hi : i < n) : i ∈ l := by
  apply Classical.byContradiction
  intro hc
  have := length_le (n := n) (l := i :: l) (by simp [hn, hc]) (by grind)
  simp at this; omega

theorem perm_range {n : Nat} {l : List Nat} (hn : l.Nodup) (h : ∀ i ∈ l, i < n) (hl : n ≤ l.length) : l.Perm (List.range n) :=
  (List.perm_ext_iff_of_nodup hn List.nodup_range).2 fun i => by
    simp only [List.mem_range]
    exact ⟨h i, mem_of_length hn h hl⟩

/-- In this order the functions came to their end. -/
def finishes (tr : List Obs) : List Nat := tr.filterMap fun | .finished i => some i | _ => none
/-- In this order the results came into the channel. -/
def pushes (tr : List Obs) : List Nat := tr.filterMap fun | .pushed i => some i | _ => none
/-- What the waiting function returned. -/
def results (tr : List Obs) : List Result := tr.filterMap fun | .result r => some r | _ => none

def Kind.simple : Kind → Bool
  | .firstSimple | .allSimple => true
  | _ => false

/-- What the waiting fiber has when it comes back with `r`. -/
def Good (c : Config) (s : State) (r : Result) : Prop :=
  match c.kind with
  | .firstSimple => r = .none ∧ s.ready = true
  | .allSimple => r = .none ∧ c.n + 1 ≤ s.arrived
  | .firstValue | .firstOutcome => ∃ i, s.got = [i] ∧ r = (c.out i).result
  | .firstSuccess =>
    (∃ l i v, s.got = l ++ [i] ∧ c.out i = .val v ∧ (∀ j ∈ l, (c.out j).isErr = true) ∧ r = .value v) ∨
      (s.got.length = c.n ∧ (∀ j ∈ s.got, (c.out j).isErr = true) ∧ r = .errors (errs c s.got))
  | .untilError =>
    (∃ l i e, s.got = l ++ [i] ∧ c.out i = .err e ∧ (∀ j ∈ l, (c.out j).isErr = false) ∧ r = .error e) ∨
      (s.closed = true ∧ s.queue = [] ∧ (∀ j ∈ s.got, (c.out j).isErr = false) ∧ r = .values (vals c s.got))
  | .allValues | .collectErrors => s.closed = true ∧ s.queue = [] ∧ r = last c s.got

/-- In all runs. -/
structure Inv (c : Config) (s : State) (tr : List Obs) : Prop where
  push : pushes tr = s.got ++ s.queue
  pnodup : (pushes tr).Nodup
  plt : ∀ i ∈ pushes tr, i < c.n
  ppc : ∀ i ∈ pushes tr, s.pc i = .pushed ∨ (∃ l, s.pc i = .loaded l) ∨ s.pc i = .toClose ∨ s.pc i = .done
  pin : ∀ i, s.pc i = .pushed ∨ (∃ l, s.pc i = .loaded l) ∨ s.pc i = .toClose → i ∈ pushes tr
  pdone : ∀ i, c.kind.simple = false → s.pc i = .done → i ∈ pushes tr ∨ s.closed = true
  psimple : c.kind.simple = true → pushes tr = []
  pcounts : c.kind.counts = false → ∀ i, s.pc i ≠ .pushed ∧ (∀ l, s.pc i ≠ .loaded l) ∧ s.pc i ≠ .toClose
  fin : ∀ i, s.dead = false → (i ∈ finishes tr ↔ s.pc i ≠ .run)
  fnodup : (finishes tr).Nodup
  flt : ∀ i ∈ finishes tr, i < c.n
  plt' : ∀ i, s.pc i ≠ .run → i < c.n
  nerr : c.kind.catches = false → ∀ i, s.pc i ≠ .run → (c.out i).isErr = false
  cap : s.queue.length ≤ c.cap
  bar : ∀ i, s.pc i = .bar → c.kind = .allSimple
  full : ∀ i, s.pc i = .full → c.kind.simple = false
  ready : s.ready = true → ∃ i, s.pc i = .done
  ready' : c.kind = .firstSimple → ∀ i, s.pc i = .done → s.ready = true
  arr : c.kind = .allSimple → ∃ A : List Nat, A.Nodup ∧ (∀ i, i ∈ A ↔ s.pc i = .bar ∨ s.pc i = .done) ∧ s.arrived = 1 + A.length
  dec : c.kind.counts = true → ∃ D : List Nat, D.Nodup ∧ (∀ i ∈ D, (s.pc i = .toClose ∨ s.pc i = .done) ∧ i ∈ pushes tr) ∧ c.n ≤ s.limit + D.length ∧
    (∀ i l, s.pc i = .loaded l → c.n ≤ l + D.length) ∧ (∀ i, s.pc i = .toClose → c.n ≤ D.length) ∧ (s.closed = true → c.n ≤ D.length)
  loop : s.main = .loop → s.closed = true → c.kind.counts = true
  loop1 : s.main = .loop → c.kind.counts = false ∧ c.kind ≠ .firstSuccess → s.got = []
  loop2 : s.main = .loop → c.kind = .firstSuccess → (s.got.length < c.n ∨ s.got = []) ∧ ∀ j ∈ s.got, (c.out j).isErr = true
  loop3 : s.main = .loop → c.kind = .untilError → ∀ j ∈ s.got, (c.out j).isErr = false
  closing : ∀ r, s.main = .closing r → s.closed = false ∧ Good c s r ∧ c.kind.counts = false ∧ c.kind.simple = false ∧ ∀ l, r ≠ .errors l
  done : ∀ r, s.main = .done r → Good c s r
  done' : ∀ r, s.main = .done r → c.kind.counts = false → c.kind.simple = false → s.closed = true ∨ c.kind = .firstSuccess ∧ s.got.length = c.n
  res : ∀ r, r ∈ results tr ↔ s.main = .done r
  resn : (results tr).length ≤ 1
  dead : s.dead = true ↔ .terminate ∈ tr
  dcatch : s.dead = true → c.kind.catches = false
  sub : ∀ i, s.pc i ≠ .run → i ∈ finishes tr

theorem init_inv (c : Config) : Inv c (init c) [] := by
  constructor <;> simp [pushes, finishes, results, init]
  · exact fun _ => ⟨[], by simp⟩
  · exact fun h _ => h

theorem pushes_append (a b : List Obs) : pushes (a ++ b) = pushes a ++ pushes b := by simp [pushes]
theorem finishes_append (a b : List Obs) : finishes (a ++ b) = finishes a ++ finishes b := by simp [finishes]
theorem results_append (a b : List Obs) : results (a ++ b) = results a ++ results b := by simp [results]

set_option maxHeartbeats 4000000 in
theorem inv_finish {c : Config} {s s' : State} {tr o : List Obs} {i : Nat} (h : Inv c s tr) (he : step c s (.finish i) = some (s', o)) : Inv c s' (tr ++ o) := by
  simp only [step] at he
  split at he; · cases he
  rename_i hd
  have hd : s.dead = false := by grind
  split at he
  · rename_i hi
    split at he
    · simp only [Option.some.injEq, Prod.mk.injEq] at he; obtain ⟨rfl, rfl⟩ := he
      have e1 : pushes (tr ++ [Obs.finished i, .terminate]) = pushes tr := by simp [pushes]
      have e2 : finishes (tr ++ [Obs.finished i, .terminate]) = finishes tr ++ [i] := by simp [finishes]
      have e3 : results (tr ++ [Obs.finished i, .terminate]) = results tr := by simp [results]
      have hf := h.flt
      constructor <;> simp only [e1, e2, e3]
      all_goals first
        | exact h.push | exact h.pnodup | exact h.plt | exact h.ppc | exact h.pin | exact h.pdone | exact h.psimple | exact h.pcounts
        | exact h.plt' | exact h.nerr | exact h.cap | exact h.bar | exact h.full | exact h.ready | exact h.ready' | exact h.arr | exact h.dec
        | exact h.loop | exact h.loop1 | exact h.loop2 | exact h.loop3 | exact h.closing | exact h.done | exact h.done' | exact h.res | exact h.resn
        | (have := h.fnodup; have := (h.fin i hd).1; grind) | (have := h.sub; grind) | (intros; grind) | simp
    · simp only [Option.some.injEq, Prod.mk.injEq] at he; obtain ⟨rfl, rfl⟩ := he
      have e1 : pushes (tr ++ [Obs.finished i]) = pushes tr := by simp [pushes]
      have e2 : finishes (tr ++ [Obs.finished i]) = finishes tr ++ [i] := by simp [finishes]
      have e3 : results (tr ++ [Obs.finished i]) = results tr := by simp [results]
      constructor <;> simp only [e1, e2, e3, setPc]
      · exact h.push
      · exact h.pnodup
      · exact h.plt
      · have := h.ppc; grind [upd_apply]
      · have := h.pin; grind [upd_apply]
      · have := h.pdone; grind [upd_apply]
      · exact h.psimple
      · have := h.pcounts; grind [upd_apply]
      · have := h.fin; grind [upd_apply]
      · have := h.fnodup; have := h.fin i hd; grind
      · have := h.flt; grind
      · have := h.plt'; grind [upd_apply]
      · have := h.nerr; grind [upd_apply]
      · exact h.cap
      · have := h.bar; grind [upd_apply]
      · have := h.full; grind [upd_apply]
      · intro hr; obtain ⟨j, hj⟩ := h.ready hr; exact ⟨j, by grind [upd_apply]⟩
      · have := h.ready'; grind [upd_apply]
      · intro hk
        obtain ⟨A, h1, h2, h3⟩ := h.arr hk
        exact ⟨A, h1, by grind [upd_apply], h3⟩
      · intro hk
        obtain ⟨A, h1, h2, h3, h4, h5, h6⟩ := h.dec hk
        exact ⟨A, h1, by grind [upd_apply], h3, by grind [upd_apply], by grind [upd_apply], h6⟩
      · exact h.loop
      · exact h.loop1
      · exact h.loop2
      · exact h.loop3
      · exact h.closing
      · exact h.done
      · exact h.done'
      · exact h.res
      · exact h.resn
      · have := h.dead; simp [this]
      · exact h.dcatch
      · have := h.sub; grind [upd_apply]
  · cases he

theorem pushes_nil (a : List Obs) : pushes (a ++ []) = pushes a := by simp
theorem finishes_nil (a : List Obs) : finishes (a ++ []) = finishes a := by simp
theorem results_nil (a : List Obs) : results (a ++ []) = results a := by simp
theorem pushes_push (a : List Obs) (i : Nat) : pushes (a ++ [.pushed i]) = pushes a ++ [i] := by simp [pushes]
theorem finishes_push (a : List Obs) (i : Nat) : finishes (a ++ [.pushed i]) = finishes a := by simp [finishes]
theorem results_push (a : List Obs) (i : Nat) : results (a ++ [.pushed i]) = results a := by simp [results]

/-- `Good` depends on the channel and on what was got. -/
theorem Good.of {c : Config} {s s' : State} {r : Result} (h : Good c s r) (hr : s.ready = true → s'.ready = true) (ha : s.arrived ≤ s'.arrived) (hg : s'.got = s.got)
    (hc : s.closed = true → s'.closed = true ∧ s'.queue = s.queue) : Good c s' r := by
  cases hk : c.kind <;> simp only [Good, hk] at h ⊢ <;> grind

set_option maxHeartbeats 4000000 in
theorem inv_push {c : Config} {s s' : State} {tr o : List Obs} {i : Nat} (h : Inv c s tr) (hi : i < c.n) (hk : c.kind.simple = false) (hd : s.dead = false)
    (hp : s.pc i = .fin ∨ s.pc i = .full) (he : push c s i = some (s', o)) : Inv c s' (tr ++ o) := by
  have hip : i ∉ pushes tr := fun hc => by have := h.ppc i hc; grind
  unfold push at he
  split at he
  · simp only [Option.some.injEq, Prod.mk.injEq] at he; obtain ⟨rfl, rfl⟩ := he
    constructor <;> simp only [pushes_nil, finishes_nil, results_nil, setPc]
    · exact h.push
    · exact h.pnodup
    · exact h.plt
    · have := h.ppc; grind [upd_apply]
    · have := h.pin; grind [upd_apply]
    · have := h.pdone; grind [upd_apply]
    · exact h.psimple
    · have := h.pcounts; grind [upd_apply]
    · have := h.fin; grind [upd_apply]
    · exact h.fnodup
    · exact h.flt
    · have := h.plt'; grind [upd_apply]
    · have := h.nerr; grind [upd_apply]
    · exact h.cap
    · have := h.bar; grind [upd_apply]
    · have := h.full; grind [upd_apply]
    · intro hr; exact ⟨i, by simp⟩
    · intro hk'; simp [hk', Kind.simple] at hk
    · intro hk'; simp [hk', Kind.simple] at hk
    · intro hk
      obtain ⟨A, h1, h2, h3, h4, h5, h6⟩ := h.dec hk
      exact ⟨A, h1, by grind [upd_apply], h3, by grind [upd_apply], by grind [upd_apply], h6⟩
    · exact h.loop
    · exact h.loop1
    · exact h.loop2
    · exact h.loop3
    · exact h.closing
    · exact h.done
    · exact h.done'
    · exact h.res
    · exact h.resn
    · have := h.dead; simp [this]
    · exact h.dcatch
    · have := h.sub; grind [upd_apply]
  rename_i hcl
  split at he
  · simp only [Option.some.injEq, Prod.mk.injEq] at he; obtain ⟨rfl, rfl⟩ := he
    rename_i hcap
    constructor <;> simp only [pushes_push, finishes_push, results_push, setPc]
    · simp [h.push]
    · have := h.pnodup; grind
    · have := h.plt; grind
    · have := h.ppc; grind [upd_apply]
    · have := h.pin; grind [upd_apply]
    · have := h.pdone; grind [upd_apply]
    · grind
    · have := h.pcounts; grind [upd_apply]
    · have := h.fin; grind [upd_apply]
    · exact h.fnodup
    · exact h.flt
    · have := h.plt'; grind [upd_apply]
    · have := h.nerr; grind [upd_apply]
    · grind
    · have := h.bar; grind [upd_apply]
    · have := h.full; grind [upd_apply]
    · intro hr
      obtain ⟨j, hj⟩ := h.ready hr; exact ⟨j, by grind [upd_apply]⟩
    · intro hk'; simp [hk', Kind.simple] at hk
    · intro hk'; simp [hk', Kind.simple] at hk
    · intro hk
      obtain ⟨A, h1, h2, h3, h4, h5, h6⟩ := h.dec hk
      exact ⟨A, h1, by grind [upd_apply], h3, by grind [upd_apply], by grind [upd_apply], h6⟩
    · exact h.loop
    · exact h.loop1
    · exact h.loop2
    · exact h.loop3
    · intro r hr
      have := h.closing r hr
      exact ⟨this.1, this.2.1.of (fun h => h) (Nat.le_refl _) rfl (by simp [hcl]), this.2.2⟩
    · exact fun r hr => (h.done r hr).of (fun h => h) (Nat.le_refl _) rfl (by simp [hcl])
    · exact h.done'
    · exact h.res
    · exact h.resn
    · have := h.dead; simp [this]
    · exact h.dcatch
    · have := h.sub; grind [upd_apply]
  split at he
  · cases he
  · simp only [Option.some.injEq, Prod.mk.injEq] at he; obtain ⟨rfl, rfl⟩ := he
    constructor <;> simp only [pushes_nil, finishes_nil, results_nil, setPc]
    · exact h.push
    · exact h.pnodup
    · exact h.plt
    · have := h.ppc; grind [upd_apply]
    · have := h.pin; grind [upd_apply]
    · have := h.pdone; grind [upd_apply]
    · exact h.psimple
    · have := h.pcounts; grind [upd_apply]
    · have := h.fin; grind [upd_apply]
    · exact h.fnodup
    · exact h.flt
    · have := h.plt'; grind [upd_apply]
    · have := h.nerr; grind [upd_apply]
    · exact h.cap
    · have := h.bar; grind [upd_apply]
    · have := h.full; grind [upd_apply]
    · intro hr
      obtain ⟨j, hj⟩ := h.ready hr; exact ⟨j, by grind [upd_apply]⟩
    · intro hk'; simp [hk', Kind.simple] at hk
    · intro hk'; simp [hk', Kind.simple] at hk
    · intro hk
      obtain ⟨A, h1, h2, h3, h4, h5, h6⟩ := h.dec hk
      exact ⟨A, h1, by grind [upd_apply], h3, by grind [upd_apply], by grind [upd_apply], h6⟩
    · exact h.loop
    · exact h.loop1
    · exact h.loop2
    · exact h.loop3
    · exact h.closing
    · exact h.done
    · exact h.done'
    · exact h.res
    · exact h.resn
    · have := h.dead; simp [this]
    · exact h.dcatch
    · have := h.sub; grind [upd_apply]

/-- A fiber goes on after it has put its result into the channel, or at the barrier. -/
theorem inv_move {c : Config} {s s' : State} {tr : List Obs} {i : Nat} {p : FPc} (h : Inv c s tr) (hd : s.dead = false) (hi : i < c.n)
    (hp : s.pc i ≠ .run ∧ s.pc i ≠ .full) (hd' : s.pc i ≠ .done)
    (h1 : s'.pc = upd s.pc i p) (h2 : s'.main = s.main) (h3 : s'.queue = s.queue) (h4 : s'.got = s.got) (h5 : s'.dead = s.dead)
    (hr : s.ready = true → s'.ready = true) (ha : s.arrived ≤ s'.arrived) (hc : s.closed = true → s'.closed = true)
    (p1 : i ∈ pushes tr → p = .pushed ∨ (∃ l, p = .loaded l) ∨ p = .toClose ∨ p = .done)
    (p2 : p = .pushed ∨ (∃ l, p = .loaded l) ∨ p = .toClose → i ∈ pushes tr)
    (p3 : p = .done → c.kind.simple = false → i ∈ pushes tr ∨ s'.closed = true)
    (p4 : p = .bar → c.kind = .allSimple) (p5 : p ≠ .full ∧ p ≠ .run)
    (p6 : p = .done → c.kind = .firstSimple → s'.ready = true) (p7 : s'.ready = true → s.ready = true ∨ p = .done)
    (p8 : c.kind = .allSimple → ((s.pc i = .bar ↔ p = .bar ∨ p = .done) ∧ s'.arrived = s.arrived) ∨ (s.pc i ≠ .bar ∧ (p = .bar ∨ p = .done) ∧ s'.arrived = s.arrived + 1))
    (p9 : c.kind.counts = false → (p = .pushed ∨ (∃ l, p = .loaded l) ∨ p = .toClose) → False)
    (p10 : c.kind.counts = false → s'.closed = s.closed)
    (p11 : c.kind.counts = true → ∃ D : List Nat, D.Nodup ∧ (∀ j ∈ D, (s'.pc j = .toClose ∨ s'.pc j = .done) ∧ j ∈ pushes tr) ∧ c.n ≤ s'.limit + D.length ∧
      (∀ j l, s'.pc j = .loaded l → c.n ≤ l + D.length) ∧ (∀ j, s'.pc j = .toClose → c.n ≤ D.length) ∧ (s'.closed = true → c.n ≤ D.length)) :
    Inv c s' (tr ++ []) := by
  have hg : ∀ r, Good c s r → Good c s' r := fun r hh => hh.of hr ha h4 fun hh => ⟨hc hh, h3⟩
  constructor <;> simp only [pushes_nil, finishes_nil, results_nil, h1, h2, h3, h4, h5]
  · exact h.push
  · exact h.pnodup
  · exact h.plt
  · have := h.ppc; grind [upd_apply]
  · have := h.pin; grind [upd_apply]
  · have := h.pdone; grind [upd_apply]
  · exact h.psimple
  · have := h.pcounts; grind [upd_apply]
  · have := h.fin; grind [upd_apply]
  · exact h.fnodup
  · exact h.flt
  · have := h.plt'; grind [upd_apply]
  · have := h.nerr; grind [upd_apply]
  · exact h.cap
  · have := h.bar; grind [upd_apply]
  · have := h.full; grind [upd_apply]
  · intro hr
    rcases p7 hr with hr | hr
    · obtain ⟨j, hj⟩ := h.ready hr; exact ⟨j, by grind [upd_apply]⟩
    · exact ⟨i, by simp [hr]⟩
  · have := h.ready'; grind [upd_apply]
  · intro hk
    obtain ⟨A, a1, a2, a3⟩ := h.arr hk
    rcases p8 hk with ⟨b1, b2⟩ | ⟨b1, b2, b3⟩
    · exact ⟨A, a1, by grind [upd_apply], by omega⟩
    · exact ⟨i :: A, by grind, by grind [upd_apply], by simp; omega⟩
  · rw [h1] at p11; exact p11
  · have := h.loop; grind
  · exact h.loop1
  · exact h.loop2
  · exact h.loop3
  · intro r hr; have := h.closing r hr; exact ⟨by rw [p10 this.2.2.1]; exact this.1, hg r this.2.1, this.2.2⟩
  · exact fun r hr => hg r (h.done r hr)
  · intro r hr; have := h.done' r hr; grind
  · exact h.res
  · exact h.resn
  · have := h.dead; simp [this]
  · exact h.dcatch
  · have := h.sub; grind [upd_apply]

set_option maxHeartbeats 4000000 in
theorem inv_fiber {c : Config} {s s' : State} {tr o : List Obs} {i : Nat} (h : Inv c s tr) (hi : i < c.n) (hd : s.dead = false)
    (he : fiber c s i = some (s', o)) : Inv c s' (tr ++ o) := by
  unfold fiber at he
  split at he
  · rename_i hp
    have hip : i ∉ pushes tr := fun hc => by have := h.ppc i hc; grind
    split at he
    · rename_i hk
      simp only [Option.some.injEq, Prod.mk.injEq] at he; obtain ⟨rfl, rfl⟩ := he
      apply inv_move h hd hi (p := .done) <;> simp [setPc, hp, hip, hk, Kind.simple, Kind.counts]
    · rename_i hk
      simp only [Option.some.injEq, Prod.mk.injEq] at he; obtain ⟨rfl, rfl⟩ := he
      apply inv_move h hd hi (p := .bar) <;> simp [setPc, hp, hip, hk, Kind.simple, Kind.counts]
    · exact inv_push h hi (by grind [Kind.simple]) hd (.inl hp) he
  · rename_i hp
    exact inv_push h hi (h.full i hp) hd (.inr hp) he
  · rename_i hp
    have hk := h.bar i hp
    have hip : i ∉ pushes tr := fun hc => by have := h.ppc i hc; grind
    split at he
    · simp only [Option.some.injEq, Prod.mk.injEq] at he; obtain ⟨rfl, rfl⟩ := he
      apply inv_move h hd hi (p := .done) <;> simp [setPc, hp, hip, hk, Kind.simple, Kind.counts]
    · cases he
  · rename_i hp
    have hip : i ∈ pushes tr := h.pin i (by simp [hp])
    have hk : c.kind.counts = true := by have := h.pcounts; grind
    have hk1 : c.kind.simple = false := by have := h.psimple; grind
    have hk2 : c.kind ≠ .allSimple := by rintro e; simp [e, Kind.simple] at hk1
    have hk3 : c.kind ≠ .firstSimple := by rintro e; simp [e, Kind.simple] at hk1
    simp only [Option.some.injEq, Prod.mk.injEq] at he; obtain ⟨rfl, rfl⟩ := he
    apply inv_move h hd hi (p := .loaded s.limit) <;> simp [setPc, hp, hip, hk, hk1, hk2, hk3]
    obtain ⟨D, a1, a2, a3, a4, a5, a6⟩ := h.dec hk
    exact ⟨D, a1, by grind [upd_apply], a3, by grind [upd_apply], by grind [upd_apply], a6⟩
  · rename_i l hp
    have hip : i ∈ pushes tr := h.pin i (by simp [hp])
    have hk : c.kind.counts = true := by have := h.pcounts; grind
    have hk1 : c.kind.simple = false := by have := h.psimple; grind
    have hk2 : c.kind ≠ .allSimple := by rintro e; simp [e, Kind.simple] at hk1
    have hk3 : c.kind ≠ .firstSimple := by rintro e; simp [e, Kind.simple] at hk1
    simp only [Option.some.injEq, Prod.mk.injEq] at he; obtain ⟨rfl, rfl⟩ := he
    apply inv_move h hd hi (p := if l - 1 = 0 then .toClose else .done) <;> simp [setPc, hp, hip, hk, hk1, hk2, hk3]
    · grind
    · grind
    · grind
    · grind
    · obtain ⟨D, a1, a2, a3, a4, a5, a6⟩ := h.dec hk
      exact ⟨i :: D, by grind, by grind [upd_apply], by grind, by grind [upd_apply], by grind [upd_apply], by grind⟩
  · rename_i hp
    have hip : i ∈ pushes tr := h.pin i (by simp [hp])
    have hk : c.kind.counts = true := by have := h.pcounts; grind
    have hk1 : c.kind.simple = false := by have := h.psimple; grind
    have hk2 : c.kind ≠ .allSimple := by rintro e; simp [e, Kind.simple] at hk1
    have hk3 : c.kind ≠ .firstSimple := by rintro e; simp [e, Kind.simple] at hk1
    simp only [Option.some.injEq, Prod.mk.injEq] at he; obtain ⟨rfl, rfl⟩ := he
    apply inv_move h hd hi (p := .done) <;> simp [setPc, hp, hip, hk, hk1, hk2, hk3]
    obtain ⟨D, a1, a2, a3, a4, a5, a6⟩ := h.dec hk
    exact ⟨D, a1, by grind [upd_apply], a3, by grind [upd_apply], by grind [upd_apply], by grind⟩
  · cases he

/-- The waiting fiber goes on. -/
theorem inv_mmove {c : Config} {s : State} {tr o : List Obs} {m : MPc} {q g : List Nat} {cl : Bool} (h : Inv c s tr) (hd : s.dead = false)
    (hgq : g ++ q = s.got ++ s.queue) (hql : q.length ≤ s.queue.length) (hcl : s.closed = true → cl = true)
    (hk : cl = true → s.closed = true ∨ c.kind.counts = false) (ho : o = toObs m) (hm : ∀ r, s.main ≠ .done r)
    (l0 : m = .loop → cl = true → c.kind.counts = true)
    (l1 : m = .loop → c.kind.counts = false ∧ c.kind ≠ .firstSuccess → g = [])
    (l2 : m = .loop → c.kind = .firstSuccess → (g.length < c.n ∨ g = []) ∧ ∀ j ∈ g, (c.out j).isErr = true)
    (l3 : m = .loop → c.kind = .untilError → ∀ j ∈ g, (c.out j).isErr = false)
    (l4 : ∀ r, m = .closing r → cl = false ∧ Good c { s with main := m, queue := q, got := g, closed := cl } r ∧ c.kind.counts = false ∧ c.kind.simple = false ∧ ∀ l, r ≠ .errors l)
    (l5 : ∀ r, m = .done r → Good c { s with main := m, queue := q, got := g, closed := cl } r)
    (l6 : ∀ r, m = .done r → c.kind.counts = false → c.kind.simple = false → cl = true ∨ c.kind = .firstSuccess ∧ g.length = c.n) :
    Inv c { s with main := m, queue := q, got := g, closed := cl } (tr ++ o) := by
  have e1 : pushes (tr ++ o) = pushes tr := by subst ho; cases m <;> simp [pushes, toObs]
  have e2 : finishes (tr ++ o) = finishes tr := by subst ho; cases m <;> simp [finishes, toObs]
  have e3 : results (tr ++ o) = results tr ++ (match m with | .done r => [r] | _ => []) := by subst ho; cases m <;> simp [results, toObs]
  have e4 : .terminate ∈ tr ++ o ↔ .terminate ∈ tr := by subst ho; cases m <;> simp [toObs]
  have e5 : results tr = [] := by
    cases hr : results tr with
    | nil => rfl
    | cons r l => exact absurd ((h.res r).1 (by simp [hr])) (hm r)
  constructor <;> simp only [e1, e2, e3, e4, e5]
  · rw [hgq]; exact h.push
  · exact h.pnodup
  · exact h.plt
  · exact h.ppc
  · exact h.pin
  · have := h.pdone; grind
  · exact h.psimple
  · exact h.pcounts
  · exact h.fin
  · exact h.fnodup
  · exact h.flt
  · exact h.plt'
  · exact h.nerr
  · have := h.cap; omega
  · exact h.bar
  · exact h.full
  · exact h.ready
  · exact h.ready'
  · exact h.arr
  · intro hk'
    obtain ⟨D, a1, a2, a3, a4, a5, a6⟩ := h.dec hk'
    exact ⟨D, a1, a2, a3, a4, a5, by grind⟩
  · exact l0
  · exact l1
  · exact l2
  · exact l3
  · exact l4
  · exact l5
  · exact l6
  · intro r; cases m <;> simp <;> grind
  · cases m <;> simp
  · exact h.dead
  · exact h.dcatch
  · have := h.sub; grind [upd_apply]

theorem isErr_false {o : Out} : o.isErr = false ↔ ∃ v, o = .val v := by cases o <;> simp [Out.isErr]
theorem isErr_true {o : Out} : o.isErr = true ↔ ∃ v, o = .err v := by cases o <;> simp [Out.isErr]

set_option maxHeartbeats 4000000 in
theorem inv_main {c : Config} {s s' : State} {tr o : List Obs} (h : Inv c s tr) (hd : s.dead = false)
    (he : main c s = some (s', o)) : Inv c s' (tr ++ o) := by
  unfold main at he
  split at he
  · rename_i hm
    split at he
    · rename_i hk
      split at he
      · rename_i hr
        simp only [Option.some.injEq, Prod.mk.injEq] at he; obtain ⟨rfl, rfl⟩ := he
        apply inv_mmove (m := .done .none) (q := s.queue) (g := s.got) (cl := s.closed) h hd <;> simp [hk, hm, toObs, Kind.counts, Kind.simple, Good, hr]
      · cases he
    · rename_i hk
      split at he
      · rename_i hr
        simp only [Option.some.injEq, Prod.mk.injEq] at he; obtain ⟨rfl, rfl⟩ := he
        apply inv_mmove (m := .done .none) (q := s.queue) (g := s.got) (cl := s.closed) h hd <;> simp [hk, hm, toObs, Kind.counts, Kind.simple, Good, hr]
      · cases he
    · rename_i hk1 hk2
      split at he
      · rename_i i q hq
        simp only [Option.some.injEq, Prod.mk.injEq] at he; obtain ⟨rfl, rfl⟩ := he
        have l0 := h.loop hm
        have l1 := h.loop1 hm
        have l2 := h.loop2 hm
        have l3 := h.loop3 hm
        have hlen : (s.got ++ [i]).length ≤ c.n := by
          have h1 := length_le h.pnodup h.plt
          rw [h.push, hq] at h1
          simp at h1 ⊢; omega
        have hre : ∀ l, (c.out i).result ≠ .errors l := fun l => by cases c.out i <;> simp [Out.result]
        cases hk : c.kind <;> simp only [hk, reduceCtorEq, not_true_eq_false] at hk1 hk2 l0 l1 l2 l3
        all_goals
          apply inv_mmove (m := next c (s.got ++ [i]) i) (q := q) (g := s.got ++ [i]) (cl := s.closed) h hd <;>
            try simp only [hk, hm, hq, toObs, Kind.counts, Kind.simple, Good, next]
          all_goals first
            | (simp; done)
            | (cases ho : c.out i <;> simp [ho, Out.isErr, Out.result] <;> grind [Out.isErr])
            | grind [Out.isErr, Kind.counts]
      · split at he
        · rename_i hq hc
          simp only [Option.some.injEq, Prod.mk.injEq] at he; obtain ⟨rfl, rfl⟩ := he
          have l0 := h.loop hm
          have l3 := h.loop3 hm
          apply inv_mmove (m := .done (last c s.got)) (q := s.queue) (g := s.got) (cl := s.closed) h hd <;> simp [hm, hq, toObs, hc]
          all_goals cases hk : c.kind <;> simp_all [Kind.counts, Kind.simple, Good, last]
        · cases he
  · rename_i r hm
    simp only [Option.some.injEq, Prod.mk.injEq] at he; obtain ⟨rfl, rfl⟩ := he
    apply inv_mmove (m := .done r) (q := s.queue) (g := s.got) (cl := true) h hd <;> simp [hm, toObs]
    · have := h.closing r hm; simp [this.2.2.1]
    · have := h.closing r hm
      exact this.2.1.of (fun h => h) (Nat.le_refl _) rfl (by simp [this.1])
  · cases he

theorem inv_step {c : Config} {s s' : State} {e : Event} {tr o : List Obs} (h : Inv c s tr) (he : step c s e = some (s', o)) : Inv c s' (tr ++ o) := by
  cases e with
  | finish i => exact inv_finish h he
  | fiber i =>
    simp only [step] at he
    split at he; · cases he
    split at he
    · exact inv_fiber h (by assumption) (by grind) he
    · cases he
  | main =>
    simp only [step] at he
    split at he; · cases he
    exact inv_main h (by grind) he

theorem reach_inv {c : Config} {s : State} {tr : List Obs} (h : Reach (step c) (init c) s tr) : Inv c s tr := by
  induction h with
  | refl => exact init_inv c
  | tail e _ hs ih => exact inv_step ih hs

/-- On one thread. -/
structure Coop (c : Config) (s : State) (tr : List Obs) : Prop where
  mid : ∀ i, (s.pc i).mid = true ↔ s.cur = some i
  cl : s.cur ≠ none → ∀ r, s.main ≠ .closing r
  lim1 : c.kind.counts = true → ∀ i, s.pc i = .pushed ∨ (∃ l, s.pc i = .loaded l) → s.limit + (pushes tr).length = c.n + 1
  lim1' : ∀ i l, s.pc i = .loaded l → l = s.limit
  lim2 : c.kind.counts = true → (∀ i, s.pc i ≠ .pushed ∧ ∀ l, s.pc i ≠ .loaded l) → s.limit + (pushes tr).length = c.n
  lim3 : c.kind.counts = true → s.limit = 0 → s.closed = true ∨ ∃ i, s.pc i = .toClose
  head : c.kind.simple = false → ∀ i, (finishes tr).head? = some i → (pushes tr).head? = some i ∨ (pushes tr = [] ∧ (s.pc i = .fin ∨ s.dead = true))
  order : c.kind.simple = false → c.n ≤ c.cap → s.closed = false → s.dead = false →
    finishes tr = pushes tr ++ (match s.cur with | some i => if s.pc i = .fin then [i] else [] | none => [])
  order' : c.kind.simple = false → c.n ≤ c.cap → pushes tr <+: finishes tr

theorem coop_init (c : Config) : Coop c (init c) [] := by
  constructor <;> simp [pushes, finishes, init, FPc.mid]
  exact fun h h' => ⟨h, h'⟩

theorem turn_cur {c : Config} {s : State} {e : Event} (ht : c.threads = false) (h : turn c s e = true) : (∀ i, s.cur = some i → e = .fiber i) ∧ (∀ r, s.main = .closing r → e = .main) := by
  simp only [turn, ht, Bool.false_or, Bool.and_eq_true] at h
  refine ⟨fun i hi => ?_, fun r hr => ?_⟩
  · have := h.1; rw [hi] at this; simpa using this
  · have := h.2; rw [hr] at this; simpa using this

theorem coop_finish {c : Config} {s s' : State} {tr o : List Obs} {i : Nat} (ht : c.threads = false) (h : Inv c s tr) (hc : Coop c s tr)
    (he : step c s (.finish i) = some (s', o)) : Coop c s' (tr ++ o) := by
  simp only [step] at he
  split at he; · cases he
  rename_i hd
  have hd : s.dead = false ∧ turn c s (.finish i) = true := by grind
  obtain ⟨hd, hu⟩ := hd
  have hu := turn_cur ht hu
  have hcur : s.cur = none := by cases hh : s.cur with
    | none => rfl
    | some j => exact absurd (hu.1 j hh) (by simp)
  have hcl : ∀ r, s.main ≠ .closing r := fun r hr => absurd (hu.2 r hr) (by simp)
  have hmid : ∀ j, (s.pc j).mid = false := fun j => by have := hc.mid j; simp [hcur] at this; exact this
  have hfp : c.kind.simple = false → (finishes tr).head? = none ∨ ∃ j, (finishes tr).head? = some j ∧ (pushes tr).head? = some j := by
    intro hk
    cases hh : (finishes tr).head? with
    | none => simp
    | some j =>
      rcases hc.head hk j hh with h1 | ⟨_, h1 | h1⟩
      · exact .inr ⟨j, rfl, h1⟩
      · have := hmid j; simp [h1, FPc.mid] at this
      · simp [hd] at h1
  have hpf : finishes tr = [] → pushes tr = [] := by
    intro hf
    apply List.eq_nil_iff_forall_not_mem.2
    intro j hj
    have h1 := h.ppc j hj
    have h2 := h.fin j hd
    rw [hf] at h2
    grind
  split at he
  · rename_i hi
    split at he
    · simp only [Option.some.injEq, Prod.mk.injEq] at he; obtain ⟨rfl, rfl⟩ := he
      have e1 : pushes (tr ++ [Obs.finished i, .terminate]) = pushes tr := by simp [pushes]
      have e2 : finishes (tr ++ [Obs.finished i, .terminate]) = finishes tr ++ [i] := by simp [finishes]
      constructor <;> simp only [e1, e2]
      · exact hc.mid
      · exact hc.cl
      · exact hc.lim1
      · exact hc.lim1'
      · exact hc.lim2
      · exact hc.lim3
      · intro hk j hj
        rcases hfp hk with h1 | ⟨j', h1, h2⟩
        · simp at h1; exact .inr ⟨hpf h1, .inr trivial⟩
        · grind
      · simp
      · exact fun h1 h2 => (hc.order' h1 h2).trans (List.prefix_append _ _)
    · simp only [Option.some.injEq, Prod.mk.injEq] at he; obtain ⟨rfl, rfl⟩ := he
      have e1 : pushes (tr ++ [Obs.finished i]) = pushes tr := by simp [pushes]
      have e2 : finishes (tr ++ [Obs.finished i]) = finishes tr ++ [i] := by simp [finishes]
      constructor <;> simp only [e1, e2, setPc, FPc.mid]
      · have := hc.mid; grind [upd_apply, FPc.mid]
      · exact fun _ => hcl
      · have := hc.lim1; grind [upd_apply]
      · have := hc.lim1'; grind [upd_apply]
      · intro hk hh
        refine hc.lim2 hk fun j => ?_
        have := hmid j
        cases hj : s.pc j <;> simp [hj, FPc.mid] at this ⊢
      · intro hk hl
        rcases hc.lim3 hk hl with h1 | ⟨j, h1⟩
        · exact .inl h1
        · have := hmid j; simp [h1, FPc.mid] at this
      · intro hk j hj
        rcases hfp hk with h1 | ⟨j', h1, h2⟩
        · simp at h1
          simp only [h1, List.nil_append, List.head?_cons, Option.some.injEq] at hj
          subst hj
          exact .inr ⟨hpf h1, .inl (by simp)⟩
        · grind
      · intro h1 h2 h3 h4
        have := hc.order h1 h2 h3 h4
        simp [hcur] at this
        simp [this]
      · exact fun h1 h2 => (hc.order' h1 h2).trans (List.prefix_append _ _)
  · cases he

/-- A step of a fiber that puts nothing into the channel. -/
theorem coop_move {c : Config} {s s' : State} {tr : List Obs} {i : Nat} {p : FPc} (hc : Coop c s tr) (hcur : s.cur = none ∨ s.cur = some i) (hcl : ∀ r, s.main ≠ .closing r)
    (h1 : s'.pc = upd s.pc i p) (h2 : s'.main = s.main) (h5 : s'.dead = s.dead) (h6 : s'.cur = if p.mid then some i else none)
    (h7 : s'.closed = false → s.closed = false)
    (l1 : c.kind.counts = true → p = .pushed ∨ (∃ l, p = .loaded l) → s'.limit + (pushes tr).length = c.n + 1)
    (l2 : ∀ l, p = .loaded l → l = s'.limit)
    (l3 : c.kind.counts = true → p ≠ .pushed ∧ (∀ l, p ≠ .loaded l) → s'.limit + (pushes tr).length = c.n)
    (l4 : c.kind.counts = true → s'.limit = 0 → s'.closed = true ∨ p = .toClose)
    (l5 : c.kind.simple = false → s.pc i = .fin → pushes tr ≠ [] ∧ ((c.n ≤ c.cap → s'.closed = true)))
    (l6 : p ≠ .fin) :
    Coop c s' (tr ++ []) := by
  have hmid : ∀ j, j ≠ i → (s.pc j).mid = false := fun j hj => by
    have := hc.mid j
    cases hm : (s.pc j).mid with
    | false => rfl
    | true => rw [hm] at this; simp at this; grind
  constructor <;> simp only [pushes_nil, finishes_nil, h1, h2, h5, h6]
  · intro j
    by_cases hj : j = i
    · subst hj; cases hp : p.mid <;> simp [hp]
    · have := hmid j hj
      cases hp : p.mid <;> simp [hj, this]
      exact fun h => hj h.symm
  · exact fun _ => hcl
  · intro hk j hj
    by_cases hji : j = i
    · subst hji; simp at hj; exact l1 hk hj
    · have := hmid j hji
      simp [hji] at hj
      rcases hj with hj | ⟨l, hj⟩ <;> simp [hj, FPc.mid] at this
  · intro j l hj
    by_cases hji : j = i
    · subst hji; simp at hj; exact l2 l hj
    · have := hmid j hji
      simp [hji] at hj
      simp [hj, FPc.mid] at this
  · intro hk hh
    have := hh i
    simp at this
    exact l3 hk this
  · intro hk hl
    rcases l4 hk hl with h | h
    · exact .inl h
    · exact .inr ⟨i, by simp [h]⟩
  · intro hk j hj
    rcases hc.head hk j hj with h | ⟨h', h | h⟩
    · exact .inl h
    · by_cases hji : j = i
      · subst hji; exact absurd h' (l5 hk h).1
      · have := hmid j hji; simp [h, FPc.mid] at this
    · exact .inr ⟨h', .inr h⟩
  · intro hk hn hcl hd
    have := hc.order hk hn (h7 hcl) hd
    have e : (match (if p.mid = true then some i else none) with | some j => if upd s.pc i p j = .fin then [j] else [] | none => []) = ([] : List Nat) := by
      cases p <;> simp [FPc.mid] at l6 ⊢
    rw [e]
    have e2 : s.pc i ≠ .fin := fun hf => by have := (l5 hk hf).2 hn; simp [hcl] at this
    rcases hcur with hcur | hcur <;> simpa [hcur, e2] using this
  · exact hc.order'

theorem coop_push {c : Config} {s s' : State} {tr o : List Obs} {i : Nat} (hcap : 0 < c.cap) (h : Inv c s tr) (hc : Coop c s tr) (hi : i < c.n) (hd : s.dead = false) (hk : c.kind.simple = false)
    (hcur : s.cur = none ∨ s.cur = some i) (hcl : ∀ r, s.main ≠ .closing r) (hp : s.pc i = .fin ∨ s.pc i = .full)
    (he : push c s i = some (s', o)) : Coop c s' (tr ++ o) := by
  have hmid : ∀ j, j ≠ i → (s.pc j).mid = false := fun j hj => by
    have := hc.mid j
    cases hm : (s.pc j).mid with
    | false => rfl
    | true => rw [hm] at this; simp at this; grind
  have hl2 : c.kind.counts = true → s.limit + (pushes tr).length = c.n := fun hk => hc.lim2 hk fun j => by
    by_cases hj : j = i
    · subst hj; grind
    · have := hmid j hj
      cases hh : s.pc j <;> simp [hh, FPc.mid] at this ⊢
  have hip : i ∉ pushes tr := fun hc => by have := h.ppc i hc; grind
  have hplt : (pushes tr).length < c.n := by
    have := length_le (n := c.n) (l := i :: pushes tr) (by simp [h.pnodup, hip]) (by have := h.plt; grind)
    simp at this; omega
  have hl4 : c.kind.counts = true → s.limit ≠ 0 := fun hk => by have := hl2 hk; omega
  -- the channel is closed only after something was put into it
  have hclp : s.closed = true → pushes tr ≠ [] := by
    intro hcl' he
    cases hkc : c.kind.counts with
    | true =>
      obtain ⟨D, a1, a2, a3, a4, a5, a6⟩ := h.dec hkc
      have := a6 hcl'
      cases D with
      | nil => simp at this; omega
      | cons d D => have := (a2 d (by simp)).2; simp [he] at this
    | false =>
      have hgot : s.got = [] := by
        have := h.push; rw [he] at this
        exact (List.append_eq_nil_iff.1 this.symm).1
      cases hm : s.main with
      | loop => have := h.loop hm hcl'; simp [hkc] at this
      | closing r => exact hcl r hm
      | done r =>
        have := h.done r hm
        cases hkk : c.kind <;> simp only [Good, hkk] at this <;> simp_all [Kind.counts, Kind.simple]
  -- the first that finished is the first in the channel
  have hfin : s.pc i = .fin → s.cur = some i := fun hf => (hc.mid i).1 (by simp [hf, FPc.mid])
  unfold push at he
  split at he
  · rename_i hcl'
    simp only [Option.some.injEq, Prod.mk.injEq] at he; obtain ⟨rfl, rfl⟩ := he
    apply coop_move (p := .done) hc hcur hcl <;> simp [setPc, hcl', FPc.mid]
    · exact hl2
    · exact fun _ _ => hclp hcl'
  rename_i hcl'
  split at he
  · rename_i hq
    simp only [Option.some.injEq, Prod.mk.injEq] at he; obtain ⟨rfl, rfl⟩ := he
    have hnf : (if c.kind.counts = true then FPc.pushed else .done) ≠ .fin := by split <;> simp
    constructor <;> simp only [pushes_push, finishes_push, setPc]
    · intro j
      by_cases hj : j = i
      · subst hj; cases hh : c.kind.counts <;> simp [FPc.mid]
      · have := hmid j hj
        simp only [upd_other _ _ hj, this]
        cases hh : c.kind.counts <;> simp [FPc.mid]
        exact Ne.symm hj
    · exact fun _ => hcl
    · intro hk _; have := hl2 hk; simp; omega
    · intro j l hj
      by_cases hji : j = i
      · subst hji; simp at hj; split at hj <;> cases hj
      · have := hmid j hji
        simp [hji] at hj
        simp [hj, FPc.mid] at this
    · intro hk hh; have := hh i; simp [hk] at this
    · intro hk hl; exact absurd hl (hl4 hk)
    · intro hk j hj
      rcases hc.head hk j hj with h | ⟨h', h | h⟩
      · refine .inl ?_
        cases hh : pushes tr with
        | nil => simp [hh] at h
        | cons a l => simpa [hh] using h
      · have : j = i := by
          by_cases hji : j = i
          · exact hji
          · have := hmid j hji; simp [h, FPc.mid] at this
        subst this
        exact .inl (by simp [h'])
      · simp [hd] at h
    · intro hk hn hcl'' _
      have := hc.order hk hn hcl'' hd
      rcases hp with hp | hp
      · cases hh : c.kind.counts <;> simpa [hfin hp, hp, FPc.mid] using this
      · exfalso
        have h1 := (h.fin i hd).2 (by simp [hp])
        rw [this] at h1
        rcases hcur with hcur | hcur <;> simp [hcur, hp, hip] at h1
    · intro hk hn
      have := hc.order hk hn (by simpa using hcl') hd
      rcases hp with hp | hp
      · simp [hfin hp, hp] at this
        rw [this]; exact List.prefix_rfl
      · have h1 := (h.fin i hd).2 (by simp [hp])
        rw [this] at h1
        rcases hcur with hcur | hcur <;> simp [hcur, hp, hip] at h1
  · split at he
    · cases he
    · rename_i hq hp'
      simp only [Option.some.injEq, Prod.mk.injEq] at he; obtain ⟨rfl, rfl⟩ := he
      have hqp : s.queue.length ≤ (pushes tr).length := by rw [h.push]; simp
      apply coop_move (p := .full) hc hcur hcl <;> simp [setPc, FPc.mid]
      · exact hl2
      · exact fun hk hl => absurd hl (hl4 hk)
      · intro _ _
        refine ⟨fun he => ?_, fun hn => ?_⟩
        · rw [he, List.length_nil] at hqp; omega
        · omega

theorem coop_fiber {c : Config} {s s' : State} {tr o : List Obs} {i : Nat} (hcap : 0 < c.cap) (h : Inv c s tr) (hc : Coop c s tr) (hi : i < c.n) (hd : s.dead = false)
    (hcur : s.cur = none ∨ s.cur = some i) (hcl : ∀ r, s.main ≠ .closing r)
    (he : fiber c s i = some (s', o)) : Coop c s' (tr ++ o) := by
  have hmid : ∀ j, j ≠ i → (s.pc j).mid = false := fun j hj => by
    have := hc.mid j
    cases hm : (s.pc j).mid with
    | false => rfl
    | true => rw [hm] at this; simp at this; grind
  unfold fiber at he
  split at he
  · rename_i hp
    split at he
    · rename_i hk
      simp only [Option.some.injEq, Prod.mk.injEq] at he; obtain ⟨rfl, rfl⟩ := he
      apply coop_move hc hcur hcl (p := .done) <;> simp [setPc, hp, hk, Kind.simple, Kind.counts, FPc.mid]
    · rename_i hk
      simp only [Option.some.injEq, Prod.mk.injEq] at he; obtain ⟨rfl, rfl⟩ := he
      apply coop_move hc hcur hcl (p := .bar) <;> simp [setPc, hp, hk, Kind.simple, Kind.counts, FPc.mid]
    · exact coop_push hcap h hc hi hd (by grind [Kind.simple]) hcur hcl (.inl hp) he
  · rename_i hp
    exact coop_push hcap h hc hi hd (h.full i hp) hcur hcl (.inr hp) he
  · rename_i hp
    have hk := h.bar i hp
    split at he
    · simp only [Option.some.injEq, Prod.mk.injEq] at he; obtain ⟨rfl, rfl⟩ := he
      apply coop_move hc hcur hcl (p := .done) <;> simp [setPc, hp, hk, Kind.simple, Kind.counts, FPc.mid]
    · cases he
  · rename_i hp
    have hk : c.kind.counts = true := by have := h.pcounts; grind
    have hl := hc.lim1 hk i (.inl hp)
    have hle := length_le h.pnodup h.plt
    simp only [Option.some.injEq, Prod.mk.injEq] at he; obtain ⟨rfl, rfl⟩ := he
    apply coop_move hc hcur hcl (p := .loaded s.limit) <;> simp [setPc, hp, FPc.mid]
    · exact fun _ => hl
    · intro _ h0; omega
  · rename_i l hp
    have hk : c.kind.counts = true := by have := h.pcounts; grind
    have hl := hc.lim1 hk i (.inr ⟨l, hp⟩)
    have hle := length_le h.pnodup h.plt
    have hll := hc.lim1' i l hp
    simp only [Option.some.injEq, Prod.mk.injEq] at he; obtain ⟨rfl, rfl⟩ := he
    apply coop_move hc hcur hcl (p := if l - 1 = 0 then .toClose else .done) <;> simp [setPc, hp] <;> grind
  · rename_i hp
    have hk : c.kind.counts = true := by have := h.pcounts; grind
    have hl := hc.lim2 hk (fun j => by
      by_cases hj : j = i
      · subst hj; simp [hp]
      · have := hmid j hj
        cases hh : s.pc j <;> simp [hh, FPc.mid] at this ⊢)
    simp only [Option.some.injEq, Prod.mk.injEq] at he; obtain ⟨rfl, rfl⟩ := he
    apply coop_move hc hcur hcl (p := .done) <;> simp [setPc, hp, FPc.mid]
    exact fun _ => hl
  · cases he

theorem coop_main {c : Config} {s s' : State} {tr o : List Obs} (hc : Coop c s tr) (hcur : s.cur = none) (he : main c s = some (s', o)) : Coop c s' (tr ++ o) := by
  have key : s'.pc = s.pc ∧ s'.cur = s.cur ∧ s'.limit = s.limit ∧ (s.closed = true → s'.closed = true) ∧ s'.dead = s.dead ∧ pushes o = [] ∧ finishes o = [] := by
    unfold main at he
    have ho : ∀ m, pushes (toObs m) = [] ∧ finishes (toObs m) = [] := fun m => by cases m <;> simp [toObs, pushes, finishes]
    repeat' split at he
    all_goals first
      | (simp only [reduceCtorEq] at he; done)
      | (simp only [Option.some.injEq, Prod.mk.injEq] at he; obtain ⟨rfl, rfl⟩ := he; simp [pushes, finishes, ho]; done)
      | (simp only [Option.some.injEq, Prod.mk.injEq] at he; obtain ⟨rfl, rfl⟩ := he; simp; exact ho _)
  obtain ⟨k1, k2, k3, k4, k5, k6, k7⟩ := key
  have e1 : pushes (tr ++ o) = pushes tr := by rw [pushes_append, k6]; simp
  have e2 : finishes (tr ++ o) = finishes tr := by rw [finishes_append, k7]; simp
  constructor <;> simp only [e1, e2, k1, k2, k3, k5]
  · exact hc.mid
  · exact fun h => absurd hcur h
  · exact hc.lim1
  · exact hc.lim1'
  · exact hc.lim2
  · intro h1 h2; have := hc.lim3 h1 h2; grind
  · exact hc.head
  · intro h1 h2 h3; exact hc.order h1 h2 (by grind)
  · exact hc.order'

theorem coop_step {c : Config} {s s' : State} {e : Event} {tr o : List Obs} (ht : c.threads = false) (hcap : 0 < c.cap) (h : Inv c s tr) (hc : Coop c s tr)
    (he : step c s e = some (s', o)) : Coop c s' (tr ++ o) := by
  cases e with
  | finish i => exact coop_finish ht h hc he
  | fiber i =>
    simp only [step] at he
    split at he; · cases he
    rename_i hd
    have hd : s.dead = false ∧ turn c s (.fiber i) = true := by grind
    have hu := turn_cur ht hd.2
    split at he
    · refine coop_fiber hcap h hc (by assumption) hd.1 ?_ (fun r hr => absurd (hu.2 r hr) (by simp)) he
      cases hh : s.cur with
      | none => simp
      | some j => have := hu.1 j hh; simp at this; simp [this]
    · cases he
  | main =>
    simp only [step] at he
    split at he; · cases he
    rename_i hd
    have hd : s.dead = false ∧ turn c s .main = true := by grind
    have hu := turn_cur ht hd.2
    refine coop_main hc ?_ he
    cases hh : s.cur with
    | none => rfl
    | some j => exact absurd (hu.1 j hh) (by simp)

theorem reach_coop {c : Config} {s : State} {tr : List Obs} (ht : c.threads = false) (hcap : 0 < c.cap) (h : Reach (step c) (init c) s tr) : Coop c s tr := by
  induction h with
  | refl => exact coop_init c
  | tail e h hs ih => exact coop_step ht hcap (reach_inv h) ih hs

end Verif.WaitStuff
