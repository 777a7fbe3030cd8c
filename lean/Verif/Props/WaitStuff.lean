import Verif.WaitStuffInv

/-!
# Waiting for the first, and for all of several functions
-/

namespace Verif.Props.WaitStuff
open Verif.WaitStuff

variable {c : Config} {s : State} {tr : List Obs}

/-- Nothing goes on but functions that have not come to their end. -/
def Quiet (c : Config) (s : State) : Prop := (∀ i, step c s (.fiber i) = none) ∧ step c s .main = none

theorem result_iff {r : Result} : .result r ∈ tr ↔ r ∈ results tr := by
  simp only [results, List.mem_filterMap]
  constructor
  · exact fun h => ⟨_, h, rfl⟩
  · rintro ⟨o, h1, h2⟩
    cases o <;> simp at h2
    subst h2; exact h1

theorem map_vals : ∀ {l : List Nat}, (∀ i ∈ l, (c.out i).isErr = false) → l.map c.out = (vals c l).map .val := by
  intro l
  induction l with
  | nil => simp [vals]
  | cons a l ih =>
    intro h
    have h1 := ih fun i hi => h i (by simp [hi])
    have h2 := h a (by simp)
    obtain ⟨v, hv⟩ := isErr_false.1 h2
    simp [vals, hv] at h1 ⊢
    exact h1

/-- The waiting function returns or throws at most once. -/
theorem one_result (h : Reach (step c) (init c) s tr) : (results tr).length ≤ 1 := (reach_inv h).resn

/-- A function without a task around it that throws ends the program; with one it does not. -/
theorem uncaught (h : Reach (step c) (init c) s tr) :
    (c.kind.catches = true → .terminate ∉ tr) ∧ (c.kind.catches = false → ∀ i ∈ finishes tr, (c.out i).isErr = true → .terminate ∈ tr) := by
  have I := reach_inv h
  refine ⟨fun hk ht => ?_, fun hk i hi he => ?_⟩
  · have := I.dcatch (I.dead.2 ht); simp [hk] at this
  · cases hd : s.dead with
    | true => exact I.dead.1 hd
    | false =>
      have := I.nerr hk i ((I.fin i hd).1 hi)
      simp [he] at this

theorem pushed_finished (I : Inv c s tr) (hp : (pushes tr).Perm (List.range c.n)) : (finishes tr).Perm (List.range c.n) := by
  refine (List.perm_ext_iff_of_nodup I.fnodup List.nodup_range).2 fun i => ⟨fun hi => by simpa using I.flt i hi, fun hi => I.sub i ?_⟩
  have := I.ppc i (hp.mem_iff.2 hi); grind

/-- `wait_first_value` and `wait_first_outcome` give what the function gave that came to its end first: its value, or its exception. -/
theorem first_of_all (ht : c.threads = false) (hcap : 0 < c.cap) (hk : c.kind = .firstValue ∨ c.kind = .firstOutcome) (h : Reach (step c) (init c) s tr) {r : Result} (hr : .result r ∈ tr) :
    ∃ i, (finishes tr).head? = some i ∧ r = (c.out i).result := by
  have I := reach_inv h
  have C := reach_coop ht hcap h
  have hm := (I.res r).1 (result_iff.1 hr)
  have hg : ∃ i, s.got = [i] ∧ r = (c.out i).result := by
    have := I.done r hm
    rcases hk with hk | hk <;> simpa [Good, hk] using this
  obtain ⟨i, h1, rfl⟩ := hg
  have hp : (pushes tr).head? = some i := by rw [I.push, h1]; rfl
  refine ⟨i, ?_, rfl⟩
  cases hf : finishes tr with
  | nil =>
    have := I.ppc i (List.mem_of_head? hp)
    have := I.sub i (by grind)
    simp [hf] at this
  | cons j l =>
    rcases C.head (by rcases hk with hk | hk <;> simp [hk, Kind.simple]) j (by simp [hf]) with h2 | ⟨h2, _⟩
    · rw [hp] at h2; simpa using h2.symm
    · simp [h2] at hp

/-- On several threads as well, the result is the outcome of a function that came to its end. -/
theorem first_of_some (hk : c.kind = .firstValue ∨ c.kind = .firstOutcome) (h : Reach (step c) (init c) s tr) {r : Result} (hr : .result r ∈ tr) :
    ∃ i ∈ finishes tr, i < c.n ∧ r = (c.out i).result := by
  have I := reach_inv h
  have hm := (I.res r).1 (result_iff.1 hr)
  have hg : ∃ i, s.got = [i] ∧ r = (c.out i).result := by
    have := I.done r hm
    rcases hk with hk | hk <;> simpa [Good, hk] using this
  obtain ⟨i, h1, rfl⟩ := hg
  have hi : i ∈ pushes tr := by rw [I.push, h1]; simp
  exact ⟨i, I.sub i (by have := I.ppc i hi; grind), I.plt i hi, rfl⟩

/-- The results come in the order in which the functions came to their end, if the channel has room for all of them. -/
theorem in_order (ht : c.threads = false) (hcap : 0 < c.cap) (hk : c.kind ≠ .firstSimple ∧ c.kind ≠ .allSimple) (hn : c.n ≤ c.cap) (h : Reach (step c) (init c) s tr) :
    pushes tr <+: finishes tr := (reach_coop ht hcap h).order' (by cases hh : c.kind <;> simp_all [Kind.simple]) hn

/-- `wait_first_success` gives the first value, all the results before it being exceptions; or, if there is no value, the exceptions of all the functions. -/
theorem first_success (hk : c.kind = .firstSuccess) (h : Reach (step c) (init c) s tr) {r : Result} (hr : .result r ∈ tr) :
    (∃ pre i post v, pushes tr = pre ++ i :: post ∧ (∀ j ∈ pre, (c.out j).isErr = true) ∧ c.out i = .val v ∧ r = .value v) ∨
    ((pushes tr).Perm (List.range c.n) ∧ (finishes tr).Perm (List.range c.n) ∧ (∀ i, i < c.n → (c.out i).isErr = true) ∧ r = .errors (errs c (pushes tr))) := by
  have I := reach_inv h
  have hm := (I.res r).1 (result_iff.1 hr)
  have hg := I.done r hm
  simp only [Good, hk] at hg
  rcases hg with ⟨l, i, v, h1, h2, h3, rfl⟩ | ⟨h1, h2, rfl⟩
  · exact .inl ⟨l, i, s.queue, v, by simp [I.push, h1], h3, h2, rfl⟩
  · have hle := length_le I.pnodup I.plt
    have hq : s.queue = [] := by
      rw [I.push, List.length_append, h1] at hle
      exact List.eq_nil_of_length_eq_zero (by omega)
    have hp : pushes tr = s.got := by simp [I.push, hq]
    have hpp := perm_range I.pnodup I.plt (by rw [hp]; omega)
    exact .inr ⟨hpp, pushed_finished I hpp, fun i hi => h2 i (by rw [← hp, hpp.mem_iff]; simpa using hi), by rw [hp]⟩

/-- All results are there when the channel is closed by `nchannel` and empty. -/
theorem all_there (I : Inv c s tr) (hk : c.kind.counts = true) (hc : s.closed = true) : (pushes tr).Perm (List.range c.n) := by
  obtain ⟨D, a1, a2, a3, a4, a5, a6⟩ := I.dec hk
  refine (List.perm_ext_iff_of_nodup I.pnodup List.nodup_range).2 fun i => ⟨fun hi => by simpa using I.plt i hi, fun hi => ?_⟩
  exact (a2 i (mem_of_length a1 (fun j hj => I.plt j (a2 j hj).2) (a6 hc) (by simpa using hi))).2

/-- `wait_all_values` gives the values of all the functions, each once, in the order in which they came. -/
theorem all_values (hk : c.kind = .allValues) (h : Reach (step c) (init c) s tr) {r : Result} (hr : .result r ∈ tr) :
    (pushes tr).Perm (List.range c.n) ∧ (finishes tr).Perm (List.range c.n) ∧ ∃ l : List Nat, r = .values l ∧ (pushes tr).map c.out = l.map .val := by
  have I := reach_inv h
  have hm := (I.res r).1 (result_iff.1 hr)
  have hg := I.done r hm
  simp only [Good, hk] at hg
  obtain ⟨h1, h2, rfl⟩ := hg
  have hpp := all_there I (by simp [hk, Kind.counts]) h1
  refine ⟨hpp, pushed_finished I hpp, vals c s.got, by simp [last, hk], ?_⟩
  have hall : ∀ i ∈ s.got, (c.out i).isErr = false := fun i hi => I.nerr (by simp [hk, Kind.catches]) i (by
    have := I.ppc i (by rw [I.push]; simp [hi]); grind)
  rw [I.push, h2, List.append_nil]
  exact map_vals hall

/-- `wait_all_until_error` gives the values of all the functions, or throws the first exception that came. -/
theorem until_error (hk : c.kind = .untilError) (h : Reach (step c) (init c) s tr) {r : Result} (hr : .result r ∈ tr) :
    (∃ pre i post e, pushes tr = pre ++ i :: post ∧ (∀ j ∈ pre, (c.out j).isErr = false) ∧ c.out i = .err e ∧ r = .error e) ∨
    ((pushes tr).Perm (List.range c.n) ∧ (finishes tr).Perm (List.range c.n) ∧ ∃ l : List Nat, r = .values l ∧ (pushes tr).map c.out = l.map .val) := by
  have I := reach_inv h
  have hm := (I.res r).1 (result_iff.1 hr)
  have hg := I.done r hm
  simp only [Good, hk] at hg
  rcases hg with ⟨l, i, e, h1, h2, h3, rfl⟩ | ⟨h1, h2, h3, rfl⟩
  · exact .inl ⟨l, i, s.queue, e, by simp [I.push, h1], h3, h2, rfl⟩
  · have hpp := all_there I (by simp [hk, Kind.counts]) h1
    refine .inr ⟨hpp, pushed_finished I hpp, _, rfl, ?_⟩
    rw [I.push, h2, List.append_nil]
    exact map_vals h3

theorem errs_nil {l : List Nat} : errs c l = [] ↔ ∀ i ∈ l, (c.out i).isErr = false := by
  induction l with
  | nil => simp [errs]
  | cons a l ih =>
    simp only [errs] at ih
    cases h : c.out a <;> simp [errs, h, Out.isErr, ih]

/-- `wait_all_collect_errors` comes back when all the functions have come to their end: with all the values, or, if there was an exception, with all exceptions. -/
theorem collect_errors (hk : c.kind = .collectErrors) (h : Reach (step c) (init c) s tr) {r : Result} (hr : .result r ∈ tr) :
    (pushes tr).Perm (List.range c.n) ∧ (finishes tr).Perm (List.range c.n) ∧
    (((∃ i, i < c.n ∧ (c.out i).isErr = true) ∧ r = .errors (errs c (pushes tr))) ∨ ∃ l : List Nat, r = .values l ∧ (pushes tr).map c.out = l.map .val) := by
  have I := reach_inv h
  have hm := (I.res r).1 (result_iff.1 hr)
  have hg := I.done r hm
  simp only [Good, hk] at hg
  obtain ⟨h1, h2, rfl⟩ := hg
  have hpp := all_there I (by simp [hk, Kind.counts]) h1
  refine ⟨hpp, pushed_finished I hpp, ?_⟩
  have hp : pushes tr = s.got := by simp [I.push, h2]
  by_cases he : errs c s.got = []
  · exact .inr ⟨vals c s.got, by simp [last, he], by rw [hp]; exact map_vals (errs_nil.1 he)⟩
  · refine .inl ⟨?_, by simp [last, hk, he, hp]⟩
    apply Classical.byContradiction
    intro hc
    refine he (errs_nil.2 fun i hi => ?_)
    cases hh : (c.out i).isErr with
    | false => rfl
    | true => exact absurd ⟨i, I.plt i (by rw [hp]; exact hi), hh⟩ hc

/-- `wait_first_simple` comes back only when a function has come to its end, `wait_all_simple` only when all have. -/
theorem simple (h : Reach (step c) (init c) s tr) {r : Result} (hr : .result r ∈ tr) :
    (c.kind = .firstSimple → finishes tr ≠ []) ∧ (c.kind = .allSimple → (finishes tr).Perm (List.range c.n)) := by
  have I := reach_inv h
  have hm := (I.res r).1 (result_iff.1 hr)
  have hg := I.done r hm
  refine ⟨fun hk => ?_, fun hk => ?_⟩
  · simp only [Good, hk] at hg
    obtain ⟨i, hi⟩ := I.ready hg.2
    have := I.sub i (by simp [hi])
    intro he; simp [he] at this
  · simp only [Good, hk] at hg
    obtain ⟨A, a1, a2, a3⟩ := I.arr hk
    refine (List.perm_ext_iff_of_nodup I.fnodup List.nodup_range).2 fun i => ⟨fun hi => by simpa using I.flt i hi, fun hi => I.sub i ?_⟩
    have := (a2 i).1 (mem_of_length a1 (fun j hj => I.plt' j (by have := (a2 j).1 hj; grind)) (by have := hg.2; omega) (by simpa using hi))
    grind

/-- When nothing goes on, no fiber is in the middle of its work. -/
theorem quiet_facts (I : Inv c s tr) (C : Coop c s tr) (hd : s.dead = false) (hq : Quiet c s) :
    s.cur = none ∧ (∀ r, s.main ≠ .closing r) ∧ (∀ i, i < c.n → fiber c s i = none) ∧ main c s = none := by
  have hcl : s.cur ≠ none → ∀ r, s.main ≠ .closing r := C.cl
  have hcur : s.cur = none := by
    cases hc : s.cur with
    | none => rfl
    | some i =>
      exfalso
      have hm := (C.mid i).2 hc
      have hi := I.plt' i (by rintro he; simp [he, FPc.mid] at hm)
      have hcl := hcl (by simp [hc])
      have := hq.1 i
      have ht : turn c s (.fiber i) = true := by
        simp only [turn, hc, decide_true, Bool.true_and, Bool.or_eq_true]
        right
        cases hmm : s.main with
        | closing r => exact absurd hmm (hcl r)
        | _ => trivial
      simp only [step, hd, ht, hi, if_true] at this
      simp only [Bool.false_eq_true, or_self, if_false, reduceCtorEq] at this
      unfold fiber at this
      cases hp : s.pc i <;> simp [hp, FPc.mid] at hm this
      split at this <;> simp [push, hp] at this
      all_goals (repeat' split at this) <;> simp at this
  have hcl' : ∀ r, s.main ≠ .closing r := by
    intro r hr
    have := hq.2
    simp [step, hd, turn, hcur, hr, main] at this
  have ht : ∀ e, turn c s e = true := by
    intro e
    simp only [turn, hcur, Bool.true_and, Bool.or_eq_true]
    right
    cases hmm : s.main with
    | closing r => exact absurd hmm (hcl' r)
    | _ => trivial
  refine ⟨hcur, hcl', fun i hi => ?_, ?_⟩
  · have := hq.1 i; simpa [step, hd, ht, hi] using this
  · have := hq.2; simpa [step, hd, ht] using this

theorem pushed_all (hcap : 0 < c.cap) (I : Inv c s tr) (C : Coop c s tr) (hd : s.dead = false) (hq : Quiet c s) (hk : c.kind.simple = false) (hm : s.main = .loop) :
    s.queue = [] ∧ s.closed = false ∧ pushes tr = s.got ∧ ∀ i ∈ finishes tr, i ∈ pushes tr := by
  obtain ⟨q1, q2, q3, q4⟩ := quiet_facts I C hd hq
  have hqc : s.queue = [] ∧ s.closed = false := by
    simp only [main, hm] at q4
    split at q4
    · rename_i hh; simp [hh, Kind.simple] at hk
    · rename_i hh; simp [hh, Kind.simple] at hk
    · split at q4
      · cases q4
      · rename_i hqq; split at q4
        · cases q4
        · rename_i h2; exact ⟨hqq, by simpa using h2⟩
  refine ⟨hqc.1, hqc.2, by simp [I.push, hqc.1], fun i hi => ?_⟩
  have hpi := (I.fin i hd).1 hi
  have hi' := I.flt i hi
  have hf := q3 i hi'
  have hmid : (s.pc i).mid = false := by
    cases hh : (s.pc i).mid with
    | false => rfl
    | true => have := (C.mid i).1 hh; simp [q1] at this
  cases hp : s.pc i <;> simp [hp, FPc.mid] at hpi hmid
  · simp [fiber, hp, push, hqc.1, hqc.2, hcap] at hf
  · have := I.bar i hp; simp [this, Kind.simple] at hk
  · rcases I.pdone i hk hp with h1 | h1
    · exact h1
    · simp [hqc.2] at h1

/-- As soon as one function has come to its end, `wait_first_simple`, `wait_first_value` and `wait_first_outcome` come back, whatever the others do; `wait_first_success` as soon as a function has given a
value; `wait_all_until_error` as soon as one has thrown. -/
theorem at_once (ht : c.threads = false) (hcap : 0 < c.cap) (h : Reach (step c) (init c) s tr) (hd : .terminate ∉ tr) (hq : Quiet c s) {i : Nat} (hi : i ∈ finishes tr)
    (hk : c.kind = .firstSimple ∨ c.kind = .firstValue ∨ c.kind = .firstOutcome ∨ (c.kind = .firstSuccess ∧ (c.out i).isErr = false) ∨ (c.kind = .untilError ∧ (c.out i).isErr = true)) :
    ∃ r, .result r ∈ tr := by
  have I := reach_inv h
  have C := reach_coop ht hcap h
  have hd : s.dead = false := by
    cases hh : s.dead with
    | false => rfl
    | true => exact absurd (I.dead.1 hh) hd
  obtain ⟨q1, q2, q3, q4⟩ := quiet_facts I C hd hq
  cases hm : s.main with
  | done r => exact ⟨r, result_iff.2 ((I.res r).2 hm)⟩
  | closing r => exact absurd hm (q2 r)
  | loop =>
    exfalso
    by_cases hks : c.kind = .firstSimple
    · have hf := q3 i (I.flt i hi)
      have hpi := (I.fin i hd).1 hi
      cases hp : s.pc i <;> simp [hp, fiber, hks] at hpi hf
      · have := I.full i hp; simp [hks, Kind.simple] at this
      · have := I.bar i hp; simp [hks] at this
      · have := I.ready' hks i hp
        simp [main, hm, hks, this] at q4
    · obtain ⟨p1, p2, p3, p4⟩ := pushed_all hcap I C hd hq (by rcases hk with hk | hk | hk | hk | hk <;> simp_all [Kind.simple]) hm
      have hg := p4 i hi
      rw [p3] at hg
      rcases hk with hk | hk | hk | ⟨hk, hv⟩ | ⟨hk, hv⟩
      · exact hks hk
      · have := I.loop1 hm (by simp [hk, Kind.counts]); simp [this] at hg
      · have := I.loop1 hm (by simp [hk, Kind.counts]); simp [this] at hg
      · have := (I.loop2 hm hk).2 i hg; simp [this] at hv
      · have := I.loop3 hm hk i hg; simp [this] at hv

/-- When all the functions have come to their end, and nothing goes on, the waiting function has come back. -/
theorem comes_back (ht : c.threads = false) (hcap : 0 < c.cap) (hn : 0 < c.n) (h : Reach (step c) (init c) s tr) (hd : .terminate ∉ tr) (hq : Quiet c s) (hf : ∀ i, i < c.n → i ∈ finishes tr) :
    ∃ r, .result r ∈ tr := by
  have hs : (c.kind = .firstSimple ∨ c.kind = .firstValue ∨ c.kind = .firstOutcome ∨ (c.kind = .firstSuccess ∧ (c.out 0).isErr = false) ∨ (c.kind = .untilError ∧ (c.out 0).isErr = true)) → ∃ r, .result r ∈ tr :=
    at_once ht hcap h hd hq (hf 0 hn)
  have I := reach_inv h
  have C := reach_coop ht hcap h
  have hd : s.dead = false := by
    cases hh : s.dead with
    | false => rfl
    | true => exact absurd (I.dead.1 hh) hd
  obtain ⟨q1, q2, q3, q4⟩ := quiet_facts I C hd hq
  cases hm : s.main with
  | done r => exact ⟨r, result_iff.2 ((I.res r).2 hm)⟩
  | closing r => exact absurd hm (q2 r)
  | loop =>
    by_cases hk : c.kind = .firstSimple ∨ c.kind = .firstValue ∨ c.kind = .firstOutcome
    · exact hs (by grind)
    · exfalso
      by_cases hka : c.kind = .allSimple
      · obtain ⟨A, a1, a2, a3⟩ := I.arr hka
        have hA : ∀ i, i < c.n → i ∈ A := fun i hi => (a2 i).2 (by
          have hff := q3 i hi
          have hpi := (I.fin i hd).1 (hf i hi)
          cases hp : s.pc i <;> simp [hp, fiber, hka] at hpi hff ⊢
          have := I.full i hp; simp [hka, Kind.simple] at this)
        have hl : (List.range c.n).length ≤ A.length := by
          have h1 : A.Perm (List.range c.n) := (List.perm_ext_iff_of_nodup a1 List.nodup_range).2 fun i =>
            ⟨fun hi => by simpa using I.plt' i (by have := (a2 i).1 hi; grind), fun hi => hA i (by simpa using hi)⟩
          rw [h1.length_eq]; exact Nat.le_refl _
        have hl2 := length_le a1 (fun i hi => I.plt' i (by have := (a2 i).1 hi; grind))
        simp at hl
        have : s.arrived = c.n + 1 := by omega
        simp [main, hm, hka, this] at q4
      · obtain ⟨p1, p2, p3, p4⟩ := pushed_all hcap I C hd hq (by cases hkk : c.kind <;> simp_all [Kind.simple]) hm
        have hpp : (pushes tr).Perm (List.range c.n) := (List.perm_ext_iff_of_nodup I.pnodup List.nodup_range).2 fun i =>
          ⟨fun hi => by simpa using I.plt i hi, fun hi => p4 i (hf i (by simpa using hi))⟩
        have hlen : (pushes tr).length = c.n := by rw [hpp.length_eq]; simp
        cases hkc : c.kind.counts with
        | true =>
          have hmid : ∀ i, (s.pc i).mid = false := fun i => by
            cases hh : (s.pc i).mid with
            | false => rfl
            | true => have := (C.mid i).1 hh; simp [q1] at this
          have hl := C.lim2 hkc fun i => by
            have := hmid i
            cases hp : s.pc i <;> simp [hp, FPc.mid] at this ⊢
          rcases C.lim3 hkc (by omega) with h1 | ⟨i, h1⟩
          · simp [p2] at h1
          · have := hmid i; simp [h1, FPc.mid] at this
        | false =>
          have hk2 : c.kind = .firstSuccess := by cases hkk : c.kind <;> simp_all [Kind.counts]
          have h1 := (I.loop2 hm hk2).1
          rw [← p3, hlen] at h1
          rcases h1 with h1 | h1
          · omega
          · rw [h1] at hlen; simp at hlen; omega

/-- The fibers of all the functions then have come to their end as well, except for those of `wait_all_until_error` with more functions than the channel has room for, and one: see
`fibers_hang`. -/
theorem fibers_end_partial (ht : c.threads = false) (hcap : 0 < c.cap) (hn : 0 < c.n) (hu : c.kind = .untilError → c.n ≤ c.cap + 1) (h : Reach (step c) (init c) s tr) (hd : .terminate ∉ tr)
    (hq : Quiet c s) (hf : ∀ i, i < c.n → i ∈ finishes tr) : ∀ i, i < c.n → s.pc i = .done := by
  obtain ⟨r, hr⟩ := comes_back ht hcap hn h hd hq hf
  have I := reach_inv h
  have C := reach_coop ht hcap h
  have hd : s.dead = false := by
    cases hh : s.dead with
    | false => rfl
    | true => exact absurd (I.dead.1 hh) hd
  have hm := (I.res r).1 (result_iff.1 hr)
  obtain ⟨q1, q2, q3, q4⟩ := quiet_facts I C hd hq
  intro i hi
  have hff := q3 i hi
  have hpi := (I.fin i hd).1 (hf i hi)
  have hmid : (s.pc i).mid = false := by
    cases hh : (s.pc i).mid with
    | false => rfl
    | true => have := (C.mid i).1 hh; simp [q1] at this
  cases hp : s.pc i <;> simp [hp, FPc.mid] at hpi hmid ⊢
  · -- waiting in `push`
    have hks := I.full i hp
    simp only [fiber, hp, push] at hff
    split at hff
    · cases hff
    split at hff
    · cases hff
    rename_i hc1 hc2
    have hip : i ∉ pushes tr := fun hc => by have := I.ppc i hc; grind
    have hplt : (pushes tr).length < c.n := by
      have := length_le (n := c.n) (l := i :: pushes tr) (by simp [I.pnodup, hip]) (by have := I.plt; grind)
      simp at this; omega
    have hg := I.done r hm
    have hpl : (pushes tr).length = s.got.length + s.queue.length := by rw [I.push]; simp
    cases hkc : c.kind.counts with
    | false =>
      rcases I.done' r hm hkc hks with h1 | ⟨h1, h2⟩
      · exact hc1 h1
      · omega
    | true =>
      cases hk : c.kind <;> simp [hk, Kind.counts] at hkc <;> simp only [Good, hk] at hg
      · exact hc1 hg.1
      · rcases hg with ⟨l, j, e, h1, _⟩ | ⟨h1, _⟩
        · have := hu hk
          rw [h1] at hpl
          simp at hpl; omega
        · exact hc1 h1
      · exact hc1 hg.1
  · -- at the barrier
    have hk := I.bar i hp
    have hg := I.done r hm
    simp only [Good, hk] at hg
    obtain ⟨A, a1, a2, a3⟩ := I.arr hk
    have hl2 := length_le a1 (fun i hi => I.plt' i (by have := (a2 i).1 hi; grind))
    have : s.arrived = c.n + 1 := by omega
    simp [fiber, hp, this] at hff

/-- Nothing goes on, and all the functions have come to their end. -/
def over (c : Config) (s : State) : Bool :=
  (step c s .main).isNone && (List.range c.n).all fun i => (step c s (.fiber i)).isNone && (s.pc i != .run)

theorem over_quiet (h : over c s = true) : Quiet c s ∧ ∀ i, i < c.n → s.pc i ≠ .run := by
  simp only [over, Bool.and_eq_true, List.all_eq_true, List.mem_range, Option.isNone_iff_eq_none, bne_iff_ne] at h
  refine ⟨⟨fun i => ?_, h.1⟩, fun i hi => (h.2 i hi).2⟩
  by_cases hi : i < c.n
  · exact (h.2 i hi).1
  · simp only [step, hi, if_false]; split <;> rfl

/-- 65 functions, of which the first to finish throws. -/
def many : Config := { n := 65, kind := .untilError, out := fun i => if i = 0 then .err 7 else .val i, cap := 63, threads := false }

/-- It throws before any of the others finishes. -/
def manyRun : List Event :=
  [.finish 0, .fiber 0, .fiber 0, .fiber 0, .main] ++ (List.range 63).flatMap (fun i => [.finish (i + 1), .fiber (i + 1), .fiber (i + 1), .fiber (i + 1)]) ++ [.finish 64, .fiber 64]

/-- `wait_all_until_error` does not close the channel when it throws: with 65 functions, all of which come to their end, the fiber of the last waits for ever. -/
theorem fibers_hang : ∃ s tr, Reach (step many) (init many) s tr ∧ .terminate ∉ tr ∧ .result (.error 7) ∈ tr ∧ (∀ i, i < many.n → i ∈ finishes tr) ∧ Quiet many s ∧ s.pc 64 ≠ .done := by
  have key : ((exec (step many) (init many) manyRun).any fun p => over many p.1 && (p.1.pc 64 != .done) && !p.1.dead && (results p.2 == [.error 7])) = true := by decide +kernel
  cases hx : exec (step many) (init many) manyRun with
  | none => simp [hx] at key
  | some p =>
    obtain ⟨s, tr⟩ := p
    simp only [hx, Option.any_some, Bool.and_eq_true, bne_iff_ne, Bool.not_eq_true', beq_iff_eq] at key
    obtain ⟨⟨⟨k1, k2⟩, k3⟩, k4⟩ := key
    have hr := reach_of_exec hx
    have I := reach_inv hr
    have := over_quiet k1
    exact ⟨s, tr, hr, fun ht => by simp [I.dead.2 ht] at k3, result_iff.2 (by simp [k4]), fun i hi => I.sub i (this.2 i hi), this.1, k2⟩

/-- Two functions that give values, on two threads. -/
def two : Config := { n := 2, kind := .allValues, out := fun i => .val i, cap := 63, threads := true }

/-- `nchannel` does not protect its counter: on two threads, a decrement is lost, the channel is never closed, and `wait_all_values` waits for ever. -/
theorem threads_hang : ∃ s tr, Reach (step two) (init two) s tr ∧ .terminate ∉ tr ∧ results tr = [] ∧ (∀ i, i < two.n → i ∈ finishes tr) ∧ Quiet two s := by
  have key : ((exec (step two) (init two) [.finish 0, .finish 1, .fiber 0, .fiber 1, .fiber 0, .fiber 1, .fiber 0, .fiber 1, .main, .main]).any fun p => over two p.1 && !p.1.dead && (results p.2 == [])) = true := by
    decide +kernel
  cases hx : exec (step two) (init two) [.finish 0, .finish 1, .fiber 0, .fiber 1, .fiber 0, .fiber 1, .fiber 0, .fiber 1, .main, .main] with
  | none => simp [hx] at key
  | some p =>
    obtain ⟨s, tr⟩ := p
    simp only [hx, Option.any_some, Bool.and_eq_true, Bool.not_eq_true', beq_iff_eq] at key
    obtain ⟨⟨k1, k3⟩, k4⟩ := key
    have hr := reach_of_exec hx
    have I := reach_inv hr
    have := over_quiet k1
    exact ⟨s, tr, hr, fun ht => by simp [I.dead.2 ht] at k3, k4, fun i hi => I.sub i (this.2 i hi), this.1⟩

/-- `wait_first_simple` without functions waits for ever, although the comment at its helper says that one returns immediately. -/
theorem none_hangs (c : Config) (hk : c.kind = .firstSimple) (hn : c.n = 0) (h : Reach (step c) (init c) s tr) : results tr = [] := by
  have I := reach_inv h
  cases hr : results tr with
  | nil => rfl
  | cons r l =>
    have hm := (I.res r).1 (by simp [hr])
    have hg := I.done r hm
    simp only [Good, hk] at hg
    obtain ⟨i, hi⟩ := I.ready hg.2
    have := I.plt' i (by simp [hi])
    omega

/-- Three functions; the second to finish gives the first value. -/
def three (k : Kind) (t : Bool) : Config := { n := 3, kind := k, out := fun i => if i = 2 then .err 7 else .val (10 + i), cap := 63, threads := t }

example : ((exec (step (three .firstOutcome false)) (init (three .firstOutcome false)) [.finish 2, .fiber 2, .finish 0, .fiber 0, .main, .main, .finish 1, .fiber 1]).map fun p => (results p.2, finishes p.2, over (three .firstOutcome false) p.1))
    = some ([.error 7], [2, 0, 1], true) := by decide +kernel
example : ((exec (step (three .firstSuccess false)) (init (three .firstSuccess false)) [.finish 2, .fiber 2, .finish 0, .fiber 0, .main, .main, .main, .finish 1, .fiber 1]).map fun p => (results p.2, pushes p.2, over (three .firstSuccess false) p.1))
    = some ([.value 10], [2, 0], true) := by decide +kernel
example : ((exec (step (three .untilError false)) (init (three .untilError false)) [.finish 0, .fiber 0, .fiber 0, .fiber 0, .finish 2, .fiber 2, .fiber 2, .fiber 2, .main, .main]).map fun p => results p.2)
    = some [.error 7] := by decide +kernel
example : ((exec (step (three .collectErrors false)) (init (three .collectErrors false)) [.finish 0, .fiber 0, .fiber 0, .fiber 0, .finish 2, .fiber 2, .fiber 2, .fiber 2, .main, .finish 1, .fiber 1, .fiber 1, .fiber 1, .fiber 1, .main, .main, .main]).map
    fun p => (results p.2, over (three .collectErrors false) p.1)) = some ([.errors [7]], true) := by decide +kernel
example : ((exec (step { three .allValues false with n := 2 }) (init { three .allValues false with n := 2 }) [.finish 1, .fiber 1, .fiber 1, .fiber 1, .main, .finish 0, .fiber 0, .fiber 0, .fiber 0, .fiber 0, .main, .main]).map
    fun p => (results p.2, over { three .allValues false with n := 2 } p.1)) = some ([.values [11, 10]], true) := by decide +kernel
example : ((exec (step { three .allSimple false with n := 2 }) (init { three .allSimple false with n := 2 }) [.finish 1, .fiber 1, .finish 0, .fiber 0, .main, .fiber 0, .fiber 1]).map
    fun p => (results p.2, over { three .allSimple false with n := 2 } p.1)) = some ([.none], true) := by decide +kernel
example : ((exec (step { three .firstSimple false with n := 2 }) (init { three .firstSimple false with n := 2 }) [.finish 1, .fiber 1, .main]).map fun p => (results p.2, finishes p.2)) = some ([.none], [1]) := by decide +kernel
/-- A function that throws, without a task around it. -/
example : ((exec (step (three .firstValue false)) (init (three .firstValue false)) [.finish 2]).map fun p => p.2) = some [.finished 2, .terminate] := by decide +kernel

end Verif.Props.WaitStuff
