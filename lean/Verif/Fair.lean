import Verif.Base

/-!
# Infinite executions and fair schedules

`Run step init` is an infinite execution of any of the machines; `Fair` says that whoever can go on goes on. `settles`: if every
step of a fiber lowers a number, then at some time nobody can go on.
-/

namespace Verif

/-- An infinite execution. -/
structure Run {S E O : Type} (step : S → E → Option (S × List O)) (init : S) where
  st : Nat → S
  ev : Nat → E
  ob : Nat → List O
  start : st 0 = init
  next : ∀ i, step (st i) (ev i) = some (st (i + 1), ob i)

namespace Run

variable {S E O : Type} {step : S → E → Option (S × List O)} {init : S}

/-- What has been observed before step `i`. -/
def tr (r : Run step init) : Nat → List O
  | 0 => []
  | i + 1 => r.tr i ++ r.ob i

/-- Whoever can go on goes on: for every fiber, again and again it makes a step or there is nothing it could do. `act f` is the
event "fiber `f` makes a step". -/
def Fair (r : Run step init) (act : Nat → E) : Prop := ∀ f i, ∃ j, i ≤ j ∧ (r.ev j = act f ∨ step (r.st j) (act f) = none)

theorem reach (r : Run step init) : ∀ i, Reach step init (r.st i) (r.tr i)
  | 0 => by rw [r.start]; exact .refl
  | i + 1 => .tail (r.ev i) (r.reach i) (r.next i)

theorem tr_le (r : Run step init) {i j : Nat} (h : i ≤ j) : ∃ t, r.tr j = r.tr i ++ t := by
  obtain ⟨d, rfl⟩ := Nat.le.dest h
  clear h
  induction d with
  | zero => exact ⟨[], by simp⟩
  | succ d ih =>
    obtain ⟨t, ht⟩ := ih
    refine ⟨t ++ r.ob (i + d), ?_⟩
    have : r.tr (i + (d + 1)) = r.tr (i + d) ++ r.ob (i + d) := rfl
    rw [this, ht, List.append_assoc]

/-- A fiber that can make a step, and can as long as it has not made it, makes it. -/
theorem leads (r : Run step init) {act : Nat → E} (hf : r.Fair act) {f : Nat} {P : Nat → Prop} {i : Nat} (h0 : P i)
    (hP : ∀ j, i ≤ j → P j → r.ev j ≠ act f → P (j + 1)) (hen : ∀ j, P j → step (r.st j) (act f) ≠ none) :
    ∃ j, i ≤ j ∧ P j ∧ r.ev j = act f := by
  refine Classical.byContradiction fun hn => ?_
  have hall : ∀ d, P (i + d) := by
    intro d
    induction d with
    | zero => exact h0
    | succ d ih => exact hP (i + d) (Nat.le_add_right _ _) ih (fun he => hn ⟨i + d, by omega, ih, he⟩)
  obtain ⟨j, hj, h | h⟩ := hf f i
  · exact hn ⟨j, hj, by have := hall (j - i); rwa [Nat.add_sub_cancel' hj] at this, h⟩
  · have := hall (j - i); rw [Nat.add_sub_cancel' hj] at this; exact hen j this h

/-- Strong fairness: whoever can go on again and again (and not only all the time) goes on. It is what a fiber needs that competes for a
spinlock. -/
def Strong (r : Run step init) (act : Nat → E) : Prop :=
  ∀ f, (∀ i, ∃ j, i ≤ j ∧ step (r.st j) (act f) ≠ none) → ∀ i, ∃ j, i ≤ j ∧ r.ev j = act f

theorem Strong.fair {r : Run step init} {act : Nat → E} (h : r.Strong act) : r.Fair act := by
  intro f i
  refine Classical.byContradiction fun hn => ?_
  have hall : ∀ j, i ≤ j → r.ev j ≠ act f ∧ step (r.st j) (act f) ≠ none := fun j hj =>
    ⟨fun he => hn ⟨j, hj, .inl he⟩, fun he => hn ⟨j, hj, .inr he⟩⟩
  obtain ⟨j, hj, he⟩ := h f (fun k => ⟨max i k, by omega, (hall _ (by omega)).2⟩) i
  exact (hall j hj).1 he

/-- A fiber that can make its step again and again, until it makes it. -/
theorem leads_strong (r : Run step init) {act : Nat → E} (hf : r.Strong act) {f : Nat} {P : Nat → Prop} {i : Nat} (h0 : P i)
    (hP : ∀ j, i ≤ j → P j → r.ev j ≠ act f → P (j + 1)) (hen : ∀ j, i ≤ j → ∃ k, j ≤ k ∧ (P k → step (r.st k) (act f) ≠ none)) :
    ∃ j, i ≤ j ∧ P j ∧ r.ev j = act f := by
  refine Classical.byContradiction fun hn => ?_
  have hall : ∀ d, P (i + d) := by
    intro d
    induction d with
    | zero => exact h0
    | succ d ih => exact hP (i + d) (Nat.le_add_right _ _) ih (fun he => hn ⟨i + d, by omega, ih, he⟩)
  have hall' : ∀ j, i ≤ j → P j := fun j hj => by have := hall (j - i); rwa [Nat.add_sub_cancel' hj] at this
  obtain ⟨j, hj, he⟩ := hf f (fun k => by
    obtain ⟨m, hm, h⟩ := hen (max i k) (by omega)
    exact ⟨m, by omega, h (hall' m (by omega))⟩) i
  exact hn ⟨j, hj, hall' j hj, he⟩

/-- A number that never grows and is lowered by every step of a certain kind: there are finitely many such steps. -/
theorem finite_steps {μ : Nat → Nat} {busy : Nat → Prop} {N : Nat} (hle : ∀ i, N ≤ i → μ (i + 1) ≤ μ i)
    (hlt : ∀ i, N ≤ i → busy i → μ (i + 1) < μ i) : ∃ M, N ≤ M ∧ ∀ i, M ≤ i → ¬ busy i := by
  have key : ∀ m N', N ≤ N' → μ N' ≤ m → ∃ M, N' ≤ M ∧ ∀ i, M ≤ i → ¬ busy i := by
    intro m
    induction m with
    | zero =>
      intro N' hN hm
      have h0 : ∀ d, μ (N' + d) = 0 := by
        intro d
        induction d with
        | zero => simpa using hm
        | succ d ih => have := hle (N' + d) (by omega); rw [← Nat.add_assoc]; omega
      refine ⟨N', Nat.le_refl _, fun i hi hb => ?_⟩
      have h1 := hlt i (by omega) hb
      have h2 := h0 (i - N')
      rw [Nat.add_sub_cancel' hi] at h2
      omega
    | succ m ih =>
      intro N' hN hm
      by_cases hb : ∃ i, N' ≤ i ∧ busy i
      · obtain ⟨i, hi, hbi⟩ := hb
        have hmono : ∀ d, μ (N' + d) ≤ μ N' := by
          intro d
          induction d with
          | zero => exact Nat.le_refl _
          | succ d ih => have := hle (N' + d) (by omega); rw [← Nat.add_assoc]; omega
        have h1 := hlt i (by omega) hbi
        have h2 := hmono (i - N')
        rw [Nat.add_sub_cancel' hi] at h2
        obtain ⟨M, hM, hM'⟩ := ih (i + 1) (by omega) (by omega)
        exact ⟨M, by omega, hM'⟩
      · exact ⟨N', Nat.le_refl _, fun i hi hbi => hb ⟨i, hi, hbi⟩⟩
  exact key (μ N) N (Nat.le_refl _) (Nat.le_refl _)

/-- If there are finitely many steps of a certain kind, among them all steps of fibers, and the others do not change who can go on, then
at some time nobody can go on. -/
theorem settles (r : Run step init) {act : Nat → E} (hf : r.Fair act) {μ : Nat → Nat} {busy : Nat → Prop} {N : Nat}
    (hle : ∀ i, N ≤ i → μ (i + 1) ≤ μ i) (hlt : ∀ i, N ≤ i → busy i → μ (i + 1) < μ i) (hact : ∀ i f, N ≤ i → r.ev i = act f → busy i)
    (hother : ∀ i f, N ≤ i → ¬ busy i → (step (r.st (i + 1)) (act f) = none → step (r.st i) (act f) = none)) :
    ∃ M, N ≤ M ∧ (∀ i, M ≤ i → ¬ busy i) ∧ ∀ f, step (r.st M) (act f) = none := by
  obtain ⟨M, hM, hb⟩ := finite_steps hle hlt
  refine ⟨M, hM, hb, fun f => ?_⟩
  have back : ∀ d, step (r.st (M + d)) (act f) = none → step (r.st M) (act f) = none := by
    intro d
    induction d with
    | zero => exact id
    | succ d ih => exact fun h => ih (hother (M + d) f (by omega) (hb _ (by omega)) h)
  obtain ⟨j, hj, h | h⟩ := hf f M
  · exact absurd (hact j f (by omega) h) (hb j hj)
  · exact back (j - M) (by rw [Nat.add_sub_cancel' hj]; exact h)

end Run

/-! ## Sums over a list of fibers -/

def lsum (L : List Nat) (f : Nat → Nat) : Nat := (L.map f).sum

@[simp] theorem lsum_nil (f : Nat → Nat) : lsum [] f = 0 := rfl

@[simp] theorem lsum_cons (x : Nat) (L : List Nat) (f : Nat → Nat) : lsum (x :: L) f = f x + lsum L f := by simp [lsum]

theorem lsum_congr {L : List Nat} {f g : Nat → Nat} (h : ∀ x ∈ L, f x = g x) : lsum L f = lsum L g := by
  induction L with
  | nil => rfl
  | cons x L ih => simp [h x (by simp), ih (fun y hy => h y (by simp [hy]))]

theorem lsum_le {L : List Nat} {f g : Nat → Nat} {c : Nat} (h : ∀ x ∈ L, f x ≤ g x + c) : lsum L f ≤ lsum L g + c * L.length := by
  induction L with
  | nil => simp
  | cons x L ih =>
    have h1 := h x (by simp)
    have h2 := ih (fun y hy => h y (by simp [hy]))
    simp only [lsum_cons, List.length_cons, Nat.mul_add, Nat.mul_one]
    omega

/-- Two functions that differ at one place. -/
theorem lsum_one {L : List Nat} (hn : L.Nodup) {f g : Nat → Nat} {x : Nat} (hx : x ∈ L) (h : ∀ y ∈ L, y ≠ x → f y = g y) :
    lsum L f + g x = lsum L g + f x := by
  induction L with
  | nil => cases hx
  | cons y L ih =>
    simp only [List.nodup_cons] at hn
    rcases List.mem_cons.1 hx with rfl | hx'
    · have : lsum L f = lsum L g := lsum_congr fun z hz => h z (by simp [hz]) (fun e => hn.1 (e ▸ hz))
      simp only [lsum_cons]; omega
    · have h1 := h y (by simp) (fun e => hn.1 (e ▸ hx'))
      have h2 := ih hn.2 hx' (fun z hz => h z (by simp [hz]))
      simp only [lsum_cons]; omega

/-- At one place `x` the function may grow by anything that the other places do not exceed by more than `c`. -/
theorem lsum_one_le {L : List Nat} (hn : L.Nodup) {f g : Nat → Nat} {x c : Nat} (hx : x ∈ L) (h : ∀ y ∈ L, y ≠ x → f y ≤ g y + c) :
    lsum L f + g x ≤ lsum L g + f x + c * L.length := by
  induction L with
  | nil => cases hx
  | cons y L ih =>
    simp only [List.nodup_cons] at hn
    simp only [lsum_cons, List.length_cons, Nat.mul_add, Nat.mul_one]
    rcases List.mem_cons.1 hx with rfl | hx'
    · have := lsum_le (L := L) (f := f) (g := g) (c := c) fun z hz => h z (by simp [hz]) (fun e => hn.1 (e ▸ hz))
      omega
    · have h1 := h y (by simp) (fun e => hn.1 (e ▸ hx'))
      have h2 := ih hn.2 hx' (fun z hz => h z (by simp [hz]))
      omega

theorem lsum_bound {L : List Nat} {f : Nat → Nat} (h : ∀ x ∈ L, f x ≤ 1) : lsum L f ≤ L.length := by
  have := lsum_le (L := L) (f := f) (g := fun _ => 0) (c := 1) (fun x hx => by simpa using h x hx)
  have h0 : lsum L (fun _ => 0) = 0 := by
    clear h this
    induction L with
    | nil => rfl
    | cons x L ih => simp [ih]
  omega

/-- All but one: if every term is at most 1, one is 0 and the sum is one less than the length, the others are 1. -/
theorem lsum_rest {L : List Nat} {f : Nat → Nat} {a : Nat} (h : ∀ x ∈ L, f x ≤ 1) (ha : a ∈ L) (h0 : f a = 0)
    (hs : lsum L f + 1 = L.length) (hn : L.Nodup) : ∀ y ∈ L, y ≠ a → f y = 1 := by
  induction L with
  | nil => cases ha
  | cons x L ih =>
    simp only [List.nodup_cons] at hn
    simp only [lsum_cons, List.length_cons] at hs
    have hb := lsum_bound (L := L) (f := f) (fun y hy => h y (by simp [hy]))
    have hx := h x (by simp)
    rcases List.mem_cons.1 ha with rfl | ha'
    · have full : ∀ (L : List Nat), (∀ y ∈ L, f y ≤ 1) → lsum L f = L.length → ∀ y ∈ L, f y = 1 := by
        intro L
        induction L with
        | nil => intro _ _ y hy; cases hy
        | cons z L ih =>
          intro h hs y hy
          have hz := h z (by simp)
          have hb := lsum_bound (L := L) (f := f) (fun y hy => h y (by simp [hy]))
          simp only [lsum_cons, List.length_cons] at hs
          rcases List.mem_cons.1 hy with rfl | hy
          · omega
          · exact ih (fun y hy => h y (by simp [hy])) (by omega) y hy
      intro y hy hya
      rcases List.mem_cons.1 hy with rfl | hy
      · exact absurd rfl hya
      · exact full L (fun y hy => h y (by simp [hy])) (by omega) y hy
    · have hlt : lsum L f + 1 ≤ L.length := by
        have h1 := lsum_one hn.2 (f := f) (g := fun y => if y = a then 1 else f y) ha' (fun y _ hya => by simp [hya])
        have h2 := lsum_bound (L := L) (f := fun y => if y = a then 1 else f y) (fun y hy => by
          split
          · exact Nat.le_refl _
          · exact h y (by simp [hy]))
        simp only [if_true, h0] at h1
        omega
      intro y hy hya
      rcases List.mem_cons.1 hy with rfl | hy
      · omega
      · exact ih (fun y hy => h y (by simp [hy])) ha' (by omega) hn.2 y hy hya


/-- A number that never grows is constant in the end. -/
theorem constant {ρ : Nat → Nat} {N : Nat} (h : ∀ i, N ≤ i → ρ (i + 1) ≤ ρ i) : ∃ M, N ≤ M ∧ ∀ j, M ≤ j → ρ j = ρ M := by
  obtain ⟨M, hM, hb⟩ := Run.finite_steps (μ := ρ) (busy := fun i => ρ (i + 1) < ρ i) h (fun _ _ hb => hb)
  refine ⟨M, hM, fun j hj => ?_⟩
  obtain ⟨d, rfl⟩ := Nat.le.dest hj
  clear hj
  induction d with
  | zero => rfl
  | succ d ih =>
    have h1 := h (M + d) (by omega)
    have h2 := hb (M + d) (by omega)
    rw [← Nat.add_assoc]
    omega

/-! ## Infinite executions that repeat a list of events -/

section
variable {S E O : Type} {step : S → E → Option (S × List O)} {init : S}

/-- The states one gets with a sequence of events. -/
def states (step : S → E → Option (S × List O)) (init : S) (ev : Nat → E) : Nat → S
  | 0 => init
  | i + 1 => match step (states step init ev i) (ev i) with
    | some (s, _) => s
    | none => states step init ev i

theorem states_exec {ev : Nat → E} : ∀ (es : List E) (i : Nat) {s : S} {t : List O}, (∀ j (h : j < es.length), ev (i + j) = es[j]) →
    exec step (states step init ev i) es = some (s, t) →
    states step init ev (i + es.length) = s ∧ ∀ j, j < es.length → step (states step init ev (i + j)) (ev (i + j)) ≠ none
  | [], i, s, t, _, h => by simp [exec] at h; exact ⟨h.1, by simp⟩
  | e :: es, i, s, t, he, h => by
    have h0 : ev i = e := he 0 (by simp)
    simp only [exec] at h
    split at h
    · cases h
    · rename_i s1 o1 h1
      split at h
      · cases h
      · rename_i s2 o2 h2
        simp only [Option.some.injEq, Prod.mk.injEq] at h
        have hs : states step init ev (i + 1) = s1 := by simp [states, h0, h1]
        have ih := states_exec (s := s2) (t := o2) es (i + 1) (fun j hj => by
          have := he (j + 1) (by simpa using hj)
          rw [show i + (j + 1) = i + 1 + j by omega] at this
          simpa using this) (by rw [hs]; exact h2)
        refine ⟨?_, fun j hj => ?_⟩
        · rw [List.length_cons, show i + (es.length + 1) = i + 1 + es.length by omega, ih.1]; exact h.1
        · cases j with
          | zero => simp only [Nat.add_zero, h0, h1]; simp
          | succ j =>
            rw [show i + (j + 1) = i + 1 + j by omega]
            exact ih.2 j (by simpa using hj)

/-- Events that can all happen one after the other make an infinite execution. -/
def Run.ofEvents (ev : Nat → E) (h : ∀ i, step (states step init ev i) (ev i) ≠ none) : Run step init where
  st := states step init ev
  ev := ev
  ob i := match step (states step init ev i) (ev i) with
    | some (_, o) => o
    | none => []
  start := rfl
  next i := by
    have := h i
    simp only [states]
    split
    · rename_i s o hs; rw [hs]
    · rename_i hs; exact absurd hs this

/-- A finite part of an infinite execution. -/
theorem Run.part (r : Run step init) : ∀ (es : List E) (i : Nat), (∀ j (h : j < es.length), r.ev (i + j) = es[j]) →
    ∃ t, exec step (r.st i) es = some (r.st (i + es.length), t) ∧ r.tr (i + es.length) = r.tr i ++ t
  | [], i, _ => ⟨[], by simp [exec]⟩
  | e :: es, i, he => by
    have h0 : r.ev i = e := he 0 (by simp)
    obtain ⟨t, h1, h2⟩ := r.part es (i + 1) (fun j hj => by
      have := he (j + 1) (by simpa using hj)
      rw [show i + (j + 1) = i + 1 + j by omega] at this
      simpa using this)
    refine ⟨r.ob i ++ t, ?_, ?_⟩
    · have := r.next i
      rw [h0] at this
      simp only [exec, this, h1]
      rw [List.length_cons, show i + (es.length + 1) = i + 1 + es.length by omega]
    · rw [List.length_cons, show i + (es.length + 1) = i + 1 + es.length by omega, h2]
      simp [Run.tr]

/-- The events `pre`, then the events `evs` again and again. -/
theorem Run.lasso {pre evs : List E} {st : Nat → S} {t0 : List O} {t : Nat → List O} (hne : 0 < evs.length)
    (h0 : exec step init pre = some (st 0, t0)) (h : ∀ n, exec step (st n) evs = some (st (n + 1), t n)) :
    ∃ r : Run step init, (∀ j (h : j < pre.length), r.ev j = pre[j]) ∧
      (∀ n j (h : j < evs.length), r.ev (pre.length + evs.length * n + j) = evs[j]) ∧
      (∀ n, r.st (pre.length + evs.length * n) = st n) ∧ r.tr pre.length = t0 ∧
      ∀ n, r.tr (pre.length + evs.length * (n + 1)) = r.tr (pre.length + evs.length * n) ++ t n := by
  let ev : Nat → E := fun i => if h : i < pre.length then pre[i] else evs[(i - pre.length) % evs.length]'(Nat.mod_lt _ hne)
  have hev1 : ∀ j (h : j < pre.length), ev j = pre[j] := fun j hj => by simp [ev, hj]
  have hev2 : ∀ n j (h : j < evs.length), ev (pre.length + evs.length * n + j) = evs[j] := by
    intro n j hj
    have hm : (pre.length + evs.length * n + j - pre.length) % evs.length = j := by
      rw [show pre.length + evs.length * n + j - pre.length = j + evs.length * n by omega, Nat.add_mul_mod_self_left, Nat.mod_eq_of_lt hj]
    simp only [ev, show ¬ pre.length + evs.length * n + j < pre.length by omega, dite_false]
    simp only [hm]
  have hp := states_exec (step := step) (init := init) (ev := ev) pre 0 (fun j hj => by rw [Nat.zero_add]; exact hev1 j hj) h0
  simp only [Nat.zero_add] at hp
  have hst : ∀ n, states step init ev (pre.length + evs.length * n) = st n := by
    intro n
    induction n with
    | zero => simpa using hp.1
    | succ n ih =>
      have := (states_exec (step := step) (init := init) (ev := ev) (s := st (n + 1)) (t := t n) evs (pre.length + evs.length * n)
        (hev2 n) (by rw [ih]; exact h n)).1
      rw [Nat.mul_add, Nat.mul_one, ← Nat.add_assoc]; exact this
  have hok : ∀ i, step (states step init ev i) (ev i) ≠ none := by
    intro i
    by_cases hi : i < pre.length
    · exact hp.2 i hi
    · have hd : i = pre.length + evs.length * ((i - pre.length) / evs.length) + (i - pre.length) % evs.length := by
        have := Nat.div_add_mod (i - pre.length) evs.length
        omega
      have := (states_exec (step := step) (init := init) (ev := ev) (s := _) (t := _) evs (pre.length + evs.length * ((i - pre.length) / evs.length))
        (hev2 _) (by rw [hst]; exact h _)).2 ((i - pre.length) % evs.length) (Nat.mod_lt _ hne)
      rwa [← hd] at this
  refine ⟨Run.ofEvents ev hok, hev1, hev2, hst, ?_, fun n => ?_⟩
  · obtain ⟨t', h1, h2⟩ := (Run.ofEvents ev hok).part pre 0 (fun j hj => by rw [Nat.zero_add]; exact hev1 j hj)
    have h3 : (Run.ofEvents ev hok).st 0 = init := rfl
    rw [h3, h0] at h1
    simp only [Option.some.injEq, Prod.mk.injEq] at h1
    simp only [Nat.zero_add] at h2
    rw [h2, ← h1.2]; rfl
  · obtain ⟨t', h1, h2⟩ := (Run.ofEvents ev hok).part evs (pre.length + evs.length * n) (hev2 n)
    have h3 : (Run.ofEvents ev hok).st (pre.length + evs.length * n) = st n := hst n
    rw [h3, h n] at h1
    simp only [Option.some.injEq, Prod.mk.injEq] at h1
    rw [Nat.mul_add, Nat.mul_one, ← Nat.add_assoc, h2, ← h1.2]

/-- The events `pre`, then nothing more happens. -/
theorem Run.rests {pre : List E} {e0 : E} {s : S} {t0 : List O} (h0 : exec step init pre = some (s, t0)) (h : step s e0 = some (s, [])) :
    ∃ r : Run step init, (∀ j (h : j < pre.length), r.ev j = pre[j]) ∧ ∀ i, pre.length ≤ i → r.ev i = e0 ∧ r.st i = s ∧ r.tr i = t0 := by
  obtain ⟨r, h1, h2, h3, h4, h5⟩ := Run.lasso (pre := pre) (evs := [e0]) (st := fun _ => s) (t := fun _ => []) (by simp) h0 (by simp [exec, h])
  refine ⟨r, h1, fun i hi => ?_⟩
  obtain ⟨d, rfl⟩ := Nat.le.dest hi
  have a := h2 d 0 (by simp)
  have b := h3 d
  simp only [List.length_cons, List.length_nil, Nat.zero_add, Nat.one_mul, Nat.add_zero, List.getElem_cons_zero] at a b h5
  refine ⟨a, b, ?_⟩
  clear a b hi
  induction d with
  | zero => exact h4
  | succ d ih => rw [h5 d, List.append_nil]; exact ih

theorem Run.rests_fair {pre : List E} {e0 : E} {s : S} {t0 : List O} {act : Nat → E} (r : Run step init)
    (h : ∀ i, pre.length ≤ i → r.ev i = e0 ∧ r.st i = s ∧ r.tr i = t0) (hq : ∀ f, step s (act f) = none) : r.Fair act := fun f i =>
  ⟨pre.length + i, by omega, .inr (by rw [(h _ (by omega)).2.1]; exact hq f)⟩

end

end Verif
