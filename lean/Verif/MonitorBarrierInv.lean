import Verif.MonitorBarrier

/-!
# Phases between barriers
-/

namespace Verif.Monitor.Barrier

open Verif.Rtm (Tid Lock Addr Req Done Hist Prog mine)
open Verif.Monitor

/-- How many numbers below `n` have a property. -/
def cnt (P : Nat → Bool) : Nat → Nat
  | 0 => 0
  | n + 1 => cnt P n + if P n then 1 else 0

theorem cnt_le (P : Nat → Bool) : ∀ n, cnt P n ≤ n
  | 0 => Nat.le_refl 0
  | n + 1 => by have := cnt_le P n; simp only [cnt]; split <;> omega

theorem cnt_congr {P Q : Nat → Bool} : ∀ {n}, (∀ i, i < n → P i = Q i) → cnt P n = cnt Q n
  | 0, _ => rfl
  | n + 1, h => by simp only [cnt]; rw [cnt_congr fun i hi => h i (by omega), h n (by omega)]

theorem cnt_zero {P : Nat → Bool} {n : Nat} (h : ∀ i, i < n → P i = false) : cnt P n = 0 := by
  induction n with
  | zero => rfl
  | succ n ih => simp only [cnt]; rw [ih fun i hi => h i (by omega), h n (by omega)]; rfl

theorem cnt_add {P Q : Nat → Bool} {t : Nat} (ht : P t = false) (hq : Q t = true) (ho : ∀ i, i ≠ t → Q i = P i) : ∀ {n}, t < n → cnt Q n = cnt P n + 1
  | n + 1, h => by
    simp only [cnt]
    by_cases hn : t = n
    · subst hn
      rw [ht, hq, cnt_congr (P := Q) (Q := P) fun i hi => ho i (by omega)]; rfl
    · rw [cnt_add ht hq ho (n := n) (by omega), ho n (fun h => hn h.symm)]; omega

/-- All but one. -/
theorem cnt_all {P : Nat → Bool} {t : Nat} (ht : P t = false) : ∀ {n}, t < n → cnt P n < n ∧ (cnt P n + 1 = n → ∀ i, i < n → i ≠ t → P i = true)
  | n + 1, h => by
    simp only [cnt]
    by_cases hn : t = n
    · subst hn
      have h1 := cnt_le P t
      refine ⟨by simp [ht]; omega, fun h2 => ?_⟩
      simp [ht] at h2
      intro i hi hne
      have h3 : ∀ m, cnt P m = m → ∀ i, i < m → P i = true := by
        intro m
        induction m with
        | zero => intro _ i hi; omega
        | succ m ih =>
          intro h i hi
          have := cnt_le P m
          simp only [cnt] at h
          split at h
          · rename_i hm
            by_cases he : i = m
            · rw [he]; exact hm
            · exact ih (by omega) i (by omega)
          · omega
      exact h3 t h2 i (by omega)
    · obtain ⟨h1, h2⟩ := cnt_all ht (n := n) (by omega)
      refine ⟨by split <;> omega, fun h3 i hi hne => ?_⟩
      split at h3
      · rename_i hp
        by_cases he : i = n
        · rw [he]; exact hp
        · exact h2 (by omega) i (by omega) hne
      · omega

variable {init : Obj → Nat} {V : UProg Op Res} {plan : Plan}

/-- A thread waits in cycle `c`. -/
def arrived (h : UHist Op Res) (c : Nat) (t : Tid) : Bool := decide (pend h t = some (0, .waiting c))

structure BInv (init : Obj → Nat) (h : UHist Op Res) : Prop where
  where_ : ∀ t, (pend h t = none ∧ (t < init 0 → phase (upast h t) = uval h (cycAt 0))) ∨
    (t < init 0 ∧ pend h t = some (0, .waiting (uval h (cycAt 0))) ∧ phase (upast h t) = uval h (cycAt 0)) ∨
    (t < init 0 ∧ ∃ c, uval h (cycAt 0) = c + 1 ∧ pend h t = some (0, .waiting c) ∧ phase (upast h t) = c)
  count : uval h (arrAt 0) = cnt (arrived h (uval h (cycAt 0))) (init 0)

theorem binv_init : BInv init [] where
  where_ := fun t => .inl ⟨rfl, fun _ => rfl⟩
  count := (cnt_zero fun i _ => by simp [arrived, pend]).symm

/-- What a step can be. -/
theorem step_cases (hp : Phased init V plan) {h : UHist Op Res} (hi : BInv init h) {t : Tid} {e : Ev Op Res} (hl : ULegal (lib init) V ((t, e) :: h)) :
    -- the user's code
    ((∃ a v, home a = none ∧ (e = .got a v ∨ e = .put a v)) ∧ pend h t = none ∧ t < init 0) ∨
    -- the last one arrives
    (∃ log, e = .sect 0 .wait log (.ret true) ∧ pend h t = none ∧ t < init 0 ∧ (∀ u, u < init 0 → u ≠ t → pend h u = some (0, .waiting (uval h (cycAt 0)))) ∧
      uval ((t, e) :: h) (cycAt 0) = uval h (cycAt 0) + 1 ∧ uval ((t, e) :: h) (arrAt 0) = 0) ∨
    -- another one arrives
    (∃ log, e = .sect 0 .wait log (.again (.waiting (uval h (cycAt 0)))) ∧ pend h t = none ∧ t < init 0 ∧
      uval ((t, e) :: h) (cycAt 0) = uval h (cycAt 0) ∧ uval ((t, e) :: h) (arrAt 0) = uval h (arrAt 0) + 1) ∨
    -- waits for longer
    (∃ log, e = .sect 0 (.waiting (uval h (cycAt 0))) log (.again (.waiting (uval h (cycAt 0)))) ∧ pend h t = some (0, .waiting (uval h (cycAt 0))) ∧
      uval ((t, e) :: h) (cycAt 0) = uval h (cycAt 0) ∧ uval ((t, e) :: h) (arrAt 0) = uval h (arrAt 0)) ∨
    -- returns
    (∃ log c, e = .sect 0 (.waiting c) log (.ret false) ∧ pend h t = some (0, .waiting c) ∧ uval h (cycAt 0) = c + 1 ∧ t < init 0 ∧
      uval ((t, e) :: h) (cycAt 0) = uval h (cycAt 0) ∧ uval ((t, e) :: h) (arrAt 0) = uval h (arrAt 0)) := by
  have hP := hp h t hl.2
  obtain ⟨ha, _⟩ := hl
  cases e with
  | got a v =>
    have := hP.1 a ha.2.1
    exact .inl ⟨⟨a, v, this.1, .inl rfl⟩, ha.1, this.2.1⟩
  | put a v =>
    have := hP.2.1 a v ha.2
    exact .inl ⟨⟨a, v, this.1, .inr rfl⟩, ha.1, this.2.1⟩
  | sect o op log out =>
    obtain ⟨h1, h2⟩ := sect_eval (sec := fun o _ op => sec init o op) ha
    have hw := hi.where_ t
    have hca := cyc_ne_arr 0 0
    have hac : arrAt 0 ≠ cycAt 0 := fun h => hca h.symm
    rcases h1 with h1 | ⟨h1, h3⟩
    · rcases hw with ⟨h4, _⟩ | ⟨ht, h4, h5⟩ | ⟨ht, c, hc, h4, h5⟩
      · rw [h1] at h4; cases h4
      · rw [h1] at h4; cases h4
        simp only [sec, Sec.eval, ne_eq, not_true_eq_false, if_false, Prod.mk.injEq] at h2
        obtain ⟨h2, rfl⟩ := h2
        exact .inr (.inr (.inr (.inl ⟨log, rfl, h1, by rw [← h2], by rw [← h2]⟩)))
      · rw [h1] at h4; cases h4
        have hne : uval h (cycAt 0) ≠ c := by omega
        simp only [sec, Sec.eval, ne_eq, hne, not_false_eq_true, if_true, Prod.mk.injEq] at h2
        obtain ⟨h2, rfl⟩ := h2
        exact .inr (.inr (.inr (.inr ⟨log, c, rfl, h1, hc, ht, by rw [← h2], by rw [← h2]⟩)))
    · obtain ⟨rfl, rfl, ht⟩ := hP.2.2 _ _ h3
      have hna : arrived h (uval h (cycAt 0)) t = false := by simp [arrived, h1]
      obtain ⟨h4, h5⟩ := cnt_all hna ht
      rw [← hi.count] at h4 h5
      simp only [sec, Sec.eval] at h2
      by_cases hk : uval h (arrAt 0) + 1 = init 0
      · rw [if_pos hk] at h2
        simp only [Sec.eval, Prod.mk.injEq] at h2
        obtain ⟨h2, rfl⟩ := h2
        refine .inr (.inl ⟨log, rfl, h1, ht, ?_, by rw [← h2]; simp [hac], by rw [← h2]; simp⟩)
        intro u hu hne
        simpa [arrived] using h5 hk u hu hne
      · rw [if_neg hk] at h2
        simp only [Sec.eval, Prod.mk.injEq] at h2
        obtain ⟨h2, rfl⟩ := h2
        exact .inr (.inr (.inl ⟨log, rfl, h1, ht, by rw [← h2]; simp [hac], by rw [← h2]; simp⟩))

theorem uval_user {h : UHist Op Res} {t : Tid} {e : Ev Op Res} {a : Addr} {v : Nat} (hh : home a = none) (he : e = .got a v ∨ e = .put a v) (b : Addr)
    (hb : home b ≠ none) : uval ((t, e) :: h) b = uval h b := by
  rcases he with rfl | rfl
  · rfl
  · have : a ≠ b := by rintro rfl; exact hb hh
    simp [uval, this]

theorem binv_step (hp : Phased init V plan) {h : UHist Op Res} (hi : BInv init h) {t : Tid} {e : Ev Op Res} (hl : ULegal (lib init) V ((t, e) :: h)) :
    BInv init ((t, e) :: h) := by
  have hc := home_cyc 0
  have ha := home_arr 0
  have hcases := step_cases hp hi hl
  have hw := hi.where_
  rcases hcases with ⟨⟨a, v, hh, he⟩, h1, ht⟩ | ⟨log, he, h1, ht, hall, h2, h3⟩ | ⟨log, he, h1, ht, h2, h3⟩ | ⟨log, he, h1, h2, h3⟩ | ⟨log, c, he, h1, hcyc, ht, h2, h3⟩
  · have h4 : uval ((t, e) :: h) (cycAt 0) = uval h (cycAt 0) := uval_user hh he _ (by rw [hc]; simp)
    have h5 : uval ((t, e) :: h) (arrAt 0) = uval h (arrAt 0) := uval_user hh he _ (by rw [ha]; simp)
    have h6 : ∀ u, pend ((t, e) :: h) u = pend h u := by
      intro u
      by_cases hu : u = t
      · subst hu; rcases he with rfl | rfl <;> simp [pend, h1]
      · exact pend_other hu _ _
    have h7 : ∀ u, phase (upast ((t, e) :: h) u) = phase (upast h u) := by
      intro u
      by_cases hu : u = t
      · subst hu; rcases he with rfl | rfl <;> simp [upast, phase]
      · rw [upast_other hu]
    refine ⟨fun u => ?_, ?_⟩
    · rw [h4, h6, h7]; exact hw u
    · rw [h4, h5, hi.count]
      exact cnt_congr fun i _ => by simp [arrived, h6]
  · subst he
    refine ⟨fun u => ?_, ?_⟩
    · by_cases hu : u = t
      · subst hu
        have := hw u
        simp only [h1] at this
        refine .inl ⟨by simp [pend], fun _ => ?_⟩
        simp only [upast, if_true, phase]
        rw [h2]
        have := hw u
        simp only [h1, true_and, reduceCtorEq, false_and, and_false, or_false, exists_false] at this
        rw [this ht]
      · rw [pend_other hu, upast_other hu, h2]
        by_cases hn : u < init 0
        · have h5 := hall u hn hu
          rcases hw u with ⟨h6, _⟩ | ⟨_, h6, h7⟩ | ⟨_, c, hc, h6, h7⟩
          · rw [h5] at h6; cases h6
          · exact .inr (.inr ⟨hn, _, rfl, h6, h7⟩)
          · rw [h5] at h6; cases h6; omega
        · rcases hw u with ⟨h6, _⟩ | ⟨h6, _⟩ | ⟨h6, _⟩
          · exact .inl ⟨h6, fun h => absurd h hn⟩
          · exact absurd h6 hn
          · exact absurd h6 hn
    · rw [h3, h2]
      refine (cnt_zero fun i hlt => ?_).symm
      simp only [arrived, decide_eq_false_iff_not]
      by_cases hu : i = t
      · subst hu; simp [pend]
      · rw [pend_other hu, hall i hlt hu]; simp
  · subst he
    refine ⟨fun u => ?_, ?_⟩
    · rw [h2]
      by_cases hu : u = t
      · subst hu
        refine .inr (.inl ⟨ht, by simp [pend], ?_⟩)
        have := hw u
        simp only [h1, true_and, reduceCtorEq, false_and, and_false, or_false, exists_false] at this
        simp only [upast, if_true]
        exact this ht
      · rw [pend_other hu, upast_other hu]; exact hw u
    · rw [h3, h2, hi.count]
      refine (cnt_add (t := t) (by simp [arrived, h1]) (by simp [arrived, pend]) ?_ ht).symm
      intro i hu
      simp only [arrived]; rw [pend_other hu]
  · subst he
    have h6 : ∀ u, pend ((t, .sect 0 (.waiting (uval h (cycAt 0))) log (.again (.waiting (uval h (cycAt 0))))) :: h) u = pend h u := by
      intro u
      by_cases hu : u = t
      · subst hu; simp [pend, h1]
      · exact pend_other hu _ _
    have h7 : ∀ u, upast ((t, .sect 0 (.waiting (uval h (cycAt 0))) log (.again (.waiting (uval h (cycAt 0))))) :: h) u = upast h u := by
      intro u
      by_cases hu : u = t
      · subst hu; simp [upast]
      · exact upast_other hu _ _
    refine ⟨fun u => ?_, ?_⟩
    · rw [h6, h7, h2]; exact hw u
    · rw [h3, h2, hi.count]
      exact cnt_congr fun i _ => by simp only [arrived]; rw [h6]
  · subst he
    refine ⟨fun u => ?_, ?_⟩
    · rw [h2]
      by_cases hu : u = t
      · subst hu
        refine .inl ⟨by simp [pend], fun _ => ?_⟩
        simp only [upast, if_true, phase]
        rcases hw u with ⟨h6, _⟩ | ⟨_, h6, h7⟩ | ⟨_, c', hc', h6, h7⟩
        · rw [h1] at h6; cases h6
        · rw [h1] at h6; simp at h6; omega
        · rw [h1] at h6; simp at h6; omega
      · rw [pend_other hu, upast_other hu]; exact hw u
    · rw [h3, h2, hi.count]
      refine cnt_congr fun i _ => ?_
      simp only [arrived]
      by_cases hu : i = t
      · subst hu
        have hne : ¬ c = uval h (cycAt 0) := by omega
        simp [pend, h1, hne]
      · rw [pend_other hu]

theorem binv_legal (hp : Phased init V plan) : ∀ {h : UHist Op Res}, ULegal (lib init) V h → BInv init h
  | [], _ => binv_init
  | (_, _) :: _, hl => binv_step hp (binv_legal hp hl.2) hl

theorem results_length : ∀ p : List (UDone Op Res), (results p).length = phase p
  | [] => rfl
  | .did _ _ _ :: p => by simp [results, phase, results_length p]
  | .got _ _ :: p => results_length p
  | .put _ _ :: p => results_length p

theorem phase_le {h : UHist Op Res} (hi : BInv init h) {t : Tid} (ht : t < init 0) : phase (upast h t) ≤ uval h (cycAt 0) := by
  rcases hi.where_ t with ⟨_, h1⟩ | ⟨_, _, h1⟩ | ⟨_, c, h1, _, h2⟩
  · exact Nat.le_of_eq (h1 ht)
  · exact Nat.le_of_eq h1
  · omega

/-- Exactly one thread gets `true` in each cycle. -/
theorem one_true (hp : Phased init V plan) : ∀ {h : UHist Op Res}, ULegal (lib init) V h → ∀ k, k < uval h (cycAt 0) →
    ∃ t, t < init 0 ∧ (results (upast h t))[k]? = some true ∧ ∀ u, u < init 0 → (results (upast h u))[k]? = some true → u = t
  | [], _, k, hk => by simp [uval] at hk
  | (t, e) :: h, hl, k, hk => by
    have hi := binv_legal hp hl.2
    have hlen : ∀ u, u < init 0 → (results (upast h u)).length ≤ uval h (cycAt 0) := fun u hu => by rw [results_length]; exact phase_le hi hu
    have hw := hi.where_ t
    have keep : (∀ u, u < init 0 → ∀ j : Nat, (results (upast ((t, e) :: h) u))[j]? = some true ↔ (results (upast h u))[j]? = some true) →
        k < uval h (cycAt 0) → ∃ t', t' < init 0 ∧ (results (upast ((t, e) :: h) t'))[k]? = some true ∧
          ∀ u, u < init 0 → (results (upast ((t, e) :: h) u))[k]? = some true → u = t' := by
      intro hs hk
      obtain ⟨t', h1, h2, h3⟩ := one_true hp hl.2 k hk
      exact ⟨t', h1, (hs t' h1 k).2 h2, fun u hu h4 => h3 u hu ((hs u hu k).1 h4)⟩
    rcases step_cases hp hi hl with ⟨⟨a, v, hh, he⟩, h1, ht⟩ | ⟨log, he, h1, ht, hall, h2, h3⟩ | ⟨log, he, h1, ht, h2, h3⟩ | ⟨log, he, h1, h2, h3⟩ |
      ⟨log, c, he, h1, hcyc, ht, h2, h3⟩
    · rw [uval_user hh he _ (by rw [home_cyc]; simp)] at hk
      refine keep (fun u _ j => ?_) hk
      by_cases hu : u = t
      · subst hu; rcases he with rfl | rfl <;> simp [upast, results]
      · rw [upast_other hu]
    · rw [h2] at hk
      have hpt : phase (upast h t) = uval h (cycAt 0) := by
        simp only [h1, true_and, reduceCtorEq, false_and, and_false, or_false, exists_false] at hw
        exact hw ht
      have hme : results (upast ((t, e) :: h) t) = results (upast h t) ++ [true] := by subst he; simp [upast, results]
      by_cases hkk : k < uval h (cycAt 0)
      · obtain ⟨t', g1, g2, g3⟩ := one_true hp hl.2 k hkk
        have hs : ∀ u, u < init 0 → ((results (upast ((t, e) :: h) u))[k]? = some true ↔ (results (upast h u))[k]? = some true) := by
          intro u _
          by_cases hu : u = t
          · subst hu
            rw [hme, List.getElem?_append_left (by rw [results_length, hpt]; exact hkk)]
          · rw [upast_other hu]
        exact ⟨t', g1, (hs t' g1).2 g2, fun u hu g4 => g3 u hu ((hs u hu).1 g4)⟩
      · have hkk : k = uval h (cycAt 0) := by omega
        subst hkk
        refine ⟨t, ht, ?_, ?_⟩
        · rw [hme, ← hpt, ← results_length, List.getElem?_append_right (Nat.le_refl _)]; simp
        · intro u hu g
          refine Decidable.byContradiction fun hne => ?_
          rw [upast_other hne, List.getElem?_eq_none (hlen u hu)] at g
          cases g
    · rw [h2] at hk
      refine keep (fun u _ j => ?_) hk
      by_cases hu : u = t
      · subst hu; subst he; simp [upast]
      · rw [upast_other hu]
    · rw [h2] at hk
      refine keep (fun u _ j => ?_) hk
      by_cases hu : u = t
      · subst hu; subst he; simp [upast]
      · rw [upast_other hu]
    · rw [h2] at hk
      refine keep (fun u _ j => ?_) hk
      by_cases hu : u = t
      · subst hu; subst he
        simp only [upast, if_true, results]
        rw [List.getElem?_append]
        split
        · rfl
        · rename_i hj
          rw [List.getElem?_eq_none (l := results (upast h u)) (by omega)]
          cases hh : j - (results (upast h u)).length with
          | zero => simp
          | succ n => simp
      · rw [upast_other hu]

/-- To whom a share belongs in a phase. -/
def share (n : Nat) (plan : Plan) (k : Nat) (a : Addr) (i : Nat) : Tid :=
  match plan k a with
  | some t => if t < n then t else 0
  | none => if i < n then i else 0

theorem share_lt {n : Nat} (hn : 0 < n) (plan : Plan) (k : Nat) (a : Addr) (i : Nat) : share n plan k a i < n := by
  have h : ∀ x : Nat, (if x < n then x else 0) < n := fun x => by split <;> omega
  unfold share
  split <;> exact h _

/-- Where shares are: with the threads, or in the barrier when the thread has arrived. -/
def shares (n : Nat) (plan : Plan) (h : UHist Op Res) (a : Addr) (i : Nat) : URight :=
  if pend h (share n plan (uval h (cycAt 0)) a i) = none then .thread (share n plan (uval h (cycAt 0)) a i) else .obj 0

theorem phased_disciplined (hn : 0 < init 0) (hp : Phased init V plan) : UDisciplined (lib init) V := by
  refine ⟨shares (init 0) plan, fun t e h hl => ?_⟩
  have hi := binv_legal hp hl.2
  have hP := hp h t hl.2
  have hph : pend h t = none → t < init 0 → phase (upast h t) = uval h (cycAt 0) := by
    intro h1 ht
    have := hi.where_ t
    simp only [h1, true_and, reduceCtorEq, false_and, and_false, or_false, exists_false] at this
    exact this ht
  refine ⟨?_, ?_, ?_⟩
  · intro a v he
    subst he
    obtain ⟨h1, h2, _⟩ := hl.1
    obtain ⟨h3, h4, h5⟩ := hP.1 a h2
    rw [hph h1 h4] at h5
    refine ⟨h3, t, ?_⟩
    have : share (init 0) plan (uval h (cycAt 0)) a t = t := by
      unfold share
      rcases h5 with h5 | h5 <;> rw [h5] <;> exact if_pos h4
    unfold shares
    rw [this, if_pos h1]
  · intro a v he
    subst he
    obtain ⟨h1, h2⟩ := hl.1
    obtain ⟨h3, h4, h5⟩ := hP.2.1 a v h2
    rw [hph h1 h4] at h5
    refine ⟨h3, fun i => ?_⟩
    have : share (init 0) plan (uval h (cycAt 0)) a i = t := by
      unfold share
      rw [h5]; exact if_pos h4
    unfold shares
    rw [this, if_pos h1]
  · intro a i _
    have hlt := share_lt hn plan (uval h (cycAt 0)) a i
    have hlt' := share_lt hn plan (uval h (cycAt 0) + 1) a i
    unfold shares
    rcases step_cases hp hi hl with ⟨⟨b, v, hh, he⟩, h1, ht⟩ | ⟨log, he, h1, ht, hall, h2, h3⟩ | ⟨log, he, h1, ht, h2, h3⟩ | ⟨log, he, h1, h2, h3⟩ |
      ⟨log, c, he, h1, hcyc, ht, h2, h3⟩
    · left
      rw [uval_user hh he _ (by rw [home_cyc]; simp)]
      have h6 : ∀ u, pend ((t, e) :: h) u = pend h u := by
        intro u
        by_cases hu : u = t
        · subst hu; rcases he with rfl | rfl <;> simp [pend, h1]
        · exact pend_other hu _ _
      rw [h6]
    · rw [h2]
      subst he
      generalize share (init 0) plan (uval h (cycAt 0)) a i = u at *
      generalize share (init 0) plan (uval h (cycAt 0) + 1) a i = u' at *
      have hu : (if pend h u = none then URight.thread u else .obj 0) = if u = t then .thread t else .obj 0 := by
        by_cases he : u = t
        · subst he; simp [h1]
        · rw [hall u hlt he]; simp [he]
      have hu' : (if pend ((t, .sect 0 .wait log (.ret true)) :: h) u' = none then URight.thread u' else .obj 0) = if u' = t then .thread t else .obj 0 := by
        by_cases he : u' = t
        · subst he; simp [pend]
        · rw [pend_other he, hall u' hlt' he]; simp [he]
      rw [hu, hu']
      by_cases he : u = t <;> by_cases he' : u' = t <;> simp only [he, he', if_true, if_false]
      · exact .inl rfl
      · exact .inr ⟨0, _, _, _, rfl, .inr ⟨rfl, rfl⟩⟩
      · exact .inr ⟨0, _, _, _, rfl, .inl ⟨rfl, rfl⟩⟩
      · exact .inl rfl
    · rw [h2]
      subst he
      generalize share (init 0) plan (uval h (cycAt 0)) a i = u at *
      by_cases he : u = t
      · subst he
        exact .inr ⟨0, _, _, _, rfl, .inr ⟨by simp [h1], by simp [pend]⟩⟩
      · rw [pend_other he]; exact .inl rfl
    · rw [h2]
      subst he
      generalize share (init 0) plan (uval h (cycAt 0)) a i = u at *
      by_cases he : u = t
      · subst he
        refine .inl (by simp [pend, h1])
      · rw [pend_other he]; exact .inl rfl
    · rw [h2]
      subst he
      generalize share (init 0) plan (uval h (cycAt 0)) a i = u at *
      by_cases he : u = t
      · subst he
        exact .inr ⟨0, _, _, _, rfl, .inl ⟨by simp [h1], by simp [pend]⟩⟩
      · rw [pend_other he]; exact .inl rfl

end Verif.Monitor.Barrier
