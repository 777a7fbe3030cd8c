import Verif.MultiInv

/-!
# Invariants of `Verif/Multi.lean`: queues and switches
-/

namespace Verif.Multi

open Verif.Sch (Cx Tid set set_apply set_same set_other)

variable {s s' : State} {l : Spec}

attribute [local grind] Pc.held Pc.taken Pc.why Verif.Sch.set after own pinned

theorem ite_held {c : Prop} [Decidable c] {a b : Pc} : (if c then a else b).held = if c then a.held else b.held := by split <;> rfl
theorem ite_taken {c : Prop} [Decidable c] {a b : Pc} : (if c then a else b).taken = if c then a.taken else b.taken := by split <;> rfl
theorem ite_why {c : Prop} [Decidable c] {a b : Pc} : (if c then a else b).why = if c then a.why else b.why := by split <;> rfl

set_option maxHeartbeats 4000000 in
theorem inv_pushL (h : Inv s l) {t : Tid} {x : Cx} (hp : s.pc t = .push x) (hm : s.stealing = true) :
    ok l (.ready t x) ∧ Inv { s with loc := upd s.loc t (s.loc t ++ [x]), pc := upd s.pc t .user } (after l (.ready t x)) := by
  have hs : ok l (.ready t x) := by cases h; simp only [ok, Spec.free]; grind
  refine ⟨hs, ?_⟩
  simp only [ok, Spec.free] at hs
  have h0 := h
  cases h
  constructor
  case out =>
    intro z hz
    simp only [after, set_apply] at hz
    rcases h0.out z (by grind) with ⟨u, hu⟩ | ⟨u, hu⟩
    · exact .inl ⟨u, hu⟩
    · refine .inr ⟨u, ?_⟩
      have hut : u ≠ t := by grind
      simpa [upd_apply', hut] using hu
  all_goals first | assumption | (simp only [upd_apply', set_apply, after, ite_held, ite_taken, ite_why]; grind)

set_option maxHeartbeats 4000000 in
theorem inv_pushS (h : Inv s l) {t : Tid} {x : Cx} (hp : s.pc t = .push x) (hm : s.stealing = false) :
    ok l (.ready t x) ∧ Inv { s with shared := s.shared ++ [x], pc := upd s.pc t .user } (after l (.ready t x)) := by
  have hs : ok l (.ready t x) := by cases h; simp only [ok, Spec.free]; grind
  refine ⟨hs, ?_⟩
  simp only [ok, Spec.free] at hs
  have h0 := h
  cases h
  constructor
  case out =>
    intro z hz
    simp only [after, set_apply] at hz
    rcases h0.out z (by grind) with ⟨u, hu⟩ | ⟨u, hu⟩
    · exact .inl ⟨u, hu⟩
    · refine .inr ⟨u, ?_⟩
      have hut : u ≠ t := by grind
      simpa [upd_apply', hut] using hu
  all_goals first | assumption | (simp only [upd_apply', set_apply, after, ite_held, ite_taken, ite_why]; grind)

set_option maxHeartbeats 4000000 in
theorem inv_takeL (h : Inv s l) {t v : Tid} {r : Why} {x y : Cx} {q : List Cx} (hr : s.run t = some x) (hhe : (s.pc t).held = none) (ht : (s.pc t).taken = none) (hw : (s.pc t).why = some r) (hq : s.loc v = y :: q) (hv : v = t ∨ pinned y = false) :
    ok l (.take t v y) ∧ Inv { s with loc := upd s.loc v q, pc := upd s.pc t (.got r y) } (after l (.take t v y)) := by
  have hs : ok l (.take t v y) := by cases h; simp only [ok, Spec.free]; grind
  refine ⟨hs, ?_⟩
  simp only [ok, Spec.free] at hs
  have hnd := h.ndL v
  rw [hq, List.nodup_cons] at hnd
  have hyv : y ∈ s.loc v := by simp [hq]
  have hsub : ∀ z, z ∈ s.loc v ↔ z = y ∨ z ∈ q := by simp [hq]
  have hdis : y ∉ s.shared := by
    have h1 := h.modeS
    have h2 := h.modeL
    have h3 := h.shW
    intro hm
    cases hb : s.stealing with
    | false => simp [h3 y hm, h2 hb v y hyv] at *; grind
    | true => simp [h1 hb] at hm
  clear hq
  have h0 := h
  cases h
  constructor
  case out =>
    intro z hz
    simp only [after, set_apply] at hz
    rcases h0.out z (by grind) with ⟨u, hu⟩ | ⟨u, hu⟩
    · exact .inl ⟨u, hu⟩
    · refine .inr ⟨u, ?_⟩
      have hut : u ≠ t := by grind
      simpa [upd_apply', hut] using hu
  case ll =>
    intro a b z ha hb
    refine h0.ll a b z ?_ ?_
    · simp only [upd_apply'] at ha; grind
    · simp only [upd_apply'] at hb; grind
  case why =>
    intro a r' z ha hz
    by_cases hat : a = t
    · subst hat
      simp only [upd_same, Pc.why] at ha
      exact h0.why a r' z (by rw [hw, ← ha]) hz
    · exact h0.why a r' z (by simpa [upd_apply', hat] using ha) hz
  case homeT =>
    intro a z ha hz
    by_cases hat : a = t
    · subst hat
      have : y = z := by simpa [Pc.taken] using ha
      subst this
      have : v = a := by grind
      subst this
      exact h0.homeL _ _ hyv hz
    · exact h0.homeT a z (by simpa [upd_apply', hat] using ha) hz
  case rh =>
    intro a b z ha hb
    by_cases hbt : b = t
    · subst hbt; simp [Pc.held] at hb
    · exact h0.rh a b z ha (by simpa [upd_apply', hbt] using hb)
  case hh =>
    intro a b z ha hb
    by_cases hat : a = t
    · subst hat; simp [Pc.held] at ha
    · by_cases hbt : b = t
      · subst hbt; simp [Pc.held] at hb
      · exact h0.hh a b z (by simpa [upd_apply', hat] using ha) (by simpa [upd_apply', hbt] using hb)
  case homeH =>
    intro a z ha hz
    by_cases hat : a = t
    · subst hat; simp [Pc.held] at ha
    · exact h0.homeH a z (by simpa [upd_apply', hat] using ha) hz
  case wqH =>
    intro a z ha hp hz
    by_cases hat : a = t
    · subst hat; simp [Pc.held] at ha
    · exact h0.wqH a z (by simpa [upd_apply', hat] using ha) (by simpa [upd_apply', hat] using hp) hz
  all_goals first | assumption | (simp only [upd_apply', set_apply, after, ite_held, ite_taken, ite_why]; grind)

set_option maxHeartbeats 4000000 in
theorem inv_takeS (h : Inv s l) {t : Tid} {r : Why} {x y : Cx} {q : List Cx} (hr : s.run t = some x) (hh : (s.pc t).held = none) (ht : (s.pc t).taken = none) (hw : (s.pc t).why = some r) (hq : s.shared = y :: q) :
    ok l (.take t t y) ∧ Inv { s with shared := q, pc := upd s.pc t (.got r y) } (after l (.take t t y)) := by
  have hs : ok l (.take t t y) := by cases h; simp only [ok, Spec.free]; grind
  refine ⟨hs, ?_⟩
  simp only [ok, Spec.free] at hs
  have hnd := h.ndS
  rw [hq, List.nodup_cons] at hnd
  have hyv : y ∈ s.shared := by simp [hq]
  have hsub : ∀ z, z ∈ s.shared ↔ z = y ∨ z ∈ q := by simp [hq]
  have h0 := h
  cases h
  constructor
  case out =>
    intro z hz
    simp only [after, set_apply] at hz
    rcases h0.out z (by grind) with ⟨u, hu⟩ | ⟨u, hu⟩
    · exact .inl ⟨u, hu⟩
    · refine .inr ⟨u, ?_⟩
      have hut : u ≠ t := by grind
      simpa [upd_apply', hut] using hu
  all_goals first | assumption | (simp only [upd_apply', set_apply, after, ite_held, ite_taken, ite_why]; grind)

set_option maxHeartbeats 4000000 in
theorem inv_gotP (h : Inv s l) {t : Tid} {r : Why} {x y : Cx} (hp : s.pc t = .got r y) (hr : s.run t = some x) (hy : pinned y = true) :
    ok l (.run t y) ∧ Inv { s with run := upd s.run t (some y), pc := upd s.pc t (.put r x) } (after l (.run t y)) := by
  have hs : ok l (.run t y) := by cases h; simp only [ok, Spec.free]; grind
  refine ⟨hs, ?_⟩
  simp only [ok, Spec.free] at hs
  have h0 := h
  cases h
  constructor
  case out =>
    intro z hz
    simp only [after, set_apply] at hz
    by_cases hzy : z = y
    · exact .inl ⟨t, by simp [hzy]⟩
    · rcases h0.out z (by grind) with ⟨u, hu⟩ | ⟨u, hu⟩
      · by_cases hut : u = t
        · refine .inr ⟨t, ?_⟩
          have : x = z := by grind
          simp [Pc.held, this]
        · exact .inl ⟨u, by simpa [upd_apply', hut] using hu⟩
      · refine .inr ⟨u, ?_⟩
        have hut : u ≠ t := by grind
        simpa [upd_apply', hut] using hu
  all_goals first | assumption | (simp only [upd_apply', set_apply, after, ite_held, ite_taken, ite_why]; grind)

set_option maxHeartbeats 4000000 in
theorem inv_gotW (h : Inv s l) {t : Tid} {r : Why} {x y : Cx} (hp : s.pc t = .got r y) (hr : s.run t = some x) (hy : pinned y = false) :
    ok l (.run t y) ∧ Inv { s with wq := upd s.wq t (s.wq t ++ [y]), run := upd s.run t (some y), pc := upd s.pc t (.put r x) } (after l (.run t y)) := by
  have hs : ok l (.run t y) := by cases h; simp only [ok, Spec.free]; grind
  refine ⟨hs, ?_⟩
  simp only [ok, Spec.free] at hs
  have h0 := h
  cases h
  constructor
  case out =>
    intro z hz
    simp only [after, set_apply] at hz
    by_cases hzy : z = y
    · exact .inl ⟨t, by simp [hzy]⟩
    · rcases h0.out z (by grind) with ⟨u, hu⟩ | ⟨u, hu⟩
      · by_cases hut : u = t
        · refine .inr ⟨t, ?_⟩
          have : x = z := by grind
          simp [Pc.held, this]
        · exact .inl ⟨u, by simpa [upd_apply', hut] using hu⟩
      · refine .inr ⟨u, ?_⟩
        have hut : u ≠ t := by grind
        simpa [upd_apply', hut] using hu
  all_goals first | assumption | (simp only [upd_apply', set_apply, after, ite_held, ite_taken, ite_why]; grind)

end Verif.Multi
