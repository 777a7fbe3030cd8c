import Verif.Nonblocking

/-!
# C103 A nonblocking interface, made into calls that wait

`given tr`: the data the interface has given, in order; `asks`, `blocks`: how often it was called, and how often it answered `EWOULDBLOCK`.
-/

namespace Verif.Props.Nonblocking
open Verif Verif.Nonblocking

theorem given_append : ∀ {a b : List Obs}, given (a ++ b) = given a ++ given b := by
  intro a
  induction a with
  | nil => intro b; rfl
  | cons o a ih => intro b; cases o <;> simp [given, ih]

structure Inv (n : Nat) (s : State) (tr : List Obs) : Prop where
  data : s.data = given tr
  more : s.pc = .ask ∨ s.pc = .yielded → s.data.length < n
  ret : ∀ ec d, .returned ec d ∈ tr → s.pc = .done ec ∧ d = s.data
  done : ∀ ec, s.pc = .done ec → (ec = 0 ∧ n ≤ s.data.length) ∨ (ec ≠ 0 ∧ ec ≠ wouldBlock ∧ s.data.length < n ∧ ∃ a c, tr = a ++ [.answered (n - s.data.length) ec c, .returned ec s.data])
  asked : ∀ a m ec c b, tr = a ++ .answered m ec c :: b → m = n - (given a).length ∧ 0 < m

theorem step_inv {n : Nat} {s s' : State} {tr o : List Obs} {e : Event} (h : Inv n s tr) (he : step n s e = some (s', o)) : Inv n s' (tr ++ o) := by
  have key : ∀ o' : List Obs, s.pc = .ask → (∀ a m ec c b, o' ≠ a ++ .answered m ec c :: b) → ∀ ec c, ∀ a m ec' c' b, tr ++ .answered (n - s.data.length) ec c :: o' = a ++ .answered m ec' c' :: b →
      m = n - (given a).length ∧ 0 < m := by
    intro o' hp ho ec c a m ec' c' b heq
    rcases List.append_eq_append_iff.1 heq with ⟨l, h1, h2⟩ | ⟨l, h1, h2⟩
    · cases l with
      | nil =>
        simp at h1 h2
        obtain ⟨⟨rfl, _, _⟩, _⟩ := h2
        rw [h1, h.data]
        refine ⟨rfl, ?_⟩
        have := h.more (.inl hp)
        rw [h.data] at this; omega
      | cons x l =>
        simp at h2
        exact absurd h2.2 (ho _ _ _ _ _)
    · cases l with
      | nil =>
        simp at h1 h2
        obtain ⟨⟨rfl, _, _⟩, _⟩ := h2
        rw [← h1, h.data]
        refine ⟨rfl, ?_⟩
        have := h.more (.inl hp)
        rw [h.data] at this; omega
      | cons x l =>
        simp at h2
        obtain ⟨rfl, h2⟩ := h2
        exact h.asked a m ec' c' l h1
  have hno : s.pc = .ask → ∀ ec d, .returned ec d ∉ tr := fun hp ec d hm => by have := (h.ret ec d hm).1; simp [hp] at this
  cases e with
  | resume =>
    simp only [step] at he
    split at he <;> simp only [Option.some.injEq, Prod.mk.injEq, reduceCtorEq] at he
    rename_i hp
    obtain ⟨rfl, rfl⟩ := he
    simp only [List.append_nil]
    exact ⟨h.data, fun _ => h.more (.inr hp), fun ec d hm => by have := (h.ret ec d hm).1; simp [hp] at this, fun ec hh => by simp at hh, h.asked⟩
  | answer ec c =>
    simp only [step] at he
    split at he <;> (try (simp only [reduceCtorEq] at he; done))
    rename_i hp
    split at he
    · rename_i hw
      simp only [Option.some.injEq, Prod.mk.injEq] at he
      obtain ⟨rfl, rfl⟩ := he
      refine ⟨?_, fun _ => h.more (.inl hp), fun ec d hm => ?_, fun ec hh => by simp at hh, ?_⟩
      · rw [given_append, ← h.data]; subst hw; simp [given, wouldBlock]
      · simp [hno hp] at hm
      · refine key [.yielded] hp ?_ ec c
        intro a m ec' c' b hh
        cases a <;> simp at hh
    · split at he
      · rename_i hw h0
        subst h0
        simp only [Option.some.injEq, Prod.mk.injEq] at he
        obtain ⟨rfl, rfl⟩ := he
        simp only [loop]
        split
        · rename_i hlt
          refine ⟨by rw [given_append, ← h.data]; simp [given], fun _ => hlt, fun ec d hm => ?_, fun ec hh => by simp at hh, ?_⟩
          · simp [hno hp] at hm
          · refine key [] hp ?_ 0 c
            intro a m ec' c' b hh
            cases a <;> simp at hh
        · rename_i hlt
          refine ⟨by rw [given_append, ← h.data]; simp [given], fun hh => by simp at hh, fun ec d hm => ?_, fun ec hh => ?_, ?_⟩
          · simp [hno hp] at hm; simp [hm.1, hm.2]
          · simp at hh; exact .inl ⟨hh.symm, by simpa using hlt⟩
          · refine key [.returned 0 (s.data ++ c)] hp ?_ 0 c
            intro a m ec' c' b hh
            cases a <;> simp at hh
      · rename_i hw h0
        simp only [Option.some.injEq, Prod.mk.injEq] at he
        obtain ⟨rfl, rfl⟩ := he
        refine ⟨by rw [given_append, ← h.data]; simp [given, h0], fun hh => by simp at hh, fun ec d hm => ?_, fun ec' hh => ?_, ?_⟩
        · simp [hno hp] at hm; simp [hm.1, hm.2]
        · simp at hh; subst hh
          exact .inr ⟨h0, hw, h.more (.inl hp), tr, c, rfl⟩
        · refine key [.returned ec s.data] hp ?_ ec c
          intro a m ec' c' b hh
          cases a <;> simp at hh

theorem reach_inv {n : Nat} {s : State} {tr : List Obs} (hn : 0 < n) (h : Reach (step n) (start n) s tr) : Inv n s tr := by
  induction h with
  | refl =>
    simp only [start, loop, List.length_nil, hn, if_true]
    exact ⟨rfl, fun _ => hn, by simp, by simp, by simp⟩
  | tail e _ hs ih => exact step_inv ih hs

/-- Nothing is asked for if nothing is desired. -/
theorem nothing_desired {s : State} {tr : List Obs} (h : Reach (step 0) (start 0) s tr) : tr = [] ∧ s.data = [] ∧ s.pc = .done 0 := by
  induction h with
  | refl => exact ⟨rfl, rfl, rfl⟩
  | tail e _ hs ih =>
    obtain ⟨rfl, h1, h2⟩ := ih
    cases e <;> simp [step, h2] at hs

/-- The data that is returned is all the data the interface has given, in this order, and nothing else: none is lost, also if an error is returned with it. -/
theorem all_data {n : Nat} {s : State} {tr : List Obs} {ec : Int} {d : List Nat} (hn : 0 < n) (h : Reach (step n) (start n) s tr) (hr : .returned ec d ∈ tr) : d = given tr := by
  have hi := reach_inv hn h
  rw [(hi.ret ec d hr).2, hi.data]

/-- The interface is asked for exactly what is still missing, and not for nothing. -/
theorem asks_for_rest {n : Nat} {s : State} {a b : List Obs} {m : Nat} {ec : Int} {c : List Nat} (hn : 0 < n) (h : Reach (step n) (start n) s (a ++ .answered m ec c :: b)) :
    m = n - (given a).length ∧ 0 < m := (reach_inv hn h).asked a m ec c b rfl

/-- Success is returned if and only if as much as desired has been read; an error, with less, is the last answer of the interface, and never `EWOULDBLOCK`. -/
theorem status {n : Nat} {s : State} {tr : List Obs} {ec : Int} {d : List Nat} (hn : 0 < n) (h : Reach (step n) (start n) s tr) (hr : .returned ec d ∈ tr) :
    (ec = 0 ∧ n ≤ d.length) ∨ (ec ≠ 0 ∧ ec ≠ wouldBlock ∧ d.length < n ∧ ∃ a m c, tr = a ++ [.answered m ec c, .returned ec d]) := by
  have hi := reach_inv hn h
  obtain ⟨hp, rfl⟩ := hi.ret ec d hr
  rcases hi.done ec hp with h1 | ⟨h1, h2, h3, a, c, h4⟩
  · exact .inl h1
  · exact .inr ⟨h1, h2, h3, a, _, c, h4⟩

/-- If the interface gives no more than it was asked for, no more than desired is returned. -/
theorem not_more {n : Nat} {s : State} {tr : List Obs} (hn : 0 < n) (h : Reach (step n) (start n) s tr) (hc : ∀ m c, .answered m 0 c ∈ tr → c.length ≤ m) : (given tr).length ≤ n := by
  induction h with
  | refl => simp [given]
  | @tail s s' tr o e h1 hs ih =>
    have hi := reach_inv hn h1
    have ih := ih (fun m c hm => hc m c (by simp [hm]))
    rw [given_append]
    cases e with
    | resume => simp only [step] at hs; split at hs <;> simp at hs; simp [hs.2, given, ih]
    | answer ec c =>
      simp only [step] at hs
      split at hs <;> (try (simp only [reduceCtorEq] at hs; done))
      have hlen := hi.data
      split at hs
      · rename_i hw
        simp only [Option.some.injEq, Prod.mk.injEq] at hs; obtain ⟨_, rfl⟩ := hs
        subst hw; simp [given, wouldBlock, ih]
      · split at hs
        · rename_i h0
          subst h0
          simp only [Option.some.injEq, Prod.mk.injEq] at hs; obtain ⟨_, rfl⟩ := hs
          have := hc (n - s.data.length) c (by simp)
          rw [hlen] at this
          have hl : given (loop n (s.data ++ c)).2 = [] := by simp only [loop]; split <;> rfl
          simp [given, hl]; omega
        · rename_i h0
          simp only [Option.some.injEq, Prod.mk.injEq] at hs; obtain ⟨_, rfl⟩ := hs
          simp [given, h0, ih]

/-- The fiber yields once for every `EWOULDBLOCK`, and only then. -/
theorem yields {n : Nat} {s : State} {tr : List Obs} (h : Reach (step n) (start n) s tr) : tr.count .yielded = blocks tr := by
  induction h with
  | refl => rfl
  | @tail s s' tr o e h1 hs ih =>
    have hb : ∀ a b, blocks (a ++ b) = blocks a + blocks b := by intro a b; simp [blocks]
    have hl : ∀ d, (loop n d).2.count .yielded = 0 ∧ blocks (loop n d).2 = 0 := by
      intro d; simp only [loop]; split <;> simp [blocks]
    have hc : ∀ m ec c l, blocks (.answered m ec c :: l) = blocks l + if ec = wouldBlock then 1 else 0 := by intro m ec c l; simp [blocks, List.countP_cons]
    have hy : ∀ l, blocks (.yielded :: l) = blocks l := by intro l; simp [blocks, List.countP_cons]
    have hr : ∀ ec d l, blocks (.returned ec d :: l) = blocks l := by intro ec d l; simp [blocks, List.countP_cons]
    have h0 : blocks [] = 0 := rfl
    rw [hb, List.count_append, ih]
    cases e <;> simp only [step] at hs <;> (repeat' split at hs) <;> simp only [Option.some.injEq, Prod.mk.injEq, reduceCtorEq] at hs <;> obtain ⟨_, rfl⟩ := hs <;>
      simp_all

/-- If every success comes with at least one character, the interface is called no more often than it answers `EWOULDBLOCK`, plus once for each character desired. -/
theorem bounded {n : Nat} {s : State} {tr : List Obs} (hn : 0 < n) (h : Reach (step n) (start n) s tr) (hc : ∀ m c, .answered m 0 c ∈ tr → 0 < c.length) : asks tr ≤ blocks tr + n := by
  have key : asks tr ≤ blocks tr + (given tr).length + (match s.pc with | .done ec => if ec = 0 then 0 else 1 | _ => 0) ∧ ((s.pc = .ask ∨ s.pc = .yielded ∨ ∃ ec, s.pc = .done ec ∧ ec ≠ 0) → (given tr).length < n) ∧
      (s.pc = .done 0 → asks tr ≤ blocks tr + n) := by
    induction h with
    | refl => simp only [start, loop, List.length_nil, hn, if_true]; simp [asks, blocks, given, hn]
    | @tail s s' tr o e h1 hs ih =>
      have hi := reach_inv hn h1
      obtain ⟨i1, i2, i3⟩ := ih (fun m c hm => hc m c (by simp [hm]))
      have ha : ∀ a b, asks (a ++ b) = asks a + asks b := by intro a b; simp [asks]
      have hb : ∀ a b, blocks (a ++ b) = blocks a + blocks b := by intro a b; simp [blocks]
      rw [ha, hb, given_append]
      cases e with
      | resume =>
        simp only [step] at hs; split at hs <;> simp only [Option.some.injEq, Prod.mk.injEq, reduceCtorEq] at hs
        rename_i hp
        obtain ⟨rfl, rfl⟩ := hs
        simp [hp] at i1 i2
        simp [asks, blocks, given, i2]
        simpa [asks, blocks] using i1
      | answer ec c =>
        simp only [step] at hs
        split at hs <;> (try (simp only [reduceCtorEq] at hs; done))
        rename_i hp
        have hlt := i2 (.inl hp)
        simp [hp] at i1
        split at hs
        · rename_i hw
          simp only [Option.some.injEq, Prod.mk.injEq] at hs; obtain ⟨rfl, rfl⟩ := hs
          subst hw
          have e1 : asks [.answered (n - s.data.length) wouldBlock c, .yielded] = 1 := rfl
          have e2 : blocks [.answered (n - s.data.length) wouldBlock c, .yielded] = 1 := rfl
          have e3 : given [.answered (n - s.data.length) wouldBlock c, .yielded] = [] := rfl
          rw [e1, e2, e3]
          simp [hlt]; omega
        · split at hs
          · rename_i h0
            subst h0
            simp only [Option.some.injEq, Prod.mk.injEq] at hs; obtain ⟨rfl, rfl⟩ := hs
            have hpos := hc (n - s.data.length) c (by simp)
            have e1 : asks (.answered (n - s.data.length) 0 c :: (loop n (s.data ++ c)).2) = 1 := by simp only [loop]; split <;> rfl
            have e2 : blocks (.answered (n - s.data.length) 0 c :: (loop n (s.data ++ c)).2) = 0 := by simp only [loop]; split <;> rfl
            have e3 : given (.answered (n - s.data.length) 0 c :: (loop n (s.data ++ c)).2) = c := by simp only [loop]; split <;> simp [given]
            rw [e1, e2, e3, List.length_append]
            by_cases hl : (given tr ++ c).length < n
            · simp only [loop, hi.data, if_pos hl]
              simp only [List.length_append] at hl
              refine ⟨by simp; omega, fun _ => hl, fun h => by simp at h⟩
            · simp only [loop, hi.data, if_neg hl]
              simp only [List.length_append] at hl
              refine ⟨by simp; omega, fun h => by simp at h, fun _ => by omega⟩
          · rename_i h0
            simp only [Option.some.injEq, Prod.mk.injEq] at hs; obtain ⟨rfl, rfl⟩ := hs
            have e1 : asks [.answered (n - s.data.length) ec c, .returned ec s.data] = 1 := rfl
            have e2 : blocks [.answered (n - s.data.length) ec c, .returned ec s.data] = 0 := by simp [blocks]; assumption
            have e3 : given [.answered (n - s.data.length) ec c, .returned ec s.data] = [] := by simp [given, h0]
            rw [e1, e2, e3]
            simp [hlt, h0]; omega
  obtain ⟨k1, k2, k3⟩ := key
  by_cases hd : ∃ ec, s.pc = .done ec ∧ ec ≠ 0
  · have := k2 (.inr (.inr hd))
    obtain ⟨ec, hp, h0⟩ := hd
    simp only [hp, h0, if_false] at k1; omega
  · cases hp : s.pc with
    | ask => have := k2 (.inl hp); simp only [hp] at k1; omega
    | yielded => have := k2 (.inr (.inl hp)); simp only [hp] at k1; omega
    | done ec =>
      have : ec = 0 := Classical.byContradiction fun h0 => hd ⟨ec, hp, h0⟩
      subst this
      have := k3 hp; omega

/-- `read` returns what it was asked for, or all there was before the end; otherwise it throws, and then with the error of the interface and all it has read. -/
theorem read_right {n : Nat} {s : State} {tr : List Obs} {ec : Int} {d : List Nat} (hn : 0 < n) (h : Reach (step n) (start n) s tr) (hr : .returned ec d ∈ tr) :
    (readResult ec d = .data (given tr) ∧ (n ≤ (given tr).length ∨ ∃ a m c, tr = a ++ [.answered m eof c, .returned eof d])) ∨
      (readResult ec d = .incomplete (given tr) ec ∧ (given tr).length < n ∧ ∃ a m c, tr = a ++ [.answered m ec c, .returned ec d]) := by
  have hd := all_data hn h hr
  subst hd
  rcases status hn h hr with ⟨rfl, h1⟩ | ⟨h1, h2, h3, a, m, c, h4⟩
  · exact .inl ⟨by simp [readResult], .inl h1⟩
  · by_cases he : ec = eof
    · subst he; exact .inl ⟨by simp [readResult], .inr ⟨a, m, c, h4⟩⟩
    · exact .inr ⟨by simp [readResult, h1, he], h3, a, m, c, h4⟩

/-! ## Examples -/

-- 4 characters, of which the interface gives 3 and then 1, with an `EWOULDBLOCK` between
example : ∃ s, Reach (step 4) (start 4) s [.answered 4 0 [1, 2, 3], .answered 1 11 [], .yielded, .answered 1 0 [4], .returned 0 [1, 2, 3, 4]] :=
  ⟨_, reach_of_exec (es := [.answer 0 [1, 2, 3], .answer 11 [], .resume, .answer 0 [4]]) rfl⟩

-- the end comes early; an error comes early
example : ∃ s, Reach (step 4) (start 4) s [.answered 4 0 [1, 2, 3], .answered 1 (-1) [], .returned (-1) [1, 2, 3]] := ⟨_, reach_of_exec (es := [.answer 0 [1, 2, 3], .answer (-1) []]) rfl⟩

example : ∃ s, Reach (step 4) (start 4) s [.answered 4 0 [1, 2, 3], .answered 1 5 [], .returned 5 [1, 2, 3]] ∧ readResult 5 [1, 2, 3] = .incomplete [1, 2, 3] 5 :=
  ⟨_, reach_of_exec (es := [.answer 0 [1, 2, 3], .answer 5 []]) rfl, rfl⟩

end Verif.Props.Nonblocking
