import Verif.SpmcInv
import Mathlib.Data.List.Perm.Subperm

/-!
# The lock-free work-stealing queue (C51, C67)

`replay tr`: the contents of the queue according to the observations, oldest first; `ok`: what each operation may return
(`Verif/Spmc.lean`). `init pinned lax cap`: `lax = false` means that the owner does not call `pop` before its first `push`
(the scheduler always pushes the dispatcher fiber first).
-/

namespace Verif.Spmc

variable {s s' : State} {tr a b o : List Obs} {p : Nat → Bool} {cap : Nat}

/-! ## C51: each fiber is handed out once -/

/-- The fibers pushed / obtained by pop or steal. -/
def pushes (tr : List Obs) : List Nat := tr.filterMap fun | .pushed x => some x | _ => none
def takes (tr : List Obs) : List Nat := tr.filterMap fun | .popped (some x) => some x | .stolen _ (some x) => some x | _ => none

/-- `pushes` is `takes` and what is left, each with the same number of occurrences. -/
def ExactlyOnce (tr : List Obs) : Prop := (pushes tr).Perm (takes tr ++ replay tr)

theorem runs_exactly_once (h : Runs [] tr) : ExactlyOnce tr := by
  rw [← List.reverse_reverse tr] at *
  generalize tr.reverse = l at *
  unfold ExactlyOnce
  induction l with
  | nil => exact .nil
  | cons e l ih =>
    rw [List.reverse_cons] at *
    have ih := ih h.left
    have hok : ok (replay l.reverse) e := h.split (b := [])
    rw [replay_append]
    simp only [pushes, takes, List.filterMap_append] at *
    generalize replay l.reverse = r at *
    cases e with
    | pushed x => simp only [List.filterMap_cons, List.filterMap_nil, List.foldl_cons, List.foldl_nil, after, List.append_nil]
                  rw [← List.append_assoc]; exact ih.append_right _
    | popped x =>
      cases x with
      | none => simpa [after] using ih
      | some x =>
        obtain ⟨l', rfl⟩ := hok
        simp only [List.filterMap_cons, List.filterMap_nil, List.foldl_cons, List.foldl_nil, after, List.append_nil, List.dropLast_concat]
        refine ih.trans ?_
        rw [List.append_assoc]
        exact List.Perm.append_left _ List.perm_append_comm
    | stolen i x =>
      cases x with
      | none => simpa [after] using ih
      | some x =>
        obtain ⟨l', rfl⟩ := hok
        simpa [after] using ih
    | empty b => simpa [after] using ih
    | touch i x => simpa [after] using ih
    | ub => simpa [after] using ih

/-- Under every interleaving of the owner and the thieves every fiber pushed is obtained by one pop or steal or still in
the queue, if the owner does not pop before its first push. -/
theorem exactly_once_partial (hc : 0 < cap) (h : Reach step (init p false cap) s tr) : ExactlyOnce tr :=
  runs_exactly_once (reach_inv hc h).1

/-- A pop takes the youngest fiber, a steal the oldest; a pop fails only if the queue is empty, and `empty()` tells. -/
theorem results_partial {x : Obs} (hc : 0 < cap) (h : Reach step (init p false cap) s (a ++ x :: b)) : ok (replay a) x :=
  (reach_inv hc h).1.split

/-- If the fibers pushed are pairwise different, none is handed out twice, and none that is still in the queue. -/
theorem handed_out_once_partial (hc : 0 < cap) (h : Reach step (init p false cap) s tr) (hn : (pushes tr).Nodup) :
    (takes tr).Nodup ∧ ∀ x ∈ takes tr, x ∈ pushes tr ∧ x ∉ replay tr := by
  have h1 := exactly_once_partial hc h
  have h2 := (h1.nodup_iff).1 hn
  rw [List.nodup_append] at h2
  exact ⟨h2.1, fun x hx => ⟨h1.mem_iff.2 (by simp [hx]), fun hr => h2.2.2 x hx x hr rfl⟩⟩

/-- Nothing is lost: what the queue holds, the next pops of the owner return. -/
theorem pop_returns_partial {x : Nat} {l : List Nat} (hc : 0 < cap) (h : Reach step (init p false cap) s tr) (hi : s.own = .idle) (hl : replay tr = l ++ [x]) :
    ∃ es s', (∀ e ∈ es, e = .pop ∨ e = .own) ∧ exec step s es = some (s', [.popped (some x)]) ∧ s'.own = .idle := by
  obtain ⟨h1, h2, h3, h4, h5, h6, h7, h8⟩ := (reach_inv hc h).2
  have hB : s.B = s.bottom := by simp [State.B, hi]
  rw [hB] at h3 h4 h5
  rw [hl] at h5 h6
  simp only [List.length_append, List.length_singleton] at h5 h6
  have hx := h6 l.length (by omega)
  rw [List.getElem?_concat_length, show s.top + l.length = s.bottom - 1 by omega] at hx
  have hsub : sub s.bottom 1 = s.bottom - 1 := by simp [sub]; omega
  have e1 : step s .pop = some ({ s with bottom := s.bottom - 1, own := .popTop (s.bottom - 1) }, []) := by
    simp only [step, hi, hsub]; rw [if_pos ⟨trivial, .inr (by omega)⟩]
  by_cases ht : s.top = s.bottom - 1
  · refine ⟨[.pop, .own, .own, .own], { s with top := s.bottom - 1 + 1, bottom := s.bottom - 1 + 1, own := .idle }, by simp, ?_, rfl⟩
    have hx' : (s.arrs s.cur).get s.top = some x := by rw [ht]; exact hx
    have e2 : step { s with bottom := s.bottom - 1, own := .popTop (s.bottom - 1) } .own =
        some ({ s with bottom := s.bottom - 1, own := .popCas (s.bottom - 1) x }, []) := by
      simp only [step, ownStep, ht.symm, Nat.le_refl, if_true, hx']
    simp only [exec, e1, e2]
    simp [step, ownStep, ht.symm]
  · refine ⟨[.pop, .own], { s with bottom := s.bottom - 1, own := .idle }, by simp, ?_, rfl⟩
    have hx' : (s.arrs s.cur).get (s.bottom - 1) = some x := hx
    have e2 : step { s with bottom := s.bottom - 1, own := .popTop (s.bottom - 1) } .own =
        some ({ s with bottom := s.bottom - 1, own := .idle }, [.popped (some x)]) := by
      simp only [step, ownStep, if_pos (show s.top ≤ s.bottom - 1 by omega), hx', ht, if_false]
    simp [exec, e1, e2]

/-- Main and dispatcher fibers are never stolen (this holds without any restriction on the owner). -/
theorem pinned_never_stolen {lax : Bool} (h : Reach step (init p lax cap) s tr) : ∀ i x, .stolen i (some x) ∈ tr → p x = false := by
  have key : ∀ {s tr}, Reach step (init p lax cap) s tr → s.pinned = p ∧ (∀ i t x, s.th i = .cas t x → p x = false) ∧
      ∀ i x, .stolen i (some x) ∈ tr → p x = false := by
    intro s tr h
    induction h with
    | refl => simp [init]
    | tail e _ hs ih =>
      obtain ⟨h1, h2, h3⟩ := ih
      rename_i s1 s2 tr1 o1 _
      have up : ∀ i q, (∀ t x, q = .cas t x → p x = false) → ∀ j t x, upd s1.th i q j = .cas t x → p x = false := by
        intro i q hq j t x hj
        by_cases e : j = i
        · subst e; simp only [upd_same] at hj; exact hq t x hj
        · simp only [upd_apply, e, if_false] at hj; exact h2 j t x hj
      cases e with
      | push y => simp only [step] at hs; split at hs <;> simp at hs; obtain ⟨rfl, rfl⟩ := hs; exact ⟨h1, h2, by simpa using h3⟩
      | pop => simp only [step] at hs; split at hs <;> simp at hs; obtain ⟨rfl, rfl⟩ := hs; exact ⟨h1, h2, by simpa using h3⟩
      | empty => simp only [step] at hs; split at hs <;> simp at hs; obtain ⟨rfl, rfl⟩ := hs; exact ⟨h1, h2, by simpa using h3⟩
      | own =>
        simp only [step] at hs
        unfold ownStep at hs
        repeat' split at hs
        all_goals
          simp only [Option.some.injEq, Prod.mk.injEq, reduceCtorEq] at hs
        all_goals
          obtain ⟨rfl, rfl⟩ := hs; exact ⟨h1, h2, by simpa using h3⟩
      | steal i => simp only [step] at hs; split at hs <;> simp at hs; obtain ⟨rfl, rfl⟩ := hs; exact ⟨h1, up _ _ (by simp), by simpa using h3⟩
      | thief i =>
        simp only [step] at hs
        unfold thiefStep at hs
        repeat' split at hs
        all_goals
          simp only [Option.some.injEq, Prod.mk.injEq, reduceCtorEq] at hs
        all_goals
          obtain ⟨rfl, rfl⟩ := hs
        case h_5.isFalse =>
          rename_i hx
          refine ⟨h1, up _ _ ?_, by simpa using h3⟩
          intro t y e
          simp only [TPc.cas.injEq] at e
          rw [← e.2, ← h1]; simpa using hx
        case h_6.isTrue =>
          rename_i t x hp _
          refine ⟨h1, up _ _ (by simp), ?_⟩
          intro j y hy
          simp only [List.mem_append, List.mem_singleton, Obs.stolen.injEq, Option.some.injEq] at hy
          rcases hy with hy | ⟨rfl, rfl⟩
          · exact h3 j y hy
          · exact h2 _ _ _ hp
        all_goals exact ⟨h1, up _ _ (by simp), by simpa using h3⟩
  exact (key h).2.2

/-- False without the restriction: a `pop` on a fresh queue computes `0 - 1` and leaves `bottom_` at `2^64 - 1`; the empty
queue then reports elements, and the next thief dereferences `nullptr`. -/
theorem fresh_pop_breaks : ∃ s tr, Reach step (init (· == 9) true 4) s tr ∧ tr = [.ub, .popped none, .empty false, .ub] ∧ ¬ Runs [] tr :=
  ⟨_, [.ub, .popped none, .empty false, .ub],
    reach_of_exec (es := [.pop, .own, .empty, .steal 0, .thief 0, .thief 0, .thief 0]) rfl, rfl, by simp [Runs, ok, after]⟩

/-- The queue grows twice, 9 is pinned: one fiber is stolen, one steal meets the pinned fiber, the rest is popped. -/
example : ∃ s tr, Reach step (init (· == 9) false 1) s tr ∧ pushes tr = [5, 9, 6] ∧ takes tr = [5, 6, 9] ∧ replay tr = [] ∧ (pushes tr).Nodup :=
  ⟨_, [.pushed 5, .pushed 9, .pushed 6, .touch 0 5, .stolen 0 (some 5), .touch 1 9, .stolen 1 none, .popped (some 6), .popped (some 9),
      .popped none, .empty true],
    reach_of_exec (es := [.push 5, .own, .own, .own, .push 9, .own, .own, .own, .own, .push 6, .own, .own, .own, .own,
      .steal 0, .thief 0, .thief 0, .thief 0, .thief 0, .thief 0, .steal 1, .thief 1, .thief 1, .thief 1, .thief 1,
      .pop, .own, .pop, .own, .own, .own, .pop, .own, .own, .empty]) rfl, rfl, rfl, rfl, by decide⟩

example : ∃ s tr, Reach step (init (· == 9) false 1) s tr ∧ s.own = .idle ∧ replay tr = [] ++ [5] :=
  ⟨_, [.pushed 5], reach_of_exec (es := [.push 5, .own, .own, .own]) rfl, rfl, rfl⟩

/-! ## C67: thieves look only at fibers that are in the queue -/

/-- A fiber that a thief looks at is in the queue (and there is one to look at). -/
def LooksAtQueued (tr : List Obs) : Prop := .ub ∉ tr ∧ ∀ a i x b, tr = a ++ .touch i x :: b → x ∈ replay a

/-- False: `steal` reads a member of the fiber before its compare-exchange. Meanwhile the owner (or another thief) may
have taken the fiber, run it to its end and destroyed it. -/
theorem steal_touches_taken : ∃ s tr, Reach step (init (· == 9) false 4) s tr ∧ tr = [.pushed 5, .popped (some 5), .touch 0 5] ∧ ¬ LooksAtQueued tr :=
  ⟨_, [.pushed 5, .popped (some 5), .touch 0 5],
    reach_of_exec (es := [.push 5, .own, .own, .own, .steal 0, .thief 0, .thief 0, .thief 0, .pop, .own, .own, .own, .thief 0]) rfl, rfl,
    fun h => by have := h.2 [.pushed 5, .popped (some 5)] 0 5 [] rfl; simp [replay, after] at this⟩

/-- False: if the queue grows while a thief is between loading `top_` and `array_`, the new array may hold `nullptr` at
that index, which the thief dereferences. -/
theorem steal_touches_null : ∃ s tr, Reach step (init (· == 9) false 1) s tr ∧
    tr = [.pushed 5, .touch 1 5, .stolen 1 (some 5), .pushed 6, .ub] ∧ ¬ LooksAtQueued tr :=
  ⟨_, [.pushed 5, .touch 1 5, .stolen 1 (some 5), .pushed 6, .ub],
    reach_of_exec (es := [.push 5, .own, .own, .own, .steal 0, .thief 0, .steal 1, .thief 1, .thief 1, .thief 1, .thief 1, .thief 1,
      .push 6, .own, .own, .own, .push 7, .own, .own, .thief 0, .thief 0]) rfl, rfl, fun h => h.1 (by simp)⟩

/-- The value of `top_` that the thief works with. -/
def TPc.top : TPc → Option Nat
  | .idle => none
  | .bot t | .arr t | .read t _ | .pin t _ | .cas t _ => some t

/-- What holds: as long as nobody has taken a fiber from the top since the thief loaded `top_`, it looks at the oldest
fiber of the queue; and the owner never reads `nullptr`. -/
theorem looks_at_queued_partial {e : Event} (hc : 0 < cap) (h : Reach step (init p false cap) s tr) (hs : step s e = some (s', o))
    (ht : ∀ i, e = .thief i → (s.th i).top = some s.top) :
    .ub ∉ o ∧ ∀ i x, .touch i x ∈ o → ∃ l, replay tr = x :: l := by
  obtain ⟨h1, h2, h3, h4, h5, h6, h7, h8⟩ := (reach_inv hc h).2
  have first : ∀ x, s.top < s.B → s.el s.top = some x → ∃ l, replay tr = x :: l := by
    intro x g1 g2
    have := h6 0 (by omega)
    rw [Nat.add_zero, g2] at this
    cases hr : replay tr with
    | nil => rw [hr] at this; simp at this
    | cons y l => rw [hr] at this; simp at this; exact ⟨l, by rw [this]⟩
  cases e with
  | push y => simp only [step] at hs; split at hs <;> simp at hs; obtain ⟨rfl, rfl⟩ := hs; simp
  | pop => simp only [step] at hs; split at hs <;> simp at hs; obtain ⟨rfl, rfl⟩ := hs; simp
  | empty => simp only [step] at hs; split at hs <;> simp at hs; obtain ⟨rfl, rfl⟩ := hs; simp
  | own =>
    simp only [step] at hs
    unfold ownStep at hs
    split at hs
    case h_6 b hp =>
      have hB : s.B = b + 1 := by simp [State.B, hp]
      rw [hB] at h3 h4 h5
      by_cases hb : s.top ≤ b
      · have hb' := h6 (b - s.top) (by omega)
        rw [show s.top + (b - s.top) = b by omega] at hb'
        have hx : ∃ x, (s.arrs s.cur).get b = some x := by
          cases e : (replay tr)[b - s.top]? with
          | none => rw [List.getElem?_eq_none_iff] at e; omega
          | some x => rw [e] at hb'; exact ⟨x, hb'⟩
        obtain ⟨x, hx⟩ := hx
        simp only [hb, if_true, hx] at hs
        split at hs <;> simp only [Option.some.injEq, Prod.mk.injEq] at hs <;> obtain ⟨rfl, rfl⟩ := hs <;> simp
      · simp only [hb, if_false, Option.some.injEq, Prod.mk.injEq] at hs
        obtain ⟨rfl, rfl⟩ := hs; simp
    all_goals
      (repeat' split at hs) <;> simp only [Option.some.injEq, Prod.mk.injEq, reduceCtorEq] at hs <;> obtain ⟨rfl, rfl⟩ := hs <;> simp
  | steal i => simp only [step] at hs; split at hs <;> simp at hs; obtain ⟨rfl, rfl⟩ := hs; simp
  | thief i =>
    have ht := ht i rfl
    have hth := h8 i
    simp only [step] at hs
    unfold thiefStep at hs
    split at hs
    case h_4 t a hp =>
      rw [hp] at hth ht
      simp only [TPc.top, Option.some.injEq] at ht
      subst ht
      obtain ⟨g1, g2⟩ := hth.2.1 rfl
      have := h6 0 (by omega)
      rw [Nat.add_zero, ← g2] at this
      have hx : ∃ x, (s.arrs a).get s.top = some x := by
        cases e : (replay tr)[0]? with
        | none => rw [List.getElem?_eq_none_iff] at e; omega
        | some x => rw [e] at this; exact ⟨x, this⟩
      obtain ⟨x, hx⟩ := hx
      simp only [hx, Option.some.injEq, Prod.mk.injEq] at hs
      obtain ⟨rfl, rfl⟩ := hs; simp
    case h_5 t x hp =>
      rw [hp] at hth ht
      simp only [TPc.top, Option.some.injEq] at ht
      subst ht
      obtain ⟨g1, g2⟩ := hth.2 rfl
      have := first x g1 g2
      split at hs <;> simp only [Option.some.injEq, Prod.mk.injEq] at hs <;> obtain ⟨rfl, rfl⟩ := hs <;> simpa using this
    all_goals
      (repeat' split at hs) <;> simp only [Option.some.injEq, Prod.mk.injEq, reduceCtorEq] at hs <;> obtain ⟨rfl, rfl⟩ := hs <;> simp

example : ∃ s s' tr, Reach step (init (· == 9) false 1) s tr ∧ step s (.thief 0) = some (s', [.touch 0 5]) ∧ (s.th 0).top = some s.top :=
  ⟨_, _, _, reach_of_exec (es := [.push 5, .own, .own, .own, .steal 0, .thief 0, .thief 0, .thief 0]) rfl, rfl, rfl⟩

end Verif.Spmc
