import Verif.SchedD

/-!
# The scheduler: specification

What a user may observe of the threads and fibers of a program, told by the observations alone.
-/

namespace Verif.Sch

/-- The life of a fiber. -/
inductive St
  | absent
  | fresh                        -- created, not yet ready
  | live                         -- running (or just being replaced)
  | queued                       -- ready, waiting for its turn
  | waiting (dl : Option Nat)    -- suspended, possibly with a deadline
  | woken                        -- notified or timed out, not yet ready
  | done                         -- its function has returned
  | released                     -- the scheduler has dropped its reference
  | exiting                      -- main fiber, waiting for the others
  | ended
  deriving DecidableEq, Repr

structure Spec where
  st  : Cx → St
  on  : Cx → Tid                 -- the thread a fiber belongs to
  q   : Tid → List Cx            -- the ready fibers of a thread, longest ready first
  cur : Tid → Option Cx          -- the fiber a thread is running

def Spec.init : Spec := { st := fun _ => .absent, on := fun _ => 0, q := fun _ => [], cur := fun _ => none }

def Spec.after (sp : Spec) : Obs → Spec
  | .started t => { sp with st := set (set sp.st (.main t) .live) (.disp t) .fresh, on := set (set sp.on (.main t) t) (.disp t) t,
                            cur := upd sp.cur t (some (.main t)) }
  | .spawned t _ y => { sp with st := set sp.st y .fresh, on := set sp.on y t }
  | .ready t x => { sp with st := set sp.st x .queued, q := upd sp.q t (sp.q t ++ [x]) }
  | .run t x => { sp with st := set sp.st x .live, q := upd sp.q t (sp.q t).tail, cur := upd sp.cur t (some x) }
  | .direct t x => { sp with st := set sp.st x .live, cur := upd sp.cur t (some x) }
  | .waits x dl => { sp with st := set sp.st x (.waiting dl) }
  | .woken x => { sp with st := set sp.st x .woken }
  | .expired x _ => { sp with st := set sp.st x .woken }
  | .looked _ _ => sp
  | .finished x => { sp with st := set sp.st x .done }
  | .released x => { sp with st := set sp.st x .released }
  | .exit t => { sp with st := set sp.st (.main t) .exiting }
  | .stopped t => { sp with st := set sp.st (.disp t) .ended, cur := upd sp.cur t (some (.main t)) }
  | .ended t => { sp with st := set sp.st (.main t) .ended, cur := upd sp.cur t none }
  | .assert _ | .uaf _ | .ub => sp

def Spec.ok (sp : Spec) : Obs → Prop
  | .started t => sp.st (.main t) = .absent ∧ sp.st (.disp t) = .absent
  | .spawned t x y => sp.st y = .absent ∧ sp.cur t = some x ∧ sp.st x = .live
  | .ready t x =>                -- a fiber becomes ready on its own thread, if it is new, woken, or has just been replaced
    sp.on x = t ∧ x ∉ sp.q t ∧ (sp.st x = .fresh ∨ sp.st x = .woken ∨ sp.st x = .live ∧ sp.cur t ≠ some x)
  | .run t x => ∃ l, sp.q t = x :: l ∧ sp.st x = .queued ∧ sp.on x = t ∧ sp.cur t ≠ none     -- the one that has been ready longest
  | .direct t x => sp.st x = .fresh ∧ sp.on x = t ∧ sp.cur t ≠ none
  | .waits x _ => sp.st x = .live ∧ sp.cur (sp.on x) = some x
  | .woken x => ∃ dl, sp.st x = .waiting dl
  | .expired x n => ∃ d, sp.st x = .waiting (some d) ∧ d ≤ n ∧
      ∀ y d', sp.on y = sp.on x → sp.st y = .waiting (some d') → d ≤ d'
  | .looked t n => ∀ x d, sp.on x = t → sp.st x = .waiting (some d) → n < d
  | .finished x => sp.st x = .live ∧ sp.cur (sp.on x) = some x
  | .released x => sp.st x = .done ∧ sp.cur (sp.on x) ≠ some x
  | .exit t => sp.st (.main t) = .live ∧ sp.cur t = some (.main t)
  | .stopped t => sp.st (.main t) = .exiting ∧ sp.st (.disp t) = .live ∧ sp.cur t = some (.disp t)
  | .ended t => sp.st (.main t) = .exiting ∧ ∀ n, sp.on (.work n) = t → sp.st (.work n) = .absent ∨ sp.st (.work n) = .released
  | .assert t => sp.st (.main t) = .exiting   -- see `shutdown_assert` …
  | .uaf t => sp.st (.main t) = .ended        -- … and `notify_after_free`
  | .ub => False

def replay (tr : List Obs) : Spec := tr.foldl Spec.after Spec.init

/-- All observations are allowed. -/
def Runs : Spec → List Obs → Prop
  | _, [] => True
  | sp, x :: l => sp.ok x ∧ Runs (sp.after x) l

theorem Runs.append {sp : Spec} {a b : List Obs} (h1 : Runs sp a) (h2 : Runs (a.foldl Spec.after sp) b) : Runs sp (a ++ b) := by
  induction a generalizing sp with
  | nil => exact h2
  | cons x l ih => exact ⟨h1.1, ih h1.2 h2⟩

theorem Runs.left {sp : Spec} {a b : List Obs} (h : Runs sp (a ++ b)) : Runs sp a := by
  induction a generalizing sp with
  | nil => trivial
  | cons y l ih => exact ⟨h.1, ih h.2⟩

theorem Runs.split {sp : Spec} {a b : List Obs} {x : Obs} (h : Runs sp (a ++ x :: b)) : (a.foldl Spec.after sp).ok x := by
  induction a generalizing sp with
  | nil => exact h.1
  | cons y l ih => exact ih h.2

theorem replay_append (a b : List Obs) : replay (a ++ b) = b.foldl Spec.after (replay a) := List.foldl_append

/-! ## The model satisfies it -/

/-- What a user sees of a context. -/
def view (s : State) (x : Cx) : St :=
  match s.pc x with
  | .unborn => .absent
  | .parking _ | .blocked _ => .waiting (if x ∈ s.sl (s.home x) then some (s.tp x) else none)
  | .leaving => .done
  | .closing | .closed | .ending => .exiting
  | .dead => match x with
    | .work _ => if x ∈ s.tq (s.home x) then .done else .released
    | _ => .ended
  | _ => if x ∈ s.rq (s.home x) then .queued else if s.active (s.home x) = some x then .live else .woken

structure Sim (s : State) (sp : Spec) : Prop where
  st  : ∀ x, sp.st x = view s x
  on  : ∀ x, s.pc x ≠ .unborn → sp.on x = s.home x
  q   : ∀ t, sp.q t = s.rq t
  cur : ∀ t, sp.cur t = s.active t

variable {s s' : State} {t : Tid} {x y : Cx} {o : List Obs} {sp : Spec}

theorem view_congr (h1 : s'.pc x = s.pc x) (h2 : s'.home x = s.home x) (h3 : x ∈ s'.sl (s.home x) ↔ x ∈ s.sl (s.home x)) (h4 : s'.tp x = s.tp x)
    (h5 : x ∈ s'.tq (s.home x) ↔ x ∈ s.tq (s.home x)) (h6 : x ∈ s'.rq (s.home x) ↔ x ∈ s.rq (s.home x))
    (h7 : s'.active (s.home x) = some x ↔ s.active (s.home x) = some x) : view s x = view s' x := by
  unfold view
  rw [h1, h2]
  simp only [h3, h4, h5, h6, h7]

theorem sim_act {a : Act} (h : Inv s) (hd : ID s) (hsim : Sim s sp) (ha : s.active t = some x) (hu : s.pc x = .user) (hs : act s t x a = some (s', o)) :
    Runs sp o ∧ Sim s' (o.foldl Spec.after sp) := by
  have hA := h.a
  have hB := h.b
  have hC := h.c
  have hns := hC.notSl hA hB ha (by simp [hu])
  have hh := hA.actHome _ _ ha
  have hq : x ∉ s.rq t := fun hx => (hB.rq t x hx).2.1 ha
  have hv : view s x = .live := by simp [view, hu, hh, ha, hq]
  obtain ⟨s1, s2, s3, s4⟩ := hsim
  have hon : sp.on x = t := by rw [s2 x (by simp [hu]), hh]
  have hset : ∀ p z, set s.pc x p z ≠ .unborn → sp.on z = s.home z := by
    intro p z hz; by_cases e : z = x
    · subst e; rw [hon]; exact hh.symm
    · exact s2 z (by simpa [e] using hz)
  cases a with
  | yield =>
    simp only [act, Option.some.injEq, Prod.mk.injEq] at hs
    obtain ⟨rfl, rfl⟩ := hs
    refine ⟨trivial, ?_, ?_, s3, s4⟩
    · intro z
      simp only [List.foldl_nil, s1]
      by_cases hz : z = x
      · subst hz; simp [view, hu]
      · exact view_congr (by simp [hz]) rfl Iff.rfl rfl Iff.rfl Iff.rfl Iff.rfl
    · intro z; have := s2 z; simp only [List.foldl_nil, set_apply]; split
      · simp_all
      · exact this
  | spawn n d =>
    simp only [act] at hs
    split at hs
    · rename_i hn
      have hxn : Cx.work n ≠ x := by intro e; rw [e, hu] at hn; cases hn
      have hny : ∀ u, Cx.work n ∉ s.sl u := hC.notSlUnborn hB hn
      have hnr : ∀ u, Cx.work n ∉ s.rq u := fun u hx => by have := (hB.rq u _ hx).2.2; simp [hn] at this
      have hnq : Cx.work n ∉ sp.q t := by rw [s3]; exact hnr t
      have hvn : sp.st (.work n) = .absent := by rw [s1]; simp [view, hn]
      cases d with
      | false =>
        simp only [schedule, Bool.false_eq_true, if_false, Option.some.injEq, Prod.mk.injEq] at hs
        obtain ⟨rfl, rfl⟩ := hs
        refine ⟨⟨⟨hvn, by rw [s4, ha], by rw [s1, hv]⟩, ⟨by simp [Spec.after], by simp [Spec.after, hnq], by simp [Spec.after]⟩, trivial⟩, ?_, ?_, ?_, ?_⟩
        · intro z
          simp only [List.foldl_cons, List.foldl_nil, Spec.after]
          by_cases hz : z = .work n
          · subst hz; simp [view]
          · simp only [set_apply, hz, if_false, s1]
            have hhz : homeOf (upd s.hm n t) z = homeOf s.hm z := by rw [homeOf_upd]; simp [hz]
            refine view_congr (by simp [hz]) hhz ?_ rfl Iff.rfl ?_ Iff.rfl
            · simp only [upd_apply]; split
              · rename_i e; rw [e, List.erase_of_not_mem (hny t)]
              · rfl
            · simp only [upd_apply]; split
              · rename_i e; simp [hz, e]
              · rfl
        · intro z hz; simp only [List.foldl_cons, List.foldl_nil, Spec.after, set_apply, State.home, homeOf_upd]
          split
          · rfl
          · rename_i e; exact s2 z (by simpa [e] using hz)
        · intro u; simp only [List.foldl_cons, List.foldl_nil, Spec.after, upd_apply, s3]
        · exact s4
      | true =>
        simp only [schedule, switch, if_true, Option.some.injEq, Prod.mk.injEq] at hs
        obtain ⟨rfl, rfl⟩ := hs
        simp only [set_same, if_true, List.nil_append]
        refine ⟨⟨⟨hvn, by rw [s4, ha], by rw [s1, hv]⟩, ⟨by simp [Spec.after], by simp [Spec.after], by simp [Spec.after, s4, ha]⟩, ⟨?_, ?_, ?_⟩, trivial⟩, ?_, ?_, ?_, ?_⟩
        · simp [Spec.after, Ne.symm hxn, hon]
        · simp [Spec.after, s3, hq]
        · simp [Spec.after, hxn, Ne.symm hxn, s1, hv]
        · intro z
          simp only [List.foldl_cons, List.foldl_nil, Spec.after]
          by_cases hz : z = .work n
          · subst hz; simp [view, hxn, hnr]
          · have hhz : homeOf (upd s.hm n t) z = homeOf s.hm z := by rw [homeOf_upd]; simp [hz]
            by_cases hzx : z = x
            · subst hzx
              simp only [set_apply, hxn, Ne.symm hxn, if_true, if_false]
              simp only [view, State.home, set_apply, hz, if_false, hu, hhz]
              simp only [State.home] at hh
              simp [hh]
            · simp only [set_apply, hz, hzx, if_false, s1]
              refine view_congr (by simp [hz]) hhz ?_ rfl Iff.rfl ?_ ?_
              · simp only [upd_apply]; split
                · rename_i e; rw [e, List.erase_of_not_mem (hns t)]
                · rfl
              · simp only [upd_apply]; split
                · rename_i e; simp [hzx, e]
                · rfl
              · simp only [upd_apply]; split
                · rename_i e; rw [e, ha]; simp [Ne.symm hz, Ne.symm hzx]
                · rfl
        · intro z hz; simp only [List.foldl_cons, List.foldl_nil, Spec.after, set_apply, State.home, homeOf_upd]
          split
          · rfl
          · rename_i e; exact s2 z (by simpa [e] using hz)
        · intro u; simp only [List.foldl_cons, List.foldl_nil, Spec.after, upd_apply, s3]
        · intro u; simp only [List.foldl_cons, List.foldl_nil, Spec.after, upd_apply, s4]
    · simp at hs
  | wait dl =>
    cases dl with
    | none =>
      simp only [act, Option.some.injEq, Prod.mk.injEq] at hs
      obtain ⟨rfl, rfl⟩ := hs
      refine ⟨⟨⟨by rw [s1, hv], by rw [hon, s4, ha]⟩, trivial⟩, ?_, ?_, s3, s4⟩
      · intro z
        simp only [List.foldl_cons, List.foldl_nil, Spec.after]
        by_cases hz : z = x
        · subst hz; simp only [set_same, view]; simp [hns]
        · simp only [set_apply, hz, if_false, s1]
          exact view_congr (by simp [hz]) rfl Iff.rfl rfl Iff.rfl Iff.rfl Iff.rfl
      · intro z hz; exact hset _ z hz
    | some d =>
      simp only [act, Option.some.injEq, Prod.mk.injEq] at hs
      obtain ⟨rfl, rfl⟩ := hs
      refine ⟨⟨⟨by rw [s1, hv], by rw [hon, s4, ha]⟩, trivial⟩, ?_, ?_, s3, s4⟩
      · intro z
        simp only [List.foldl_cons, List.foldl_nil, Spec.after]
        by_cases hz : z = x
        · subst hz; simp only [set_same, view]; simp only [State.home] at hh; simp [hh, hns, mem_insertBy]
        · simp only [set_apply, hz, if_false, s1]
          refine view_congr (by simp [hz]) rfl ?_ (by simp [hz]) Iff.rfl Iff.rfl Iff.rfl
          simp only [upd_apply]; split
          · rename_i e; rw [mem_insertBy]; simp [hz, e]
          · rfl
      · intro z hz; exact hset _ z hz
  | sleep d =>
      simp only [act, Option.some.injEq, Prod.mk.injEq] at hs
      obtain ⟨rfl, rfl⟩ := hs
      refine ⟨⟨⟨by rw [s1, hv], by rw [hon, s4, ha]⟩, trivial⟩, ?_, ?_, s3, s4⟩
      · intro z
        simp only [List.foldl_cons, List.foldl_nil, Spec.after]
        by_cases hz : z = x
        · subst hz; simp only [set_same, view]; simp only [State.home] at hh; simp [hh, hns, mem_insertBy]
        · simp only [set_apply, hz, if_false, s1]
          refine view_congr (by simp [hz]) rfl ?_ (by simp [hz]) Iff.rfl Iff.rfl Iff.rfl
          simp only [upd_apply]; split
          · rename_i e; rw [mem_insertBy]; simp [hz, e]
          · rfl
      · intro z hz; exact hset _ z hz
  | wake y ep =>
    simp only [act] at hs
    split at hs
    · rename_i h1
      split at hs
      · rename_i h2
        have hy : s.pc y = .blocked ep := by
          subst h2
          rcases hC.pubE y h1.1 with h3 | h3
          · exact absurd h3 h1.2
          · exact h3
        have hyx : y ≠ x := by rintro rfl; simp [hu] at hy
        have hvy : ∃ dl, sp.st y = .waiting dl := by rw [s1]; simp [view, hy]
        have hyq : ∀ u, y ∉ s.rq u := fun u hx => by have := (hB.rq u _ hx).2.2; simp [hy] at this
        have hya : ∀ u, s.active u ≠ some y := fun u hx => by have := hA.actPc u _ hx; simp [hy, Pc.busy] at this
        split at hs
        · rename_i h3
          simp only [schedule, Option.some.injEq, Prod.mk.injEq] at hs
          obtain ⟨rfl, rfl⟩ := hs
          refine ⟨⟨hvy, ⟨?_, ?_, ?_⟩, trivial⟩, ?_, ?_, ?_, s4⟩
          · simp only [Spec.after]; rw [s2 y (by simp [hy]), h3]
          · simp only [Spec.after]; rw [s3]; exact hyq t
          · simp [Spec.after]
          · intro z
            simp only [List.foldl_cons, List.foldl_nil, Spec.after]
            by_cases hz : z = y
            · subst hz; simp only [set_same, view]; simp only [State.home] at h3; simp [h3]
            · simp only [set_apply, hz, if_false, s1]
              refine view_congr (by simp [hz]) rfl ?_ rfl Iff.rfl ?_ Iff.rfl
              · simp only [upd_apply]; split
                · rename_i e; rw [e, List.mem_erase_of_ne hz]
                · rfl
              · simp only [upd_apply]; split
                · rename_i e; simp [hz, e]
                · rfl
          · intro z hz; refine s2 z ?_; by_cases e : z = y
            · subst e; simp [hy]
            · simpa [e] using hz
          · intro u; simp only [List.foldl_cons, List.foldl_nil, Spec.after, upd_apply, s3]
        · simp only [Option.some.injEq, Prod.mk.injEq] at hs
          obtain ⟨rfl, rfl⟩ := hs
          refine ⟨⟨hvy, trivial⟩, ?_, ?_, s3, s4⟩
          · intro z
            simp only [List.foldl_cons, List.foldl_nil, Spec.after]
            by_cases hz : z = y
            · subst hz; simp [view, hyx, hyq, hya]
            · by_cases hzx : z = x
              · subst hzx; simp only [set_apply, hz, if_false, s1]; rw [hv]; simp only [State.home] at hh; simp [view, hh, hq, ha]
              · simp only [set_apply, hz, if_false, s1]
                exact view_congr (by simp [hz, hzx]) rfl Iff.rfl rfl Iff.rfl Iff.rfl Iff.rfl
          · intro z hz; refine s2 z ?_; by_cases e : z = y
            · subst e; simp [hy]
            · by_cases e' : z = x
              · subst e'; simp [hu]
              · simpa [e, e'] using hz
      · simp only [Option.some.injEq, Prod.mk.injEq] at hs
        obtain ⟨rfl, rfl⟩ := hs
        exact ⟨trivial, s1, s2, s3, s4⟩
    · simp at hs
  | finish =>
    cases x with
    | work n =>
      simp only [act, Option.some.injEq, Prod.mk.injEq] at hs
      obtain ⟨rfl, rfl⟩ := hs
      refine ⟨⟨⟨by rw [s1, hv], by rw [hon, s4, ha]⟩, trivial⟩, ?_, ?_, s3, s4⟩
      · intro z
        simp only [List.foldl_cons, List.foldl_nil, Spec.after]
        by_cases hz : z = .work n
        · subst hz; simp [view]
        · simp only [set_apply, hz, if_false, s1]
          refine view_congr (by simp [hz]) rfl Iff.rfl rfl ?_ Iff.rfl Iff.rfl
          simp only [upd_apply]; split
          · rename_i e; simp [hz, e]
          · rfl
      · intro z hz; exact hset _ z hz
    | _ => simp [act] at hs
  | setAlgo =>
    simp only [act, Option.some.injEq, Prod.mk.injEq, transfer_eq, List.nil_append, upd_self] at hs
    obtain ⟨rfl, rfl⟩ := hs
    exact ⟨trivial, s1, s2, s3, s4⟩
  | exit =>
    simp only [act] at hs
    split at hs
    · rename_i h1; subst h1
      simp only [Option.some.injEq, Prod.mk.injEq] at hs
      obtain ⟨rfl, rfl⟩ := hs
      refine ⟨⟨⟨by rw [s1, hv], by rw [s4, ha]⟩, trivial⟩, ?_, ?_, s3, s4⟩
      · intro z
        simp only [List.foldl_cons, List.foldl_nil, Spec.after]
        by_cases hz : z = .main t
        · subst hz; simp [view]
        · simp only [set_apply, hz, if_false, s1]
          exact view_congr (by simp [hz]) rfl Iff.rfl rfl Iff.rfl Iff.rfl Iff.rfl
      · intro z hz; exact hset _ z hz
    · simp at hs

end Verif.Sch
