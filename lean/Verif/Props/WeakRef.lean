import Verif.WeakRef

/-!
# Reference counting under weak memory: destruction after every use (C74)
-/

namespace Verif.WeakRef

open Weak

/-! ## Specification -/

/-- No use follows the destruction, and there is one destruction. -/
def Safe : List Obs → Prop
  | [] => True
  | .destroyed _ :: tr => ∀ w, .used w ∉ tr ∧ .destroyed w ∉ tr ∧ .race w ∉ tr ∧ .dropped w ∉ tr
  | .race _ :: _ => False
  | _ :: tr => Safe tr

/-! ## Invariant -/

/-- `n` is the timestamp of the last message of the counter, `g` that message. -/
structure Newest (m : Mem) (n : Nat) (g : Msg) : Prop where
  here : m.msg 0 n = some g
  none : ∀ t, n < t → m.msg 0 t = none
  some : ∀ t, t ≤ n → m.msg 0 t ≠ Option.none

structure Inv (s : State) : Prop where
  new : ∃ n g, Newest s.mem n g ∧ g.val = s.refs.length ∧
    (∀ u, (∃ w ∈ s.refs, s.mem.last (u + 1) ≤ s.mem.cur w (u + 1)) ∨ s.mem.last (u + 1) ≤ g.view (u + 1) ∨ s.refs = [])
  one : ∀ w, s.pc w ≠ .out → s.refs = [] ∧ ∀ u, s.pc u ≠ .out → u = w
  fence : ∀ w u, s.pc w = .fence → s.mem.last (u + 1) ≤ s.mem.cur w (u + 1) ∨ s.mem.last (u + 1) ≤ s.mem.acq w (u + 1)
  destroy : ∀ w u, s.pc w = .destroy → s.mem.last (u + 1) ≤ s.mem.cur w (u + 1)

theorem Newest.eq {m : Mem} {n t : Nat} {g : Msg} (h : Newest m n g) (ht : m.msg 0 t ≠ Option.none) (hn : m.msg 0 (t + 1) = Option.none) : t = n := by
  refine Classical.byContradiction fun hne => ?_
  by_cases hlt : t < n
  · exact h.some (t + 1) hlt hn
  · exact ht (h.none t (by omega))

theorem Newest.next {m m' : Mem} {n : Nat} {g g' : Msg} (h : Newest m n g) (hm : m'.msg = upd m.msg 0 (upd (m.msg 0) (n + 1) (.some g'))) :
    Newest m' (n + 1) g' := by
  have hmsg : ∀ t, m'.msg 0 t = if t = n + 1 then .some g' else m.msg 0 t := fun t => by rw [hm, upd_same, upd_apply]
  refine ⟨by rw [hmsg, if_pos rfl], ?_, ?_⟩
  · intro t ht; rw [hmsg, if_neg (by omega)]; exact h.none t (by omega)
  · intro t ht
    rw [hmsg]
    split
    · simp
    · exact h.some t (by omega)

theorem inv_init : Inv init := by
  refine ⟨⟨0, ⟨1, fun _ => 0⟩, ⟨rfl, ?_, ?_⟩, rfl, fun u => .inr (.inl (Nat.le_refl _))⟩, ?_, ?_, ?_⟩
  · intro t ht; simp only [init, start]; rw [if_neg (by omega)]
  · intro t ht; simp only [init, start]; rw [if_pos (by omega)]; simp
  · intro w h; exact absurd rfl h
  · intro w u h; simp [init] at h
  · intro w u h; simp [init] at h

/-- While there are references nobody is destroying. -/
theorem Inv.pc_out {s : State} (hi : Inv s) {w : Nat} (hw : w ∈ s.refs) (u : Nat) : s.pc u = .out := by
  refine Classical.byContradiction fun h => ?_
  rw [(hi.one u h).1] at hw
  cases hw

theorem inv_step {s s' : State} {o : List Obs} {e : Event} (hi : Inv s) (hs : step s e = some (s', o)) : Inv s' := by
  obtain ⟨n, g, hn, hv, hcov⟩ := hi.new
  cases e with
  | use w =>
    simp only [step] at hs
    split at hs
    case isFalse => cases hs
    rename_i hw
    obtain ⟨b, m, hbm⟩ : ∃ b m, touch s.mem w (w + 1) = (b, m) := ⟨_, _, rfl⟩
    have ht := touch_spec hbm
    simp only [hbm, Option.some.injEq, Prod.mk.injEq] at hs
    obtain ⟨rfl, rfl⟩ := hs
    refine ⟨⟨n, g, ⟨?_, ?_, ?_⟩, hv, ?_⟩, ?_, ?_, ?_⟩
    · simp only [ht.msg]; exact hn.here
    · simp only [ht.msg]; exact hn.none
    · simp only [ht.msg]; exact hn.some
    · intro u
      simp only [ht.last, upd_apply]
      split
      · rename_i he
        refine .inl ⟨w, hw, ?_⟩
        have := ht.new
        rw [he]; exact this
      · rcases hcov u with ⟨h, h1, h2⟩ | h2 | h2
        · refine .inl ⟨h, h1, Nat.le_trans h2 ?_⟩
          by_cases he : h = w
          · subst he; exact ht.mono _
          · rw [ht.others h he]; exact Nat.le_refl _
        · exact .inr (.inl h2)
        · rw [h2] at hw; cases hw
    · intro u hu; exact absurd (hi.pc_out hw u) hu
    · intro u x hu; rw [hi.pc_out hw u] at hu; cases hu
    · intro u x hu; rw [hi.pc_out hw u] at hu; cases hu
  | add w t =>
    simp only [step] at hs
    split at hs
    case isFalse => cases hs
    rename_i hw
    split at hs
    · cases hs
    · rename_i v m hm
      obtain ⟨g1, hm⟩ := rmw_spec hm
      simp only [Option.some.injEq, Prod.mk.injEq] at hs
      obtain ⟨rfl, rfl⟩ := hs
      have htn : t = n := hn.eq (by rw [hm.read]; simp) hm.free
      subst htn
      have hg : g1 = g := Option.some.inj (hm.read.symm.trans hn.here)
      subst hg
      obtain ⟨g2, hv2, hview, _, _, hmsg⟩ := hm.msg
      refine ⟨⟨t + 1, g2, hn.next hmsg, ?_, ?_⟩, ?_, ?_, ?_⟩
      · rw [hv2, hm.val, hv]; rfl
      · intro u
        simp only [hm.last]
        rcases hcov u with ⟨h, h1, h2⟩ | h2 | h2
        · refine .inl ⟨h, List.mem_cons_of_mem _ h1, Nat.le_trans h2 ?_⟩
          by_cases he : h = w
          · subst he; exact hm.mono _
          · rw [hm.others h he]; exact Nat.le_refl _
        · exact .inr (.inl (Nat.le_trans h2 (hview _)))
        · rw [h2] at hw; cases hw
      · intro u hu; exact absurd (hi.pc_out hw u) hu
      · intro u x hu; rw [hi.pc_out hw u] at hu; cases hu
      · intro u x hu; rw [hi.pc_out hw u] at hu; cases hu
  | pass w u' =>
    simp only [step] at hs
    split at hs
    case isFalse => cases hs
    rename_i hw
    simp only [Option.some.injEq, Prod.mk.injEq] at hs
    obtain ⟨rfl, rfl⟩ := hs
    refine ⟨⟨n, g, ⟨hn.here, hn.none, hn.some⟩, ?_, ?_⟩, ?_, ?_, ?_⟩
    · rw [hv, List.length_cons, List.length_erase_of_mem hw]
      have := List.length_pos_of_mem hw
      omega
    · intro u
      rcases hcov u with ⟨h, h1, h2⟩ | h2 | h2
      · refine .inl ?_
        by_cases he : h = w
        · subst he
          refine ⟨u', List.mem_cons_self .., ?_⟩
          simp only [upd_same]
          exact Nat.le_trans h2 (le_join_right _ _ _)
        · refine ⟨h, List.mem_cons_of_mem _ ((List.mem_erase_of_ne he).2 h1), ?_⟩
          simp only [upd_apply]
          split
          · rename_i hu; subst hu; exact Nat.le_trans h2 (le_join_left _ _ _)
          · exact h2
      · exact .inr (.inl h2)
      · rw [h2] at hw; cases hw
    · intro u hu; exact absurd (hi.pc_out hw u) hu
    · intro u x hu; rw [hi.pc_out hw u] at hu; cases hu
    · intro u x hu; rw [hi.pc_out hw u] at hu; cases hu
  | drop w t =>
    simp only [step] at hs
    split at hs
    case isFalse => cases hs
    rename_i hc
    obtain ⟨hw, hp⟩ := hc
    split at hs
    · cases hs
    · rename_i v m hm
      obtain ⟨g1, hm⟩ := rmw_spec hm
      simp only [Option.some.injEq, Prod.mk.injEq] at hs
      obtain ⟨rfl, rfl⟩ := hs
      have htn : t = n := hn.eq (by rw [hm.read]; simp) hm.free
      subst htn
      have hg : g1 = g := Option.some.inj (hm.read.symm.trans hn.here)
      subst hg
      obtain ⟨g2, hv2, hview, hrel, _, hmsg⟩ := hm.msg
      have hlen : (s.refs.erase w).length = s.refs.length - 1 := List.length_erase_of_mem hw
      have hpos := List.length_pos_of_mem hw
      have hvl : v = s.refs.length := hm.val.trans hv
      refine ⟨⟨t + 1, g2, hn.next hmsg, ?_, ?_⟩, ?_, ?_, ?_⟩
      · rw [hv2, hvl]; exact hlen.symm
      · intro u
        simp only [hm.last]
        rcases hcov u with ⟨h, h1, h2⟩ | h2 | h2
        · by_cases he : h = w
          · subst he
            exact .inr (.inl (Nat.le_trans (Nat.le_trans h2 (hm.mono _)) (hrel rfl _)))
          · refine .inl ⟨h, (List.mem_erase_of_ne he).2 h1, ?_⟩
            rw [hm.others h he]; exact h2
        · exact .inr (.inl (Nat.le_trans h2 (hview _)))
        · rw [h2] at hw; cases hw
      · intro u hu
        by_cases hv1 : v = 1
        · simp only [hv1, if_true, upd_apply] at hu ⊢
          have huw : u = w := by
            refine Classical.byContradiction fun hne => hu ?_
            rw [if_neg hne]; exact hi.pc_out hw u
          refine ⟨List.length_eq_zero_iff.1 (by omega), ?_⟩
          intro u2 hu2
          rw [huw]
          refine Classical.byContradiction fun hne => hu2 ?_
          rw [if_neg hne]; exact hi.pc_out hw u2
        · simp only [hv1, if_false] at hu
          exact absurd (hi.pc_out hw u) hu
      · intro u x hu
        by_cases hv1 : v = 1
        · simp only [hv1, if_true, upd_apply] at hu
          have huw : u = w := by
            refine Classical.byContradiction fun hne => ?_
            rw [if_neg hne, hi.pc_out hw u] at hu; cases hu
          subst huw
          simp only [hm.last]
          rcases hcov x with ⟨h, h1, h2⟩ | h2 | h2
          · have : h = u := by
              match hr : s.refs with
              | [] => rw [hr] at hw; cases hw
              | [y] =>
                rw [hr] at h1 hw
                rw [List.mem_singleton.1 h1, List.mem_singleton.1 hw]
              | _ :: _ :: _ => rw [hr] at hvl; simp at hvl; omega
            subst this
            exact .inl (Nat.le_trans h2 (hm.mono _))
          · exact .inr (Nat.le_trans h2 (hm.gainA _))
          · rw [h2] at hw; cases hw
        · simp only [hv1, if_false] at hu
          rw [hi.pc_out hw u] at hu; cases hu
      · intro u x hu
        have : s.pc u = .destroy ∨ False := by
          simp only at hu
          split at hu
          · rw [upd_apply] at hu
            split at hu
            · cases hu
            · exact .inl hu
          · exact .inl hu
        rcases this with h | h
        · rw [hi.pc_out hw u] at h; cases h
        · exact h.elim
  | fence w =>
    simp only [step] at hs
    split at hs
    case isFalse => cases hs
    rename_i hp
    simp only [Option.some.injEq, Prod.mk.injEq] at hs
    obtain ⟨rfl, rfl⟩ := hs
    obtain ⟨hr, hone⟩ := hi.one w (by rw [hp]; simp)
    refine ⟨⟨n, g, ⟨hn.here, hn.none, hn.some⟩, hv, fun u => .inr (.inr hr)⟩, ?_, ?_, ?_⟩
    · intro u hu
      refine ⟨hr, ?_⟩
      have h2 : ∀ y, upd s.pc w .destroy y ≠ .out → y = w := by
        intro y hy
        rw [upd_apply] at hy
        split at hy
        · assumption
        · exact hone y hy
      intro y hy
      rw [h2 y hy, h2 u hu]
    · intro u x hu
      simp only [upd_apply] at hu
      split at hu
      · cases hu
      · rename_i hne; exact absurd (hone u (by rw [hu]; simp)) hne
    · intro u x hu
      simp only [upd_apply] at hu
      split at hu
      · rename_i he
        subst he
        simp only [fenceAcq, upd_same]
        rcases hi.fence u x hp with h | h
        · exact Nat.le_trans h (le_join_left _ _ _)
        · exact Nat.le_trans h (le_join_right _ _ _)
      · rename_i hne; exact absurd (hone u (by rw [hu]; simp)) hne
  | destroy w us =>
    simp only [step] at hs
    split at hs
    case isFalse => cases hs
    rename_i hp
    simp only [Option.some.injEq, Prod.mk.injEq] at hs
    obtain ⟨rfl, rfl⟩ := hs
    obtain ⟨hr, hone⟩ := hi.one w (by rw [hp]; simp)
    have hout : ∀ u, upd s.pc w .out u = .out := by
      intro u
      rw [upd_apply]
      split
      · rfl
      · rename_i hne
        exact Classical.byContradiction fun h => hne (hone u h)
    refine ⟨⟨n, g, ⟨hn.here, hn.none, hn.some⟩, hv, fun u => .inr (.inr hr)⟩, ?_, ?_, ?_⟩
    · intro u hu; exact absurd (hout u) hu
    · intro u x hu; exact absurd (hu.symm.trans (hout u)) (by simp)
    · intro u x hu; exact absurd (hu.symm.trans (hout u)) (by simp)

theorem reach_inv {s : State} {tr : List Obs} (h : Reach step init s tr) : Inv s :=
  h.inv (fun s _ => Inv s) inv_init (fun _ _ _ _ _ _ hi hs => inv_step hi hs)

theorem safe_append {a b : List Obs} (ha : Safe a) (hd : ∀ w, .destroyed w ∉ a) (hb : Safe b) : Safe (a ++ b) := by
  induction a with
  | nil => exact hb
  | cons x a ih =>
    have hd' : ∀ w, Obs.destroyed w ∉ a := fun w h => hd w (List.mem_cons_of_mem _ h)
    cases x with
    | used w => exact ih ha hd'
    | dropped w => exact ih ha hd'
    | destroyed w => exact absurd (List.mem_cons_self ..) (hd w)
    | race w => exact ha.elim

/-- The invariant together with the history. -/
structure Hist (s : State) (tr : List Obs) : Prop where
  inv : Inv s
  safe : Safe tr
  over : (∃ w, .destroyed w ∈ tr) → s.refs = [] ∧ ∀ w, s.pc w = .out

theorem hist_step {s s' : State} {tr o : List Obs} {e : Event} (hi : Hist s tr) (hs : step s e = some (s', o)) : Hist s' (tr ++ o) := by
  have hinv := inv_step hi.inv hs
  by_cases hd : ∃ w, Obs.destroyed w ∈ tr
  · obtain ⟨h1, h2⟩ := hi.over hd
    cases e <;> simp [step, h1, h2] at hs
  · have hnd : ∀ w, Obs.destroyed w ∉ tr := fun w h => hd ⟨w, h⟩
    have key : (∀ w, Obs.destroyed w ∉ o) → Safe o → Hist s' (tr ++ o) := fun ho hso =>
      ⟨hinv, safe_append hi.safe hnd hso, fun ⟨w, hw⟩ => by
        rcases List.mem_append.1 hw with h | h
        · exact absurd h (hnd w)
        · exact absurd h (ho w)⟩
    cases e with
    | use w =>
      simp only [step] at hs
      split at hs
      case isFalse => cases hs
      cases hs
      exact key (by simp) (by simp [Safe])
    | add w t =>
      simp only [step] at hs
      split at hs
      case isFalse => cases hs
      split at hs
      · cases hs
      · cases hs; exact key (by simp) (by simp [Safe])
    | pass w u =>
      simp only [step] at hs
      split at hs
      case isFalse => cases hs
      cases hs
      exact key (by simp) (by simp [Safe])
    | drop w t =>
      simp only [step] at hs
      split at hs
      case isFalse => cases hs
      split at hs
      · cases hs
      · cases hs; exact key (by simp) (by simp [Safe])
    | fence w =>
      simp only [step] at hs
      split at hs
      case isFalse => cases hs
      cases hs
      exact key (by simp) (by simp [Safe])
    | destroy w us =>
      simp only [step] at hs
      split at hs
      case isFalse => cases hs
      rename_i hp
      have hno : us.any (fun u => decide (s.mem.cur w (u + 1) < s.mem.last (u + 1))) = false := by
        rw [List.any_eq_false]
        intro u _
        have := hi.inv.destroy w u hp
        simp only [decide_eq_true_eq]; omega
      simp only [hno, Option.some.injEq, Prod.mk.injEq] at hs
      obtain ⟨rfl, rfl⟩ := hs
      obtain ⟨hr, hone⟩ := hi.inv.one w (by rw [hp]; simp)
      refine ⟨hinv, safe_append hi.safe hnd (by simp [Safe]), fun _ => ⟨hr, fun u => ?_⟩⟩
      simp only [upd_apply]
      split
      · rfl
      · rename_i hne
        exact Classical.byContradiction fun h => hne (hone u h)

theorem reach_hist {s : State} {tr : List Obs} (h : Reach step init s tr) : Hist s tr :=
  h.inv Hist ⟨inv_init, trivial, by simp⟩ (fun _ _ _ _ _ _ hi hs => hist_step hi hs)

/-! ## C74 -/

/-- **C74**: under the weak memory model of C++, the object is destroyed at most once, every use by every thread happens before
the destruction, and nothing is done with the object after it. -/
theorem C74_safe {s : State} {tr : List Obs} (h : Reach step init s tr) : Safe tr := (reach_hist h).safe

/-- **C74**: the object is not forgotten: when no reference is left, it is destroyed or its destruction can proceed. -/
theorem C74_destroyed {s : State} {tr : List Obs} (h : Reach step init s tr) (hr : s.refs = []) :
    (∃ w, .destroyed w ∈ tr) ∨ ∃ w s', Reach step s s' [.destroyed w] := by
  have key : s.refs = [] → (∃ w, Obs.destroyed w ∈ tr) ∨ ∃ w, s.pc w = .fence ∨ s.pc w = .destroy := by
    refine h.inv (fun s tr => s.refs = [] → (∃ w, Obs.destroyed w ∈ tr) ∨ ∃ w, s.pc w = .fence ∨ s.pc w = .destroy) (by simp [init]) ?_
    intro s tr e s' o hreach ih hs hr'
    have hinv := reach_inv hreach
    cases e with
    | use w =>
      simp only [step] at hs
      split at hs
      case isFalse => cases hs
      rename_i hw
      cases hs
      simp only at hr'
      rw [hr'] at hw; cases hw
    | add w t =>
      simp only [step] at hs
      split at hs
      case isFalse => cases hs
      split at hs
      · cases hs
      · cases hs; simp at hr'
    | pass w u =>
      simp only [step] at hs
      split at hs
      case isFalse => cases hs
      cases hs
      simp at hr'
    | drop w t =>
      simp only [step] at hs
      split at hs
      case isFalse => cases hs
      rename_i hc
      split at hs
      · cases hs
      · rename_i v m hm
        obtain ⟨g1, hm⟩ := rmw_spec hm
        obtain ⟨n, g, hn, hv, _⟩ := hinv.new
        have htn : t = n := hn.eq (by rw [hm.read]; simp) hm.free
        subst htn
        have hg : g1 = g := Option.some.inj (hm.read.symm.trans hn.here)
        subst hg
        cases hs
        simp only at hr'
        have hlen : (s.refs.erase w).length = s.refs.length - 1 := List.length_erase_of_mem hc.1
        have hpos := List.length_pos_of_mem hc.1
        rw [hr'] at hlen
        simp only [List.length_nil] at hlen
        have hv1 : v = 1 := by rw [hm.val, hv]; omega
        refine .inr ⟨w, .inl ?_⟩
        simp [hv1]
    | fence w =>
      simp only [step] at hs
      split at hs
      case isFalse => cases hs
      cases hs
      exact .inr ⟨w, .inr (by simp)⟩
    | destroy w us =>
      have hh := reach_hist (.tail _ hreach hs)
      simp only [step] at hs
      split at hs
      case isFalse => cases hs
      rename_i hp
      have hno : us.any (fun u => decide (s.mem.cur w (u + 1) < s.mem.last (u + 1))) = false := by
        rw [List.any_eq_false]
        intro u _
        have := hinv.destroy w u hp
        simp only [decide_eq_true_eq]; omega
      simp only [hno, Option.some.injEq, Prod.mk.injEq] at hs
      obtain ⟨rfl, rfl⟩ := hs
      exact .inl ⟨w, by simp⟩
  rcases key hr with h1 | ⟨w, h1 | h1⟩
  · exact .inl h1
  · refine .inr ⟨w, ?_⟩
    have h2 : step s (.fence w) = some ({ s with mem := fenceAcq s.mem w, pc := upd s.pc w .destroy }, []) := by simp only [step, h1, if_true]
    exact ⟨_, .tail (Event.destroy w []) (.tail (Event.fence w) .refl h2) (by simp only [step, upd_same, if_true]; rfl)⟩
  · exact .inr ⟨w, _, .tail (Event.destroy w []) .refl (by simp only [step, h1, if_true]; rfl)⟩

/-- Three threads use the object; the last reference is given up by a thread that never saw the others. -/
def demo : List Event := [.use 0, .add 0 0, .add 0 1, .pass 0 1, .pass 0 2, .use 2, .use 1, .use 0, .drop 0 2, .drop 1 3, .drop 2 4, .fence 2, .destroy 2 [0, 1, 2, 3]]

theorem demo_reach : ∃ s, Reach step init s [.used 0, .used 2, .used 1, .used 0, .dropped 0, .dropped 1, .dropped 2, .destroyed 2] :=
  ⟨_, reach_of_exec (es := demo) rfl⟩

example := C74_safe demo_reach.choose_spec

example : ∃ s, Reach step init s [.dropped 0] ∧ s.refs = [] := ⟨_, reach_of_exec (es := [.drop 0 0]) rfl, rfl⟩

end Verif.WeakRef
