import Verif.UnbufferedClose

/-!
# Unbuffered channel: C24 – C29, C63, C80

Statements speak about traces of observations: `called f k op`, `ret f k op r t` (call `k` of fiber `f` starts, returns
`r` at time `t`), `placed f k v` (the value of that push is on offer), `took g j f k` (call `j` of `g` takes the offer of
call `k` of `f`), `closedAt`, and `ub` (a value was accessed whose push call has returned).
-/

namespace Verif.Unbuf

variable {V : Type} [DecidableEq V]

/-- Call `k` of fiber `f`, an `op`, has started and not returned. -/
def InCall (tr : List (Obs V)) (f : Fid) (k : Nat) (op : Op V) : Prop :=
  Obs.called f k op ∈ tr ∧ ∀ r t, Obs.ret f k op r t ∉ tr

omit [DecidableEq V] in
theorem mark_inCall {sp : Spec V} {r : Ref} {f : Fid} {k : Nat} {op : Op V} {ph : Phase V}
    (h : sp.inCall f = some ⟨k, op, ph⟩) : ∃ ph, (sp.mark r).inCall f = some ⟨k, op, ph⟩ := by
  simp only [Spec.mark]
  split
  · rename_i c hc
    split
    · simp only [upd_apply]
      split
      · subst_vars; rw [h] at hc; cases hc; exact ⟨_, rfl⟩
      · exact ⟨ph, h⟩
    · exact ⟨ph, h⟩
  · exact ⟨ph, h⟩

/-- A call that started and did not return is running. -/
theorem open_next {sp sp' : Spec V} {tr : List (Obs V)} {o : Obs V}
    (h : ∀ f k op, Obs.called f k op ∈ tr → (∃ r t, Obs.ret f k op r t ∈ tr) ∨ ∃ ph, sp.inCall f = some ⟨k, op, ph⟩)
    (hn : sp.next o = some sp') :
    ∀ f k op, Obs.called f k op ∈ tr ++ [o] →
      (∃ r t, Obs.ret f k op r t ∈ tr ++ [o]) ∨ ∃ ph, sp'.inCall f = some ⟨k, op, ph⟩ := by
  intro f k op hm
  simp only [List.mem_append, List.mem_singleton] at hm ⊢
  cases o with
  | called f' k' op' =>
    simp only [Spec.next] at hn
    split at hn <;> simp only [Option.some.injEq, reduceCtorEq] at hn
    rename_i hc
    subst hn
    rcases hm with hm | hm
    · rcases h f k op hm with h1 | ⟨ph, h1⟩
      · exact Or.inl (h1.imp fun r h => h.imp fun t h => Or.inl h)
      · refine Or.inr ⟨ph, ?_⟩
        have : f ≠ f' := by rintro rfl; rw [hc.1] at h1; cases h1
        simp [upd_apply, this, h1]
    · cases hm
      exact Or.inr ⟨.fresh, by simp⟩
  | placed f' k' v' =>
    simp only [Spec.next] at hn
    split at hn
    case h_2 => cases hn
    split at hn <;> simp only [Option.some.injEq, reduceCtorEq] at hn
    rename_i hc hk
    subst hn
    simp only [upd_apply]
    clear * - h hm hc hk; grind
  | took g j f' k' =>
    simp only [Spec.next] at hn
    split at hn
    case h_2 => cases hn
    split at hn
    case h_3 => cases hn
    all_goals
      split at hn <;> simp only [Option.some.injEq, reduceCtorEq] at hn
      rename_i hc hk
      subst hn
      simp only [upd_apply]
      clear * - h hm hc hk; grind
  | closedAt f' =>
    simp only [Spec.next] at hn
    split at hn
    case h_2 => cases hn
    split at hn <;> simp only [Option.some.injEq, reduceCtorEq] at hn
    subst hn
    clear * - h hm; grind
  | ub f' =>
    simp only [Spec.next, Option.some.injEq] at hn
    subst hn
    clear * - h hm; grind
  | ret f' k' op' r t =>
    have hm' : Obs.called f k op ∈ tr := by simpa using hm
    rcases h f k op hm' with ⟨r', t', h1⟩ | ⟨ph, h1⟩
    · exact Or.inl ⟨r', t', Or.inl h1⟩
    simp only [Spec.next] at hn
    split at hn
    case h_2 => cases hn
    rename_i c hc
    split at hn
    case isFalse => cases hn
    rename_i hk
    obtain ⟨rfl, rfl⟩ := hk
    by_cases hff : f = f'
    · subst hff
      rw [h1] at hc; cases hc
      exact Or.inl ⟨r, t, Or.inr rfl⟩
    · right
      have key : ∀ sp1 : Spec V, sp1.inCall = upd sp.inCall f' none → ∃ ph, sp1.inCall f = some ⟨k, op, ph⟩ := by
        intro sp1 h2; rw [h2]; exact ⟨ph, by simp [upd_apply, hff, h1]⟩
      have hret : ∀ r, sp.ret f' c r t = some sp' → ∃ ph, sp'.inCall f = some ⟨k, op, ph⟩ := by
        intro r hr
        simp only [Spec.ret] at hr
        repeat' split at hr
        all_goals simp only [Option.some.injEq, reduceCtorEq] at hr
        all_goals subst hr; exact key _ rfl
      split at hn
      · rename_i v
        simp only [Spec.retPopped] at hn
        split at hn
        case h_3 => cases hn
        all_goals
          split at hn <;> simp only [Option.some.injEq, reduceCtorEq] at hn
          subst hn
          exact mark_inCall (ph := ph) (by simp [Spec.finish, upd_apply, hff, h1])
      · exact hret _ hn

theorem open_run {tr' : List (Obs V)} : ∀ {sp sp' : Spec V} {tr : List (Obs V)},
    (∀ f k op, Obs.called f k op ∈ tr → (∃ r t, Obs.ret f k op r t ∈ tr) ∨ ∃ ph, sp.inCall f = some ⟨k, op, ph⟩) →
    sp.run tr' = some sp' → ∀ f k op, Obs.called f k op ∈ tr ++ tr' →
      (∃ r t, Obs.ret f k op r t ∈ tr ++ tr') ∨ ∃ ph, sp'.inCall f = some ⟨k, op, ph⟩ := by
  induction tr' with
  | nil => intro sp sp' tr h hr; simp only [Spec.run, Option.some.injEq] at hr; subst hr; simpa using h
  | cons o os ih =>
    intro sp sp' tr h hr
    simp only [Spec.run] at hr
    split at hr
    · cases hr
    · rename_i sp1 h1
      have := ih (open_next h h1) hr
      simpa using this

/-- A fiber inside a call is where that call puts it. -/
theorem inCall_pc {s : State V} {tr : List (Obs V)} (h : Reach step init s tr) {f : Fid} {k : Nat} {op : Op V}
    (hc : InCall tr f k op) : opOf (s.pc f) = some op := by
  obtain ⟨sp, h1, h2⟩ := reach_sim h
  have := open_run (tr := []) (by simp) h1 f k op (by simpa using hc.1)
  rcases this with ⟨r, t, h3⟩ | ⟨ph, h3⟩
  · exact absurd (by simpa using h3) (hc.2 r t)
  · have := h2.hin f
    rw [h3] at this
    cases ho : opOf (s.pc f) <;> simp [ho] at this
    exact this.2 ▸ rfl

/-! ## C24 -/

/-- **C24.** Every offer is taken by at most one pop and every pop takes at most one offer; offers are taken in the order
in which they were made; and a pop that returns a value returns the one pushed by the call whose offer it took. -/
theorem handed_over_once {s : State V} {tr : List (Obs V)} (h : Reach step init s tr) :
    (tookRefs tr).Nodup ∧ (takers tr).Nodup ∧ (tookRefs tr).Sublist (placedRefs tr) ∧
    ∀ g j op v t, Obs.ret g j op (.popped v) t ∈ tr →
      ∃ f k dl, Obs.took g j f k ∈ tr ∧ Obs.placed f k v ∈ tr ∧ Obs.called f k (.push v dl) ∈ tr := by
  obtain ⟨sp, h1, -⟩ := reach_sim h
  have hsi : SI sp tr := by simpa using si_run si_init h1
  have hsub : (tookRefs tr).Sublist (placedRefs tr) := (List.sublist_append_left _ _).trans hsi.sub
  refine ⟨hsub.nodup hsi.pn, hsi.tn, hsub, ?_⟩
  intro g j op v t hm
  obtain ⟨t1, t2, rfl⟩ := List.append_of_mem hm
  obtain ⟨sp1, sp2, -, h3, h4, -, -⟩ := Spec.split h1
  simp only [Spec.next] at h4
  split at h4
  case h_2 => cases h4
  rename_i c hc
  split at h4
  case isFalse => cases h4
  rename_i hk
  obtain ⟨rfl, rfl⟩ := hk
  simp only [Spec.retPopped] at h4
  split at h4
  case h_3 => cases h4
  all_goals
    split at h4 <;> simp only [Option.some.injEq, reduceCtorEq] at h4
    rename_i r w _ hph hv
    subst hv
    obtain ⟨h5, h6⟩ := h3.got g c r v hc hph
    obtain ⟨-, ⟨dl, h7⟩, -⟩ := h3.pl _ _ _ h6
    exact ⟨r.f, r.k, dl, by simp [h5], by simp [h6], by simp [h7]⟩

/-- A value on offer is the value of the push that offers it. -/
theorem placed_value {s : State V} {tr : List (Obs V)} (h : Reach step init s tr) {f : Fid} {k : Nat} {v w : V}
    {dl : Option Nat} (hp : Obs.placed f k w ∈ tr) (hc : Obs.called f k (.push v dl) ∈ tr) : w = v := by
  obtain ⟨sp, h1, -⟩ := reach_sim h
  have hsi : SI sp tr := by simpa using si_run si_init h1
  obtain ⟨-, ⟨dl', h7⟩, -⟩ := hsi.pl _ _ _ hp
  have := hsi.uniq _ _ _ _ h7 hc
  simp only [Op.push.injEq] at this
  exact this.1

/-- Two takers of one offer are the same call. -/
theorem took_unique {s : State V} {tr : List (Obs V)} (h : Reach step init s tr) {f g g' : Fid} {k j j' : Nat}
    (h6' : Obs.took g j f k ∈ tr) (hm : Obs.took g' j' f k ∈ tr) : g' = g ∧ j' = j := by
  obtain ⟨sp, h1, -⟩ := reach_sim h
  have hsi : SI sp tr := by simpa using si_run si_init h1
  -- two takers of one reference would be two entries in `tookRefs`
  have hnd : (tookRefs tr).Nodup := ((List.sublist_append_left _ _).trans hsi.sub).nodup hsi.pn
  clear * - hnd hm h6'
  induction tr with
  | nil => simp at hm
  | cons o os ih =>
    have hos : (tookRefs os).Nodup := by
      refine List.Sublist.nodup ?_ hnd
      simp only [tookRefs, List.filterMap_cons]
      split
      · exact List.Sublist.refl _
      · exact List.sublist_cons_self _ _
    have hno : ∀ a b, o = .took a b f k → ∀ x y, Obs.took x y f k ∉ os := by
      rintro a b rfl x y hx
      simp only [tookRefs, List.filterMap_cons, List.nodup_cons] at hnd
      exact hnd.1 (mem_tookRefs.2 ⟨x, y, hx⟩)
    simp only [List.mem_cons] at hm h6'
    rcases hm with hm | hm <;> rcases h6' with h6' | h6'
    · rw [← hm] at h6'; cases h6'; exact ⟨rfl, rfl⟩
    · exact absurd h6' (hno _ _ hm.symm _ _)
    · exact absurd hm (hno _ _ h6'.symm _ _)
    · exact ih h6' hm hos

/-- **C24, C25.** When a push returns success, exactly one pop has taken its value, and that pop has already
returned it. -/
theorem success_means_received {s : State V} {tr t1 t2 : List (Obs V)} (h : Reach step init s tr) {f : Fid} {k : Nat}
    {v : V} {dl : Option Nat} {t : Nat} (htr : tr = t1 ++ .ret f k (.push v dl) .pushed t :: t2) :
    ∃ g j op t', Obs.took g j f k ∈ t1 ∧ Obs.ret g j op (.popped v) t' ∈ t1 ∧
      ∀ g' j', Obs.took g' j' f k ∈ tr → g' = g ∧ j' = j := by
  obtain ⟨sp, h1, -⟩ := reach_sim h
  have hsi : SI sp tr := by simpa using si_run si_init h1
  have h1' := h1
  rw [htr] at h1'
  obtain ⟨sp1, sp2, -, h3, h4, -, -⟩ := Spec.split h1'
  simp only [Spec.next] at h4
  split at h4
  case h_2 => cases h4
  rename_i c hc
  split at h4
  case isFalse => cases h4
  rename_i hk
  obtain ⟨rfl, hop⟩ := hk
  have hph : c.ph = .delivered := by
    simp only [Spec.ret, hop] at h4
    split at h4
    · assumption
    · cases h4
  obtain ⟨w, g, j, op, t', h5, h6, h7⟩ := h3.del f c hc hph
  have hcl := (h3.call f c hc).1
  rw [hop] at hcl
  have hw : w = v := placed_value h (f := f) (k := c.k) (by rw [htr]; simp [h5]) (by rw [htr]; simpa using Or.inl hcl)
  subst hw
  refine ⟨g, j, op, t', h6, h7, ?_⟩
  intro g' j' hm
  have h6' : Obs.took g j f c.k ∈ tr := by rw [htr]; simp [h6]
  exact took_unique h h6' hm

/-- Fiber 1 pushes 7, fiber 2 receives it. -/
def handOver : List (Event Nat) :=
  [.call 1 (.push 7 none), .run 1, .run 1, .run 1, .call 2 (.pop none), .run 2, .run 2, .run 2, .run 2, .run 1, .run 1]

/-- A complete hand-over: what the theorems above speak about happens. -/
example : ∃ s, Reach step (init : State Nat) s
    [.called 1 1 (.push 7 none), .placed 1 1 7, .called 2 1 (.pop none), .took 2 1 1 1,
     .ret 2 1 (.pop none) (.popped 7) 0, .ret 1 1 (.push 7 none) .pushed 0] :=
  ⟨_, reach_of_exec (es := handOver) rfl⟩

/-! ## C25 -/

/-- **C25.** A push whose value has been put on offer in an open channel returns only after a pop took the value, or, if
timed, with `timeout` at or after its deadline. -/
theorem rendezvous {s : State V} {tr t1 t2 : List (Obs V)} (h : Reach step init s tr) {f : Fid} {k : Nat}
    {v w : V} {dl : Option Nat} {r : Res V} {t : Nat} (htr : tr = t1 ++ .ret f k (.push v dl) r t :: t2)
    (_hp : Obs.placed f k w ∈ t1) (hopen : ∀ c, Obs.closedAt c ∉ t1) :
    (∃ g j, Obs.took g j f k ∈ t1) ∨ (r = .timeout ∧ ∃ d, dl = some d ∧ d ≤ t) := by
  obtain ⟨sp, h1, -⟩ := reach_sim h
  rw [htr] at h1
  obtain ⟨sp1, sp2, -, h3, h4, -, -⟩ := Spec.split h1
  have hcl : sp1.closed = false := by
    cases hcl : sp1.closed
    · rfl
    · obtain ⟨c, hc⟩ := h3.cl.1 hcl; exact absurd hc (hopen c)
  simp only [Spec.next] at h4
  split at h4
  case h_2 => cases h4
  rename_i c hc
  split at h4
  case isFalse => cases h4
  rename_i hk
  obtain ⟨rfl, hop⟩ := hk
  split at h4
  · simp [Spec.retPopped, hop] at h4
  · cases r <;> simp only [Spec.ret, hop, hcl, reduceCtorEq] at h4
    · split at h4
      · rename_i hph
        obtain ⟨_, g, j, _, _, _, h6, _⟩ := h3.del f c hc hph
        exact Or.inl ⟨g, j, h6⟩
      · cases h4
    · cases h4
    · cases dl with
      | none => simp at h4
      | some d =>
        simp only at h4
        split at h4
        · rename_i hd; exact Or.inr ⟨rfl, d, rfl, hd⟩
        · cases h4

/-- **C25.** Success is only returned by a push whose value was on offer and has been taken. -/
theorem success_after_taken {s : State V} {tr t1 t2 : List (Obs V)} (h : Reach step init s tr) {f : Fid} {k : Nat}
    {v : V} {dl : Option Nat} {t : Nat} (htr : tr = t1 ++ .ret f k (.push v dl) .pushed t :: t2) :
    ∃ g j, Obs.took g j f k ∈ t1 :=
  let ⟨g, j, _, _, h1, _⟩ := success_means_received h htr
  ⟨g, j, h1⟩

/-- A timed push nobody answers returns `timeout` at its deadline, with its value having been on offer. -/
example : ∃ s, Reach step (init : State Nat) s
    [.called 1 1 (.push 7 (some 5)), .placed 1 1 7, .ret 1 1 (.push 7 (some 5)) .timeout 5] :=
  ⟨_, reach_of_exec (es := [.call 1 (.push 7 (some 5)), .run 1, .run 1, .run 1, .tick 5, .timer 1, .run 1, .run 1]) rfl⟩

/-! ## C26 -/

/-- The call `k` of `f` is over and its value is not on offer. -/
def Spec.Gone (sp : Spec V) (f : Fid) (k : Nat) : Prop :=
  sp.offer.map Prod.fst ≠ some ⟨f, k⟩ ∧ k ≤ sp.ncalls f ∧ ∀ c, sp.inCall f = some c → c.k ≠ k

theorem Spec.Gone.next {sp sp' : Spec V} {f : Fid} {k : Nat} {o : Obs V} (h : sp.Gone f k) (hn : sp.next o = some sp') :
    sp'.Gone f k ∧ ∀ g j, o ≠ .took g j f k := by
  obtain ⟨h1, h2, h3⟩ := h
  cases o with
  | called f' k' op' =>
    simp only [Spec.next] at hn
    split at hn <;> simp only [Option.some.injEq, reduceCtorEq] at hn
    rename_i hc
    subst hn
    refine ⟨⟨h1, ?_, ?_⟩, by simp⟩
    · simp only [upd_apply]; clear * - h2 hc; grind
    · simp only [upd_apply]; clear * - h2 h3 hc; grind
  | placed f' k' v' =>
    simp only [Spec.next] at hn
    split at hn
    case h_2 => cases hn
    split at hn <;> simp only [Option.some.injEq, reduceCtorEq] at hn
    rename_i hc hk
    subst hn
    refine ⟨⟨?_, h2, ?_⟩, by simp⟩
    · simp only [Option.map_some]; clear * - h3 hc hk; grind
    · simp only [upd_apply]; clear * - h3 hc hk; grind
  | took g j f' k' =>
    simp only [Spec.next] at hn
    split at hn
    case h_2 => cases hn
    rename_i r v ho
    split at hn
    case h_3 => cases hn
    all_goals
      rename_i hc
      split at hn <;> simp only [Option.some.injEq, reduceCtorEq] at hn
      rename_i hk
      subst hn
      refine ⟨⟨by simp, h2, ?_⟩, ?_⟩
      · simp only [upd_apply]; clear * - h3 hc hk; grind
      · rintro g' j' he; cases he; simp [ho, hk.2] at h1
  | closedAt f' =>
    simp only [Spec.next] at hn
    split at hn
    case h_2 => cases hn
    split at hn <;> simp only [Option.some.injEq, reduceCtorEq] at hn
    subst hn
    exact ⟨⟨h1, h2, h3⟩, by simp⟩
  | ub f' =>
    simp only [Spec.next, Option.some.injEq] at hn
    subst hn
    exact ⟨⟨h1, h2, h3⟩, by simp⟩
  | ret f' k' op' r t =>
    refine ⟨?_, by simp⟩
    simp only [Spec.next] at hn
    split at hn
    case h_2 => cases hn
    rename_i c hc
    split at hn
    case isFalse => cases hn
    have key : ∀ sp1 : Spec V, (sp1.offer = sp.offer ∨ sp1.offer = none) → sp1.ncalls = sp.ncalls →
        sp1.inCall = upd sp.inCall f' none → sp1.Gone f k := by
      intro sp1 a1 a2 a3
      refine ⟨?_, by rw [a2]; exact h2, ?_⟩
      · rcases a1 with a1 | a1 <;> rw [a1]
        · exact h1
        · simp
      · rw [a3]; simp only [upd_apply]; clear * - h3; grind
    split at hn
    · simp only [Spec.retPopped] at hn
      split at hn
      case h_3 => cases hn
      all_goals
        split at hn <;> simp only [Option.some.injEq, reduceCtorEq] at hn
        subst hn
        have hf := key (sp.finish f') (Or.inl rfl) rfl rfl
        simp only [Spec.mark]
        split
        · rename_i c' hc'
          split
          · refine ⟨hf.1, hf.2.1, ?_⟩
            have := hf.2.2
            simp only [upd_apply]
            clear * - this hc'; grind
          · exact hf
        · exact hf
    · simp only [Spec.ret] at hn
      repeat' split at hn
      all_goals simp only [Option.some.injEq, reduceCtorEq] at hn
      all_goals subst hn
      all_goals refine key _ ?_ rfl rfl
      all_goals first | exact Or.inl rfl | exact Or.inr rfl

theorem Spec.Gone.run {f : Fid} {k : Nat} (tr : List (Obs V)) : ∀ {sp sp' : Spec V}, sp.Gone f k → sp.run tr = some sp' →
    ∀ g j, Obs.took g j f k ∉ tr := by
  induction tr with
  | nil => simp
  | cons o os ih =>
    intro sp sp' h hr g j hm
    simp only [Spec.run] at hr
    split at hr
    · cases hr
    · rename_i sp1 h1
      obtain ⟨h2, h3⟩ := h.next h1
      simp only [List.mem_cons] at hm
      rcases hm with hm | hm
      · exact h3 g j hm.symm
      · exact ih h2 hr g j hm

/-- **C26 (what holds).** A push that returned without its value ever having been on offer (it found the channel closed,
or timed out waiting for its turn) has not been and never will be received; neither will the value of a push
that returned `timeout` before anybody took it.

Missing for C26: pushes that return `closed` or `timeout` after their value was put on offer; there the property is
false (`closed_but_received`, `timeout_but_received`, `closed_then_taken`). -/
theorem unplaced_never_received_partial {s : State V} {tr t1 t2 : List (Obs V)} (h : Reach step init s tr) {f : Fid}
    {k : Nat} {v : V} {dl : Option Nat} {r : Res V} {t : Nat} (htr : tr = t1 ++ .ret f k (.push v dl) r t :: t2)
    (hr : (∀ w, Obs.placed f k w ∉ t1) ∨ (r = .timeout ∧ ∀ g j, Obs.took g j f k ∉ t1)) :
    ∀ g j, Obs.took g j f k ∉ tr := by
  obtain ⟨sp, h1, -⟩ := reach_sim h
  rw [htr] at h1
  obtain ⟨sp1, sp2, -, h3, h4, h5, h6⟩ := Spec.split h1
  have hov := h5.over f k (.push v dl) r t (by simp)
  have hbefore : ∀ g j, Obs.took g j f k ∉ t1 := by
    rcases hr with hr | hr
    · intro g j hm
      have hsub : (tookRefs t1).Sublist (placedRefs t1) := (List.sublist_append_left _ _).trans h3.sub
      obtain ⟨w, hw⟩ := mem_placedRefs.1 (hsub.subset (mem_tookRefs.2 ⟨g, j, hm⟩) : (⟨f, k⟩ : Ref) ∈ _)
      exact hr w hw
    · exact hr.2
  have hgone : sp2.Gone f k := by
    refine ⟨?_, hov.1, hov.2⟩
    rcases hr with hr | ⟨rfl, -⟩
    · intro ho
      cases hof : sp2.offer with
      | none => simp [hof] at ho
      | some x =>
        obtain ⟨rf, w⟩ := x
        simp only [hof, Option.map_some, Option.some.injEq] at ho
        have := h5.off _ _ hof
        rw [ho] at this
        simp only [List.mem_append, List.mem_singleton, reduceCtorEq, or_false] at this
        exact hr w this
    · simp only [Spec.next] at h4
      split at h4
      case h_2 => cases h4
      rename_i c hc
      split at h4
      case isFalse => cases h4
      rename_i hk
      obtain ⟨rfl, hop⟩ := hk
      cases dl with
      | none => simp [Spec.ret, hop] at h4
      | some d =>
        simp only [Spec.ret, hop] at h4
        split at h4 <;> simp only [Option.some.injEq, reduceCtorEq] at h4
        subst h4
        simp only [Spec.finish]
        split <;> simp_all
  intro g j hm
  rw [htr] at hm
  simp only [List.mem_append, List.mem_cons, reduceCtorEq, false_or] at hm
  rcases hm with hm | hm
  · exact hbefore g j hm
  · exact hgone.run t2 h6 g j hm

/-- The hypotheses of `unplaced_never_received_partial` are met: a push to a closed channel; and the `timeout` above. -/
example : ∃ s, Reach step (init : State Nat) s
    [.called 3 1 .close, .closedAt 3, .ret 3 1 .close .void 0, .called 1 1 (.push 7 none),
     .ret 1 1 (.push 7 none) .closed 0] :=
  ⟨_, reach_of_exec (es := [.call 3 .close, .run 3, .run 3, .run 3, .run 3, .call 1 (.push 7 none), .run 1]) rfl⟩

/-- **C26 is false of the code (`closed`).** Fiber 2 receives the value, fiber 3 closes the channel before the producer
resumes, and the producer is told `closed`. All of this can happen on one thread. -/
theorem closed_but_received :
    ∃ (s : State Nat) (tr : List (Obs Nat)), Reach step init s tr ∧
      Obs.ret 2 1 (.pop none) (.popped 7) 0 ∈ tr ∧ Obs.took 2 1 1 1 ∈ tr ∧
      Obs.ret 1 1 (.push 7 none) .closed 0 ∈ tr :=
  ⟨_, _, reach_of_exec (es := [.call 1 (.push 7 none), .run 1, .run 1, .run 1, .call 2 (.pop none), .run 2, .run 2, .run 2,
    .run 2, .call 3 .close, .run 3, .run 3, .run 3, .run 3, .run 1, .run 1]) rfl, by decide, by decide, by decide⟩

/-- **C26 is false of the code (`timeout`).** Fiber 2 receives the value, but the producer resumes after its deadline and
is told `timeout`. -/
theorem timeout_but_received :
    ∃ (s : State Nat) (tr : List (Obs Nat)), Reach step init s tr ∧
      Obs.ret 2 1 (.pop none) (.popped 7) 4 ∈ tr ∧ Obs.took 2 1 1 1 ∈ tr ∧
      Obs.ret 1 1 (.push 7 (some 5)) .timeout 5 ∈ tr :=
  ⟨_, _, reach_of_exec (es := [.call 1 (.push 7 (some 5)), .run 1, .run 1, .run 1, .tick 4, .call 2 (.pop none), .run 2,
    .run 2, .run 2, .run 2, .tick 1, .run 1, .run 1]) rfl, by decide, by decide, by decide⟩

/-- **C26 is false of the code (later).** A push released by `close` returns `closed` but leaves its slot in the channel;
a later pop takes it. -/
theorem closed_then_taken :
    ∃ (s : State Nat) (t1 t2 : List (Obs Nat)),
      Reach step init s (t1 ++ .ret 1 1 (.push 7 none) .closed 0 :: t2) ∧ Obs.took 2 1 1 1 ∈ t2 :=
  ⟨_, [.called 1 1 (.push 7 none), .placed 1 1 7, .called 3 1 .close, .closedAt 3, .ret 3 1 .close .void 0],
    [.called 2 1 (.pop none), .took 2 1 1 1],
    reach_of_exec (es := [.call 1 (.push 7 none), .run 1, .run 1, .run 1, .call 3 .close, .run 3, .run 3, .run 3, .run 3,
      .run 3, .run 1, .run 1, .call 2 (.pop none), .run 2]) rfl, by decide⟩

/-! ## C27 -/

theorem ub_flag {s : State V} {tr : List (Obs V)} (h : Reach step init s tr) : ∀ f, Obs.ub f ∈ tr → s.ub = true := by
  refine Reach.inv (fun s tr => ∀ f, Obs.ub f ∈ tr → s.ub = true) (by simp) ?_ h
  intro s tr e s' o _ hi hs f hm
  simp only [step] at hs
  split at hs
  · cases hs
  rename_i hub
  have hno : Obs.ub f ∉ tr := fun hm => hub (hi f hm)
  have hm' : Obs.ub f ∈ o := by simpa [hno] using hm
  cases e with
  | run x =>
    simp only [stepOk] at hs
    ucases s, x, hs, hp
    all_goals first | rfl | (simp at hm'; done)
  | fail x =>
    simp only [stepOk] at hs
    ucases s, x, hs, hp
    all_goals first | rfl | (simp at hm'; done)
  | _ =>
    simp only [stepOk] at hs
    (repeat' split at hs) <;> simp only [Option.some.injEq, Prod.mk.injEq, reduceCtorEq] at hs
    all_goals
      obtain ⟨rfl, rfl⟩ := hs
      simp at hm'

theorem no_ub {s : State V} {tr : List (Obs V)} (h : Reach step init s tr) (hub : ∀ f, Obs.ub f ∉ tr) :
    s.ub = false := by
  cases hu : s.ub
  · rfl
  · exfalso
    have : ∃ f, Obs.ub f ∈ tr := by
      revert hu
      refine Reach.inv (fun s tr => s.ub = true → ∃ f, Obs.ub f ∈ tr) (by simp [init]) ?_ h
      intro s tr e s' o _ hi hs hu
      rcases other_frame hs with ⟨x, b, -, h1⟩ | ⟨-, -, -, -, h5, h6, -⟩
      · have hub : s.ub = false := by
          simp only [step] at hs; split at hs
          · cases hs
          · simp_all
        clear hs
        ucases s, x, h1, hp
        all_goals first
          | (exfalso; simp [hub] at hu; done)
          | exact ⟨x, by simp⟩
      · rw [h5, h6] at hu; cases hu
    obtain ⟨f, hf⟩ := this
    exact hub f hf

/-- **C27 (what holds).** If nobody calls `close` or `push_wait_for`/`push_wait_until`, no operation uses a value whose
push has returned, under any interleaving of `push`, `pop`, `value_pop`, `pop_wait_until` and `is_closed`.

Missing for C27: executions with `close` or timed pushes; there the property is false (`close_leaves_dangling_slot`,
`timed_push_dangling_slot`). -/
theorem no_dangling_partial {s : State V} {tr : List (Obs V)} (h : Reach step init s tr)
    (hc : ∀ f k op, Obs.called f k op ∈ tr → op ≠ .close ∧ ∀ v d, op ≠ .push v (some d)) (f : Fid) :
    Obs.ub f ∉ tr := by
  intro hm
  have h1 := ub_flag h f hm
  have h2 := (reach_ca h (fun f k op ho => by
    have := hc f k op ho
    cases op with
    | push v dl => cases dl <;> simp_all [Op.calm]
    | _ => simp_all [Op.calm])).ub
  rw [h1] at h2; cases h2

/-- The complete hand-over meets the hypotheses. -/
example : ∃ s tr, Reach step (init : State Nat) s tr ∧ Obs.ret 1 1 (.push 7 none) .pushed 0 ∈ tr ∧
    ∀ f k op, Obs.called f k op ∈ tr → op ≠ .close ∧ ∀ v d, op ≠ .push v (some d) := by
  refine ⟨_, _, reach_of_exec (es := handOver) rfl, by decide, ?_⟩
  intro f k op h
  simp at h
  rcases h with ⟨_, _, rfl⟩ | ⟨_, _, rfl⟩ <;> simp

/-- **C27 is false of the code (`close`).** Fiber 1 blocks in `push`; fiber 3 closes the channel; fiber 1 returns `closed`,
leaving the address of its slot in the channel; fiber 2 pops and reads through it. No preemption is needed. -/
theorem close_leaves_dangling_slot :
    ∃ (s : State Nat) (tr : List (Obs Nat)), Reach step init s tr ∧
      Obs.ret 1 1 (.push 7 none) .closed 0 ∈ tr ∧ Obs.ub 2 ∈ tr :=
  ⟨_, _, reach_of_exec (es := [.call 1 (.push 7 none), .run 1, .run 1, .run 1, .call 3 .close, .run 3, .run 3, .run 3, .run 3,
    .run 3, .run 1, .run 1, .call 2 (.pop none), .run 2, .run 2, .run 2]) rfl, by decide, by decide⟩

/-- **C27 is false of the code (timed push).** A consumer on another thread takes the slot; before it reads the value the
producer's deadline passes and `push_wait_until` returns. -/
theorem timed_push_dangling_slot :
    ∃ (s : State Nat) (tr : List (Obs Nat)), Reach step init s tr ∧
      Obs.ret 1 1 (.push 7 (some 5)) .timeout 5 ∈ tr ∧ Obs.ub 2 ∈ tr :=
  ⟨_, _, reach_of_exec (es := [.call 1 (.push 7 (some 5)), .run 1, .run 1, .run 1, .call 2 (.pop none), .run 2, .run 2, .tick 5,
    .timer 1, .run 1, .run 1, .run 2]) rfl, by decide, by decide⟩

/-! ## C28 -/

/-- **C63 (what holds).** As long as nobody calls `close`, no call has returned `timeout` or thrown the exception of
moving a value and nothing undefined has happened: when no fiber can take a step, there are not both an unfinished push and an unfinished pop, timed or not.

Missing for C63: executions in which a timed call gives up; there the property is false
(`timed_push_giveup_strands`, `timed_pop_giveup_strands`; `throwing_pop_strands_producer` for C80). -/
theorem no_mutual_block_partial {s : State V} {tr : List (Obs V)} (h : Reach step init s tr)
    (hcl : ∀ f k, Obs.called f k .close ∉ tr) (hnt : ∀ f k op t, Obs.ret f k op .timeout t ∉ tr) (hthr : NoThrow tr)
    (hub : ∀ f, Obs.ub f ∉ tr) (hq : ∀ f, step s (.run f) = none) {f g : Fid} {k j : Nat} {v : V} {dl : Option Nat}
    {op : Op V} (hf : InCall tr f k (.push v dl)) (hg : InCall tr g j op) (hop : (∃ d, op = .pop d) ∨ op = .valuePop) :
    False := by
  have hub' := no_ub h hub
  have hq' : ∀ f, run s f = none := fun f => by simpa [step, hub', stepOk] using hq f
  have hst := stuck_cases (reach_pi h) hq'
  have hh := reach_hunt h ⟨hcl, hnt⟩
  have hnc : ∀ x, ¬ HuntC s x := by
    rintro x (⟨p, h1⟩ | ⟨h1, h2⟩)
    · rcases hst x with h3 | ⟨_, h3⟩
      · simp [h3] at h1
      · rcases h3 with ⟨_, _, _, h3⟩ | ⟨_, _, _, h3⟩ | ⟨_, _, h3⟩ <;> simp [h3] at h1
    · rcases hst x with h3 | ⟨h3, _⟩
      · simp [h3, Pc.waits] at h1
      · simp [h2] at h3
  have hnp : ∀ x, ¬ HuntP s x := by
    rintro x (⟨p, dl, h1⟩ | ⟨h1, h2⟩)
    · rcases hst x with h3 | ⟨_, h3⟩
      · simp [h3] at h1
      · rcases h3 with ⟨_, _, _, h3⟩ | ⟨_, _, _, h3⟩ | ⟨_, _, h3⟩ <;> simp [h3] at h1
    · rcases hst x with h3 | ⟨h3, _⟩
      · simp [h3, Pc.waits] at h1
      · simp [h2] at h3
  have hnh : ∀ x r, (s.pc x).held ≠ some r := by
    intro x r h1
    rcases hst x with h3 | ⟨_, h3⟩
    · simp [h3, Pc.held] at h1
    · rcases h3 with ⟨_, _, _, h3⟩ | ⟨_, _, _, h3⟩ | ⟨_, _, h3⟩ <;> simp [h3, Pc.held] at h1
  have hpf := inCall_pc h hf
  have hpg := inCall_pc h hg
  -- the consumer waits among the consumers
  have hgw : (s.pc g).waits = some .cons ∧ s.c.ready g = false := by
    rcases hst g with h3 | ⟨h4, h3⟩
    · simp [h3, opOf] at hpg
    · rcases h3 with ⟨_, _, _, h3⟩ | ⟨_, _, _, h3⟩ | ⟨_, _, h3⟩
      · rcases hop with ⟨_, rfl⟩ | rfl <;> simp [h3, opOf] at hpg
      · rcases hop with ⟨_, rfl⟩ | rfl <;> simp [h3, opOf] at hpg
      · exact ⟨by rw [h3]; rfl, h4⟩
  cases hsl : s.slot with
  | some r =>
    rcases hh.c r g hsl hgw.1 hgw.2 with ⟨_, _, _, h1⟩ | ⟨x, h1⟩
    · rcases hst r.f with h3 | ⟨_, h3⟩
      · simp [h3] at h1
      · rcases h3 with ⟨_, _, _, h3⟩ | ⟨_, _, _, h3⟩ | ⟨_, _, h3⟩ <;> simp [h3] at h1
    · exact hnc x h1
  | none =>
    rcases hst f with h3 | ⟨h4, h3⟩
    · simp [h3, opOf] at hpf
    · rcases h3 with ⟨v', dl', ep, h3⟩ | ⟨v', dl', ep, h3⟩ | ⟨p, ep, h3⟩
      · have hep : s.c.epoch f = ep := by
          obtain ⟨gh, hw⟩ := (reach_w h).1
          exact (hw.not_ready_iff (f := f) (r := ⟨none, ep, dl', false⟩) (by simp [h3, regOf]) rfl).1 h4
        rcases reach_off h hthr f ep (by rw [h3]; rfl) hep with h5 | ⟨x, h5⟩
        · rw [hsl] at h5; cases h5
        · exact hnh _ _ h5
      · rcases hh.p f hsl (by rw [h3]; rfl) h4 with ⟨x, h1⟩ | ⟨x, p, r, h1⟩
        · exact hnp x h1
        · exact hnh x r (by rw [h1]; rfl)
      · cases p <;> simp [h3, opOf, PopOp.op] at hpf

/-- **C28.** With `push`, `pop` and `value_pop` only, and values whose moves do not throw: when no fiber can take a step, there are not both an unfinished
push and an unfinished pop. -/
theorem no_mutual_block {s : State V} {tr : List (Obs V)} (h : Reach step init s tr)
    (hc : ∀ f k op, Obs.called f k op ∈ tr → op ≠ .close ∧ (∀ v d, op ≠ .push v (some d)) ∧ ∀ d, op ≠ .pop (some d))
    (hthr : NoThrow tr) (hq : ∀ f, step s (.run f) = none) {f g : Fid} {k j : Nat} {v : V} {op : Op V}
    (hf : InCall tr f k (.push v none)) (hg : InCall tr g j op) (hop : op = .pop none ∨ op = .valuePop) : False := by
  refine no_mutual_block_partial h (fun f k ho => (hc f k _ ho).1 rfl) ?_ hthr
    (fun f => no_dangling_partial h (fun f k op ho => ⟨(hc f k op ho).1, (hc f k op ho).2.1⟩) f) hq hf hg
    (hop.imp_left fun h => ⟨none, h⟩)
  intro f k op t hm
  obtain ⟨t1, t2, rfl⟩ := List.append_of_mem hm
  obtain ⟨sp, h1, -⟩ := reach_sim h
  obtain ⟨sp1, sp2, -, h3, h4, -, -⟩ := Spec.split h1
  simp only [Spec.next] at h4
  split at h4
  case h_2 => cases h4
  rename_i c hx
  split at h4
  case isFalse => cases h4
  rename_i hk
  obtain ⟨rfl, rfl⟩ := hk
  have hcl := hc _ _ _ (List.mem_append_left _ (h3.call f c hx).1)
  cases ho : c.op with
  | push v dl => cases dl <;> simp [Spec.ret, ho] at h4 hcl
  | pop dl => cases dl <;> simp [Spec.ret, ho] at h4 hcl
  | _ => simp [Spec.ret, ho] at h4

/-- A blocked producer alone, and two blocked consumers: the premises other than the conflict are met. -/
example : ∃ s tr, Reach step (init : State Nat) s tr ∧ InCall tr 1 1 (.push 7 none) ∧ InCall tr 3 1 (.push 8 none) ∧
    NoThrow tr ∧ ∀ f, step s (.run f) = none := by
  refine ⟨_, _, reach_of_exec (es := [.call 1 (.push 7 none), .run 1, .run 1, .run 1, .call 3 (.push 8 none), .run 3, .run 3,
    .run 3, .run 3]) rfl, ⟨by decide, by simp⟩, ⟨by decide, by simp⟩, by simp [NoThrow], ?_⟩
  intro g
  by_cases h3 : g = 3
  · subst h3; rfl
  · by_cases h1 : g = 1
    · subst h1; rfl
    · simp [step, stepOk, run, upd, h1, h3, init, State.goto, State.block]

/-- Fiber 1 offers 7 with a deadline, fiber 3 queues up behind it, fiber 1 gives up and fiber 2 comes to receive. -/
def strandPush : List (Event Nat) :=
  [.call 1 (.push 7 (some 5)), .run 1, .run 1, .run 1, .call 3 (.push 8 none), .run 3, .run 3, .run 3, .run 3, .tick 5,
   .timer 1, .run 1, .run 1, .call 2 (.pop none), .run 2, .run 2, .run 2]

/-- **C63 is false of the code (producers).** A timed push that gives up clears the slot without notifying the producers
queued behind it: afterwards a producer and a consumer are both blocked in the open channel and nothing can run. -/
theorem timed_push_giveup_strands :
    ∃ (s : State Nat) (tr : List (Obs Nat)), Reach step init s tr ∧ s.closed = false ∧
      InCall tr 3 1 (.push 8 none) ∧ InCall tr 2 1 (.pop none) ∧
      ∀ g, step s (.run g) = none ∧ step s (.timer g) = none := by
  refine ⟨_, _, reach_of_exec (es := strandPush) rfl, rfl, ⟨by decide, by simp⟩, ⟨by decide, by simp⟩, ?_⟩
  intro g
  by_cases h3 : g = 3
  · subst h3; exact ⟨rfl, rfl⟩
  · by_cases h2 : g = 2
    · subst h2; exact ⟨rfl, rfl⟩
    · by_cases h1 : g = 1
      · subst h1; exact ⟨rfl, rfl⟩
      · simp [step, stepOk, run, upd, h1, h2, h3, init, State.goto, State.block, sleepOf]

/-- Consumers 2 (timed) and 3 wait; fiber 1 offers 7 and notifies 2, which resumes after its deadline. -/
def strandPop : List (Event Nat) :=
  [.call 2 (.pop (some 5)), .run 2, .run 2, .run 2, .call 3 (.pop none), .run 3, .run 3, .run 3, .call 1 (.push 7 none),
   .run 1, .run 1, .run 1, .tick 5, .run 2, .run 2]

/-- **C63 is false of the code (consumers).** A timed pop that was notified of an offer but resumes late returns `timeout`
without passing the notification on. -/
theorem timed_pop_giveup_strands :
    ∃ (s : State Nat) (tr : List (Obs Nat)), Reach step init s tr ∧ s.closed = false ∧
      InCall tr 1 1 (.push 7 none) ∧ InCall tr 3 1 (.pop none) ∧
      ∀ g, step s (.run g) = none ∧ step s (.timer g) = none := by
  refine ⟨_, _, reach_of_exec (es := strandPop) rfl, rfl, ⟨by decide, by simp⟩, ⟨by decide, by simp⟩, ?_⟩
  intro g
  by_cases h3 : g = 3
  · subst h3; exact ⟨rfl, rfl⟩
  · by_cases h2 : g = 2
    · subst h2; exact ⟨rfl, rfl⟩
    · by_cases h1 : g = 1
      · subst h1; exact ⟨rfl, rfl⟩
      · simp [step, stepOk, run, upd, h1, h2, h3, init, State.goto, State.block, sleepOf]

/-! ## C29 -/

/-- **C29.** A push that returns after the channel became closed does not return success. -/
theorem no_success_after_close {s : State V} {tr t1 t2 : List (Obs V)} (h : Reach step init s tr) {c : Fid}
    (htr : tr = t1 ++ .closedAt c :: t2) (f : Fid) (k : Nat) (op : Op V) (t : Nat) : Obs.ret f k op .pushed t ∉ t2 := by
  intro hm
  obtain ⟨a, b, rfl⟩ := List.append_of_mem hm
  obtain ⟨sp, h1, -⟩ := reach_sim h
  rw [htr] at h1
  have : t1 ++ Obs.closedAt c :: (a ++ Obs.ret f k op .pushed t :: b) =
      (t1 ++ Obs.closedAt c :: a) ++ Obs.ret f k op .pushed t :: b := by simp
  rw [this] at h1
  obtain ⟨sp1, sp2, -, h3, h4, -, -⟩ := Spec.split h1
  have hcl : sp1.closed = true := h3.cl.2 ⟨c, by simp⟩
  simp only [Spec.next] at h4
  split at h4
  case h_2 => cases h4
  rename_i c' hc
  split at h4
  case isFalse => cases h4
  cases hop : c'.op <;> cases hph : c'.ph <;> simp [Spec.ret, hop, hph, hcl] at h4

theorem noThrow_of {tr : List (Obs V)} (h : tr.all (fun | .ret _ _ _ .failed _ => false | _ => true) = true) :
    NoThrow tr := fun f k op t hm => by simpa using List.all_eq_true.1 h _ hm

/-- **C29 (what holds).** If no value is put on offer after the channel became closed and no move of a value threw, then whenever no fiber can take a
step and nothing undefined happened, no call is unfinished.

Missing for C29: a push that has read the flag before `close` sets it and puts its value on offer afterwards; it stays
blocked (`late_push_strands`). -/
theorem close_releases_partial {s : State V} {tr : List (Obs V)} (h : Reach step init s tr) {c : Fid}
    (hcl : Obs.closedAt c ∈ tr) (hub : ∀ f, Obs.ub f ∉ tr) (hthr : NoThrow tr)
    (hn : ∀ t1 c t2, tr = t1 ++ .closedAt c :: t2 → ∀ f k v, Obs.placed f k v ∉ t2)
    (hq : ∀ f, step s (.run f) = none) (f : Fid) (k : Nat) (op : Op V) : ¬ InCall tr f k op := by
  intro hc
  have hub' := no_ub h hub
  have hq' : ∀ f, run s f = none := fun f => by simpa [step, hub', stepOk] using hq f
  have hcl' : s.closed = true := by
    obtain ⟨sp, h1, h2⟩ := reach_sim h
    have hsi : SI sp tr := by simpa using si_run si_init h1
    rw [← h2.hc]; exact hsi.cl.2 ⟨c, hcl⟩
  have := closed_drains h hn hthr hcl' hq' f
  have h1 := inCall_pc h hc
  simp [this, opOf] at h1

/-- Two blocked consumers; `close` releases them and everybody returns. -/
example : ∃ s tr, Reach step (init : State Nat) s tr ∧ Obs.ret 1 1 (.pop none) .closed 0 ∈ tr ∧
    Obs.ret 2 1 .valuePop .threw 0 ∈ tr ∧ Obs.closedAt 3 ∈ tr ∧ (∀ f, Obs.ub f ∉ tr) ∧ NoThrow tr ∧ (∀ f k v, Obs.placed f k v ∉ tr) ∧
    ∀ f, step s (.run f) = none := by
  refine ⟨_, _, reach_of_exec (es := [.call 1 (.pop none), .run 1, .run 1, .run 1, .call 2 .valuePop, .run 2, .run 2, .run 2,
    .call 3 .close, .run 3, .run 3, .run 3, .run 3, .run 1, .run 1, .run 1, .run 2, .run 2, .run 2]) rfl,
    by decide, by decide, by decide, by simp,
    noThrow_of (by decide +kernel),
    by simp, ?_⟩
  intro g
  by_cases h3 : g = 3
  · subst h3; rfl
  · by_cases h2 : g = 2
    · subst h2; rfl
    · by_cases h1 : g = 1
      · subst h1; rfl
      · simp [step, stepOk, run, upd, h1, h2, h3, init, State.goto, State.block]

/-- **C29 is false of the code.** Fiber 1 reads `closed_` before, and publishes its slot after, another thread runs all
of `close`: the push stays blocked in the closed channel although `close` has returned and nothing can run. -/
theorem late_push_strands :
    ∃ (s : State Nat) (tr : List (Obs Nat)), Reach step init s tr ∧ Obs.ret 3 1 .close .void 0 ∈ tr ∧ s.closed = true ∧
      InCall tr 1 1 (.push 7 none) ∧ ∀ g, step s (.run g) = none ∧ step s (.timer g) = none := by
  refine ⟨_, _, reach_of_exec (es := [.call 1 (.push 7 none), .run 1, .call 3 .close, .run 3, .run 3, .run 3, .run 3,
    .run 1, .run 1]) rfl, by decide, rfl, ⟨by decide, by simp⟩, ?_⟩
  intro g
  by_cases h3 : g = 3
  · subst h3; exact ⟨rfl, rfl⟩
  · by_cases h1 : g = 1
    · subst h1; exact ⟨rfl, rfl⟩
    · simp [step, stepOk, run, upd, h1, h3, init, State.goto, State.block, sleepOf]

/-! ## C80 -/

/-- A call returns once. -/
theorem ret_unique {s : State V} {tr : List (Obs V)} (h : Reach step init s tr) {f : Fid} {k : Nat} {op op' : Op V}
    {r r' : Res V} {t t' : Nat} (h1 : Obs.ret f k op r t ∈ tr) (h2 : Obs.ret f k op' r' t' ∈ tr) : r' = r := by
  obtain ⟨sp, hr, -⟩ := reach_sim h
  have twice : ∀ (o1 o2 : Obs V) (a b c : List (Obs V)), tr = a ++ o1 :: (b ++ o2 :: c) →
      (∃ op r t, o1 = .ret f k op r t) → (∃ op r t, o2 = .ret f k op r t) → False := by
    rintro _ _ a b c rfl ⟨_, _, _, rfl⟩ ⟨_, _, _, rfl⟩
    rw [show ∀ x y : Obs V, a ++ x :: (b ++ y :: c) = (a ++ x :: b) ++ y :: c from fun x y => by simp] at hr
    obtain ⟨sp1, sp2, -, h3, h4, -, -⟩ := Spec.split hr
    simp only [Spec.next] at h4
    split at h4
    case h_2 => cases h4
    rename_i c' hc
    split at h4
    case isFalse => cases h4
    rename_i hk
    exact (h3.over _ _ _ _ _ (List.mem_append_right a (List.mem_cons_self ..))).2 _ hc hk.1
  obtain ⟨a, b, e⟩ := List.append_of_mem h1
  rw [e] at h2
  simp only [List.mem_append, List.mem_cons] at h2
  rcases h2 with h2 | h2 | h2
  · obtain ⟨a1, a2, rfl⟩ := List.append_of_mem h2
    exact (twice (.ret f k op' r' t') (.ret f k op r t) a1 a2 b (by rw [e]; simp) ⟨_, _, _, rfl⟩ ⟨_, _, _, rfl⟩).elim
  · cases h2; rfl
  · obtain ⟨b1, b2, rfl⟩ := List.append_of_mem h2
    exact (twice _ _ a b1 b2 e ⟨_, _, _, rfl⟩ ⟨_, _, _, rfl⟩).elim

/-- **C80 is false of the code, always.** Whenever a pop ends with the exception of moving the value, that value has been
taken out of the channel for good: no call ever returns it to a consumer, and the push it belongs to never returns
success. (Apart from that the channel goes on working: these executions are included in all the theorems above.) -/
theorem throwing_pop_loses_value {s : State V} {tr t1 t2 : List (Obs V)} (h : Reach step init s tr) {g : Fid} {j : Nat}
    {op : Op V} {t : Nat} (htr : tr = t1 ++ .ret g j op .failed t :: t2) :
    ∃ f k v, Obs.placed f k v ∈ t1 ∧ Obs.took g j f k ∈ t1 ∧ (∀ g' j', Obs.took g' j' f k ∈ tr → g' = g ∧ j' = j) ∧
      (∀ op' w t', Obs.ret g j op' (.popped w) t' ∉ tr) ∧ ∀ v' dl t', Obs.ret f k (.push v' dl) .pushed t' ∉ tr := by
  have hfl : Obs.ret g j op .failed t ∈ tr := by rw [htr]; simp
  obtain ⟨sp, h1, -⟩ := reach_sim h
  rw [htr] at h1
  obtain ⟨sp1, sp2, -, h3, h4, -, -⟩ := Spec.split h1
  simp only [Spec.next] at h4
  split at h4
  case h_2 => cases h4
  rename_i c hc
  split at h4
  case isFalse => cases h4
  rename_i hk
  obtain ⟨rfl, rfl⟩ := hk
  have hph : ∃ r v, c.ph = .got r v := by
    cases ho : c.op <;> simp only [Spec.ret, ho, reduceCtorEq] at h4 <;> split at h4 <;>
      first | (exact ⟨_, _, by assumption⟩) | cases h4
  obtain ⟨r, v, hph⟩ := hph
  obtain ⟨h5, h6⟩ := h3.got g c r v hc hph
  have h5' : Obs.took g c.k r.f r.k ∈ tr := by rw [htr]; simp [h5]
  have hno : ∀ op' w t', Obs.ret g c.k op' (.popped w) t' ∉ tr := fun op' w t' hm => by
    cases ret_unique h hfl hm
  refine ⟨r.f, r.k, v, h6, h5, fun g' j' hm => took_unique h h5' hm, hno, ?_⟩
  intro v' dl t' hm
  obtain ⟨a, b, e⟩ := List.append_of_mem hm
  obtain ⟨g', j', op', t'', h7, h8, -⟩ := success_means_received h e
  have h7' : Obs.took g' j' r.f r.k ∈ tr := by rw [e]; simp [h7]
  obtain ⟨h9, h10⟩ := took_unique h h5' h7'
  rw [h9, h10] at h8
  exact hno op' v' t'' (by rw [e]; simp [h8])

/-- Fiber 1 offers 7, fiber 2 takes it and its move throws; fiber 4 offers 8 and fiber 2 comes back and receives it; then
fiber 3 closes the channel. -/
def throwPop : List (Event Nat) :=
  [.call 1 (.push 7 none), .run 1, .run 1, .run 1, .call 2 (.pop none), .run 2, .run 2, .fail 2,
   .call 4 (.push 8 none), .run 4, .run 4, .run 4, .call 2 (.pop none), .run 2, .run 2, .run 2, .run 2, .run 4, .run 4,
   .call 3 .close, .run 3, .run 3, .run 3, .run 3]

/-- **C80 is false of the code.** An execution without timed calls in which a pop ends with the exception of moving the
value; afterwards the channel still hands over the values of others, but the producer of that value is blocked for ever:
even `close`, which has returned, does not release it, and nothing can run. -/
theorem throwing_pop_strands_producer :
    ∃ (s : State Nat) (tr : List (Obs Nat)), Reach step init s tr ∧ Obs.ret 2 1 (.pop none) .failed 0 ∈ tr ∧
      Obs.ret 2 2 (.pop none) (.popped 8) 0 ∈ tr ∧ Obs.ret 3 1 .close .void 0 ∈ tr ∧ s.closed = true ∧ s.ub = false ∧
      InCall tr 1 1 (.push 7 none) ∧ ∀ g, step s (.run g) = none ∧ step s (.timer g) = none ∧ step s (.fail g) = none := by
  refine ⟨_, _, reach_of_exec (es := throwPop) rfl, by decide, by decide, by decide, rfl, rfl, ⟨by decide, by simp⟩, ?_⟩
  intro g
  by_cases h4 : g = 4
  · subst h4; exact ⟨rfl, rfl, rfl⟩
  by_cases h3 : g = 3
  · subst h3; exact ⟨rfl, rfl, rfl⟩
  by_cases h2 : g = 2
  · subst h2; exact ⟨rfl, rfl, rfl⟩
  by_cases h1 : g = 1
  · subst h1; exact ⟨rfl, rfl, rfl⟩
  simp [step, stepOk, run, upd, h1, h2, h3, h4, init, State.goto, State.block, sleepOf]

end Verif.Unbuf
