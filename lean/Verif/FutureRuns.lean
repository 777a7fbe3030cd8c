import Verif.FutureSpec

/-!
# Futures: reading off the specification what a trace can contain
-/

namespace Verif.Fut

variable {V E : Type}

theorem Spec.Runs.split {sp sp2 : Spec V E} {a b : List (Obs V E)} (h : Spec.Runs sp (a ++ b) sp2) :
    ∃ sp1, Spec.Runs sp a sp1 ∧ Spec.Runs sp1 b sp2 := by
  generalize hl : a ++ b = l at h
  induction h generalizing b with
  | nil => simp only [List.append_eq_nil_iff] at hl; obtain ⟨rfl, rfl⟩ := hl; exact ⟨_, .nil _, .nil _⟩
  | snoc hr hn ih =>
    rcases List.eq_nil_or_concat b with rfl | ⟨b', x, rfl⟩
    · simp only [List.append_nil] at hl; subst hl; exact ⟨_, .snoc hr hn, .nil _⟩
    · rw [List.concat_eq_append, ← List.append_assoc] at hl
      obtain ⟨h1, h2⟩ := List.append_inj' hl rfl
      obtain ⟨sp1, h3, h4⟩ := ih h1
      simp only [List.cons.injEq, and_true] at h2
      subst h2
      exact ⟨sp1, h3, by rw [List.concat_eq_append]; exact .snoc h4 hn⟩

theorem Spec.Runs.one {sp sp2 : Spec V E} {o : Obs V E} (h : Spec.Runs sp [o] sp2) : Spec.Next sp o sp2 := by
  generalize hl : [o] = l at h
  cases h with
  | nil => cases hl
  | snoc hr hn =>
    rename_i tr x
    have : tr = [] ∧ x = o := by
      cases tr with
      | nil => simp at hl; exact ⟨rfl, hl.symm⟩
      | cons _ tl => have := congrArg List.length hl; simp at this
    obtain ⟨rfl, rfl⟩ := this
    generalize hl2 : ([] : List (Obs V E)) = l2 at hr
    cases hr with
    | nil => exact hn
    | snoc => have := congrArg List.length hl2; simp at this

theorem Spec.Runs.cons {sp sp2 : Spec V E} {o : Obs V E} {b : List (Obs V E)} (h : Spec.Runs sp (o :: b) sp2) :
    ∃ sp1, Spec.Next sp o sp1 ∧ Spec.Runs sp1 b sp2 := by
  obtain ⟨sp1, h1, h2⟩ := Spec.Runs.split (a := [o]) (b := b) h
  exact ⟨sp1, h1.one, h2⟩

/-- How often result `i` is made ready in a trace. -/
def storedN (i : Sid) (tr : List (Obs V E)) : Nat :=
  tr.countP fun o => match o with | .stored _ j _ => j == i | _ => false

theorem storedN_append (i : Sid) (a b : List (Obs V E)) : storedN i (a ++ b) = storedN i a + storedN i b :=
  List.countP_append ..

/-- The result is ready in the specification iff it was made ready in the trace, once. -/
theorem runs_res {sp : Spec V E} {tr : List (Obs V E)} (h : Spec.Runs Spec.init tr sp) (i : Sid) :
    (∀ out, sp.res i = some out ↔ ∃ f, .stored f i out ∈ tr) ∧ storedN i tr = if (sp.res i).isSome then 1 else 0 := by
  generalize h0 : Spec.init = sp0 at h
  induction h with
  | nil => subst h0; simp [Spec.init, storedN]
  | snoc hr hn ih =>
    obtain ⟨ih1, ih2⟩ := ih
    cases hn with
    | called | notified | ret | freed => exact ⟨by simpa using ih1, by simpa [storedN] using ih2⟩
    | stored f j out op hc hp hr0 =>
      refine ⟨?_, ?_⟩
      · intro o
        simp only [List.mem_append, List.mem_singleton, Obs.stored.injEq, upd_apply]
        by_cases hij : i = j
        · subst hij
          simp only [if_true, Option.some.injEq]
          constructor
          · rintro rfl; exact ⟨f, .inr ⟨rfl, trivial, rfl⟩⟩
          · rintro ⟨g, hg | hg⟩
            · have := (ih1 o).2 ⟨g, hg⟩; rw [hr0] at this; cases this
            · exact hg.2.2.symm
        · simp only [if_neg hij, ih1]
          constructor
          · rintro ⟨g, hg⟩; exact ⟨g, .inl hg⟩
          · rintro ⟨g, hg | hg⟩
            · exact ⟨g, hg⟩
            · exact absurd hg.2.1 hij
      · rw [storedN_append, ih2]
        simp only [upd_apply]
        by_cases hij : i = j
        · subst hij; simp [hr0, storedN]
        · have : ¬ j = i := fun e => hij e.symm
          simp [hij, storedN, this]

/-- Nothing in `m` begins or ends a call of `f`: `m` lies inside one call of `f`. -/
def within (f : Fid) (m : List (Obs V E)) : Prop :=
  ∀ x ∈ m, (∀ op i, x ≠ .called f op i) ∧ ∀ op i r t, x ≠ .ret f op i r t

theorem runs_within {sp sp' : Spec V E} {f : Fid} {op : Op V E} {i : Option Sid} {d : Bool} {m : List (Obs V E)}
    (h : Spec.Runs sp m sp') (hw : within f m) (hc : sp.inCall f = some ⟨op, i, d⟩) :
    ∃ d', sp'.inCall f = some ⟨op, i, d'⟩ ∧ (d' = true ↔ d = true ∨ ∃ j out, .stored f j out ∈ m) ∧
      ∀ j out, .stored f j out ∈ m → i = some j ∧ produces op = some out := by
  induction h with
  | nil => exact ⟨d, hc, by simp, by simp⟩
  | snoc hr hn ih =>
    obtain ⟨d', h1, h2, h3⟩ := ih (fun x hx => hw x (List.mem_append_left _ hx))
    have hx := hw _ (List.mem_append_right _ (List.mem_singleton.2 rfl))
    cases hn with
    | called g _ _ h =>
      have hg : f ≠ g := by rintro rfl; exact hx.1 _ _ rfl
      exact ⟨d', by simp [upd_other _ _ hg, h1], by simpa using h2, by simpa using h3⟩
    | notified | freed => exact ⟨d', h1, by simpa using h2, by simpa using h3⟩
    | ret g c r t hc' ha =>
      have hg : f ≠ g := by rintro rfl; exact hx.2 _ _ _ _ rfl
      exact ⟨d', by simp [upd_other _ _ hg, h1], by simpa using h2, by simpa using h3⟩
    | stored g j out op' hc' hp' hr' =>
      by_cases hg : f = g
      · subst hg
        rw [h1] at hc'
        simp only [Option.some.injEq, Call.mk.injEq] at hc'
        obtain ⟨rfl, rfl, rfl⟩ := hc'
        refine ⟨true, by simp, ?_, ?_⟩
        · simp only [true_iff]; exact .inr ⟨j, out, by simp⟩
        · intro j' out' hm
          simp only [List.mem_append, List.mem_singleton, Obs.stored.injEq, true_and] at hm
          rcases hm with hm | ⟨rfl, rfl⟩
          · exact h3 _ _ hm
          · exact ⟨rfl, hp'⟩
      · have hg' : ¬ g = f := fun e => hg e.symm
        refine ⟨d', by simp [upd_other _ _ hg, h1], ?_, ?_⟩
        · simpa [hg] using h2
        · simpa [hg] using h3

/-- One complete call of `f` in a trace: which call it was, what it did and what it was allowed to return. -/
theorem runs_call {sp : Spec V E} {f : Fid} {op op' : Op V E} {i j : Option Sid} {r : Res V E} {t : Nat}
    {a m b : List (Obs V E)} (h : Spec.Runs Spec.init (a ++ .called f op i :: (m ++ .ret f op' j r t :: b)) sp)
    (hw : within f m) :
    op' = op ∧ j = i ∧ ∃ sp1 d, Spec.Runs Spec.init (a ++ .called f op i :: m) sp1 ∧
      (d = true ↔ ∃ j out, .stored f j out ∈ m) ∧ (∀ j out, .stored f j out ∈ m → i = some j ∧ produces op = some out) ∧
      sp1.allowed ⟨op, i, d⟩ r t := by
  obtain ⟨spa, ha, h⟩ := h.split
  obtain ⟨spc, hn, h⟩ := h.cons
  obtain ⟨spm, hm, h⟩ := h.split
  obtain ⟨spr, hret, -⟩ := h.cons
  have hin : spc.inCall f = some ⟨op, i, false⟩ := by cases hn; simp
  obtain ⟨d, h1, h2, h3⟩ := runs_within hm hw hin
  have hrun : Spec.Runs Spec.init (a ++ .called f op i :: m) spm := by
    rw [show a ++ .called f op i :: m = (a ++ [.called f op i]) ++ m by simp]
    exact (Spec.Runs.snoc ha hn).append hm
  have h2' : d = true ↔ ∃ j out, .stored f j out ∈ m := by simpa using h2
  clear * - hret h1 h2' h3 hrun
  generalize ho : Obs.ret f op' j r t = o at hret
  cases hret with
  | ret g c r' t' hc ha' =>
    simp only [Obs.ret.injEq] at ho
    obtain ⟨rfl, rfl, rfl, rfl, rfl⟩ := ho
    rw [h1] at hc
    simp only [Option.some.injEq] at hc
    subst hc
    exact ⟨rfl, rfl, spm, d, hrun, h2', h3, ha'⟩
  | _ => cases ho

/-- A `ret` event alone: the call it ends was allowed to return that. -/
theorem runs_ret {sp : Spec V E} {f : Fid} {op : Op V E} {i : Option Sid} {r : Res V E} {t : Nat}
    {a b : List (Obs V E)} (h : Spec.Runs Spec.init (a ++ .ret f op i r t :: b) sp) :
    ∃ sp1 d, Spec.Runs Spec.init a sp1 ∧ sp1.allowed ⟨op, i, d⟩ r t := by
  obtain ⟨spa, ha, h⟩ := h.split
  obtain ⟨spr, hret, -⟩ := h.cons
  generalize ho : Obs.ret f op i r t = o at hret
  cases hret with
  | ret g c r' t' hc ha' =>
    simp only [Obs.ret.injEq] at ho
    obtain ⟨rfl, rfl, rfl, rfl, rfl⟩ := ho
    exact ⟨spa, c.did, ha, ha'⟩
  | _ => cases ho

/-- Who made a result ready: a call about that result which produces exactly that outcome. -/
theorem runs_stored {sp : Spec V E} {f : Fid} {i : Sid} {out : Outcome V E} {tr : List (Obs V E)}
    (h : Spec.Runs Spec.init tr sp) (hm : .stored f i out ∈ tr) :
    ∃ op, .called f op (some i) ∈ tr ∧ produces op = some out := by
  have key : ∀ {sp : Spec V E} {tr : List (Obs V E)}, Spec.Runs Spec.init tr sp →
      ∀ f c, sp.inCall f = some c → .called f c.op c.sid ∈ tr := by
    intro sp tr h
    generalize h0 : Spec.init = sp0 at h
    induction h with
    | nil => subst h0; simp [Spec.init]
    | snoc hr hn ih =>
      intro g c hc
      cases hn with
      | called f' op' i' hi' =>
        simp only [upd_apply] at hc
        split at hc
        · subst_vars; simp only [Option.some.injEq] at hc; subst hc; simp
        · simp [ih g c hc]
      | stored f' j' out' op' hc' hp' hr' =>
        simp only [upd_apply] at hc
        split at hc
        · subst_vars; simp only [Option.some.injEq] at hc; subst hc
          simp [ih _ _ hc']
        · simp [ih g c hc]
      | notified | freed => simp [ih g c hc]
      | ret f' c' r' t' hc' ha' =>
        simp only [upd_apply] at hc
        split at hc
        · cases hc
        · simp [ih g c hc]
  obtain ⟨a, b, rfl⟩ := List.append_of_mem hm
  obtain ⟨spa, ha, h⟩ := h.split
  obtain ⟨spr, hn, -⟩ := h.cons
  cases hn with
  | stored _ _ _ op hc hp hr =>
    exact ⟨op, List.mem_append_left _ (key ha _ _ hc), hp⟩

/-- How often the future of result `i` is handed out in a trace. -/
def retrievedN (i : Sid) (tr : List (Obs V E)) : Nat :=
  tr.countP fun o => match o with | .ret _ (.getFuture _ _) (some j) .ok _ => j == i | _ => false

theorem retrievedN_append (i : Sid) (a b : List (Obs V E)) : retrievedN i (a ++ b) = retrievedN i a + retrievedN i b :=
  List.countP_append ..

theorem runs_got {sp : Spec V E} {tr : List (Obs V E)} (h : Spec.Runs Spec.init tr sp) (i : Sid) :
    retrievedN i tr = if sp.got i then 1 else 0 := by
  generalize h0 : Spec.init = sp0 at h
  induction h with
  | nil => subst h0; simp [Spec.init, retrievedN]
  | snoc hr hn ih =>
    rw [retrievedN_append, ih]
    cases hn with
    | called | notified | stored | freed => simp [retrievedN]
    | ret f c r t hc ha =>
      obtain ⟨op, j, d⟩ := c
      by_cases hg : ∃ h h' j', op = .getFuture h h' ∧ j = some j' ∧ r = .ok
      · obtain ⟨h, h', j', rfl, rfl, rfl⟩ := hg
        simp only [Spec.allowed, reduceCtorEq, false_and, or_false, true_and] at ha
        simp only [gotAfter, upd_apply]
        by_cases hij : i = j'
        · subst hij; simp [ha, retrievedN]
        · have : ¬ j' = i := fun e => hij e.symm
          simp [hij, retrievedN, this]
      · have h2 : ∀ got : Sid → Bool, gotAfter got op j r = got := by
          intro got; unfold gotAfter; split
          · exact absurd ⟨_, _, _, rfl, rfl, rfl⟩ hg
          · rfl
        rw [h2]
        have h3 : retrievedN i [Obs.ret f op j r t] = 0 := by
          simp only [retrievedN, List.countP_eq_zero, List.mem_singleton]
          rintro x rfl
          split
          · rename_i heq; simp only [Obs.ret.injEq] at heq
            obtain ⟨-, rfl, rfl, rfl, -⟩ := heq
            exact absurd ⟨_, _, _, rfl, rfl, rfl⟩ hg
          · simp
        rw [h3, Nat.add_zero]

end Verif.Fut
