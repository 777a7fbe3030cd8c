import Verif.FutureTrace

/-!
# Futures: how often a shared state is destroyed
-/

namespace Verif.Fut

variable {V E : Type}

/-- How often result `i` is destroyed in a trace. -/
def freedN (i : Sid) (tr : List (Obs V E)) : Nat :=
  tr.countP fun o => match o with | .freed j _ => j == i | _ => false

@[simp] theorem freedN_nil (i : Sid) : freedN i ([] : List (Obs V E)) = 0 := rfl
@[simp] theorem freedN_append (i : Sid) (a b : List (Obs V E)) : freedN i (a ++ b) = freedN i a + freedN i b :=
  List.countP_append ..
@[simp] theorem freedN_ret (i : Sid) (f : Fid) (op : Op V E) (j : Option Sid) (r : Res V E) (t : Nat) (l : List (Obs V E)) :
    freedN i (.ret f op j r t :: l) = freedN i l := by simp [freedN]
@[simp] theorem freedN_called (i : Sid) (f : Fid) (op : Op V E) (j : Option Sid) (l : List (Obs V E)) :
    freedN i (.called f op j :: l) = freedN i l := by simp [freedN]
@[simp] theorem freedN_stored (i j : Sid) (f : Fid) (x : Outcome V E) (l : List (Obs V E)) :
    freedN i (.stored f j x :: l) = freedN i l := by simp [freedN]
@[simp] theorem freedN_notified (i j : Sid) (f : Fid) (x : List Fid) (l : List (Obs V E)) :
    freedN i (.notified f j x :: l) = freedN i l := by simp [freedN]
@[simp] theorem freedN_ub (i j : Sid) (l : List (Obs V E)) : freedN i (.ub j :: l) = freedN i l := by simp [freedN]

theorem freedN_pos {i : Sid} {tr : List (Obs V E)} : 0 < freedN i tr ↔ ∃ b, .freed i b ∈ tr := by
  unfold freedN
  rw [List.countP_pos_iff]
  constructor
  · rintro ⟨a, ha, hp⟩
    split at hp
    · simp only [beq_iff_eq] at hp; subst hp; exact ⟨_, ha⟩
    · cases hp
  · rintro ⟨b, hb⟩; exact ⟨_, hb, by simp⟩

theorem freedN_release (s : State V E) (i j : Sid) :
    freedN i (release s j).2 + ((release s j).1.live i).toNat = (s.live i).toNat := by
  unfold release
  split
  · rename_i hl
    split
    · simp only [upd_apply]
      by_cases h : i = j
      · subst h; simp [freedN, hl]
      · have : ¬ j = i := fun e => h e.symm
        simp [freedN, h, this]
    · simp
  · simp

theorem freedN_addRef (s : State V E) (i j : Sid) :
    freedN i (addRef s j).2 = 0 ∧ (addRef s j).1.live = s.live := by
  unfold addRef
  split <;> simp

/-- One step's account: what is destroyed was there, what is new was created. -/
def Acct (s s' : State V E) (o : List (Obs V E)) : Prop :=
  ∀ i, freedN i o + (s'.live i).toNat + (if i < s.next then 1 else 0) = (s.live i).toNat + (if i < s'.next then 1 else 0)

theorem acct_of {s s' : State V E} {o : List (Obs V E)} (hn : s'.next = s.next)
    (h : ∀ i, freedN i o + (s'.live i).toNat = (s.live i).toNat) : Acct s s' o := by
  intro i; rw [hn]; have := h i; omega

theorem acct_same {s s' : State V E} {o : List (Obs V E)} (hn : s'.next = s.next) (hl : s'.live = s.live)
    (h : ∀ i, freedN i o = 0) : Acct s s' o :=
  acct_of hn fun i => by rw [hl, h i]; omega

theorem acct_new {s s' : State V E} {o : List (Obs V E)} (hc : Core s none) (hn : s'.next = s.next + 1)
    (hl : ∀ i, freedN i o + (s'.live i).toNat = (upd s.live s.next true i).toNat) : Acct s s' o := by
  intro i
  have h0 : s.live s.next = false := by
    have := (hc.frs s.next (Nat.le_refl _)).1
    have := hc.liv s.next
    rcases hl : s.live s.next with _ | _
    · rfl
    · rw [hl] at this; simp at this; omega
  have := hl i
  rw [hn]
  by_cases hi : i = s.next
  · rw [hi] at this ⊢; simp [h0] at this ⊢; omega
  · rw [upd_other _ _ hi] at this
    have h2 : (i < s.next + 1) ↔ i < s.next := by
      constructor
      · intro h; exact Nat.lt_of_le_of_ne (Nat.le_of_lt_succ h) hi
      · intro h; exact Nat.lt_succ_of_lt h
    simp only [h2]; omega

theorem acct_call {s s' : State V E} {lax : Bool} {f : Fid} {op : Op V E} {o : List (Obs V E)} (hc : Core s none)
    (hs : call lax s f op = some (s', o)) : Acct s s' o := by
  simp only [call] at hs
  split at hs
  · cases op <;> simp only [reduceCtorEq, ret, create] at hs
    all_goals (try split at hs) <;> try (simp only [reduceCtorEq] at hs; done)
    all_goals
      simp only [Option.some.injEq, Prod.mk.injEq] at hs
      obtain ⟨rfl, rfl⟩ := hs
    · exact acct_new hc rfl (by simp)
    · exact acct_new hc rfl (by simp)
    · exact acct_same rfl rfl (by simp)
  · generalize hk : op.subject = k at hs
    have hcr : ∀ (k : Hid) (i j : Sid), freedN i (release (create s k .task) j).2 +
        ((release (create s k .task) j).1.live i).toNat = (upd s.live s.next true i).toNat :=
      fun k i j => freedN_release (create s k .task) i j
    cases op <;> simp only [callOn, ret, start, discard] at hs
    all_goals (repeat' split at hs) <;> try (simp only [reduceCtorEq] at hs; done)
    all_goals
      simp only [Option.some.injEq, Prod.mk.injEq] at hs
      obtain ⟨rfl, rfl⟩ := hs
    all_goals (try (rename_i heq2; (repeat' split at heq2) <;> simp only [Option.some.injEq, Prod.mk.injEq] at heq2 <;>
      obtain ⟨rfl, rfl⟩ := heq2))
    all_goals first
      | exact acct_same rfl rfl (by simp)
      | exact acct_same (by simp) (freedN_addRef _ 0 _).2 (by simp [freedN_addRef])
      | (refine acct_of ?_ fun i => ?_
         · simp; done
         · simp [freedN_release]; done)
      | (refine acct_of ?_ fun i => ?_
         · simp; done
         · simp only [freedN_append, freedN_ret, freedN_nil, Nat.add_zero, (freedN_addRef _ i _).1, Nat.zero_add, freedN_release,
             (freedN_addRef _ i _).2])
      | (refine acct_new hc ?_ fun i => ?_
         · simp [create]
         · simp [hcr])

theorem acct_finish {s s2 s' : State V E} {f : Fid} {op : Op V E} {u : Use} {i : Sid} {r : Res V E} {q o : List (Obs V E)}
    (hs : finish s2 f op u i r q = some (s', o)) (hn : s2.next = s.next) (hl : s2.live = s.live)
    (hq : ∀ i, freedN i q = 0) : Acct s s' o := by
  cases u <;> simp only [finish, Option.some.injEq, Prod.mk.injEq] at hs <;> obtain ⟨rfl, rfl⟩ := hs
  · exact acct_same hn hl (by simp [hq])
  · refine acct_of (by simp [hn]) (by intro j; simp [hq, freedN_release, hl])

theorem acct_step {s s' : State V E} {lax : Bool} {e : Event V E} {o : List (Obs V E)} (hc : Core s none)
    (hs : step lax s e = some (s', o)) : Acct s s' o := by
  cases e with
  | call f op =>
    simp only [step] at hs
    split at hs <;> try (simp only [reduceCtorEq] at hs; done)
    split at hs
    · simp at hs
    · rename_i s2 o2 h2
      simp only [Option.some.injEq, Prod.mk.injEq] at hs
      obtain ⟨rfl, rfl⟩ := hs
      have := acct_call hc h2
      intro i; simpa using this i
  | run f =>
    simp only [step, run] at hs
    split at hs
    · simp at hs
    · split at hs
      · unfold runLive at hs
        repeat' split at hs
        all_goals first
          | (simp only [reduceCtorEq] at hs; done)
          | exact acct_finish hs rfl rfl (by simp)
          | (simp only [Option.some.injEq, Prod.mk.injEq] at hs
             obtain ⟨rfl, rfl⟩ := hs
             exact acct_same rfl rfl (by simp))
      · simp only [Option.some.injEq, Prod.mk.injEq] at hs
        obtain ⟨rfl, rfl⟩ := hs
        exact acct_same rfl rfl (by simp)
  | timer f =>
    simp only [step] at hs
    repeat' split at hs
    all_goals try (simp only [reduceCtorEq] at hs; done)
    simp only [Option.some.injEq, Prod.mk.injEq] at hs
    obtain ⟨rfl, rfl⟩ := hs
    exact acct_same rfl rfl (by simp)
  | tick n =>
    simp only [step, Option.some.injEq, Prod.mk.injEq] at hs
    obtain ⟨rfl, rfl⟩ := hs
    exact acct_same rfl rfl (by simp)
  | elsewhere f n =>
    simp only [step] at hs
    split at hs <;> try (simp only [reduceCtorEq] at hs; done)
    simp only [Option.some.injEq, Prod.mk.injEq] at hs
    obtain ⟨rfl, rfl⟩ := hs
    exact acct_same rfl rfl (by simp)

/-- Every created result is either still there or has been destroyed once. -/
theorem reach_freed {s : State V E} {tr : List (Obs V E)} (h : Reach (step false) init s tr) (i : Sid) :
    freedN i tr + (s.live i).toNat = if i < s.next then 1 else 0 := by
  refine Reach.inv (fun s tr => freedN i tr + (s.live i).toNat = if i < s.next then 1 else 0) ?_ ?_ h
  · simp [init]
  · intro s tr e s' o hr ih hs
    have := acct_step (reach_core hr) hs i
    simp only [freedN_append] at *
    omega

end Verif.Fut
