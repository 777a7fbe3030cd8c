import Verif.Fair
import Verif.Props.BufferedChannel

/-!
# Fair infinite executions of the buffered channel

The machine is `Verif.BufCh` (`include/boost/fiber/buffered_channel.hpp`). Calls without a deadline; the fibers of a list `L` use the
channel.
-/

namespace Verif.BufCh

variable {V : Type} [DecidableEq V]

def Obs.isCall (f : Fid) : Obs V → Bool
  | .called g _ => decide (g = f)
  | _ => false

def Obs.isRet (f : Fid) : Obs V → Bool
  | .ret g _ _ _ _ => decide (g = f)
  | _ => false

/-- Number of calls the fiber has made. -/
def callsOf (f : Fid) (tr : List (Obs V)) : Nat := tr.countP (Obs.isCall f)

/-- Number of its calls that have returned. -/
def retsOf (f : Fid) (tr : List (Obs V)) : Nat := tr.countP (Obs.isRet f)

theorem callsOf_append (f : Fid) (t t' : List (Obs V)) : callsOf f (t ++ t') = callsOf f t + callsOf f t' := by
  simp [callsOf]

theorem retsOf_append (f : Fid) (t t' : List (Obs V)) : retsOf f (t ++ t') = retsOf f t + retsOf f t' := by
  simp [retsOf]

def busyPc : Pc V → Nat
  | .idle => 0
  | _ => 1

structure J (L : List Fid) (s : State V) (tr : List (Obs V)) : Prop where
  out : ∀ f, f ∉ L → s.pc f = .idle
  ut : ∀ f op, opOf (s.pc f) = some op → op.dl = none
  rets : ∀ f, callsOf f tr = retsOf f tr + busyPc (s.pc f)

theorem J_init {L : List Fid} {cap : Nat} : J L (init cap : State V) [] := by
  constructor <;> simp [init, opOf, callsOf, retsOf, busyPc]

/-- A critical section that does not suspend ends the call. -/
theorem apply_ends (s : State V) (f : Fid) (op : Op V) {x : Out V} (hx : x ≠ .block) :
    (apply s f op x).1.pc = upd s.pc f .idle ∧ ∃ r w, (apply s f op x).2 = [.ret f op r w s.now] := by
  cases x <;> simp [apply] at hx ⊢

theorem apply_block (s : State V) (f : Fid) {op : Op V} {i : Side} (hi : op.side = some i) :
    apply s f op .block = ({ s with c := (enqueue s.c (s.q i) f).1, q := updQ s.q i (enqueue s.c (s.q i) f).2, pc := upd s.pc f (.waiting op (s.c.epoch f + 1)) }, [.blocks f]) := by
  simp [apply, hi]

theorem wake_ready (c : Ctxs) (w : Waker) {g : Fid} (h : c.ready g = true) : (wake c w).1.ready g = true := by
  simp only [wake]; split
  · simp only [upd_apply]; split <;> simp [h]
  · exact h

theorem notifyOne_ready (q : List Waker) : ∀ (c : Ctxs) {g : Fid}, c.ready g = true → (notifyOne c q).1.ready g = true := by
  induction q with
  | nil => intro c g h; exact h
  | cons w ws ih =>
    intro c g h
    simp only [notifyOne]
    split
    · exact wake_ready c w h
    · exact ih _ (wake_ready c w h)

theorem notifyAll_ready (q : List Waker) : ∀ (c : Ctxs) {g : Fid}, c.ready g = true → (notifyAll c q).1.ready g = true := by
  induction q with
  | nil => intro c g h; exact h
  | cons w ws ih =>
    intro c g h
    simp only [notifyAll]
    exact ih _ (wake_ready c w h)

/-- Whoever has been scheduled stays so. -/
theorem apply_ready (s : State V) (f : Fid) (op : Op V) {x : Out V} {g : Fid} (h : s.c.ready g = true) :
    (apply s f op x).1.c.ready g = true := by
  cases x with
  | ret r => exact h
  | put v => exact notifyOne_ready _ _ h
  | take => exact notifyOne_ready _ _ h
  | block =>
    simp only [apply]
    split
    · exact h
    · exact h
  | close => exact notifyAll_ready _ _ (notifyAll_ready _ _ h)

/-- What a step does to the places of the fibers. -/
inductive Move (s s' : State V) (o : List (Obs V)) : Event V → Prop
  | call (f : Fid) (op : Op V) (hp : s.pc f = .idle) (h : s'.pc = upd s.pc f (.entry op)) (ho : o = [.called f op])
      (hr : s'.c.ready = s.c.ready) : Move s s' o (.call f op)
  | ends (e : Event V) (f : Fid) (op : Op V) (hp : s.pc f = .entry op ∨ ∃ ep, s.pc f = .unlink op ep) (h : s'.pc = upd s.pc f .idle) (r : Res V) (w : List Fid)
      (ho : o = [.ret f op r w s.now]) (he : e = .run f ∨ e = .fail f) (hr : ∀ g, s.c.ready g = true → s'.c.ready g = true) : Move s s' o e
  | blocks (f : Fid) (op : Op V) (ep : Nat) (hp : s.pc f = .entry op) (h : s'.pc = upd s.pc f (.waiting op ep)) (ho : o = [.blocks f])
      (hr : s'.c.ready = s.c.ready) : Move s s' o (.run f)
  | wakes (f : Fid) (op : Op V) (ep : Nat) (hp : s.pc f = .waiting op ep) (p : Pc V) (h : s'.pc = upd s.pc f p) (hpp : p = .entry op ∨ (p = .unlink op ep ∧ op.dl ≠ none))
      (hlate : ∀ d, op.dl = some d → d ≤ s.now → p = .unlink op ep) (ho : o = [])
      (hw : s.c.ready f = true) (hr : s'.c.ready = upd s.c.ready f false) : Move s s' o (.run f)
  | timer (f : Fid) (op : Op V) (ep : Nat) (hp : s.pc f = .waiting op ep) (hd : op.dl ≠ none) (h : s'.pc = s.pc) (ho : ∀ g, callsOf g o = 0 ∧ retsOf g o = 0)
      (hr : ∀ g, s.c.ready g = true → s'.c.ready g = true) (hrf : s'.c.ready f = true) :
      Move s s' o (.timer f)
  | other (e : Event V) (h : s'.pc = s.pc) (ho : o = []) (hr : s'.c.ready = s.c.ready) (he : (∃ n, e = .tick n) ∨ ∃ f n, e = .elsewhere f n) : Move s s' o e

theorem move {s s' : State V} {o : List (Obs V)} {e : Event V} (hi : Inv s) (hs : step s e = some (s', o)) : Move s s' o e := by
  cases e with
  | call f op =>
    simp only [step] at hs
    split at hs <;> simp only [Option.some.injEq, Prod.mk.injEq, reduceCtorEq] at hs
    rename_i hp; obtain ⟨rfl, rfl⟩ := hs
    exact .call f op hp rfl rfl rfl
  | run f =>
    simp only [step, run] at hs
    split at hs
    · cases hs
    · rename_i op hp
      simp only [Option.some.injEq] at hs
      by_cases hb : cs s op = .block
      · obtain ⟨i, hsd⟩ := cs_block hb
        rw [hb, apply_block s f hsd] at hs
        simp only [Prod.mk.injEq] at hs; obtain ⟨rfl, rfl⟩ := hs
        exact .blocks f op _ hp rfl rfl rfl
      · obtain ⟨h1, r, w, h2⟩ := apply_ends s f op hb
        rw [hs] at h1 h2
        exact .ends _ f op (.inl hp) h1 r w h2 (.inl rfl) (fun g hg => by have := apply_ready s f op (x := cs s op) hg; rwa [hs] at this)
    · rename_i op ep hp
      split at hs
      · rename_i hr
        split at hs
        · simp only [Option.some.injEq, Prod.mk.injEq] at hs; obtain ⟨rfl, rfl⟩ := hs
          rename_i hd
          exact .wakes f op ep hp _ rfl (.inl rfl) (fun d hd' => by rw [hd] at hd'; cases hd') rfl hr rfl
        · rename_i d hd
          split at hs <;> rename_i hn <;> simp only [Option.some.injEq, Prod.mk.injEq] at hs <;> obtain ⟨rfl, rfl⟩ := hs
          · exact .wakes f op ep hp _ rfl (.inl rfl) (fun d' hd' hle => by rw [hd] at hd'; cases hd'; omega) rfl hr rfl
          · exact .wakes f op ep hp _ rfl (.inr ⟨rfl, by simp [hd]⟩) (fun _ _ _ => rfl) rfl hr rfl
      · cases hs
    · rename_i op ep hp
      split at hs
      · cases hs
      · simp only [Option.some.injEq, Prod.mk.injEq] at hs; obtain ⟨rfl, rfl⟩ := hs
        exact .ends _ f op (.inr ⟨ep, hp⟩) rfl _ _ rfl (.inl rfl) (fun _ h => h)
  | fail f =>
    simp only [step, runFail] at hs
    split at hs
    · rename_i op hp
      split at hs
      all_goals first
        | cases hs; done
        | (simp only [Option.some.injEq, Prod.mk.injEq] at hs; obtain ⟨rfl, rfl⟩ := hs
           exact .ends _ f op (.inl hp) rfl _ _ rfl (.inr rfl) (fun _ h => h))
    · cases hs
  | timer f =>
    simp only [step] at hs
    split at hs
    · rename_i op ep hp
      split at hs
      · rename_i d hd
        split at hs
        · simp only [Option.some.injEq, Prod.mk.injEq] at hs
          obtain ⟨rfl, rfl⟩ := hs
          exact .timer f op ep hp (by simp [hd]) rfl (by intro g; split <;> simp [callsOf, retsOf, Obs.isCall, Obs.isRet])
            (fun g hg => wake_ready _ _ hg) (by
              obtain ⟨i, hsd⟩ := hi.sd f op ep (.inl hp)
              have hreg : regOf (s.pc f) = some ⟨i, ep, op.dl, false⟩ := by simp [hp, regOf, hsd]
              by_cases hep : s.c.epoch f = ep
              · simp [wake, hep]
              · refine wake_ready _ _ ?_
                have hb := hi.w.bound (f := f) hreg
                exact (hi.w.ready_iff (f := f) hreg rfl).2 (by simp only at hb ⊢; omega))
        · cases hs
      · cases hs
    · cases hs
  | tick n =>
    simp only [step, Option.some.injEq, Prod.mk.injEq] at hs; obtain ⟨rfl, rfl⟩ := hs
    exact .other _ rfl rfl rfl (.inl ⟨_, rfl⟩)
  | elsewhere f n =>
    simp only [step] at hs
    split at hs <;> simp only [Option.some.injEq, Prod.mk.injEq, reduceCtorEq] at hs
    obtain ⟨rfl, rfl⟩ := hs
    exact .other _ rfl rfl rfl (.inr ⟨_, _, rfl⟩)

theorem J_step {L : List Fid} {s s' : State V} {tr o : List (Obs V)} {e : Event V} (hi : Inv s) (h : J L s tr) (hs : step s e = some (s', o))
    (hc : ∀ f op, Obs.called f op ∈ o → f ∈ L ∧ op.dl = none) : J L s' (tr ++ o) := by
  obtain ⟨out, ut, rets⟩ := h
  have hm := move hi hs
  clear hs
  cases hm with
  | call f op hp h ho hr =>
    subst ho
    have hcf := hc f op (by simp)
    refine ⟨?_, ?_, ?_⟩
    · intro g hg; rw [h]; simp only [upd_apply]; split
      · subst_vars; exact absurd hcf.1 hg
      · exact out g hg
    · intro g op'; rw [h]; simp only [upd_apply]; split
      · simp only [opOf, Option.some.injEq]; rintro rfl; exact hcf.2
      · exact ut g op'
    · intro g; have := rets g; rw [h, callsOf_append, retsOf_append]; simp only [upd_apply]; split
      · subst_vars; simp [callsOf, retsOf, Obs.isCall, Obs.isRet, busyPc, hp] at *; omega
      · rename_i hg; simp [callsOf, retsOf, Obs.isCall, Obs.isRet, Ne.symm hg] at *; omega
  | ends _ f op hp h r w ho he _ =>
    subst ho
    refine ⟨?_, ?_, ?_⟩
    · intro g hg; rw [h]; simp only [upd_apply]; split
      · rfl
      · exact out g hg
    · intro g op'; rw [h]; simp only [upd_apply]; split
      · simp [opOf]
      · exact ut g op'
    · intro g; have := rets g; rw [h, callsOf_append, retsOf_append]; simp only [upd_apply]; split
      · subst_vars
        rcases hp with hp | ⟨ep, hp⟩ <;> simp [callsOf, retsOf, Obs.isCall, Obs.isRet, busyPc, hp] at * <;> omega
      · rename_i hg; simp [callsOf, retsOf, Obs.isCall, Obs.isRet, Ne.symm hg] at *; omega
  | blocks f op ep hp h ho hr =>
    subst ho
    refine ⟨?_, ?_, ?_⟩
    · intro g hg; rw [h]; simp only [upd_apply]; split
      · subst_vars; rw [out _ hg] at hp; cases hp
      · exact out g hg
    · intro g op'; rw [h]; simp only [upd_apply]; split
      · subst_vars; simp only [opOf, Option.some.injEq]; rintro rfl; exact ut _ _ (by rw [hp]; rfl)
      · exact ut g op'
    · intro g; have := rets g; rw [h, callsOf_append, retsOf_append]; simp only [upd_apply]; split
      · subst_vars; simp [callsOf, retsOf, Obs.isCall, Obs.isRet, busyPc, hp] at *; omega
      · rename_i hg; simp [callsOf, retsOf, Obs.isCall, Obs.isRet] at *; omega
  | wakes f op ep hp p h hpp _ ho hw hr =>
    subst ho
    have hdl := ut f op (by rw [hp]; rfl)
    have hpp' : p = .entry op := by
      rcases hpp with hpp | ⟨_, hpp⟩
      · exact hpp
      · exact absurd hdl hpp
    subst hpp'
    refine ⟨?_, ?_, ?_⟩
    · intro g hg; rw [h]; simp only [upd_apply]; split
      · subst_vars; rw [out _ hg] at hp; cases hp
      · exact out g hg
    · intro g op'; rw [h]; simp only [upd_apply]; split
      · simp only [opOf, Option.some.injEq]; rintro rfl; exact hdl
      · exact ut g op'
    · intro g; have := rets g; rw [h, callsOf_append, retsOf_append]; simp only [upd_apply]; split
      · subst_vars; simp [callsOf, retsOf, busyPc, hp] at *; omega
      · rename_i hg; simp [callsOf, retsOf] at *; omega
  | timer f op ep hp hd h ho _ _ => exact absurd (ut f op (by rw [hp]; rfl)) hd
  | other _ h ho hr he =>
    subst ho
    simp only [List.append_nil]
    exact ⟨by rw [h]; exact out, by rw [h]; exact ut, by rw [h]; exact rets⟩

/-! ## Progress -/

def w (p : Pc V) (ready : Bool) : Nat :=
  match p with
  | .idle => 0
  | .entry _ => 2
  | .waiting _ _ => if ready then 3 else 1
  | .unlink _ _ => 1

/-- The calls that may still be made and may still return, weighted, plus the steps of those under way. -/
def meas (k : Nat) (L : List Fid) (s : State V) (tr : List (Obs V)) : Nat :=
  lsum L fun g => 3 * (k - callsOf g tr) + (2 * L.length + 1) * (k - retsOf g tr) + w (s.pc g) (s.c.ready g)

theorem meas_step {k : Nat} {L : List Fid} (hL : L.Nodup) {s s' : State V} {tr o : List (Obs V)} {e : Event V}
    (hi : Inv s) (h : J L s tr) (hs : step s e = some (s', o)) (hc : ∀ f op, Obs.called f op ∈ o → f ∈ L ∧ op.dl = none)
    (hk : ∀ f ∈ L, callsOf f (tr ++ o) ≤ k) (he : ¬ ((∃ n, e = .tick n) ∨ ∃ f n, e = .elsewhere f n)) : meas k L s' (tr ++ o) < meas k L s tr := by
  have hJ' := J_step hi h hs hc
  have hm := move hi hs
  have hoff : ∀ f, regOf (s.pc f) = none → s.c.ready f = false := hi.w.off
  have hfL : ∀ f, s.pc f ≠ .idle → f ∈ L := fun f hp => Classical.byContradiction fun hn => hp (h.out f hn)
  clear hs
  cases hm with
  | call f op hp h1 ho hr =>
    subst ho
    have hf := (hc f op (by simp)).1
    have hkf := hk f hf
    have := lsum_one hL (f := fun g => 3 * (k - callsOf g (tr ++ [.called f op])) + (2 * L.length + 1) * (k - retsOf g (tr ++ [.called f op])) + w (s'.pc g) (s'.c.ready g))
      (g := fun g => 3 * (k - callsOf g tr) + (2 * L.length + 1) * (k - retsOf g tr) + w (s.pc g) (s.c.ready g)) hf (fun g _ hgf => by
        rw [h1, hr]; simp [callsOf_append, retsOf_append, callsOf, retsOf, Obs.isCall, Obs.isRet, hgf, Ne.symm hgf])
    have e1 : callsOf f (tr ++ [.called f op]) = callsOf f tr + 1 := by simp [callsOf, Obs.isCall]
    have e2 : retsOf f (tr ++ [.called f op]) = retsOf f tr := by simp [retsOf, Obs.isRet]
    have e3 : w (s'.pc f) (s'.c.ready f) = 2 := by rw [h1]; simp [w]
    have e4 : w (s.pc f) (s.c.ready f) = 0 := by rw [hp]; rfl
    rw [e1] at hkf
    simp only [e1, e2, e3, e4] at this
    simp only [meas]
    omega
  | ends _ f op hp h1 r wk ho he' _ =>
    subst ho
    have hf := hfL f (by rcases hp with hp | ⟨_, hp⟩ <;> simp [hp])
    have hkf := hk f hf
    have hr0 := hJ'.rets f
    have := lsum_one_le hL (c := 2) (f := fun g => 3 * (k - callsOf g (tr ++ [.ret f op r wk s.now])) + (2 * L.length + 1) * (k - retsOf g (tr ++ [.ret f op r wk s.now])) + w (s'.pc g) (s'.c.ready g))
      (g := fun g => 3 * (k - callsOf g tr) + (2 * L.length + 1) * (k - retsOf g tr) + w (s.pc g) (s.c.ready g)) hf (fun g _ hgf => by
        have a1 : callsOf g (tr ++ [.ret f op r wk s.now]) = callsOf g tr := by simp [callsOf, Obs.isCall]
        have a2 : retsOf g (tr ++ [.ret f op r wk s.now]) = retsOf g tr := by simp [retsOf, Obs.isRet, Ne.symm hgf]
        have a3 : w (s'.pc g) (s'.c.ready g) ≤ w (s.pc g) (s.c.ready g) + 2 := by
          rw [h1, upd_other s.pc Pc.idle hgf]
          unfold w; split <;> (try omega)
          split <;> split <;> omega
        rw [a1, a2]; omega)
    have e1 : callsOf f (tr ++ [.ret f op r wk s.now]) = callsOf f tr := by simp [callsOf, Obs.isCall]
    have e2 : retsOf f (tr ++ [.ret f op r wk s.now]) = retsOf f tr + 1 := by simp [retsOf, Obs.isRet]
    have e3 : w (s'.pc f) (s'.c.ready f) = 0 := by rw [h1]; simp [w]
    rw [e1] at hkf
    rw [e1, e2] at hr0
    simp only [e1, e2, e3] at this
    have e5 : k - retsOf f tr = (k - (retsOf f tr + 1)) + 1 := by omega
    rw [e5, Nat.mul_add] at this
    simp only [meas]
    omega
  | blocks f op ep hp h1 ho hr =>
    subst ho
    have hf := hfL f (by simp [hp])
    have := lsum_one hL (f := fun g => 3 * (k - callsOf g (tr ++ [.blocks f])) + (2 * L.length + 1) * (k - retsOf g (tr ++ [.blocks f])) + w (s'.pc g) (s'.c.ready g))
      (g := fun g => 3 * (k - callsOf g tr) + (2 * L.length + 1) * (k - retsOf g tr) + w (s.pc g) (s.c.ready g)) hf (fun g _ hgf => by
        rw [h1, hr]; simp [callsOf_append, retsOf_append, callsOf, retsOf, Obs.isCall, Obs.isRet, hgf])
    have e1 : callsOf f (tr ++ [.blocks f]) = callsOf f tr := by simp [callsOf, Obs.isCall]
    have e2 : retsOf f (tr ++ [.blocks f]) = retsOf f tr := by simp [retsOf, Obs.isRet]
    have e3 : w (s'.pc f) (s'.c.ready f) = 1 := by rw [h1, hr, hoff f (by simp [hp, regOf])]; simp [w]
    have e4 : w (s.pc f) (s.c.ready f) = 2 := by rw [hp]; rfl
    simp only [e1, e2, e3, e4] at this
    simp only [meas]
    omega
  | wakes f op ep hp p h1 hpp _ ho hw hr =>
    subst ho
    have hf := hfL f (by simp [hp])
    have := lsum_one hL (f := fun g => 3 * (k - callsOf g (tr ++ [])) + (2 * L.length + 1) * (k - retsOf g (tr ++ [])) + w (s'.pc g) (s'.c.ready g))
      (g := fun g => 3 * (k - callsOf g tr) + (2 * L.length + 1) * (k - retsOf g tr) + w (s.pc g) (s.c.ready g)) hf (fun g _ hgf => by
        rw [h1, hr]; simp [hgf])
    have e3 : w (s'.pc f) (s'.c.ready f) ≤ 2 := by
      rw [h1]; rcases hpp with rfl | ⟨rfl, _⟩ <;> simp [w]
    have e4 : w (s.pc f) (s.c.ready f) = 3 := by rw [hp, hw]; rfl
    simp only [List.append_nil, e4] at this
    simp only [meas, List.append_nil]
    omega
  | timer f op ep hp hd h1 ho _ _ => exact absurd (h.ut f op (by rw [hp]; rfl)) hd
  | other _ h1 ho hr he' => exact absurd he' he

/-- Where nobody can take a step, everyone is outside or blocked. -/
theorem stuck {s : State V} (hi : Inv s) (hq : ∀ f, step s (.run f) = none) (f : Fid) : s.pc f = .idle ∨ ∃ i, Blocked s f i := by
  have := hq f
  simp only [step, run] at this
  cases hp : s.pc f with
  | idle => exact .inl rfl
  | entry op => simp [hp] at this
  | unlink op ep =>
    obtain ⟨i, h⟩ := hi.sd f op ep (.inr hp)
    simp [hp, h] at this
  | waiting op ep =>
    obtain ⟨i, h⟩ := hi.sd f op ep (.inl hp)
    refine .inr ⟨i, op, ep, hp, h, ?_⟩
    simp only [hp] at this
    cases hr : s.c.ready f
    · rfl
    · simp only [hr, if_true] at this
      split at this <;> (try split at this) <;> cases this

/-! ## Infinite executions -/

variable {cap : Nat}

/-- Only the fibers of `L` use the channel, and only with calls that have no deadline. -/
def Only (L : List Fid) (r : Run (step (V := V)) (init cap)) : Prop := ∀ i f op, Obs.called f op ∈ r.ob i → f ∈ L ∧ op.dl = none

theorem J_run {L : List Fid} {r : Run (step (V := V)) (init cap)} (ho : Only L r) : ∀ i, J L (r.st i) (r.tr i)
  | 0 => by rw [r.start]; exact J_init
  | i + 1 => J_step (reach_inv (r.reach i)) (J_run ho i) (r.next i) (ho i)

/-- With boundedly many calls the execution comes to rest. -/
theorem settle {L : List Fid} {r : Run (step (V := V)) (init cap)} (hL : L.Nodup) (ho : Only L r) (hf : r.Fair Event.run) {k N : Nat}
    (hk : ∀ i, N ≤ i → ∀ f ∈ L, callsOf f (r.tr i) ≤ k) :
    ∃ M, N ≤ M ∧ (∀ i, M ≤ i → r.ob i = []) ∧ ∀ f, step (r.st M) (.run f) = none := by
  have hdec : ∀ i, N ≤ i → ¬ ((∃ n, r.ev i = .tick n) ∨ ∃ f n, r.ev i = .elsewhere f n) →
      meas k L (r.st (i + 1)) (r.tr (i + 1)) < meas k L (r.st i) (r.tr i) :=
    fun i hi he => meas_step hL (reach_inv (r.reach i)) (J_run ho i) (r.next i) (ho i) (hk (i + 1) (by omega)) he
  have hels : ∀ i, ((∃ n, r.ev i = .tick n) ∨ ∃ f n, r.ev i = .elsewhere f n) → r.ob i = [] ∧ (r.st (i + 1)).pc = (r.st i).pc ∧
      (r.st (i + 1)).c.ready = (r.st i).c.ready := by
    intro i he
    have hm := move (reach_inv (r.reach i)) (r.next i)
    generalize r.ev i = e at hm he
    cases hm with
    | other _ h ho hr _ => exact ⟨ho, h, hr⟩
    | ends _ _ _ _ _ _ _ _ he' _ => rcases he' with he' | he' <;> simp [he'] at he
    | _ => simp at he
  obtain ⟨M, hM, hb, hq⟩ := r.settles hf (μ := fun i => meas k L (r.st i) (r.tr i))
    (busy := fun i => ¬ ((∃ n, r.ev i = .tick n) ∨ ∃ f n, r.ev i = .elsewhere f n)) (N := N)
    (by
      intro i hi
      by_cases he : (∃ n, r.ev i = .tick n) ∨ ∃ f n, r.ev i = .elsewhere f n
      · obtain ⟨h1, h2, h3⟩ := hels i he
        simp only [Run.tr, h1, List.append_nil, meas, h2, h3, Nat.le_refl]
      · exact Nat.le_of_lt (hdec i hi he))
    (fun i hi he => hdec i hi he)
    (by intro i f _ he; simp [he])
    (by
      intro i f hi he
      obtain ⟨h1, h2, h3⟩ := hels i (Classical.not_not.1 he)
      simp only [step, run, h2, h3]
      cases (r.st i).pc f <;> simp <;> (try split) <;> (try split) <;> (try split) <;> (try split) <;> simp_all)
  exact ⟨M, hM, fun i hi => (hels i (Classical.not_not.1 (hb i hi))).1, hq⟩

/-! ## A call that can always go on returns -/

theorem now_le {s s' : State V} {o : List (Obs V)} {e : Event V} (hs : step s e = some (s', o)) : s.now ≤ s'.now := by
  cases e with
  | run f =>
    simp only [step, run] at hs
    split at hs
    · cases hs
    · rename_i op hp
      simp only [Option.some.injEq] at hs
      have : (apply s f op (cs s op)).1.now = s.now := by
        cases cs s op <;> simp [apply]
        split <;> rfl
      rw [hs] at this
      simp only at this; omega
    · split at hs
      · split at hs
        · simp only [Option.some.injEq, Prod.mk.injEq] at hs; obtain ⟨rfl, rfl⟩ := hs; exact Nat.le_refl _
        · split at hs <;> simp only [Option.some.injEq, Prod.mk.injEq] at hs <;> obtain ⟨rfl, rfl⟩ := hs <;> exact Nat.le_refl _
      · cases hs
    · split at hs
      · cases hs
      · simp only [Option.some.injEq, Prod.mk.injEq] at hs; obtain ⟨rfl, rfl⟩ := hs; exact Nat.le_refl _
  | fail f =>
    simp only [step, runFail] at hs
    repeat' split at hs
    all_goals first
      | cases hs; done
      | (simp only [Option.some.injEq, Prod.mk.injEq] at hs; obtain ⟨rfl, rfl⟩ := hs; exact Nat.le_refl _)
  | _ =>
    simp only [step] at hs
    repeat' split at hs
    all_goals first
      | cases hs; done
      | (simp only [Option.some.injEq, Prod.mk.injEq] at hs; obtain ⟨rfl, rfl⟩ := hs; simp)

/-- The call the fiber is in changes only when it returns. -/
theorem in_call {s s' : State V} {o : List (Obs V)} {e : Event V} (hi : Inv s) (hs : step s e = some (s', o)) {f : Fid} {op : Op V}
    (h : opOf (s.pc f) = some op) : opOf (s'.pc f) = some op ∨ ∃ x wk t, Obs.ret f op x wk t ∈ o := by
  have hm := move hi hs
  cases hm with
  | call g op' hp h1 ho hr =>
    rw [h1]; simp only [upd_apply]; split
    · subst_vars; simp [hp, opOf] at h
    · exact .inl h
  | ends _ g op' hp h1 x wk ho he _ =>
    rw [h1]; simp only [upd_apply]; split
    · subst_vars
      have : op' = op := by rcases hp with hp | ⟨ep, hp⟩ <;> simpa [hp, opOf] using h
      subst this
      exact .inr ⟨x, wk, s.now, by simp⟩
    · exact .inl h
  | blocks g op' ep hp h1 ho hr =>
    rw [h1]; simp only [upd_apply]; split
    · subst_vars; simp only [hp, opOf] at h ⊢; exact .inl h
    · exact .inl h
  | wakes g op' ep hp p h1 hpp _ ho hw hr =>
    rw [h1]; simp only [upd_apply]; split
    · subst_vars
      have : opOf p = some op' := by rcases hpp with rfl | ⟨rfl, _⟩ <;> rfl
      rw [this]; simp only [hp, opOf] at h; exact .inl h
    · exact .inl h
  | timer g op' ep hp hd h1 ho _ _ => rw [h1]; exact .inl h
  | other _ h1 ho hr he => rw [h1]; exact .inl h

/-- A call that can go on whenever its fiber is scheduled, and does not suspend it any more, returns. -/
theorem enabled_returns {r : Run (step (V := V)) (init cap)} (hf : r.Fair Event.run) {f : Fid} {op : Op V} {N : Nat}
    (h0 : opOf ((r.st N).pc f) = some op)
    (hgo : ∀ j, N ≤ j → opOf ((r.st j).pc f) = some op → (∀ m, N ≤ m → m < j → ∀ x wk t, Obs.ret f op x wk t ∉ r.ob m) →
      step (r.st j) (.run f) ≠ none ∧ Obs.blocks f ∉ r.ob j) :
    ∃ j, N ≤ j ∧ ∃ x wk t, Obs.ret f op x wk t ∈ r.ob j := by
  refine Classical.byContradiction fun hno => ?_
  have hin : ∀ j, N ≤ j → opOf ((r.st j).pc f) = some op := by
    intro j hj
    obtain ⟨d, rfl⟩ := Nat.le.dest hj
    clear hj
    induction d with
    | zero => exact h0
    | succ d ih =>
      rcases in_call (reach_inv (r.reach (N + d))) (r.next (N + d)) ih with h | h
      · exact h
      · exact absurd ⟨N + d, by omega, h⟩ hno
  have hgo' : ∀ j, N ≤ j → step (r.st j) (.run f) ≠ none ∧ Obs.blocks f ∉ r.ob j := fun j hj =>
    hgo j hj (hin j hj) (fun m hm _ x wk t hx => hno ⟨m, hm, x, wk, t, hx⟩)
  let rk : Pc V → Nat := fun p => match p with
    | .waiting _ _ => 1
    | _ => 0
  have hstep : ∀ j, N ≤ j → rk ((r.st (j + 1)).pc f) ≤ rk ((r.st j).pc f) ∧ (r.ev j = .run f → rk ((r.st (j + 1)).pc f) < rk ((r.st j).pc f)) := by
    intro j hj
    have hm := move (reach_inv (r.reach j)) (r.next j)
    have hn := (hgo' j hj).2
    have hnr : ∀ x wk t, Obs.ret f op x wk t ∉ r.ob j := fun x wk t hx => hno ⟨j, hj, x, wk, t, hx⟩
    have hij := hin j hj
    generalize r.ev j = e at hm
    cases hm with
    | call g op' hp h1 ho hr =>
      rw [h1]; simp only [upd_apply]; split
      · subst_vars; simp [hp, opOf] at hij
      · exact ⟨Nat.le_refl _, by simp⟩
    | ends _ g op' hp h1 x wk ho he _ =>
      have hgf : g ≠ f := by
        rintro rfl
        have : op' = op := by rcases hp with hp | ⟨ep, hp⟩ <;> simpa [hp, opOf] using hij
        subst this
        exact hnr x wk (r.st j).now (by rw [ho]; simp)
      rw [h1, upd_other _ _ (Ne.symm hgf)]
      exact ⟨Nat.le_refl _, by rcases he with rfl | rfl <;> simp [hgf]⟩
    | blocks g op' ep hp h1 ho hr =>
      have hgf : g ≠ f := by rintro rfl; exact hn (by rw [ho]; simp)
      rw [h1, upd_other _ _ (Ne.symm hgf)]
      exact ⟨Nat.le_refl _, by simp [hgf]⟩
    | wakes g op' ep hp p h1 hpp _ ho hw hr =>
      rw [h1]; simp only [upd_apply]; split
      · subst_vars
        rcases hpp with rfl | ⟨rfl, _⟩ <;> simp [hp, rk]
      · rename_i hgf; exact ⟨Nat.le_refl _, by simp [Ne.symm hgf]⟩
    | timer g op' ep hp hd h1 ho _ _ => rw [h1]; exact ⟨Nat.le_refl _, by simp⟩
    | other _ h1 ho hr he => rw [h1]; exact ⟨Nat.le_refl _, by rcases he with ⟨n, rfl⟩ | ⟨g, n, rfl⟩ <;> simp⟩
  obtain ⟨M, hM, hc⟩ := constant (ρ := fun j => rk ((r.st j).pc f)) (N := N) (fun j hj => (hstep j hj).1)
  obtain ⟨j, hj, _, he⟩ := r.leads hf (f := f) (P := fun j => N ≤ j) (i := M) hM (fun j _ h _ => by omega) (fun j hj => (hgo' j hj).1)
  have h1 := (hstep j (by omega)).2 he
  have h2 := hc j hj
  have h3 := hc (j + 1) (by omega)
  omega

/-- A call with a deadline that has passed returns. -/
theorem late_returns {r : Run (step (V := V)) (init cap)} (hf : r.Fair Event.run) (ht : r.Fair Event.timer) {f : Fid} {op : Op V} {d N : Nat}
    (h0 : opOf ((r.st N).pc f) = some op) (hd : op.dl = some d) (hnow : d ≤ (r.st N).now) :
    ∃ j, N ≤ j ∧ ∃ x wk t, Obs.ret f op x wk t ∈ r.ob j := by
  refine Classical.byContradiction fun hno => ?_
  have hin : ∀ j, N ≤ j → opOf ((r.st j).pc f) = some op := by
    intro j hj
    obtain ⟨d, rfl⟩ := Nat.le.dest hj
    clear hj
    induction d with
    | zero => exact h0
    | succ d ih =>
      rcases in_call (reach_inv (r.reach (N + d))) (r.next (N + d)) ih with h | h
      · exact h
      · exact absurd ⟨N + d, by omega, h⟩ hno
  have hnow' : ∀ j, N ≤ j → d ≤ (r.st j).now := by
    intro j hj
    obtain ⟨e, rfl⟩ := Nat.le.dest hj
    clear hj
    induction e with
    | zero => exact hnow
    | succ e ih =>
      exact Nat.le_trans ih (now_le (r.next (N + e)))
  let rk : Pc V → Bool → Nat := fun p b => match p with
    | .entry _ => 3
    | .waiting _ _ => if b then 1 else 2
    | _ => 0
  have hstep : ∀ j, N ≤ j → rk ((r.st (j + 1)).pc f) ((r.st (j + 1)).c.ready f) ≤ rk ((r.st j).pc f) ((r.st j).c.ready f) ∧
      (r.ev j = .run f → rk ((r.st (j + 1)).pc f) ((r.st (j + 1)).c.ready f) < rk ((r.st j).pc f) ((r.st j).c.ready f)) ∧
      (r.ev j = .timer f → (r.st j).c.ready f = false → rk ((r.st (j + 1)).pc f) ((r.st (j + 1)).c.ready f) < rk ((r.st j).pc f) ((r.st j).c.ready f)) := by
    intro j hj
    have hI := reach_inv (r.reach j)
    have hm := move hI (r.next j)
    have hnr : ∀ x wk t, Obs.ret f op x wk t ∉ r.ob j := fun x wk t hx => hno ⟨j, hj, x, wk, t, hx⟩
    have hij := hin j hj
    have hnj := hnow' j hj
    have mono : ∀ p : Pc V, ∀ b b' : Bool, (b = true → b' = true) → rk p b' ≤ rk p b := by
      intro p b b' hb
      cases p <;> cases b <;> cases b' <;> simp [rk] at hb ⊢
    generalize r.ev j = e at hm
    cases hm with
    | call g op' hp h1 ho hr =>
      rw [h1, hr]; simp only [upd_apply]; split
      · subst_vars; simp [hp, opOf] at hij
      · exact ⟨Nat.le_refl _, by simp, by simp⟩
    | ends _ g op' hp h1 x wk ho he hr =>
      have hgf : g ≠ f := by
        rintro rfl
        have : op' = op := by rcases hp with hp | ⟨ep, hp⟩ <;> simpa [hp, opOf] using hij
        subst this
        exact hnr x wk (r.st j).now (by rw [ho]; simp)
      rw [h1, upd_other _ _ (Ne.symm hgf)]
      exact ⟨mono _ _ _ (hr f), by rcases he with rfl | rfl <;> simp [hgf], by rcases he with rfl | rfl <;> simp⟩
    | blocks g op' ep hp h1 ho hr =>
      rw [h1, hr]; simp only [upd_apply]; split
      · subst_vars
        have : (r.st j).c.ready g = false := hI.w.off g (by simp [hp, regOf])
        simp [hp, rk, this]
      · rename_i hgf; exact ⟨Nat.le_refl _, by simp [Ne.symm hgf], by simp⟩
    | wakes g op' ep hp p h1 hpp hlate ho hw hr =>
      rw [h1, hr]; simp only [upd_apply]; split
      · subst_vars
        have hop : op' = op := by simpa [hp, opOf] using hij
        subst hop
        have := hlate d hd hnj
        subst this
        simp [hp, rk, hw]
      · rename_i hgf; exact ⟨Nat.le_refl _, by simp [Ne.symm hgf], by simp⟩
    | timer g op' ep hp hd' h1 ho hr hrf =>
      rw [h1]
      refine ⟨mono _ _ _ (hr f), by simp, ?_⟩
      intro he hfr
      simp only [Event.timer.injEq] at he
      subst he
      simp [hp, rk, hrf, hfr]
    | other _ h1 ho hr he => rw [h1, hr]; exact ⟨Nat.le_refl _, by rcases he with ⟨n, rfl⟩ | ⟨g, n, rfl⟩ <;> simp, by rcases he with ⟨n, rfl⟩ | ⟨g, n, rfl⟩ <;> simp⟩
  obtain ⟨M, hM, hc⟩ := constant (ρ := fun j => rk ((r.st j).pc f) ((r.st j).c.ready f)) (N := N) (fun j hj => (hstep j hj).1)
  -- the fiber sleeps for ever, and the timer does not come
  by_cases hw : ∃ j, M ≤ j ∧ step (r.st j) (.run f) = none
  · obtain ⟨j0, hj0, hq⟩ := hw
    have hwait : ∀ j, j0 ≤ j → (∃ ep, (r.st j).pc f = .waiting op ep) ∧ (r.st j).c.ready f = false := by
      intro j hj
      have e0 : rk ((r.st j0).pc f) ((r.st j0).c.ready f) = 2 := by
        have hij := hin j0 (by omega)
        have hsd := (reach_inv (r.reach j0)).sd f op
        simp only [step, run] at hq
        cases hp : (r.st j0).pc f with
        | idle => simp [hp, opOf] at hij
        | entry op' => simp [hp] at hq
        | waiting op' ep =>
          cases hr : (r.st j0).c.ready f
          · simp [rk]
          · simp only [hp, hr, if_true] at hq
            split at hq <;> (try split at hq) <;> cases hq
        | unlink op' ep =>
          have hop : op' = op := by simpa [hp, opOf] using hij
          subst hop
          obtain ⟨i, hi⟩ := hsd ep (.inr hp)
          simp [hp, hi] at hq
      have e1 := hc j0 hj0
      have e2 := hc j (by omega)
      have e3 : rk ((r.st j).pc f) ((r.st j).c.ready f) = 2 := by omega
      have hij := hin j (by omega)
      cases hp : (r.st j).pc f with
      | waiting op' ep =>
        have hop : op' = op := by simpa [hp, opOf] using hij
        subst hop
        refine ⟨⟨ep, rfl⟩, ?_⟩
        cases hr : (r.st j).c.ready f
        · rfl
        · simp [hp, hr, rk] at e3
      | _ => simp [hp, rk] at e3
    obtain ⟨j, hj, _, he⟩ := r.leads ht (f := f) (P := fun j => j0 ≤ j) (i := j0) (Nat.le_refl _) (fun j _ h _ => by omega) (fun j hj => by
      obtain ⟨⟨ep, hp⟩, _⟩ := hwait j hj
      simp [step, hp, hd, hnow' j (by omega)])
    have h1 := (hstep j (by omega)).2.2 he (hwait j hj).2
    have h2 := hc j (by omega)
    have h3 := hc (j + 1) (by omega)
    omega
  · obtain ⟨j, hj, _, he⟩ := r.leads hf (f := f) (P := fun j => M ≤ j) (i := M) (Nat.le_refl _) (fun j _ h _ => by omega)
      (fun j hj hq => hw ⟨j, hj, hq⟩)
    have h1 := (hstep j (by omega)).2.1 he
    have h2 := hc j hj
    have h3 := hc (j + 1) (by omega)
    omega

/-! ## Counting -/

/-- Number of calls that may block on this side. -/
def sideCalls (i : Side) (tr : List (Obs V)) : Nat := tr.countP fun o => match o with
  | .called _ op => decide (op.side = some i)
  | _ => false

theorem pushedVals_append (a b : List (Obs V)) : pushedVals (a ++ b) = pushedVals a ++ pushedVals b := by
  induction a with
  | nil => rfl
  | cons x a ih =>
    cases x with
    | ret f op r w t => cases op <;> cases r <;> simp [pushedVals, ih]
    | _ => simp [pushedVals, ih]

theorem poppedVals_append (a b : List (Obs V)) : poppedVals (a ++ b) = poppedVals a ++ poppedVals b := by
  induction a with
  | nil => rfl
  | cons x a ih =>
    cases x with
    | ret f op r w t =>
      cases r with
      | popped v => cases v <;> simp [poppedVals, ih]
      | _ => simp [poppedVals, ih]
    | _ => simp [poppedVals, ih]

/-- Number of successful operations of this side. -/
def done : Side → List (Obs V) → Nat
  | .prod, tr => (pushedVals tr).length
  | .cons, tr => (poppedVals tr).length

theorem done_append (i : Side) (a b : List (Obs V)) : done i (a ++ b) = done i a + done i b := by
  cases i <;> simp [done, pushedVals_append, poppedVals_append]

def inSide (i : Side) (p : Pc V) : Nat := if (opOf p).bind Op.side = some i then 1 else 0

/-- Every call that may block has succeeded or is under way, while only such calls are made. -/
structure B (L : List Fid) (s : State V) (tr : List (Obs V)) : Prop where
  cl : s.closed = false
  sd : ∀ f op, opOf (s.pc f) = some op → op.side ≠ none
  cnt : ∀ i, sideCalls i tr = done i tr + lsum L (fun f => inSide i (s.pc f))

theorem B_init {L : List Fid} : B L (init cap : State V) [] := by
  have : ∀ (L : List Nat), lsum L (fun _ => 0) = 0 := fun L => by
    induction L with
    | nil => rfl
    | cons x L ih => simp [ih]
  constructor <;> simp [init, opOf, sideCalls, inSide, this]
  intro i; cases i <;> rfl

theorem B_step {L : List Fid} (hL : L.Nodup) {s s' : State V} {tr o : List (Obs V)} {e : Event V} (hi : Inv s) (hj : J L s tr) (h : B L s tr)
    (hs : step s e = some (s', o)) (hc : ∀ f op, Obs.called f op ∈ o → f ∈ L ∧ op.dl = none ∧ op.side ≠ none)
    (hnt : ∀ f op w t, Obs.ret f op .failed w t ∉ o) (hnn : ∀ f op w t, Obs.ret f op (.popped none) w t ∉ o) : B L s' (tr ++ o) := by
  obtain ⟨cl, sd, cnt⟩ := h
  have hfL : ∀ f, s.pc f ≠ .idle → f ∈ L := fun f hp => Classical.byContradiction fun hn => hp (hj.out f hn)
  have key : ∀ f p (s' : State V) (o : List (Obs V)), f ∈ L → s'.closed = false → s'.pc = upd s.pc f p → (∀ op, opOf p = some op → op.side ≠ none) →
      (∀ i, sideCalls i o + inSide i (s.pc f) = done i o + inSide i p) → B L s' (tr ++ o) := by
    intro f p s' o hf h1 h2 h3 h4
    refine ⟨h1, ?_, ?_⟩
    · intro g op; rw [h2]; simp only [upd_apply]; split
      · exact h3 op
      · exact sd g op
    · intro i
      have := lsum_one hL (f := fun g => inSide i (upd s.pc f p g)) (g := fun g => inSide i (s.pc g)) hf (fun g _ hg => by simp [hg])
      simp only [upd_same] at this
      have h5 := cnt i
      have h6 := h4 i
      have h7 : sideCalls i (tr ++ o) = sideCalls i tr + sideCalls i o := by simp [sideCalls]
      rw [h2, h7, done_append]
      omega
  cases e with
  | call f op =>
    simp only [step] at hs
    split at hs <;> simp only [Option.some.injEq, Prod.mk.injEq, reduceCtorEq] at hs
    rename_i hp; obtain ⟨rfl, rfl⟩ := hs
    have hcf := hc f op (by simp)
    refine key f (.entry op) _ _ hcf.1 cl rfl (by simp only [opOf, Option.some.injEq]; rintro _ rfl; exact hcf.2.2) ?_
    intro i
    have : done i [Obs.called f op] = 0 := by cases i <;> rfl
    rw [this]
    by_cases hh : op.side = some i <;> simp [sideCalls, inSide, hp, opOf, hh]
  | run f =>
    simp only [step, run] at hs
    split at hs
    · cases hs
    · rename_i op hp
      have hf := hfL f (by simp [hp])
      have hsd := sd f op (by simp [hp, opOf])
      simp only [Option.some.injEq] at hs
      by_cases hb : cs s op = .block
      · obtain ⟨i, hsd'⟩ := cs_block hb
        rw [hb, apply_block s f hsd'] at hs
        simp only [Prod.mk.injEq] at hs; obtain ⟨rfl, rfl⟩ := hs
        refine key f _ _ _ hf cl rfl (by simp only [opOf, Option.some.injEq]; rintro _ rfl; exact hsd) ?_
        intro i
        have : done i [(Obs.blocks f : Obs V)] = 0 := by cases i <;> rfl
        rw [this]
        by_cases hh : op.side = some i <;> simp [sideCalls, inSide, hp, opOf, hh]
      · cases op with
        | push v dl =>
          have hcs : cs s (.push v dl) = .put v := by simp [cs, pushCS, cl] at hb ⊢; exact hb
          rw [hcs] at hs
          simp only [apply, Prod.mk.injEq] at hs
          obtain ⟨rfl, rfl⟩ := hs
          refine key f .idle _ _ hf cl rfl (by simp [opOf]) ?_
          intro i; cases i <;> simp [sideCalls, inSide, hp, opOf, Op.side, done, pushedVals, poppedVals]
        | pop dl =>
          have hcs : cs s (.pop dl) = .take := by simp [cs, popCS, cl] at hb ⊢; exact hb
          rw [hcs] at hs
          simp only [apply, Prod.mk.injEq] at hs
          obtain ⟨rfl, rfl⟩ := hs
          refine key f .idle _ _ hf cl rfl (by simp [opOf]) ?_
          cases hv : (s.ring.take).1 with
          | none => exact absurd (by simp [hv]; rfl) (hnn f (.pop dl) _ s.now)
          | some v => intro i; cases i <;> simp [sideCalls, inSide, hp, opOf, Op.side, done, pushedVals, poppedVals]
        | valuePop =>
          have hcs : cs s .valuePop = .take := by simp [cs, valuePopCS, cl] at hb ⊢; exact hb
          rw [hcs] at hs
          simp only [apply, Prod.mk.injEq] at hs
          obtain ⟨rfl, rfl⟩ := hs
          refine key f .idle _ _ hf cl rfl (by simp [opOf]) ?_
          cases hv : (s.ring.take).1 with
          | none => exact absurd (by simp [hv]; rfl) (hnn f .valuePop _ s.now)
          | some v => intro i; cases i <;> simp [sideCalls, inSide, hp, opOf, Op.side, done, pushedVals, poppedVals]
        | _ => simp [Op.side] at hsd
    · rename_i op ep hp
      have hf := hfL f (by simp [hp])
      have hsd := sd f op (by simp [hp, opOf])
      have hdl := hj.ut f op (by simp [hp, opOf])
      split at hs
      · simp only [hdl, Option.some.injEq, Prod.mk.injEq] at hs
        obtain ⟨rfl, rfl⟩ := hs
        refine key f _ _ _ hf cl rfl (by simp only [opOf, Option.some.injEq]; rintro _ rfl; exact hsd) ?_
        intro i
        have : done i ([] : List (Obs V)) = 0 := by cases i <;> rfl
        rw [this]
        by_cases hh : op.side = some i <;> simp [sideCalls, inSide, hp, opOf, hh]
      · cases hs
    · rename_i op ep hp
      have hdl := hj.ut f op (by simp [hp, opOf])
      obtain ⟨i, hsd⟩ := hi.sd f op ep (.inr hp)
      have hl := (hi.w.late f ⟨i, ep, op.dl, true⟩ (by simp [hp, regOf, hsd]) rfl)
      simp [hdl] at hl
  | fail f =>
    simp only [step, runFail] at hs
    split at hs
    · split at hs
      all_goals first
        | cases hs; done
        | (simp only [Option.some.injEq, Prod.mk.injEq] at hs; obtain ⟨rfl, rfl⟩ := hs
           exact absurd (List.mem_singleton.2 rfl) (hnt f _ _ s.now))
    · cases hs
  | timer f =>
    have hm := move hi hs
    cases hm with
    | timer _ op ep hp hd h1 ho _ _ => exact absurd (hj.ut f op (by rw [hp]; rfl)) hd
    | ends _ _ _ _ _ _ _ _ he _ => simp at he
    | other _ _ _ _ he => simp at he
  | tick n =>
    simp only [step, Option.some.injEq, Prod.mk.injEq] at hs; obtain ⟨rfl, rfl⟩ := hs
    simp only [List.append_nil]; exact ⟨cl, sd, cnt⟩
  | elsewhere f n =>
    simp only [step] at hs
    split at hs <;> simp only [Option.some.injEq, Prod.mk.injEq, reduceCtorEq] at hs
    obtain ⟨rfl, rfl⟩ := hs
    simp only [List.append_nil]; exact ⟨cl, sd, cnt⟩

end Verif.BufCh
