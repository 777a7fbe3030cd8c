import Verif.FutureSpec

/-!
# Futures: every execution follows the specification
-/

namespace Verif.Fut

variable {V E : Type}

/-- Nothing, or the destruction of one result. -/
def Quiet (res : Sid → Option (Outcome V E)) (o : List (Obs V E)) : Prop :=
  o = [] ∨ ∃ j, o = [.freed j (match res j with | some out => out.isValue | none => false)]

theorem quiet_release {s : State V E} {j : Sid} (h : s.live j = true) : Quiet s.res (release s j).2 := by
  simp only [release, h, if_true]; split
  · exact .inr ⟨j, rfl⟩
  · exact .inl rfl

theorem quiet_addRef {s : State V E} {j : Sid} (h : s.live j = true) : (addRef s j).2 = [] := by
  simp [addRef, h]

theorem runs_quiet {sp : Spec V E} {o : List (Obs V E)} (h : Quiet sp.res o) : Spec.Runs sp o sp := by
  rcases h with rfl | ⟨j, rfl⟩
  · exact .nil sp
  · exact .snoc (tr := []) (.nil sp) (.freed sp j _ rfl)

theorem runs_one {sp sp' : Spec V E} {o : Obs V E} (h : Spec.Next sp o sp') : Spec.Runs sp [o] sp' :=
  .snoc (tr := []) (.nil sp) h

theorem CallOK.congr {s s' : State V E} {p : Pc V E} {c : Option (Call V E)} (h : CallOK s p c)
    (hr : ∀ i, s.res i ≠ none → s'.res i ≠ none) (hn : s.now ≤ s'.now) : CallOK s' p c := by
  cases p with
  | set op h' i out again =>
    obtain ⟨h1, h2, h3⟩ := h
    exact ⟨h1, h2, h3.imp id (hr i)⟩
  | notify op u i => exact ⟨h.1, hr i h.2.1, h.2.2⟩
  | unlink op u i ep => obtain ⟨h1, k, d, h2, h3⟩ := h; exact ⟨h1, k, d, h2, Nat.le_trans h3 hn⟩
  | last op u i => obtain ⟨h1, k, d, h2, h3⟩ := h; exact ⟨h1, k, d, h2, Nat.le_trans h3 hn⟩
  | _ => exact h

/-- A call that ends in the step in which it was made. -/
theorem sim_atomic {s s' : State V E} {sp : Spec V E} {f : Fid} {op : Op V E} {i : Option Sid} {r : Res V E}
    {q : List (Obs V E)} {t : Nat} (h : Sim s sp) (hf : s.pc f = .idle) (hr : s'.res = s.res) (hp : s'.pc = s.pc)
    (hn : s'.now = s.now) (hq : Quiet s.res q) (ha : sp.allowed ⟨op, i, false⟩ r t)
    (hv : Prov s' (gotAfter sp.got op i r)) :
    ∃ sp', Spec.Runs sp (.called f op i :: (q ++ [.ret f op i r t])) sp' ∧ Sim s' sp' := by
  have hi : sp.inCall f = none := by have := h.call f; rw [hf] at this; exact this
  refine ⟨_, ((runs_one (.called sp f op i hi)).append ((runs_quiet (o := q) ?_).append
    (runs_one (.ret _ f ⟨op, i, false⟩ r t ?_ ?_)))), ?_⟩
  · simpa [h.res] using hq
  · simp
  · exact ha
  · refine ⟨?_, ?_, ?_⟩
    · simpa [hr] using h.res
    · intro g
      rw [hp]
      have h1 := (h.call g).congr (s' := s') (by rw [hr]; exact fun _ => id) (by omega)
      simp only [upd_apply]
      split
      · subst_vars; rw [hf] at h1 ⊢; rfl
      · exact h1
    · exact hv

/-- A call that goes on. -/
theorem sim_begin {s s' : State V E} {sp : Spec V E} {f : Fid} {op : Op V E} {i : Option Sid} {p : Pc V E}
    (h : Sim s sp) (hf : s.pc f = .idle) (hr : s'.res = s.res) (hp : s'.pc = upd s.pc f p) (hn : s'.now = s.now)
    (hv : Prov s' sp.got) (hc : CallOK s' p (some ⟨op, i, false⟩)) :
    ∃ sp', Spec.Runs sp [.called f op i] sp' ∧ Sim s' sp' := by
  have hi : sp.inCall f = none := by have := h.call f; rw [hf] at this; exact this
  refine ⟨_, runs_one (.called sp f op i hi), ?_, ?_, hv⟩
  · simpa [hr] using h.res
  · intro g
    have h1 := (h.call g).congr (s' := s') (by rw [hr]; exact fun _ => id) (by omega)
    simp only [hp, upd_apply]
    split
    · exact hc
    · exact h1

theorem Prov.hd {s s' : State V E} {got : Sid → Bool} (h : Prov s got) (e1 : s'.hd = s.hd) (e2 : s'.next = s.next) :
    Prov s' got := by
  obtain ⟨h1, h2, h3, h4, h5⟩ := h
  refine ⟨?_, ?_, ?_, ?_, ?_⟩ <;> (try rw [e1]) <;> (try rw [e2]) <;> assumption

theorem sim_ret {s s' s2 : State V E} {sp : Spec V E} {f : Fid} {op : Op V E} {i j : Option Sid} {r : Res V E}
    {q o : List (Obs V E)} (h : Sim s sp) (hf : s.pc f = .idle) (hs : ret s2 f op i r q = some (s', o))
    (hij : i = j) (hr : s2.res = s.res) (hp : s2.pc = s.pc) (hn : s2.now = s.now) (hq : Quiet s.res q)
    (ha : ∀ t, sp.allowed ⟨op, i, false⟩ r t) (hv : Prov s2 (gotAfter sp.got op i r)) :
    ∃ sp', Spec.Runs sp (.called f op j :: o) sp' ∧ Sim s' sp' := by
  simp only [ret, Option.some.injEq, Prod.mk.injEq] at hs
  obtain ⟨rfl, rfl⟩ := hs
  subst hij
  exact sim_atomic h hf hr hp hn hq (ha _) hv

theorem sim_start {s s' : State V E} {sp : Spec V E} {f : Fid} {op : Op V E} {k : Hid} {j : Option Sid} {p : Pc V E}
    {o : List (Obs V E)} (h : Sim s sp) (hf : s.pc f = .idle) (hs : start s f k p = some (s', o))
    (hc : CallOK s p (some ⟨op, j, false⟩)) : ∃ sp', Spec.Runs sp (.called f op j :: o) sp' ∧ Sim s' sp' := by
  simp only [start, Option.some.injEq, Prod.mk.injEq] at hs
  obtain ⟨rfl, rfl⟩ := hs
  exact sim_begin h hf rfl rfl rfl (h.prov.hd rfl rfl) (hc.congr (fun _ => id) (Nat.le_refl _))

theorem sim_discard {s s' s2 : State V E} {sp : Spec V E} {f : Fid} {op : Op V E} {j : Option Sid} {y : Handle}
    {o : List (Obs V E)} (h : Sim s sp) (hf : s.pc f = .idle) (hs : discard s2 f op y.st y = some (s', o))
    (hy : y.st = j) (hr : s2.res = s.res) (hp : s2.pc = s.pc) (hn : s2.now = s.now) (hl : ∀ i, j = some i → s2.live i = true)
    (ha : ∀ t, sp.allowed ⟨op, j, false⟩ .ok t) (hg : gotAfter sp.got op j .ok = sp.got)
    (hop : y.kind.provider = true → ((∃ h, op = .destroy h) ∨ ∃ h h', op = .moveAssign h h'))
    (hv : Prov s2 sp.got) : ∃ sp', Spec.Runs sp (.called f op j :: o) sp' ∧ Sim s' sp' := by
  simp only [discard] at hs
  split at hs
  · rename_i hy'
    exact sim_ret h hf hs hy hr hp hn (.inl rfl) (by rw [hy]; exact ha) (by rw [hy, hg]; exact hv)
  · rename_i i hi
    split at hs
    · rename_i hpr
      simp only [Option.some.injEq, Prod.mk.injEq] at hs
      obtain ⟨rfl, rfl⟩ := hs
      refine sim_begin h hf hr (p := .owner op i) (by simp [hp]) hn (hv.hd rfl rfl) ?_
      exact ⟨by rw [← hy, hi], hop hpr.1⟩
    · refine sim_ret h hf hs hy ?_ ?_ ?_ ?_ (by rw [hy]; exact ha) (by rw [hy, hg]; exact hv.hd (by simp) (by simp))
      · simp [hr]
      · simp [hp]
      · simp [hn]
      · rw [← hr]; exact quiet_release (hl i (by rw [← hy, hi]))

theorem sim_callOn {s s' : State V E} {sp : Spec V E} {f : Fid} {op : Op V E} {k : Hid} {x : Handle} {o : List (Obs V E)}
    (hc : Core s none) (h : Sim s sp) (hf : s.pc f = .idle) (hk : op.subject = k) (hx : s.hd k = some x)
    (hs : callOn false s f op k x = some (s', o)) :
    ∃ sp', Spec.Runs sp (.called f op (sidOf s op) :: o) sp' ∧ Sim s' sp' := by
  have hst : s.stOf k = x.st := by simp [State.stOf, hx]
  have hliv : ∀ i, x.st = some i → s.live i = true := fun i hi => hc.st_live (k := k) (by rw [hst, hi])
  have hltx : ∀ i, x.st = some i → i < s.next := fun i hi => hc.hold_lt (o := .inl k) (by simp [holdOf, hst, hi])
  have hlta : ∀ h' y i, s.hd h' = some y → y.st = some i → i < s.next :=
    fun h' y i hy hi => hc.hold_lt (o := .inl h') (by simp [holdOf, State.stOf, hy, hi])
  have hlva : ∀ h' y i, s.hd h' = some y → y.st = some i → s.live i = true :=
    fun h' y i hy hi => hc.st_live (k := h') (by simp [State.stOf, hy, hi])
  obtain ⟨pu, pf, pr, pn, pl⟩ := h.prov
  have sres := h.res
  unfold callOn at hs
  cases op with
  | mkPromise | mkTask | mkEmpty => simp at hs
  | getFuture a h' =>
    simp only [Op.subject] at hk; subst hk
    simp only at hs
    have hsid : x.st = sidOf s (.getFuture a h' : Op V E) := by simp [sidOf, Op.subject, hx]
    split at hs <;> try (simp only [reduceCtorEq] at hs; done)
    rename_i hg
    split at hs
    · rename_i hob
      rcases hi : x.st with _ | i
      · have := pn a x hx hi; simp [hob] at this
      · refine sim_ret h hf hs hsid rfl rfl rfl (.inl rfl) ?_ ?_
        · intro t; simp only [Spec.allowed, hi]; right; exact ⟨by simp, by rw [← pf a x i hx hg.1 hi]; exact hob⟩
        · rw [hi]; exact h.prov
    · rename_i hob
      split at hs
      · rename_i hi
        refine sim_ret h hf hs hsid rfl rfl rfl (.inl rfl) ?_ ?_
        · intro t; simp only [Spec.allowed, hi]
          refine ⟨_, rfl, ?_⟩
          have := hg.1
          revert this; cases x.kind <;> simp [Kind.provider, uninit, noState]
        · rw [hi]; exact h.prov
      · rename_i i hi
        have hl := hliv i hi
        refine sim_ret h hf hs hsid (by simp) (by simp) (by simp) (.inl (quiet_addRef hl)) ?_ ?_
        · intro t; simp only [Spec.allowed, hi]; left
          exact ⟨by simp, by rw [← pf a x i hx hg.1 hi]; simpa using hob⟩
        · rw [hi]; simp only [gotAfter]
          have hlt := hltx i hi
          refine Prov.hd (s := { s with hd := upd (upd s.hd a (some { x with obtained := true })) h' (some ⟨.future, false, some i⟩) }) ?_ (by simp [hi]) (by simp)
          refine ⟨?_, ?_, ?_, ?_, ?_⟩ <;> simp only [upd_apply]
          · grind [Kind.provider]
          · grind [Kind.provider]
          · grind [Kind.provider]
          · grind [Kind.provider]
          · intro j hj; rw [if_neg (fun e : j = i => Nat.not_lt.2 hj (e ▸ hlt))]; exact pl j hj
  | setValue a v | setExc a v =>
    simp only [Op.subject] at hk; subst hk
    simp only at hs
    split at hs <;> try (simp only [reduceCtorEq] at hs; done)
    split at hs
    · rename_i hi
      refine sim_ret h hf hs (by simp [sidOf, Op.subject, hx]) rfl rfl rfl (.inl rfl) ?_ h.prov
      intro t; simp only [Spec.allowed, hi]; exact ⟨_, by rfl, rfl⟩
    · rename_i i hi
      exact sim_start h hf hs ⟨by simp [sidOf, Op.subject, hx, hi], rfl, .inl rfl⟩
  | invoke a out =>
    simp only [Op.subject] at hk; subst hk
    simp only at hs
    split at hs <;> try (simp only [reduceCtorEq] at hs; done)
    split at hs
    · rename_i hi
      refine sim_ret h hf hs (by simp [sidOf, Op.subject, hx]) rfl rfl rfl (.inl rfl) ?_ h.prov
      intro t; simp only [Spec.allowed, hi]; exact ⟨_, by rfl, rfl⟩
    · rename_i i hi
      split at hs
      · exact sim_start h hf hs ⟨by simp [sidOf, Op.subject, hx, hi], rfl, .inl rfl⟩
      · exact sim_start h hf hs ⟨by simp [sidOf, Op.subject, hx, hi], rfl, .inl rfl⟩
  | reset a =>
    simp only [Op.subject] at hk; subst hk
    simp only at hs
    split at hs <;> try (simp only [reduceCtorEq] at hs; done)
    rename_i hg
    split at hs
    · rename_i hi
      refine sim_ret h hf hs (by simp [sidOf, Op.subject, hx]) rfl rfl rfl (.inl rfl) ?_ h.prov
      intro t; simp only [Spec.allowed, hi]; exact ⟨_, by rfl, rfl⟩
    · rename_i i hi
      have hl := hliv i hi
      have hlt := hltx i hi
      refine sim_ret h hf hs (by simp [sidOf, Op.subject, hx]) (by simp [create]) (by simp [create]) (by simp [create]) ?_ ?_ ?_
      · refine quiet_release (s := create s a .task) ?_
        simp only [create, upd_apply]; split <;> simp [hl]
      · intro t; simp only [Spec.allowed, hi]
      · rw [hi]; simp only [gotAfter]
        refine Prov.hd (s := create s a .task) ?_ (by simp) (by simp)
        have hlt' : ∀ h' y, s.hd h' = some y → y.st ≠ some s.next :=
          fun h' y hy hh => absurd (hlta h' y _ hy hh) (Nat.lt_irrefl _)
        have hgn := pl s.next (Nat.le_refl _)
        refine ⟨?_, ?_, ?_, ?_, ?_⟩ <;> simp only [create, upd_apply]
        · clear * - pu hlt'; grind [Kind.provider]
        · clear * - pf hlt' hgn; grind [Kind.provider]
        · clear * - pr; grind [Kind.provider]
        · clear * - pn; grind [Kind.provider]
        · intro j hj; exact pl j (Nat.le_of_succ_le hj)
  | move a h' =>
    simp only [Op.subject] at hk; subst hk
    simp only at hs
    split at hs <;> try (simp only [reduceCtorEq] at hs; done)
    rename_i hg
    refine sim_ret h hf hs (by simp [sidOf, Op.subject, hx]) rfl rfl rfl (.inl rfl) ?_ ?_
    · intro t; simp only [Spec.allowed]; cases x.st <;> simp
    · refine ⟨?_, ?_, ?_, ?_, pl⟩ <;> simp only [upd_apply, gotAfter]
      · clear * - pu hx hg; grind [Kind.provider]
      · clear * - pf hx hg; grind [Kind.provider]
      · clear * - pr hx hg; grind [Kind.provider]
      · clear * - pn hx hg; grind [Kind.provider]
  | share a h' =>
    simp only [Op.subject] at hk; subst hk
    simp only at hs
    split at hs <;> try (simp only [reduceCtorEq] at hs; done)
    rename_i hg
    refine sim_ret h hf hs (by simp [sidOf, Op.subject, hx]) rfl rfl rfl (.inl rfl) ?_ ?_
    · intro t; simp only [Spec.allowed]; cases x.st <;> simp
    · refine ⟨?_, ?_, ?_, ?_, pl⟩ <;> simp only [upd_apply, gotAfter]
      · clear * - pu hx hg; grind [Kind.provider]
      · clear * - pf hx hg; grind [Kind.provider]
      · clear * - pr hx hg; grind [Kind.provider]
      · clear * - pn hx hg; grind [Kind.provider]
  | moveAssign a h' =>
    simp only [Op.subject] at hk; subst hk
    simp only at hs
    split at hs
    · subst_vars
      refine sim_ret h hf hs (by simp [sidOf, hx]) rfl rfl rfl (.inl rfl) ?_ ?_
      · intro t; simp only [Spec.allowed]; cases x.st <;> simp
      · exact h.prov
    · rename_i hn
      split at hs
      · simp at hs
      · rename_i y hy
        split at hs <;> try (simp only [reduceCtorEq] at hs; done)
        rename_i hg
        refine sim_discard h hf hs (by simp [sidOf, hy]) rfl rfl rfl ?_ ?_ rfl ?_ ?_
        · intro i hi; exact hlva h' y i hy (by simpa [sidOf, hy] using hi)
        · intro t; simp only [Spec.allowed, sidOf]; split <;> simp
        · intro _; exact .inr ⟨_, _, rfl⟩
        · refine ⟨?_, ?_, ?_, ?_, pl⟩ <;> simp only [upd_apply]
          · clear * - pu hx hg hy; grind [Kind.provider]
          · clear * - pf hx hg hy; grind [Kind.provider]
          · clear * - pr hx hg hy; grind [Kind.provider]
          · clear * - pn hx hg hy; grind [Kind.provider]
  | swap a h' =>
    simp only [Op.subject] at hk; subst hk
    simp only at hs
    split at hs
    · simp at hs
    · rename_i y hy
      split at hs <;> try (simp only [reduceCtorEq] at hs; done)
      rename_i hg
      refine sim_ret h hf hs (by simp [sidOf, Op.subject, hx]) rfl rfl rfl (.inl rfl) ?_ ?_
      · intro t; simp only [Spec.allowed]; cases x.st <;> simp
      · refine ⟨?_, ?_, ?_, ?_, pl⟩ <;> simp only [upd_apply, gotAfter]
        · clear * - pu hx hg hy; grind [Kind.provider]
        · clear * - pf hx hg hy; grind [Kind.provider]
        · clear * - pr hx hg hy; grind [Kind.provider]
        · clear * - pn hx hg hy; grind [Kind.provider]
  | copy a h' =>
    simp only [Op.subject] at hk; subst hk
    simp only at hs
    split at hs <;> try (simp only [reduceCtorEq] at hs; done)
    rename_i hg
    have hv : Prov { s with hd := upd s.hd h' (some x) } sp.got := by
      refine ⟨?_, ?_, ?_, ?_, pl⟩ <;> simp only [upd_apply]
      · clear * - pu hx hg; grind [Kind.provider]
      · clear * - pf hx hg; grind [Kind.provider]
      · clear * - pr hx hg; grind [Kind.provider]
      · clear * - pn hx hg; grind [Kind.provider]
    split at hs
    · rename_i hi
      refine sim_ret h hf hs (by simp [sidOf, Op.subject, hx]) rfl rfl rfl (.inl rfl) ?_ hv
      intro t; simp only [Spec.allowed, hi]
    · rename_i i hi
      refine sim_ret h hf hs (by simp [sidOf, Op.subject, hx]) (by simp) (by simp) (by simp) (.inl (quiet_addRef (hliv i hi))) ?_ ?_
      · intro t; simp only [Spec.allowed, hi]
      · exact hv.hd (by simp) (by simp)
  | copyAssign a h' =>
    simp only [Op.subject] at hk; subst hk
    simp only at hs
    split at hs
    · subst_vars
      refine sim_ret h hf hs (by simp [sidOf, hx]) rfl rfl rfl (.inl rfl) ?_ ?_
      · intro t; simp only [Spec.allowed]; cases x.st <;> simp
      · exact h.prov
    · rename_i hn
      split at hs
      · simp at hs
      · rename_i y hy
        split at hs <;> try (simp only [reduceCtorEq] at hs; done)
        rename_i hg
        have hv : Prov { s with hd := upd s.hd h' (some x) } sp.got := by
          refine ⟨?_, ?_, ?_, ?_, pl⟩ <;> simp only [upd_apply]
          · clear * - pu hx hg hy; grind [Kind.provider]
          · clear * - pf hx hg hy; grind [Kind.provider]
          · clear * - pr hx hg hy; grind [Kind.provider]
          · clear * - pn hx hg hy; grind [Kind.provider]
        have hal : ∀ t, sp.allowed ⟨.copyAssign a h', sidOf s (.copyAssign a h'), false⟩ .ok t := by
          intro t; simp only [Spec.allowed]; split <;> simp
        have hyk : y.kind.provider = true → ((∃ h, (Op.copyAssign a h' : Op V E) = .destroy h) ∨ ∃ k k', (Op.copyAssign a h' : Op V E) = .moveAssign k k') := by
          rw [hg.2.1]; simp [Kind.provider]
        have hly : ∀ i, sidOf s (.copyAssign a h' : Op V E) = some i → s.live i = true :=
          fun i hi => hlva h' y i hy (by simpa [sidOf, hy] using hi)
        split at hs
        · exact sim_discard h hf hs (by simp [sidOf, hy]) rfl rfl rfl hly hal rfl hyk hv
        · rename_i i hi
          have hl := hliv i hi
          split at hs
          · simp at hs
          · rename_i s2 o2 hd
            simp only [Option.some.injEq, Prod.mk.injEq] at hs
            obtain ⟨rfl, rfl⟩ := hs
            rw [quiet_addRef (s := { s with hd := upd s.hd h' (some x) }) hl, List.nil_append]
            refine sim_discard h hf hd (by simp [sidOf, hy]) (by simp) (by simp) (by simp) ?_ hal rfl hyk (hv.hd (by simp) (by simp))
            intro j hj
            have := hly j hj
            simp only [addRef]; split <;> exact this
  | destroy a =>
    simp only [Op.subject] at hk; subst hk
    simp only at hs
    split at hs <;> try (simp only [reduceCtorEq] at hs; done)
    rename_i hg
    refine sim_discard h hf hs (by simp [sidOf, Op.subject, hx]) rfl rfl rfl ?_ ?_ rfl ?_ ?_
    · intro i hi; exact hlva a x i hx (by simpa [sidOf, Op.subject, hx] using hi)
    · intro t; simp only [Spec.allowed]; split <;> simp
    · intro _; exact .inl ⟨_, rfl⟩
    · refine ⟨?_, ?_, ?_, ?_, pl⟩ <;> simp only [upd_apply]
      · clear * - pu; grind [Kind.provider]
      · clear * - pf; grind [Kind.provider]
      · clear * - pr; grind [Kind.provider]
      · clear * - pn; grind [Kind.provider]
  | get a =>
    simp only [Op.subject] at hk; subst hk
    simp only at hs
    split at hs
    · rename_i hk
      split at hs <;> try (simp only [reduceCtorEq] at hs; done)
      split at hs
      · rename_i hi
        refine sim_ret h hf hs (by simp [sidOf, Op.subject, hx]) rfl rfl rfl (.inl rfl) ?_ h.prov
        intro t; simp only [Spec.allowed, hi]; exact ⟨_, by rfl, rfl⟩
      · rename_i i hi
        simp only [Option.some.injEq, Prod.mk.injEq] at hs
        obtain ⟨rfl, rfl⟩ := hs
        refine sim_begin h hf rfl rfl rfl ?_ ⟨by simp [sidOf, Op.subject, hx, hi], .inl ⟨_, rfl⟩⟩
        refine ⟨?_, ?_, ?_, ?_, pl⟩ <;> simp only [upd_apply]
        · clear * - pu hk; grind [Kind.provider]
        · clear * - pf hk; grind [Kind.provider]
        · clear * - pr hk hx; grind [Kind.provider]
        · clear * - pn pr hk hx; grind [Kind.provider]
    · split at hs <;> try (simp only [reduceCtorEq] at hs; done)
      split at hs
      · rename_i hi
        refine sim_ret h hf hs (by simp [sidOf, Op.subject, hx]) rfl rfl rfl (.inl rfl) ?_ h.prov
        intro t; simp only [Spec.allowed, hi]; exact ⟨_, by rfl, rfl⟩
      · rename_i i hi
        exact sim_start h hf hs ⟨by simp [sidOf, Op.subject, hx, hi], .inl ⟨_, rfl⟩⟩
  | wait a =>
    simp only [Op.subject] at hk; subst hk
    simp only at hs
    split at hs <;> try (simp only [reduceCtorEq] at hs; done)
    split at hs
    · rename_i hi
      refine sim_ret h hf hs (by simp [sidOf, Op.subject, hx]) rfl rfl rfl (.inl rfl) ?_ h.prov
      intro t; simp only [Spec.allowed, hi]; exact ⟨_, by rfl, rfl⟩
    · rename_i i hi
      exact sim_start h hf hs ⟨by simp [sidOf, Op.subject, hx, hi], .inr (.inl ⟨_, rfl⟩)⟩
  | waitUntil a d =>
    simp only [Op.subject] at hk; subst hk
    simp only at hs
    split at hs <;> try (simp only [reduceCtorEq] at hs; done)
    split at hs
    · rename_i hi
      refine sim_ret h hf hs (by simp [sidOf, Op.subject, hx]) rfl rfl rfl (.inl rfl) ?_ h.prov
      intro t; simp only [Spec.allowed, hi]; exact ⟨_, by rfl, rfl⟩
    · rename_i i hi
      exact sim_start h hf hs ⟨by simp [sidOf, Op.subject, hx, hi], .inr (.inr (.inl ⟨_, _, rfl⟩))⟩
  | getExc a =>
    simp only [Op.subject] at hk; subst hk
    simp only at hs
    split at hs <;> try (simp only [reduceCtorEq] at hs; done)
    split at hs
    · rename_i hi
      refine sim_ret h hf hs (by simp [sidOf, Op.subject, hx]) rfl rfl rfl (.inl rfl) ?_ h.prov
      intro t; simp only [Spec.allowed, hi]; exact ⟨_, by rfl, rfl⟩
    · rename_i i hi
      exact sim_start h hf hs ⟨by simp [sidOf, Op.subject, hx, hi], .inr (.inr (.inr ⟨_, rfl⟩))⟩
  | valid a =>
    simp only [Op.subject] at hk; subst hk
    simp only at hs
    split at hs <;> try (simp only [reduceCtorEq] at hs; done)
    refine sim_ret h hf hs (by simp [sidOf, Op.subject, hx]) rfl rfl rfl (.inl rfl) ?_ h.prov
    intro t; simp only [Spec.allowed]; cases x.st <;> simp

theorem sim_call {s s' : State V E} {sp : Spec V E} {f : Fid} {op : Op V E} {o : List (Obs V E)}
    (hc : Core s none) (h : Sim s sp) (hf : s.pc f = .idle) (hs : call false s f op = some (s', o)) :
    ∃ sp', Spec.Runs sp (.called f op (sidOf s op) :: o) sp' ∧ Sim s' sp' := by
  simp only [call] at hs
  split at hs
  · rename_i hx
    obtain ⟨pu, pf, pr, pn, pl⟩ := h.prov
    have hlt' : ∀ h' y, s.hd h' = some y → y.st ≠ some s.next :=
      fun h' y hy hh => absurd (hc.hold_lt (o := .inl h') (by simp [holdOf, State.stOf, hy, hh])) (Nat.lt_irrefl _)
    have hgn := pl s.next (Nat.le_refl _)
    have hrn := (hc.frs s.next (Nat.le_refl _)).2
    have hcr : ∀ k h, Prov (create s h k) sp.got := by
      intro k h
      refine ⟨?_, ?_, ?_, ?_, ?_⟩ <;> simp only [create, upd_apply]
      · clear * - pu hlt'; grind [Kind.provider]
      · clear * - pf hlt' hgn; grind [Kind.provider]
      · clear * - pr; grind [Kind.provider]
      · clear * - pn; grind [Kind.provider]
      · intro j hj; exact pl j (Nat.le_of_succ_le hj)
    split at hs
    · refine sim_ret h hf hs (by simp [sidOf]) rfl rfl rfl (.inl rfl) ?_ (hcr _ _)
      intro t; simp only [Spec.allowed, h.res]; exact ⟨by simp, hrn, hgn⟩
    · refine sim_ret h hf hs (by simp [sidOf]) rfl rfl rfl (.inl rfl) ?_ (hcr _ _)
      intro t; simp only [Spec.allowed, h.res]; exact ⟨by simp, hrn, hgn⟩
    · split at hs
      · simp at hs
      · rename_i k a hk
        simp only [Op.subject] at hx
        refine sim_ret h hf hs (by simp [sidOf, Op.subject, hx]) rfl rfl rfl (.inl rfl) ?_ ?_
        · intro t; simp only [Spec.allowed]
        · refine ⟨?_, ?_, ?_, ?_, pl⟩ <;> simp only [upd_apply, gotAfter]
          · clear * - pu; grind [Kind.provider]
          · clear * - pf; grind [Kind.provider]
          · clear * - pr; grind [Kind.provider]
          · clear * - pn; grind [Kind.provider]
    · simp at hs
  · rename_i x hx
    exact sim_callOn hc h hf rfl hx hs

/-- The end of a call. -/
theorem sim_finish {s s' s2 : State V E} {sp : Spec V E} {f : Fid} {op : Op V E} {u : Use} {i : Sid} {r : Res V E} {d : Bool}
    {o q : List (Obs V E)} (h : Sim s sp) (hcf : sp.inCall f = some ⟨op, some i, d⟩) (hr : s2.res = s.res) (hp : s2.pc = s.pc)
    (hh : s2.hd = s.hd) (hx : s2.next = s.next) (hn : s2.now = s.now) (hl : s2.live i = true)
    (hq : q = [] ∨ ∃ ws, q = [.notified f i ws] ∧ s.res i ≠ none)
    (ha : sp.allowed ⟨op, some i, d⟩ r s.now) (hg : gotAfter sp.got op (some i) r = sp.got)
    (hs : finish s2 f op u i r q = some (s', o)) : ∃ sp', Spec.Runs sp o sp' ∧ Sim s' sp' := by
  have key : ∃ q2, o = q ++ q2 ++ [.ret f op (some i) r s.now] ∧ Quiet s.res q2 ∧ s'.res = s.res ∧ s'.pc = upd s.pc f .idle ∧
      s'.hd = s.hd ∧ s'.next = s.next ∧ s'.now = s.now := by
    cases u with
    | handle k =>
      simp only [finish, Option.some.injEq, Prod.mk.injEq] at hs
      obtain ⟨rfl, rfl⟩ := hs
      exact ⟨[], by simp [hn], .inl rfl, hr, by simp [hp], hh, hx, hn⟩
    | own =>
      simp only [finish, Option.some.injEq, Prod.mk.injEq] at hs
      obtain ⟨rfl, rfl⟩ := hs
      refine ⟨(release { s2 with pc := upd s2.pc f .idle } i).2, by rw [← hn], ?_, by simp [hr], by simp [hp], by simp [hh], by simp [hx], by simp [hn]⟩
      rw [← hr]; exact quiet_release (s := { s2 with pc := upd s2.pc f .idle }) hl
  obtain ⟨q2, rfl, hq2, e1, e2, e3, e4, e5⟩ := key
  have hrun : Spec.Runs sp q sp := by
    rcases hq with rfl | ⟨ws, rfl, hw⟩
    · exact .nil sp
    · exact runs_one (.notified sp f i ws (by rw [h.res]; exact hw))
  refine ⟨_, (hrun.append (runs_quiet (by rw [h.res]; exact hq2))).append (runs_one (.ret sp f ⟨op, some i, d⟩ r s.now hcf ha)), ?_, ?_, ?_⟩
  · simpa [e1] using h.res
  · intro g
    have h1 := (h.call g).congr (s' := s') (by rw [e1]; exact fun _ => id) (by omega)
    simp only [e2, upd_apply]
    split
    · rfl
    · exact h1
  · simp only [hg]; exact h.prov.hd e3 e4

/-- Moving on inside a call without observation. -/
theorem sim_move {s s' : State V E} {sp : Spec V E} {f : Fid} {p : Pc V E} (h : Sim s sp) (hr : s'.res = s.res)
    (hp : s'.pc = upd s.pc f p) (hh : s'.hd = s.hd) (hx : s'.next = s.next) (hn : s'.now = s.now)
    (hc : CallOK s' p (sp.inCall f)) : ∃ sp', Spec.Runs sp [] sp' ∧ Sim s' sp' := by
  refine ⟨sp, .nil sp, ?_, ?_, ?_⟩
  · simpa [hr] using h.res
  · intro g
    have h1 := (h.call g).congr (s' := s') (by rw [hr]; exact fun _ => id) (by omega)
    simp only [hp, upd_apply]
    split
    · subst_vars; exact hc
    · exact h1
  · exact h.prov.hd hh hx

/-- Making the result ready. -/
theorem sim_store {s s' : State V E} {sp : Spec V E} {f : Fid} {op : Op V E} {u : Use} {i : Sid} {out : Outcome V E}
    (h : Sim s sp) (hcf : sp.inCall f = some ⟨op, some i, false⟩) (hpr : produces op = some out) (hi : s.res i = none)
    (hr : s'.res = upd s.res i (some out)) (hp : s'.pc = upd s.pc f (.notify op u i)) (hh : s'.hd = s.hd)
    (hx : s'.next = s.next) (hn : s'.now = s.now)
    (hop : setter op = true ∨ (∃ h, op = .destroy h) ∨ ∃ h h', op = .moveAssign h h') :
    ∃ sp', Spec.Runs sp [.stored f i out] sp' ∧ Sim s' sp' := by
  refine ⟨_, runs_one (.stored sp f i out op hcf hpr (by rw [h.res]; exact hi)), ?_, ?_, ?_⟩
  · simp [hr, h.res]
  · intro g
    have h1 := (h.call g).congr (s' := s')
      (by intro j hj; rw [hr, upd_apply]; split <;> simp [hj]) (by omega)
    simp only [hp, upd_apply]
    split
    · exact ⟨rfl, by simp [hr], hop⟩
    · exact h1
  · exact h.prov.hd hh hx

theorem sim_run {s s' : State V E} {sp : Spec V E} {f : Fid} {o : List (Obs V E)} (hc : Core s none) (h : Sim s sp)
    (hs : run s f = some (s', o)) : ∃ sp', Spec.Runs sp o sp' ∧ Sim s' sp' := by
  simp only [run] at hs
  split at hs
  · simp at hs
  · rename_i i0 hsid
    have hl := hc.sid_live hsid
    rw [if_pos hl] at hs
    have hcf := h.call f
    have gid : ∀ {op : Op V E} {i : Option Sid} {r : Res V E}, (∀ a b, op ≠ .getFuture a b) → gotAfter sp.got op i r = sp.got := by
      intro op i r hop; unfold gotAfter; split
      · exact absurd rfl (hop _ _)
      · rfl
    unfold runLive at hs
    split at hs
    · simp at hs
    · rename_i op k i out again hp
      rw [hp] at hsid hcf; simp only [Pc.sid, Option.some.injEq] at hsid; subst hsid
      obtain ⟨h1, h2, h3⟩ := hcf
      split at hs
      · rename_i out' hi
        split at hs
        · simp only [Option.some.injEq, Prod.mk.injEq] at hs
          obtain ⟨rfl, rfl⟩ := hs
          exact sim_move h rfl rfl rfl rfl rfl ⟨h1, h2, .inr (by simp [hi])⟩
        · refine sim_finish h h1 rfl rfl rfl rfl rfl hl (.inl rfl) ?_ ?_ hs
          · cases op <;> simp [setter] at h2 <;> (simp only [Spec.allowed]; right; exact ⟨by simp, by simp, by rw [h.res, hi]; simp⟩)
          · apply gid; intro a b hop; simp [hop, setter] at h2
      · rename_i hi
        simp only [Option.some.injEq, Prod.mk.injEq] at hs
        obtain ⟨rfl, rfl⟩ := hs
        refine sim_store h h1 ?_ hi rfl rfl rfl rfl rfl (.inl h2)
        rcases h3 with h3 | h3
        · exact h3
        · exact absurd hi h3
    · rename_i op i hp
      rw [hp] at hsid hcf; simp only [Pc.sid, Option.some.injEq] at hsid; subst hsid
      obtain ⟨h1, h2⟩ := hcf
      split at hs
      · refine sim_finish h h1 rfl rfl rfl rfl rfl hl (.inl rfl) ?_ ?_ hs
        · rcases h2 with ⟨a, rfl⟩ | ⟨a, b, rfl⟩ <;> simp [Spec.allowed]
        · apply gid; rintro a b rfl; simp at h2
      · rename_i hi
        simp only [Option.some.injEq, Prod.mk.injEq] at hs
        obtain ⟨rfl, rfl⟩ := hs
        refine sim_store h h1 ?_ hi rfl rfl rfl rfl rfl (.inr h2)
        rcases h2 with ⟨a, rfl⟩ | ⟨a, b, rfl⟩ <;> rfl
    · rename_i op u i hp
      rw [hp] at hsid hcf; simp only [Pc.sid, Option.some.injEq] at hsid; subst hsid
      obtain ⟨h1, h2, h3⟩ := hcf
      split at hs <;> try (simp only [reduceCtorEq] at hs; done)
      refine sim_finish h h1 ?_ ?_ ?_ ?_ ?_ ?_ (.inr ⟨_, rfl, h2⟩) ?_ ?_ hs <;> try rfl
      · exact hl
      · rcases h3 with h3 | ⟨a, rfl⟩ | ⟨a, b, rfl⟩
        · cases op <;> simp [setter] at h3 <;> simp [Spec.allowed]
        · simp [Spec.allowed]
        · simp [Spec.allowed]
      · apply gid; rintro a b rfl; simp [setter] at h3
    · rename_i op u i hp
      rw [hp] at hsid hcf; simp only [Pc.sid, Option.some.injEq] at hsid; subst hsid
      obtain ⟨h1, h2⟩ := hcf
      split at hs
      · rename_i out hi
        refine sim_finish h h1 rfl rfl rfl rfl rfl hl (.inl rfl) ?_ ?_ hs
        · rcases h2 with ⟨a, rfl⟩ | ⟨a, rfl⟩ | ⟨a, d, rfl⟩ | ⟨a, rfl⟩ <;> cases out <;>
            simp [Spec.allowed, h.res, hi, outcome, delivers]
        · apply gid; rintro a b rfl; simp at h2
      · split at hs <;> try (simp only [reduceCtorEq] at hs; done)
        simp only [Option.some.injEq, Prod.mk.injEq] at hs
        obtain ⟨rfl, rfl⟩ := hs
        exact sim_move h rfl rfl rfl rfl rfl ⟨h1, h2⟩
    · rename_i op u i hp
      rw [hp] at hcf
      simp only [Option.some.injEq, Prod.mk.injEq] at hs
      obtain ⟨rfl, rfl⟩ := hs
      exact sim_move h rfl rfl rfl rfl rfl hcf
    · rename_i op u i ep hp
      rw [hp] at hcf
      split at hs <;> try (simp only [reduceCtorEq] at hs; done)
      split at hs
      · simp only [Option.some.injEq, Prod.mk.injEq] at hs
        obtain ⟨rfl, rfl⟩ := hs
        exact sim_move h rfl rfl rfl rfl rfl hcf
      · rename_i d hd
        split at hs
        · simp only [Option.some.injEq, Prod.mk.injEq] at hs
          obtain ⟨rfl, rfl⟩ := hs
          exact sim_move h rfl rfl rfl rfl rfl hcf
        · rename_i hlt
          simp only [Option.some.injEq, Prod.mk.injEq] at hs
          obtain ⟨rfl, rfl⟩ := hs
          obtain ⟨h1, h2⟩ := hcf
          refine sim_move h rfl rfl rfl rfl rfl ⟨h1, ?_⟩
          rcases h2 with ⟨a, rfl⟩ | ⟨a, rfl⟩ | ⟨a, d', rfl⟩ | ⟨a, rfl⟩ <;> simp [Op.dl] at hd
          subst hd
          exact ⟨_, _, rfl, by simpa using hlt⟩
    · rename_i op u i ep hp
      rw [hp] at hcf
      split at hs <;> try (simp only [reduceCtorEq] at hs; done)
      simp only [Option.some.injEq, Prod.mk.injEq] at hs
      obtain ⟨rfl, rfl⟩ := hs
      exact sim_move h rfl rfl rfl rfl rfl hcf
    · rename_i op u i hp
      rw [hp] at hsid hcf; simp only [Pc.sid, Option.some.injEq] at hsid; subst hsid
      obtain ⟨h1, a, d, rfl, hd⟩ := hcf
      split at hs
      · rename_i out hi
        refine sim_finish h h1 rfl rfl rfl rfl rfl hl (.inl rfl) ?_ (gid (by simp)) hs
        cases out <;> simp [Spec.allowed, h.res, hi, outcome, delivers]
      · rename_i hi
        refine sim_finish h h1 rfl rfl rfl rfl rfl hl (.inl rfl) ?_ (gid (by simp)) hs
        simp [Spec.allowed, h.res, hi, hd]

theorem sim_step {s s' : State V E} {sp : Spec V E} {e : Event V E} {o : List (Obs V E)} (hc : Core s none) (h : Sim s sp)
    (hs : step false s e = some (s', o)) : ∃ sp', Spec.Runs sp o sp' ∧ Sim s' sp' := by
  cases e with
  | call f op =>
    simp only [step] at hs
    split at hs <;> try (simp only [reduceCtorEq] at hs; done)
    rename_i hf
    split at hs
    · simp at hs
    · rename_i s2 o2 h2
      simp only [Option.some.injEq, Prod.mk.injEq] at hs
      obtain ⟨rfl, rfl⟩ := hs
      exact sim_call hc h (idle_of_sid hf) h2
  | run f => exact sim_run hc h hs
  | timer f =>
    simp only [step] at hs
    split at hs <;> try (simp only [reduceCtorEq] at hs; done)
    split at hs <;> try (simp only [reduceCtorEq] at hs; done)
    split at hs <;> try (simp only [reduceCtorEq] at hs; done)
    simp only [Option.some.injEq, Prod.mk.injEq] at hs
    obtain ⟨rfl, rfl⟩ := hs
    exact ⟨sp, .nil sp, h.res, fun g => (h.call g).congr (fun _ => id) (Nat.le_refl _), h.prov.hd rfl rfl⟩
  | tick n =>
    simp only [step, Option.some.injEq, Prod.mk.injEq] at hs
    obtain ⟨rfl, rfl⟩ := hs
    exact ⟨sp, .nil sp, h.res, fun g => (h.call g).congr (fun _ => id) (Nat.le_add_right _ _), h.prov.hd rfl rfl⟩
  | elsewhere f n =>
    simp only [step] at hs
    split at hs <;> try (simp only [reduceCtorEq] at hs; done)
    simp only [Option.some.injEq, Prod.mk.injEq] at hs
    obtain ⟨rfl, rfl⟩ := hs
    exact ⟨sp, .nil sp, h.res, fun g => (h.call g).congr (fun _ => id) (Nat.le_refl _), h.prov.hd rfl rfl⟩

theorem sim_init : Sim (init : State V E) Spec.init := by
  refine ⟨rfl, fun f => rfl, ?_⟩
  constructor <;> simp [init, Spec.init]

theorem reach_sim {s : State V E} {tr : List (Obs V E)} (h : Reach (step false) init s tr) :
    ∃ sp, Spec.Runs Spec.init tr sp ∧ Sim s sp := by
  refine Reach.inv (fun s tr => ∃ sp, Spec.Runs Spec.init tr sp ∧ Sim s sp) ⟨_, .nil _, sim_init⟩ ?_ h
  rintro s tr e s' o hr ⟨sp, h1, h2⟩ hs
  obtain ⟨sp', h3, h4⟩ := sim_step (reach_core hr) h2 hs
  exact ⟨sp', h1.append h3, h4⟩

end Verif.Fut
