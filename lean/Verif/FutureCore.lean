import Verif.FutureInv

/-!
# Futures: every step keeps the reference counts right and touches only live results
-/

namespace Verif.Fut

variable {V E : Type}

/-- The outcome of a step: counts are right and nothing freed was touched. -/
def Good (s : State V E) (o : List (Obs V E)) : Prop := Core s none ∧ ∀ i, .ub i ∉ o

theorem idle_of_sid {p : Pc V E} (h : p.sid = none) : p = .idle := by
  cases p <;> simp [Pc.sid] at h; rfl

theorem ub_release {s : State V E} {j i : Sid} (h : s.live j = true) : Obs.ub i ∉ (release s j).2 := by
  simp only [release, h, if_true]; split <;> simp

theorem ub_addRef {s : State V E} {j i : Sid} (h : s.live j = true) : Obs.ub i ∉ (addRef s j).2 := by
  simp [addRef, h]

theorem good_ret {s s' : State V E} {f : Fid} {op : Op V E} {i : Option Sid} {r : Res V E} {o o' : List (Obs V E)}
    (h : Good s o) (hs : ret s f op i r o = some (s', o')) : Good s' o' := by
  simp only [ret, Option.some.injEq, Prod.mk.injEq] at hs
  obtain ⟨rfl, rfl⟩ := hs
  exact ⟨h.1, by have := h.2; simp [this]⟩

theorem good_release {s : State V E} {j : Sid} (h : Core s (some j)) : Good (release s j).1 (release s j).2 :=
  ⟨h.release, fun _ => ub_release ((h.liv j).2 (h.pos j rfl))⟩

theorem good_start {s s' : State V E} {f : Fid} {k : Hid} {p : Pc V E} {o : List (Obs V E)} (h : Core s none)
    (hf : (s.pc f).sid = none) (hu : p.uses = some k) (hi : p.sid = s.stOf k) (ho : p.owns = none)
    (hs : start s f k p = some (s', o)) : Good s' o := by
  simp only [start, Option.some.injEq, Prod.mk.injEq] at hs
  obtain ⟨rfl, rfl⟩ := hs
  exact ⟨h.start hf hu hi ho rfl, by simp⟩

theorem good_discard {s s' : State V E} {f : Fid} {op : Op V E} {i : Option Sid} {y : Handle} {o : List (Obs V E)}
    (h : Core s y.st) (hf : (s.pc f).sid = none) (hs : discard s f op i y = some (s', o)) : Good s' o := by
  have hid := idle_of_sid hf
  simp only [discard] at hs
  split at hs
  · rename_i hy; rw [hy] at h; exact good_ret (o := []) ⟨h, by simp⟩ hs
  · rename_i j hy; rw [hy] at h
    split at hs
    · simp only [Option.some.injEq, Prod.mk.injEq] at hs
      obtain ⟨rfl, rfl⟩ := hs
      refine ⟨h.pc1 (f := f) (p := .owner op j) (by simp [hid, Pc.uses]) (by simp [Pc.uses]) rfl ?_ (by simp), by simp⟩
      intro k
      have := h.pos j rfl
      simp only [hid, Pc.owns, one_none, one_some]
      split
      · subst_vars; omega
      · omega
    · exact good_ret (good_release h) hs

theorem users_of_free {s : State V E} {h : Hid} (hf : free false s h = true) : s.users h = [] := by
  simpa [free, List.eq_nil_iff_forall_not_mem] using hf

theorem Core.create {s : State V E} {h : Hid} {k : Kind} (hc : Core s none) (hu : s.users h = []) :
    Core (create s h k) (s.stOf h) := by
  have h0 : s.refs s.next = 0 := (hc.frs _ (Nat.le_refl _)).1
  have hlt : ∀ j, s.stOf h = some j → j < s.next := fun j hj => hc.hold_lt (o := .inl h) hj
  have hpos : ∀ j, s.stOf h = some j → 0 < s.refs j := fun j hj => hc.hold_pos (o := .inl h) hj
  constructor
  · refine (hc.ref.set (.inl h) (some s.next)).congr ?_ ?_
    · rintro (a | a) <;> simp only [holdOf, State.stOf, Fut.create, upd_apply]
      · split <;> simp_all
      · simp
    · intro j
      have := hlt j; have := hpos j
      simp only [Fut.create, upd_apply, adj, holdOf, one_none, one_some]
      clear * - h0 hlt hpos
      unfold one; grind
  · intro j hj
    have := hlt j hj; have := hpos j hj
    simp only [Fut.create, upd_apply]; split <;> omega
  · intro j
    have := hc.liv j
    simp only [Fut.create, upd_apply]; split <;> simp_all
  · intro j hj
    have hj : s.next + 1 ≤ j := hj
    simp only [Fut.create, upd_apply]
    have := hc.frs j (Nat.le_of_succ_le hj)
    refine ⟨?_, this.2⟩
    split
    · subst_vars; exact absurd hj (Nat.not_succ_le_self _)
    · exact this.1
  · exact hc.usr
  · exact hc.nod
  · intro f k hk
    simp only [Fut.create, State.stOf, upd_apply] at hk ⊢
    split
    · subst_vars; have := (hc.usr _ f).2 hk; simp [hu] at this
    · exact hc.use f k hk

theorem good_callOn {s s' : State V E} {f : Fid} {op : Op V E} {h : Hid} {x : Handle} {o : List (Obs V E)}
    (hc : Core s none) (hf : (s.pc f).sid = none) (hx : s.hd h = some x)
    (hs : callOn false s f op h x = some (s', o)) : Good s' o := by
  have hst : s.stOf h = x.st := by simp [State.stOf, hx]
  have hid := idle_of_sid hf
  have triv : Good s [] := ⟨hc, by simp⟩
  have hx1 : ∀ j, one x.st j ≤ s.refs j := fun j => by have := hc.one_le (.inl h) j; simpa [holdOf, hst] using this
  have hnone : ∀ {h'}, s.hd h' = none → s.stOf h' = none := fun hh => by simp [State.stOf, hh]
  have hne : ∀ {h'}, s.hd h' = none → h' ≠ h := by rintro h' hh rfl; rw [hx] at hh; cases hh
  unfold callOn at hs
  cases op with
  | mkPromise | mkTask | mkEmpty => simp at hs
  | getFuture a h' =>
    simp only at hs
    split at hs <;> try (simp only [reduceCtorEq] at hs; done)
    rename_i hg
    split at hs
    · exact good_ret triv hs
    · split at hs
      · exact good_ret triv hs
      · rename_i i hi
        have hpos : 0 < s.refs i := hc.hold_pos (o := .inl h) (by simp [holdOf, hst, hi])
        refine good_ret ⟨?_, fun _ => ub_addRef ?_⟩ hs
        · -- first the flag, then the new handle
          have h1 : Core { s with hd := upd s.hd h (some { x with obtained := true }) } none := by
            have hh : holdOf { s with hd := upd s.hd h (some { x with obtained := true }) } = holdOf s := by
              funext o; cases o <;> simp only [holdOf, State.stOf, upd_apply]
              split
              · subst_vars; simp [hx]
              · rfl
            refine ⟨?_, hc.pos, hc.liv, hc.frs, hc.usr, hc.nod, ?_⟩
            · rw [hh]; exact hc.ref
            · intro g k hk
              have := hc.use g k hk
              simp only [State.stOf, upd_apply] at this ⊢
              split
              · subst_vars; simpa [hx] using this
              · exact this
          have hn : h ≠ h' := fun e => hne hg.2 e.symm
          have hst' : (State.stOf { s with hd := upd s.hd h (some { x with obtained := true }) } h') = none := by
            simp [State.stOf, upd_apply, hne hg.2, hg.2]
          exact h1.addRef (k := h') (x := ⟨.future, false, some i⟩) hpos hst' rfl (h1.users_nil hst') rfl
        · exact (hc.liv i).2 hpos
  | setValue a v | setExc a e =>
    simp only at hs
    split at hs <;> try (simp only [reduceCtorEq] at hs; done)
    split at hs
    · exact good_ret triv hs
    · exact good_start hc hf rfl (by simp [Pc.sid, hst, *]) rfl hs
  | invoke a out =>
    simp only at hs
    split at hs <;> try (simp only [reduceCtorEq] at hs; done)
    split at hs
    · exact good_ret triv hs
    · split at hs
      · exact good_start hc hf rfl (by simp [Pc.sid, hst, *]) rfl hs
      · exact good_start hc hf rfl (by simp [Pc.sid, hst, *]) rfl hs
  | reset a =>
    simp only at hs
    split at hs <;> try (simp only [reduceCtorEq] at hs; done)
    rename_i hg
    split at hs
    · exact good_ret triv hs
    · rename_i i hi
      have := hc.create (k := .task) (users_of_free hg.2)
      rw [hst, hi] at this
      exact good_ret (good_release this) hs
  | move a h' =>
    simp only at hs
    split at hs <;> try (simp only [reduceCtorEq] at hs; done)
    rename_i hg
    refine good_ret (o := []) ⟨hc.hd2 (hne hg.1) (hc.users_nil (hnone hg.1)) (users_of_free hg.2) rfl ?_ (by simp), by simp⟩ hs
    intro j; have := hx1 j; simp only [hnone hg.1, hst, one_none, Option.bind_some]; omega
  | share a h' =>
    simp only at hs
    split at hs <;> try (simp only [reduceCtorEq] at hs; done)
    rename_i hg
    refine good_ret (o := []) ⟨hc.hd2 (hne hg.2.1) (hc.users_nil (hnone hg.2.1)) (users_of_free hg.2.2) rfl ?_ (by simp), by simp⟩ hs
    intro j; have := hx1 j; simp only [hnone hg.2.1, hst, one_none, Option.bind_some]; omega
  | moveAssign a h' =>
    simp only at hs
    split at hs
    · exact good_ret triv hs
    · rename_i hn
      split at hs
      · simp at hs
      · rename_i y hy
        split at hs <;> try (simp only [reduceCtorEq] at hs; done)
        rename_i hg
        have hst' : s.stOf h' = y.st := by simp [State.stOf, hy]
        have hn' : h' ≠ h := fun e => hn e.symm
        refine good_discard ?_ (by simpa using hf) hs
        refine hc.hd2 hn' (users_of_free hg.2.2) (users_of_free hg.2.1) rfl ?_ ?_
        · intro j
          have := hc.two_le (o := .inl h) (o' := .inl h') (by simpa using hn) j
          simp only [holdOf, hst, hst'] at this
          simp only [hst', hst, Option.bind_some, one_none]; omega
        · intro j hj; exact hc.hold_pos (o := .inl h') (by simp [holdOf, hst', hj])
  | swap a h' =>
    simp only at hs
    split at hs
    · simp at hs
    · rename_i y hy
      split at hs <;> try (simp only [reduceCtorEq] at hs; done)
      rename_i hg
      have hst' : s.stOf h' = y.st := by simp [State.stOf, hy]
      by_cases hn : h = h'
      · subst hn
        have : y = x := by rw [hx] at hy; cases hy; rfl
        subst this
        refine good_ret (o := []) ⟨hc.hd1 (a := h) (x := some y) (users_of_free hg.2.2.1) ?_ ?_ (by simp), by simp⟩ hs
        · congr 1; funext k; simp only [upd_apply]; split <;> rfl
        · intro j; have := hx1 j; simp only [hst, Option.bind_some, one_none]; omega
      · refine good_ret (o := []) ⟨hc.hd2 hn (users_of_free hg.2.2.1) (users_of_free hg.2.2.2) rfl ?_ (by simp), by simp⟩ hs
        intro j
        have := hc.two_le (o := .inl h) (o' := .inl h') (by simpa using hn) j
        simp only [holdOf, hst, hst'] at this
        simp only [hst', hst, Option.bind_some, one_none]; omega
  | copy a h' =>
    simp only at hs
    split at hs <;> try (simp only [reduceCtorEq] at hs; done)
    rename_i hg
    split at hs
    · rename_i hi
      refine good_ret (o := []) ⟨hc.hd1 (hc.users_nil (hnone hg.2)) rfl ?_ (by simp), by simp⟩ hs
      intro j; simp only [hnone hg.2, Option.bind_some, hi, one_none]; omega
    · rename_i i hi
      have hpos : 0 < s.refs i := hc.hold_pos (o := .inl h) (by simp [holdOf, hst, hi])
      exact good_ret ⟨hc.addRef (x := x) hpos (hnone hg.2) hi (hc.users_nil (hnone hg.2)) rfl,
        fun _ => ub_addRef (s := { s with hd := upd s.hd h' (some x) }) ((hc.liv i).2 hpos)⟩ hs
  | copyAssign a h' =>
    simp only at hs
    split at hs
    · exact good_ret triv hs
    · rename_i hn
      split at hs
      · simp at hs
      · rename_i y hy
        split at hs <;> try (simp only [reduceCtorEq] at hs; done)
        rename_i hg
        have hst' : s.stOf h' = y.st := by simp [State.stOf, hy]
        have hu' := users_of_free hg.2.2
        split at hs
        · rename_i hi
          refine good_discard ?_ (by simpa using hf) hs
          refine hc.hd1 hu' rfl ?_ ?_
          · intro j; simp only [hst', Option.bind_some, hi, one_none, Nat.add_zero]
          · intro j hj; exact hc.hold_pos (o := .inl h') (by simp [holdOf, hst', hj])
        · rename_i i hi
          have hpos : 0 < s.refs i := hc.hold_pos (o := .inl h) (by simp [holdOf, hst, hi])
          have hl := (hc.liv i).2 hpos
          split at hs
          · simp at hs
          · rename_i s2 o2 hd
            simp only [Option.some.injEq, Prod.mk.injEq] at hs
            obtain ⟨rfl, rfl⟩ := hs
            have hcore : Core (addRef { s with hd := upd s.hd h' (some x) } i).1 y.st := by
              have hle := hc.one_le (.inl h')
              have hp' : ∀ j, y.st = some j → 0 < s.refs j := fun j hj => hc.hold_pos (o := .inl h') (by simp [holdOf, hst', hj])
              constructor
              · rw [holdOf_addRef]
                refine (hc.ref.set (.inl h') x.st).congr ?_ ?_
                · rintro (b | b) <;> simp only [holdOf, State.stOf, upd_apply]
                  · split <;> simp_all
                  · simp
                · intro j
                  have := hle j
                  simp only [holdOf, hst'] at this
                  simp only [addRef, hl, if_true, adj, holdOf, hst', hi, upd_apply, one_none, one_some]
                  split
                  · subst_vars; simp; omega
                  · rw [if_neg (by rename_i hh; exact fun e => hh e.symm)]; omega
              · intro j hj
                have := hp' j hj
                simp only [addRef, hl, if_true, upd_apply]; split <;> omega
              · intro j; have := hc.liv j
                simp only [addRef, hl, if_true, upd_apply]
                split <;> simp_all
              · intro j hj
                simp only [addRef_next] at hj
                have := hc.frs j hj
                simp only [addRef_res]
                refine ⟨?_, this.2⟩
                simp only [addRef, hl, if_true, upd_apply]
                split <;> simp_all
              · simpa using hc.usr
              · simpa using hc.nod
              · intro g k hk
                simp only [addRef_pc, State.stOf, addRef_hd, upd_apply] at hk ⊢
                split
                · subst_vars; have := (hc.usr _ g).2 hk; simp [hu'] at this
                · exact hc.use g k hk
            have hg2 := good_discard hcore (by simpa using hf) hd
            refine ⟨hg2.1, fun k hk => ?_⟩
            rcases List.mem_append.1 hk with hk | hk
            · exact ub_addRef (s := { s with hd := upd s.hd h' (some x) }) hl hk
            · exact hg2.2 k hk
  | destroy a =>
    simp only at hs
    split at hs <;> try (simp only [reduceCtorEq] at hs; done)
    rename_i hg
    refine good_discard ?_ (by simpa using hf) hs
    refine hc.hd1 (users_of_free hg) rfl ?_ ?_
    · intro j; simp [hst]
    · intro j hj; exact hc.hold_pos (o := .inl h) (by simp [holdOf, hst, hj])
  | get a =>
    simp only at hs
    split at hs
    · split at hs <;> try (simp only [reduceCtorEq] at hs; done)
      rename_i hg
      split at hs
      · exact good_ret triv hs
      · rename_i i hi
        simp only [Option.some.injEq, Prod.mk.injEq] at hs
        obtain ⟨rfl, rfl⟩ := hs
        have hpos : 0 < s.refs i := hc.hold_pos (o := .inl h) (by simp [holdOf, hst, hi])
        have h1 : Core { s with hd := upd s.hd h (some { x with st := none }) } (some i) := by
          refine hc.hd1 (users_of_free hg) rfl ?_ ?_
          · intro j; simp [hst, hi]
          · intro j hj; cases hj; exact hpos
        refine ⟨h1.pc1 (f := f) (p := .enter (.get a) .own i) (by simp [hid, Pc.uses]) rfl rfl ?_ (by simp), by simp⟩
        intro j
        simp only [hid, Pc.owns, one_none, one_some]
        split
        · subst_vars; omega
        · omega
    · split at hs <;> try (simp only [reduceCtorEq] at hs; done)
      split at hs
      · exact good_ret triv hs
      · exact good_start hc hf rfl (by simp [Pc.sid, hst, *]) rfl hs
  | wait a | waitUntil a d | getExc a =>
    simp only at hs
    split at hs
    · simp at hs
    · split at hs
      · exact good_ret triv hs
      · exact good_start hc hf rfl (by simp [Pc.sid, hst, *]) rfl hs
  | valid a =>
    simp only at hs
    split at hs
    · simp at hs
    · exact good_ret triv hs

theorem good_call {s s' : State V E} {f : Fid} {op : Op V E} {o : List (Obs V E)} (hc : Core s none)
    (hf : (s.pc f).sid = none) (hs : call false s f op = some (s', o)) : Good s' o := by
  simp only [call] at hs
  split at hs
  · rename_i hx
    have hst : s.stOf op.subject = none := by simp [State.stOf, hx]
    have hu := hc.users_nil hst
    split at hs
    · have := hc.create (k := .promise) hu
      rw [hst] at this
      exact good_ret (o := []) ⟨this, by simp⟩ hs
    · have := hc.create (k := .task) hu
      rw [hst] at this
      exact good_ret (o := []) ⟨this, by simp⟩ hs
    · split at hs
      · simp at hs
      · refine good_ret (o := []) ⟨hc.hd1 hu rfl ?_ (by simp), by simp⟩ hs
        intro j
        rw [hst]; simp
    · simp at hs
  · rename_i x hx
    exact good_callOn hc hf hx hs

theorem good_finish {s s' : State V E} {f : Fid} {op : Op V E} {u : Use} {i : Sid} {r : Res V E} {o o' : List (Obs V E)}
    (hc : Core s none) (hu : (s.pc f).uses = (match u with | .handle h => some h | .own => none))
    (ho : (s.pc f).owns = (match u with | .handle _ => none | .own => some i))
    (hub : ∀ j, .ub j ∉ o) (hs : finish s f op u i r o = some (s', o')) : Good s' o' := by
  cases u with
  | handle h =>
    simp only [finish, Option.some.injEq, Prod.mk.injEq] at hs
    obtain ⟨rfl, rfl⟩ := hs
    exact ⟨hc.leave hu ho rfl, by simp [hub]⟩
  | own =>
    simp only [finish, Option.some.injEq, Prod.mk.injEq] at hs
    obtain ⟨rfl, rfl⟩ := hs
    have h1 : Core { s with pc := upd s.pc f .idle } (some i) := by
      refine hc.pc1 hu rfl rfl ?_ ?_
      · intro j; rw [ho]; simp [Pc.owns]
      · intro j hj; cases hj; exact hc.hold_pos (o := .inr f) (by simp [holdOf, ho])
    have h2 := good_release h1
    refine ⟨h2.1, fun j => ?_⟩
    simp only [List.append_assoc, List.mem_append, List.mem_singleton, reduceCtorEq, or_false, not_or]
    exact ⟨hub j, h2.2 j⟩

theorem good_run {s s' : State V E} {f : Fid} {o : List (Obs V E)} (hc : Core s none)
    (hs : run s f = some (s', o)) : Good s' o := by
  simp only [run] at hs
  split at hs
  · simp at hs
  · rename_i i0 hsid
    have hl := hc.sid_live hsid
    have hlt : i0 < s.next := by
      rcases Nat.lt_or_ge i0 s.next with h1 | h1
      · exact h1
      · have := (hc.liv i0).1 hl; have := (hc.frs i0 h1).1; omega
    rw [if_pos hl] at hs
    have step1 : ∀ {p : Pc V E} {s2 : State V E}, p.uses = (s.pc f).uses → p.sid = (s.pc f).sid → p.owns = (s.pc f).owns →
        s2.hd = s.hd → s2.users = s.users → s2.refs = s.refs → s2.live = s.live → s2.next = s.next →
        (∀ j, s.next ≤ j → s2.res j = s.res j) → s2.pc = upd s.pc f p → Core s2 none :=
      fun h1 h2 h3 e1 e2 e3 e4 e5 e6 e7 => hc.pcs h1 h2 h3 e1 e2 e3 e4 e5 e6 e7
    unfold runLive at hs
    split at hs
    · simp at hs
    · rename_i op h i out again hp
      rw [hp] at hsid; simp only [Pc.sid, Option.some.injEq] at hsid; subst hsid
      split at hs
      · split at hs
        · simp only [Option.some.injEq, Prod.mk.injEq] at hs
          obtain ⟨rfl, rfl⟩ := hs
          refine ⟨step1 (p := .set op h i (.exn .satisfied) false) ?_ ?_ ?_ rfl rfl rfl rfl rfl (fun _ _ => rfl) rfl, by simp⟩ <;>
            simp [hp, Pc.uses, Pc.owns, Pc.sid]
        · exact good_finish hc (by simp [hp, Pc.uses]) (by simp [hp, Pc.owns]) (by simp) hs
      · simp only [Option.some.injEq, Prod.mk.injEq] at hs
        obtain ⟨rfl, rfl⟩ := hs
        refine ⟨step1 (p := .notify op (.handle h) i) ?_ ?_ ?_ rfl rfl rfl rfl rfl ?_ rfl, by simp⟩
        · simp [hp, Pc.uses]
        · simp [hp, Pc.sid]
        · simp [hp, Pc.owns]
        · intro j hj; simp only [upd_apply]; rw [if_neg (fun e : j = i => Nat.not_lt.2 hj (e ▸ hlt))]
    · rename_i op i hp
      rw [hp] at hsid; simp only [Pc.sid, Option.some.injEq] at hsid; subst hsid
      split at hs
      · exact good_finish hc (by simp [hp, Pc.uses]) (by simp [hp, Pc.owns]) (by simp) hs
      · simp only [Option.some.injEq, Prod.mk.injEq] at hs
        obtain ⟨rfl, rfl⟩ := hs
        refine ⟨step1 (p := .notify op .own i) ?_ ?_ ?_ rfl rfl rfl rfl rfl ?_ rfl, by simp⟩
        · simp [hp, Pc.uses]
        · simp [hp, Pc.sid]
        · simp [hp, Pc.owns]
        · intro j hj; simp only [upd_apply]; rw [if_neg (fun e : j = i => Nat.not_lt.2 hj (e ▸ hlt))]
    · rename_i op u i hp
      split at hs <;> try (simp only [reduceCtorEq] at hs; done)
      refine good_finish (s := { s with c := (notifyAll s.c (s.q i)).1, q := upd s.q i [] }) (u := u) (i := i) ?_ ?_ ?_ ?_ hs
      · exact ⟨hc.ref, hc.pos, hc.liv, hc.frs, hc.usr, hc.nod, hc.use⟩
      · cases u <;> simp [hp, Pc.uses]
      · cases u <;> simp [hp, Pc.owns]
      · simp
    · rename_i op u i hp
      split at hs
      · exact good_finish (u := u) (i := i) hc (by cases u <;> simp [hp, Pc.uses]) (by cases u <;> simp [hp, Pc.owns]) (by simp) hs
      · split at hs <;> try (simp only [reduceCtorEq] at hs; done)
        simp only [Option.some.injEq, Prod.mk.injEq] at hs
        obtain ⟨rfl, rfl⟩ := hs
        refine ⟨step1 (p := .enq op u i) ?_ ?_ ?_ rfl rfl rfl rfl rfl (fun _ _ => rfl) rfl, by simp⟩ <;>
          cases u <;> simp [hp, Pc.uses, Pc.owns, Pc.sid]
    · rename_i op u i hp
      simp only [Option.some.injEq, Prod.mk.injEq] at hs
      obtain ⟨rfl, rfl⟩ := hs
      refine ⟨step1 (p := .waiting op u i (s.c.epoch f + 1)) ?_ ?_ ?_ rfl rfl rfl rfl rfl (fun _ _ => rfl) rfl, by simp⟩ <;>
        cases u <;> simp [hp, Pc.uses, Pc.owns, Pc.sid]
    · rename_i op u i ep hp
      split at hs <;> try (simp only [reduceCtorEq] at hs; done)
      split at hs
      · simp only [Option.some.injEq, Prod.mk.injEq] at hs
        obtain ⟨rfl, rfl⟩ := hs
        refine ⟨step1 (p := .enter op u i) ?_ ?_ ?_ rfl rfl rfl rfl rfl (fun _ _ => rfl) rfl, by simp⟩ <;>
          cases u <;> simp [hp, Pc.uses, Pc.owns, Pc.sid]
      · split at hs
        · simp only [Option.some.injEq, Prod.mk.injEq] at hs
          obtain ⟨rfl, rfl⟩ := hs
          refine ⟨step1 (p := .enter op u i) ?_ ?_ ?_ rfl rfl rfl rfl rfl (fun _ _ => rfl) rfl, by simp⟩ <;>
            cases u <;> simp [hp, Pc.uses, Pc.owns, Pc.sid]
        · simp only [Option.some.injEq, Prod.mk.injEq] at hs
          obtain ⟨rfl, rfl⟩ := hs
          refine ⟨step1 (p := .unlink op u i ep) ?_ ?_ ?_ rfl rfl rfl rfl rfl (fun _ _ => rfl) rfl, by simp⟩ <;>
            cases u <;> simp [hp, Pc.uses, Pc.owns, Pc.sid]
    · rename_i op u i ep hp
      split at hs <;> try (simp only [reduceCtorEq] at hs; done)
      simp only [Option.some.injEq, Prod.mk.injEq] at hs
      obtain ⟨rfl, rfl⟩ := hs
      refine ⟨step1 (p := .last op u i) ?_ ?_ ?_ rfl rfl rfl rfl rfl (fun _ _ => rfl) rfl, by simp⟩ <;>
        cases u <;> simp [hp, Pc.uses, Pc.owns, Pc.sid]
    · rename_i op u i hp
      split at hs
      · exact good_finish (u := u) (i := i) hc (by cases u <;> simp [hp, Pc.uses]) (by cases u <;> simp [hp, Pc.owns]) (by simp) hs
      · exact good_finish (u := u) (i := i) hc (by cases u <;> simp [hp, Pc.uses]) (by cases u <;> simp [hp, Pc.owns]) (by simp) hs

theorem good_step {s s' : State V E} {e : Event V E} {o : List (Obs V E)} (hc : Core s none)
    (hs : step false s e = some (s', o)) : Good s' o := by
  cases e with
  | call f op =>
    simp only [step] at hs
    split at hs <;> try (simp only [reduceCtorEq] at hs; done)
    rename_i hf
    split at hs
    · simp at hs
    · rename_i s2 o2 h2
      simp only [Option.some.injEq, Prod.mk.injEq] at hs
      obtain ⟨rfl, rfl⟩ := hs
      have := good_call hc hf h2
      exact ⟨this.1, by simp [this.2]⟩
  | run f => exact good_run hc hs
  | timer f =>
    simp only [step] at hs
    split at hs <;> try (simp only [reduceCtorEq] at hs; done)
    split at hs <;> try (simp only [reduceCtorEq] at hs; done)
    split at hs <;> try (simp only [reduceCtorEq] at hs; done)
    simp only [Option.some.injEq, Prod.mk.injEq] at hs
    obtain ⟨rfl, rfl⟩ := hs
    exact ⟨⟨hc.ref, hc.pos, hc.liv, hc.frs, hc.usr, hc.nod, hc.use⟩, by simp⟩
  | tick n =>
    simp only [step, Option.some.injEq, Prod.mk.injEq] at hs
    obtain ⟨rfl, rfl⟩ := hs
    exact ⟨⟨hc.ref, hc.pos, hc.liv, hc.frs, hc.usr, hc.nod, hc.use⟩, by simp⟩
  | elsewhere f n =>
    simp only [step] at hs
    split at hs <;> try (simp only [reduceCtorEq] at hs; done)
    simp only [Option.some.injEq, Prod.mk.injEq] at hs
    obtain ⟨rfl, rfl⟩ := hs
    exact ⟨⟨hc.ref, hc.pos, hc.liv, hc.frs, hc.usr, hc.nod, hc.use⟩, by simp⟩

theorem reach_core {s : State V E} {tr : List (Obs V E)} (h : Reach (step false) init s tr) : Core s none :=
  Reach.inv (fun s _ => Core s none) core_init (fun _ _ _ _ _ _ hi hs => (good_step hi hs).1) h

end Verif.Fut
