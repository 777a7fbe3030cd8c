import Verif.FutureTrace
import Verif.FutureWait

/-!
# Futures: who can still make a result ready
-/

namespace Verif.Fut

variable {V E : Type}

/-- A promise or task refers to result `i`. -/
def hasProv (s : State V E) (i : Sid) : Prop :=
  ∃ h x, s.hd h = some x ∧ x.kind.provider = true ∧ x.st = some i

/-- A promise or task whose future has been retrieved refers to result `i`. -/
def provAt (s : State V E) (i : Sid) : Prop :=
  ∃ h x, s.hd h = some x ∧ x.kind.provider = true ∧ x.st = some i ∧ x.obtained = true

/-- What a call does to the promises and tasks. -/
structure HdChg (s s' : State V E) (f : Fid) (op : Op V E) (o : List (Obs V E)) : Prop where
  keep : ∀ i, provAt s i → provAt s' i ∨ s'.pc f = .owner op i ∨ (sidOf s op = some i ∧ ∃ h, op = .reset h)
  back : ∀ i, hasProv s' i → i ≠ s.next → hasProv s i
  owner : ∀ op' i, s'.pc f = .owner op' i → provAt s i
  sets : ∀ op' h i out a, s'.pc f = .set op' h i out a → hasProv s i
  got  : ∀ f' h h' i t, .ret f' (.getFuture h h') (some i) .ok t ∈ o → provAt s' i

theorem prov_promise : Kind.promise.provider = true := rfl
theorem prov_task : Kind.task.provider = true := rfl
theorem prov_future : Kind.future.provider = false := rfl
theorem prov_shared : Kind.shared.provider = false := rfl

theorem no_ret_release (s : State V E) (i : Sid) (f : Fid) (op : Op V E) (j : Option Sid) (r : Res V E) (t : Nat) :
    .ret f op j r t ∉ (release s i).2 := by
  unfold release; split <;> (try split) <;> simp

theorem no_ret_addRef (s : State V E) (i : Sid) (f : Fid) (op : Op V E) (j : Option Sid) (r : Res V E) (t : Nat) :
    .ret f op j r t ∉ (addRef s i).2 := by
  unfold addRef; split <;> simp

theorem call_hd {s s' : State V E} {f : Fid} {op : Op V E} {o : List (Obs V E)} (hid : s.pc f = .idle)
    (hs : call false s f op = some (s', o)) : HdChg s s' f op o := by
  simp only [call] at hs
  split at hs
  · rename_i hn
    cases op <;> simp only [reduceCtorEq, ret, create] at hs
    all_goals (try split at hs) <;> try (simp only [reduceCtorEq] at hs; done)
    all_goals
      simp only [Option.some.injEq, Prod.mk.injEq] at hs
      obtain ⟨rfl, rfl⟩ := hs
      simp only [Op.subject] at hn
      constructor <;> (try simp only [provAt, hasProv, upd]) <;> grind
  · rename_i x hx
    generalize hk : op.subject = k at hs hx
    cases op <;> simp only [Op.subject] at hk <;> subst hk <;>
      simp only [callOn, ret, start, discard, create] at hs
    all_goals (repeat' split at hs) <;> try (simp only [reduceCtorEq] at hs; done)
    all_goals
      simp only [Option.some.injEq, Prod.mk.injEq] at hs
      obtain ⟨rfl, rfl⟩ := hs
    all_goals (try (rename_i heq2; (repeat' split at heq2) <;> simp only [Option.some.injEq, Prod.mk.injEq] at heq2 <;>
      obtain ⟨rfl, rfl⟩ := heq2))
    all_goals
      constructor <;>
        (try simp only [provAt, hasProv, release_hd, addRef_hd, release_pc, addRef_pc, upd, sidOf, Op.subject, List.mem_append, no_ret_release, no_ret_addRef]) <;>
        grind [prov_promise, prov_task, prov_future, prov_shared]

/-! ## Orphans -/

/-- Nobody can make result `i` ready any more. -/
structure Orphan (s : State V E) (i : Sid) : Prop where
  lt   : i < s.next
  res  : s.res i = none
  prov : ¬ hasProv s i
  pcs  : ∀ f, (∀ op h out a, s.pc f ≠ .set op h i out a) ∧ ∀ op, s.pc f ≠ .owner op i

theorem finish_hd {s s' : State V E} {f : Fid} {op : Op V E} {u : Use} {i : Sid} {r : Res V E} {q o : List (Obs V E)}
    (hs : finish s f op u i r q = some (s', o)) : s'.hd = s.hd ∧ s'.next = s.next := by
  cases u <;> simp only [finish, Option.some.injEq, Prod.mk.injEq] at hs <;> obtain ⟨rfl, rfl⟩ := hs <;> simp

/-- What a step inside a call does to the promises, tasks and results. -/
theorem run_prov {s s' : State V E} {f : Fid} {o : List (Obs V E)} (hs : run s f = some (s', o)) :
    s'.hd = s.hd ∧ s'.next = s.next ∧ (∃ p, s'.pc = upd s.pc f p ∧ (∀ op i, p ≠ .owner op i) ∧
      (∀ op h i out a, p = .set op h i out a → ∃ out' a', s.pc f = .set op h i out' a')) ∧
    (∀ i, s'.res i ≠ s.res i → (∃ op h out a, s.pc f = .set op h i out a) ∨ ∃ op, s.pc f = .owner op i) ∧
    (∀ op i, s.pc f = .owner op i → s.live i = true → s'.res i ≠ none) := by
  simp only [run] at hs
  split at hs
  · simp at hs
  · split at hs
    · have hfin : ∀ {s2 : State V E} {op : Op V E} {u : Use} {i : Sid} {r : Res V E} {q : List (Obs V E)},
          finish s2 f op u i r q = some (s', o) → s2.hd = s.hd → s2.next = s.next → s2.pc = s.pc → s2.res = s.res →
          (∀ op j, s.pc f = .owner op j → s.res j ≠ none) →
          s'.hd = s.hd ∧ s'.next = s.next ∧ (∃ p, s'.pc = upd s.pc f p ∧ (∀ op i, p ≠ .owner op i) ∧
            (∀ op h i out a, p = .set op h i out a → ∃ out' a', s.pc f = .set op h i out' a')) ∧
          (∀ i, s'.res i ≠ s.res i → (∃ op h out a, s.pc f = .set op h i out a) ∨ ∃ op, s.pc f = .owner op i) ∧
          (∀ op i, s.pc f = .owner op i → s.live i = true → s'.res i ≠ none) := by
        intro s2 op u i r q h1 e1 e2 e3 e4 e5
        obtain ⟨-, -, -, -, f1, f2⟩ := finish_wait h1
        obtain ⟨f3, f4⟩ := finish_hd h1
        refine ⟨f3.trans e1, f4.trans e2, ⟨.idle, by rw [f2, e3], by simp, by simp⟩, ?_, ?_⟩
        · intro j hj; rw [f1, e4] at hj; exact absurd rfl hj
        · intro op' j hj _; rw [f1, e4]; exact e5 _ _ hj
      unfold runLive at hs
      repeat' split at hs
      all_goals first
        | (simp only [reduceCtorEq] at hs; done)
        | (refine hfin hs rfl rfl rfl rfl ?_; grind)
        | (simp only [Option.some.injEq, Prod.mk.injEq] at hs
           obtain ⟨rfl, rfl⟩ := hs
           refine ⟨rfl, rfl, ⟨_, rfl, by simp, by grind⟩, ?_, ?_⟩ <;> simp only [upd_apply] <;> grind)
    · simp only [Option.some.injEq, Prod.mk.injEq] at hs
      obtain ⟨rfl, rfl⟩ := hs
      refine ⟨rfl, rfl, ⟨_, rfl, by simp, by simp⟩, by simp, ?_⟩
      intro op i hp hl
      simp_all [Pc.sid]

theorem call_next {s s' : State V E} {lax : Bool} {f : Fid} {op : Op V E} {o : List (Obs V E)}
    (hs : call lax s f op = some (s', o)) : s.next ≤ s'.next := by
  simp only [call] at hs
  split at hs
  · cases op <;> simp only [reduceCtorEq, ret, create] at hs
    all_goals (try split at hs) <;> try (simp only [reduceCtorEq] at hs; done)
    all_goals
      simp only [Option.some.injEq, Prod.mk.injEq] at hs
      obtain ⟨rfl, rfl⟩ := hs
      simp
  · generalize hk : op.subject = k at hs
    cases op <;> simp only [callOn, ret, start, discard, create] at hs
    all_goals (repeat' split at hs) <;> try (simp only [reduceCtorEq] at hs; done)
    all_goals
      simp only [Option.some.injEq, Prod.mk.injEq] at hs
      obtain ⟨rfl, rfl⟩ := hs
    all_goals (try (rename_i heq2; (repeat' split at heq2) <;> simp only [Option.some.injEq, Prod.mk.injEq] at heq2 <;>
      obtain ⟨rfl, rfl⟩ := heq2))
    all_goals simp

/-- Once nobody can make a result ready it stays unready for ever. -/
theorem orphan_step {s s' : State V E} {i : Sid} {e : Event V E} {o : List (Obs V E)} (h : Orphan s i)
    (hs : step false s e = some (s', o)) : Orphan s' i := by
  cases e with
  | call f op =>
    simp only [step] at hs
    split at hs <;> try (simp only [reduceCtorEq] at hs; done)
    rename_i hf
    have hid := idle_of_sid hf
    split at hs
    · simp at hs
    · rename_i s2 o2 h2
      simp only [Option.some.injEq, Prod.mk.injEq] at hs
      obtain ⟨rfl, rfl⟩ := hs
      have hc := call_hd hid h2
      obtain ⟨-, -, -, -, e5, e6⟩ := call_wait h2
      have hlt := h.lt
      refine ⟨Nat.lt_of_lt_of_le h.lt (call_next h2), by rw [e5]; exact h.res, ?_, ?_⟩
      · intro hp; exact h.prov (hc.back i hp (Nat.ne_of_lt h.lt))
      · intro g
        by_cases hg : g = f
        · subst hg
          refine ⟨fun op h' out a hp => h.prov (hc.sets _ _ _ _ _ hp), fun op hp => ?_⟩
          obtain ⟨k, x, h1, h2, h3, -⟩ := hc.owner _ _ hp
          exact h.prov ⟨k, x, h1, h2, h3⟩
        · have : s2.pc g = s.pc g := by
            rcases e6 with e6 | ⟨p, e6, -⟩
            · rw [e6]
            · rw [e6, upd_other _ _ hg]
          rw [this]; exact h.pcs g
  | run f =>
    obtain ⟨e1, e2, ⟨p, e3, h1, h2⟩, h3, -⟩ := run_prov hs
    refine ⟨by rw [e2]; exact h.lt, ?_, ?_, ?_⟩
    · refine Classical.byContradiction fun hr => ?_
      rcases h3 i (by rw [h.res]; exact hr) with ⟨_, _, _, _, hp⟩ | ⟨_, hp⟩
      · exact (h.pcs f).1 _ _ _ _ hp
      · exact (h.pcs f).2 _ hp
    · simpa [hasProv, e1] using h.prov
    · intro g
      rw [e3, upd_apply]
      split
      · refine ⟨fun op h' out a hp => ?_, fun op => h1 _ _⟩
        obtain ⟨_, _, hp'⟩ := h2 _ _ _ _ _ hp
        exact (h.pcs f).1 _ _ _ _ hp'
      · exact h.pcs g
  | timer f =>
    simp only [step] at hs
    repeat' split at hs
    all_goals try (simp only [reduceCtorEq] at hs; done)
    simp only [Option.some.injEq, Prod.mk.injEq] at hs
    obtain ⟨rfl, rfl⟩ := hs
    exact ⟨h.lt, h.res, h.prov, h.pcs⟩
  | tick n =>
    simp only [step, Option.some.injEq, Prod.mk.injEq] at hs
    obtain ⟨rfl, rfl⟩ := hs
    exact ⟨h.lt, h.res, h.prov, h.pcs⟩
  | elsewhere f n =>
    simp only [step] at hs
    split at hs <;> try (simp only [reduceCtorEq] at hs; done)
    simp only [Option.some.injEq, Prod.mk.injEq] at hs
    obtain ⟨rfl, rfl⟩ := hs
    exact ⟨h.lt, h.res, h.prov, h.pcs⟩

theorem orphan_reach {s s' : State V E} {i : Sid} {tr : List (Obs V E)} (h : Orphan s i) (hr : Reach (step false) s s' tr) :
    Orphan s' i :=
  Reach.inv (fun s _ => Orphan s i) h (fun _ _ _ _ _ _ hi hs => orphan_step hi hs) hr

/-! ## The promise behind a retrieved future -/

/-- The future of `i` has been handed out. -/
def retrieved (tr : List (Obs V E)) (i : Sid) : Prop :=
  ∃ f h h' t, .ret f (.getFuture h h') (some i) .ok t ∈ tr

/-- `reset` was called on the task of `i`. -/
def wasReset (tr : List (Obs V E)) (i : Sid) : Prop :=
  ∃ f h, .called f (.reset h) (some i) ∈ tr

theorem run_ret {s s' : State V E} {sp : Spec V E} {f : Fid} {o : List (Obs V E)} (hsim : Sim s sp)
    (hs : run s f = some (s', o)) : ∀ f' h h' i r t, .ret f' (.getFuture h h') i r t ∉ o := by
  intro f' h h' i r t hm
  have hfin : ∀ {s2 : State V E} {op : Op V E} {u : Use} {i : Sid} {r : Res V E} {q : List (Obs V E)},
      finish s2 f op u i r q = some (s', o) → (∀ h h', op ≠ .getFuture h h') → (∀ f op i r t, .ret f op i r t ∉ q) → False := by
    intro s2 op u i r q h1 h2 h3
    cases u <;> simp only [finish, Option.some.injEq, Prod.mk.injEq] at h1 <;> obtain ⟨rfl, rfl⟩ := h1 <;>
      simp [h3, no_ret_release] at hm
    · exact h2 _ _ hm.2.1.symm
    · exact h2 _ _ hm.2.1.symm
  have hcall := hsim.call f
  simp only [run] at hs
  split at hs
  · simp at hs
  · split at hs
    · unfold runLive at hs
      repeat' split at hs
      all_goals first
        | (simp only [reduceCtorEq] at hs; done)
        | (simp only [Option.some.injEq, Prod.mk.injEq] at hs; obtain ⟨rfl, rfl⟩ := hs; simp at hm; done)
        | skip
      all_goals
        rename_i hp _ _
        refine hfin hs ?_ (by simp)
        rintro h h' rfl
        simp_all [CallOK, setter]
    · simp only [Option.some.injEq, Prod.mk.injEq] at hs
      obtain ⟨rfl, rfl⟩ := hs
      simp at hm

theorem reach_retrieved {s : State V E} {tr : List (Obs V E)} (h : Reach (step false) init s tr) :
    ∀ i, retrieved tr i → s.res i = none → provAt s i ∨ (∃ f op, s.pc f = .owner op i) ∨ wasReset tr i := by
  refine Reach.inv (fun s tr => ∀ i, retrieved tr i → s.res i = none → provAt s i ∨ (∃ f op, s.pc f = .owner op i) ∨ wasReset tr i)
    ?_ ?_ h
  · rintro i ⟨_, _, _, _, hm⟩; simp at hm
  clear h s tr
  intro s tr e s' o hr ih hs i hret hres
  obtain ⟨sp, -, hsim⟩ := reach_sim hr
  have hc := reach_core hr
  have hsplit : retrieved tr i ∨ retrieved o i := by
    obtain ⟨f, h, h', t, hm⟩ := hret
    rcases List.mem_append.1 hm with hm | hm
    · exact .inl ⟨f, h, h', t, hm⟩
    · exact .inr ⟨f, h, h', t, hm⟩
  have hwr : wasReset tr i → wasReset (tr ++ o) i := fun ⟨f, h, hm⟩ => ⟨f, h, List.mem_append_left _ hm⟩
  cases e with
  | call f op =>
    simp only [step] at hs
    split at hs <;> try (simp only [reduceCtorEq] at hs; done)
    rename_i hf
    have hid := idle_of_sid hf
    split at hs
    · simp at hs
    · rename_i s2 o2 h2
      simp only [Option.some.injEq, Prod.mk.injEq] at hs
      obtain ⟨rfl, rfl⟩ := hs
      have hcc := call_hd hid h2
      obtain ⟨-, -, -, -, e5, e6⟩ := call_wait h2
      rcases hsplit with hh | ⟨f', h, h', t, hm⟩
      · rcases ih i hh (by rw [← e5]; exact hres) with hp | ⟨g, op', hg⟩ | hw
        · rcases hcc.keep i hp with hp | hp | ⟨hp, k, rfl⟩
          · exact .inl hp
          · exact .inr (.inl ⟨f, op, hp⟩)
          · exact .inr (.inr ⟨f, k, by rw [hp]; simp⟩)
        · have hgf : g ≠ f := by rintro rfl; rw [hid] at hg; cases hg
          refine .inr (.inl ⟨g, op', ?_⟩)
          rcases e6 with e6 | ⟨p, e6, -⟩
          · rw [e6]; exact hg
          · rw [e6, upd_other _ _ hgf]; exact hg
        · exact .inr (.inr (hwr hw))
      · simp only [List.mem_cons, reduceCtorEq, false_or] at hm
        exact .inl (hcc.got _ _ _ _ _ hm)
  | run f =>
    obtain ⟨e1, e2, ⟨p, e3, h1, h2⟩, h3, h4⟩ := run_prov hs
    rcases hsplit with hh | ⟨f', h, h', t, hm⟩
    · have hres0 : s.res i = none := by
        rcases hri : s.res i with _ | out
        · rfl
        · rcases h3 i (by rw [hres, hri]; simp) with ⟨op', k, out', a, hp⟩ | ⟨op', hp⟩
          · obtain ⟨_, _, ⟨p', hp', -⟩, -⟩ := run_prov hs
            exfalso
            clear * - hs hp hri hres hc
            simp only [step, run, hp, Pc.sid] at hs
            rw [if_pos (hc.sid_live (by rw [hp]; rfl))] at hs
            simp only [runLive, hp, hri] at hs
            split at hs
            · simp only [Option.some.injEq, Prod.mk.injEq] at hs; obtain ⟨rfl, rfl⟩ := hs; simp_all
            · obtain ⟨-, -, -, -, f1, -⟩ := finish_wait hs; simp_all
          · exact absurd hres (h4 _ _ hp (hc.sid_live (by rw [hp]; rfl)))
      rcases ih i hh hres0 with ⟨k, x, hk⟩ | ⟨g, op', hg⟩ | hw
      · exact .inl ⟨k, x, by rw [e1]; exact hk⟩
      · by_cases hgf : g = f
        · subst hgf
          exact absurd hres (h4 _ _ hg (hc.sid_live (by rw [hg]; rfl)))
        · exact .inr (.inl ⟨g, op', by rw [e3, upd_other _ _ hgf]; exact hg⟩)
      · exact .inr (.inr (hwr hw))
    · exact absurd hm (run_ret hsim hs _ _ _ _ _ _)
  | timer f =>
    simp only [step] at hs
    repeat' split at hs
    all_goals try (simp only [reduceCtorEq] at hs; done)
    simp only [Option.some.injEq, Prod.mk.injEq] at hs
    obtain ⟨rfl, rfl⟩ := hs
    simp only [List.append_nil] at hret ⊢
    exact ih i hret hres
  | tick n =>
    simp only [step, Option.some.injEq, Prod.mk.injEq] at hs
    obtain ⟨rfl, rfl⟩ := hs
    simp only [List.append_nil] at hret ⊢
    exact ih i hret hres
  | elsewhere f n =>
    simp only [step] at hs
    split at hs <;> try (simp only [reduceCtorEq] at hs; done)
    simp only [Option.some.injEq, Prod.mk.injEq] at hs
    obtain ⟨rfl, rfl⟩ := hs
    simp only [List.append_nil] at hret ⊢
    exact ih i hret hres

end Verif.Fut
