import Verif.Props.Future

/-!
# Futures, promises, packaged tasks: C34 – C37, C64
-/

namespace Verif.Fut

variable {V E : Type}

/-! ## C34 -/

/-- A task is reset after its future was retrieved, and destroyed; fiber 1 waits for the future. -/
def resetIt : List (Event Nat Nat) :=
  [.call 0 (.mkTask 0), .call 0 (.getFuture 0 1), .call 0 (.reset 0), .call 0 (.destroy 0), .call 1 (.get 1), .run 1, .run 1]

def resetTrace : List (Obs Nat Nat) :=
  [.called 0 (.mkTask 0) (some 0), .ret 0 (.mkTask 0) (some 0) .ok 0, .called 0 (.getFuture 0 1) (some 0),
   .ret 0 (.getFuture 0 1) (some 0) .ok 0, .called 0 (.reset 0) (some 0), .ret 0 (.reset 0) (some 0) .ok 0,
   .called 0 (.destroy 0) (some 1), .freed 1 false, .ret 0 (.destroy 0) (some 1) .ok 0, .called 1 (.get 1) (some 0)]

/-- **C34 is false of the code.** The future of a task is retrieved, the task is reset and later destroyed; nobody who waits
for that future ever gets an answer: whatever happens afterwards, the result is never made ready, not even with
`broken_promise`. -/
theorem reset_abandons :
    ∃ (s : State Nat Nat) (tr : List (Obs Nat Nat)), Reach (step false) init s tr ∧
      Obs.ret 0 (.getFuture 0 1) (some 0) .ok 0 ∈ tr ∧ Obs.ret 0 (.reset 0) (some 0) .ok 0 ∈ tr ∧
      inside tr 1 (.get 1) (some 0) ∧ (∀ g, step false s (.run g) = none) ∧
      ∀ s' tr', Reach (step false) s s' tr' → ∀ g out, Obs.stored g 0 out ∉ tr ++ tr' := by
  have hr : Reach (step false) (init : State Nat Nat) _ resetTrace := reach_of_exec (es := resetIt) rfl
  refine ⟨_, _, hr, by decide, by decide,
    ⟨resetTrace.take 9, [], rfl, by simp [within]⟩, ?_, ?_⟩
  · intro g
    by_cases h1 : g = 1
    · subst h1; rfl
    · simp [step, run, upd, h1, init, create, Pc.sid]
  · intro s' tr' hr' g out hm
    have ho := orphan_reach (i := 0) ⟨by decide, rfl, ?_, ?_⟩ hr'
    · obtain ⟨sp, h1, hsim⟩ := reach_sim (hr.trans hr')
      have := ((runs_res h1 0).1 out).2 ⟨g, hm⟩
      rw [hsim.res, ho.res] at this; cases this
    · rintro ⟨k, x, hk, hx, hi⟩
      by_cases h1 : k = 1
      · subst h1; cases hk; cases hx
      · by_cases h0 : k = 0
        · subst h0; cases hk
        · simp [upd, h0, h1, init, create, Op.subject] at hk
    · intro f
      by_cases h1 : f = 1
      · subst h1; exact ⟨fun _ _ _ _ => nofun, fun _ => nofun⟩
      · simp [upd, h1, init, create]

/-- **C34, what holds.** After `reset` the task is like a freshly constructed one: it refers to a result that nobody else
refers to, that is not ready and whose future has not been retrieved; every other object is unchanged, and a result that
had already been produced stays available to the old future. Missing: the old future of a task that was never invoked does
not report `broken_promise` (`reset_abandons`). -/
theorem reset_fresh_partial {s s' : State V E} {tr o : List (Obs V E)} {f : Fid} {k : Hid} {x : Handle} {i : Sid}
    (h : Reach (step false) init s tr) (hx : s.hd k = some x) (hi : x.st = some i)
    (hs : step false s (.call f (.reset k)) = some (s', o)) :
    ∃ n, s'.hd k = some ⟨.task, false, some n⟩ ∧ s'.res n = none ∧ (handles (tr ++ o)).got n = false ∧
      (∀ k' y, k' ≠ k → s'.hd k' = some y → y.st ≠ some n) ∧ (∀ k', k' ≠ k → s'.hd k' = s.hd k') ∧ s'.res = s.res := by
  have hc := reach_core h
  have hh := reach_handles (Reach.tail _ h hs)
  have hh0 := reach_handles h
  simp only [step, call, Op.subject, hx, callOn, hi, ret] at hs
  split at hs <;> try (simp only [reduceCtorEq] at hs; done)
  split at hs <;> try (simp only [reduceCtorEq] at hs; done)
  rename_i s2 o2 h2
  split at h2 <;> try (simp only [reduceCtorEq] at h2; done)
  rename_i hg
  simp only [Option.some.injEq, Prod.mk.injEq] at h2
  obtain ⟨rfl, rfl⟩ := h2
  simp only [Option.some.injEq, Prod.mk.injEq] at hs
  obtain ⟨rfl, rfl⟩ := hs
  refine ⟨s.next, by simp [create], by simp [create, (hc.frs s.next (Nat.le_refl _)).2], ?_, ?_, ?_, by simp [create]⟩
  · exact (hh.got k ⟨.task, false, some s.next⟩ s.next (by simp [create]) rfl rfl).symm
  · intro k' y hk hy hst
    simp only [create, release_hd, upd_other _ _ hk] at hy
    have := hc.hold_lt (o := .inl k') (j := s.next) (by simp [holdOf, State.stOf, hy, hst])
    exact absurd this (Nat.lt_irrefl _)
  · intro k' hk; simp [create, upd_other _ _ hk]

example : ∃ s tr s' o, Reach (step false) (init : State Nat Nat) s tr ∧ s.hd 0 = some ⟨.task, true, some 0⟩ ∧
    step false s (.call 0 (.reset 0)) = some (s', o) ∧ s'.hd 0 = some ⟨.task, false, some 1⟩ :=
  ⟨_, _, _, _, reach_of_exec (es := [.call 0 (.mkTask 0), .call 0 (.getFuture 0 1), .call 0 (.invoke 0 (.inl 7)), .run 0, .run 0]) rfl,
    rfl, rfl, rfl⟩

/-! ## C35 -/

/-- **C35.** The objects that exist and what they refer to are exactly what the interface promises for the calls made so
far: a moved-from handle is empty and the target took over, `share` and `get` empty the future, and so on. -/
theorem handles_follow_rules {s : State V E} {tr : List (Obs V E)} (h : Reach (step false) init s tr) (k : Hid) :
    (s.hd k).map (fun x => (x.kind, x.st)) = (handles tr).obj k :=
  ((reach_handles h).obj k).symm

/-- **C35.** A call acts on the result its handle refers to according to these rules. -/
theorem call_uses_handle {s : State V E} {a b : List (Obs V E)} {f : Fid} {op : Op V E} {i : Option Sid}
    (h : Reach (step false) init s (a ++ .called f op i :: b))
    (hop : (∀ k, op ≠ .mkPromise k ∧ op ≠ .mkTask k) ∧ ∀ k k', op ≠ .moveAssign k k' ∧ op ≠ .copyAssign k k') :
    i = (handles a).ref op.subject := by
  obtain ⟨s0, s1, o, hr, -, rfl⟩ := reach_called h
  have hh := reach_handles hr
  have : sidOf s0 op = (s0.hd op.subject).bind Handle.st := by
    cases op <;> simp_all [sidOf]
  rw [this, HSpec.ref, hh.obj]
  cases s0.hd op.subject <;> rfl

/-- **C35.** The future of a result is handed out at most once. -/
theorem retrieved_at_most_once {s : State V E} {tr : List (Obs V E)} (h : Reach (step false) init s tr) (i : Sid) :
    retrievedN i tr ≤ 1 := by
  obtain ⟨sp, h1, -⟩ := reach_sim h
  rw [runs_got h1]; split <;> omega

/-- **C35.** `get_future` succeeds if the future was never retrieved before, and otherwise throws
`future_already_retrieved`. -/
theorem get_future_once {s : State V E} {a b : List (Obs V E)} {f : Fid} {k k' : Hid} {i : Sid} {r : Res V E} {t : Nat}
    (h : Reach (step false) init s (a ++ .ret f (.getFuture k k') (some i) r t :: b)) :
    (r = .ok ∧ ¬ retrieved a i) ∨ (r = .err .alreadyRetrieved ∧ retrieved a i) := by
  obtain ⟨sp, hr, -⟩ := reach_sim h
  obtain ⟨sp1, d, hr1, hal⟩ := runs_ret hr
  have hn := runs_got hr1 i
  have hiff : retrieved a i ↔ 0 < retrievedN i a := by
    unfold retrievedN; rw [List.countP_pos_iff]
    constructor
    · rintro ⟨f, h, h', t, hm⟩; exact ⟨_, hm, by simp⟩
    · rintro ⟨x, hx, hp⟩
      split at hp
      · simp only [beq_iff_eq] at hp; subst hp; exact ⟨_, _, _, _, hx⟩
      · cases hp
  rcases hal with ⟨rfl, hg⟩ | ⟨rfl, hg⟩
  · refine .inl ⟨rfl, ?_⟩; rw [hiff, hn, hg]; simp
  · refine .inr ⟨rfl, ?_⟩; rw [hiff, hn, hg]; simp

/-- The calls that need a result. -/
def needsResult : Op V E → Bool
  | .getFuture _ _ | .setValue _ _ | .setExc _ _ | .invoke _ _ | .reset _ | .get _ | .wait _ | .waitUntil _ _ | .getExc _ => true
  | _ => false

/-- **C35.** A call that needs a result, on an object that refers to none, throws the `…_uninitialized` error of its kind of
object at once and changes nothing. -/
theorem no_state_throws {s s' : State V E} {tr o : List (Obs V E)} {f : Fid} {op : Op V E} {kind : Kind}
    (h : Reach (step false) init s tr) (hop : needsResult op = true)
    (hobj : (handles tr).obj op.subject = some (kind, none)) (hs : step false s (.call f op) = some (s', o)) :
    s' = s ∧ o = [.called f op none, .ret f op none
      (.err (match kind with
        | .promise => .promiseUninitialized | .task => .taskUninitialized | .future | .shared => .futureUninitialized)) s.now] := by
  obtain ⟨sp, hr, hsim⟩ := reach_sim h
  have hh := (reach_handles h).obj op.subject
  rw [hobj] at hh
  cases hx : s.hd op.subject with
  | none => rw [hx] at hh; cases hh
  | some x =>
    rw [hx] at hh
    obtain ⟨xk, xo, xs⟩ := x
    simp only [Option.map_some, Handle.view, Option.some.injEq, Prod.mk.injEq] at hh
    obtain ⟨rfl, rfl⟩ := hh
    have hno := hsim.prov.null _ _ hx rfl
    simp only at hno
    subst hno
    have hsid : sidOf s op = none := by
      cases op <;> simp [needsResult] at hop <;> simp only [Op.subject] at hx <;> simp [sidOf, Op.subject, hx]
    simp only [step, call, hx] at hs
    split at hs <;> try (simp only [reduceCtorEq] at hs; done)
    split at hs <;> try (simp only [reduceCtorEq] at hs; done)
    rename_i s2 o2 h2
    simp only [Option.some.injEq, Prod.mk.injEq] at hs
    obtain ⟨rfl, rfl⟩ := hs
    rw [hsid]
    cases op <;> simp [needsResult] at hop <;> simp only [callOn, ret] at h2
    all_goals (repeat' split at h2) <;> try (simp only [reduceCtorEq] at h2; done)
    all_goals
      simp only [Option.some.injEq, Prod.mk.injEq] at h2
      obtain ⟨rfl, rfl⟩ := h2
      cases kind <;> simp_all [uninit, Kind.provider]

/-- **C35.** `valid()` tells whether the object refers to a result. -/
theorem valid_tells {s : State V E} {a b : List (Obs V E)} {f : Fid} {k : Hid} {j : Option Sid} {r : Res V E} {t : Nat}
    (h : Reach (step false) init s (a ++ .ret f (.valid k) j r t :: b)) : r = .bool j.isSome := by
  obtain ⟨sp, hr, -⟩ := reach_sim h
  obtain ⟨sp1, d, hr1, hal⟩ := runs_ret hr
  cases j <;> exact hal

/-- A future is shared, its promise moved; every old object is empty. -/
def shuffle : List (Event Nat Nat) :=
  [.call 0 (.mkPromise 0), .call 0 (.move 0 1), .call 0 (.getFuture 0 2), .call 0 (.getFuture 1 2), .call 0 (.getFuture 1 3),
   .call 0 (.share 2 4), .call 0 (.valid 2), .call 0 (.get 2), .call 0 (.valid 4), .call 0 (.setValue 0 7)]

example : ∃ s, Reach (step false) (init : State Nat Nat) s
    [.called 0 (.mkPromise 0) (some 0), .ret 0 (.mkPromise 0) (some 0) .ok 0,
     .called 0 (.move 0 1) (some 0), .ret 0 (.move 0 1) (some 0) .ok 0,
     .called 0 (.getFuture 0 2) none, .ret 0 (.getFuture 0 2) none (.err .promiseUninitialized) 0,
     .called 0 (.getFuture 1 2) (some 0), .ret 0 (.getFuture 1 2) (some 0) .ok 0,
     .called 0 (.getFuture 1 3) (some 0), .ret 0 (.getFuture 1 3) (some 0) (.err .alreadyRetrieved) 0,
     .called 0 (.share 2 4) (some 0), .ret 0 (.share 2 4) (some 0) .ok 0,
     .called 0 (.valid 2) none, .ret 0 (.valid 2) none (.bool false) 0,
     .called 0 (.get 2) none, .ret 0 (.get 2) none (.err .futureUninitialized) 0,
     .called 0 (.valid 4) (some 0), .ret 0 (.valid 4) (some 0) (.bool true) 0,
     .called 0 (.setValue 0 7) none, .ret 0 (.setValue 0 7) none (.err .promiseUninitialized) 0] :=
  ⟨_, reach_of_exec (es := shuffle) rfl⟩

/-! ## C36 -/

/-- **C36.** A shared state is destroyed at most once. -/
theorem destroyed_at_most_once {s : State V E} {tr : List (Obs V E)} (h : Reach (step false) init s tr) (i : Sid) :
    freedN i tr ≤ 1 := by
  have := reach_freed h i
  split at this <;> omega

/-- **C36.** A shared state has been destroyed exactly if it was created, no handle object refers to it, and no call holds a
reference of its own (a `get` in progress on a future, or a destructor or assignment still finishing its work). -/
theorem destroyed_iff_last_gone {s : State V E} {tr : List (Obs V E)} (h : Reach (step false) init s tr) (i : Sid) :
    (∃ b, .freed i b ∈ tr) ↔
      i < (handles tr).next ∧ (∀ k kind, (handles tr).obj k ≠ some (kind, some i)) ∧ ∀ f, (s.pc f).owns ≠ some i := by
  have hc := reach_core h
  have hh := reach_handles h
  have hf := reach_freed h i
  rw [← freedN_pos, hh.next]
  have hlive : s.live i = true ↔ ∃ o, holdOf s o = some i := by
    rw [hc.liv]
    obtain ⟨l, -, hl, hm⟩ := hc.ref i
    simp only [one_none, Nat.sub_zero] at hl
    rw [← hl, List.length_pos_iff_exists_mem]
    exact ⟨fun ⟨o, ho⟩ => ⟨o, (hm o).1 ho⟩, fun ⟨o, ho⟩ => ⟨o, (hm o).2 ho⟩⟩
  constructor
  · intro hpos
    have hlt : i < s.next := by split at hf <;> first | assumption | omega
    have hnl : s.live i = false := by
      cases hl : s.live i
      · rfl
      · rw [hl, if_pos hlt] at hf; simp at hf; omega
    have hno : ∀ o, holdOf s o ≠ some i := fun o ho => by rw [hlive.2 ⟨o, ho⟩] at hnl; cases hnl
    refine ⟨hlt, ?_, fun f => hno (.inr f)⟩
    intro k kind hk
    rw [hh.obj] at hk
    cases hx : s.hd k with
    | none => rw [hx] at hk; cases hk
    | some x =>
      rw [hx] at hk
      simp only [Option.map_some, Handle.view, Option.some.injEq, Prod.mk.injEq] at hk
      exact hno (.inl k) (by simp [holdOf, State.stOf, hx, hk.2])
  · rintro ⟨hlt, h1, h2⟩
    have hnl : s.live i = false := by
      cases hl : s.live i
      · rfl
      · obtain ⟨o, ho⟩ := hlive.1 hl
        cases o with
        | inl k =>
          simp only [holdOf, State.stOf] at ho
          cases hx : s.hd k with
          | none => rw [hx] at ho; cases ho
          | some x =>
            rw [hx] at ho
            exact absurd (by rw [hh.obj, hx]; simp only [Option.map_some, Handle.view]; rw [show x.st = some i from ho]) (h1 k x.kind)
        | inr f => exact absurd ho (h2 f)
    rw [hnl, if_pos hlt] at hf
    simp at hf; omega

/-- **C36.** Together with the shared state a value is destroyed if and only if one was stored. -/
theorem value_destroyed_iff_stored {s : State V E} {a b : List (Obs V E)} {i : Sid} {val : Bool}
    (h : Reach (step false) init s (a ++ .freed i val :: b)) :
    val = true ↔ ∃ f v, .stored f i (.value v) ∈ a := by
  obtain ⟨sp, hr, -⟩ := reach_sim h
  obtain ⟨spa, ha, hr⟩ := hr.split
  obtain ⟨spr, hn, -⟩ := hr.cons
  cases hn with
  | freed _ _ hb =>
    have hres := (runs_res ha i).1
    rw [hb]
    constructor
    · intro hv
      split at hv
      · rename_i out ho
        obtain ⟨f, hf⟩ := (hres out).1 ho
        cases out with
        | value v => exact ⟨f, v, hf⟩
        | exn x => cases hv
      · cases hv
    · rintro ⟨f, v, hf⟩
      rw [(hres _).2 ⟨f, hf⟩]; rfl

/-- **C36.** A destroyed shared state is never accessed. -/
theorem no_use_after_free {s : State V E} {tr : List (Obs V E)} (h : Reach (step false) init s tr) (i : Sid) :
    .ub i ∉ tr := by
  refine Reach.inv (fun _ tr => .ub i ∉ tr) (by simp) ?_ h
  intro s tr e s' o hr ih hs hm
  rcases List.mem_append.1 hm with hm | hm
  · exact ih hm
  · exact (good_step (reach_core hr) hs).2 i hm

/-- The value outlives the promise and dies with the last copy of the shared future. -/
example : ∃ s tr, Reach (step false) (init : State Nat Nat) s tr ∧ Obs.freed 0 true ∈ tr ∧
    tr.getLast? = some (.ret 0 (.destroy 3) (some 0) .ok 0) :=
  ⟨_, _, reach_of_exec (es := [.call 0 (.mkPromise 0), .call 0 (.getFuture 0 1), .call 0 (.share 1 2), .call 0 (.copy 2 3),
    .call 0 (.setValue 0 7), .run 0, .run 0, .call 0 (.destroy 0), .run 0, .call 0 (.destroy 1), .call 0 (.destroy 2),
    .call 0 (.destroy 3)]) rfl, by decide, by decide⟩

/-! ## C37 -/

/-- What a callable that returns `v` or throws `e` leaves in the result. -/
def ofCallable : V ⊕ E → Outcome V E
  | .inl v => .value v
  | .inr e => .exn (.user e)

/-- What `get` then does. -/
def getResult : V ⊕ E → Res V E
  | .inl v => .value v
  | .inr e => .threw (.user e)

/-- **C37.** If a task is invoked and nothing else could produce its result before (no other invocation, no destruction of
the task), the invocation stores exactly what the callable returned or threw, and every `get` of its future ends exactly
that way. -/
theorem task_delivers {s : State V E} {a m b : List (Obs V E)} {f : Fid} {k : Hid} {out : V ⊕ E} {op' : Op V E} {i : Sid}
    {j : Option Sid} {r : Res V E} {t : Nat}
    (h : Reach (step false) init s (a ++ .called f (.invoke k out) (some i) :: (m ++ .ret f op' j r t :: b))) (hw : within f m)
    (honly : ∀ g op, .called g op (some i) ∈ a ++ m → produces op = none) :
    r = .ok ∧ .stored f i (ofCallable out) ∈ m ∧
    ∀ g k' r' t', .ret g (.get k') (some i) r' t' ∈ a ++ .called f (.invoke k out) (some i) :: (m ++ .ret f op' j r t :: b) →
      r' = getResult out := by
  obtain ⟨sp, hr, -⟩ := reach_sim h
  have hprod : produces (.invoke k out : Op V E) = some (ofCallable out) := by cases out <;> rfl
  have hmain : r = .ok ∧ .stored f i (ofCallable out) ∈ m := by
    rcases set_outcome h hw rfl with ⟨h1, ⟨o, h2, h3⟩, -⟩ | ⟨-, h2, g, o, h3⟩
    · rw [hprod] at h2; cases h2; exact ⟨h1, h3⟩
    · exfalso
      obtain ⟨-, -, sp1, d, hr1, -⟩ := runs_call hr hw
      have hmem : .stored g i o ∈ a ++ .called f (.invoke k out) (some i) :: m := by
        rcases List.mem_append.1 h3 with h3 | h3 <;> simp [h3]
      have e1 := ((runs_res hr1 i).1 o).2 ⟨g, hmem⟩
      rcases List.mem_append.1 h3 with h4 | h4
      · obtain ⟨spa, ha, -⟩ := hr.split
        obtain ⟨op, hc, hp⟩ := runs_stored ha h4
        rw [honly g op (by simp [hc])] at hp; cases hp
      · obtain ⟨op, hc, hp⟩ := runs_stored hr1 hmem
        simp only [List.mem_append, List.mem_cons, Obs.called.injEq] at hc
        rcases hc with hc | ⟨rfl, -, -⟩ | hc
        · rw [honly g op (by simp [hc])] at hp; cases hp
        · exact h2 _ _ h4
        · rw [honly g op (by simp [hc])] at hp; cases hp
  refine ⟨hmain.1, hmain.2, ?_⟩
  intro g k' r' t' hm
  obtain ⟨x, y, hxy⟩ := List.append_of_mem hm
  have h' := h
  rw [hxy] at h'
  obtain ⟨g', out', h1, h2⟩ := returns_what_was_stored h' (.inl ⟨k', rfl⟩)
  have h3 := (stored_result_unique h (i := i) (f := g') (g := f) (out := out') (out' := ofCallable out) (by rw [hxy]; simp [h1])
    (by simp [hmain.2])).1
  rw [h3] at h2
  cases out <;> exact h2

/-- **C37.** Invoking a task a second time throws `promise_already_satisfied` and leaves the first result. -/
theorem second_invocation_throws {s : State V E} {a m b : List (Obs V E)} {f g : Fid} {k : Hid} {out : V ⊕ E} {op' : Op V E} {i : Sid}
    {j : Option Sid} {r : Res V E} {t : Nat} {first : Outcome V E}
    (h : Reach (step false) init s (a ++ .called f (.invoke k out) (some i) :: (m ++ .ret f op' j r t :: b))) (hw : within f m)
    (hfirst : .stored g i first ∈ a) :
    r = .err .alreadySatisfied ∧ s.res i = some first := by
  refine ⟨second_set_throws h hw rfl hfirst, ?_⟩
  obtain ⟨sp, hr, hsim⟩ := reach_sim h
  rw [← hsim.res]
  exact ((runs_res hr i).1 first).2 ⟨g, by simp [hfirst]⟩

/-- `async` (`future/async.hpp:43-53`): make a task from the callable, take its future, move the task into a new fiber,
return the future. `k` is the local task, `k1` the future returned, `k2` the task inside the new fiber. -/
def async (f : Fid) (k k1 k2 : Hid) : List (Event V E) :=
  [.call f (.mkTask k), .call f (.getFuture k k1), .call f (.move k k2), .call f (.destroy k)]

/-- **C37.** `async` always succeeds, and afterwards the future and the task inside the new fiber share a new result that is
not ready and that no other object refers to. -/
theorem async_starts {s : State V E} {tr : List (Obs V E)} (h : Reach (step false) init s tr) {f : Fid} {k k1 k2 : Hid}
    (hf : s.pc f = .idle) (h0 : s.hd k = none) (h1 : s.hd k1 = none) (h2 : s.hd k2 = none)
    (hd : k ≠ k1 ∧ k ≠ k2 ∧ k1 ≠ k2) :
    ∃ s' o n, exec (step false) s (async f k k1 k2) = some (s', o) ∧ s'.hd k = none ∧
      s'.hd k1 = some ⟨.future, false, some n⟩ ∧ s'.hd k2 = some ⟨.task, true, some n⟩ ∧ s'.res n = none ∧
      ∀ k' x, k' ≠ k1 → k' ≠ k2 → s'.hd k' = some x → x.st ≠ some n := by
  have hc := reach_core h
  have hu : s.users k = [] := by
    exact hc.users_nil (by simp [State.stOf, h0])
  have hfr : ∀ s2 : State V E, s2.users = s.users → free false s2 k = true := by
    intro s2 e; simp [free, e, hu]
  obtain ⟨hd1, hd2, hd3⟩ := hd
  have hd1' : k1 ≠ k := fun e => hd1 e.symm
  have hd2' : k2 ≠ k := fun e => hd2 e.symm
  have hd3' : k2 ≠ k1 := fun e => hd3 e.symm
  have e1 : step false s (.call f (.mkTask k)) = some (create s k .task,
      [.called f (.mkTask k) (some s.next), .ret f (.mkTask k) (some s.next) .ok s.now]) := by
    simp [step, hf, Pc.sid, call, Op.subject, h0, ret, sidOf, create]
  have e2 : step false (create s k .task) (.call f (.getFuture k k1)) = some
      ({ create s k .task with
          hd := upd (upd (create s k .task).hd k (some ⟨.task, true, some s.next⟩)) k1 (some ⟨.future, false, some s.next⟩),
          refs := upd (create s k .task).refs s.next 2 },
       [.called f (.getFuture k k1) (some s.next), .ret f (.getFuture k k1) (some s.next) .ok s.now]) := by
    simp [step, hf, Pc.sid, call, Op.subject, h1, hd1', ret, sidOf, create, callOn, Kind.provider, addRef, upd_other]
  generalize hs2 : ({ create s k .task with
          hd := upd (upd (create s k .task).hd k (some ⟨.task, true, some s.next⟩)) k1 (some ⟨.future, false, some s.next⟩),
          refs := upd (create s k .task).refs s.next 2 } : State V E) = s2 at e2
  have g1 : s2.hd k = some ⟨.task, true, some s.next⟩ := by subst hs2; simp [upd_other _ _ hd1]
  have g2 : s2.hd k2 = none := by subst hs2; simp [upd_other, create, hd2', hd3', h2]
  have g3 : s2.pc f = .idle := by subst hs2; exact hf
  have g4 : s2.users = s.users := by subst hs2; rfl
  have g5 : s2.hd k1 = some ⟨.future, false, some s.next⟩ := by subst hs2; simp
  have g6 : s2.res = s.res := by subst hs2; rfl
  have g7 : ∀ k', k' ≠ k → k' ≠ k1 → s2.hd k' = s.hd k' := by
    intro k' a b; subst hs2; simp [upd_other, create, a, b]
  have e3 : step false s2 (.call f (.move k k2)) = some
      ({ s2 with hd := upd (upd s2.hd k2 (some ⟨.task, true, some s.next⟩)) k (some ⟨.task, false, none⟩) },
       [.called f (.move k k2) (some s.next), .ret f (.move k k2) (some s.next) .ok s2.now]) := by
    simp [step, g3, Pc.sid, call, Op.subject, g1, g2, ret, sidOf, callOn, hfr s2 g4]
  generalize hs3 : ({ s2 with hd := upd (upd s2.hd k2 (some ⟨.task, true, some s.next⟩)) k (some ⟨.task, false, none⟩) } : State V E)
    = s3 at e3
  have e4 : step false s3 (.call f (.destroy k)) = some ({ s3 with hd := upd s3.hd k none },
      [.called f (.destroy k) none, .ret f (.destroy k) none .ok s3.now]) := by
    have i1 : s3.hd k = some ⟨.task, false, none⟩ := by subst hs3; simp
    have i2 : s3.pc f = .idle := by subst hs3; exact g3
    have i3 : s3.users = s.users := by subst hs3; exact g4
    simp [step, i2, Pc.sid, call, Op.subject, i1, ret, sidOf, callOn, hfr s3 i3, discard]
  refine ⟨{ s3 with hd := upd s3.hd k none }, _, s.next, by simp only [async, exec, e1, e2, e3, e4]; rfl, ?_, ?_, ?_, ?_, ?_⟩
  · simp
  · subst hs3; simp [upd_other, hd1', hd3, g5]
  · subst hs3; simp [upd_other, hd2']
  · subst hs3; simp [g6, (hc.frs s.next (Nat.le_refl _)).2]
  · intro k' x n1 n2 hx hst
    simp only [upd_apply] at hx
    split at hx
    · cases hx
    · rename_i n0
      subst hs3
      simp only [upd_other _ _ n0, upd_other _ _ n2, g7 k' n0 n1] at hx
      have := hc.hold_lt (o := .inl k') (j := s.next) (by simp [holdOf, State.stOf, hx, hst])
      exact absurd this (Nat.lt_irrefl _)

/-- `async` with a callable that throws: the new fiber 1 runs the task and destroys it, the caller gets the exception; a
task invoked twice. -/
example : ∃ s tr, Reach (step false) (init : State Nat Nat) s tr ∧
    Obs.stored 1 0 (.exn (.user 9)) ∈ tr ∧ Obs.ret 0 (.get 1) (some 0) (.threw (.user 9)) 0 ∈ tr ∧ Obs.freed 0 false ∈ tr :=
  ⟨_, _, reach_of_exec (es := async 0 0 1 2 ++ [.call 0 (.get 1), .run 0, .run 0, .call 1 (.invoke 2 (.inr 9)), .run 1, .run 1,
    .call 1 (.destroy 2), .run 1, .run 0, .run 0]) rfl, by decide, by decide, by decide⟩

example : ∃ s tr, Reach (step false) (init : State Nat Nat) s tr ∧ Obs.stored 0 0 (.value 7) ∈ tr ∧
    Obs.ret 0 (.invoke 0 (.inl 8)) (some 0) (.err .alreadySatisfied) 0 ∈ tr :=
  ⟨_, _, reach_of_exec (es := [.call 0 (.mkTask 0), .call 0 (.invoke 0 (.inl 7)), .run 0, .run 0,
    .call 0 (.invoke 0 (.inl 8)), .run 0, .run 0]) rfl, by decide, by decide⟩

/-! ## C64 -/

/-- **C64 is false of the code.** The program destroys a promise only after the future reported the value that was set
through it, and no other call is inside the promise except `set_value` on its way out; still `set_value` accesses the
freed shared state (`shared_state.hpp:44-52`: the waiters are notified after the mutex was released, through the raw pointer
of the promise, `promise.hpp:123-127`). -/
theorem destroy_after_get_is_ub :
    ∃ (s : State Nat Nat) (tr : List (Obs Nat Nat)), Reach (step true) init s tr ∧
      Obs.ret 1 (.get 1) (some 0) (.value 7) 0 ∈ tr ∧ Obs.called 1 (.destroy 0) (some 0) ∈ tr ∧ Obs.ub 0 ∈ tr :=
  ⟨_, _, reach_of_exec (es := [.call 0 (.mkPromise 0), .call 0 (.getFuture 0 1), .call 0 (.setValue 0 7), .run 0,
    .call 1 (.get 1), .run 1, .call 1 (.destroy 0), .run 1, .run 0]) rfl, by decide, by decide, by decide⟩

/-- **C64, what holds.** As long as a handle is destroyed, moved or overwritten only when no call on it is in progress, no
freed shared state is ever accessed. Missing: `set_value` in progress whose result is already visible
(`destroy_after_get_is_ub`). -/
theorem exclusive_destroy_safe_partial {s : State V E} {tr : List (Obs V E)} (h : Reach (step false) init s tr) (i : Sid) :
    .ub i ∉ tr :=
  no_use_after_free h i

end Verif.Fut
