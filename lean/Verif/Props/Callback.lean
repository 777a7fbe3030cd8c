import Verif.CallbackInv

/-!
# C102 Operations with a callback, made into calls that wait

`first tr`: the error code and the data the callback was called with first. `expected`: what the function is expected to return or throw then. `.dropped`: the callback is destroyed.
-/

namespace Verif.Props.Callback
open Verif Verif.Callback

/-- The function returns, or throws, what the callback was called with first; or `broken_promise`, if the callback was destroyed without having been called. -/
theorem result {k : Kind} {s : State} {tr : List Obs} {r : Result} (h : Reach (step k) init s tr) (hr : .returned r ∈ tr) :
    (∃ ec d, first tr = some (ec, d) ∧ r = expected k ec d) ∨ (r = .threwBroken ∧ first tr = none ∧ .dropped ∈ tr) := by
  have hi := reach_inv h
  obtain ⟨_, x, hx, rfl⟩ := (hi.ret r).1 hr
  rcases hi.isSome x hx with ⟨ec, d, h1, rfl⟩ | ⟨rfl, h1, _, h2⟩
  · refine .inl ⟨ec, d, h1, ?_⟩
    cases k <;> by_cases he : ec = 0 <;> simp [store, finish, expected, he]
  · exact .inr ⟨rfl, h1, h2⟩

/-- It returns once. -/
theorem returns_once {k : Kind} {s : State} {tr : List Obs} (h : Reach (step k) init s tr) : (tr.countP fun o => match o with | .returned _ => true | _ => false) = if s.cpc = .done then 1 else 0 := by
  induction h with
  | refl => rfl
  | @tail s s' tr o e h1 hs ih =>
    rw [List.countP_append, ih]
    cases e <;> simp only [step, release, ownerDestroyed, touch] at hs <;> (repeat' split at hs) <;>
      simp only [Option.some.injEq, Prod.mk.injEq, reduceCtorEq] at hs <;> obtain ⟨rfl, rfl⟩ := hs <;> simp_all

/-- While the function waits, the callback has not been called, or is being called right now. If the promise was moved into the callback, it also has not been destroyed. -/
theorem waits_for_callback {k : Kind} {s : State} {tr : List Obs} (h : Reach (step k) init s tr) (hn : step k s .caller = none) (hd : s.cpc ≠ .done) :
    (first tr = none ∨ ∃ ec d, s.tpc = .inCall ec d) ∧ (k.hold = .moved → .dropped ∉ tr) := by
  have hi := reach_inv h
  have hst : s.stored = none := by
    simp only [step] at hn
    (repeat' split at hn) <;> simp_all
  refine ⟨(hi.isNone hst).symm, fun hk hm => ?_⟩
  have := hi.gone.2 hm
  have h1 := hi.live
  have h2 := hi.dead
  cases ht : s.tpc <;> simp [ht, TPc.over] at this
  · exact h2 ht hst
  · exact h1 ht hk hst

/-- Neither the promise nor the shared state is used after its end, if the promise was moved into the callback, or is kept by a `shared_ptr`. -/
theorem no_ub {k : Kind} {s : State} {tr : List Obs} (hk : k ≠ .read) (h : Reach (step k) init s tr) : .ub ∉ tr := by
  induction h with
  | refl => simp
  | @tail s s' tr o e h1 hs ih =>
    simp only [List.mem_append, not_or]
    refine ⟨ih, ?_⟩
    have hi := reach_inv h1
    have hh : k.hold = .moved ∨ k.hold = .shared := by cases k <;> simp_all [Kind.hold]
    obtain ⟨refs, freed, promise, owners, stored, cpc, tpc⟩ := s
    obtain ⟨h1, h2, -, -, h5, h6, -, h8, h9, -, -, -, -, -, -, -, -⟩ := hi
    dsimp only at *
    cases e <;> simp only [step, release, ownerDestroyed, touch] at hs <;> (repeat' split at hs) <;>
      simp only [Option.some.injEq, Prod.mk.injEq, reduceCtorEq] at hs <;> obtain ⟨rfl, rfl⟩ := hs <;> (try dsimp only at *) <;>
      first
        | (simp; done)
        | (exfalso; simp only [CPc.holds, CPc.dest, CPc.own, TPc.over] at *; first | grind | (cases cpc <;> grind) | (cases tpc <;> grind))

/-- The shared state is freed once, when the function has returned and the callback is destroyed, and not twice. -/
theorem freed_once {k : Kind} {s : State} {tr : List Obs} (h : Reach (step k) init s tr) : tr.count .freed ≤ 1 ∧ (s.cpc = .done → s.tpc = .gone → tr.count .freed = 1) := by
  have hi := reach_inv h
  have h3 := hi.free1
  refine ⟨by rw [h3]; split <;> omega, fun hc ht => ?_⟩
  have hf : s.freed = true := by
    rw [hi.freed, hi.refs]
    have hp : s.promise = false := by
      have hk : k.hold = .moved ∨ k.hold = .byRef ∨ k.hold = .shared := by cases k <;> simp [Kind.hold]
      have h6 := hi.mvd; have h7 := hi.ref; have h8 := hi.owners; have h9 := hi.shr
      simp only [hc, ht, CPc.own, TPc.over, CPc.dest] at h6 h7 h8 h9
      grind
    simp [hc, hp, CPc.holds]
  rw [h3, hf]; rfl

/-! ## A callback that has only a reference to the promise, or shares it -/

/-- `set_value` and `notify_all` are one step for the function that waits, as if the callback were called in its thread; and the callback is called at most once. -/
def quietStep (k : Kind) (s : State) (e : Event) : Option (State × List Obs) :=
  match e with
  | .caller => if s.tpc = .notify then none else step k s e
  | .call _ _ => if s.stored = none then step k s e else none
  | e => step k s e

theorem quiet_reach {k : Kind} {s : State} {tr : List Obs} (h : Reach (quietStep k) init s tr) :
    Reach (step k) init s tr ∧ .ub ∉ tr ∧ (∀ ec d, s.tpc = .inCall ec d → s.stored = none) ∧ (s.tpc = .notify → s.cpc = .get) := by
  induction h with
  | refl => exact ⟨.refl, by simp, by simp [init], by simp [init]⟩
  | @tail s s' tr o e h1 hs ih =>
    obtain ⟨hr, hu, hc, hn⟩ := ih
    have hs' : step k s e = some (s', o) := by
      simp only [quietStep] at hs; (repeat' split at hs) <;> simp_all
    refine ⟨hr.tail e hs', ?_⟩
    have hi := reach_inv hr
    have hk : k.hold = .moved ∨ k.hold = .byRef ∨ k.hold = .shared := by cases k <;> simp [Kind.hold]
    obtain ⟨refs, freed, promise, owners, stored, cpc, tpc⟩ := s
    obtain ⟨h1, h2, -, -, h5, h6, h7, h8, h9, -, -, -, -, -, -, h16, -⟩ := hi
    dsimp only at *
    simp only [List.mem_append, not_or, hu, not_false_eq_true, true_and]
    cases e <;> simp only [quietStep, step, release, ownerDestroyed, touch] at hs <;> (repeat' split at hs) <;>
      simp only [Option.some.injEq, Prod.mk.injEq, reduceCtorEq] at hs <;> obtain ⟨rfl, rfl⟩ := hs <;> (try dsimp only at *) <;>
      (simp only [CPc.holds, CPc.dest, CPc.own, TPc.over] at *; first | grind | (cases cpc <;> grind) | (cases tpc <;> grind))

/-- Also `read`, whose callback has a reference to the promise, uses nothing after its end, provided the callback is called at most once, and by the thread of the function. What is missing is that this holds
when another thread calls it: `read_ub`. -/
theorem read_no_ub_partial {k : Kind} {s : State} {tr : List Obs} (h : Reach (quietStep k) init s tr) : .ub ∉ tr := (quiet_reach h).2.1

/-- `read` gets the value, returns, and with it end the promise and the shared state, before `set_value`, in another thread, has notified. -/
theorem read_ub : ∃ s, Reach (step .read) init s [.called 0 [7], .freed, .returned (.data [7]), .ub] :=
  ⟨_, reach_of_exec (es := [.call 0 [7], .callback, .caller, .caller, .caller, .caller, .callback]) rfl⟩

/-- A callback that is called a second time, after `read` has returned, uses the promise that is gone; those the promise was moved into throw `promise_already_satisfied`. -/
theorem read_twice_ub : (∃ s, Reach (step .read) init s [.called 0 [7], .freed, .returned (.data [7]), .called 0 [8], .ub]) ∧
    ∃ s, Reach (step .readEc) init s [.called 0 [7], .returned (.pair 0 [7]), .called 0 [8], .already] :=
  ⟨⟨_, reach_of_exec (es := [.call 0 [7], .callback, .callback, .caller, .caller, .caller, .caller, .call 0 [8], .callback]) rfl⟩,
   ⟨_, reach_of_exec (es := [.call 0 [7], .callback, .callback, .caller, .caller, .caller, .call 0 [8], .callback]) rfl⟩⟩

/-- If the callback is destroyed without having been called, both functions called `read` wait for ever: the promise is still there, on the stack of the first, and held by a `shared_ptr` of the second. -/
theorem dropped_hangs {k : Kind} (hk : k = .read ∨ k = .method) : ∃ s, Reach (step k) init s [.dropped] ∧ ∀ s' tr, Reach (step k) s s' tr → tr = [] ∧ s'.cpc = .get := by
  have key : ∀ s : State, s.cpc = .get → s.tpc = .gone → s.stored = none → ∀ s' tr, Reach (step k) s s' tr → tr = [] ∧ s' = s := by
    intro s h1 h2 h3 s' tr h
    induction h with
    | refl => exact ⟨rfl, rfl⟩
    | tail e _ hs ih =>
      obtain ⟨rfl, rfl⟩ := ih
      cases e <;> simp [step, h1, h2, h3] at hs
  rcases hk with rfl | rfl
  · refine ⟨_, reach_of_exec (es := [.drop]) rfl, fun s' tr h => ?_⟩
    obtain ⟨h1, rfl⟩ := key _ rfl rfl rfl _ _ h
    exact ⟨h1, rfl⟩
  · refine ⟨_, reach_of_exec (es := [.drop]) rfl, fun s' tr h => ?_⟩
    obtain ⟨h1, rfl⟩ := key _ rfl rfl rfl _ _ h
    exact ⟨h1, rfl⟩

/-! ## Examples -/

-- result, freed_once: `write` with an error; the callback's promise is the last to go
example : ∃ s, Reach (step .write) init s [.called 5 [], .returned (.threw 5), .dropped, .freed] ∧ s.cpc = .done ∧ s.tpc = .gone :=
  ⟨_, reach_of_exec (es := [.call 5 [], .callback, .caller, .caller, .caller, .callback, .drop, .callback]) rfl, rfl, rfl⟩

-- the callback is destroyed without having been called
example : ∃ s, Reach (step .readEc) init s [.dropped, .freed, .returned .threwBroken] :=
  ⟨_, reach_of_exec (es := [.drop, .callback, .caller, .caller, .caller]) rfl⟩

-- `shared_ptr`: the callback returns last
example : ∃ s, Reach (step .method) init s [.called 0 [1, 2], .returned (.data [1, 2]), .dropped, .freed] :=
  ⟨_, reach_of_exec (es := [.call 0 [1, 2], .callback, .caller, .caller, .caller, .callback, .drop, .callback]) rfl⟩

-- waits_for_callback: in the call
example : ∃ s, Reach (step .writeEc) init s [.called 1 []] ∧ step .writeEc s .caller = none ∧ s.cpc ≠ .done := ⟨_, reach_of_exec (es := [.call 1 []]) rfl, rfl, by decide⟩

-- read_no_ub_partial
example : ∃ s, Reach (quietStep .read) init s [.called 0 [7], .freed, .returned (.data [7]), .dropped] :=
  ⟨_, reach_of_exec (es := [.call 0 [7], .callback, .callback, .caller, .caller, .caller, .caller, .drop]) rfl⟩

end Verif.Props.Callback
