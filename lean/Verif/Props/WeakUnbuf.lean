import Verif.WeakUnbufTrace

/-!
# The unbuffered channel under the C++ memory model (C77, C78, C79)

Data belong to fibers, and are given away with the calls (`Verif/WeakUnbuf.lean`): `push` gives data to the pop that gets the value,
`pop` gives data to the push whose value it takes, `close` leaves data to a call that returns `closed`. `race w x` is observed if
fiber `w` uses data `x` although a former use of `x` does not happen before. `init strong offer who`: `strong = false` is the code,
`strong = true` lets the `exchange` in `close` release; `offer`: what `close` may leave. All theorems hold for every choice of the messages read.
-/

namespace Verif.WeakUnbuf

variable {s s' : State} {tr a b o : List Obs} {strong : Bool} {offer : Offer} {who : Nat → Nat}

theorem runs_to {es : List Event} {s0 : State} (h : (exec step s0 es).map (·.2) = some tr) : ∃ s, Reach step s0 s tr := by
  rw [Option.map_eq_some_iff] at h
  obtain ⟨⟨s, tr'⟩, h1, rfl⟩ := h
  exact ⟨s, reach_of_exec h1⟩

/-- No use of data races with a former one. -/
def RaceFree (tr : List Obs) : Prop := ∀ w x, .race w x ∉ tr

theorem step_race {e : Event} {w x : Nat} (h : Inv s tr) (hs : step s e = some (s', o)) : Obs.race w x ∉ o := by
  unfold step at hs
  split at hs
  · cases hs
  · split at hs
    · split at hs <;> cases hs; simp
    · split at hs <;> cases hs; simp
    · split at hs <;> cases hs; simp
    · rename_i v y
      split at hs <;> cases hs
      rename_i hc
      have h1 := h.glob.own y v hc.2
      have h2 : (Weak.touch s.mem v (y + 2)).1 = false := by simp only [Weak.touch, decide_eq_false_iff_not]; omega
      rw [h2]; simp
    · rcases (go_eff h hs).obs with h2 | ⟨d, b, h2, _⟩ | ⟨d, h2, _⟩ | h2 | ⟨b, h2, _⟩ | ⟨h2, _⟩ <;> rw [h2] <;> simp

theorem race_free (hok : offer = .early → strong = true) (h : Reach step (init strong offer who) s tr) : RaceFree tr := fun w x =>
  h.inv (fun _ tr => Obs.race w x ∉ tr) nofun (fun _ _ _ _ _ hr hi hs hm => by
    rcases List.mem_append.1 hm with h1 | h1
    · exact hi h1
    · exact step_race (reach_inv hok hr) hs h1)

theorem nothing_ok : Offer.nothing = .early → strong = true := nofun

theorem late_ok : Offer.late = .early → strong = true := nofun

/-! ## C77: the rendezvous -/

/-- What `push` hands to `pop`, and `pop` to the `push` whose value it took, is handed over without a data race. -/
theorem handover (h : Reach step (init strong .nothing who) s tr) : RaceFree tr := race_free nothing_ok h

/-- A push that returns `success` was preceded by the return of a pop with its value. -/
theorem pushed_popped {w c : Nat} (h : Reach step (init strong .nothing who) s (a ++ .pushed w c true :: b)) : ∃ u x, .popped u c x ∈ a := by
  obtain ⟨s1, e, s2, h1, h2⟩ := cut nothing_ok h rfl
  have hi := reach_inv nothing_ok h1
  unfold step at h2
  split at h2
  · cases h2
  · split at h2
    · split at h2 <;> cases h2
    · split at h2 <;> cases h2
    · split at h2 <;> cases h2
    · split at h2
      · split at h2 <;> cases h2
      · cases h2
    · rcases (go_eff hi h2).obs with h3 | ⟨d, b, h3, h4⟩ | ⟨d, h3, _⟩ | h3 | ⟨b, h3, _⟩ | ⟨h3, _⟩ <;> cases h3
      exact h4 rfl

/-- A pop returns a value that was pushed before, by the call it is attributed to. -/
theorem popped_pushed {u c x : Nat} (h : Reach step (init strong .nothing who) s (a ++ .popped u c x :: b)) : ∃ w, .push w c x ∈ a := by
  obtain ⟨s1, e, s2, h1, h2⟩ := cut nothing_ok h rfl
  obtain ⟨hi, ht⟩ := reach_all nothing_ok h1
  unfold step at h2
  split at h2
  · cases h2
  · split at h2
    · split at h2 <;> cases h2
    · split at h2 <;> cases h2
    · split at h2 <;> cases h2
    · split at h2
      · split at h2 <;> cases h2
      · cases h2
    · rcases (go_eff hi h2).obs with h3 | ⟨d, b, h3, _⟩ | ⟨d, h3, _, h4, _⟩ | h3 | ⟨b, h3, _⟩ | ⟨h3, _⟩ <;> cases h3
      exact ⟨_, ht.calls c h4⟩

/-- Calls are told apart by their numbers. -/
theorem push_unique {w c x w' x' : Nat} (h : Reach step (init strong .nothing who) s tr) (h1 : .push w c x ∈ tr) (h2 : .push w' c x' ∈ tr) : w = w' ∧ x = x' := by
  have ht := (reach_all nothing_ok h).2
  obtain ⟨_, e1, e2⟩ := ht.push _ _ _ h1
  obtain ⟨_, e3, e4⟩ := ht.push _ _ _ h2
  exact ⟨e2.trans e4.symm, e1.trans e3.symm⟩

/-- No value is popped twice. -/
theorem popped_once {u v c x y : Nat} (h : Reach step (init strong .nothing who) s (a ++ .popped u c x :: b)) : .popped v c y ∉ a ∧ .popped v c y ∉ b := by
  have first : ∀ {u v c x y : Nat} {a b : List Obs} {s : State}, Reach step (init strong .nothing who) s (a ++ .popped u c x :: b) → .popped v c y ∉ a := by
    intro u v c x y a b s h hm
    obtain ⟨s1, e, s2, h1, h2⟩ := cut nothing_ok h rfl
    obtain ⟨hi, ht⟩ := reach_all nothing_ok h1
    obtain ⟨_, _, _, h5⟩ := ht.pops _ _ _ hm
    unfold step at h2
    split at h2
    · cases h2
    · split at h2
      · split at h2 <;> cases h2
      · split at h2 <;> cases h2
      · split at h2 <;> cases h2
      · split at h2
        · split at h2 <;> cases h2
        · cases h2
      · rcases (go_eff hi h2).obs with h3 | ⟨d, b, h3, _⟩ | ⟨d, h3, h6, _⟩ | h3 | ⟨b, h3, _⟩ | ⟨h3, _⟩ <;> cases h3
        exact h5 _ h6
  refine ⟨first h, fun hm => ?_⟩
  obtain ⟨b1, b2, rfl⟩ := List.append_of_mem hm
  have e : a ++ Obs.popped u c x :: (b1 ++ .popped v c y :: b2) = (a ++ .popped u c x :: b1) ++ .popped v c y :: b2 := by simp
  rw [e] at h
  exact first h (y := x) (v := u) (by simp)

/-- As long as nobody calls `close`, every push that returns has succeeded, every pop that returns has got a value, and no slot is used
    after its push has returned. -/
theorem open_channel {w c : Nat} (h : Reach step (init strong .nothing who) s tr) (hn : ∀ v, .close v ∉ tr) :
    .pushed w c false ∉ tr ∧ .popClosed w ∉ tr ∧ .ub w ∉ tr := by
  obtain ⟨h1, h2, h3⟩ := ((reach_all nothing_ok h).2.open_ hn).2.2.2 w
  exact ⟨h3 c, h2, h1⟩

/-- Fiber 1 waits in `pop`, giving data 1; fiber 0 prepares data 0, pushes it, and is woken; each then uses what it got. -/
def meet : List Event :=
  [.use 0 0, .use 1 1, .pop 1 (some 1), .go 1 0, .go 1 0, .go 1 0, .go 1 0,
   .push 0 0, .go 0 0, .go 0 0, .go 0 0, .go 0 0,
   .go 1 0, .go 1 1, .go 1 1, .go 1 0, .go 1 0, .go 1 0,
   .go 0 0, .go 0 0, .use 1 0, .use 0 1]

def meetTrace : List Obs := [.used 0 0, .used 1 1, .push 0 0 0, .popped 1 0 0, .pushed 0 0 true, .used 1 0, .used 0 1]

theorem meet_runs : ∃ s, Reach step (init false .nothing id) s meetTrace := runs_to (es := meet) (by decide +kernel)

example : ∃ s, Reach step (init false .nothing id) s ([.used 0 0, .used 1 1, .push 0 0 0, .popped 1 0 0] ++ .pushed 0 0 true :: [.used 1 0, .used 0 1]) ∧
    ∀ v, Obs.close v ∉ meetTrace := by
  obtain ⟨s, h⟩ := meet_runs
  exact ⟨s, h, by simp [meetTrace]⟩

/-! ## C78: closing -/

/-- The negation of "what a fiber did before it called `close` happens before what those do who got `closed`": a push that returns `closed`. -/
theorem close_publishes_false : ∃ s tr, Reach step (init false .early id) s tr ∧ tr = [.used 0 0, .close 0, .push 1 0 1, .pushed 1 0 false, .race 1 0] ∧ ¬ RaceFree tr := by
  obtain ⟨s, h⟩ := runs_to (s0 := init false .early id) (tr := [.used 0 0, .close 0, .push 1 0 1, .pushed 1 0 false, .race 1 0])
    (es := [.use 0 0, .close 0 (some 0), .go 0 0, .push 1 1, .go 1 1, .use 1 0]) (by decide +kernel)
  exact ⟨s, _, h, rfl, fun h => h 1 0 (by simp)⟩

/-- The same for a pop. -/
theorem close_publishes_false_pop : ∃ s tr, Reach step (init false .early id) s tr ∧ tr = [.used 0 0, .close 0, .popClosed 1, .race 1 0] ∧ ¬ RaceFree tr := by
  obtain ⟨s, h⟩ := runs_to (s0 := init false .early id) (tr := [.used 0 0, .close 0, .popClosed 1, .race 1 0])
    (es := [.use 0 0, .close 0 (some 0), .go 0 0, .pop 1 none, .go 1 0, .go 1 0, .go 1 1, .use 1 0]) (by decide +kernel)
  exact ⟨s, _, h, rfl, fun h => h 1 0 (by simp)⟩

/-- If the `exchange` in `close` was also a release operation, it would hold. -/
theorem close_release_publishes (h : Reach step (init true .early who) s tr) : RaceFree tr := race_free (fun _ => rfl) h

/-- The code, as it is: what a fiber did before it called `close` happens before what one does whose pop returned `closed` after `close`
    returned. (Missing: calls that return `closed` before `close` returned, and pushes; false, see above.) -/
theorem close_publishes_partial (h : Reach step (init false .late who) s tr) : RaceFree tr := race_free late_ok h

/-- A pop returns `closed` after `close` returned, and uses what the closing fiber left. -/
theorem late_runs : ∃ s, Reach step (init false .late id) s [.used 0 0, .close 0, .closed 0 true, .popClosed 1, .used 1 0] :=
  runs_to (es := [.use 0 0, .close 0 (some 0), .go 0 0, .go 0 0, .go 0 0, .go 0 0, .pop 1 none, .go 1 0, .go 1 0, .go 1 1, .use 1 0]) (by decide +kernel)

example : ∃ s, Reach step (init true .early id) s [.used 0 0, .close 0, .popClosed 1, .used 1 0] :=
  runs_to (es := [.use 0 0, .close 0 (some 0), .go 0 0, .pop 1 none, .go 1 0, .go 1 0, .go 1 1, .use 1 0]) (by decide +kernel)

/-! ## C79: those who wait in the queues when the channel is closed -/

/-- Fiber `w` is suspended because the slot was full (in `push`) or empty (in `pop`), and has not been woken. -/
def Stuck (s : State) (w : Nat) : Prop := ((∃ c, s.pc w = .pQueued c) ∨ ∃ y, s.pc w = .oQueued y) ∧ s.ready w = false

/-- Once the `close` that closed the channel has returned, nobody is suspended in one of its queues. -/
theorem close_wakes {v w : Nat} (hok : offer = .early → strong = true) (h : Reach step (init strong offer who) s tr) (hc : .closed v true ∈ tr) : ¬ Stuck s w := by
  rintro ⟨h1, h2⟩
  have hi := reach_inv hok h
  have hf := hi.glob.fin ⟨v, hc⟩
  have A := hi.at_ w
  rcases h1 with ⟨c, h1⟩ | ⟨y, h1⟩
  · have := A.queued .prod (by rw [h1]; rfl) h2
    rw [(hf .prod).1] at this; cases this
  · have := A.queued .cons (by rw [h1]; rfl) h2
    rw [(hf .cons).1] at this; cases this

/-- One who was woken can go on. -/
theorem woken_goes_on {w t : Nat} (h1 : (∃ c, s.pc w = .pQueued c) ∨ ∃ y, s.pc w = .oQueued y) (h2 : s.ready w = true) : ∃ s', go s w t = some (s', []) := by
  rcases h1 with ⟨c, h1⟩ | ⟨y, h1⟩ <;> simp [go, h1, h2]

/-- Fiber 1 waits in `pop`; fiber 0 closes the channel; the pop returns `closed`. -/
theorem woken_runs : ∃ s, Reach step (init false .nothing id) s [.close 0, .closed 0 true, .popClosed 1] :=
  runs_to (es := [.pop 1 none, .go 1 0, .go 1 0, .go 1 0, .go 1 0, .close 0 none, .go 0 0, .go 0 0, .go 0 0, .go 0 0, .go 1 0, .go 1 0, .go 1 0, .go 1 1]) (by decide +kernel)

/-- A fiber is stuck before, and not after. -/
example : ∃ s1 s2, Reach step (init false .nothing id) s1 [] ∧ Stuck s1 1 ∧ Reach step (init false .nothing id) s2 [.close 0, .closed 0 true] ∧ s2.pc 1 = .oQueued none :=
  ⟨_, _, reach_of_exec (es := [.pop 1 none, .go 1 0, .go 1 0, .go 1 0, .go 1 0]) rfl, ⟨.inr ⟨none, rfl⟩, rfl⟩,
    reach_of_exec (es := [.pop 1 none, .go 1 0, .go 1 0, .go 1 0, .go 1 0, .close 0 none, .go 0 0, .go 0 0, .go 0 0, .go 0 0]) rfl, rfl⟩

end Verif.WeakUnbuf
