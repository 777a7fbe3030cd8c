import Verif.EchoEnd

/-!
# Properties C123, C124: the echo server of the examples and its clients

`replies i tr` (in `Verif/EchoInv.lean`) lists the replies that client `i` has got: the number of the iteration, and the data.
-/

namespace Verif.Props.Echo

open Verif Verif.Echo

variable {P : Prog} {a : State} {tr : List Obs}

/-! ## What is echoed (C123) -/

/-- **C123.** A reply to a client is not empty and is the beginning of the message that this client has sent in this iteration: no byte is
changed, left out, or comes from another client or another message. -/
theorem echoed (h : Reach (step P) init a tr) {i k : Nat} {d : List Nat} (hd : .reply i k d ∈ tr) : d ≠ [] ∧ d <+: P.msg i k := by
  refine (reach_inv h).2.1.data i k d ?_
  clear h
  induction tr with
  | nil => cases hd
  | cons o tr ih =>
    rcases List.mem_cons.1 hd with rfl | hd
    · simp [replies]
    · have := ih hd
      cases o <;> simp only [replies] <;> (try split) <;> simp [this]

/-- **C123.** A client gets one reply in each iteration, in this order. -/
theorem replies_in_order (h : Reach (step P) init a tr) (i : Nat) : ∃ m, (replies i tr).map Prod.fst = List.range m :=
  (reach_inv h).2.1.repq i

/-- A program with `n` clients that send `[1, 2]` once. -/
def prog (n : Nat) : Prog := ⟨n, 1, fun _ _ => [1, 2]⟩

/-- The reply need not be the whole message: the client does one `async_read_some`, which may take a part of it. -/
theorem reply_may_be_short : ∃ a, Reach (step (prog 1)) init a [.reply 0 0 [1]] := by
  have h : ((exec (step (prog 1)) init [.connect 0 true, .accept, .cpush 0 2, .sread 0 2, .spush 0 1, .cread 0 1]).map Prod.snd) =
      some [.reply 0 0 [1]] := by decide +kernel
  simp only [Option.map_eq_some_iff] at h
  obtain ⟨⟨a, tr⟩, h1, h2⟩ := h
  simp only at h2; subst h2
  exact ⟨a, reach_of_exec h1⟩

/-! ## The end of the program (C124) -/

theorem all_arrived (h : Reach (step P) init a tr) (hl : a.arrived.length = P.n) {i : Nat} (hi : i < P.n) : i ∈ a.arrived := by
  have hb := (reach_inv h).2.2.1
  by_cases hm : i ∈ a.arrived
  · exact hm
  · have h1 : (i :: a.arrived).Nodup := List.nodup_cons.2 ⟨hm, hb.nd⟩
    have h2 : (i :: a.arrived).Subset (List.range P.n) := fun j hj => List.mem_range.2 (by
      rcases List.mem_cons.1 hj with rfl | hj
      · exact hi
      · exact hb.arrn j hj)
    have := h1.length_le_of_subset h2
    simp at this; omega

/-- **C124.** Unless an operation fails, the server is stopped only after every client has got a reply in every iteration. -/
theorem served_before_stop (h : Reach (step P) init a tr) (hs : .stop ∈ tr) (hf : .fault ∉ tr) {i : Nat} (hi : i < P.n) :
    (replies i tr).map Prod.fst = List.range P.its := by
  obtain ⟨-, hr, hb, -⟩ := reach_inv h
  have ho : a.opn = false := by
    cases ho : a.opn
    · rfl
    · exact absurd (hb.live (hb.stop.1 hs) ho) hf
  have := (hb.arr i).1 (all_arrived h (hb.opn.1 ho).1 hi)
  refine hr.rep i P.its ?_
  rcases this with h | h <;> simp [h, CPc.count]

/-- **C124.** Whatever fails: at most one client closes the acceptor, and only after every client has got a reply in every iteration. -/
theorem closed_once (h : Reach (step P) init a tr) : (tr.filter Obs.isCloses).length ≤ 1 ∧
    ∀ j, .closes j ∈ tr → ∀ i, i < P.n → (replies i tr).map Prod.fst = List.range P.its := by
  obtain ⟨-, hr, hb, -⟩ := reach_inv h
  refine ⟨by rw [hb.one]; split <;> omega, fun j hj i hi => ?_⟩
  have := (hb.arr i).1 (all_arrived h (hb.opn.1 (hb.cls j hj)).1 hi)
  refine hr.rep i P.its ?_
  rcases this with h | h <;> simp [h, CPc.count]

/-- An operation that does not fail. -/
def Event.good : Event → Bool
  | .connect _ ok => ok
  | .cwfail _ _ | .crfail _ | .afail | .sfail _ => false
  | _ => true

/-- What holds of C124: if no operation fails, the program does not come to rest before the server is stopped, all clients have ended and have
got their replies. -/
theorem ends_partial (h : Reach (step P) init a tr) (hn : 0 < P.n) (hm : ∀ i k, P.msg i k ≠ []) (hf : .fault ∉ tr)
    (hq : ∀ e, Event.good e = true → step P a e = none) :
    .stop ∈ tr ∧ ∀ i, i < P.n → .finished i ∈ tr ∧ (replies i tr).map Prod.fst = List.range P.its := by
  obtain ⟨hl, hr, hb, hF⟩ := reach_inv h
  have hc := hF.run hf
  -- the acceptor is closed
  have ho : a.opn = false := by
    cases ho : a.opn
    · rfl
    exfalso
    have hst : a.stopped = false := by
      cases hst : a.stopped
      · rfl
      · exact absurd (hb.live hst ho) hf
    have hbk : a.backlog = [] := by
      have := hq .accept rfl
      simp only [step, hc, hst] at this
      cases hbk : a.backlog with
      | nil => rfl
      | cons c l => simp [hbk, ho] at this
    have all : ∀ i, i < P.n → i ∈ a.arrived := fun i hi => by
      refine (hb.arr i).2 ?_
      cases hi' : a.cli i with
      | waiting => exact .inl rfl
      | done => exact .inr rfl
      | quit => exact absurd hi' (hF.quit hf i)
      | top k =>
        exfalso
        have hk := hr.top i k hi'
        rcases Nat.lt_or_eq_of_le hk with hk | hk
        · have := hq (.connect i true) rfl
          simp [step, hc, hst, hi', hi, hk, ho] at this
        · have := hq (.arrive i) rfl
          simp [step, hc, hst, hi', hi, hk] at this
          split at this <;> cases this
      | writing k c r =>
        exfalso
        have hr : r ≠ [] := by rintro rfl; exact hm i k (hl.rest i k c hi')
        have := hq (.cpush i 1) rfl
        simp only [step, hc, hst, hi', Bool.false_eq_true, if_false] at this
        rw [if_pos ⟨by omega, List.length_pos_iff.2 hr⟩] at this
        cases this
      | reading k c =>
        exfalso
        have lk := hl.link i k c [] (by simp [hi', CPc.conn])
        have hd : a.down c = [] := by
          cases hd : a.down c with
          | nil => rfl
          | cons x l =>
            have := hq (.cread i 1) rfl
            simp [step, hc, hst, hi', hd, maxLength] at this
        cases hs : a.ses c with
        | new => have := lk.wait hs; rw [hbk] at this; cases this
        | done => have := hF.gone hf c hs; rw [lk.here] at this; cases this
        | reading =>
          have := lk.all (by simp [hs])
          simp only [hd, hs, SPc.rest, List.nil_append, List.append_nil] at this
          have h1 := hq (.sread c 1) rfl
          cases hu : a.up c with
          | nil => exact hm i k (by rw [← this, hu])
          | cons x l => simp [step, hc, hst, hs, hu, maxLength] at h1
        | writing r =>
          have hr : r ≠ [] := by rintro rfl; exact hl.srest c hs
          have := hq (.spush c 1) rfl
          simp only [step, hc, hst, hs, Bool.false_eq_true, if_false] at this
          rw [if_pos ⟨by omega, List.length_pos_iff.2 hr⟩] at this
          cases this
    have h1 : (List.range P.n).length ≤ a.arrived.length :=
      List.nodup_range.length_le_of_subset fun i hi => all i (List.mem_range.1 hi)
    have h2 := arrived_le hb.arrn hb.nd
    rw [List.length_range] at h1
    have := hb.opn.2 ⟨by omega, fun h => by rw [h] at h1; simp at h1; omega⟩
    rw [ho] at this; cases this
  have hst : a.stopped = true := by
    cases hst : a.stopped
    · have := hq .abort rfl
      simp [step, hc, hst, ho] at this
    · rfl
  have hlen := (hb.opn.1 ho).1
  refine ⟨hb.stop.2 hst, fun i hi => ?_⟩
  have hd : a.cli i = .done := by
    rcases (hb.arr i).1 (all_arrived h hlen hi) with h | h
    · have := hq (.pass i) rfl
      simp [step, hc, h, hlen] at this
    · exact h
  exact ⟨(hb.fin i).2 hd, hr.rep i _ (by simp [hd, CPc.count])⟩

theorem todo_sum (i : Nat) {m : Nat} (h : m ≤ P.its) :
    todo P i m + sumTo (fun k => 4 * (P.msg i k).length + 5) (P.its - m) = sumTo (fun k => 4 * (P.msg i k).length + 5) P.its := by
  induction m with
  | zero => simp [todo]
  | succ m ih =>
    have := ih (by omega)
    rw [show P.its - m = (P.its - (m + 1)) + 1 by omega, sumTo] at this
    rw [todo]; omega

/-- **C124.** The program cannot go on for ever, whatever fails: the number of steps is bounded by the number of clients, iterations and bytes. So
by `ends_partial` every execution without failures, continued as long as possible, ends with all clients served and the server stopped. -/
theorem steps_bounded {es : List Event} (h : exec (step P) init es = some (a, tr)) :
    es.length ≤ sumTo (fun i => sumTo (fun k => 4 * (P.msg i k).length + 5) P.its + 2) P.n + 2 := by
  have h1 := exec_bound .refl h
  have h2 : weight P init = sumTo (fun i => sumTo (fun k => 4 * (P.msg i k).length + 5) P.its + 2) P.n + 2 := by
    have : sumTo (cost P init) P.n = sumTo (fun i => sumTo (fun k => 4 * (P.msg i k).length + 5) P.its + 2) P.n :=
      sumTo_congr fun i _ => by
        have := todo_sum (P := P) i (Nat.le_refl _)
        simp only [Nat.sub_self, sumTo] at this
        simp only [cost, init, CPc.weight, Nat.sub_zero]; omega
    simp only [weight, this]
    simp [init, sumTo]
  omega

set_option synthInstance.maxSize 2000 in
set_option synthInstance.maxHeartbeats 200000 in
/-- **C124 fails:** the connection of one client breaks, the client returns without waiting at the barrier, and the program is at rest: the other
client waits at the barrier, the server waits for connections, and nothing can happen any more unless `async_accept` fails. -/
theorem client_hangs : ∃ a tr, Reach (step (prog 2)) init a tr ∧ .terminate 0 ∉ tr ∧ .terminate 1 ∉ tr ∧ (replies 1 tr).map Prod.fst = [0] ∧
    .stop ∉ tr ∧ ∀ e, e ≠ .afail → step (prog 2) a e = none := by
  have h : ((exec (step (prog 2)) init [.connect 0 true, .accept, .cpush 0 2, .sfail 0, .ceof 0,
      .connect 1 true, .accept, .cpush 1 2, .sread 1 2, .spush 1 2, .cread 1 2, .seof 1, .arrive 1]).map
      fun x => (x.2, x.1.cli 0, x.1.cli 1, x.1.ses 0, x.1.ses 1, x.1.next, x.1.backlog, x.1.opn, x.1.arrived)) =
      some ([.fault, .quit 0, .reply 1 0 [1, 2]], .quit, .waiting, .done, .done, 2, [], true, [1]) := by decide +kernel
  simp only [Option.map_eq_some_iff, Prod.mk.injEq] at h
  obtain ⟨⟨a, tr⟩, h1, h2, c0, c1, s0, s1, hn, hb, ho, ha⟩ := h
  simp only at h2 c0 c1 s0 s1 hn hb ho ha
  subst h2
  have hr := reach_of_exec h1
  obtain ⟨hl, -, hB, -⟩ := reach_inv hr
  have cli : ∀ i, a.cli i = .quit ∨ a.cli i = .waiting ∨ (2 ≤ i ∧ a.cli i = .top 0) := fun i => by
    rcases i with _ | _ | i
    · exact .inl c0
    · exact .inr (.inl c1)
    · exact .inr (.inr ⟨by omega, hB.out _ (by show 2 ≤ _; omega)⟩)
  have ses : ∀ c, a.ses c = .done ∨ a.ses c = .new := fun c => by
    rcases c with _ | _ | c
    · exact .inl s0
    · exact .inl s1
    · exact .inr (hl.fresh _ (by omega)).1
  refine ⟨a, _, hr, by simp, by simp, by simp [replies], by simp, fun e he => ?_⟩
  have hp : (prog 2).n = 2 := rfl
  cases e with
  | afail => exact absurd rfl he
  | connect i ok => rcases cli i with h | h | ⟨h', h⟩ <;> simp [step, h, hp] <;> omega
  | arrive i => rcases cli i with h | h | ⟨h', h⟩ <;> simp [step, h, hp] <;> omega
  | cpush i j => rcases cli i with h | h | ⟨h', h⟩ <;> simp [step, h]
  | cwfail i j => rcases cli i with h | h | ⟨h', h⟩ <;> simp [step, h]
  | cread i j => rcases cli i with h | h | ⟨h', h⟩ <;> simp [step, h]
  | ceof i => rcases cli i with h | h | ⟨h', h⟩ <;> simp [step, h]
  | crfail i => rcases cli i with h | h | ⟨h', h⟩ <;> simp [step, h]
  | pass i => rcases cli i with h | h | ⟨h', h⟩ <;> simp [step, h, hp, ha]
  | accept => simp [step, hb]
  | abort => simp [step, ho]
  | sread c j => rcases ses c with h | h <;> simp [step, h]
  | spush c j => rcases ses c with h | h <;> simp [step, h]
  | seof c => rcases ses c with h | h <;> simp [step, h]
  | sfail c => rcases ses c with h | h <;> simp [step, h]

/-! ## Examples -/

-- `echoed`, `replies_in_order`: see `reply_may_be_short`; here pieces of a message are echoed before the rest is sent
example : ∃ a, Reach (step (prog 1)) init a [.reply 0 0 [1, 2]] := by
  have h : ((exec (step (prog 1)) init [.connect 0 true, .cpush 0 1, .accept, .sread 0 1, .spush 0 1, .cpush 0 1, .sread 0 1, .spush 0 1, .cread 0 2]).map
      Prod.snd) = some [.reply 0 0 [1, 2]] := by decide +kernel
  simp only [Option.map_eq_some_iff] at h
  obtain ⟨⟨a, tr⟩, h1, h2⟩ := h
  simp only at h2; subst h2
  exact ⟨a, reach_of_exec h1⟩

set_option synthInstance.maxSize 2000 in
set_option synthInstance.maxHeartbeats 200000 in
-- `served_before_stop`, `closed_once`, `ends_partial`: a whole run with two clients comes to rest
example : ∃ a tr, Reach (step (prog 2)) init a tr ∧ .stop ∈ tr ∧ .closes 1 ∈ tr ∧ .fault ∉ tr ∧ (∀ i k, (prog 2).msg i k ≠ []) ∧ 0 < (prog 2).n ∧
    ∀ e, Event.good e = true → step (prog 2) a e = none := by
  have h : ((exec (step (prog 2)) init [.connect 0 true, .accept, .cpush 0 2, .sread 0 2, .spush 0 2, .cread 0 2, .seof 0, .arrive 0,
      .connect 1 true, .accept, .cpush 1 2, .sread 1 2, .spush 1 2, .cread 1 2, .seof 1, .arrive 1, .pass 0, .abort]).map
      fun x => (x.2, x.1.cli 0, x.1.cli 1, x.1.stopped)) =
      some ([.reply 0 0 [1, 2], .reply 1 0 [1, 2], .closes 1, .finished 1, .finished 0, .stop], .done, .done, true) := by decide +kernel
  simp only [Option.map_eq_some_iff, Prod.mk.injEq] at h
  obtain ⟨⟨a, tr⟩, h1, h2, c0, c1, hst⟩ := h
  simp only at h2 c0 c1 hst
  subst h2
  have hr := reach_of_exec h1
  have hB := (reach_inv hr).2.2.1
  refine ⟨a, _, hr, by simp, by simp, by simp, by simp [prog], by simp [prog], fun e _ => ?_⟩
  cases e with
  | pass i =>
    have : a.cli i ≠ .waiting := by
      rcases i with _ | _ | i
      · rw [c0]; simp
      · rw [c1]; simp
      · rw [hB.out _ (by show 2 ≤ _; omega)]; simp
    simp [step, this]
  | _ => simp [step, hst]

end Verif.Props.Echo
