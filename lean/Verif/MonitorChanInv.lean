import Verif.MonitorChan

/-!
# The buffered channel on weak memory: invariant
-/

namespace Verif.Monitor.Chan

open Verif.Rtm (Tid Lock Addr Req Done Hist Prog mine owner value Legal Allowed holding)
open Verif.WeakDrf Verif.Monitor

/-- A ring buffer of capacity `n` with the elements `xs`. -/
def Ring (n c p : Nat) (slot : Nat → Nat) (xs : List Nat) : Prop :=
  xs.length < n ∧ c < n ∧ p = (c + xs.length) % n ∧ ∀ i x, xs[i]? = some x → slot ((c + i) % n) = x

theorem ring_put {n c p : Nat} {slot slot' : Nat → Nat} {xs : List Nat} {v : Nat} (h : Ring n c p slot xs) (hf : c ≠ (p + 1) % n)
    (hs : ∀ i, i < n → slot' i = if i = p then v else slot i) : Ring n c ((p + 1) % n) slot' (xs ++ [v]) := by
  obtain ⟨h1, h2, rfl, h4⟩ := h
  have hn : xs.length + 1 ≠ n := by
    intro hn
    apply hf
    rw [Nat.mod_add_mod, Nat.add_assoc, hn, Nat.add_mod_right, Nat.mod_eq_of_lt h2]
  refine ⟨by simp; omega, h2, ?_, ?_⟩
  · rw [Nat.mod_add_mod]; simp [Nat.add_assoc]
  · intro i x hx
    rw [hs _ (Nat.mod_lt _ (by omega))]
    rw [List.getElem?_append] at hx
    split at hx
    · rename_i hi
      have : (c + i) % n ≠ (c + xs.length) % n := by
        intro he
        have h5 : ∀ a, a < n → (c + a) % n = if c + a < n then c + a else c + a - n := by
          intro a ha
          split
          · exact Nat.mod_eq_of_lt ‹_›
          · rw [Nat.mod_eq_sub_mod (by omega), Nat.mod_eq_of_lt (by omega)]
        rw [h5 i (by omega), h5 _ h1] at he
        split at he <;> split at he <;> omega
      simp only [this, if_false]
      exact h4 i x hx
    · rename_i hi
      have : i = xs.length := by
        have hlt := (List.getElem?_eq_some_iff.1 hx).1
        simp at hlt; omega
      subst this
      simp at hx
      simp [hx]

theorem ring_empty {n c p : Nat} {slot : Nat → Nat} {xs : List Nat} (h : Ring n c p slot xs) : c = p ↔ xs = [] := by
  obtain ⟨h1, h2, rfl, h4⟩ := h
  constructor
  · intro he
    have h5 : (c + xs.length) % n = if c + xs.length < n then c + xs.length else c + xs.length - n := by
      split
      · exact Nat.mod_eq_of_lt ‹_›
      · rw [Nat.mod_eq_sub_mod (by omega), Nat.mod_eq_of_lt (by omega)]
    rw [h5] at he
    have : xs.length = 0 := by split at he <;> omega
    exact List.length_eq_zero_iff.1 this
  · rintro rfl
    simp [Nat.mod_eq_of_lt h2]

theorem ring_get {n c p : Nat} {slot : Nat → Nat} {x : Nat} {xs : List Nat} (h : Ring n c p slot (x :: xs)) :
    slot c = x ∧ Ring n ((c + 1) % n) p slot xs := by
  obtain ⟨h1, h2, rfl, h4⟩ := h
  simp at h1
  refine ⟨?_, ⟨by omega, Nat.mod_lt _ (by omega), ?_, ?_⟩⟩
  · have := h4 0 x rfl
    rwa [Nat.add_zero, Nat.mod_eq_of_lt h2] at this
  · rw [Nat.mod_add_mod]; simp [Nat.add_assoc, Nat.add_comm 1]
  · intro i y hy
    rw [Nat.mod_add_mod, Nat.add_assoc, Nat.add_comm 1]
    exact h4 (i + 1) y hy

theorem ring_congr {n c p : Nat} {slot slot' : Nat → Nat} {xs : List Nat} (h : Ring n c p slot xs) (hs : ∀ i, i < n → slot' i = slot i) :
    Ring n c p slot' xs :=
  ⟨h.1, h.2.1, h.2.2.1, fun i x hx => by rw [hs _ (Nat.mod_lt _ (by have := h.1; omega))]; exact h.2.2.2 i x hx⟩

variable {C : Chans}

/-- Channel `o` contains `xs`. -/
def Content (C : Chans) (m : Addr → Nat) (o : Obj) (xs : List Nat) : Prop :=
  Ring (C.cap o) (m (cidxAt C o)) (m (pidxAt C o)) (fun i => m (slotAt C o i)) xs

theorem member_inj {o : Obj} {k l : Nat} : member C o k = member C o l ↔ k = l := by
  have h : ∀ w o k l : Nat, 2 * ((w + 5) * o + k) + 1 = 2 * ((w + 5) * o + l) + 1 ↔ k = l := by
    intro w o k l
    generalize (w + 5) * o = x
    omega
  exact h C.w o k l

theorem eval_notifyOne (q : Addr) (k : Code) (m : Addr → Nat) : ∃ n, (notifyOne q k).eval m = k.eval (fun b => if q = b then n else m b) := by
  refine ⟨m q - 1, ?_⟩
  simp only [notifyOne, Sec.eval]
  split
  · rename_i h0
    congr 1
    funext b
    split
    · subst_vars; rw [h0]
    · rfl
  · rfl

/-- What a critical section does to the content of its channel. -/
theorem sec_content {o : Obj} {op : Op} {m m' : Addr → Nat} {out : Act Op Res} {xs : List Nat} (he : (sec C o op).eval m = (m', out))
    (hc : Content C m o xs) :
    (out = .ret .success ∧ ∃ v, offer op = some v ∧ Content C m' o (xs ++ [v])) ∨
    (∃ v ys, out = .ret (.value v) ∧ xs = v :: ys ∧ Content C m' o ys) ∨
    (out ≠ .ret .success ∧ out ≠ .ret .oob ∧ (∀ v, out ≠ .ret (.value v)) ∧ Content C m' o xs) := by
  have key : ∀ m' : Addr → Nat, m' (cidxAt C o) = m (cidxAt C o) → m' (pidxAt C o) = m (pidxAt C o) →
      (∀ i, i < C.cap o → m' (slotAt C o i) = m (slotAt C o i)) → Content C m' o xs := by
    intro m' h1 h2 h3
    unfold Content
    rw [h1, h2]
    exact ring_congr hc h3
  have hwait : ∀ q op' m', (∃ k, k < 5 ∧ k ≠ 1 ∧ k ≠ 2 ∧ q = member C o k) → (wait q op').eval m = (m', out) → out = .again op' ∧ Content C m' o xs := by
    rintro q op' m' ⟨k, hk, hk1, hk2, rfl⟩ he
    simp only [wait, Sec.eval, Prod.mk.injEq] at he
    obtain ⟨rfl, rfl⟩ := he
    refine ⟨rfl, key _ ?_ ?_ ?_⟩ <;> simp only [cidxAt, pidxAt, slotAt, member_inj] <;> grind
  have hlate : ∀ q m', (∃ k, k < 5 ∧ k ≠ 1 ∧ k ≠ 2 ∧ q = member C o k) → (late q).eval m = (m', out) → out = .ret .timeout ∧ Content C m' o xs := by
    rintro q m' ⟨k, hk, hk1, hk2, rfl⟩ he
    simp only [late, Sec.eval] at he
    split at he <;> simp only [Sec.eval, Prod.mk.injEq] at he <;> obtain ⟨rfl, rfl⟩ := he
    · exact ⟨rfl, hc⟩
    · refine ⟨rfl, key _ ?_ ?_ ?_⟩ <;> simp only [cidxAt, pidxAt, slotAt, member_inj] <;> grind
  have hpush : ∀ v full, offer op = some v → (pushing C o v full).eval m = (m', out) → full.eval m = (m', out) ∨
      (out = .ret .closed ∧ m' = m) ∨ (out = .ret .success ∧ ∃ v, offer op = some v ∧ Content C m' o (xs ++ [v])) := by
    intro v full hv he
    simp only [pushing, Sec.eval] at he
    split at he
    · simp only [Sec.eval, Prod.mk.injEq] at he
      exact .inr (.inl ⟨he.2.symm, he.1.symm⟩)
    · simp only [Sec.eval] at he
      split at he
      · exact .inl he
      · rename_i hf
        split at he
        · rename_i ho
          have := hc.2.2.1
          have h2 := Nat.mod_lt (m (cidxAt C o) + xs.length) (show C.cap o > 0 by have := C.two o; omega)
          omega
        · right; right
          have hr : ∀ m' : Addr → Nat, m' (cidxAt C o) = m (cidxAt C o) → m' (pidxAt C o) = (m (pidxAt C o) + 1) % C.cap o →
              (∀ i, i < C.cap o → m' (slotAt C o i) = if i = m (pidxAt C o) then v else m (slotAt C o i)) → Content C m' o (xs ++ [v]) := by
            intro m' h1 h2 h3
            unfold Content
            rw [h1, h2]
            exact ring_put hc hf h3
          simp only [Sec.eval] at he
          obtain ⟨n, hn⟩ := eval_notifyOne (consumersAt C o) (.ret .success)
            (fun b => if pidxAt C o = b then (m (pidxAt C o) + 1) % C.cap o else if slotAt C o (m (pidxAt C o)) = b then v else m b)
          rw [hn] at he
          simp only [Sec.eval, Prod.mk.injEq] at he
          obtain ⟨rfl, rfl⟩ := he
          all_goals
            refine ⟨rfl, v, hv, hr _ ?_ ?_ ?_⟩ <;> (try simp only [cidxAt, pidxAt, slotAt, consumersAt, member_inj]) <;> grind
  have hpop : ∀ empty, (popping C o empty).eval m = (m', out) → empty.eval m = (m', out) ∨ (out = .ret .closed ∧ m' = m) ∨
      (∃ v ys, out = .ret (.value v) ∧ xs = v :: ys ∧ Content C m' o ys) := by
    intro empty he
    simp only [popping, Sec.eval] at he
    split at he
    · simp only [Sec.eval] at he
      split at he
      · simp only [Sec.eval, Prod.mk.injEq] at he
        exact .inr (.inl ⟨he.2.symm, he.1.symm⟩)
      · exact .inl he
    · rename_i hne
      split at he
      · have := hc.2.1
        omega
      · right; right
        cases xs with
        | nil => exact absurd ((ring_empty hc).2 rfl) hne
        | cons x xs =>
          obtain ⟨hg, hg'⟩ := ring_get hc
          have hr : ∀ m' : Addr → Nat, m' (cidxAt C o) = (m (cidxAt C o) + 1) % C.cap o → m' (pidxAt C o) = m (pidxAt C o) →
              (∀ i, i < C.cap o → m' (slotAt C o i) = m (slotAt C o i)) → Content C m' o xs := by
            intro m' h1 h2 h3
            unfold Content
            rw [h1, h2]
            exact ring_congr hg' h3
          simp only [Sec.eval] at he
          obtain ⟨n, hn⟩ := eval_notifyOne (producersAt C o) (.ret (.value (m (slotAt C o (m (cidxAt C o))))))
            (fun b => if cidxAt C o = b then (m (cidxAt C o) + 1) % C.cap o else m b)
          rw [hn] at he
          simp only [Sec.eval, Prod.mk.injEq] at he
          obtain ⟨rfl, rfl⟩ := he
          all_goals
            refine ⟨_, _, rfl, by rw [← hg], hr _ ?_ ?_ ?_⟩ <;> (try simp only [cidxAt, pidxAt, slotAt, producersAt, member_inj]) <;> grind
  have pushWait : ∀ v op', offer op = some v → (pushing C o v (wait (producersAt C o) op')).eval m = (m', out) →
      (out = .ret .success ∧ ∃ v, offer op = some v ∧ Content C m' o (xs ++ [v])) ∨
      (∃ v ys, out = .ret (.value v) ∧ xs = v :: ys ∧ Content C m' o ys) ∨
      (out ≠ .ret .success ∧ out ≠ .ret .oob ∧ (∀ v, out ≠ .ret (.value v)) ∧ Content C m' o xs) := by
    intro v op' hv he
    rcases hpush _ _ hv he with h | ⟨rfl, rfl⟩ | h
    · obtain ⟨rfl, h'⟩ := hwait _ op' m' ⟨3, by omega, by omega, by omega, rfl⟩ h
      exact .inr (.inr ⟨by simp, by simp, by simp, h'⟩)
    · exact .inr (.inr ⟨by simp, by simp, by simp, hc⟩)
    · exact .inl h
  have popWait : ∀ op', (popping C o (wait (consumersAt C o) op')).eval m = (m', out) →
      (out = .ret .success ∧ ∃ v, offer op = some v ∧ Content C m' o (xs ++ [v])) ∨
      (∃ v ys, out = .ret (.value v) ∧ xs = v :: ys ∧ Content C m' o ys) ∨
      (out ≠ .ret .success ∧ out ≠ .ret .oob ∧ (∀ v, out ≠ .ret (.value v)) ∧ Content C m' o xs) := by
    intro op' he
    rcases hpop _ he with h | ⟨rfl, rfl⟩ | h
    · obtain ⟨rfl, h'⟩ := hwait _ op' m' ⟨4, by omega, by omega, by omega, rfl⟩ h
      exact .inr (.inr ⟨by simp, by simp, by simp, h'⟩)
    · exact .inr (.inr ⟨by simp, by simp, by simp, hc⟩)
    · exact .inr (.inl h)
  unfold sec at he
  split at he
  · rcases hpush _ _ rfl he with h | ⟨rfl, rfl⟩ | h
    · simp only [Sec.eval, Prod.mk.injEq] at h
      obtain ⟨rfl, rfl⟩ := h
      exact .inr (.inr ⟨by simp, by simp, by simp, hc⟩)
    · exact .inr (.inr ⟨by simp, by simp, by simp, hc⟩)
    · exact .inl h
  · exact pushWait _ _ rfl he
  · exact pushWait _ _ rfl he
  · exact pushWait _ _ rfl he
  · obtain ⟨rfl, h⟩ := hlate _ _ ⟨3, by omega, by omega, by omega, rfl⟩ he
    exact .inr (.inr ⟨by simp, by simp, by simp, h⟩)
  · rcases hpop _ he with h | ⟨rfl, rfl⟩ | h
    · simp only [Sec.eval, Prod.mk.injEq] at h
      obtain ⟨rfl, rfl⟩ := h
      exact .inr (.inr ⟨by simp, by simp, by simp, hc⟩)
    · exact .inr (.inr ⟨by simp, by simp, by simp, hc⟩)
    · exact .inr (.inl h)
  · exact popWait _ he
  · exact popWait _ he
  · exact popWait _ he
  · obtain ⟨rfl, h⟩ := hlate _ _ ⟨4, by omega, by omega, by omega, rfl⟩ he
    exact .inr (.inr ⟨by simp, by simp, by simp, h⟩)
  · simp only [Sec.eval] at he
    split at he <;> simp only [notifyAll, Sec.eval, Prod.mk.injEq] at he <;> obtain ⟨rfl, rfl⟩ := he
    · exact .inr (.inr ⟨by simp, by simp, by simp, hc⟩)
    · refine .inr (.inr ⟨by simp, by simp, by simp, key _ ?_ ?_ ?_⟩) <;>
        simp only [cidxAt, pidxAt, slotAt, closedAt, producersAt, consumersAt, member_inj] <;> grind
  · simp only [Sec.eval, Prod.mk.injEq] at he
    obtain ⟨rfl, rfl⟩ := he
    exact .inr (.inr ⟨by simp, by simp, by simp, hc⟩)

/-- What a step does to the contents of all channels. -/
theorem step_content {V : UProg Op Res} (hcl : Clean (lib C) V) {t : Tid} {e : Ev Op Res} {h : UHist Op Res} (hl : ULegal (lib C) V ((t, e) :: h))
    {X : Obj → List Nat} (hX : ∀ o, Content C (uval h) o (X o)) :
    (∃ o op log v, e = .sect o op log (.ret .success) ∧ offer op = some v ∧
      ∀ o', Content C (uval ((t, e) :: h)) o' (if o' = o then X o ++ [v] else X o')) ∨
    (∃ o op log v ys, e = .sect o op log (.ret (.value v)) ∧ X o = v :: ys ∧
      ∀ o', Content C (uval ((t, e) :: h)) o' (if o' = o then ys else X o')) ∨
    ((∀ o op log, e ≠ .sect o op log (.ret .success)) ∧ (∀ o op log v, e ≠ .sect o op log (.ret (.value v))) ∧
      (∀ o op log, e ≠ .sect o op log (.ret .oob)) ∧ ∀ o', Content C (uval ((t, e) :: h)) o' (X o')) := by
  have hcong : ∀ o' (m' : Addr → Nat), (∀ a, home C a = some o' → m' a = uval h a) → Content C m' o' (X o') := by
    intro o' m' hm
    unfold Content
    rw [hm (cidxAt C o') (home_member C o' 2 (by omega)), hm (pidxAt C o') (home_member C o' 1 (by omega))]
    exact ring_congr (hX o') fun i hi => hm _ (home_member C o' (5 + i) (by have := C.fits o'; omega))
  cases e with
  | got a v => exact .inr (.inr ⟨by simp, by simp, by simp, hX⟩)
  | put a v =>
    refine .inr (.inr ⟨by simp, by simp, by simp, fun o' => hcong o' _ ?_⟩)
    intro b hb
    have ha : home C a = none := hcl _ _ _ hl a v (.inr rfl)
    have : a ≠ b := by rintro rfl; rw [ha] at hb; cases hb
    simp [uval, this]
  | sect o op log out =>
    obtain ⟨_, he⟩ := sect_eval hl.1
    have hoth : ∀ o', o' ≠ o → Content C (uval ((t, .sect o op log out) :: h)) o' (X o') := by
      intro o' ho'
      refine hcong o' _ fun a ha => ?_
      have hne : (lib C).home a ≠ some o := by
        change home C a ≠ some o
        rw [ha]; simp; exact ho'
      exact after_home hne hl.1.2.1
    rcases sec_content he (hX o) with ⟨rfl, v, hv, h1⟩ | ⟨v, ys, rfl, hv, h1⟩ | ⟨h1, h2, h3, h4⟩
    · refine .inl ⟨o, op, log, v, rfl, hv, fun o' => ?_⟩
      split
      · subst_vars; exact h1
      · exact hoth o' ‹_›
    · refine .inr (.inl ⟨o, op, log, v, ys, rfl, hv, fun o' => ?_⟩)
      split
      · subst_vars; exact h1
      · exact hoth o' ‹_›
    · refine .inr (.inr ⟨?_, ?_, ?_, fun o' => ?_⟩)
      · rintro o op log ⟨⟩; exact h1 rfl
      · rintro o op log v ⟨⟩; exact h3 v rfl
      · rintro o op log ⟨⟩; exact h2 rfl
      · by_cases ho : o' = o
        · subst ho; exact h4
        · exact hoth o' ho

theorem content_init (o : Obj) : Content C (uval ([] : UHist Op Res)) o [] := by
  have := C.two o
  refine ⟨by simp; omega, by simp [uval]; omega, by simp [uval], by simp⟩

theorem pushed_other {e : Ev Op Res} {o : Obj} {t : Tid} {h : UHist Op Res} (he : ∀ o op log, e ≠ .sect o op log (.ret .success)) :
    pushed o ((t, e) :: h) = pushed o h := by
  rw [pushed]
  rintro _ o op log ⟨⟩
  exact he o op log rfl

theorem popped_other {e : Ev Op Res} {o : Obj} {t : Tid} {h : UHist Op Res} (he : ∀ o op log v, e ≠ .sect o op log (.ret (.value v))) :
    popped o ((t, e) :: h) = popped o h := by
  rw [popped]
  rintro _ o op log v ⟨⟩
  exact he o op log v rfl

/-- What is popped is what was pushed, in order. -/
theorem fifo {V : UProg Op Res} (hcl : Clean (lib C) V) : ∀ {h : UHist Op Res}, ULegal (lib C) V h →
    ∃ X : Obj → List Nat, (∀ o, Content C (uval h) o (X o)) ∧ ∀ o, pushed o h = popped o h ++ X o
  | [], _ => ⟨fun _ => [], content_init, fun o => rfl⟩
  | (t, e) :: h, hl => by
    obtain ⟨X, hX, hP⟩ := fifo hcl hl.2
    rcases step_content hcl hl hX with ⟨o, op, log, v, rfl, hv, h1⟩ | ⟨o, op, log, v, ys, rfl, hv, h1⟩ | ⟨h1, h2, h3, h4⟩
    · refine ⟨_, h1, fun o' => ?_⟩
      have hp := hP o'
      rw [popped_other (by simp)]
      simp only [pushed]
      by_cases ho : o' = o
      · subst ho; simp [hv, hp]
      · have ho' : ¬ o = o' := fun h => ho h.symm
        simp only [ho, ho', if_false]; exact hp
    · refine ⟨_, h1, fun o' => ?_⟩
      have hp := hP o'
      rw [pushed_other (by simp)]
      simp only [popped]
      by_cases ho : o' = o
      · subst ho; simp [hp, hv]
      · have ho' : ¬ o = o' := fun h => ho h.symm
        simp only [ho, ho', if_false]; exact hp
    · refine ⟨X, h4, fun o' => ?_⟩
      rw [pushed_other h1, popped_other h2]; exact hP o'

/-- What is in the channels: each name of data once. -/
def Kept (C : Chans) (named : Nat → Bool) (first : Addr → Tid) (h : UHist Op Res) : Prop :=
  ∃ X : Obj → List Nat, (∀ o, Content C (uval h) o (X o)) ∧
    ∀ o, ((X o).filter named).Nodup ∧ ∀ v ∈ X o, named v = true → place (ports named) first h (dataAt v) = .obj o

theorem dataAt_inj {a b : Nat} : dataAt a = dataAt b ↔ a = b := by
  have : ∀ a b : Nat, 2 * a = 2 * b ↔ a = b := by omega
  exact this a b

/-- The operation that waits for room or for an element offers the same. -/
theorem repeats (named : Nat → Bool) (o : Obj) (t : Tid) (op : Op) (log : List Done) (op' : Op) (h : (lib C).code o t op log = .again op') :
    (ports named).offers op' = (ports named).offers op := by
  suffices H : (sec C o op).Agains fun op' => (ports named).offers op' = (ports named).offers op from Sec.agains_head H log h
  have hno : ∀ P q k, Sec.Agains P k → Sec.Agains P (notifyOne q k) := by
    intro P q k hk v
    dsimp only
    split
    · exact hk
    · exact hk
  have hpush : ∀ P v k, Sec.Agains P k → Sec.Agains P (pushing C o v k) := by
    intro P v k hk b
    dsimp only
    split
    · trivial
    · intro c p
      dsimp only
      split
      · exact hk
      · split
        · trivial
        · exact hno _ _ _ trivial
  have hpop : ∀ P k, Sec.Agains P k → Sec.Agains P (popping C o k) := by
    intro P k hk c p
    dsimp only
    split
    · intro b
      dsimp only
      split
      · trivial
      · exact hk
    · split
      · trivial
      · intro v
        exact hno _ _ _ trivial
  have hl : ∀ P q, Sec.Agains P (late q) := by
    intro P q n
    dsimp only
    split <;> trivial
  unfold sec
  split
  · exact hpush _ _ _ trivial
  · exact hpush _ _ _ fun _ => rfl
  · exact hpush _ _ _ fun _ => rfl
  · exact hpush _ _ _ fun _ => rfl
  · exact hl _ _
  · exact hpop _ _ trivial
  · exact hpop _ _ fun _ => rfl
  · exact hpop _ _ fun _ => rfl
  · exact hpop _ _ fun _ => rfl
  · exact hl _ _
  · intro b
    dsimp only
    split <;> trivial
  · intro b; trivial

theorem kept_init (named : Nat → Bool) (first : Addr → Tid) : Kept C named first [] := ⟨fun _ => [], content_init, fun _ => ⟨List.nodup_nil, by simp⟩⟩

theorem kept_step {V : UProg Op Res} (hcl : Clean (lib C) V) {named : Nat → Bool} {first : Addr → Tid} {t : Tid} {e : Ev Op Res} {h : UHist Op Res}
    (hl : ULegal (lib C) V ((t, e) :: h)) (hk : Kept C named first h)
    (hg : ∀ o op log r a, e = .sect o op log (.ret r) → (ports named).gives op r = some a → place (ports named) first h a = .thread t) :
    Kept C named first ((t, e) :: h) := by
  obtain ⟨X, hX, hK⟩ := hk
  rcases step_content hcl hl hX with ⟨o, op, log, v, rfl, hv, h1⟩ | ⟨o, op, log, v, ys, rfl, hv, h1⟩ | ⟨h1, h2, h3, h4⟩
  · have hgv : (ports named).gives op .success = name named v := by simp [ports, hv]
    have hpl : ∀ w, place (ports named) first ((t, .sect o op log (.ret .success)) :: h) (dataAt w) =
        if named v = true ∧ w = v then .obj o else place (ports named) first h (dataAt w) := by
      intro w
      simp only [place, hgv, name]
      cases named v <;> simp [ports, dataAt_inj, eq_comm (a := v)]
    have hne : named v = true → ∀ o' w, w ∈ X o' → w ≠ v := by
      rintro hnv o' w hw rfl
      have hp := hg o op log .success (dataAt w) rfl (by rw [hgv]; simp [name, hnv])
      rw [(hK o').2 w hw hnv] at hp; cases hp
    have hold : ∀ o' w, w ∈ X o' → named w = true → place (ports named) first ((t, .sect o op log (.ret .success)) :: h) (dataAt w) = .obj o' := by
      intro o' w hw hnw
      rw [hpl, if_neg]
      · exact (hK o').2 w hw hnw
      · rintro ⟨hnv, rfl⟩; exact hne hnv o' w hw rfl
    refine ⟨_, h1, fun o' => ?_⟩
    by_cases ho : o' = o
    · subst ho
      simp only [if_true]
      refine ⟨?_, ?_⟩
      · rw [List.filter_append, List.nodup_append]
        refine ⟨(hK o').1, ?_, ?_⟩
        · cases hnv : named v <;> simp [hnv]
        · intro a ha b hb
          rw [List.mem_filter] at ha hb
          simp at hb
          obtain ⟨rfl, hb⟩ := hb
          exact hne hb o' a ha.1
      · intro w hw hnw
        simp at hw
        rcases hw with hw | rfl
        · exact hold o' w hw hnw
        · rw [hpl]; simp [hnw]
    · simp only [ho, if_false]
      exact ⟨(hK o').1, fun w hw hnw => hold o' w hw hnw⟩
  · have htv : (ports named).takes op (.value v) = name named v := by simp [ports]
    have hgv : (ports named).gives op (.value v) = none := by simp [ports]
    have hpl : ∀ w, place (ports named) first ((t, .sect o op log (.ret (.value v))) :: h) (dataAt w) =
        if named v = true ∧ w = v then .thread t else place (ports named) first h (dataAt w) := by
      intro w
      simp only [place, hgv, htv, name]
      cases named v <;> simp [dataAt_inj, eq_comm (a := v)]
    refine ⟨_, h1, fun o' => ?_⟩
    by_cases ho : o' = o
    · subst ho
      simp only [if_true]
      have hnd := (hK o').1
      rw [hv, List.filter_cons] at hnd
      refine ⟨?_, fun w hw hnw => ?_⟩
      · split at hnd
        · exact (List.nodup_cons.1 hnd).2
        · exact hnd
      · rw [hpl, if_neg]
        · exact (hK o').2 w (by rw [hv]; simp [hw]) hnw
        · rintro ⟨hnv, rfl⟩
          rw [if_pos hnv, List.nodup_cons] at hnd
          exact hnd.1 (List.mem_filter.2 ⟨hw, hnv⟩)
    · simp only [ho, if_false]
      refine ⟨(hK o').1, fun w hw hnw => ?_⟩
      rw [hpl, if_neg]
      · exact (hK o').2 w hw hnw
      · rintro ⟨hnv, rfl⟩
        have hpv := (hK o).2 w (by rw [hv]; simp) hnv
        rw [(hK o').2 w hw hnw] at hpv
        cases hpv; exact ho rfl
  · have hpl : ∀ a, place (ports named) first ((t, e) :: h) a = place (ports named) first h a := by
      intro a
      cases e with
      | got _ _ => rfl
      | put _ _ => rfl
      | sect o op log out =>
        cases out with
        | read _ => rfl
        | write _ _ => rfl
        | again _ => rfl
        | ret r =>
          have hr1 : r ≠ .success := by rintro rfl; exact h1 _ _ _ rfl
          have hr2 : ∀ v, r ≠ .value v := by rintro v rfl; exact h2 _ _ _ _ rfl
          have hg1 : (ports named).gives op r ≠ some a := by simp [ports, hr1]
          have hg2 : (ports named).takes op r ≠ some a := by
            cases r <;> simp [ports] at hr2 ⊢
          simp only [place, hg1, hg2, if_false]
    refine ⟨X, h4, fun o' => ⟨(hK o').1, fun w hw hnw => ?_⟩⟩
    rw [hpl]; exact (hK o').2 w hw hnw

theorem named_value {named : Nat → Bool} {op : Op} {r : Res} {a : Addr} (ht : (ports named).takes op r = some a) :
    ∃ v, r = .value v ∧ named v = true ∧ a = dataAt v := by
  cases r <;> simp [ports] at ht
  rename_i v
  unfold name at ht
  split at ht
  · cases ht; exact ⟨v, rfl, ‹_›, rfl⟩
  · cases ht

theorem kept_safe {V : UProg Op Res} (hcl : Clean (lib C) V) {named : Nat → Bool} {first : Addr → Tid} {t : Tid} {o : Obj} {op : Op} {log : List Done} {r : Res} {a : Addr}
    {h : UHist Op Res} (hl : ULegal (lib C) V ((t, .sect o op log (.ret r)) :: h)) (hk : Kept C named first h) (ht : (ports named).takes op r = some a) :
    place (ports named) first h a = .obj o := by
  obtain ⟨X, hX, hK⟩ := hk
  obtain ⟨v, rfl, hv, rfl⟩ := named_value ht
  rcases step_content hcl hl hX with ⟨o', op', log', v', h1, _⟩ | ⟨o', op', log', v', ys, h1, h2, _⟩ | ⟨_, h1, _⟩
  · cases h1
  · cases h1
    exact (hK o).2 v (by rw [h2]; simp) hv
  · exact absurd rfl (h1 _ _ _ _)

end Verif.Monitor.Chan
