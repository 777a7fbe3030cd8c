import Verif.MonitorFuture

/-!
# Publishing data with promises
-/

namespace Verif.Monitor.Future

open Verif.Rtm (Tid Lock Addr Req Done Hist Prog mine)
open Verif.Monitor

/-- What promise `o` has been set to. -/
def outcome (m : Addr → Nat) (o : Obj) : Option Out :=
  if m (readyAt o) = 0 then none else some (if m (excAt o) ≠ 0 then .error (m (excAt o) - 1) else .value (m (valAt o)))

theorem addrs (o p : Obj) : (readyAt o = readyAt p ↔ o = p) ∧ (excAt o = excAt p ↔ o = p) ∧ (valAt o = valAt p ↔ o = p) ∧
    readyAt o ≠ excAt p ∧ readyAt o ≠ valAt p ∧ excAt o ≠ valAt p ∧ excAt o ≠ readyAt p ∧ valAt o ≠ readyAt p ∧ valAt o ≠ excAt p := by
  have h : ∀ m k : Nat, (8 * m + 1 = 8 * k + 1 ↔ m = k) ∧ (8 * m + 3 = 8 * k + 3 ↔ m = k) ∧ (8 * m + 5 = 8 * k + 5 ↔ m = k) ∧
    8 * m + 1 ≠ 8 * k + 3 ∧ 8 * m + 1 ≠ 8 * k + 5 ∧ 8 * m + 3 ≠ 8 * k + 5 ∧ 8 * m + 3 ≠ 8 * k + 1 ∧ 8 * m + 5 ≠ 8 * k + 1 ∧ 8 * m + 5 ≠ 8 * k + 3 := by omega
  exact h o p

/-- Operations that wait. -/
def waits : Op → Bool
  | .set _ => false
  | .destroy => false
  | _ => true

/-- What a critical section sets its promise to. -/
def sets (m : Addr → Nat) (o : Obj) (op : Op) (r : Res) : Option Out :=
  match op, r with
  | .set out, .ok => some out
  | .destroy, _ => if m (readyAt o) = 0 then some broken else none
  | _, _ => none

/-- Where the shares are. -/
noncomputable def place (plan : Plan) (first : Addr → Nat → Tid) : UHist Op Res → Addr → Nat → URight
  | [], a, i => .thread (first a i)
  | (t, .sect o op _ (.ret r)) :: h, a, i =>
    match sets (uval h) o op r with
    | some out => if plan o out a i = none then place plan first h a i else .obj o
    | none =>
      have := Classical.propDecidable (takes plan o r t a i)
      if takes plan o r t a i ∧ place plan first h a i = .obj o then .thread t else place plan first h a i
  | _ :: h, a, i => place plan first h a i

/-- The promise has not been set and there is no exception. -/
def Clean (m : Addr → Nat) : Prop := ∀ o, m (readyAt o) = 0 → m (excAt o) = 0

/-- What a critical section does. -/
theorem sec_cases {m m' : Addr → Nat} (hc : Clean m) {o : Obj} {op : Op} {x : Act Op Res} (h : (sec o op).eval m = (m', x)) :
    Clean m' ∧
    ((∃ op', x = .again op' ∧ waits op' = true ∧ m' = m) ∨
     ∃ r, x = .ret r ∧ ((∃ out, sets m o op r = some out ∧ waits op = false ∧ late r = false ∧ outcome m o = none ∧ outcome m' o = some out ∧
        ∀ p, p ≠ o → outcome m' p = outcome m p) ∨
      (sets m o op r = none ∧ m' = m ∧ (late r = true → ∃ out, outcome m o = some out ∧ tells r out) ∧ (∀ out, ¬ (op = .set out ∧ r = .ok)) ∧
        (op = .destroy → outcome m o ≠ none)))) := by
  have A := addrs o
  have hset : ∀ (b : Addr) (v : Nat) (out : Out), (b = excAt o ∨ b = valAt o) → m (readyAt o) = 0 →
      (if (if b = excAt o then v else 0) ≠ 0 then Out.error (v - 1) else .value (if b = valAt o then v else m (valAt o))) = out →
      (m' = fun c => if readyAt o = c then 1 else if b = c then v else m c) →
      Clean m' ∧ outcome m o = none ∧ outcome m' o = some out ∧ ∀ p, p ≠ o → outcome m' p = outcome m p := by
    intro b v out hb hr hv hm
    have hx := hc o hr
    refine ⟨?_, by simp [outcome, hr], ?_, ?_⟩
    · intro p hp
      have hop : o ≠ p := by rintro rfl; simp [hm] at hp
      have Ap := A p
      have := hc p
      rw [hm] at hp ⊢
      rcases hb with rfl | rfl <;> simp_all
    · have Ao := A o
      rcases hb with rfl | rfl <;> simp_all [outcome]
    · intro p hp
      have hop : ¬ o = p := fun h => hp h.symm
      have Ap := A p
      rcases hb with rfl | rfl <;> simp_all [outcome]
  match op with
  | .set (.value v) =>
    simp only [sec, Sec.eval] at h
    split at h <;> cases h
    · rename_i hr
      exact ⟨hc, .inr ⟨_, rfl, .inr ⟨rfl, rfl, fun _ => ⟨_, if_neg hr, trivial⟩, fun out => by simp, by simp⟩⟩⟩
    · rename_i hr
      have hr : m (readyAt o) = 0 := by simpa using hr
      obtain ⟨h1, h2, h3, h4⟩ := hset (valAt o) v (.value v) (.inr rfl) hr (by simp [(A o).2.2.2.2.2.2.2.2]) (by funext c; rfl)
      exact ⟨h1, .inr ⟨_, rfl, .inl ⟨_, rfl, rfl, rfl, h2, h3, h4⟩⟩⟩
  | .set (.error e) =>
    simp only [sec, Sec.eval] at h
    split at h <;> cases h
    · rename_i hr
      exact ⟨hc, .inr ⟨_, rfl, .inr ⟨rfl, rfl, fun _ => ⟨_, if_neg hr, trivial⟩, fun out => by simp, by simp⟩⟩⟩
    · rename_i hr
      have hr : m (readyAt o) = 0 := by simpa using hr
      obtain ⟨h1, h2, h3, h4⟩ := hset (excAt o) (e + 1) (.error e) (.inl rfl) hr (by simp) (by funext c; rfl)
      exact ⟨h1, .inr ⟨_, rfl, .inl ⟨_, rfl, rfl, rfl, h2, h3, h4⟩⟩⟩
  | .destroy =>
    simp only [sec, Sec.eval] at h
    split at h <;> cases h
    · rename_i hr
      exact ⟨hc, .inr ⟨_, rfl, .inr ⟨if_neg hr, rfl, fun h => by simp [late] at h, fun out => by simp, fun _ => by simp [outcome, hr]⟩⟩⟩
    · rename_i hr
      have hr : m (readyAt o) = 0 := by simpa using hr
      obtain ⟨h1, h2, h3, h4⟩ := hset (excAt o) 1 (.error 0) (.inl rfl) hr (by simp) (by funext c; rfl)
      exact ⟨h1, .inr ⟨_, rfl, .inl ⟨_, if_pos hr, rfl, rfl, h2, h3, h4⟩⟩⟩
  | .get =>
    simp only [sec, Sec.eval] at h
    split at h
    · cases h
      exact ⟨hc, .inl ⟨_, rfl, rfl, rfl⟩⟩
    · rename_i hr
      simp only [Sec.eval] at h
      split at h <;> cases h <;> rename_i hx
      · exact ⟨hc, .inr ⟨_, rfl, .inr ⟨rfl, rfl, fun _ => ⟨_, if_neg hr, by rw [if_pos hx]; rfl⟩, fun out => by simp, by simp⟩⟩⟩
      · exact ⟨hc, .inr ⟨_, rfl, .inr ⟨rfl, rfl, fun _ => ⟨_, if_neg hr, by rw [if_neg hx]; rfl⟩, fun out => by simp, by simp⟩⟩⟩
  | .wait =>
    simp only [sec, Sec.eval] at h
    split at h <;> cases h
    · exact ⟨hc, .inl ⟨_, rfl, rfl, rfl⟩⟩
    · rename_i hr
      exact ⟨hc, .inr ⟨_, rfl, .inr ⟨rfl, rfl, fun _ => ⟨_, if_neg hr, trivial⟩, fun out => by simp, by simp⟩⟩⟩
  | .getException =>
    simp only [sec, Sec.eval] at h
    split at h
    · cases h
      exact ⟨hc, .inl ⟨_, rfl, rfl, rfl⟩⟩
    · rename_i hr
      simp only [Sec.eval] at h
      split at h <;> cases h <;> rename_i hx
      · exact ⟨hc, .inr ⟨_, rfl, .inr ⟨rfl, rfl, fun _ => ⟨_, if_neg hr, by rw [if_pos hx]; rfl⟩, fun out => by simp, by simp⟩⟩⟩
      · exact ⟨hc, .inr ⟨_, rfl, .inr ⟨rfl, rfl, fun _ => ⟨_, if_neg hr, by rw [if_neg hx]; exact ⟨_, rfl⟩⟩, fun out => by simp, by simp⟩⟩⟩
  | .waitFor n =>
    simp only [sec, Sec.eval] at h
    split at h
    · rename_i hr
      cases h
      exact ⟨hc, .inr ⟨_, rfl, .inr ⟨rfl, rfl, fun _ => ⟨_, if_neg hr, trivial⟩, fun out => by simp, by simp⟩⟩⟩
    · split at h <;> cases h
      · exact ⟨hc, .inr ⟨_, rfl, .inr ⟨rfl, rfl, fun h => by simp [late] at h, fun out => by simp, by simp⟩⟩⟩
      · exact ⟨hc, .inl ⟨_, rfl, rfl, rfl⟩⟩

structure FInv (plan : Plan) (first : Addr → Nat → Tid) (h : UHist Op Res) : Prop where
  clean : Clean (uval h)
  waiting : ∀ t o op, pend h t = some (o, op) → waits op = true
  told : ∀ t o op r, .did o op r ∈ upast h t → late r = true → ∃ out, outcome (uval h) o = some out ∧ tells r out
  setTo : ∀ t o out, .did o (.set out) .ok ∈ upast h t → outcome (uval h) o = some out
  holds : ∀ t a i, has plan first t (upast h t) a i → place plan first h a i = .thread t
  offered : ∀ o out a i u, outcome (uval h) o = some out → plan o out a i = some u → taken plan u (upast h u) o a i ∨ place plan first h a i = .obj o

variable {plan : Plan} {first : Addr → Nat → Tid} {V : UProg Op Res}

theorem finv_init : FInv plan first [] where
  clean := fun o _ => rfl
  waiting := fun t o op h => by simp [pend] at h
  told := fun t o op r h => by simp [upast] at h
  setTo := fun t o out h => by simp [upast] at h
  holds := fun t a i h => by simp only [upast, has] at h; simp [place, h]
  offered := fun o out a i u h => by simp [outcome, uval] at h

theorem outcome_user {h : UHist Op Res} {t : Tid} {e : Ev Op Res} {a : Addr} {v : Nat} (hh : home a = none) (he : e = .got a v ∨ e = .put a v) :
    (∀ o, outcome (uval ((t, e) :: h)) o = outcome (uval h) o) ∧ (Clean (uval h) → Clean (uval ((t, e) :: h))) := by
  have h1 : ∀ b, home b ≠ none → uval ((t, e) :: h) b = uval h b := by
    intro b hb
    rcases he with rfl | rfl
    · rfl
    · have : a ≠ b := by rintro rfl; exact hb hh
      simp [uval, this]
  refine ⟨fun o => ?_, fun hc o ho => ?_⟩
  · unfold outcome
    rw [h1 _ (by rw [home_ready]; simp), h1 _ (by rw [home_exc]; simp), h1 _ (by rw [home_val]; simp)]
  · rw [h1 _ (by rw [home_ready]; simp)] at ho
    rw [h1 _ (by rw [home_exc]; simp)]
    exact hc o ho

theorem taken_mono {t : Tid} {d : UDone Op Res} {p : List (UDone Op Res)} {o : Obj} {a : Addr} {i : Nat} (h : taken plan t p o a i) : taken plan t (d :: p) o a i := by
  obtain ⟨op, r, h1, h2⟩ := h
  exact ⟨op, r, .tail _ h1, h2⟩

/-- A step that does not end an operation. -/
theorem finv_quiet {h : UHist Op Res} (hi : FInv plan first h) {t : Tid} {e : Ev Op Res} (ho : ∀ o, outcome (uval ((t, e) :: h)) o = outcome (uval h) o)
    (hc : Clean (uval ((t, e) :: h))) (hp : ∀ o op, pend ((t, e) :: h) t = some (o, op) → waits op = true)
    (hu : ∀ o op r, UDone.did o op r ∈ upast ((t, e) :: h) t ↔ .did o op r ∈ upast h t)
    (hh : ∀ a i, has plan first t (upast ((t, e) :: h) t) a i ↔ has plan first t (upast h t) a i)
    (hpl : ∀ a i, place plan first ((t, e) :: h) a i = place plan first h a i) : FInv plan first ((t, e) :: h) where
  clean := hc
  waiting u o op := by
    by_cases hut : u = t
    · subst hut; exact hp o op
    · rw [pend_other hut]; exact hi.waiting u o op
  told u o op r := by
    rw [ho]
    by_cases hut : u = t
    · subst hut; rw [hu]; exact hi.told u o op r
    · rw [upast_other hut]; exact hi.told u o op r
  setTo u o out := by
    rw [ho]
    by_cases hut : u = t
    · subst hut; rw [hu]; exact hi.setTo u o out
    · rw [upast_other hut]; exact hi.setTo u o out
  holds u a i := by
    rw [hpl]
    by_cases hut : u = t
    · subst hut; rw [hh]; exact hi.holds u a i
    · rw [upast_other hut]; exact hi.holds u a i
  offered o out a i u := by
    rw [ho, hpl]
    intro h1 h2
    refine (hi.offered o out a i u h1 h2).imp (fun ⟨op, r, h3, h4⟩ => ⟨op, r, ?_, h4⟩) id
    by_cases hut : u = t
    · subst hut; rw [hu]; exact h3
    · rw [upast_other hut]; exact h3

/-- Only what one has is published. -/
theorem publish (hpl : Planned plan first V) {h : UHist Op Res} (hi : FInv plan first h) {t : Tid} {o : Obj} {op : Op} {log : List Done} {r : Res}
    (hl : ULegal lib V ((t, .sect o op log (.ret r)) :: h)) {out : Out} (hs : sets (uval h) o op r = some out) {a : Addr} {i : Nat} (ha : plan o out a i ≠ none) :
    has plan first t (upast h t) a i := by
  have hP := hpl h t hl.2
  have hw : V t (upast h t) = some (.call o op) := by
    rcases hl.1.1 with h1 | ⟨_, h1⟩
    · have := hi.waiting t o op h1
      cases op <;> simp [sets, waits] at hs this
    · exact h1
  cases op with
  | set out' =>
    cases r <;> simp [sets] at hs
    subst hs
    exact hP.2.2.1 o out' hw a i ha
  | destroy =>
    simp only [sets] at hs
    split at hs
    · rename_i hr
      cases hs
      rcases hP.2.2.2 o hw with ⟨out, h1⟩ | h1
      · have := hi.setTo t o out h1
        simp [outcome, hr] at this
      · exact h1 a i ha
    · cases hs
  | get => simp [sets] at hs
  | wait => simp [sets] at hs
  | getException => simp [sets] at hs
  | waitFor n => simp [sets] at hs

/-- Only what is there is taken. -/
theorem fetch {h : UHist Op Res} (hi : FInv plan first h) {t : Tid} {o : Obj} {r : Res} (hr : late r = true → ∃ out, outcome (uval h) o = some out ∧ tells r out)
    {a : Addr} {i : Nat} (ht : takes plan o r t a i) (hn : ¬ taken plan t (upast h t) o a i) : place plan first h a i = .obj o := by
  obtain ⟨out, h1, h2⟩ := hr ht.1
  exact (hi.offered o out a i t h1 (ht.2 out h2)).resolve_left hn

theorem finv_step (hpl : Planned plan first V) {h : UHist Op Res} (hi : FInv plan first h) {t : Tid} {e : Ev Op Res} (hl : ULegal lib V ((t, e) :: h)) :
    FInv plan first ((t, e) :: h) := by
  have hP := hpl h t hl.2
  cases e with
  | got a v =>
    have h1 := outcome_user (t := t) (h := h) (v := v) (hP.1 a hl.1.2.1).1 (.inl rfl)
    refine finv_quiet hi h1.1 (h1.2 hi.clean) ?_ ?_ ?_ ?_ <;> simp [pend, upast, has, place]
  | put a v =>
    have h1 := outcome_user (t := t) (h := h) (v := v) (hP.2.1 a v hl.1.2).1 (.inr rfl)
    refine finv_quiet hi h1.1 (h1.2 hi.clean) ?_ ?_ ?_ ?_ <;> simp [pend, upast, has, place]
  | sect o op log x =>
    have h2 := (sect_eval (sec := fun o _ op => sec o op) hl.1).2
    obtain ⟨hc, ⟨op', rfl, hw, hm⟩ | ⟨r, rfl, hx⟩⟩ := sec_cases hi.clean h2
    · refine finv_quiet hi (fun o => by rw [hm]) hc ?_ ?_ ?_ ?_
      · intro o1 op1; simp only [pend, if_true]; intro h; cases h; exact hw
      all_goals simp [upast, has, place]
    · have hup : upast ((t, .sect o op log (.ret r)) :: h) t = .did o op r :: upast h t := by simp [upast]
      have hwait : ∀ u o' op', pend ((t, .sect o op log (.ret r)) :: h) u = some (o', op') → waits op' = true := by
        intro u o' op' hh
        by_cases hut : u = t
        · subst hut; simp [pend] at hh
        · rw [pend_other hut] at hh; exact hi.waiting _ _ _ hh
      rcases hx with ⟨out, hs, hwf, hlate, hn, ho, hoth⟩ | ⟨hs, hm, hr, hns, hd⟩
      · -- the promise is set
        have hpub := fun a i => publish hpl hi hl hs (a := a) (i := i)
        have hplace : ∀ a i, place plan first ((t, .sect o op log (.ret r)) :: h) a i = if plan o out a i = none then place plan first h a i else .obj o := by
          intro a i; simp only [place, hs]
        have hkeep : ∀ a i, has plan first t (.did o op r :: upast h t) a i → plan o out a i = none ∧ has plan first t (upast h t) a i := by
          intro a i ⟨h1, h3⟩
          have h4 : has plan first t (upast h t) a i := by
            rcases h3 with h3 | ⟨h3, _⟩
            · exact h3
            · have := h3.1; rw [hlate] at this; cases this
          refine ⟨?_, h4⟩
          cases op <;> simp [waits] at hwf
          · cases r <;> simp [sets] at hs
            subst hs; exact h1
          · simp only [sets] at hs
            split at hs
            · rename_i hr
              cases hs
              rcases h1 with ⟨o', h1⟩ | h1
              · have := hi.setTo t o o' h1
                rw [hn] at this; cases this
              · exact h1
            · cases hs
        constructor
        · exact hc
        · exact hwait
        · intro u o' op' r' hmem hla
          have : .did o' op' r' ∈ upast h u := by
            by_cases hut : u = t
            · subst hut
              rw [hup] at hmem
              rcases List.mem_cons.1 hmem with h1 | h1
              · cases h1; rw [hlate] at hla; cases hla
              · exact h1
            · rw [upast_other hut] at hmem; exact hmem
          obtain ⟨out', h1, h3⟩ := hi.told u o' op' r' this hla
          by_cases hoo : o' = o
          · subst hoo; rw [hn] at h1; cases h1
          · exact ⟨out', by rw [hoth _ hoo]; exact h1, h3⟩
        · intro u o' out' hmem
          have : (o' = o ∧ out' = out) ∨ .did o' (.set out') .ok ∈ upast h u := by
            by_cases hut : u = t
            · subst hut
              rw [hup] at hmem
              rcases List.mem_cons.1 hmem with h1 | h1
              · cases h1; simp [sets] at hs; exact .inl ⟨rfl, hs⟩
              · exact .inr h1
            · rw [upast_other hut] at hmem; exact .inr hmem
          rcases this with ⟨rfl, rfl⟩ | h1
          · exact ho
          · have h3 := hi.setTo u o' out' h1
            by_cases hoo : o' = o
            · subst hoo; rw [hn] at h3; cases h3
            · rw [hoth _ hoo]; exact h3
        · intro u a i hh
          rw [hplace]
          by_cases hut : u = t
          · subst hut
            rw [hup] at hh
            obtain ⟨h1, h3⟩ := hkeep a i hh
            rw [if_pos h1]; exact hi.holds u a i h3
          · rw [upast_other hut] at hh
            have h1 := hi.holds u a i hh
            split
            · exact h1
            · rename_i h3
              have h4 := hi.holds t a i (hpub a i h3)
              rw [h1] at h4; cases h4; exact absurd rfl hut
        · intro o' out' a i u h1 h3
          rw [hplace]
          by_cases hoo : o' = o
          · subst hoo
            rw [ho] at h1; cases h1
            right; rw [if_neg (by rw [h3]; simp)]
          · rw [hoth _ hoo] at h1
            rcases hi.offered o' out' a i u h1 h3 with h4 | h4
            · left
              by_cases hut : u = t
              · subst hut; rw [hup]; exact taken_mono h4
              · rw [upast_other hut]; exact h4
            · right
              split
              · exact h4
              · rename_i h5
                have h6 := hi.holds t a i (hpub a i h5)
                rw [h4] at h6; cases h6
      · -- the promise is not set by this
        have hplace : ∀ a i, (takes plan o r t a i ∧ place plan first h a i = .obj o ∧ place plan first ((t, .sect o op log (.ret r)) :: h) a i = .thread t) ∨
            (¬ (takes plan o r t a i ∧ place plan first h a i = .obj o) ∧ place plan first ((t, .sect o op log (.ret r)) :: h) a i = place plan first h a i) := by
          intro a i
          simp only [place, hs]
          split
          · rename_i h1; exact .inl ⟨h1.1, h1.2, rfl⟩
          · rename_i h1; exact .inr ⟨h1, rfl⟩
        constructor
        · exact hc
        · exact hwait
        · intro u o' op' r' hmem hla
          rw [hm]
          by_cases hut : u = t
          · subst hut
            rw [hup] at hmem
            rcases List.mem_cons.1 hmem with h1 | h1
            · cases h1; exact hr hla
            · exact hi.told _ _ _ _ h1 hla
          · rw [upast_other hut] at hmem; exact hi.told _ _ _ _ hmem hla
        · intro u o' out' hmem
          rw [hm]
          by_cases hut : u = t
          · subst hut
            rw [hup] at hmem
            rcases List.mem_cons.1 hmem with h1 | h1
            · cases h1; exact absurd ⟨rfl, rfl⟩ (hns out')
            · exact hi.setTo _ _ _ h1
          · rw [upast_other hut] at hmem; exact hi.setTo _ _ _ hmem
        · intro u a i hh
          by_cases hut : u = t
          · subst hut
            rw [hup] at hh
            rcases hh.2 with h1 | ⟨h1, h3⟩
            · have h4 := hi.holds u a i h1
              rcases hplace a i with ⟨_, _, h5⟩ | ⟨_, h5⟩
              · exact h5
              · rw [h5]; exact h4
            · have h4 := fetch hi hr h1 h3
              rcases hplace a i with ⟨_, _, h5⟩ | ⟨h6, h5⟩
              · exact h5
              · exact absurd ⟨h1, h4⟩ h6
          · rw [upast_other hut] at hh
            have h4 := hi.holds u a i hh
            rcases hplace a i with ⟨_, h6, h5⟩ | ⟨_, h5⟩
            · rw [h4] at h6; cases h6
            · rw [h5]; exact h4
        · intro o' out' a i u h1 h3
          rw [hm] at h1
          rcases hi.offered o' out' a i u h1 h3 with h4 | h4
          · left
            by_cases hut : u = t
            · subst hut; rw [hup]; exact taken_mono h4
            · rw [upast_other hut]; exact h4
          · rcases hplace a i with ⟨h5, h6, _⟩ | ⟨_, h5⟩
            · rw [h4] at h6; cases h6
              obtain ⟨out'', h7, h8⟩ := hr h5.1
              rw [h1] at h7; cases h7
              have h9 := h5.2 _ h8
              rw [h3] at h9; cases h9
              left
              rw [hup]
              exact ⟨op, r, .head _, h5⟩
            · right; rw [h5]; exact h4

theorem finv_legal (hpl : Planned plan first V) : ∀ {h : UHist Op Res}, ULegal lib V h → FInv plan first h
  | [], _ => finv_init
  | (_, _) :: _, hl => finv_step hpl (finv_legal hpl hl.2) hl

theorem hasSet_cons {t : Tid} {e : Ev Op Res} {h : UHist Op Res} {u : Tid} {o : Obj} (hs : hasSet (upast ((t, e) :: h) u) o) :
    hasSet (upast h u) o ∨ (u = t ∧ ∃ out log, e = .sect o (.set out) log (.ret .ok)) := by
  obtain ⟨out, hm⟩ := hs
  by_cases hut : u = t
  · subst hut
    cases e with
    | got a v => simp [upast] at hm; exact .inl ⟨out, hm⟩
    | put a v => simp [upast] at hm; exact .inl ⟨out, hm⟩
    | sect o' op log x =>
      cases x with
      | read b => simp [upast] at hm; exact .inl ⟨out, hm⟩
      | write b v => simp [upast] at hm; exact .inl ⟨out, hm⟩
      | again op' => simp [upast] at hm; exact .inl ⟨out, hm⟩
      | ret r =>
        simp only [upast, if_true, List.mem_cons] at hm
        rcases hm with h1 | h1
        · cases h1; exact .inr ⟨rfl, out, log, rfl⟩
        · exact .inl ⟨out, h1⟩
  · rw [upast_other hut] at hm; exact .inl ⟨out, hm⟩

/-- Setting a promise succeeds only if nobody has set it before. -/
theorem set_fresh (hpl : Planned plan first V) {h : UHist Op Res} {t : Tid} {o : Obj} {out : Out} {log : List Done}
    (hl : ULegal lib V ((t, .sect o (.set out) log (.ret .ok)) :: h)) (u : Tid) : ¬ hasSet (upast h u) o := by
  have hi := finv_legal hpl hl.2
  have h2 := (sect_eval (sec := fun o _ op => sec o op) hl.1).2
  obtain ⟨_, ⟨op', h1, _⟩ | ⟨r, h1, hx⟩⟩ := sec_cases hi.clean h2
  · cases h1
  · cases h1
    rcases hx with ⟨_, _, _, _, hn, _⟩ | ⟨_, _, _, hns, _⟩
    · intro ⟨out', h3⟩
      have := hi.setTo u o out' h3
      rw [hn] at this; cases this
    · exact absurd ⟨rfl, rfl⟩ (hns out)

theorem filter_none {p : List (UDone Op Res)} {o : Obj} (h : ¬ hasSet p o) : p.filter (setsOf o) = [] := by
  rw [List.filter_eq_nil_iff]
  intro d hd hs
  refine h ?_
  unfold setsOf at hs
  split at hs
  · have := of_decide_eq_true hs; subst this; exact ⟨_, hd⟩
  · cases hs

theorem set_once (hpl : Planned plan first V) : ∀ {h : UHist Op Res}, ULegal lib V h → ∀ o,
    (∀ t u, hasSet (upast h t) o → hasSet (upast h u) o → t = u) ∧ ∀ t, ((upast h t).filter (setsOf o)).length ≤ 1
  | [], _, o => ⟨fun t u h => by simp [hasSet, upast] at h, fun t => by simp [upast]⟩
  | (t, e) :: h, hl, o => by
    obtain ⟨ih1, ih2⟩ := set_once hpl hl.2 o
    refine ⟨fun u w hu hw => ?_, fun u => ?_⟩
    · rcases hasSet_cons hu with h1 | ⟨rfl, out, log, rfl⟩ <;> rcases hasSet_cons hw with h2 | ⟨rfl, out', log', he⟩
      · exact ih1 u w h1 h2
      · subst he; exact absurd h1 (set_fresh hpl hl u)
      · exact absurd h2 (set_fresh hpl hl w)
      · rfl
    · by_cases hut : u = t
      · subst hut
        cases e with
        | got a v => simp only [upast, if_true]; rw [List.filter_cons_of_neg (by simp [setsOf])]; exact ih2 u
        | put a v => simp only [upast, if_true]; rw [List.filter_cons_of_neg (by simp [setsOf])]; exact ih2 u
        | sect o' op log x =>
          cases x with
          | read b => simpa [upast] using ih2 u
          | write b v => simpa [upast] using ih2 u
          | again op' => simpa [upast] using ih2 u
          | ret r =>
            simp only [upast, if_true]
            by_cases hs : setsOf o (.did o' op r) = true
            · unfold setsOf at hs
              split at hs
              · rename_i heq
                cases heq
                have := of_decide_eq_true hs; subst this
                have h1 := filter_none (set_fresh hpl hl u)
                rw [List.filter_cons, h1]; split <;> simp
              · cases hs
            · rw [List.filter_cons_of_neg hs]; exact ih2 u
      · rw [upast_other hut]; exact ih2 u

theorem mem_mono {t u : Tid} {e : Ev Op Res} {h : UHist Op Res} {d : UDone Op Res} (hd : d ∈ upast h u) : d ∈ upast ((t, e) :: h) u := by
  by_cases hut : u = t
  · subst hut
    cases e with
    | got a v => simp [upast, hd]
    | put a v => simp [upast, hd]
    | sect o' op log x => cases x <;> simp [upast, hd]
  · rw [upast_other hut]; exact hd

/-- Where an outcome comes from. -/
theorem origin (hpl : Planned plan first V) : ∀ {h : UHist Op Res}, ULegal lib V h → ∀ o out, outcome (uval h) o = some out →
    ∃ u, .did o (.set out) .ok ∈ upast h u ∨ (out = broken ∧ .did o .destroy .done ∈ upast h u)
  | [], _, o, out, ho => by simp [outcome, uval] at ho
  | (t, e) :: h, hl, o, out, ho => by
    have hi := finv_legal hpl hl.2
    have hP := hpl h t hl.2
    have old : outcome (uval h) o = some out → ∃ u, .did o (.set out) .ok ∈ upast ((t, e) :: h) u ∨ (out = broken ∧ .did o .destroy .done ∈ upast ((t, e) :: h) u) := by
      intro h1
      obtain ⟨u, h2⟩ := origin hpl hl.2 o out h1
      exact ⟨u, h2.imp mem_mono fun h => ⟨h.1, mem_mono h.2⟩⟩
    cases e with
    | got a v =>
      rw [(outcome_user (t := t) (h := h) (v := v) (hP.1 a hl.1.2.1).1 (.inl rfl)).1] at ho; exact old ho
    | put a v =>
      rw [(outcome_user (t := t) (h := h) (v := v) (hP.2.1 a v hl.1.2).1 (.inr rfl)).1] at ho; exact old ho
    | sect o' op log x =>
      have h2 := (sect_eval (sec := fun o _ op => sec o op) hl.1).2
      obtain ⟨hc, ⟨op', rfl, hw, hm⟩ | ⟨r, rfl, hx⟩⟩ := sec_cases hi.clean h2
      · rw [hm] at ho; exact old ho
      · rcases hx with ⟨out', hs, hwf, hlate, hn, ho', hoth⟩ | ⟨hs, hm, _⟩
        · by_cases hoo : o = o'
          · subst hoo
            rw [ho'] at ho; cases ho
            refine ⟨t, ?_⟩
            simp only [upast, if_true]
            cases op <;> simp [waits] at hwf
            · cases r <;> simp [sets] at hs
              subst hs; exact .inl (.head _)
            · simp only [sets] at hs
              split at hs
              · cases hs
                have hr : r = .done := by
                  simp only [sec, Sec.eval] at h2
                  split at h2 <;> simp [Sec.eval] at h2 <;> exact h2.2.symm
                subst hr
                exact .inr ⟨rfl, .head _⟩
              · cases hs
          · rw [hoth o hoo] at ho; exact old ho
        · rw [hm] at ho; exact old ho

theorem planned_disciplined (hpl : Planned plan first V) : UDisciplined lib V := by
  refine ⟨place plan first, fun t e h hl => ?_⟩
  have hi := finv_legal hpl hl.2
  have hP := hpl h t hl.2
  refine ⟨?_, ?_, ?_⟩
  · intro a v he
    subst he
    obtain ⟨h1, i, h3⟩ := hP.1 a hl.1.2.1
    exact ⟨h1, i, hi.holds _ _ _ h3⟩
  · intro a v he
    subst he
    obtain ⟨h1, h3⟩ := hP.2.1 a v hl.1.2
    exact ⟨h1, fun i => hi.holds _ _ _ (h3 i)⟩
  · intro a i _
    cases e with
    | got b v => exact .inl rfl
    | put b v => exact .inl rfl
    | sect o op log x =>
      cases x with
      | read b => exact .inl rfl
      | write b v => exact .inl rfl
      | again op' => exact .inl rfl
      | ret r =>
        simp only [place]
        split
        · rename_i out hs
          split
          · exact .inl rfl
          · rename_i h1
            exact .inr ⟨o, op, log, _, rfl, .inr ⟨hi.holds _ _ _ (publish hpl hi hl hs h1), rfl⟩⟩
        · split
          · rename_i h1
            exact .inr ⟨o, op, log, _, rfl, .inl ⟨h1.2, rfl⟩⟩
          · exact .inl rfl

end Verif.Monitor.Future
