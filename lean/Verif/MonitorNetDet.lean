import Verif.MonitorNetInv

/-!
# Networks of channels: results do not depend on the schedule
-/

namespace Verif.Monitor.Chan

open Verif.Rtm (Tid Lock Addr Req Done Hist Prog mine owner value Legal Allowed holding)
open Verif.WeakDrf Verif.Monitor

/-! ## Pasts -/

theorem pushes_cons (o : Obj) (d : UDone Op Res) (p : List (UDone Op Res)) : ∃ l, pushes o (d :: p) = pushes o p ++ l := by
  cases d with
  | did o' op r =>
    cases op with
    | push v =>
      by_cases ho : o' = o <;> cases r <;> simp [pushes, ho]
    | _ => exact ⟨[], by simp [pushes]⟩
  | _ => exact ⟨[], by simp [pushes]⟩

theorem pops_cons (o : Obj) (d : UDone Op Res) (p : List (UDone Op Res)) : ∃ l, pops o (d :: p) = pops o p ++ l := by
  cases d with
  | did o' op r =>
    cases op with
    | pop =>
      by_cases ho : o' = o <;> cases r <;> simp [pops, ho]
    | _ => exact ⟨[], by simp [pops]⟩
  | _ => exact ⟨[], by simp [pops]⟩

theorem closes_cons (o : Obj) (d : UDone Op Res) (p : List (UDone Op Res)) (h : closes o p = true) : closes o (d :: p) = true := by
  cases d with
  | did o' op r => cases op <;> simp [closes, h]
  | _ => simp [closes, h]

theorem pushes_app (o : Obj) (p : List (UDone Op Res)) : ∀ r, ∃ l, pushes o (r ++ p) = pushes o p ++ l
  | [] => ⟨[], by simp⟩
  | d :: r => by
    obtain ⟨l, hl⟩ := pushes_app o p r
    obtain ⟨l', hl'⟩ := pushes_cons o d (r ++ p)
    exact ⟨l ++ l', by rw [List.cons_append, hl', hl, List.append_assoc]⟩

theorem pops_app (o : Obj) (p : List (UDone Op Res)) : ∀ r, ∃ l, pops o (r ++ p) = pops o p ++ l
  | [] => ⟨[], by simp⟩
  | d :: r => by
    obtain ⟨l, hl⟩ := pops_app o p r
    obtain ⟨l', hl'⟩ := pops_cons o d (r ++ p)
    exact ⟨l ++ l', by rw [List.cons_append, hl', hl, List.append_assoc]⟩

theorem closes_app (o : Obj) (p : List (UDone Op Res)) (h : closes o p = true) : ∀ r, closes o (r ++ p) = true
  | [] => h
  | d :: r => closes_cons o d _ (closes_app o p h r)

/-! ## Histories -/

theorem legal_app {lib : Lib Op Res} {V : UProg Op Res} {h : UHist Op Res} : ∀ r, ULegal lib V (r ++ h) → ULegal lib V h
  | [], hl => hl
  | _ :: r, hl => legal_app r hl.2

/-- A step of a thread is invisible to its user, or is the next thing in its past. -/
theorem upast_step {lib : Lib Op Res} {V : UProg Op Res} {t : Tid} {e : Ev Op Res} {h : UHist Op Res} (hl : ULegal lib V ((t, e) :: h)) :
    (upast ((t, e) :: h) t = upast h t ∧ ∃ o op log op', e = .sect o op log (.again op')) ∨
      ∃ d, upast ((t, e) :: h) t = d :: upast h t ∧
        ((∃ a v, e = .got a v ∧ d = .got a v) ∨ (∃ a v, e = .put a v ∧ d = .put a v) ∨ ∃ o op log r, e = .sect o op log (.ret r) ∧ d = .did o op r) := by
  cases e with
  | got a v => exact .inr ⟨.got a v, by simp [upast], .inl ⟨a, v, rfl, rfl⟩⟩
  | put a v => exact .inr ⟨.put a v, by simp [upast], .inr (.inl ⟨a, v, rfl, rfl⟩)⟩
  | sect o op log out =>
    rcases hl.1.2.2.2 with ⟨r, rfl⟩ | ⟨op', rfl⟩
    · exact .inr ⟨.did o op r, by simp [upast], .inr (.inr ⟨o, op, log, r, rfl, rfl⟩)⟩
    · exact .inl ⟨by simp [upast], o, op, log, op', rfl⟩

variable {C : Chans} {V : UProg Op Res} {prod cons : Obj → Tid} {named : Nat → Bool} {first : Addr → Tid}

/-- Nothing is pushed after a channel has been closed. -/
theorem no_push_after_close (hn : Network C V prod cons) (hcl : Clean (lib C) V) (o : Obj) : ∀ {h : UHist Op Res}, ULegal (lib C) V h →
    ∀ r p, upast h (prod o) = r ++ p → closes o p = true → pushes o (r ++ p) = pushes o p
  | [], _, r, p, hp, _ => by
    simp only [upast] at hp
    have := List.append_eq_nil_iff.1 hp.symm
    obtain ⟨rfl, rfl⟩ := this
    rfl
  | (t, e) :: h, hl, r, p, hp, hc => by
    have ih := no_push_after_close hn hcl o hl.2
    by_cases ht : prod o = t
    case neg => rw [upast_other ht] at hp; exact ih r p hp hc
    subst ht
    rcases upast_step hl with ⟨h1, _⟩ | ⟨d, h1, h2⟩
    · rw [h1] at hp; exact ih r p hp hc
    · rw [h1] at hp
      cases r with
      | nil => rfl
      | cons d' r =>
        simp only [List.cons_append, List.cons.injEq] at hp
        obtain ⟨rfl, hp⟩ := hp
        have h3 := ih r p hp hc
        have h4 := closes_app o p hc r
        rw [List.cons_append]
        rcases h2 with ⟨a, v, rfl, rfl⟩ | ⟨a, v, rfl, rfl⟩ | ⟨o', op, log, r', rfl, rfl⟩
        · simpa [pushes] using h3
        · simpa [pushes] using h3
        · obtain ⟨X, hX⟩ := net_st hn hcl hl.2
          obtain ⟨h5, h6, _⟩ := sect_answer hn hl hX
          by_cases ho : o' = o
          · subst ho
            rw [hp, h4] at h6
            cases op <;> simp_all [pushes, answer]
          · cases op <;> first | (simpa [pushes] using h3) | skip
            cases r' <;> simpa [pushes, ho] using h3

/-- Two pasts of which one continues the other. -/
def Fits {α : Type} (p q : List α) : Prop := (∃ r, q = r ++ p) ∨ ∃ r, p = r ++ q

theorem Fits.symm {α : Type} {p q : List α} (h : Fits p q) : Fits q p := Or.symm h

/-- A pop whose channel has, in two histories, been filled by producers of which one has got further than the other. -/
theorem pop_same (hn : Network C V prod cons) (hcl : Clean (lib C) V) {h1 h2 : UHist Op Res} (hl1 : ULegal (lib C) V h1) (hl2 : ULegal (lib C) V h2) {o : Obj}
    (hf : Fits (upast h1 (prod o)) (upast h2 (prod o))) {cap k : Nat} {r1 r2 : Res}
    (ha1 : .ret r1 = answer cap (pushes o (upast h1 (prod o))) k (closes o (upast h1 (prod o))) .pop)
    (ha2 : .ret r2 = answer cap (pushes o (upast h2 (prod o))) k (closes o (upast h2 (prod o))) .pop) : r1 = r2 := by
  have key : ∀ {h1 h2 : UHist Op Res}, ULegal (lib C) V h1 → ULegal (lib C) V h2 → ∀ {r1 r2 : Res}, (∃ r, upast h2 (prod o) = r ++ upast h1 (prod o)) →
      .ret r1 = answer cap (pushes o (upast h1 (prod o))) k (closes o (upast h1 (prod o))) .pop →
      .ret r2 = answer cap (pushes o (upast h2 (prod o))) k (closes o (upast h2 (prod o))) .pop → r1 = r2 := by
    rintro h1 h2 hl1 hl2 r1 r2 ⟨r, hr⟩ ha1 ha2
    have hno := no_push_after_close hn hcl o hl2 r _ hr
    obtain ⟨l, hl⟩ := pushes_app o (upast h1 (prod o)) r
    have hca := closes_app o (upast h1 (prod o))
    rw [hr] at ha2
    simp only [answer] at ha1 ha2
    cases hk : (pushes o (upast h1 (prod o)))[k]? with
    | some v =>
      have hk2 : (pushes o (r ++ upast h1 (prod o)))[k]? = some v := by
        rw [hl, List.getElem?_append_left (List.getElem?_eq_some_iff.1 hk).1]; exact hk
      rw [hk] at ha1
      rw [hk2] at ha2
      cases ha1; cases ha2; rfl
    | none =>
      rw [hk] at ha1
      cases hc : closes o (upast h1 (prod o)) with
      | false => rw [hc] at ha1; simp at ha1
      | true =>
        rw [hno hc, hk, hca hc r] at ha2
        rw [hc] at ha1
        simp at ha1 ha2
        rw [ha1, ha2]
  rcases hf with hf | hf
  · exact key hl1 hl2 hf ha1 ha2
  · exact (key hl2 hl1 hf ha2 ha1).symm

/-- What a thread does next is determined by its past, if the other threads have done the same so far, as far as they have got, and the data it has are the same. -/
theorem next_same (hn : Network C V prod cons) (hcl : Clean (lib C) V) {h1 h2 : UHist Op Res} {t : Tid} {e1 e2 : Ev Op Res}
    (hl1 : ULegal (lib C) V ((t, e1) :: h1)) (hl2 : ULegal (lib C) V ((t, e2) :: h2)) (hp : upast h1 t = upast h2 t)
    (hf : ∀ u, Fits (upast h1 u) (upast h2 u)) (hv : ∀ a, V t (upast h1 t) = some (.read a) → uval h1 a = uval h2 a) {d1 d2 : UDone Op Res}
    (hd1 : upast ((t, e1) :: h1) t = d1 :: upast h1 t) (hd2 : upast ((t, e2) :: h2) t = d2 :: upast h2 t) : d1 = d2 := by
  have hself : ∀ {α : Type} (x : α) (l : List α), x :: l ≠ l := fun x l h => by have := congrArg List.length h; simp at this
  have hdo : ∀ {h : UHist Op Res} {e : Ev Op Res} {d : UDone Op Res}, ULegal (lib C) V ((t, e) :: h) → upast ((t, e) :: h) t = d :: upast h t →
      (∃ a, e = .got a (uval h a) ∧ d = .got a (uval h a) ∧ V t (upast h t) = some (.read a)) ∨ (∃ a v, d = .put a v ∧ V t (upast h t) = some (.write a v)) ∨
        ∃ o op log r, e = .sect o op log (.ret r) ∧ d = .did o op r ∧ V t (upast h t) = some (.call o op) := by
    intro h e d hl hd
    rcases upast_step hl with ⟨h3, _⟩ | ⟨d', h3, h4⟩
    · rw [h3] at hd; exact absurd hd.symm (hself _ _)
    · rw [h3] at hd
      simp only [List.cons.injEq, and_true] at hd
      subst hd
      rcases h4 with ⟨a, v, rfl, rfl⟩ | ⟨a, v, rfl, rfl⟩ | ⟨o', op, log, r', rfl, rfl⟩
      · have := hl.1.2.2
        subst this
        exact .inl ⟨a, rfl, rfl, hl.1.2.1⟩
      · exact .inr (.inl ⟨a, v, rfl, hl.1.2⟩)
      · exact .inr (.inr ⟨o', op, log, r', rfl, rfl, called hn hl⟩)
  have hx1 := hdo hl1 hd1
  have hx2 := hdo hl2 hd2
  rw [← hp] at hx2
  rcases hx1 with ⟨a, rfl, rfl, hV1⟩ | ⟨a, v, rfl, hV1⟩ | ⟨o, op, log, r, rfl, rfl, hV1⟩ <;>
    rcases hx2 with ⟨a', rfl, rfl, hV2⟩ | ⟨a', v', rfl, hV2⟩ | ⟨o', op', log', r', rfl, rfl, hV2⟩ <;>
    rw [hV1] at hV2 <;> cases hV2
  · rw [hv a hV1]
  · rfl
  · obtain ⟨X1, hX1⟩ := net_st hn hcl hl1.2
    obtain ⟨X2, hX2⟩ := net_st hn hcl hl2.2
    obtain ⟨hr, h3, _⟩ := sect_answer hn hl1 hX1
    obtain ⟨_, h4, _⟩ := sect_answer hn hl2 hX2
    congr 1
    rcases hr with ⟨rfl, rfl | ⟨v, rfl⟩⟩ | ⟨rfl, rfl⟩
    · simp only [answer] at h3 h4
      rw [← h4] at h3; cases h3; rfl
    · rw [← hp] at h4
      simp only [answer] at h3 h4
      split at h3
      · rename_i hc
        simp only [hc, if_true] at h4
        cases h3; cases h4; rfl
      · rename_i hc
        simp only [hc] at h4
        have hi : ∀ (c : Prop) [Decidable c] (r : Res), Act.ret r = (if c then .ret .success else .again (Op.push v)) → r = .success := by
          intro c _ r h
          split at h
          · cases h; rfl
          · cases h
        rw [hi _ _ h3, hi _ _ h4]
    · rw [← hp] at h4
      exact pop_same hn hcl hl1.2 hl2.2 (hf (prod o)) h3 h4

/-! ## Data -/

theorem content_unique {m : Addr → Nat} {o : Obj} {xs ys : List Nat} (h1 : Content C m o xs) (h2 : Content C m o ys) : xs = ys := by
  obtain ⟨a1, a2, a3, a4⟩ := h1
  obtain ⟨b1, b2, b3, b4⟩ := h2
  have hm : ∀ x : Nat, x < C.cap o → (m (cidxAt C o) + x) % C.cap o = if m (cidxAt C o) + x < C.cap o then m (cidxAt C o) + x else m (cidxAt C o) + x - C.cap o := by
    intro x hx
    split
    · exact Nat.mod_eq_of_lt ‹_›
    · rw [Nat.mod_eq_sub_mod (by omega), Nat.mod_eq_of_lt (by omega)]
  rw [a3, hm _ a1, hm _ b1] at b3
  have hlen : xs.length = ys.length := by split at b3 <;> split at b3 <;> omega
  apply List.ext_getElem? 
  intro i
  cases hx : xs[i]? with
  | none =>
    have := List.getElem?_eq_none_iff.1 hx
    exact (List.getElem?_eq_none (by omega)).symm
  | some x =>
    have h5 := (List.getElem?_eq_some_iff.1 hx).1
    have h6 : ys[i]? = some (ys[i]'(by omega)) := List.getElem?_eq_getElem (by omega)
    rw [h6, ← a4 i x hx, ← b4 i _ h6]

/-- Steps change only data the thread has. -/
theorem data_kept {pt : Ports Op Res} {lib : Lib Op Res} (hc : Careful lib V pt first) {h : UHist Op Res} {t : Tid} {e : Ev Op Res} (hl : ULegal lib V ((t, e) :: h)) {a : Addr} (ha : lib.home a = none)
    (hna : ¬ has pt first t (upast h t) a) : uval ((t, e) :: h) a = uval h a := by
  cases e with
  | got b v => rfl
  | put b v =>
    have hb := ((hc h t hl.2).1 b (.inr ⟨v, hl.1.2⟩)).2
    have : b ≠ a := by rintro rfl; exact hna hb
    simp [uval, this]
  | sect o op log out => exact after_home (by rw [ha]; simp) hl.1.2.1

theorem data_sect {lib : Lib Op Res} {h : UHist Op Res} {t : Tid} {o : Obj} {op : Op} {log : List Done} {out : Act Op Res} (hl : ULegal lib V ((t, .sect o op log out) :: h)) {a : Addr}
    (ha : lib.home a = none) : uval ((t, .sect o op log out) :: h) a = uval h a :=
  after_home (by rw [ha]; simp) hl.1.2.1

/-- Where the elements in a channel come from: the data have not changed since they were pushed. -/
theorem origin (hn : Network C V prod cons) (hcl : Clean (lib C) V) (hc : Careful (lib C) V (ports named) first)
    (hI : ∀ h, ULegal (lib C) V h → Kept C named first h ∧ ∀ t a, has (ports named) first t (upast h t) a ↔ place (ports named) first h a = .thread t) :
    ∀ {h : UHist Op Res}, ULegal (lib C) V h → ∀ o i v, named v = true → (pushes o (upast h (prod o)))[i]? = some v → (pops o (upast h (cons o))).length ≤ i →
      ∃ r log g, h = r ++ (prod o, .sect o (.push v) log (.ret .success)) :: g ∧ (pushes o (upast g (prod o))).length = i ∧ uval g (dataAt v) = uval h (dataAt v)
  | [], _, o, i, v, _, hi, _ => by simp [upast, pushes] at hi
  | (t, e) :: h, hl, o, i, v, hnv, hi, hk => by
    have ih := origin hn hcl hc hI hl.2 o i v hnv
    have hd := home_data C v
    have hold : (pushes o (upast h (prod o)))[i]? = some v → (pops o (upast h (cons o))).length ≤ i → ∃ r log g, (t, e) :: h = r ++ (prod o, .sect o (.push v) log (.ret .success)) :: g ∧
        (pushes o (upast g (prod o))).length = i ∧ uval g (dataAt v) = uval ((t, e) :: h) (dataAt v) := by
      intro hi hk
      obtain ⟨r, log, g, h1, h2, h3⟩ := ih hi hk
      refine ⟨(t, e) :: r, log, g, by rw [h1]; rfl, h2, ?_⟩
      rw [h3]
      refine (data_kept hc hl hd ?_).symm
      obtain ⟨⟨X, hX, hK⟩, hh⟩ := hI h hl.2
      obtain ⟨X', hX'⟩ := net_st hn hcl hl.2
      obtain ⟨h4, h5, _⟩ := hX' o
      have h6 := content_unique h4 (hX o)
      rw [h5, List.getElem?_append_right hk] at hi
      have h7 : v ∈ X o := by rw [← h6]; exact List.mem_of_getElem? hi
      have h8 := (hK o).2 v h7 hnv
      rw [hh, h8]; simp
    have hpk : (pops o (upast h (cons o))).length ≤ i := by
      refine Nat.le_trans ?_ hk
      by_cases ht : cons o = t
      · subst ht
        rcases upast_step hl with ⟨h1, _⟩ | ⟨d, h1, _⟩
        · rw [h1]; exact Nat.le_refl _
        · obtain ⟨l, h2⟩ := pops_cons o d (upast h (cons o))
          rw [h1, h2]; simp
      · rw [upast_other ht]; exact Nat.le_refl _
    by_cases ht : prod o = t
    case neg => rw [upast_other ht] at hi; exact hold hi hpk
    subst ht
    rcases upast_step hl with ⟨h1, _⟩ | ⟨d, h1, h2⟩
    · rw [h1] at hi; exact hold hi hpk
    · rw [h1] at hi
      by_cases hs : pushes o (d :: upast h (prod o)) = pushes o (upast h (prod o))
      · rw [hs] at hi; exact hold hi hpk
      · rcases h2 with ⟨a, w, rfl, rfl⟩ | ⟨a, w, rfl, rfl⟩ | ⟨o', op, log, r, rfl, rfl⟩
        · exact absurd (by simp [pushes]) hs
        · exact absurd (by simp [pushes]) hs
        · have hx : ∃ w, o' = o ∧ op = .push w ∧ r = .success := by
            cases op with
            | push w =>
              cases r <;> simp [pushes] at hs
              exact ⟨w, hs, rfl, rfl⟩
            | _ => simp [pushes] at hs
          obtain ⟨w, rfl, rfl, rfl⟩ := hx
          simp only [pushes, if_true] at hi
          by_cases hlt : i < (pushes o' (upast h (prod o'))).length
          · rw [List.getElem?_append_left hlt] at hi
            exact hold hi hpk
          · rw [List.getElem?_append_right (by omega)] at hi
            have h3 : i - (pushes o' (upast h (prod o'))).length = 0 := by
              have := (List.getElem?_eq_some_iff.1 hi).1
              simp at this; omega
            rw [h3] at hi
            simp at hi
            subst hi
            exact ⟨[], log, h, rfl, by omega, (data_sect hl hd).symm⟩

theorem fits_step {α : Type} {d1 d2 : α} {p1 p2 : List α} (h1 : Fits (d1 :: p1) p2) (h2 : Fits p1 (d2 :: p2)) (h3 : p1 = p2 → d1 = d2) :
    Fits (d1 :: p1) (d2 :: p2) := by
  rcases h1 with ⟨r, hr⟩ | ⟨r, hr⟩
  · exact .inl ⟨d2 :: r, by rw [hr]; rfl⟩
  rcases h2 with ⟨r', hr'⟩ | ⟨r', hr'⟩
  · cases r with
    | nil => exact .inl ⟨[d2], by simp at hr; rw [← hr]; rfl⟩
    | cons x r =>
      cases r' with
      | nil => exact .inr ⟨[d1], by simp at hr'; rw [hr']; rfl⟩
      | cons y r' =>
        simp only [List.cons_append, List.cons.injEq] at hr hr'
        have h4 := congrArg List.length hr.2
        have h5 := congrArg List.length hr'.2
        simp at h4 h5
        have h6 : r = [] := List.length_eq_zero_iff.1 (by omega)
        subst h6
        have h7 : p1 = p2 := by simpa using hr.2
        rw [h3 h7, h7]
        exact .inl ⟨[], rfl⟩
  · exact .inr ⟨d1 :: r', by rw [hr']; rfl⟩

/-- Results do not depend on the schedule: as far as two histories have got, threads have done the same in both, and have the same data. -/
theorem determined (hn : Network C V prod cons) (hcl : Clean (lib C) V) (hc : Careful (lib C) V (ports named) first)
    (hI : ∀ h, ULegal (lib C) V h → Kept C named first h ∧ ∀ t a, has (ports named) first t (upast h t) a ↔ place (ports named) first h a = .thread t) :
    ∀ n, ∀ h1 h2 : UHist Op Res, h1.length + h2.length ≤ n → ULegal (lib C) V h1 → ULegal (lib C) V h2 →
      (∀ t, Fits (upast h1 t) (upast h2 t)) ∧
        ∀ t a, (lib C).home a = none → upast h1 t = upast h2 t → has (ports named) first t (upast h1 t) a → uval h1 a = uval h2 a := by
  intro n
  induction n with
  | zero =>
    intro h1 h2 hlen _ _
    have e1 : h1 = [] := List.length_eq_zero_iff.1 (by omega)
    have e2 : h2 = [] := List.length_eq_zero_iff.1 (by omega)
    subst e1; subst e2
    exact ⟨fun t => .inl ⟨[], rfl⟩, fun _ _ _ _ _ => rfl⟩
  | succ n ih =>
    intro h1 h2 hlen hl1 hl2
    have hself : ∀ {α : Type} (x : α) (l : List α), x :: l ≠ l := fun x l h => by have := congrArg List.length h; simp at this
    have hmine : ∀ {h : UHist Op Res} {t u : Tid} {a : Addr}, ULegal (lib C) V h → has (ports named) first t (upast h t) a → has (ports named) first u (upast h u) a → t = u := by
      intro h t u a hl ht hu
      rw [(hI h hl).2] at ht hu
      rw [ht] at hu; cases hu; rfl
    cases h1 with
    | nil =>
      refine ⟨fun t => .inl ⟨upast h2 t, by simp [upast]⟩, ?_⟩
      cases h2 with
      | nil => exact fun _ _ _ _ _ => rfl
      | cons e2 h2 =>
        obtain ⟨t2, e2⟩ := e2
        simp only [List.length_cons, List.length_nil] at hlen
        obtain ⟨_, ihB⟩ := ih [] h2 (by simp; omega) hl1 hl2.2
        intro t a ha hp hh
        have hpast : upast h2 t = upast ([] : UHist Op Res) t := by
          by_cases ht : t = t2
          · subst ht
            rcases upast_step hl2 with ⟨h3, _⟩ | ⟨d, h3, _⟩
            · rw [← h3, hp]
            · rw [h3] at hp; simp [upast] at hp
          · rw [upast_other ht] at hp; exact hp.symm
        rw [ihB t a ha hpast.symm hh]
        by_cases ht : t = t2
        · subst ht
          rcases upast_step hl2 with ⟨_, o, op, log, op', rfl⟩ | ⟨d, h3, _⟩
          · exact (data_sect hl2 ha).symm
          · rw [h3] at hp; simp [upast] at hp
        · refine (data_kept hc hl2 ha fun hh2 => ht ?_).symm
          exact hmine hl2.2 (by rw [hpast]; exact hh) hh2
    | cons e1 h1 =>
      obtain ⟨t1, e1⟩ := e1
      cases h2 with
      | nil =>
        refine ⟨fun t => .inr ⟨upast ((t1, e1) :: h1) t, (List.append_nil _).symm⟩, ?_⟩
        simp only [List.length_cons, List.length_nil] at hlen
        obtain ⟨_, ihB⟩ := ih h1 [] (by simp; omega) hl1.2 hl2
        intro t a ha hp hh
        have hpast : upast h1 t = upast ([] : UHist Op Res) t := by
          by_cases ht : t = t1
          · subst ht
            rcases upast_step hl1 with ⟨h3, _⟩ | ⟨d, h3, _⟩
            · rw [← h3, hp]
            · rw [h3] at hp; simp [upast] at hp
          · rw [upast_other ht] at hp; exact hp
        rw [← ihB t a ha hpast (by rw [hpast, ← hp]; exact hh)]
        by_cases ht : t = t1
        · subst ht
          rcases upast_step hl1 with ⟨_, o, op, log, op', rfl⟩ | ⟨d, h3, _⟩
          · exact data_sect hl1 ha
          · rw [h3] at hp; simp [upast] at hp
        · refine data_kept hc hl1 ha fun hh2 => ht ?_
          exact hmine hl1.2 (by rw [hpast, ← hp]; exact hh) hh2
      | cons e2 h2 =>
        obtain ⟨t2, e2⟩ := e2
        simp only [List.length_cons] at hlen
        obtain ⟨ihA, ihB⟩ := ih h1 h2 (by omega) hl1.2 hl2.2
        obtain ⟨ihA1, ihB1⟩ := ih h1 ((t2, e2) :: h2) (by simp; omega) hl1.2 hl2
        obtain ⟨ihA2, ihB2⟩ := ih ((t1, e1) :: h1) h2 (by simp; omega) hl1 hl2.2
        refine ⟨fun t => ?_, fun t a ha hp hh => ?_⟩
        · by_cases ht1 : t = t1
          case neg => rw [upast_other ht1]; exact ihA1 t
          by_cases ht2 : t = t2
          case neg => rw [upast_other (e := e2) ht2]; exact ihA2 t
          subst ht1; subst ht2
          have hA1 := ihA1 t
          have hA2 := ihA2 t
          rcases upast_step hl1 with ⟨h3, _⟩ | ⟨d1, h3, _⟩
          · rw [h3]; exact hA1
          rcases upast_step hl2 with ⟨h4, _⟩ | ⟨d2, h4, _⟩
          · rw [h4]; exact hA2
          rw [h4] at hA1 ⊢
          rw [h3] at hA2 ⊢
          refine fits_step hA2 hA1 fun hp => ?_
          refine next_same hn hcl hl1 hl2 hp ihA (fun a hV => ?_) h3 h4
          obtain ⟨h5, h6⟩ := (hc h1 t hl1.2).1 a (.inl hV)
          exact ihB t a h5 hp h6
        · by_cases ht1 : t = t1
          case neg =>
            rw [upast_other ht1] at hp hh
            rw [data_kept hc hl1 ha fun hh2 => ht1 (hmine hl1.2 hh hh2)]
            exact ihB1 t a ha hp hh
          by_cases ht2 : t = t2
          case neg =>
            rw [upast_other (e := e2) ht2] at hp
            rw [data_kept hc hl2 ha fun hh2 => ht2 (hmine hl2.2 (by rw [← hp]; exact hh) hh2)]
            exact ihB2 t a ha hp hh
          subst ht1; subst ht2
          rcases upast_step hl1 with ⟨h3, o, op, log, op', rfl⟩ | ⟨d1, h3, h5⟩
          · rw [h3] at hp hh
            rw [data_sect hl1 ha]
            exact ihB1 t a ha hp hh
          rcases upast_step hl2 with ⟨h4, o, op, log, op', rfl⟩ | ⟨d2, h4, h6⟩
          · rw [h4] at hp
            rw [data_sect hl2 ha]
            exact ihB2 t a ha hp hh
          rw [h3, h4] at hp
          rw [h3] at hh
          simp only [List.cons.injEq] at hp
          obtain ⟨rfl, hp⟩ := hp
          rcases h5 with ⟨b, v, rfl, rfl⟩ | ⟨b, v, rfl, rfl⟩ | ⟨o, op, log, r, rfl, rfl⟩
          · rcases h6 with ⟨b', v', rfl, h7⟩ | ⟨b', v', rfl, h7⟩ | ⟨o', op', log', r', rfl, h7⟩ <;> cases h7
            exact ihB t a ha hp hh
          · rcases h6 with ⟨b', v', rfl, h7⟩ | ⟨b', v', rfl, h7⟩ | ⟨o', op', log', r', rfl, h7⟩ <;> cases h7
            have := ihB t a ha hp hh
            simp only [uval, this]
          · rcases h6 with ⟨b', v', rfl, h7⟩ | ⟨b', v', rfl, h7⟩ | ⟨o', op', log', r', rfl, h7⟩ <;> cases h7
            rw [data_sect hl1 ha, data_sect hl2 ha]
            obtain ⟨h8, h9 | h9⟩ := hh
            case inr => exact ihB t a ha hp h9
            obtain ⟨v, rfl, hnv, rfl⟩ := named_value h9
            obtain ⟨X1, hX1⟩ := net_st hn hcl hl1.2
            obtain ⟨X2, hX2⟩ := net_st hn hcl hl2.2
            obtain ⟨hr, h10, _⟩ := sect_answer hn hl1 hX1
            obtain ⟨_, h11, _⟩ := sect_answer hn hl2 hX2
            have hpop : t = cons o ∧ op = .pop := by
              rcases hr with ⟨_, rfl | ⟨w, rfl⟩⟩ | h
              · simp [answer] at h10
              · simp only [answer] at h10
                split at h10
                · cases h10
                · split at h10 <;> cases h10
              · exact h
            obtain ⟨rfl, rfl⟩ := hpop
            have hget : ∀ {cap : Nat} {q : List Nat} {k : Nat} {cl : Bool}, Act.ret (.value v) = answer cap q k cl .pop → q[k]? = some v := by
              intro cap q k cl h
              simp only [answer] at h
              split at h
              · cases h; assumption
              · split at h <;> cases h
            have hg1 := hget h10
            have hg2 := hget h11
            obtain ⟨r1, log1, g1, e1, e2, e3⟩ := origin hn hcl hc hI hl1.2 o _ v hnv hg1 (Nat.le_refl _)
            obtain ⟨r2, log2, g2, f1, f2, f3⟩ := origin hn hcl hc hI hl2.2 o _ v hnv hg2 (Nat.le_refl _)
            rw [← hp] at f2
            have hm1 : ULegal (lib C) V ((prod o, .sect o (.push v) log1 (.ret .success)) :: g1) := legal_app r1 (by rw [← e1]; exact hl1.2)
            have hm2 : ULegal (lib C) V ((prod o, .sect o (.push v) log2 (.ret .success)) :: g2) := legal_app r2 (by rw [← f1]; exact hl2.2)
            have hlen1 : h1.length = r1.length + (g1.length + 1) := by rw [e1]; simp
            have hlen2 : h2.length = r2.length + (g2.length + 1) := by rw [f1]; simp
            have hfit := (ih _ _ (by simp; omega) hm1 hm2).1 (prod o)
            have hpg : upast g1 (prod o) = upast g2 (prod o) := by
              have hu1 : upast ((prod o, Ev.sect o (.push v) log1 (.ret .success)) :: g1) (prod o) = .did o (.push v) .success :: upast g1 (prod o) := by simp [upast]
              have hu2 : upast ((prod o, Ev.sect o (.push v) log2 (.ret .success)) :: g2) (prod o) = .did o (.push v) .success :: upast g2 (prod o) := by simp [upast]
              rw [hu1, hu2] at hfit
              rcases hfit with ⟨r, hr⟩ | ⟨r, hr⟩
              · cases r with
                | nil => simpa using hr.symm
                | cons x r =>
                  simp only [List.cons_append, List.cons.injEq] at hr
                  obtain ⟨l, hl⟩ := pushes_app o (.did o (.push v) .success :: upast g1 (prod o)) r
                  have := congrArg (fun l => (pushes o l).length) hr.2
                  simp only [hl] at this
                  simp [pushes] at this
                  omega
              · cases r with
                | nil => simpa using hr
                | cons x r =>
                  simp only [List.cons_append, List.cons.injEq] at hr
                  obtain ⟨l, hl⟩ := pushes_app o (.did o (.push v) .success :: upast g2 (prod o)) r
                  have := congrArg (fun l => (pushes o l).length) hr.2
                  simp only [hl] at this
                  simp [pushes] at this
                  omega
            rw [← e3, ← f3]
            refine (ih g1 g2 (by omega) hm1.2 hm2.2).2 (prod o) _ (home_data C v) hpg ?_
            exact (hc g1 (prod o) hm1.2).2 o (.push v) _ (called hn hm1) (by simp [ports, offer, name, hnv])

/-- A thread that has gone on had something to do. -/
theorem had_work (hn : Network C V prod cons) {t : Tid} : ∀ {h : UHist Op Res}, ULegal (lib C) V h → ∀ r d p, upast h t = r ++ d :: p → V t p ≠ none
  | [], _, r, d, p, hp => by simp [upast] at hp
  | (u, e) :: h, hl, r, d, p, hp => by
    have ih := had_work hn (t := t) hl.2
    by_cases ht : t = u
    case neg => rw [upast_other ht] at hp; exact ih r d p hp
    subst ht
    rcases upast_step hl with ⟨h1, _⟩ | ⟨d', h1, h2⟩
    · rw [h1] at hp; exact ih r d p hp
    · rw [h1] at hp
      cases r with
      | cons x r =>
        simp only [List.cons_append, List.cons.injEq] at hp
        exact ih r d p hp.2
      | nil =>
        simp only [List.nil_append, List.cons.injEq] at hp
        rw [← hp.2]
        rcases h2 with ⟨a, w, rfl, rfl⟩ | ⟨a, w, rfl, rfl⟩ | ⟨o', op, log, r, rfl, rfl⟩
        · rw [hl.1.2.1]; simp
        · rw [hl.1.2]; simp
        · rw [called hn hl]; simp

/-- If a history has got further than another one, anywhere, then the other one can go on. -/
theorem goes_on (hn : Network C V prod cons) (hcl : Clean (lib C) V) (hc : Careful (lib C) V (ports named) first)
    (hI : ∀ h, ULegal (lib C) V h → Kept C named first h ∧ ∀ t a, has (ports named) first t (upast h t) a ↔ place (ports named) first h a = .thread t) {h1 : UHist Op Res}
    (hl1 : ULegal (lib C) V h1) : ∀ {h2 : UHist Op Res}, ULegal (lib C) V h2 → (∃ t, ¬ ∃ r, upast h1 t = r ++ upast h2 t) →
      ∃ t e d, ULegal (lib C) V ((t, e) :: h1) ∧ upast ((t, e) :: h1) t = d :: upast h1 t
  | [], _, ⟨t, ht⟩ => absurd ⟨upast h1 t, by simp [upast]⟩ ht
  | (t, e) :: g, hl2, ⟨u, hu⟩ => by
    by_cases hg : ∃ t, ¬ ∃ r, upast h1 t = r ++ upast g t
    · exact goes_on hn hcl hc hI hl1 hl2.2 hg
    have hg' : ∀ t, ∃ r, upast h1 t = r ++ upast g t := fun t => Classical.byContradiction fun h => hg ⟨t, h⟩
    by_cases hut : u = t
    case neg => rw [upast_other hut] at hu; exact absurd (hg' u) hu
    subst hut
    rcases upast_step hl2 with ⟨h3, _⟩ | ⟨d, h3, h4⟩
    · rw [h3] at hu; exact absurd (hg' u) hu
    rw [h3] at hu
    have hp : upast h1 u = upast g u := by
      obtain ⟨r, hr⟩ := hg' u
      have hfit := (determined hn hcl hc hI _ h1 _ (Nat.le_refl _) hl1 hl2).1 u
      rw [h3] at hfit
      rcases hfit with ⟨r', hr'⟩ | hf
      · cases r' with
        | nil => exact absurd ⟨[], hr'.symm⟩ hu
        | cons x r' =>
          simp only [List.cons_append, List.cons.injEq] at hr'
          have h5 := congrArg List.length hr'.2
          rw [hr] at h5
          simp at h5
          have : r = [] := List.length_eq_zero_iff.1 (by omega)
          rw [hr, this]; rfl
      · exact absurd hf hu
    have hpend : (∀ o op, V u (upast h1 u) ≠ some (.call o op)) → pend h1 u = none := by
      intro hno
      cases hq : pend h1 u with
      | none => rfl
      | some x => exact absurd (pend_same hn hl1 u x.1 x.2 hq) (hno _ _)
    rcases h4 with ⟨a, v, rfl, rfl⟩ | ⟨a, v, rfl, rfl⟩ | ⟨o, op, log, r, rfl, rfl⟩
    · have hV := hl2.1.2.1
      rw [← hp] at hV
      exact ⟨u, .got a (uval h1 a), _, ⟨⟨hpend (by rw [hV]; simp), hV, rfl⟩, hl1⟩, by simp [upast]; rfl⟩
    · have hV := hl2.1.2
      rw [← hp] at hV
      exact ⟨u, .put a v, _, ⟨⟨hpend (by rw [hV]; simp), hV⟩, hl1⟩, by simp [upast]; rfl⟩
    · have hV := called hn hl2
      rw [← hp] at hV
      obtain ⟨log', out, hl3⟩ := can_do hn hl1 hV
      obtain ⟨X1, hX1⟩ := net_st hn hcl hl1
      obtain ⟨X2, hX2⟩ := net_st hn hcl hl2.2
      obtain ⟨hr, h5, _⟩ := sect_answer hn hl3 hX1
      obtain ⟨_, h6, _⟩ := sect_answer hn hl2 hX2
      have hret : ∃ r, out = .ret r := by
        rw [h5]
        rcases hr with ⟨rfl, rfl | ⟨v, rfl⟩⟩ | ⟨rfl, rfl⟩
        · exact ⟨_, rfl⟩
        · rw [← hp] at h6
          simp only [answer] at h6 ⊢
          split
          · exact ⟨_, rfl⟩
          · rename_i hcl'
            simp only [hcl', Bool.false_eq_true, if_false] at h6
            split at h6
            · obtain ⟨rc, hrc⟩ := hg' (cons o)
              obtain ⟨l, hl⟩ := pops_app o (upast g (cons o)) rc
              have : (pops o (upast h1 (cons o))).length = (pops o (upast g (cons o))).length + l.length := by rw [hrc, hl]; simp
              rw [if_pos (by omega)]
              exact ⟨_, rfl⟩
            · cases h6
        · rw [← hp] at h6
          obtain ⟨rp, hrp⟩ := hg' (prod o)
          obtain ⟨l, hl⟩ := pushes_app o (upast g (prod o)) rp
          have hcp := closes_app o (upast g (prod o))
          rw [hrp]
          simp only [answer] at h6 ⊢
          cases hk : (pushes o (rp ++ upast g (prod o)))[(pops o (upast h1 (cons o))).length]? with
          | some v => exact ⟨_, rfl⟩
          | none =>
            have hk2 : (pushes o (upast g (prod o)))[(pops o (upast h1 (cons o))).length]? = none := by
              rw [hl] at hk
              have := List.getElem?_eq_none_iff.1 hk
              simp at this
              exact List.getElem?_eq_none (by omega)
            rw [hk2] at h6
            cases hcg : closes o (upast g (prod o)) with
            | true => rw [hcp hcg rp]; exact ⟨_, rfl⟩
            | false => rw [hcg] at h6; simp at h6
      obtain ⟨r', rfl⟩ := hret
      exact ⟨u, _, _, hl3, by simp [upast]; rfl⟩

end Verif.Monitor.Chan
