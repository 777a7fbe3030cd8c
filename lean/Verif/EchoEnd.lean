import Verif.EchoInv

/-!
# Every execution of the echo program is finite: each step lowers a number
-/

namespace Verif.Echo

def sumTo (f : Nat → Nat) : Nat → Nat
  | 0 => 0
  | n + 1 => sumTo f n + f n

theorem sumTo_congr {f g : Nat → Nat} {n : Nat} (h : ∀ i, i < n → f i = g i) : sumTo f n = sumTo g n := by
  induction n with
  | zero => rfl
  | succ n ih => simp only [sumTo]; rw [ih fun i hi => h i (by omega), h n (by omega)]

theorem sumTo_change {f g : Nat → Nat} {n i : Nat} (hi : i < n) (h : ∀ j, j ≠ i → g j = f j) : sumTo g n + f i = sumTo f n + g i := by
  induction n with
  | zero => omega
  | succ n ih =>
    simp only [sumTo]
    by_cases hn : i = n
    · subst hn
      rw [sumTo_congr (f := g) (g := f) fun j hj => h j (by omega)]
      omega
    · have := ih (by omega)
      rw [h n (by omega)]
      omega

/-- What iterations `k`, …, `its - 1` of client `i` can cost. -/
def todo (P : Prog) (i : Nat) : Nat → Nat
  | 0 => 0
  | m + 1 => 4 * (P.msg i (P.its - (m + 1))).length + 5 + todo P i m

def CPc.weight (P : Prog) (i : Nat) : CPc → Nat
  | .top k => todo P i (P.its - k) + 2
  | .writing k _ r => 4 * r.length + 1 + (todo P i (P.its - (k + 1)) + 2)
  | .reading k _ => 1 + (todo P i (P.its - (k + 1)) + 2)
  | .waiting => 1
  | .done | .quit => 0

def SPc.weight : SPc → Nat
  | .new => 2
  | .reading => 1
  | .writing r => 1 + 2 * r.length
  | .done => 0

def load (a : State) (c : Nat) : Nat := (a.ses c).weight + 3 * (a.up c).length

def cost (P : Prog) (a : State) (i : Nat) : Nat := (a.cli i).weight P i

/-- A bound for the number of steps to come. -/
def weight (P : Prog) (a : State) : Nat :=
  sumTo (cost P a) P.n + sumTo (load a) a.next + (if a.stopped then 0 else 1) + (if a.crashed then 0 else 1)

variable {P : Prog} {a a' : State} {tr o : List Obs} {e : Event}

theorem cost_same (h : a'.cli = a.cli) : cost P a' = cost P a := funext fun i => by simp only [cost, h]

theorem load_same (h1 : a'.ses = a.ses) (h2 : a'.up = a.up) : load a' = load a := funext fun c => by simp only [load, h1, h2]

theorem cost_change {i : Nat} {v : CPc} (hi : i < P.n) (h : a'.cli = upd a.cli i v) :
    sumTo (cost P a') P.n + cost P a i = sumTo (cost P a) P.n + v.weight P i := by
  have := sumTo_change (f := cost P a) (g := cost P a') hi (fun j hj => by simp [cost, h, hj])
  rw [this]; simp [cost, h]

theorem todo_step {i k : Nat} (h : k < P.its) : todo P i (P.its - k) = 4 * (P.msg i k).length + 5 + todo P i (P.its - (k + 1)) := by
  have h1 : P.its - k = (P.its - (k + 1)) + 1 := by omega
  rw [h1, todo]
  have h2 : P.its - (P.its - (k + 1) + 1) = k := by omega
  rw [h2]

/-- A client moves. -/
theorem weight_cli {i : Nat} {v : CPc} (hi : i < P.n) (h : a'.cli = upd a.cli i v) (h1 : a'.ses = a.ses) (h2 : a'.up = a.up) (h3 : a'.next = a.next)
    (h4 : a'.stopped = a.stopped) (h5 : a'.crashed = a.crashed) (hv : v.weight P i < (a.cli i).weight P i) : weight P a' < weight P a := by
  have := cost_change (P := P) hi h
  have hc : cost P a i = (a.cli i).weight P i := rfl
  simp only [weight, load_same h1 h2, h3, h4, h5]
  omega

/-- A session moves. -/
theorem weight_ses {c : Nat} (hc : c < a.next) (h : a'.cli = a.cli) (h3 : a'.next = a.next) (h4 : a'.stopped = a.stopped)
    (h5 : a'.crashed = a.crashed) (hv : ∀ c', c' ≠ c → load a' c' = load a c') (hl : load a' c < load a c) : weight P a' < weight P a := by
  have := sumTo_change (f := load a) (g := load a') hc hv
  simp only [weight, cost_same h, h3, h4, h5]
  omega

theorem weight_crash {i : Nat} (h : a.crashed = false) : weight P (crash a i).1 < weight P a := by
  simp only [weight, crash, h, cost_same (a := a) (a' := { a with crashed := true }) rfl, load_same (a := a) (a' := { a with crashed := true }) rfl rfl]
  exact Nat.lt_succ_self _

theorem weight_stop (h : a.stopped = false) : weight P { a with stopped := true } < weight P a := by
  simp only [weight, h, cost_same (a := a) (a' := { a with stopped := true }) rfl, load_same (a := a) (a' := { a with stopped := true }) rfl rfl]
  simp

theorem weight_step (hl : InvL P a) (hb : InvB P a tr) (hs : step P a e = some (a', o)) : weight P a' < weight P a := by
  have hn : ∀ i, a.cli i ≠ .top 0 → i < P.n := fun i h => Nat.lt_of_not_le fun hi => h (hb.out i hi)
  have hc : ∀ c, a.ses c ≠ .new → c < a.next := fun c h => Nat.lt_of_not_le fun hi => h (hl.fresh c hi).1
  have hcr : a.crashed = false := by
    cases h : a.crashed
    · rfl
    · simp [step, h] at hs
  cases e with
  | pass i =>
    simp only [step] at hs
    rw [if_neg (by simp [hcr])] at hs
    split at hs
    case isFalse => cases hs
    rename_i h
    simp only [Option.some.injEq, Prod.mk.injEq] at hs
    obtain ⟨rfl, rfl⟩ := hs
    exact weight_cli (i := i) (hn i (by simp [h.1])) rfl rfl rfl rfl rfl rfl (by simp [h.1, CPc.weight])
  | connect i ok =>
    simp only [step] at hs
    rw [if_neg (by simp [hcr])] at hs
    split at hs
    · cases hs
    rename_i hst
    split at hs
    case h_2 => cases hs
    rename_i k hk
    split at hs
    case isFalse => cases hs
    rename_i hj
    split at hs
    · split at hs
      case isFalse => cases hs
      simp only [Option.some.injEq, Prod.mk.injEq] at hs
      obtain ⟨rfl, rfl⟩ := hs
      have h1 := todo_step (i := i) hj.2
      have h2 := cost_change (P := P) (a := a) (v := .writing k a.next (P.msg i k)) (a' := { a with cli := upd a.cli i (.writing k a.next (P.msg i k)), backlog := a.backlog ++ [a.next], next := a.next + 1 }) hj.1 rfl
      have h3 : cost P a i = todo P i (P.its - k) + 2 := by simp [cost, hk, CPc.weight]
      have h4 : (CPc.writing k a.next (P.msg i k)).weight P i = 4 * (P.msg i k).length + 1 + (todo P i (P.its - (k + 1)) + 2) := rfl
      have h5 : load a a.next = 2 := by
        simp [load, (hl.fresh a.next (Nat.le_refl _)).1, (hl.fresh a.next (Nat.le_refl _)).2.1, SPc.weight]
      have h6 : load { a with cli := upd a.cli i (.writing k a.next (P.msg i k)), backlog := a.backlog ++ [a.next], next := a.next + 1 } = load a := load_same rfl rfl
      simp only [weight, sumTo, h6]
      omega
    · simp only [Option.some.injEq] at hs
      rw [Prod.ext_iff] at hs
      obtain ⟨rfl, -⟩ := hs
      exact weight_crash hcr
  | cpush i j =>
    simp only [step] at hs
    rw [if_neg (by simp [hcr])] at hs
    split at hs
    · cases hs
    rename_i hst
    split at hs
    case h_2 => cases hs
    rename_i k c r hk
    split at hs
    case isFalse => cases hs
    rename_i hj
    simp only [Option.some.injEq, Prod.mk.injEq] at hs
    obtain ⟨rfl, rfl⟩ := hs
    have lk := hl.link i k c r (by simp [hk, CPc.conn])
    generalize hb' : ({ a with up := upd a.up c (a.up c ++ r.take j), cli := upd a.cli i (if r.drop j = [] then CPc.reading k c else CPc.writing k c (r.drop j)) } : State) = b
    have bc : b.cli = upd a.cli i (if r.drop j = [] then CPc.reading k c else CPc.writing k c (r.drop j)) := by rw [← hb']
    have bu : b.up = upd a.up c (a.up c ++ r.take j) := by rw [← hb']
    have bs : b.ses = a.ses := by rw [← hb']
    have bn : b.next = a.next := by rw [← hb']
    have b1 : b.stopped = a.stopped := by rw [← hb']
    have b2 : b.crashed = a.crashed := by rw [← hb']
    have hw : (if r.drop j = [] then CPc.reading k c else .writing k c (r.drop j)).weight P i =
        4 * (r.drop j).length + 1 + (todo P i (P.its - (k + 1)) + 2) := by
      split
      · rename_i h; simp [CPc.weight, h]
      · rfl
    have h1 := cost_change (P := P) (hn i (by simp [hk])) bc
    have h0 : cost P a i = 4 * r.length + 1 + (todo P i (P.its - (k + 1)) + 2) := by simp only [cost, hk, CPc.weight]
    rw [hw, List.length_drop] at h1
    have h2 := sumTo_change (f := load a) (g := load b) lk.old (fun c' h => by simp [load, h, bu, bs])
    have h3 : load b c = load a c + 3 * j := by
      simp only [load, bu, bs, upd_same, List.length_append, List.length_take]; omega
    simp only [weight, bn, b1, b2]
    omega
  | cwfail i eof =>
    simp only [step] at hs
    rw [if_neg (by simp [hcr])] at hs
    split at hs
    · cases hs
    rename_i hst
    split at hs
    case h_2 => cases hs
    rename_i k c r hk
    split at hs
    · simp only [Option.some.injEq, Prod.mk.injEq] at hs
      obtain ⟨rfl, rfl⟩ := hs
      exact weight_cli (i := i) (hn i (by simp [hk])) rfl rfl rfl rfl rfl rfl (by simp only [hk, CPc.weight]; omega)
    · simp only [Option.some.injEq] at hs
      rw [Prod.ext_iff] at hs
      obtain ⟨rfl, -⟩ := hs
      exact weight_crash hcr
  | cread i j =>
    simp only [step] at hs
    rw [if_neg (by simp [hcr])] at hs
    split at hs
    · cases hs
    rename_i hst
    split at hs
    case h_2 => cases hs
    rename_i k c hk
    split at hs
    case isFalse => cases hs
    rename_i hj
    simp only [Option.some.injEq, Prod.mk.injEq] at hs
    obtain ⟨rfl, rfl⟩ := hs
    exact weight_cli (i := i) (hn i (by simp [hk])) rfl rfl rfl rfl rfl rfl (by simp [hk, CPc.weight])
  | ceof i =>
    simp only [step] at hs
    rw [if_neg (by simp [hcr])] at hs
    split at hs
    · cases hs
    rename_i hst
    split at hs
    case h_2 => cases hs
    rename_i k c hk
    split at hs
    case isFalse => cases hs
    rename_i hj
    simp only [Option.some.injEq, Prod.mk.injEq] at hs
    obtain ⟨rfl, rfl⟩ := hs
    exact weight_cli (i := i) (hn i (by simp [hk])) rfl rfl rfl rfl rfl rfl (by simp only [hk, CPc.weight]; omega)
  | crfail i =>
    simp only [step] at hs
    rw [if_neg (by simp [hcr])] at hs
    split at hs
    · cases hs
    rename_i hst
    split at hs
    case h_2 => cases hs
    rename_i k c hk
    simp only [Option.some.injEq] at hs
    rw [Prod.ext_iff] at hs
    obtain ⟨rfl, -⟩ := hs
    exact weight_crash hcr
  | arrive i =>
    simp only [step] at hs
    rw [if_neg (by simp [hcr])] at hs
    split at hs
    · cases hs
    rename_i hst
    split at hs
    case h_2 => cases hs
    rename_i k hk
    split at hs
    case isFalse => cases hs
    rename_i hj
    split at hs
    · simp only [Option.some.injEq, Prod.mk.injEq] at hs
      obtain ⟨rfl, rfl⟩ := hs
      exact weight_cli (i := i) hj.1 rfl rfl rfl rfl rfl rfl (by simp [hk, CPc.weight])
    · simp only [Option.some.injEq, Prod.mk.injEq] at hs
      obtain ⟨rfl, rfl⟩ := hs
      exact weight_cli (i := i) hj.1 rfl rfl rfl rfl rfl rfl (by simp [hk, CPc.weight])
  | accept =>
    simp only [step] at hs
    rw [if_neg (by simp [hcr])] at hs
    split at hs
    · cases hs
    rename_i hst
    split at hs
    case h_2 => cases hs
    rename_i c l hbk
    split at hs
    case isFalse => cases hs
    rename_i hj
    simp only [Option.some.injEq, Prod.mk.injEq] at hs
    obtain ⟨rfl, rfl⟩ := hs
    have hnew := hl.back c (by simp [hbk])
    exact weight_ses hnew.2 rfl rfl rfl rfl (fun c' h => by simp [load, h]) (by simp [load, hnew.1, SPc.weight])
  | afail =>
    simp only [step] at hs
    rw [if_neg (by simp [hcr])] at hs
    split at hs
    · cases hs
    rename_i hst
    simp only [Option.some.injEq, Prod.mk.injEq] at hs
    obtain ⟨rfl, rfl⟩ := hs
    exact weight_stop (by simpa using hst)
  | abort =>
    simp only [step] at hs
    rw [if_neg (by simp [hcr])] at hs
    split at hs
    · cases hs
    rename_i hst
    split at hs
    · cases hs
    simp only [Option.some.injEq, Prod.mk.injEq] at hs
    obtain ⟨rfl, rfl⟩ := hs
    exact weight_stop (by simpa using hst)
  | sread c j =>
    simp only [step] at hs
    rw [if_neg (by simp [hcr])] at hs
    split at hs
    · cases hs
    rename_i hst
    split at hs
    case h_2 => cases hs
    rename_i hk
    split at hs
    case isFalse => cases hs
    rename_i hj
    simp only [Option.some.injEq, Prod.mk.injEq] at hs
    obtain ⟨rfl, rfl⟩ := hs
    refine weight_ses (c := c) (hc c (by simp [hk])) rfl rfl rfl rfl (fun c' h => by simp [load, h]) ?_
    simp only [load, upd_same, hk, SPc.weight, List.length_drop, List.length_take]; omega
  | spush c j =>
    simp only [step] at hs
    rw [if_neg (by simp [hcr])] at hs
    split at hs
    · cases hs
    rename_i hst
    split at hs
    case h_2 => cases hs
    rename_i r hk
    split at hs
    case isFalse => cases hs
    rename_i hj
    simp only [Option.some.injEq, Prod.mk.injEq] at hs
    obtain ⟨rfl, rfl⟩ := hs
    have hw : (if r.drop j = [] then SPc.reading else .writing (r.drop j)).weight = 1 + 2 * (r.drop j).length := by
      split
      · rename_i h; simp [SPc.weight, h]
      · rfl
    refine weight_ses (c := c) (hc c (by simp [hk])) rfl rfl rfl rfl (fun c' h => by simp [load, h]) ?_
    simp only [load, upd_same, hw, hk, List.length_drop]
    simp only [SPc.weight]; omega
  | seof c =>
    simp only [step] at hs
    rw [if_neg (by simp [hcr])] at hs
    split at hs
    · cases hs
    rename_i hst
    split at hs
    case isFalse => cases hs
    rename_i hj
    simp only [Option.some.injEq, Prod.mk.injEq] at hs
    obtain ⟨rfl, rfl⟩ := hs
    exact weight_ses (c := c) (hc c (by simp [hj.1])) rfl rfl rfl rfl (fun c' h => by simp [load, h]) (by simp [load, hj.1, SPc.weight])
  | sfail c =>
    simp only [step] at hs
    rw [if_neg (by simp [hcr])] at hs
    split at hs
    · cases hs
    rename_i hst
    have hw : a.ses c ≠ .new ∧ 0 < (a.ses c).weight ∧ a' = { a with ses := upd a.ses c .done } := by
      split at hs
      · rename_i h; simp only [Option.some.injEq, Prod.mk.injEq] at hs; simp [h, SPc.weight, hs.1]
      · rename_i h; simp only [Option.some.injEq, Prod.mk.injEq] at hs; simp [h, SPc.weight, hs.1]; omega
      · cases hs
    obtain ⟨w1, w2, rfl⟩ := hw
    exact weight_ses (c := c) (hc c w1) rfl rfl rfl rfl (fun c' h => by simp [load, h]) (by simpa [load, SPc.weight] using w2)

/-- The number of steps of an execution. -/
theorem exec_bound {es : List Event} {s : State} {t0 : List Obs} (hr : Reach (step P) init s t0) (h : exec (step P) s es = some (a, tr)) :
    es.length + weight P a ≤ weight P s := by
  induction es generalizing s t0 tr with
  | nil => simp only [exec, Option.some.injEq, Prod.mk.injEq] at h; rw [h.1]; simp
  | cons e es ih =>
    simp only [exec] at h
    split at h
    · cases h
    · rename_i s1 o1 h1
      split at h
      · cases h
      · rename_i s2 o2 h2
        simp only [Option.some.injEq, Prod.mk.injEq] at h
        obtain ⟨rfl, rfl⟩ := h
        have i := reach_inv hr
        have := weight_step i.1 i.2.2.1 h1
        have := ih (.tail e hr h1) h2
        simp only [List.length_cons]; omega

end Verif.Echo
