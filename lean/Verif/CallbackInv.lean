import Verif.Callback

/-!
# Invariants of `Verif.Callback`
-/

namespace Verif.Callback

/-- The future still refers to the shared state. -/
def CPc.holds : CPc → Nat
  | .get | .have _ => 1
  | _ => 0

def CPc.val : CPc → Option Stored
  | .have x | .released x | .destroy x => some x
  | _ => none

/-- The function still has its `shared_ptr`. -/
def CPc.own : CPc → Bool
  | .get | .have _ | .released _ => true
  | _ => false

def CPc.dest : CPc → Bool
  | .destroy _ => true
  | _ => false

def TPc.over : TPc → Bool
  | .dying | .gone => true
  | _ => false

structure Inv (k : Kind) (s : State) (tr : List Obs) : Prop where
  refs : s.refs = s.cpc.holds + (if s.promise then 1 else 0)
  freed : s.freed = true ↔ s.refs = 0
  free1 : tr.count .freed = if s.freed then 1 else 0
  val : ∀ x, s.cpc.val = some x → s.stored = some x
  wait : s.stored = none → s.cpc = .get
  /-- who owns the promise -/
  mvd : k.hold = .moved → (s.promise = true ↔ s.tpc ≠ .gone) ∧ s.cpc.dest = false
  ref : k.hold = .byRef → (s.promise = true ↔ s.cpc ≠ .done) ∧ s.tpc ≠ .dying
  owners : k.hold = .shared → s.owners = (if s.cpc.own then 1 else 0) + (if s.tpc.over then 0 else 1)
  shr : k.hold = .shared → (s.promise = true ↔ 0 < s.owners ∨ s.cpc.dest = true ∨ s.tpc = .dying) ∧ (s.cpc.dest = true → s.tpc = .gone) ∧ (s.tpc = .dying → s.cpc = .done)
  /-- the result -/
  call : ∀ ec d, s.tpc = .inCall ec d → s.stored = none → first tr = some (ec, d)
  isNone : s.stored = none → (∃ ec d, s.tpc = .inCall ec d) ∨ first tr = none
  isSome : ∀ x, s.stored = some x → (∃ ec d, first tr = some (ec, d) ∧ x = store k ec d) ∨ (x = .broken ∧ first tr = none ∧ s.tpc.over = true ∧ .dropped ∈ tr)
  gone : s.tpc.over = true ↔ .dropped ∈ tr
  live : s.tpc = .gone → k.hold = .moved → s.stored ≠ none
  dead : s.tpc = .dying → s.stored ≠ none
  notify : s.tpc = .notify → s.stored ≠ none
  ret : ∀ r, .returned r ∈ tr ↔ s.cpc = .done ∧ ∃ x, s.stored = some x ∧ r = finish k x

theorem first_append {a b : List Obs} : first (a ++ b) = (first a).or (first b) := by simp [first, List.findSome?_append]

theorem init_inv {k : Kind} : Inv k init [] := by
  constructor <;> simp [init, CPc.holds, CPc.val, first, CPc.dest, CPc.own, TPc.over]

theorem first_nil : first [] = none := rfl
theorem first_called {ec : Int} {d : List Nat} {l : List Obs} : first (.called ec d :: l) = some (ec, d) := rfl
theorem first_ub {l : List Obs} : first (.ub :: l) = first l := rfl
theorem first_freed {l : List Obs} : first (.freed :: l) = first l := rfl
theorem first_already {l : List Obs} : first (.already :: l) = first l := rfl
theorem first_dropped {l : List Obs} : first (.dropped :: l) = first l := rfl
theorem first_returned {r : Result} {l : List Obs} : first (.returned r :: l) = first l := rfl

set_option maxHeartbeats 1600000 in
theorem step_inv {k : Kind} {s s' : State} {tr o : List Obs} {e : Event} (h : Inv k s tr) (he : step k s e = some (s', o)) : Inv k s' (tr ++ o) := by
  obtain ⟨refs, freed, promise, owners, stored, cpc, tpc⟩ := s
  obtain ⟨h1, h2, h3, h4, h5, h6, h7, h8, h9, h10, h11, h12, h13, h14, h15, h16, h17⟩ := h
  have hk : k.hold = .moved ∨ k.hold = .byRef ∨ k.hold = .shared := by cases k <;> simp [Kind.hold]
  dsimp only at *
  cases e <;> simp only [step, release, ownerDestroyed, touch] at he <;> (repeat' split at he) <;>
    simp only [Option.some.injEq, Prod.mk.injEq, reduceCtorEq] at he <;> obtain ⟨rfl, rfl⟩ := he <;> (try dsimp only at *) <;>
    constructor <;> (try dsimp only) <;>
    simp only [List.count_append, List.count_cons, List.count_nil, first_append, first_nil, first_called, first_ub, first_freed, first_already, first_dropped, first_returned, List.mem_append, List.mem_cons,
      List.not_mem_nil, or_false, reduceCtorEq, false_or, List.append_nil, List.nil_append, Option.or_none, List.cons_append, CPc.holds, CPc.val, CPc.dest, CPc.own, TPc.over] at * <;> (try dsimp only at *) <;>
    first | assumption | grind | (cases cpc <;> grind) | (cases tpc <;> grind)

theorem reach_inv {k : Kind} {s : State} {tr : List Obs} (h : Reach (step k) init s tr) : Inv k s tr := by
  induction h with
  | refl => exact init_inv
  | tail e _ hs ih => exact step_inv ih hs

end Verif.Callback
