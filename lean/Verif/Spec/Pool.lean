import Verif.Model.Pool

/-! Specifications for MPIPool. -/

namespace Poco.Spec
open Pool

variable {W : ℕ} {α β : Type}

/-- A call of `map` did its job: the results are those of the function on the tasks, in the order of the tasks, the function
raised for none of them, and every task was sent to a worker exactly once. -/
structure CallOk (c : Call W α β) : Prop where
  results : c.results = c.tasks.map c.func
  noRaise : ∀ a ∈ c.tasks, ∃ r, c.func a = some r
  sentOnce : (c.log.map (·.1)).Perm (List.range c.tasks.length)

/-- The number of tasks among some messages. -/
def tasksIn : List (Msg α β) → ℕ
  | [] => 0
  | .task _ _ _ :: q => tasksIn q + 1
  | .quit :: q => tasksIn q

/-- The number of tasks a worker holds: those sent to it and not received yet, the one it works on, and the one whose result
has not been received. -/
def load (q : List (Msg α β)) : WState α β → ℕ
  | .computing _ _ _ => tasksIn q + 1
  | .sending _ _ => tasksIn q + 1
  | _ => tasksIn q

/-- The master is inside the call of `map` with the variables `m`. -/
def InMap (pc : PC W α β) (m : MapVars W α β) : Prop :=
  pc = .head m ∨ (∃ w, pc = .sent m w) ∨ pc = .probe m ∨ pc = .recv m

/-- An execution of the system from a reachable state: at each point of time one process moves, or nothing happens. -/
structure Execution (b : Bool) (σ : ℕ → State W α β) (act : ℕ → Option (Act W)) : Prop where
  start : Reachable b (σ 0)
  step : ∀ t a, act t = some a → Step b (σ t) a (σ (t + 1))
  rest : ∀ t, act t = none → σ (t + 1) = σ t

/-- The master's own moves. -/
def Masters (a : Option (Act W)) : Prop := a = some .master ∨ a = some .pollFalse

/-- Fairness: no process that can move is left standing for ever, and `Iprobe` does not return False for ever while a message
is waiting. -/
structure Fair (b : Bool) (σ : ℕ → State W α β) (act : ℕ → Option (Act W)) : Prop where
  worker : ∀ t w, (∃ s', Step b (σ t) (.worker w) s') → ∃ t' ≥ t, act t' = some (.worker w)
  master : ∀ t, (∀ t' ≥ t, ∃ a s', (a = .master ∨ a = .pollFalse) ∧ Step b (σ t') a s') → ∃ t' ≥ t, Masters (act t')
  probe : ∀ t, (∀ t' ≥ t, ∃ w tag r, (σ t').worker w = .sending tag r) → ∃ t' ≥ t, ∀ t'' ≥ t', act t'' ≠ some .pollFalse

end Poco.Spec
