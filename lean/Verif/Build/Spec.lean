import Verif.Build.Model
import Mathlib.Logic.Relation

/-!
# Specification of the build scheduler
-/

namespace Verif.Build

variable {κ : Type} {π η ι : Type}

/-- Task `k` imports a module that task `d` provides, and both are compiled by the loop. -/
def Uses (g : Graph κ) (k d : κ) : Prop :=
  ∃ t ∈ g.order, t.key = k ∧ d ∈ t.providers ∧ ∃ u ∈ g.tasks, u.builtin = false ∧ u.key = d

/-- Task `k` depends on task `d`, directly or through other tasks. -/
def Depends (g : Graph κ) : κ → κ → Prop := Relation.TransGen (Uses g)

/-- What the loop may rely on: no two tasks have the same key, and, since a build with cyclic
imports is refused, `order` lists the tasks other than `__builtin__`, each after all it uses.  This
is the contract of `stronglyConnComp`. -/
structure Ordered (g : Graph κ) : Prop where
  keys : (g.tasks.map Task.key).Nodup
  perm : g.order.Perm (g.tasks.filter (fun t => !t.builtin))
  after : ∀ pre t post, g.order = pre ++ t :: post →
    ∀ d, Uses g t.key d → ∃ u ∈ pre, u.key = d

/-- A worker for the stage has returned without diagnostics. -/
def Finished (tr : List (Event κ π η ι)) (sk : Stage κ) : Prop := ∃ o, Event.done sk o ∈ tr

/-- A worker for one of the stages of the task has returned diagnostics. -/
def Failed (tr : List (Event κ π η ι)) (k : κ) : Prop :=
  Event.fail (.parse k) ∈ tr ∨ Event.fail (.front k) ∈ tr

/-- The stages for which workers were started. -/
def starts : List (Event κ π η ι) → List (Stage κ)
  | [] => []
  | .start sk _ _ :: tr => sk :: starts tr
  | _ :: tr => starts tr

/-- The tasks whose deferred back job was prepared. -/
def backs : List (Event κ π η ι) → List κ
  | [] => []
  | .back k _ :: tr => k :: backs tr
  | _ :: tr => backs tr

end Verif.Build
