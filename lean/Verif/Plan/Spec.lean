import Verif.Plan.Model
import Mathlib.Logic.Relation
/-!
# What the plan of a build should be
-/
namespace Verif.Plan

/-- Project `a` depends on project `b`. -/
def Dep (ctxs : Ctxs) (a b : Nat) : Prop := ∃ ds, (a, ds) ∈ ctxs ∧ b ∈ ds

/-- Task `a` imports a module of task `b`, or one that is no task. -/
def Imports (ts : List Task) (a b : Key) : Prop := ∃ t ∈ ts, t.key = a ∧ b ∈ t.deps

/-- Task `a` imports task `b`. -/
def ImportsT (ts : List Task) (a b : Key) : Prop := Imports ts a b ∧ ∃ t ∈ ts, t.key = b

/-- Some dependencies, or dependencies of these, and so on; none at all too. -/
abbrev Reach (R : Nat → Nat → Prop) := Relation.ReflTransGen R

/-- The same, but at least one. -/
abbrev Reach1 (R : Nat → Nat → Prop) := Relation.TransGen R

/-- No project depends on itself, in however many steps. -/
def Acyclic (R : Nat → Nat → Prop) : Prop := ∃ r : Nat → Nat, ∀ a b, R a b → r b < r a

/-- What a plan must have, given what was selected: the tasks that its tasks import, and the libraries of its tasks. -/
inductive Needed (ts : List Task) (groups : List (List Key)) (selected : List Key) : Key → Prop
  | given {k} : k ∈ selected → Needed ts groups selected k
  | dep {a b} : Needed ts groups selected a → ImportsT ts a b → Needed ts groups selected b
  | lib {g a b} : g ∈ groups → a ∈ g → Needed ts groups selected a → b ∈ g → Needed ts groups selected b

end Verif.Plan
