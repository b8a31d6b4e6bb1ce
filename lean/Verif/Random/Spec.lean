/-!
# Specification of the module `random`
-/
namespace Verif.Random

/-- What `rand()` may return. -/
def Draws (m : Int) (ds : List Int) : Prop := ∀ d ∈ ds, 0 ≤ d ∧ d ≤ m

/-- `out` are elements of `pop` at different positions. -/
def Sampled {α : Type} (pop out : List α) : Prop :=
  ∃ js : List Nat, js.Nodup ∧ js.length = out.length ∧ ∀ i (h : i < js.length), out[i]? = pop[js[i]]? ∧ js[i] < pop.length

end Verif.Random
