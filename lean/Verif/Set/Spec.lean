import Verif.Set.Model
/-!
# Specification: finite sets up to `__eq__`

Independent of the hash table: a finite set is a list of pairwise different elements; only
membership and the number of elements count.
-/
namespace Verif.Set
open Verif.Dict (HashW)
variable {K : Type}

/-- Membership up to the equality of the element type. -/
def Mem (eq : K → K → Bool) (l : List K) (k : K) : Prop := ∃ x ∈ l, eq x k = true

/-- All elements are different. -/
def Distinct (eq : K → K → Bool) (l : List K) : Prop := l.Pairwise (fun a b => eq a b = false)

/-- Calls that change a set. -/
inductive Op (K : Type)
  | add (k : K)
  | discard (k : K)
  | pop

/-- Meaning of a call: the elements afterwards. `pop` removes some element; on the empty set it
changes nothing. -/
def SpecStep (eq : K → K → Bool) (l : List K) : Op K → List K → Prop
  | .add k, l' => ∀ x, Mem eq l' x ↔ Mem eq l x ∨ eq k x = true
  | .discard k, l' => ∀ x, Mem eq l' x ↔ Mem eq l x ∧ ¬ eq k x = true
  | .pop, l' => (l = [] ∧ l' = []) ∨ ∃ k ∈ l, ∀ x, Mem eq l' x ↔ Mem eq l x ∧ ¬ eq k x = true

end Verif.Set
