import Verif.Sort.Model
/-!
# Specification of sorting
-/
namespace Verif.Sort
variable {α : Type}

/-- `__lt__` and `__eq__` describe a total preorder: exactly one of `x < y`, `x = y`, `y < x`
holds, `=` is symmetric, and `≤` is transitive. -/
structure OrdW.Ok (w : OrdW α) : Prop where
  total : ∀ x y, w.lt x y = true ∨ w.eq x y = true ∨ w.lt y x = true
  lt_eq : ∀ x y, w.lt x y = true → w.eq x y = false
  asymm : ∀ x y, w.lt x y = true → w.lt y x = false
  symm : ∀ x y, w.eq x y = true → w.eq y x = true
  trans : ∀ x y z, (w.lt x y = true ∨ w.eq x y = true) → (w.lt y z = true ∨ w.eq y z = true) →
    (w.lt x z = true ∨ w.eq x z = true)

/-- Non-decreasing. -/
def Sorted (w : OrdW α) (l : List α) : Prop := l.Pairwise (fun x y => w.lt x y = true ∨ w.eq x y = true)

/-- Elements that compare equal are in the same order in both lists. -/
def SameOrder (w : OrdW α) (l r : List α) : Prop := ∀ k, r.filter (w.eq k) = l.filter (w.eq k)

end Verif.Sort
