/-!
# Specification of substring search
-/
namespace Verif.Search

/-- `p` occurs in `t` at position `i`. -/
def OccursAt {α} (t p : List α) (i : Nat) : Prop := i + p.length ≤ t.length ∧ (t.drop i).take p.length = p

/-- `r` is the position of the first occurrence of `p` in `t`, or -1 if there is none. -/
def IsFirst {α} (t p : List α) (r : Int) : Prop :=
  (∃ i : Nat, r = i ∧ OccursAt t p i ∧ ∀ j, j < i → ¬ OccursAt t p j) ∨
  (r = -1 ∧ ∀ j, ¬ OccursAt t p j)

/-- `r` is the position of the last occurrence of `p` in `t`, or -1 if there is none. -/
def IsLast {α} (t p : List α) (r : Int) : Prop :=
  (∃ i : Nat, r = i ∧ OccursAt t p i ∧ ∀ j, i < j → ¬ OccursAt t p j) ∨
  (r = -1 ∧ ∀ j, ¬ OccursAt t p j)

end Verif.Search
