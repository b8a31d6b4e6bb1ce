import Verif.VClock.Model
/-!
# Specification: a vector clock is a function from node ids to counters
-/
namespace Verif.VClock

/-- Counter of node `n`; a missing component has never ticked. -/
def comp (vc : VC) (n : Int) : Int := ((vc.ids.find? (fun e => e.1 = n)).map (·.2)).getD 0

/-- Causal order: component-wise. -/
def Le (a b : VC) : Prop := ∀ n, comp a n ≤ comp b n

/-- Node `n` has a component. -/
def Has (vc : VC) (n : Int) : Prop := ∃ c, (n, c) ∈ vc.ids

/-- Well-formed clock: one component per node, sorted by node id, counters are
non-negative 64-bit numbers, within the allocation. -/
structure WF (vc : VC) : Prop where
  sorted : vc.ids.Pairwise (fun x y => x.1 < y.1)
  nonneg : ∀ e ∈ vc.ids, 0 ≤ e.2 ∧ e.2 < 2^63
  cap : vc.ids.length ≤ vc.cap ∧ 0 < vc.cap

/-- What the comparison has to say about two clocks. -/
def CmpSpec (a b : VC) (r : Cmp) : Prop :=
  (r = .equal ↔ Le a b ∧ Le b a) ∧
  (r = .before ↔ Le a b ∧ ¬ Le b a) ∧
  (r = .after ↔ ¬ Le a b ∧ Le b a) ∧
  (r = .disjoint ∨ r = .incomparable ↔ ¬ Le a b ∧ ¬ Le b a)

end Verif.VClock
