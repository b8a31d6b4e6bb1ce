import Verif.Slice.Model
/-!
# Specification of slicing

Written from the language reference (Python slicing, which Acton follows): a
negative bound counts from the end, a missing bound means "all the way", bounds
outside the sequence are clamped.
-/
namespace Verif.Slice
open Verif

/-- A negative bound counts from the end. -/
def fromEnd (len x : Int) : Int := if x < 0 then x + len else x

/-- The positions denoted by `[start:stop:step]` on a sequence of length `len`,
in the order in which they are visited. -/
def positions (len : Nat) (start stop : Option Int) (step : Int) : List Nat :=
  if step > 0 then
    let s : Int := max 0 ((start.map (fromEnd len)).getD 0)
    let e : Int := (stop.map (fromEnd len)).getD len
    (List.range len).filter (fun i => s ≤ i ∧ i < e ∧ (i - s) % step = 0)
  else
    let s : Int := min (len - 1) ((start.map (fromEnd len)).getD (len - 1))
    let e : Int := max (-1) ((stop.map (fromEnd len)).getD (-1))
    (List.range len).reverse.filter (fun i => i ≤ s ∧ e < i ∧ (s - i) % (-step) = 0)

/-- What a slice read has to deliver. -/
def SliceSpec (l : List α) (s : Slc) (r : Res (List α)) : Prop :=
  let step := s.step.getD 1
  if step = 0 then r = .raise .valueError
  else ∃ out, r = .ok out ∧
    out.map some = (positions l.length s.start s.stop step).map (fun i => l[i]?)

end Verif.Slice
