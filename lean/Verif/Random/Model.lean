import Verif.Common
/-!
# Model of the module `random`

base/src/random.ext.c and base/src/random.act. `rand()` of the C library is not part of the repository: the values that it
returns are a list `ds` of arbitrary numbers in `[0, RAND_MAX]`, from which the functions take; when the list is used up, the
outcome is `diverge` (the loop still waits for a value). `list` is modelled as a list; C03 is about its C code.
-/
namespace Verif.Random
open Verif

/-- `RAND_MAX` of the C libraries in use (glibc, musl, macOS). -/
def randMax : Int := 2147483647

/-- random.ext.c:37: values until one is below `end`. -/
def draw (stop : Int) : List Int → Res (Int × List Int)
  | [] => .diverge
  | r :: ds => if r ≥ stop then draw stop ds else .ok (r, ds)

/-- random.ext.c:29-33: what is left of the values that `rand` may return, for a range. Division by zero traps. -/
def stop (range : Int) : Res Int := if range = 0 then .ub else .ok (wrap64 (randMax.tdiv range * range))

/-- `randlong`, random.ext.c:22-40, and `randomQ_randint`, 42-44. -/
def randint (lo hi : Int) (ds : List Int) : Res (Int × List Int) := do
  if lo > hi then .raise .valueError
  else
    let range := wrap64 (hi - lo)
    let e ← stop range
    let (r, ds) ← draw e ds
    return (wrap64 (lo + r.tmod range), ds)

/-- `sequence[index]` for a non-negative index (C03). -/
def nth {α : Type} (l : List α) (i : Int) : Res α :=
  match l[i.toNat]? with
  | some x => .ok x
  | none => .raise .indexError

/-- `choice`, random.act:12-23. -/
def choice {α : Type} (l : List α) (ds : List Int) : Res (α × List Int) := do
  if l.length = 0 then .raise .valueError
  else
    let (i, ds) ← randint 0 l.length ds
    let x ← nth l i
    return (x, ds)

/-- random.act:41-45: the place of a value, 0 if it is not there. -/
def place (x : Nat) (l : List Nat) : Nat := if x ∈ l then l.idxOf x else 0

/-- random.act:39-47: the loop; the list of results so far is `out`. -/
def sampleLoop {α : Type} (pop : List α) : Nat → List Nat → List α → List Int → Res (List α × List Int)
  | 0, _, out, ds => .ok (out, ds)
  | n + 1, idx, out, ds => do
    let (v, ds) ← choice idx ds
    let x ← nth pop v
    sampleLoop pop n (idx.eraseIdx (place v idx)) (out ++ [x]) ds

/-- `sample`, random.act:26-48. -/
def sample {α : Type} (pop : List α) (k : Int) (ds : List Int) : Res (List α × List Int) :=
  if ¬ (0 ≤ k ∧ k ≤ pop.length) then .raise .valueError
  else sampleLoop pop k.toNat (List.range pop.length) [] ds

end Verif.Random
