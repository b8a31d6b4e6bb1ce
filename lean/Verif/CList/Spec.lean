import Verif.CList.Model
import Verif.Slice.Spec
/-!
# Specification: a list is a mathematical sequence
-/
namespace Verif.CList
open Verif

/-- Index `n` counted from the end if negative; `none` if outside. -/
def index (l : List α) (n : Int) : Option Nat :=
  let i := if n < 0 then l.length + n else n
  if 0 ≤ i ∧ i < l.length then some i.toNat else none

/-- The sequence without the elements at the positions `ps`. -/
def removePositions (l : List α) (ps : List Nat) : List α :=
  (l.zipIdx.filter (fun p => p.2 ∉ ps)).map Prod.fst

/-- Assign the elements of `o` to the positions `ps` one by one. -/
def assignPositions (l : List α) (ps : List Nat) (o : List α) : List α :=
  (ps.zip o).foldl (fun l p => l.set p.1 p.2) l

/-- Effect and result of every method on the mathematical sequence. -/
def spec (l : List α) : Op α → List α × Out α
  | .append a => (l ++ [a], .ok none)
  | .insert n a =>
    -- position counted from the end if negative, clamped to the sequence
    let i : Int := if n < 0 then l.length + n else n
    let i := (min (max 0 i) l.length).toNat
    (l.take i ++ a :: l.drop i, .ok none)
  | .pop i =>
    match index l (i.getD (-1)) with
    | none => (l, .error .indexError)
    | some k => (l.eraseIdx k, .ok (some (l[k]?).toList))
  | .getitem n =>
    match index l n with
    | none => (l, .error .indexError)
    | some k => (l, .ok (some (l[k]?).toList))
  | .setitem n a =>
    match index l n with
    | none => (l, .error .indexError)
    | some k => (l.set k a, .ok none)
  | .delitem n =>
    match index l n with
    | none => (l, .error .indexError)
    | some k => (l.eraseIdx k, .ok none)
  | .extend o => (l ++ o, .ok none)
  | .clear => ([], .ok none)
  | .reverse => (l.reverse, .ok none)
  | .getslice s =>
    let st := s.step.getD 1
    if st = 0 then (l, .error .valueError)
    else (l, .ok (some ((Slice.positions l.length s.start s.stop st).filterMap (fun i => l[i]?))))
  | .setslice s o =>
    let st := s.step.getD 1
    if st = 0 then (l, .error .valueError)
    else if st = 1 then
      -- replace the section l[a:b] by o
      let a : Int := min l.length (max 0 ((s.start.map (Slice.fromEnd l.length)).getD 0))
      let b : Int := min l.length (max a ((s.stop.map (Slice.fromEnd l.length)).getD l.length))
      (l.take a.toNat ++ o ++ l.drop b.toNat, .ok none)
    else
      let ps := Slice.positions l.length s.start s.stop st
      if ps.length ≠ o.length then (l, .error .valueError)
      else (assignPositions l ps o, .ok none)
  | .delslice s =>
    let st := s.step.getD 1
    if st = 0 then (l, .error .valueError)
    else (removePositions l (Slice.positions l.length s.start s.stop st), .ok none)

/-- A history on the mathematical sequence. -/
def specRun (l : List α) : List (Op α) → List α × List (Out α)
  | [] => (l, [])
  | op :: ops =>
    let (l, o) := spec l op
    let (l, os) := specRun l ops
    (l, o :: os)

/-- The list object `c` holds exactly the sequence `l`. -/
def Rep (c : CList α) (l : List α) : Prop :=
  c.len = l.length ∧ ∀ i, i < l.length → c.buf[i]? = some (l[i]?)

end Verif.CList
