import Verif.Str.Model
import Verif.Search.Spec
/-!
# Specification of `str`: a sequence of Unicode code points
-/
namespace Verif.Str
open Verif Verif.Search

/-- The representation invariant: `s` holds the UTF-8 encoding of the code points `t`,
followed by a zero byte; both lengths are recorded; sizes fit in an `int`. -/
structure Repr (s : Str) (t : List Nat) : Prop where
  cp : ∀ c ∈ t, CodePoint c
  nc : s.nchars = t.length
  nb : s.nbytes = (enc t).length
  buf : s.buf = enc t ++ [0]
  small : (enc t).length < 2^31

/-- Representation of a list of strings. -/
inductive Reprs : List Str → List (List Nat) → Prop
  | nil : Reprs [] []
  | cons {s t ss ts} : Repr s t → Reprs ss ts → Reprs (s :: ss) (t :: ts)

/-- `p` occurs in `t` at `k`, entirely between the positions `lo` and `hi`. -/
def OccursIn {α} (t p : List α) (lo hi k : Nat) : Prop := lo ≤ k ∧ k + p.length ≤ hi ∧ OccursAt t p k

/-- `r` is the first such position, or -1. -/
def FirstIn {α} (t p : List α) (lo hi : Nat) (r : Int) : Prop :=
  (∃ k : Nat, r = k ∧ OccursIn t p lo hi k ∧ ∀ j, j < k → ¬ OccursIn t p lo hi j) ∨
  (r = -1 ∧ ∀ j, ¬ OccursIn t p lo hi j)

/-- `r` is the last such position, or -1. -/
def LastIn {α} (t p : List α) (lo hi : Nat) (r : Int) : Prop :=
  (∃ k : Nat, r = k ∧ OccursIn t p lo hi k ∧ ∀ j, k < j → ¬ OccursIn t p lo hi j) ∨
  (r = -1 ∧ ∀ j, ¬ OccursIn t p lo hi j)

/-- `ks` are non-overlapping occurrences of `p` in `t`, from left to right, none before `lo`. -/
def Disjoint (t p : List Nat) : Nat → List Nat → Prop
  | _, [] => True
  | lo, k :: ks => lo ≤ k ∧ OccursAt t p k ∧ Disjoint t p (k + p.length) ks

/-- `sep` does not occur in `t`. -/
def Free (sep t : List Nat) : Prop := ∀ k, ¬ OccursAt t sep k

/-- Splitting at the leftmost occurrences of `sep`, at most `m` times (`none`: no limit). -/
inductive SplitsTo (sep : List Nat) : Option Nat → List Nat → List (List Nat) → Prop
  | stop (t) : SplitsTo sep (some 0) t [t]
  | last (m t) : Free sep t → SplitsTo sep m t [t]
  | more (m t a b ps) : t = a ++ sep ++ b → (∀ j, j < a.length → ¬ OccursAt t sep j) →
      SplitsTo sep (m.map (· - 1)) b ps → m ≠ some 0 → SplitsTo sep m t (a :: ps)

/-- The limit that the argument `maxsplit` (or `count`) stands for: none if absent or negative. -/
def limit : Option Int → Option Nat
  | none => none
  | some m => if m < 0 then none else some m.toNat

/-- `sep.join(pieces)`. -/
def joinWith (sep : List Nat) : List (List Nat) → List Nat
  | [] => []
  | [a] => a
  | a :: b :: l => a ++ sep ++ joinWith sep (b :: l)

/-- `r` is `t` without its maximal prefix of elements of `cs`. -/
def LStripped (t cs r : List Nat) : Prop :=
  ∃ a, t = a ++ r ∧ (∀ c ∈ a, c ∈ cs) ∧ (∀ c, r.head? = some c → c ∉ cs)

/-- `r` is `t` without its maximal suffix of elements of `cs`. -/
def RStripped (t cs r : List Nat) : Prop :=
  ∃ b, t = r ++ b ∧ (∀ c ∈ b, c ∈ cs) ∧ (∀ c, r.getLast? = some c → c ∉ cs)

end Verif.Str
