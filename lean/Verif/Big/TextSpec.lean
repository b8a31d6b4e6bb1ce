import Mathlib.Data.List.Basic
import Mathlib.Order.Basic
/-! # Numerals, independent of the code -/
namespace Verif.Big.TextSpec

/-- The number that a sequence of digits denotes. -/
def value (base : Nat) : List Nat → Nat
  | [] => 0
  | d :: ds => d * base ^ ds.length + value base ds

/-- The character `c` (ASCII) is the digit `d`. -/
def IsDigit (c d : Nat) : Prop := (d < 10 ∧ c = 48 + d) ∨ (10 ≤ d ∧ d < 36 ∧ (c = 55 + d ∨ c = 87 + d))

/-- `t` is the decimal text of `v` without superfluous zeros. -/
def DecText (t : List Nat) (v : Int) : Prop :=
  ∃ ds : List Nat, ds ≠ [] ∧ (∀ d ∈ ds, d < 10) ∧ (ds.head? = some 0 → ds = [0]) ∧
    t = (if v < 0 then [45] else []) ++ ds.map (48 + ·) ∧ value 10 ds = v.natAbs

/-- `c` is white space: blank, tab, line feed, vertical tab, form feed or carriage return. -/
def IsBlank (c : Nat) : Prop := c = 32 ∨ c = 9 ∨ c = 10 ∨ c = 11 ∨ c = 12 ∨ c = 13

/-- `c` is one of the letters that mark a base after a zero, and marks `base`. -/
def IsMark (c base : Nat) : Prop :=
  ((c = 120 ∨ c = 88) ∧ base = 16) ∨ ((c = 111 ∨ c = 79) ∧ base = 8) ∨ ((c = 98 ∨ c = 66) ∧ base = 2)

/-- `t` is a text of digits `ds` in `base`, with blanks, a sign and, if `mark` is given, with a mark of the base. -/
def Numeral (t : List Nat) (base : Nat) (marked neg : Bool) (ds : List Nat) : Prop :=
  ∃ ws sg pre cs : List Nat, t = ws ++ (sg ++ (pre ++ cs)) ∧ (∀ c ∈ ws, IsBlank c) ∧
    (if neg then sg = [45] else sg = [] ∨ sg = [43]) ∧
    (if marked then ∃ c, pre = [48, c] ∧ IsMark c base else pre = []) ∧
    ds ≠ [] ∧ (∀ d ∈ ds, d < base) ∧ List.Forall₂ IsDigit cs ds

end Verif.Big.TextSpec
