import Mathlib.Data.List.Basic
/-!
# Model of the selection of tests by name; C193

`filterTests`, `compileTestNameRegexes`, `regexMatches`, `displayTestName`,
compiler/acton/TestRunner.hs:540-562, 1045-1053.

Simplifications: a regular expression is given as what its text parses to: one or more branches
between `|` (POSIX 1003.2, as in regex-tdfa), each a sequence of the usual pieces, where `|` occurs in
groups only; character classes, bounds and anchors inside of patterns are left out. Names contain no
newline, so that `^` and `$` stand for the ends of the name.
-/
namespace Verif.TestSel

abbrev Text := List Char

/-- A branch of a regular expression. -/
inductive Re
  | eps
  | chr (c : Char)
  | any
  | cat (a b : Re)
  | group (a b : Re)
  | star (a : Re)

/-- The texts that a branch matches as a whole; `group a b` is `(a|b)`. -/
inductive Matches : Re → Text → Prop
  | eps : Matches .eps []
  | chr (c : Char) : Matches (.chr c) [c]
  | any (c : Char) : Matches .any [c]
  | cat {a b : Re} {s t : Text} : Matches a s → Matches b t → Matches (.cat a b) (s ++ t)
  | left {a b : Re} {s : Text} : Matches a s → Matches (.group a b) s
  | right {a b : Re} {s : Text} : Matches b s → Matches (.group a b) s
  | nil {a : Re} : Matches (.star a) []
  | more {a : Re} {s t : Text} : Matches a s → Matches (.star a) t → Matches (.star a) (s ++ t)

/-- A pattern: the first branch, and those after each `|`. -/
structure Pattern where
  first : Re
  rest : List Re

/-- A branch with anchors. -/
structure Branch where
  begin : Bool
  re : Re
  done : Bool

/-- Put `$` at the end of the last branch. -/
def close (b : Branch) : List Branch → List Branch
  | [] => [{ b with done := true }]
  | c :: cs => b :: close c cs

/-- What `"^" ++ pattern ++ "$"` parses to, TestRunner.hs:555: `^` binds to the first branch and `$` to the
last one, since `|` binds weakest. -/
def anchored (p : Pattern) : List Branch := close ⟨true, p.first, false⟩ (p.rest.map (fun r => ⟨false, r, false⟩))

/-- A branch is found somewhere in a text. -/
def Found (b : Branch) (s : Text) : Prop :=
  ∃ x y z, s = x ++ (y ++ z) ∧ Matches b.re y ∧ (b.begin = true → x = []) ∧ (b.done = true → z = [])

/-- `regexMatches`, TestRunner.hs:561-562. -/
def Hit (p : Pattern) (s : Text) : Prop := ∃ b ∈ anchored p, Found b s

/-- `displayTestName`, TestRunner.hs:1045-1053. -/
def displayName (n : Text) : Text :=
  let w := if "_test_".toList.isPrefixOf n then n.drop 6 else n
  if "_wrapper".toList.isSuffixOf w then w.take (w.length - 8) else w

/-- `filterTests` after `compileTestNameRegexes`, TestRunner.hs:540-558: whether a test is selected; `none`
is an empty pattern, which is passed over. -/
def Selected (ps : List (Option Pattern)) (n : Text) : Prop :=
  ps.filterMap id = [] ∨ ∃ p ∈ ps.filterMap id, Hit p n ∨ Hit p (displayName n)

/-! ## Specification -/

/-- The pattern matches the whole text. -/
def Whole (p : Pattern) (s : Text) : Prop := ∃ r, (r = p.first ∨ r ∈ p.rest) ∧ Matches r s

/-- What should be selected. -/
def Wanted (ps : List (Option Pattern)) (n : Text) : Prop :=
  (∀ p, some p ∉ ps) ∨ ∃ p, some p ∈ ps ∧ (Whole p n ∨ Whole p (displayName n))

end Verif.TestSel
