import Verif.Str.Spec
/-!
# What a path means

A directory is the list of names on the way from the root to it. A path is read piece by piece:
an empty piece and `.` stay, `..` goes to the parent (the parent of the root is the root), any
other piece goes down. Nothing here refers to the model of the code.
-/
namespace Verif.Paths

/-- One piece of a path, read in the directory `d`. -/
def stepDir (d : List (List Nat)) (p : List Nat) : List (List Nat) :=
  if p = [] ∨ p = [46] then d else if p = [46, 46] then d.dropLast else d ++ [p]

/-- The path `p`, read in the directory `d`, leads to `e`. -/
def Leads (d : List (List Nat)) (p : List Nat) (e : List (List Nat)) : Prop :=
  ∃ ps, Str.SplitsTo [47] none p ps ∧ e = ps.foldl stepDir d

/-- An absolute path. -/
def Abs (p : List Nat) : Prop := ∃ q, p = 47 :: q

/-- A path none of whose pieces is `.` or `..`. -/
def Plain (p : List Nat) : Prop :=
  ∀ ps, Str.SplitsTo [47] none p ps → ∀ q ∈ ps, q ≠ [46] ∧ q ≠ [46, 46]

/-- No empty piece comes before a piece `..`. -/
def Tidy (p : List Nat) : Prop :=
  ∀ ps, Str.SplitsTo [47] none p ps → ∀ l l', ps = l ++ [] :: l' → [46, 46] ∉ l'

/-- Reading the pieces in `d` asks for the parent of the root at some point. -/
def Above : List (List Nat) → List (List Nat) → Prop
  | _, [] => False
  | d, p :: ps => (p = [46, 46] ∧ d = []) ∨ Above (stepDir d p) ps

/-- The path `p`, read in the directory `d`, asks for the parent of the root. -/
def Climbs (d : List (List Nat)) (p : List Nat) : Prop :=
  ∃ ps, Str.SplitsTo [47] none p ps ∧ Above d ps

/-- The number of pieces of a path. -/
def Pieces (p : List Nat) (n : Nat) : Prop := ∃ ps, Str.SplitsTo [47] none p ps ∧ ps.length = n

end Verif.Paths
