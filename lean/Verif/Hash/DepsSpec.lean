import Verif.Hash.Deps
import Mathlib.Logic.Relation

/-!
What the final hash of a name should be, and what it should tell.
-/

namespace Verif.Hash
open Relation

/-- `d` is a name of the map that `n` depends on. -/
def Edge (D : Deps) (n d : Nat) : Prop := D.self n ≠ none ∧ d ∈ D.loc n ∧ D.self d ≠ none

/-- A name that depends on itself. -/
def OnCycle (D : Deps) (n : Nat) : Prop := TransGen (Edge D) n n

/-- Two names that depend on each other. -/
def Mutual (D : Deps) (n m : Nat) : Prop := TransGen (Edge D) n m ∧ TransGen (Edge D) m n

/-- The names of a component. -/
def Scc.members : Scc → List Nat
  | .acyclic n => [n]
  | .cyclic ns => ns

/-- The names of a list of components. -/
def members (cs : List Scc) : List Nat := cs.flatMap Scc.members

/-- What the library says of `stronglyConnComp`: the components partition the
names, a component is cyclic or not as the constructor says, and what a
component depends on comes before it. -/
structure IsSccs (D : Deps) (cs : List Scc) : Prop where
  nodup : (members cs).Nodup
  cover : ∀ n, n ∈ members cs ↔ D.self n ≠ none
  single : ∀ n, .acyclic n ∈ cs → ¬ OnCycle D n
  group : ∀ ns, .cyclic ns ∈ cs → ∀ n ∈ ns, ∀ m, m ∈ ns ↔ Mutual D n m
  order : ∀ pre c post, cs = pre ++ c :: post → ∀ n ∈ c.members, ∀ d, Edge D n d →
    d ∈ c.members ∨ d ∈ members pre

/-- The equations the final hashes should satisfy: a name on no cycle is hashed
with the final hashes of what it depends on; a name on a cycle with the hash
of the group of names it shares the cycle with, which takes in the members'
own hashes and the final hashes of what they depend on outside the group. -/
structure Final (D : Deps) (H : List Nat → Hash) (F : Acc) : Prop where
  dom : ∀ n, F n = none ↔ D.self n = none
  single : ∀ n s, D.self n = some s → ¬ OnCycle D n →
    F n = some (digest H (feedSelf s F (D.loc n) (D.ext n)))
  group : ∀ n s, D.self n = some s → OnCycle D n → ∃ ns : List Nat, ns.Nodup ∧
    (∀ m, m ∈ ns ↔ Mutual D n m) ∧
    F n = some (digest H (feedMember s (D.group H F ns) (D.key n)))

/-- The strings of the names differ. -/
def KeysDiffer (D : Deps) : Prop :=
  ∀ a b, D.self a ≠ none → D.self b ≠ none → D.key a = D.key b → a = b

/-- Every local dependency has a hash of its own. -/
def Closed (D : Deps) : Prop := ∀ n, D.self n ≠ none → ∀ d ∈ D.loc n, D.self d ≠ none

/-- A name with the same text in both versions depends on the same names. -/
def SameDeps (D E : Deps) : Prop := ∀ n s, D.self n = some s → E.self n = some s →
  D.loc n = E.loc n ∧ (D.ext n).map (fun e => (ofLex e).1) = (E.ext n).map (fun e => (ofLex e).1)

/-- A name of another module has one hash. -/
def OneHash (D : Deps) : Prop := ∀ n m q h h', toLex (q, h) ∈ D.ext n → toLex (q, h') ∈ D.ext m →
  h = h'

/-- The own hash of a name tells the name. -/
def Named (D E : Deps) : Prop := ∀ a b s, D.self a = some s → E.self b = some s → a = b

end Verif.Hash
