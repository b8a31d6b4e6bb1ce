import Verif.Incr.Model

/-!
# Specification of incremental builds
-/

namespace Verif.Incr

variable {κ ν η σ τ : Type} [DecidableEq κ] [DecidableEq ν] [DecidableEq η]

/-- Two records of a module say the same, except for the hashes of other modules as wholes, which
only serve as a shortcut. -/
structure Same (r r' : Rec κ ν η σ τ) : Prop where
  src : r.src = r'.src
  typed : r.typed = r'.typed
  rows : r.rows = r'.rows
  pubH : r.pubH = r'.pubH
  implH : r.implH = r'.implH

/-- A clean build: all modules go through the front passes. -/
def clean (C : Compiler κ ν η σ τ) : List (κ × σ) → Look κ ν η σ τ → Look κ ν η σ τ
  | [], look => look
  | (m, s) :: rest, look =>
      match compile C look s with
      | some r => clean C rest (fun x => if x = m then some r else look x)
      | none => clean C rest look

/-- What is on disk after any number of builds of any projects. -/
inductive Stored [DecidableEq σ] (C : Compiler κ ν η σ τ) : (κ → Option (Rec κ ν η σ τ)) → Prop where
  | empty : Stored C (fun _ => none)
  | build {store : κ → Option (Rec κ ν η σ τ)} (p : List (κ × σ)) :
      Stored C store → Stored C (build C p (fun _ => none) store).2

/-- No two lists of names with hashes have the same hash. -/
structure Ideal (C : Compiler κ ν η σ τ) : Prop where
  pub : ∀ l l', C.whole 3 l = C.whole 3 l' → l = l'
  impl : ∀ l l', C.whole 4 l = C.whole 4 l' → l = l'

/-- A name that has no hash of its own has no final hash: the result of `computeHashes` has the keys
of `selfHashes`. -/
def Domain (C : Compiler κ ν η σ τ) : Prop :=
  ∀ self loc ext n, self n = none → C.final self loc ext n = none

/-- No name is recorded twice: the front passes give a map. -/
def Distinct (C : Compiler κ ν η σ τ) : Prop :=
  ∀ s env t, C.front s env = some t → (t.entries.map Entry.name).Nodup

/-- What the front passes give depends on other modules only through the names that are recorded:
if these are as before and all imported modules are there, so is the result. -/
def Local (C : Compiler κ ν η σ τ) : Prop :=
  ∀ s env env' t, C.front s env = some t → (∀ m ∈ C.imps s, (env' m).isSome) →
    (∀ e ∈ t.entries, ∀ d ∈ e.sigExt ++ e.implExt.filter (fun d => !C.derived d.2),
      (env' d.1).bind (fun f => f d.2) = (env d.1).bind (fun f => f d.2)) →
    C.front s env' = some t

/-- The two orders in which the names of a module are sorted agree on the names that an item
mentions. -/
def Keyed (C : Compiler κ ν η σ τ) : Prop :=
  ∀ s env t, C.front s env = some t → ∀ e ∈ t.entries, C.key e.implLocals = e.implLocals

/-- The laws under which incremental builds are right. -/
structure Laws (C : Compiler κ ν η σ τ) : Prop where
  ideal : Ideal C
  domain : Domain C
  distinct : Distinct C
  loc : Local C
  keyed : Keyed C

end Verif.Incr
