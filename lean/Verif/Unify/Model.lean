import Verif.Ty.Lemmas

/-!
Model of the unification of types in the Acton compiler,
`compiler/lib/src/Acton/TypeEnv.hs`.

The type state is cut down to `unisubst`, the substitution of unification variables.
`ErrInfo`, and the environment but for the expansion of type aliases, are left out.
Recursion that need not end is modelled with fuel: running out of it means that the code
has not finished yet.
-/
namespace Verif.Unify
open Verif.Ty

/-- `unisubst :: IntMap Type`, TypeEnv.hs:606; the newest binding first. -/
abbrev Subst := List (Nat × Ty)

/-- `usubstitute`, TypeEnv.hs:648-651 (`IntMap.insert`: a new binding hides an old one). -/
def usubstitute (u : Nat) (t : Ty) (s : Subst) : Subst := (u, t) :: s

mutual
/-- `usubstWith` on types, TypeEnv.hs:825-843, with `f` for the case `TUni`. -/
def mapUni (f : Nat → Option Ty) : Ty → Option Ty
  | .uni u => f u
  | .var v => some (.var v)
  | .con n ts =>
    match mapUnis f ts with
    | some ts' => some (.con n ts')
    | none => none
  | .fn a b c d =>
    match mapUni f a, mapUni f b, mapUni f c, mapUni f d with
    | some a', some b', some c', some d' => some (.fn a' b' c' d')
    | _, _, _, _ => none
  | .tup a b =>
    match mapUni f a, mapUni f b with
    | some a', some b' => some (.tup a' b')
    | _, _ => none
  | .opt t =>
    match mapUni f t with
    | some t' => some (Ty.optOf t')
    | none => none
  | .none_ => some .none_
  | .wild => some .wild
  | .nil k => some (.nil k)
  | .row k n t r =>
    match mapUni f t, mapUni f r with
    | some t', some r' => some (.row k n t' r')
    | _, _ => none
  | .star k r =>
    match mapUni f r with
    | some r' => some (.star k r')
    | none => none
  | .fx x => some (.fx x)
/-- `usubstWith` on lists, TypeEnv.hs:797-798. -/
def mapUnis (f : Nat → Option Ty) : List Ty → Option (List Ty)
  | [] => some []
  | t :: ts =>
    match mapUni f t, mapUnis f ts with
    | some t', some ts' => some (t' :: ts')
    | _, _ => none
end

/-- `usubstWith s (TUni l u)`, TypeEnv.hs:826-828: the bound type is substituted again. -/
def varF (fuel : Nat) (s : Subst) (u : Nat) : Option Ty :=
  match fuel with
  | 0 => none
  | fuel + 1 =>
    match Ty.look u s with
    | some t => mapUni (varF fuel s) t
    | none => some (.uni u)

/-- `usubst`, TypeEnv.hs:788-789: nothing is done for an empty substitution. -/
def usubst (fuel : Nat) (s : Subst) (t : Ty) : Option Ty :=
  if s = [] then some t else mapUni (varF fuel s) t

/-- Outcomes: success with the new substitution, a type error (`noUnify` or
`infiniteType`), or not finished. -/
inductive Out
  | ok (s : Subst)
  | fail
  | out

/-- Unifications in sequence: the `do` blocks of `unify'` and `unifyM`
(TypeEnv.hs:692, 706-709, 712-713, 724-725), which stop at the first error. -/
def seq (u : Subst → Ty → Ty → Out) (s : Subst) : List (Ty × Ty) → Out
  | [] => .ok s
  | (a, b) :: ps =>
    match u s a b with
    | .ok s' => seq u s' ps
    | .fail => .fail
    | .out => .out

/-- The clause `TUni`/`TUni`, TypeEnv.hs:732-735. -/
def bindVars (lvl : Nat → Nat) (s : Subst) (v1 v2 : Nat) : Out :=
  if v1 = v2 then .ok s
  else if lvl v1 < lvl v2 then .ok (usubstitute v2 (.uni v1) s)
  else .ok (usubstitute v1 (.uni v2) s)

/-- The clauses `TUni`/other and other/`TUni`, TypeEnv.hs:737-740. -/
def bindVar (s : Subst) (v : Nat) (t : Ty) : Out :=
  if v ∈ Ty.ufree t then .fail else .ok (usubstitute v t s)

/-- Two constructors with the same name, TypeEnv.hs:698-699; `unifyM` pairs the arguments
with `zip`. -/
def sameCon (t1 t2 : Ty) : Option (List (Ty × Ty)) :=
  match t1, t2 with
  | .con n ts, .con m us => if n = m then some (ts.zip us) else none
  | _, _ => none

/-- `tExpand` of a constructor, TypeEnv.hs:701-704. -/
def expandOf (ex : Nat → List Ty → Option Ty) (t : Ty) : Option Ty :=
  match t with
  | .con n ts => ex n ts
  | _ => none

/-- The clauses of `unify'` that follow those of constructors, TypeEnv.hs:706-742. -/
def core (u : Subst → Ty → Ty → Out) (lvl : Nat → Nat) (s : Subst) (t1 t2 : Ty) : Out :=
  match t1, t2 with
  | .fn fx1 p1 k1 t1, .fn fx2 p2 k2 t2 => seq u s [(fx1, fx2), (p2, p1), (k2, k1), (t1, t2)]
  | .tup p1 k1, .tup p2 k2 => seq u s [(p1, p2), (k1, k2)]
  | .opt t1, .opt t2 => seq u s [(t1, t2)]
  | .none_, .none_ => .ok s
  | .fx f1, .fx f2 => if f1 = f2 then .ok s else .fail
  | .nil k1, .nil k2 => if k1 = k2 then .ok s else .fail
  | .row k1 n1 t1 r1, .row k2 n2 t2 r2 =>
    if k1 = k2 ∧ n1 = n2 then seq u s [(t1, t2), (r1, r2)] else .fail
  | .star k1 r1, .star k2 r2 => if k1 = k2 then seq u s [(r1, r2)] else .fail
  | .var v1, .var v2 => if v1 = v2 then .ok s else .fail
  | .uni v1, .uni v2 => bindVars lvl s v1 v2
  | .uni v, t => bindVar s v t
  | t, .uni v => bindVar s v t
  | _, _ => .fail

/-- The clauses `TWild`, TypeEnv.hs:695-696. -/
def isWild (t : Ty) : Bool :=
  match t with
  | .wild => true
  | _ => false

/-- `unify'`, TypeEnv.hs:695-742, with `u` for the calls of `unify` and `u'` for the calls
of `unify'`. -/
def step (u u' : Subst → Ty → Ty → Out) (lvl : Nat → Nat) (ex : Nat → List Ty → Option Ty)
    (s : Subst) (t1 t2 : Ty) : Out :=
  if isWild t1 || isWild t2 then .ok s
  else
    match sameCon t1 t2 with
    | some ps => seq u s ps
    | none =>
      match expandOf ex t1 with
      | some t => u' s t t2
      | none =>
        match expandOf ex t2 with
        | some t => u' s t1 t
        | none => core u lvl s t1 t2

mutual
/-- `unify`, TypeEnv.hs:685-689. -/
def unifyF (lvl : Nat → Nat) (ex : Nat → List Ty → Option Ty) (fuel : Nat) (s : Subst)
    (t1 t2 : Ty) : Out :=
  match fuel with
  | 0 => .out
  | fuel + 1 =>
    match usubst fuel s t1, usubst fuel s t2 with
    | some t1', some t2' => unifyF' lvl ex fuel s t1' t2'
    | _, _ => .out
/-- `unify'`, TypeEnv.hs:695-742. -/
def unifyF' (lvl : Nat → Nat) (ex : Nat → List Ty → Option Ty) (fuel : Nat) (s : Subst)
    (t1 t2 : Ty) : Out :=
  match fuel with
  | 0 => .out
  | fuel + 1 => step (unifyF lvl ex fuel) (unifyF' lvl ex fuel) lvl ex s t1 t2
end

/-- The code, with all the time it needs, ends with `o`. -/
def Runs (lvl : Nat → Nat) (ex : Nat → List Ty → Option Ty) (s : Subst) (t1 t2 : Ty)
    (o : Out) : Prop :=
  o ≠ .out ∧ ∃ N, ∀ n, N ≤ n → unifyF lvl ex n s t1 t2 = o

end Verif.Unify
