import Verif.Unify.Model

/-! What unification must satisfy. -/
namespace Verif.Unify
open Verif.Ty

mutual
/-- Instantiate the unification variables of a type, simultaneously. An option of an option
is an option. -/
def inst (θ : Nat → Ty) : Ty → Ty
  | .uni u => θ u
  | .var v => .var v
  | .con n ts => .con n (insts θ ts)
  | .fn a b c d => .fn (inst θ a) (inst θ b) (inst θ c) (inst θ d)
  | .tup a b => .tup (inst θ a) (inst θ b)
  | .opt t => Ty.optOf (inst θ t)
  | .none_ => .none_
  | .wild => .wild
  | .nil k => .nil k
  | .row k n t r => .row k n (inst θ t) (inst θ r)
  | .star k r => .star k (inst θ r)
  | .fx x => .fx x
def insts (θ : Nat → Ty) : List Ty → List Ty
  | [] => []
  | t :: ts => inst θ t :: insts θ ts
end

/-- Replace one variable. -/
def single (v : Nat) (t : Ty) (u : Nat) : Ty := if u = v then t else .uni u

/-- The value of a variable under a substitution: bindings are applied from the oldest to
the newest. -/
def appVar : Subst → Nat → Ty
  | [], u => .uni u
  | (v, t) :: s, u => inst (single v t) (appVar s u)

/-- The value of a type under a substitution. -/
def app (s : Subst) (t : Ty) : Ty := inst (appVar s) t

/-- The bound variables. -/
def dom (s : Subst) : List Nat := s.map Prod.fst

/-- Substitutions without cycles: no variable is bound twice; the type that a variable is
bound to has neither the variable nor any variable bound before it. -/
inductive Acyclic : Subst → Prop
  | nil : Acyclic []
  | cons {v t s} : Acyclic s → v ∉ dom s → v ∉ Ty.ufree t → (∀ u ∈ Ty.ufree t, u ∉ dom s) →
      Ty.Norm t → Acyclic ((v, t) :: s)

/-- Equal but for wildcards, and for arguments that one of two constructors of the same
name lacks. -/
inductive Compat : Ty → Ty → Prop
  | wildL {t} : Compat .wild t
  | wildR {t} : Compat t .wild
  | refl {t} : Compat t t
  | con {n ts us} : (∀ p ∈ ts.zip us, Compat p.1 p.2) → Compat (.con n ts) (.con n us)
  | fn {a b c d a' b' c' d'} : Compat a a' → Compat b b' → Compat c c' → Compat d d' →
      Compat (.fn a b c d) (.fn a' b' c' d')
  | tup {a b a' b'} : Compat a a' → Compat b b' → Compat (.tup a b) (.tup a' b')
  | opt {a a'} : Compat a a' → Compat (.opt a) (.opt a')
  | row {k n t r t' r'} : Compat t t' → Compat r r' → Compat (.row k n t r) (.row k n t' r')
  | star {k r r'} : Compat r r' → Compat (.star k r) (.star k r')

mutual
/-- No wildcard, and every constructor has as many arguments as `ar` says. -/
def Clean (ar : Nat → Nat) : Ty → Prop
  | .uni _ => True
  | .var _ => True
  | .con n ts => ts.length = ar n ∧ Cleans ar ts
  | .fn a b c d => Clean ar a ∧ Clean ar b ∧ Clean ar c ∧ Clean ar d
  | .tup a b => Clean ar a ∧ Clean ar b
  | .opt t => Clean ar t
  | .none_ => True
  | .wild => False
  | .nil _ => True
  | .row _ _ t r => Clean ar t ∧ Clean ar r
  | .star _ r => Clean ar r
  | .fx _ => True
def Cleans (ar : Nat → Nat) : List Ty → Prop
  | [] => True
  | t :: ts => Clean ar t ∧ Cleans ar ts
end

mutual
/-- No option of an option arises in the type when `θ` is applied. -/
def NoColl (θ : Nat → Ty) : Ty → Prop
  | .uni _ => True
  | .var _ => True
  | .con _ ts => NoColls θ ts
  | .fn a b c d => NoColl θ a ∧ NoColl θ b ∧ NoColl θ c ∧ NoColl θ d
  | .tup a b => NoColl θ a ∧ NoColl θ b
  | .opt t => NoColl θ t ∧ ¬ Ty.IsOpt (inst θ t)
  | .none_ => True
  | .wild => True
  | .nil _ => True
  | .row _ _ t r => NoColl θ t ∧ NoColl θ r
  | .star _ r => NoColl θ r
  | .fx _ => True
def NoColls (θ : Nat → Ty) : List Ty → Prop
  | [] => True
  | t :: ts => NoColl θ t ∧ NoColls θ ts
end

end Verif.Unify
