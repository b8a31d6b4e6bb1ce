import Verif.Cast.Model
import Verif.Mro.Spec

/-! What castability and the bounds of types must satisfy. -/
namespace Verif.Cast
open Verif.Ty Verif.Mro

/-- The compiler finds that `t1` can be used for `t2`. -/
def Castable (E : Env) (t1 t2 : Ty) : Prop := ∃ n, castable E n t1 t2 = true

mutual
/-- A type without wildcards, unification variables, aliases and nested options, whose classes are
declared with that number of parameters. -/
def Wf (E : Env) : Ty → Prop
  | .uni _ => False
  | .wild => False
  | .var _ => True
  | .con n ts => E.als n = none ∧ (∃ i, findInfo E.cls n = some i ∧ i.tvs.length = ts.length) ∧ Wfs E ts
  | .fn a b c d => Wf E a ∧ Wf E b ∧ Wf E c ∧ Wf E d
  | .tup a b => Wf E a ∧ Wf E b
  | .opt t => Wf E t ∧ ¬ Ty.IsOpt t
  | .none_ => True
  | .nil _ => True
  | .row _ _ t r => Wf E t ∧ Wf E r
  | .star _ r => Wf E r
  | .fx _ => True
/-- `Wf` for every element. -/
def Wfs (E : Env) : List Ty → Prop
  | [] => True
  | t :: ts => Wf E t ∧ Wfs E ts
end

/-- An environment that a program builds, with bounds that are well-formed types. -/
structure EnvOk (E : Env) : Prop where
  built : Built E.cls
  bounds : ∀ v c, E.bound v = some c → Wf E (conTy c)

/-- No class has a covariant ancestor, and the ancestors of covariant classes do not depend on the
arguments. -/
structure CovOk (E : Env) : Prop where
  leaf : ∀ n i, findInfo E.cls n = some i → ∀ e ∈ i.anc, e.con.name ∉ E.cov
  const : ∀ n i, findInfo E.cls n = some i → n ∈ E.cov → ∀ e ∈ i.anc, e.con.args = []

/-- A type that is a type variable. -/
def IsVar : Ty → Prop
  | .var _ => True
  | _ => False

/-- Types for which `lub` (`up`) and `glb` (not `up`) are the bounds: no wildcards, unification variables,
aliases, arguments of classes, nested options, `?None` or keyword components; effects are constants. In
types for `glb`, and in the parameters of types for `lub`, there is no `None` and no option of a type
variable. -/
def Simple (E : Env) : Bool → Ty → Prop
  | _, .uni _ => False
  | _, .wild => False
  | _, .var _ => True
  | _, .con n ts => ts = [] ∧ E.als n = none ∧
      ∃ i, findInfo E.cls n = some i ∧ i.tvs = [] ∧ i.sort ≠ .proto
  | up, .fn e p k t => (∃ f, e = .fx f) ∧ Simple E (!up) p ∧ k = .nil .krow ∧ Simple E up t
  | up, .tup p k => Simple E up p ∧ k = .nil .krow
  | up, .opt t => Simple E up t ∧ ¬ Ty.IsOpt t ∧ t ≠ .none_ ∧ (up = false → ¬ IsVar t)
  | up, .none_ => up = true
  | _, .nil k => k = .prow
  | up, .row k n t r => k = .prow ∧ n = 0 ∧ Simple E up t ∧ Simple E up r
  | up, .star _ r => Simple E up r
  | _, .fx _ => True

/-- No class inherits from a class with arguments, no class has the name of an alias, and type variables
are bounded by classes without arguments. -/
structure Plain (E : Env) : Prop where
  anc : ∀ n i, findInfo E.cls n = some i → ∀ e ∈ i.anc, e.con.args = []
  als : ∀ n i, findInfo E.cls n = some i → E.als n = none
  bounds : ∀ v c, E.bound v = some c → Simple E true (conTy c)

/-- `t` is the least type that `t1` and `t2` can be used for. -/
structure IsLub (E : Env) (t1 t2 t : Ty) : Prop where
  left : Castable E t1 t
  right : Castable E t2 t
  least : ∀ u, Wf E u → Castable E t1 u → Castable E t2 u → Castable E t u

/-- `t` is the greatest type that can be used for `t1` and `t2`. -/
structure IsGlb (E : Env) (t1 t2 t : Ty) : Prop where
  left : Castable E t t1
  right : Castable E t t2
  greatest : ∀ u, Wf E u → Castable E u t1 → Castable E u t2 → Castable E u t

end Verif.Cast
