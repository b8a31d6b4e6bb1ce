import Verif.Common
import Mathlib.Data.List.Dedup
/-!
# Actors as classes: what the deactorizer does with the bodies of methods

compiler/lib/src/Acton/Deactorizer.hs replaces an actor by a class. Names that the body of the actor
defines (its parameters, variables, state variables and methods) become attributes of `self`. State
variables that occur in a lambda are *sampled*: in front of the statement with the lambda a local variable
of the same name gets the value of the attribute, and the statement uses the local variable.

The model has the names of variables as numbers, and the statements and expressions as far as variables
and the order of evaluation go. What calls, constructions and closures mean is a parameter of the semantics
(`Verif/Deact/Spec.lean`).
-/
namespace Verif.Deact

abbrev Name := Nat

/-- Attributes: `(n, false)` is `n`, `(n, true)` is `localName n`, the name of the unsealed form of a method. -/
abbrev Attr := Name × Bool

/-- Expressions (Syntax.hs `Expr`) behind the normalizer. `tup` stands for the expressions without an
effect of their own through which `lamfree` looks (`Tuple`, `List`, `Dot`, `Cond`, ...), `dict` for those for
which it has no case (`Dict`, `Set`, `Let`, `Async`; Deactorizer.hs:326-347). Calls have positional arguments (the
normalizer leaves no others). Types and their applications are left out. -/
inductive Ex
  | var (n : Name)
  | self (a : Attr)
  | lit (i : Int)
  | app (e : Ex) (as : List Ex)
  | tup (k : Nat) (es : List Ex)
  | dict (es : List Ex)
  | lam (ps : List Name) (e : Ex)

mutual
/-- Statements (Syntax.hs `Stmt`) behind the normalizer, in methods. `mut` is `MutAssign` to an attribute
of `self`; `loop` is `While True` (Normalizer.hs:267); `defn` is `Decl` of one `Def`. -/
inductive Stm
  | expr (e : Ex)
  | assign (n : Name) (e : Ex)
  | mut (a : Attr) (e : Ex)
  | ret (e : Ex)
  | brk
  | cont
  | pass
  | ite (bs : Brs)
  | loop (b : Stms)
  | after (e1 e2 : Ex)
  | defn (n : Name) (ps : List Name) (b : Stms)

inductive Stms
  | nil
  | cons (s : Stm) (ss : Stms)

/-- The branches of `If` and its `else`. -/
inductive Brs
  | els (ss : Stms)
  | br (e : Ex) (ss : Stms) (bs : Brs)
end

/-! ## Free and assigned variables (Names.hs) -/

mutual
/-- `free` (Names.hs:264-305) -/
def free : Ex → List Name
  | .var n => [n]
  | .self _ => []
  | .lit _ => []
  | .app e as => free e ++ frees as
  | .tup _ es => frees es
  | .dict es => frees es
  | .lam ps e => (free e).filter (· ∉ ps)
def frees : List Ex → List Name
  | [] => []
  | e :: es => free e ++ frees es
end

mutual
/-- `assigned` (Names.hs:229-239) -/
def assigned : Stm → List Name
  | .assign n _ => [n]
  | .defn n _ _ => [n]
  | .loop b => assigneds b
  | .ite bs => assignedb bs
  | _ => []
def assigneds : Stms → List Name
  | .nil => []
  | .cons s ss => assigned s ++ assigneds ss
def assignedb : Brs → List Name
  | .els ss => assigneds ss
  | .br _ ss bs => assigneds ss ++ assignedb bs
end

/-! ## The deactorizer -/

/-- `DeactX` (Deactorizer.hs:49) -/
structure Env where
  wrapped : List Name
  stvars : List Name
  locals : List Name
  sampled : List Name

/-- `defineAndShadow` (Deactorizer.hs:54-56), of the names in `ns` -/
def shadow (ns : List Name) (env : Env) : Env :=
  { env with wrapped := env.wrapped.filter (· ∉ ns), locals := env.locals.filter (· ∉ ns) }

/-- `setSampled` (Deactorizer.hs:69) -/
def setSampled (ns : List Name) (env : Env) : Env := { env with sampled := ns ++ env.sampled }

/-- `clearSampled` (Deactorizer.hs:71) -/
def clearSampled (env : Env) : Env := { env with sampled := [] }

mutual
/-- `deact` of expressions (Deactorizer.hs:226-276). Left out: names of actors, `Await`, sealed methods as values,
the call of a lambda that is written out (its arguments are substituted, see Verif/Trans), calls of actions. -/
def deE (env : Env) : Ex → Ex
  | .var n =>
    if n ∈ env.sampled then .var n
    else if n ∈ env.locals then .self (n, decide (n ∈ env.wrapped))
    else .var n
  | .self a => .self a
  | .lit i => .lit i
  | .app e as => .app (deE env e) (deL env as)
  | .tup k es => .tup k (deL env es)
  | .dict es => .dict (deL env es)
  | .lam ps e => .lam ps (deE (shadow ps env) e)
def deL (env : Env) : List Ex → List Ex
  | [] => []
  | e :: es => deE env e :: deL env es
end

mutual
/-- `lamfree` of expressions (Deactorizer.hs:326-361) -/
def lamfree : Ex → List Name
  | .app e as => lamfree e ++ lamfrees as
  | .tup _ es => lamfrees es
  | .lam ps e => free (.lam ps e)
  | _ => []
def lamfrees : List Ex → List Name
  | [] => []
  | e :: es => lamfree e ++ lamfrees es
end

/-- `lamfree` of the conditions of a list of branches (Deactorizer.hs:319) -/
def lamfreeb : Brs → List Name
  | .els _ => []
  | .br e _ bs => lamfree e ++ lamfreeb bs

/-- `lamfree` of statements (Deactorizer.hs:314-324) -/
def lamfreeS : Stm → List Name
  | .expr e => lamfree e
  | .assign _ e => lamfree e
  | .mut _ e => lamfree e
  | .ret e => lamfree e
  | .ite bs => lamfreeb bs
  | .after e1 e2 => lamfree e1 ++ free e2
  | _ => []

/-- The statements that sample the names `ns`, in front of others (Deactorizer.hs:91). -/
def sampleThen : List Name → Stms → Stms
  | [], ss => ss
  | n :: ns, ss => .cons (.assign n (.self (n, false))) (sampleThen ns ss)

/-- The names that are sampled in front of a statement (Deactorizer.hs:90). -/
def samples (env : Env) (s : Stm) : List Name := (env.stvars.filter (· ∈ lamfreeS s)).dedup

/-- `$AFTERf` as a name that is defined elsewhere. -/
abbrev Aft := Name

mutual
/-- `deact` of statements (Deactorizer.hs:94-133, 157-160, 203-205); `aft` is `$AFTERf`. -/
def deS (aft : Aft) (env : Env) : Stm → Stm
  | .expr e => .expr (deE env e)
  | .assign n e => if n ∈ env.locals then .mut (n, false) (deE env e) else .assign n (deE env e)
  | .mut a e => .mut a (deE env e)
  | .ret e => .ret (deE env e)
  | .brk => .brk
  | .cont => .cont
  | .pass => .pass
  | .ite bs => .ite (deB aft env bs)
  | .loop b => .loop (deSs aft (clearSampled env) b)
  | .after e1 e2 => .expr (.app (.var aft) [deE env e1, deE env (.lam [] e2)])
  | .defn n ps b => .defn n ps (deSs aft (shadow ps env) b)
/-- `deactSuite` (Deactorizer.hs:85-91) -/
def deSs (aft : Aft) (env : Env) : Stms → Stms
  | .nil => .nil
  | .cons s ss => sampleThen (samples env s) (.cons (deS aft (setSampled (samples env s) env) s) (deSs aft env ss))
/-- `deact` of branches, and the `else` of `If` (Deactorizer.hs:111-112, 203-205) -/
def deB (aft : Aft) (env : Env) : Brs → Brs
  | .els ss => .els (deSs aft (clearSampled env) ss)
  | .br e ss bs => .br (deE env e) (deSs aft (clearSampled env) ss) (deB aft env bs)
end

/-- The body of a method of an actor (Deactorizer.hs:136-141, 157-160): `setActor`, then the parameters shadow. -/
def deMethod (aft : Aft) (env : Env) (ps : List Name) (b : Stms) : Stms :=
  deSs aft (shadow ps { env with sampled := [] }) b

end Verif.Deact
