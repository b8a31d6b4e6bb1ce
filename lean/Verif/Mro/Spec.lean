import Verif.Mro.Model
import Verif.Ty.Lemmas

/-! What the method resolution order must satisfy. -/
namespace Verif.Mro
open Verif.Ty

/-- The types of a list of ancestors, without witness paths. -/
def cons (es : List Entry) : List Con := es.map Entry.con

/-- No name occurs twice. -/
def NoDup (cs : List Con) : Prop := (cs.map Con.name).Nodup

/-- `r` is a linear order of the entries of `lists`: every name once, every list in its
order, and nothing else. -/
structure Linear (lists : List (List Entry)) (r : List Entry) : Prop where
  nodup : NoDup (cons r)
  keeps : ∀ l ∈ lists, List.Sublist (cons l) (cons r)
  only : ∀ e ∈ r, ∃ l ∈ lists, e ∈ l

/-- Some order of types without repeated names keeps the order of every list. -/
def Orderable (lists : List (List Con)) : Prop :=
  ∃ s : List Con, NoDup s ∧ ∀ l ∈ lists, List.Sublist l s

/-- A type that is declared in `env` with the right number of arguments, over the type
variables `tvs`, without nested options. -/
structure WfCon (env : Env) (tvs : List Nat) (c : Con) : Prop where
  known : ∃ i, findInfo env c.name = some i ∧ i.tvs.length = c.args.length
  vars : ∀ t ∈ c.args, ∀ v ∈ Ty.vfree t, v ∈ tvs
  norm : ∀ t ∈ c.args, Ty.Norm t

/-- Environments that declarations build. A name is declared once (`NReserved`,
Types.hs:1027, 1040, 1090), bases are declared before, and `value` is a class without
bases and without parameters. -/
inductive Built : Env → Prop
  | nil : Built []
  | proto {env env' n tvs us te} : Built env → findInfo env n = none → n ≠ valueName →
      (∀ u ∈ us, WfCon env tvs u) → declProto env n tvs us te = .ok env' → Built env'
  | cls {env env' n tvs us te} : Built env → findInfo env n = none → n ≠ valueName →
      (∀ u ∈ us, WfCon env tvs u) → WfCon env tvs ⟨valueName, []⟩ →
      declClass env n tvs us te = .ok env' → Built env'
  | value {env env' te} : Built env → findInfo env valueName = none →
      declClass env valueName [] [] te = .ok env' → Built env'
  | actor {env n tvs te} : Built env → findInfo env n = none → n ≠ valueName →
      Built (declActor env n tvs te)

/-- `c` is an ancestor, through declared bases, of something with bases `us`, reached by the
witness path `w`: each step names the base taken, `left` for the first one. The arguments
of the base are instantiated on the way. -/
inductive Reach (env : Env) : List Con → List Step → Con → Prop
  | first {u us} : Reach env (u :: us) [.left u.name] u
  | other {v us u} : u ∈ us → Reach env (v :: us) [.right u.name] u
  | step {us w u i w' c} : Reach env us w u → findInfo env u.name = some i →
      Reach env i.bases w' c → Reach env us (w ++ w') (substCon (i.tvs.zip u.args) c)

/-- The bases of a type, instantiated. -/
def basesOf (env : Env) (c : Con) : List Con :=
  match findInfo env c.name with
  | none => []
  | some i => i.bases.map (substCon (i.tvs.zip c.args))

/-- The class named `n` declares attribute `a` itself. -/
def Declares (env : Env) (n a : Nat) : Prop :=
  ∃ i, findInfo env n = some i ∧ a ∈ i.attrs.map Prod.fst

end Verif.Mro
