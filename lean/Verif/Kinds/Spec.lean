import Verif.Kinds.Model

/-! What kind inference must satisfy. -/
namespace Verif.Kinds
open Verif.Ty

mutual
/-- The value of a kind when every variable has one. -/
def inst (θ : Nat → Kind) : Kind → Kind
  | .kuni v => θ v
  | .kfun ks k => .kfun (insts θ ks) (inst θ k)
  | .ktype => .ktype
  | .kproto => .kproto
  | .kfx => .kfx
  | .prow => .prow
  | .krow => .krow
  | .kwild => .kwild
def insts (θ : Nat → Kind) : List Kind → List Kind
  | [] => []
  | k :: ks => inst θ k :: insts θ ks
end

/-- The values satisfy all bindings. -/
def Sat (θ : Nat → Kind) (s : KSubst) : Prop := ∀ p ∈ s, θ p.1 = inst θ p.2

/-- The bound variables. -/
def dom (s : KSubst) : List Nat := s.map Prod.fst

/-- A kind that is no function. -/
def Atom : Kind → Prop
  | .kfun _ _ => False
  | _ => True

/-- The kind of a constructor: a constant, or a function from kinds that are no functions. -/
def Sig : Kind → Prop
  | .kuni _ => False
  | .kfun ks k => (∀ a ∈ ks, Atom a) ∧ Atom k
  | _ => True

/-- Bindings without cycles, to kinds that are no functions: no variable is bound twice, to
itself, or to a variable that was bound before. -/
inductive Acyc : KSubst → Prop
  | nil : Acyc []
  | cons {v k s} : Acyc s → v ∉ dom s → Atom k → k ≠ .kuni v → (∀ u ∈ dom s, k ≠ .kuni u) →
      Acyc ((v, k) :: s)

mutual
/-- The kinds of types: `Has E θ t κ` says that `t` has the kind `κ` if kind variables have
the values `θ`. -/
inductive Has (E : KEnv) (θ : Nat → Kind) : Ty → Kind → Prop
  /-- a type variable has the kind that it has in the scope, which must be the one written
  (if one is) -/
  | var {v k} : E.tv v = some k → (∀ k', E.vk v = some k' → inst θ k' = inst θ k) →
      Has E θ (.var v) (inst θ k)
  | uni {u k} : (∀ k', E.uk u = some k' → inst θ k' = k) → Has E θ (.uni u) k
  /-- a constructor is given as many arguments of the right kinds as it demands -/
  | con0 {c k} : E.con c = some k → inst θ k = .ktype → Has E θ (.con c []) .ktype
  | con {c k t ts κs} : E.con c = some k → HasL E θ (t :: ts) κs →
      inst θ k = .kfun κs .ktype → Has E θ (.con c (t :: ts)) .ktype
  /-- effects must not be type variables -/
  | fn {x p k t} : (∀ v, x ≠ .var v) → Has E θ x .kfx → Has E θ p .prow → Has E θ k .krow →
      Has E θ t .ktype → Has E θ (.fn x p k t) .ktype
  | tup {p k} : Has E θ p .prow → Has E θ k .krow → Has E θ (.tup p k) .ktype
  | opt {t} : Has E θ t .ktype → Has E θ (.opt t) .ktype
  | none_ : Has E θ .none_ .ktype
  | nil {k} : Has E θ (.nil k) (rk k)
  | row {k n t r} : Has E θ t .ktype → Has E θ r (rk k) → Has E θ (.row k n t r) (rk k)
  | star {k r} : Has E θ r (rk k) → Has E θ (.star k r) (rk k)
  | fx {f} : Has E θ (.fx f) .kfx
inductive HasL (E : KEnv) (θ : Nat → Kind) : List Ty → List Kind → Prop
  | nil : HasL E θ [] []
  | cons {t ts κ κs} : Has E θ t κ → HasL E θ ts κs → HasL E θ (t :: ts) (κ :: κs)
end

/-- The variables of a kind are below `n`. -/
def Below (n : Nat) (k : Kind) : Prop :=
  (∀ v, k = .kuni v → v < n) ∧
  ∀ ks r, k = .kfun ks r → (∀ a ∈ r :: ks, ∀ v, a = .kuni v → v < n)

/-- The environments and states of the kind checker: the kinds of constructors are constants
or take arguments that are no functions; the kinds of variables are no functions; kind
variables from `next` on are unused. -/
structure Ok (E : KEnv) (st : KSt) : Prop where
  con : ∀ c k, E.con c = some k → Sig k ∧ Below st.next k
  tv : ∀ v k, E.tv v = some k → Atom k ∧ Below st.next k
  vk : ∀ v k, E.vk v = some k → Atom k ∧ Below st.next k
  uk : ∀ v k, E.uk v = some k → Atom k ∧ Below st.next k
  acyc : Acyc st.s
  bnd : ∀ p ∈ st.s, p.1 < st.next ∧ Below st.next p.2

end Verif.Kinds
