import Verif.Deact.Model
/-!
# What methods mean, before and behind the deactorizer

Before: a name is looked up in the scopes of the method and its nested functions and lambdas; if none
of them binds it, it is a name of the actor; otherwise it is defined elsewhere. A function binds its parameters
and the names that it assigns, unless they are state variables (Types.hs:1776, Names.hs:243-244). A lambda
keeps the values that the state variables have when it is made.

Behind: a name is a local variable or defined elsewhere; attributes of `self` are written `self.n`. A
lambda keeps the local variables, and reads attributes when it is called.
-/
namespace Verif.Deact

variable {V : Type}

/-- The attributes of the actor. -/
abbrev St (V : Type) := Attr → V
/-- Local variables, and the names that are defined elsewhere. -/
abbrev Frame (V : Type) := Name → V

/-- What calls, constructions, functions and conditions mean. `app` may read and change the attributes in any
way, `clo` is the value of a function of that behaviour. -/
structure Interp (V : Type) where
  lit : Int → V
  tup : Nat → List V → V
  dict : List V → V
  app : V → List V → St V → V × St V
  clo : (List V → St V → V × St V) → V
  truth : V → Bool
  none : V

/-- The names of an actor: all, its state variables, and its methods that have two forms. -/
structure Scope where
  names : List Name
  stvars : List Name
  wrapped : List Name

/-- The attribute for a name of the actor: methods mean their unsealed form. -/
def Scope.attr (sc : Scope) (n : Name) : Attr := (n, decide (n ∈ sc.wrapped))

def set (ρ : Frame V) (n : Name) (v : V) : Frame V := fun m => if m = n then v else ρ m

def put (σ : St V) (a : Attr) (v : V) : St V := fun b => if b = a then v else σ b

/-- Parameters; missing arguments are None. -/
def bindAll (I : Interp V) : List Name → List V → Frame V → Frame V
  | [], _, ρ => ρ
  | p :: ps, [], ρ => bindAll I ps [] (set ρ p I.none)
  | p :: ps, v :: vs, ρ => bindAll I ps vs (set ρ p v)

/-- The value of a name in the scopes `B`, in a lambda that keeps the values `κ` of state variables. -/
def look (sc : Scope) (B : List Name) (κ : Name → Option V) (ρ : Frame V) (σ : St V) (n : Name) : V :=
  if n ∈ B then ρ n
  else if n ∈ sc.names then (κ n).getD (σ (sc.attr n))
  else ρ n

/-- The values of the state variables that a lambda keeps. -/
def capture (sc : Scope) (κ : Name → Option V) (σ : St V) : Name → Option V := fun n =>
  if n ∈ sc.stvars then some ((κ n).getD (σ (sc.attr n))) else none

mutual
/-- Expressions, before. -/
def ev (I : Interp V) (sc : Scope) : Ex → List Name → (Name → Option V) → Frame V → St V → V × St V
  | .var n, B, κ, ρ, σ => (look sc B κ ρ σ n, σ)
  | .self a, _, _, _, σ => (σ a, σ)
  | .lit i, _, _, _, σ => (I.lit i, σ)
  | .app e as, B, κ, ρ, σ =>
    let f := ev I sc e B κ ρ σ
    let vs := evs I sc as B κ ρ f.2
    I.app f.1 vs.1 vs.2
  | .tup k es, B, κ, ρ, σ => let vs := evs I sc es B κ ρ σ; (I.tup k vs.1, vs.2)
  | .dict es, B, κ, ρ, σ => let vs := evs I sc es B κ ρ σ; (I.dict vs.1, vs.2)
  | .lam ps e, B, κ, ρ, σ =>
    (I.clo fun vs σ' => ev I sc e (ps ++ B) (capture sc κ σ) (bindAll I ps vs ρ) σ', σ)
def evs (I : Interp V) (sc : Scope) : List Ex → List Name → (Name → Option V) → Frame V → St V → List V × St V
  | [], _, _, _, σ => ([], σ)
  | e :: es, B, κ, ρ, σ =>
    let v := ev I sc e B κ ρ σ
    let vs := evs I sc es B κ ρ v.2
    (v.1 :: vs.1, vs.2)
end

mutual
/-- Expressions, behind. -/
def tev (I : Interp V) : Ex → Frame V → St V → V × St V
  | .var n, ρ, σ => (ρ n, σ)
  | .self a, _, σ => (σ a, σ)
  | .lit i, _, σ => (I.lit i, σ)
  | .app e as, ρ, σ =>
    let f := tev I e ρ σ
    let vs := tevs I as ρ f.2
    I.app f.1 vs.1 vs.2
  | .tup k es, ρ, σ => let vs := tevs I es ρ σ; (I.tup k vs.1, vs.2)
  | .dict es, ρ, σ => let vs := tevs I es ρ σ; (I.dict vs.1, vs.2)
  | .lam ps e, ρ, σ => (I.clo fun vs σ' => tev I e (bindAll I ps vs ρ) σ', σ)
def tevs (I : Interp V) : List Ex → Frame V → St V → List V × St V
  | [], _, σ => ([], σ)
  | e :: es, ρ, σ =>
    let v := tev I e ρ σ
    let vs := tevs I es ρ v.2
    (v.1 :: vs.1, vs.2)
end

/-- How a statement ends; `out` if the number of turns of a loop was exceeded. -/
inductive Sig (V : Type)
  | next
  | ret (v : V)
  | brk
  | cont
  | out

structure Out (V : Type) where
  sig : Sig V
  ρ : Frame V
  σ : St V

/-- `k` turns of a loop at most. -/
def iter (body : Frame V → St V → Out V) : Nat → Frame V → St V → Out V
  | 0, ρ, σ => ⟨.out, ρ, σ⟩
  | k + 1, ρ, σ =>
    match body ρ σ with
    | ⟨.next, ρ', σ'⟩ => iter body k ρ' σ'
    | ⟨.cont, ρ', σ'⟩ => iter body k ρ' σ'
    | ⟨.brk, ρ', σ'⟩ => ⟨.next, ρ', σ'⟩
    | r => r

/-- The result of a call whose body ends so. -/
def Out.result (I : Interp V) (r : Out V) : V × St V :=
  match r.sig with
  | .ret v => (v, r.σ)
  | _ => (I.none, r.σ)

/-- The names that a function binds. -/
def binds (sc : Scope) (ps : List Name) (b : Stms) : List Name :=
  ps ++ (assigneds b).filter (· ∉ sc.stvars)

mutual
/-- Statements, before. `after` evaluates the delay, and makes a function of the call. -/
def run (I : Interp V) (sc : Scope) (aft : Aft) (k : Nat) : Stm → List Name → Frame V → St V → Out V
  | .expr e, B, ρ, σ => ⟨.next, ρ, (ev I sc e B (fun _ => none) ρ σ).2⟩
  | .assign n e, B, ρ, σ =>
    let v := ev I sc e B (fun _ => none) ρ σ
    if n ∈ B then ⟨.next, set ρ n v.1, v.2⟩
    else if n ∈ sc.stvars then ⟨.next, ρ, put v.2 (n, false) v.1⟩
    else ⟨.next, set ρ n v.1, v.2⟩
  | .mut a e, B, ρ, σ =>
    let v := ev I sc e B (fun _ => none) ρ σ
    ⟨.next, ρ, put v.2 a v.1⟩
  | .ret e, B, ρ, σ => let v := ev I sc e B (fun _ => none) ρ σ; ⟨.ret v.1, ρ, v.2⟩
  | .brk, _, ρ, σ => ⟨.brk, ρ, σ⟩
  | .cont, _, ρ, σ => ⟨.cont, ρ, σ⟩
  | .pass, _, ρ, σ => ⟨.next, ρ, σ⟩
  | .ite bs, B, ρ, σ => runb I sc aft k bs B ρ σ
  | .loop b, B, ρ, σ => iter (fun ρ σ => runs I sc aft k b B ρ σ) k ρ σ
  | .after e1 e2, B, ρ, σ =>
    let d := ev I sc e1 B (fun _ => none) ρ σ
    let f := ev I sc (.lam [] e2) B (fun _ => none) ρ d.2
    ⟨.next, ρ, (I.app (ρ aft) [d.1, f.1] f.2).2⟩
  | .defn n ps b, B, ρ, σ =>
    ⟨.next, set ρ n (I.clo fun vs σ' => (runs I sc aft k b (binds sc ps b ++ B) (bindAll I ps vs ρ) σ').result I), σ⟩
def runs (I : Interp V) (sc : Scope) (aft : Aft) (k : Nat) : Stms → List Name → Frame V → St V → Out V
  | .nil, _, ρ, σ => ⟨.next, ρ, σ⟩
  | .cons s ss, B, ρ, σ =>
    match run I sc aft k s B ρ σ with
    | ⟨.next, ρ', σ'⟩ => runs I sc aft k ss B ρ' σ'
    | r => r
def runb (I : Interp V) (sc : Scope) (aft : Aft) (k : Nat) : Brs → List Name → Frame V → St V → Out V
  | .els ss, B, ρ, σ => runs I sc aft k ss B ρ σ
  | .br e ss bs, B, ρ, σ =>
    let c := ev I sc e B (fun _ => none) ρ σ
    if I.truth c.1 then runs I sc aft k ss B ρ c.2 else runb I sc aft k bs B ρ c.2
end

mutual
/-- Statements, behind (there is no `after`). -/
def trun (I : Interp V) (k : Nat) : Stm → Frame V → St V → Out V
  | .expr e, ρ, σ => ⟨.next, ρ, (tev I e ρ σ).2⟩
  | .assign n e, ρ, σ => let v := tev I e ρ σ; ⟨.next, set ρ n v.1, v.2⟩
  | .mut a e, ρ, σ => let v := tev I e ρ σ; ⟨.next, ρ, put v.2 a v.1⟩
  | .ret e, ρ, σ => let v := tev I e ρ σ; ⟨.ret v.1, ρ, v.2⟩
  | .brk, ρ, σ => ⟨.brk, ρ, σ⟩
  | .cont, ρ, σ => ⟨.cont, ρ, σ⟩
  | .pass, ρ, σ => ⟨.next, ρ, σ⟩
  | .ite bs, ρ, σ => trunb I k bs ρ σ
  | .loop b, ρ, σ => iter (fun ρ σ => truns I k b ρ σ) k ρ σ
  | .after _ _, ρ, σ => ⟨.out, ρ, σ⟩
  | .defn n ps b, ρ, σ =>
    ⟨.next, set ρ n (I.clo fun vs σ' => (truns I k b (bindAll I ps vs ρ) σ').result I), σ⟩
def truns (I : Interp V) (k : Nat) : Stms → Frame V → St V → Out V
  | .nil, ρ, σ => ⟨.next, ρ, σ⟩
  | .cons s ss, ρ, σ =>
    match trun I k s ρ σ with
    | ⟨.next, ρ', σ'⟩ => truns I k ss ρ' σ'
    | r => r
def trunb (I : Interp V) (k : Nat) : Brs → Frame V → St V → Out V
  | .els ss, ρ, σ => truns I k ss ρ σ
  | .br e ss bs, ρ, σ =>
    let c := tev I e ρ σ
    if I.truth c.1 then truns I k ss ρ c.2 else trunb I k bs ρ c.2
end

/-- A call of a method, before: `G` gives the names that are defined elsewhere. -/
def call (I : Interp V) (sc : Scope) (aft : Aft) (k : Nat) (G : Frame V) (ps : List Name) (b : Stms) (vs : List V)
    (σ : St V) : V × St V :=
  (runs I sc aft k b (binds sc ps b) (bindAll I ps vs G) σ).result I

/-- A call of a method, behind. -/
def tcall (I : Interp V) (k : Nat) (G : Frame V) (ps : List Name) (b : Stms) (vs : List V) (σ : St V) : V × St V :=
  (truns I k b (bindAll I ps vs G) σ).result I

end Verif.Deact
