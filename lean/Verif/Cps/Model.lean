import Mathlib.Data.List.Basic

/-!
The conversion of procedures to continuation-passing style (compiler/lib/src/Acton/CPS.hs:63-346), the
capture of variables by the lambda lifter that runs after it (compiler/lib/src/Acton/LambdaLifter.hs:104-362)
and the part of the run-time system that runs the result (base/rts/rts.c:919-1016, 1688-1760).

Generic in the values `V` (exceptions are values too) and the world `W`: everything reachable from the
heap, the other actors included. Expressions without continuation are primitive operations on the values
of named variables; calls with continuation (`contCall`) are operations too, and every callee finishes
with a value or an exception. Not modelled: types, nested declarations, `elif` (an `if` has one condition
and an `else`), `return` without expression and patterns other than variables (the normalizer removes
both), and `preCPS`. Local variables keep their values when an exception jumps back to a `$PUSH()` of the
same activation. A jump to the top of a loop counts as an activation.
-/
namespace Verif.Cps

/-- The result of an expression: a value or an exception, and the new world. -/
inductive Ev (V W : Type) where
  | ok (v : V) (w : W)
  | exn (x : V) (w : W)

/-- The values the generated code mentions, and the truth test of `if`. -/
structure Prims (V : Type) where
  none : V
  tt : V
  ff : V
  truth : V → Bool
  truth_tt : truth tt = true
  truth_ff : truth ff = false

/-- An expression without continuation: a variable, or an operation on variables. -/
inductive Exp (V W : Type) where
  | var (x : Nat)
  | op (f : List V → W → Ev V W) (xs : List Nat)

/-- A call that takes a continuation (`contCall`, CPS.hs:289-299). `unit` says that its type is `None`. -/
structure Call (V W : Type) where
  f : List V → W → Ev V W
  xs : List Nat
  unit : Bool

mutual
/-- The statements `cps` is given: what the normalizer and `preCPS` leave (Syntax.hs, `Stmt`).
`decl` is `Assign` with a type annotation on its variable, `upd` is `Assign` without; the forms with a
`Call` have a `contCall` to the right. `mutCall` is `MutAssign`: `f` takes the variables of the target
and the assigned value last. `tryS` is `If` with `$PUSH()` (or `$PUSHF()` if `fin`) as condition; `drop`,
`pop x` and `raise e` are `$DROP()`, `x = $POP()` and `$RAISE(e)`. -/
inductive Stmt (V W : Type) where
  | exp (e : Exp V W)
  | decl (x : Nat) (e : Exp V W)
  | upd (x : Nat) (e : Exp V W)
  | call (c : Call V W)
  | declCall (x : Nat) (c : Call V W)
  | updCall (x : Nat) (c : Call V W)
  | mutCall (f : List V → W → Ev V W) (xs : List Nat) (c : Call V W)
  | ret (e : Exp V W)
  | retCall (c : Call V W)
  | brk
  | cnt
  | ite (e : Exp V W) (a b : Suite V W)
  | whl (e : Exp V W) (b els : Suite V W)
  | tryS (fin : Bool) (b h : Suite V W)
  | drop
  | pop (x : Nat)
  | raise (e : Exp V W)
inductive Suite (V W : Type) where
  | nil
  | cons (s : Stmt V W) (ss : Suite V W)
end

/-- What a suite may do when it stops (Env.hs:1311). -/
inductive Flow | RET | BRK | CNT | SEQ
  deriving DecidableEq, Repr

/-- `brkseq` (Env.hs:1318). -/
def brkseq (f : List Flow) : List Flow :=
  (if f.contains .BRK then .SEQ :: f else f).diff [.BRK, .CNT]

/-- The local operator `seq` (Env.hs:1323-1324). -/
def flowSeq (f1 f2 : List Flow) : List Flow :=
  if f1.contains .SEQ then f1.diff [.SEQ] ++ f2 else f1

/-- The variables of an expression (`free`, Names.hs:264-305). -/
def Exp.fv {V W : Type} : Exp V W → List Nat
  | .var x => [x]
  | .op _ xs => xs

mutual
/-- `flows` (Env.hs:1321-1340). -/
def flows {V W : Type} : Stmt V W → List Flow
  | .raise _ => []
  | .ret _ => [.RET]
  | .retCall _ => [.RET]
  | .brk => [.BRK]
  | .cnt => [.CNT]
  | .ite _ a b => flowsS a ++ flowsS b
  | .whl _ b els => brkseq (flowsS b) ++ flowsS els
  | .tryS _ b h => flowsS b ++ flowsS h
  | _ => [.SEQ]
def flowsS {V W : Type} : Suite V W → List Flow
  | .nil => [.SEQ]
  | .cons s ss => flowSeq (flows s) (flowsS ss)
end

mutual
/-- `free` on statements: every variable that is read, also those set before (Names.hs:195-216). -/
def reads {V W : Type} : Stmt V W → List Nat
  | .exp e => e.fv
  | .decl _ e => e.fv
  | .upd _ e => e.fv
  | .call c => c.xs
  | .declCall _ c => c.xs
  | .updCall _ c => c.xs
  | .mutCall _ xs c => xs ++ c.xs
  | .ret e => e.fv
  | .retCall c => c.xs
  | .brk => []
  | .cnt => []
  | .ite e a b => e.fv ++ readsS a ++ readsS b
  | .whl e b els => e.fv ++ readsS b ++ readsS els
  | .tryS _ b h => readsS b ++ readsS h
  | .drop => []
  | .pop _ => []
  | .raise e => e.fv
def readsS {V W : Type} : Suite V W → List Nat
  | .nil => []
  | .cons s ss => reads s ++ readsS ss
end

mutual
/-- `bound` on statements (Names.hs:218-226). -/
def bound {V W : Type} : Stmt V W → List Nat
  | .decl x _ => [x]
  | .upd x _ => [x]
  | .declCall x _ => [x]
  | .updCall x _ => [x]
  | .pop x => [x]
  | .ite _ a b => boundS a ++ boundS b
  | .whl _ b els => boundS b ++ boundS els
  | .tryS _ b h => boundS b ++ boundS h
  | _ => []
def boundS {V W : Type} : Suite V W → List Nat
  | .nil => []
  | .cons s ss => bound s ++ boundS ss
end

mutual
/-- `updatesOf` (QuickType.hs:493-501): the variables assigned without annotation. -/
def updates {V W : Type} : Stmt V W → List Nat
  | .upd x _ => [x]
  | .updCall x _ => [x]
  | .ite _ a b => updatesS a ++ updatesS b
  | .whl _ b els => updatesS b ++ updatesS els
  | .tryS _ b h => updatesS b ++ updatesS h
  | _ => []
def updatesS {V W : Type} : Suite V W → List Nat
  | .nil => []
  | .cons s ss => updates s ++ updatesS ss
end

/-- `commonEnvOf` for two suites (QuickType.hs:437-440). -/
def commonEnv (fa fb : Bool) (ea eb bb : List Nat) : List Nat :=
  if fa then (if fb then ea.filter (· ∈ bb) else ea) else (if fb then eb else [])

/-- `fallsthru` (Env.hs:1316). -/
def falls {V W : Type} (ss : Suite V W) : Bool := (flowsS ss).contains .SEQ

mutual
/-- `envOf` on statements (QuickType.hs:425-435): the variables a statement declares. After `try` with
`finally` (`$PUSHF`) these are the ones of the body and those of the `finally` suite. -/
def envOf {V W : Type} : Stmt V W → List Nat
  | .decl x _ => [x]
  | .declCall x _ => [x]
  | .pop x => [x]
  | .ite _ a b => commonEnv (falls a) (falls b) (envOfS a) (envOfS b) (boundS b)
  | .tryS true b h => envOfS b ++ envOfS h
  | .tryS false b h => commonEnv (falls b) (falls h) (envOfS b) (envOfS h) (boundS h)
  | _ => []
def envOfS {V W : Type} : Suite V W → List Nat
  | .nil => []
  | .cons s ss => envOf s ++ envOfS ss
end

mutual
/-- `needCont` (CPS.hs:325-346) inside a procedure; `lp` is `inLoop`. -/
def needCont {V W : Type} (lp : Bool) : Stmt V W → Bool
  | .ret _ => true
  | .retCall _ => true
  | .brk => !lp
  | .cnt => !lp
  | .call _ => true
  | .declCall _ _ => true
  | .updCall _ _ => true
  | .mutCall _ _ _ => true
  | .ite _ a b => needContS lp a || needContS lp b
  | .whl _ b els => needContS true b || needContS lp els
  | .tryS _ b h => needContS lp b || needContS lp h
  | _ => false
def needContS {V W : Type} (lp : Bool) : Suite V W → Bool
  | .nil => false
  | .cons s ss => needCont lp s || needContS lp ss
end

mutual
/-- `volatileVars` (CPS.hs:225-232): the variables updated in a `try` body that is converted. They are
kept in cells. -/
def vols {V W : Type} : Stmt V W → List Nat
  | .tryS fin b h =>
      if needCont false (.tryS fin b h) then updatesS b ++ volsS b ++ volsS h else volsS b ++ volsS h
  | .ite _ a b => volsS a ++ volsS b
  | .whl _ b els => volsS b ++ volsS els
  | _ => []
def volsS {V W : Type} : Suite V W → List Nat
  | .nil => []
  | .cons s ss => vols s ++ volsS ss
end

/-! ### The generated code -/

/-- An operand of generated code: a variable, read through its cell if `cell`, or the parameter `res` of
the continuation the code is in. -/
inductive Arg
  | v (x : Nat) (cell : Bool)
  | res
  deriving DecidableEq, Repr

/-- A converted expression. -/
inductive TExp (V W : Type) where
  | arg (a : Arg)
  | op (f : List V → W → Ev V W) (xs : List Arg)

mutual
/-- Statements that stay in direct style. `decl true x e` is `x = Cell(e)`, `upd true x e` is
`x.cell = e`; `dropC` and `popC` are `$DROP_C()` and `$POP_C()`. `bad` marks what direct style has no
form for: a statement that needs a continuation. -/
inductive DStmt (V W : Type) where
  | exp (e : TExp V W)
  | decl (cell : Bool) (x : Nat) (e : TExp V W)
  | upd (cell : Bool) (x : Nat) (e : TExp V W)
  | ite (e : TExp V W) (a b : DSuite V W)
  | whl (e : TExp V W) (b els : DSuite V W)
  | tryS (b h : DSuite V W)
  | drop
  | pop (cell : Bool) (x : Nat)
  | dropC
  | popC (cell : Bool) (x : Nat)
  | raise (e : TExp V W)
  | brk
  | cnt
  | bad
inductive DSuite (V W : Type) where
  | nil
  | cons (s : DStmt V W) (ss : DSuite V W)
end

/-- An expression that denotes a continuation: the parameter of the procedure, a continuation made by
`kRef` (CPS.hs:286-287) and `$SKIPRES` of one (CPS.hs:138). `bad` is `brkcont` and `cntcont` outside a
loop, which fail. -/
inductive KExp
  | meth
  | ref (k : Nat) (ns : List Nat)
  | skip (κ : KExp)
  | bad
  deriving DecidableEq, Repr

/-- The body of a procedure or a continuation. `kdef k ps b rest` is `def k(res, ps): b` followed by
`rest` (`kDef`, CPS.hs:279); the others return: `cont κ e` is `$R_CONT(κ, e)`, `call f xs κ` is
`f(κ, xs)`, `push κ` is `$PUSH_C(κ)`, `jump k ns` is `k(None, ns)` (`kJump`, CPS.hs:264). -/
inductive Code (V W : Type) where
  | simp (s : DStmt V W) (rest : Code V W)
  | kdef (k : Nat) (ps : List Nat) (body rest : Code V W)
  | cont (κ : KExp) (e : Option (TExp V W))
  | call (f : List V → W → Ev V W) (xs : List Arg) (κ : KExp)
  | push (κ : KExp)
  | jump (k : Nat) (ns : List Nat)
  | ite (e : TExp V W) (a b : Code V W)

/-- `conv` of a variable (CPS.hs:589-590). -/
def cv (Vol : List Nat) (x : Nat) : Arg := .v x (decide (x ∈ Vol))

/-- `conv` of an expression (CPS.hs:588-616). -/
def convE {V W : Type} (Vol : List Nat) : Exp V W → TExp V W
  | .var x => .arg (cv Vol x)
  | .op f xs => .op f (xs.map (cv Vol))

mutual
/-- `conv` of a statement (CPS.hs:567-579), after `convPOPDROP` (CPS.hs:308-316) if `pd`: it renames
`$DROP` and `$POP`, but not inside a further `try`. -/
def conv {V W : Type} (Vol : List Nat) (pd : Bool) : Stmt V W → DStmt V W
  | .exp e => .exp (convE Vol e)
  | .decl x e => .decl (decide (x ∈ Vol)) x (convE Vol e)
  | .upd x e => .upd (decide (x ∈ Vol)) x (convE Vol e)
  | .ite e a b => .ite (convE Vol e) (convS Vol pd a) (convS Vol pd b)
  | .whl e b els => .whl (convE Vol e) (convS Vol pd b) (convS Vol pd els)
  | .tryS _ b h => .tryS (convS Vol false b) (convS Vol false h)
  | .drop => if pd then .dropC else .drop
  | .pop x => if pd then .popC (decide (x ∈ Vol)) x else .pop (decide (x ∈ Vol)) x
  | .raise e => .raise (convE Vol e)
  | .brk => .brk
  | .cnt => .cnt
  | _ => .bad
def convS {V W : Type} (Vol : List Nat) (pd : Bool) : Suite V W → DSuite V W
  | .nil => .nil
  | .cons s ss => .cons (conv Vol pd s) (convS Vol pd ss)
end

/-- The frames `Seq` and `Loop` of the context (CPS.hs:63-66); the frame `Meth` is the end of the list. -/
inductive Frame
  | seq (k : Nat) (ns : List Nat)
  | loop (k : Nat) (ns : List Nat)
  deriving DecidableEq, Repr

/-- `seqcont` (CPS.hs:106-108). -/
def seqcont : List Frame → KExp
  | .seq k ns :: _ => .ref k ns
  | .loop k ns :: _ => .ref k ns
  | [] => .meth

/-- `cntcont` (CPS.hs:100-101). -/
def cntcont : List Frame → KExp
  | .seq _ _ :: F => cntcont F
  | .loop k ns :: _ => .ref k ns
  | [] => .bad

/-- `brkcont` (CPS.hs:103-104). -/
def brkcont : List Frame → KExp
  | .seq _ _ :: F => brkcont F
  | .loop _ _ :: F => seqcont F
  | [] => .bad

/-- Haskell's `nub`. -/
def nub : List Nat → List Nat
  | [] => []
  | x :: xs => x :: (nub xs).filter (· ≠ x)

/-- `extraBinds` (CPS.hs:223), given the updates of the suite; `Γ` holds the variables of the
environment. -/
def extraBinds (Vol Γ us : List Nat) : List Nat := (nub us).filter (fun x => decide (x ∉ Vol) && decide (x ∈ Γ))

/-- The continuation of a call in last position: its result is dropped unless it is `None`
(CPS.hs:135-139). -/
def contOf {V W : Type} (c : Call V W) (κ : KExp) : KExp := if c.unit then κ else .skip κ

/-- The suite begins with `return x` (CPS.hs:131-133). -/
def startsRet {V W : Type} (x : Nat) : Suite V W → Bool
  | .cons (.ret (.var y)) _ => decide (y = x)
  | _ => false

/-- The statement is the last one. -/
def isLast {V W : Type} : Suite V W → Option (Exp V W) → Bool
  | .nil, none => true
  | _, _ => false

/-- The statement after an `if` is `$RAISE(e)` (CPS.hs:197-198). -/
def headRaise {V W : Type} : Suite V W → Option (Exp V W) → Option (Exp V W)
  | .nil, tl => tl
  | .cons (.raise e) _, _ => some e
  | _, _ => none

/-- The statement is an `If` in the abstract syntax. -/
def isIf {V W : Type} : Stmt V W → Bool
  | .ite _ _ _ => true
  | .tryS _ _ _ => true
  | _ => false

/-- The variables of an appended `$RAISE`. -/
def tlReads {V W : Type} : Option (Exp V W) → List Nat
  | none => []
  | some e => e.fv

/-- The parameters of the continuation after `s` besides `res` (CPS.hs:217-219). -/
def seqNts {V W : Type} (Vol Γ : List Nat) (tl : Option (Exp V W)) (s : Stmt V W) (ss : Suite V W) : List Nat :=
  (envOf s).filter (· ∈ readsS ss ++ tlReads tl) ++ extraBinds Vol (Γ ++ envOf s) (updatesS ss)

/-- The code for the end of a suite (CPS.hs:119-120), after the appended `$RAISE` if there is one. -/
def endCode {V W : Type} (Vol : List Nat) (F : List Frame) : Option (Exp V W) → Code V W
  | none => .cont (seqcont F) none
  | some e => .simp (.raise (convE Vol e)) (.cont (seqcont F) none)

mutual
/-- `cps` on a suite (CPS.hs:118-219), with the counter for names of continuations. `Γ` is the list of
variables in the environment, `F` the context. The rule for an `if` followed by `$RAISE(e)` appends that
statement to the branches (CPS.hs:197-198): `tl` is the appended statement. `pd` says that `convPOPDROP`
has been applied to the suite (CPS.hs:185-186). -/
def cps {V W : Type} (Vol Γ : List Nat) (F : List Frame) (tl : Option (Exp V W)) (pd : Bool) :
    Suite V W → Nat → Code V W × Nat
  | .nil, n => (endCode Vol F tl, n)
  | .cons s ss, n =>
    match s with
    | .brk => (.cont (brkcont F) none, n)
    | .cnt => (.cont (cntcont F) none, n)
    | .ret e => (.cont .meth (some (convE Vol e)), n)
    | .retCall c => (.call c.f (c.xs.map (cv Vol)) .meth, n)
    | .call c =>
      if isLast ss tl then (.call c.f (c.xs.map (cv Vol)) (contOf c (seqcont F)), n)
      else
        let nts := extraBinds Vol Γ (updatesS ss)
        let r := cps Vol Γ F tl pd ss (n + 1)
        (.kdef n nts r.1 (.call c.f (c.xs.map (cv Vol)) (.ref n nts)), r.2)
    | .declCall x c =>
      if startsRet x ss then (.call c.f (c.xs.map (cv Vol)) .meth, n)
      else
        let nts := extraBinds Vol Γ (updatesS ss)
        let r := cps Vol (Γ ++ [x]) F tl pd ss (n + 1)
        (.kdef n nts (.simp (.decl (decide (x ∈ Vol)) x (.arg .res)) r.1)
          (.call c.f (c.xs.map (cv Vol)) (.ref n nts)), r.2)
    | .updCall x c =>
      let nts := extraBinds Vol Γ (x :: updatesS ss)
      let r := cps Vol Γ F tl pd ss (n + 1)
      (.kdef n nts (.simp (.upd (decide (x ∈ Vol)) x (.arg .res)) r.1)
        (.call c.f (c.xs.map (cv Vol)) (.ref n nts)), r.2)
    | .mutCall f xs c =>
      let nts := extraBinds Vol Γ (updatesS ss)
      let r := cps Vol Γ F tl pd ss (n + 1)
      (.kdef n nts (.simp (.exp (.op f (xs.map (cv Vol) ++ [.res]))) r.1)
        (.call c.f (c.xs.map (cv Vol)) (.ref n nts)), r.2)
    | s =>
      if needCont false s then
        if isLast ss tl then cpsOne Vol Γ F none pd s n
        else if isIf s && (headRaise ss tl).isSome then cpsOne Vol Γ F (headRaise ss tl) pd s n
        else
          let nts := seqNts Vol Γ tl s ss
          let r := cps Vol (Γ ++ envOf s) F tl pd ss (n + 1)
          let q := cpsOne Vol Γ (.seq n nts :: F) none pd s r.2
          (.kdef n nts r.1 q.1, q.2)
      else
        let r := cps Vol (Γ ++ envOf s) F tl pd ss n
        (.simp (conv Vol pd s) r.1, r.2)
/-- `cps` on a single `if`, `while` or `try` that needs a continuation (CPS.hs:182-208). -/
def cpsOne {V W : Type} (Vol Γ : List Nat) (F : List Frame) (tl : Option (Exp V W)) (pd : Bool) :
    Stmt V W → Nat → Code V W × Nat
  | .ite e a b, n =>
    let r := cps Vol Γ F tl pd a n
    let q := cps Vol Γ F tl pd b r.2
    (.ite (convE Vol e) r.1 q.1, q.2)
  | .whl e b els, n =>
    let nts := extraBinds Vol Γ (updatesS b ++ updatesS els)
    let r := cps Vol Γ (.loop n nts :: F) none pd b (n + 1)
    let q := cps Vol Γ F none pd els r.2
    (.kdef n nts (.ite (convE Vol e) r.1 q.1) (.jump n nts), q.2)
  | .tryS _ b h, n =>
    let nts := extraBinds Vol Γ (updatesS b ++ updatesS h)
    let r := cps Vol Γ F tl true b (n + 1)
    let q := cps Vol Γ F tl true h r.2
    (.kdef n nts (.ite (.arg .res) r.1 q.1) (.push (.ref n nts)), q.2)
  | _, n => (.cont .bad none, n)
end

/-- A procedure: its parameters and its body. -/
structure Proc (V W : Type) where
  params : List Nat
  body : Suite V W

/-- `volatileVars env2 b` (CPS.hs:248). -/
def Proc.vol {V W : Type} (p : Proc V W) : List Nat := volsS p.body

/-- `volinits` (CPS.hs:249-250): parameters kept in cells are moved there first. -/
def volInits {V W : Type} : List Nat → Code V W → Code V W
  | [], c => c
  | x :: xs, c => .simp (.decl true x (.arg (.v x false))) (volInits xs c)

/-- `cps` on the definition of a procedure (CPS.hs:239-253). -/
def Proc.code {V W : Type} (p : Proc V W) : Code V W :=
  volInits (p.params.filter (· ∈ p.vol)) (cps p.vol p.params [] none false p.body 0).1

/-! ### The variables continuations capture -/

/-- The variables of an operand; `res` is a parameter of its own continuation. -/
def Arg.fv : Arg → List Nat
  | .v x _ => [x]
  | .res => []

/-- The variables of a converted expression. -/
def TExp.fv {V W : Type} : TExp V W → List Nat
  | .arg a => a.fv
  | .op _ xs => xs.flatMap Arg.fv

mutual
/-- `free` on direct-style statements (Names.hs:195-216). -/
def freeD {V W : Type} : DStmt V W → List Nat
  | .exp e => e.fv
  | .decl _ _ e => e.fv
  | .upd cell x e => (if cell then [x] else []) ++ e.fv
  | .ite e a b => e.fv ++ freeDS a ++ freeDS b
  | .whl e b els => e.fv ++ freeDS b ++ freeDS els
  | .tryS b h => freeDS b ++ freeDS h
  | .raise e => e.fv
  | _ => []
def freeDS {V W : Type} : DSuite V W → List Nat
  | .nil => []
  | .cons s ss => freeD s ++ freeDS ss
end

mutual
/-- `assigned` on direct-style statements (Names.hs:229-237): an assignment to a cell is no assignment to
its variable. -/
def assignedD {V W : Type} : DStmt V W → List Nat
  | .decl _ x _ => [x]
  | .upd cell x _ => if cell then [] else [x]
  | .pop _ x => [x]
  | .popC _ x => [x]
  | .ite _ a b => assignedDS a ++ assignedDS b
  | .whl _ b els => assignedDS b ++ assignedDS els
  | .tryS b h => assignedDS b ++ assignedDS h
  | _ => []
def assignedDS {V W : Type} : DSuite V W → List Nat
  | .nil => []
  | .cons s ss => assignedD s ++ assignedDS ss
end

/-- The variables an expression for a continuation mentions: the arguments of `kRef`'s lambda. -/
def KExp.vars : KExp → List Nat
  | .ref _ ns => ns
  | .skip κ => κ.vars
  | _ => []

/-- The continuations an expression mentions. -/
def KExp.refs : KExp → List Nat
  | .ref k _ => [k]
  | .skip κ => κ.refs
  | _ => []

/-- `assigned` on a body (Names.hs:229-237). -/
def assignedC {V W : Type} : Code V W → List Nat
  | .simp s c => assignedD s ++ assignedC c
  | .kdef _ _ _ c => assignedC c
  | .ite _ a b => assignedC a ++ assignedC b
  | _ => []

/-- `free` on a body, variables only: those a nested definition reads count unless it has them as
parameter or assigns to them (Names.hs:240-242). -/
def freeC {V W : Type} : Code V W → List Nat
  | .simp s c => freeD s ++ freeC c
  | .kdef _ ps b c => (freeC b).filter (· ∉ ps ++ assignedC b) ++ freeC c
  | .cont κ none => κ.vars
  | .cont κ (some e) => e.fv ++ κ.vars
  | .call _ xs κ => xs.flatMap Arg.fv ++ κ.vars
  | .push κ => κ.vars
  | .jump _ ns => ns
  | .ite e a b => e.fv ++ freeC a ++ freeC b

/-- `free` on a body, continuations only. -/
def refsC {V W : Type} : Code V W → List Nat
  | .simp _ c => refsC c
  | .kdef k _ b c => (refsC b ++ refsC c).filter (· ≠ k)
  | .cont κ _ => κ.refs
  | .call _ _ κ => κ.refs
  | .push κ => κ.refs
  | .jump k _ => [k]
  | .ite _ a b => refsC a ++ refsC b

/-- A continuation in scope: its parameters, its body and the variables the lambda lifter adds as
parameters (`freemap`, LambdaLifter.hs:104). -/
structure KFun (V W : Type) where
  name : Nat
  ps : List Nat
  fvs : List Nat
  body : Code V W

/-- The continuation of a name, with the continuations in scope in its body. -/
def findK {V W : Type} (k : Nat) : List (KFun V W) → Option (KFun V W × List (KFun V W))
  | [] => none
  | f :: Φ => if f.name = k then some (f, f :: Φ) else findK k Φ

/-- The entry of `freemap` (LambdaLifter.hs:135-137). -/
def fvsOf {V W : Type} (Φ : List (KFun V W)) (k : Nat) : List Nat :=
  match findK k Φ with
  | some (f, _) => f.fvs
  | none => []

/-! ### Running the generated code -/

/-- What a variable of the generated code holds. -/
inductive TV (V : Type) where
  | val (v : V)
  | cell (a : Nat)

/-- A continuation at run time: that of the caller, or a body with its captured variables. -/
inductive Clo (V W : Type) where
  | done
  | fn (body : Code V W) (Φ : List (KFun V W)) (ρ : Nat → Option (TV V))

/-- The state of the actor: the world, the cells, and the list of catchers with their exceptions
(rts.h, `$Catcher`). -/
structure T (V W : Type) where
  w : W
  cells : List V
  cat : List (Clo V W × Option V)

/-- The state of direct-style code: `loc` holds the jump buffers pushed by the running continuation. -/
structure D (V W : Type) where
  ρ : Nat → Option (TV V)
  t : T V W
  loc : List (Option V)

/-- How direct-style code stops. -/
inductive DOut (V W : Type) where
  | nxt (d : D V W)
  | brk (d : D V W)
  | cnt (d : D V W)
  | exn (x : V) (d : D V W)
  | stuck
  | timeout

/-- The value of an operand. -/
def evalA {V : Type} (ρ : Nat → Option (TV V)) (cells : List V) (res : V) : Arg → Option V
  | .res => some res
  | .v x false => match ρ x with | some (.val v) => some v | _ => none
  | .v x true => match ρ x with | some (.cell a) => cells[a]? | _ => none

/-- The values of a list of operands. -/
def evalAs {V : Type} (ρ : Nat → Option (TV V)) (cells : List V) (res : V) : List Arg → Option (List V)
  | [] => some []
  | a :: as => match evalA ρ cells res a, evalAs ρ cells res as with
    | some v, some vs => some (v :: vs)
    | _, _ => none

/-- The value of an expression; `none` if a variable has no value of the right kind. -/
def evalT {V W : Type} (ρ : Nat → Option (TV V)) (cells : List V) (res : V) (w : W) : TExp V W → Option (Ev V W)
  | .arg a => (evalA ρ cells res a).map (fun v => .ok v w)
  | .op f xs => (evalAs ρ cells res xs).map (fun vs => f vs w)

/-- Set a variable. -/
def set {A : Type} (ρ : Nat → Option A) (x : Nat) (a : A) : Nat → Option A := fun y => if y = x then some a else ρ y

/-- Continue with the value of an expression. -/
def onEv {V W : Type} (d : D V W) (r : Option (Ev V W)) (k : V → D V W → DOut V W) : DOut V W :=
  match r with
  | some (.ok v w) => k v { d with t := { d.t with w := w } }
  | some (.exn x w) => .exn x { d with t := { d.t with w := w } }
  | none => .stuck

/-- `x = v`, or `x = Cell(v)`. -/
def D.declare {V W : Type} (d : D V W) (cell : Bool) (x : Nat) (v : V) : D V W :=
  if cell then { d with ρ := set d.ρ x (.cell d.t.cells.length), t := { d.t with cells := d.t.cells ++ [v] } }
  else { d with ρ := set d.ρ x (.val v) }

/-- `x = v` for a known variable, or `x.cell = v`. -/
def D.update {V W : Type} (d : D V W) (cell : Bool) (x : Nat) (v : V) : DOut V W :=
  match cell, d.ρ x with
  | false, some (.val _) => .nxt { d with ρ := set d.ρ x (.val v) }
  | true, some (.cell a) =>
    if a < d.t.cells.length then .nxt { d with t := { d.t with cells := d.t.cells.set a v } } else .stuck
  | _, _ => .stuck

/-- Statements in sequence. -/
def DOut.seq {V W : Type} (o : DOut V W) (k : D V W → DOut V W) : DOut V W :=
  match o with
  | .nxt d => k d
  | o => o

/-- The end of a loop body. -/
def DOut.again {V W : Type} (o : DOut V W) (k : D V W → DOut V W) : DOut V W :=
  match o with
  | .nxt d => k d
  | .cnt d => k d
  | .brk d => .nxt d
  | o => o

/-- The iterations of a `while`, at most as many as given. -/
def dloop {V W : Type} (P : Prims V) (test : D V W → Option (Ev V W)) (body els : D V W → DOut V W) :
    Nat → D V W → DOut V W
  | 0, _ => .timeout
  | n + 1, d => onEv d (test d) fun v d => if P.truth v then (body d).again (dloop P test body els n) else els d

/-- A `try` must not be left while its own buffer is the newest one: a later exception would jump into a
block that is no longer running. -/
def DOut.close {V W : Type} (L : Nat) : DOut V W → DOut V W
  | .nxt d => if d.loc.length ≤ L then .nxt d else .stuck
  | .brk d => if d.loc.length ≤ L then .brk d else .stuck
  | .cnt d => if d.loc.length ≤ L then .cnt d else .stuck
  | .exn x d => if d.loc.length ≤ L then .exn x d else .stuck
  | o => o

/-- `if $PUSH(): body else: handler` (rts.c:975-1008): an exception goes to the newest buffer. -/
def dtry {V W : Type} (L : Nat) (h : D V W → DOut V W) (o : DOut V W) : DOut V W :=
  match o with
  | .exn x d =>
    if d.loc.length = L + 1 then (h { d with loc := some x :: d.loc.tail }).close L else (DOut.exn x d).close L
  | o => o.close L

mutual
/-- Direct-style code; `n` bounds the iterations of each loop. -/
def evalD {V W : Type} (P : Prims V) (n : Nat) (res : V) : DStmt V W → D V W → DOut V W
  | .exp e, d => onEv d (evalT d.ρ d.t.cells res d.t.w e) fun _ d => .nxt d
  | .decl c x e, d => onEv d (evalT d.ρ d.t.cells res d.t.w e) fun v d => .nxt (d.declare c x v)
  | .upd c x e, d => onEv d (evalT d.ρ d.t.cells res d.t.w e) fun v d => d.update c x v
  | .ite e a b, d => onEv d (evalT d.ρ d.t.cells res d.t.w e) fun v d =>
      if P.truth v then evalDS P n res a d else evalDS P n res b d
  | .whl e b els, d =>
      dloop P (fun d => evalT d.ρ d.t.cells res d.t.w e) (evalDS P n res b) (evalDS P n res els) n d
  | .tryS b h, d => dtry d.loc.length (evalDS P n res h) (evalDS P n res b { d with loc := none :: d.loc })
  | .drop, d => match d.loc with | [] => .stuck | _ :: st => .nxt { d with loc := st }
  | .pop c x, d => match d.loc with | some v :: st => .nxt ({ d with loc := st }.declare c x v) | _ => .stuck
  | .dropC, d => match d.t.cat with | [] => .stuck | _ :: cs => .nxt { d with t := { d.t with cat := cs } }
  | .popC c x, d => match d.t.cat with
    | (_, some v) :: cs => .nxt ({ d with t := { d.t with cat := cs } }.declare c x v)
    | _ => .stuck
  | .raise e, d => onEv d (evalT d.ρ d.t.cells res d.t.w e) fun v d => .exn v d
  | .brk, d => .brk d
  | .cnt, d => .cnt d
  | .bad, _ => .stuck
def evalDS {V W : Type} (P : Prims V) (n : Nat) (res : V) : DSuite V W → D V W → DOut V W
  | .nil, d => .nxt d
  | .cons s ss, d => (evalD P n res s d).seq (evalDS P n res ss)
end

/-- The entry `llSuite` makes for a definition (LambdaLifter.hs:181-199): its free variables and those of
the continuations it mentions, without its parameters. The lambda lifter adds those that are in scope at
the definition (`findFree`, LambdaLifter.hs:135-137, 239); here these are the ones with a value. -/
def mkFun {V W : Type} (Φ : List (KFun V W)) (ρ : Nat → Option (TV V)) (k : Nat) (ps : List Nat) (b : Code V W) :
    KFun V W :=
  ⟨k, ps, ((freeC b).filter (· ∉ ps ++ assignedC b) ++ (refsC b).flatMap (fvsOf Φ)).filter
    (fun x => decide (x ∉ ps) && (ρ x).isSome), b⟩

/-- The variables of a new activation of a continuation: its parameters and the captured ones. -/
def bindK {V : Type} (ρ : Nat → Option (TV V)) (ps ns fvs : List Nat) : Nat → Option (TV V) := fun x =>
  match (ps.zip ns).lookup x with
  | some y => ρ y
  | none => if x ∈ fvs then ρ x else none

/-- The closure made for a reference to a continuation, or for the lambda `kRef` makes
(LambdaLifter.hs:321-331, 358-362): all variables are read when the closure is made. -/
def mkClo {V W : Type} (Φ : List (KFun V W)) (ρ : Nat → Option (TV V)) (k : Nat) (ns : List Nat) : Option (Clo V W) :=
  match findK k Φ with
  | none => none
  | some (f, Φ') =>
    if ((ns ++ f.fvs).all fun x => (ρ x).isSome) && decide (ns.length = f.ps.length)
    then some (.fn f.body Φ' (bindK ρ f.ps ns f.fvs)) else none

/-- The value of an expression for a continuation. `$SKIPRES` does nothing (base/builtin/common.h:60). -/
def evalK {V W : Type} (Φ : List (KFun V W)) (ρ : Nat → Option (TV V)) : KExp → Option (Clo V W)
  | .meth => some .done
  | .ref k ns => mkClo Φ ρ k ns
  | .skip κ => evalK Φ ρ κ
  | .bad => none

/-- What a body returns to the worker loop. -/
inductive Next (V W : Type) where
  | apply (c : Clo V W) (v : V) (t : T V W)
  | throw (x : V) (t : T V W)
  | stuck
  | timeout

/-- Pass a value to a continuation. -/
def toK {V W : Type} (κ : Option (Clo V W)) (v : V) (t : T V W) : Next V W :=
  match κ with
  | some c => .apply c v t
  | none => .stuck

/-- Return the value of an expression to a continuation. -/
def retEv {V W : Type} (t : T V W) (κ : Option (Clo V W)) (r : Option (Ev V W)) : Next V W :=
  match r, κ with
  | some (.ok v w), some c => .apply c v { t with w := w }
  | some (.exn x w), some _ => .throw x { t with w := w }
  | _, _ => .stuck

/-- Continue a body after its direct-style part. An exception no buffer of the body catches is caught by
the worker loop. -/
def afterD {V W : Type} (o : DOut V W) (k : (Nat → Option (TV V)) → T V W → Next V W) : Next V W :=
  match o with
  | .nxt d => if d.loc = [] then k d.ρ d.t else .stuck
  | .exn x d => if d.loc = [] then .throw x d.t else .stuck
  | .timeout => .timeout
  | _ => .stuck

/-- One activation of a body. -/
def step {V W : Type} (P : Prims V) (n : Nat) (res : V) :
    Code V W → List (KFun V W) → (Nat → Option (TV V)) → T V W → Next V W
  | .simp s c, Φ, ρ, t => afterD (evalD P n res s ⟨ρ, t, []⟩) (fun ρ t => step P n res c Φ ρ t)
  | .kdef k ps b c, Φ, ρ, t => step P n res c (mkFun Φ ρ k ps b :: Φ) ρ t
  | .cont κ none, Φ, ρ, t => toK (evalK Φ ρ κ) P.none t
  | .cont κ (some e), Φ, ρ, t => retEv t (evalK Φ ρ κ) (evalT ρ t.cells res t.w e)
  | .call f xs κ, Φ, ρ, t => retEv t (evalK Φ ρ κ) ((evalAs ρ t.cells res xs).map (fun vs => f vs t.w))
  | .push κ, Φ, ρ, t => match evalK Φ ρ κ with
    | some c => .apply c P.tt { t with cat := (c, none) :: t.cat }
    | none => .stuck
  | .jump k ns, Φ, ρ, t => toK (mkClo Φ ρ k ns) P.none t
  | .ite e a b, Φ, ρ, t => match evalT ρ t.cells res t.w e with
    | some (.ok v w) => if P.truth v then step P n res a Φ ρ { t with w := w } else step P n res b Φ ρ { t with w := w }
    | some (.exn x w) => .throw x { t with w := w }
    | none => .stuck

/-- How a procedure ends: with a value, the world and the number of catchers left behind, or with an
exception nothing catches. -/
inductive Fin (V W : Type) where
  | fin (v : V) (w : W) (d : Nat)
  | raised (x : V) (w : W)
  | stuck
  | timeout
  deriving DecidableEq

/-- The worker loop (rts.c:1688-1760), for `m` activations at most. `$RFAIL` goes to the newest catcher,
which stays in the list and gets the exception; its continuation gets `False` (rts.c:1750-1757). -/
def run {V W : Type} (P : Prims V) (n : Nat) : Nat → Next V W → Fin V W
  | 0, _ => .timeout
  | _ + 1, .stuck => .stuck
  | _ + 1, .timeout => .timeout
  | _ + 1, .apply .done v t => .fin v t.w t.cat.length
  | m + 1, .apply (.fn b Φ ρ) v t => run P n m (step P n v b Φ ρ t)
  | m + 1, .throw x t =>
    match t.cat with
    | [] => .raised x t.w
    | (c, _) :: cs => run P n m (.apply c P.ff { t with cat := (c, some x) :: cs })

/-- The variables of a new activation of a procedure. -/
def bindParams {V : Type} : List Nat → List V → Nat → Option V
  | x :: xs, v :: vs => fun y => if y = x then some v else bindParams xs vs y
  | _, _ => fun _ => none

/-- A converted procedure, called with the continuation of its caller and no catchers of its own. -/
def Proc.runCps {V W : Type} (P : Prims V) (p : Proc V W) (n m : Nat) (vs : List V) (w : W) : Fin V W :=
  run P n m (step P n P.none p.code [] (fun x => (bindParams p.params vs x).map .val) ⟨w, [], []⟩)

end Verif.Cps
