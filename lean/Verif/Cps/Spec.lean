import Verif.Cps.Model

/-!
What a procedure means before the conversion, and the conditions under which the conversion keeps that
meaning. The meaning does not mention continuations: statements run one after the other, a `try` pushes an
entry on a stack, and an exception goes to the `try` whose entry is the newest.
-/
namespace Verif.Cps

/-- The state of a procedure before the conversion. `stk` holds an entry per pushed `try`, with the
exception it has caught. -/
structure S (V W : Type) where
  σ : Nat → Option V
  w : W
  stk : List (Option V)

/-- How a statement stops. -/
inductive Out (V W : Type) where
  | nxt (s : S V W)
  | brk (s : S V W)
  | cnt (s : S V W)
  | ret (v : V) (s : S V W)
  | exn (x : V) (s : S V W)
  | stuck
  | timeout

/-- The values of variables. -/
def rd {V : Type} (σ : Nat → Option V) : List Nat → Option (List V)
  | [] => some []
  | x :: xs => match σ x, rd σ xs with
    | some v, some vs => some (v :: vs)
    | _, _ => none

/-- The value of an expression. -/
def evalE {V W : Type} (σ : Nat → Option V) (w : W) : Exp V W → Option (Ev V W)
  | .var x => (σ x).map (fun v => .ok v w)
  | .op f xs => (rd σ xs).map (fun vs => f vs w)

/-- The result of a call. -/
def evalCall {V W : Type} (σ : Nat → Option V) (w : W) (c : Call V W) : Option (Ev V W) :=
  (rd σ c.xs).map (fun vs => c.f vs w)

/-- Continue with the value of an expression. -/
def onE {V W : Type} (s : S V W) (r : Option (Ev V W)) (k : V → S V W → Out V W) : Out V W :=
  match r with
  | some (.ok v w) => k v { s with w := w }
  | some (.exn x w) => .exn x { s with w := w }
  | none => .stuck

/-- Assign to a variable that has a value. -/
def S.update {V W : Type} (s : S V W) (x : Nat) (v : V) : Out V W :=
  match s.σ x with
  | some _ => .nxt { s with σ := set s.σ x v }
  | none => .stuck

/-- Statements in sequence. -/
def Out.seq {V W : Type} (o : Out V W) (k : S V W → Out V W) : Out V W :=
  match o with
  | .nxt s => k s
  | o => o

/-- The end of a loop body. -/
def Out.again {V W : Type} (o : Out V W) (k : S V W → Out V W) : Out V W :=
  match o with
  | .nxt s => k s
  | .cnt s => k s
  | .brk s => .nxt s
  | o => o

/-- The iterations of a `while`, at most as many as given. -/
def loop {V W : Type} (P : Prims V) (test : S V W → Option (Ev V W)) (body els : S V W → Out V W) :
    Nat → S V W → Out V W
  | 0, _ => .timeout
  | n + 1, s => onE s (test s) fun v s => if P.truth v then (body s).again (loop P test body els n) else els s

/-- A `try` must not be left with its own entry on the stack, except by `return`, which then leaves it
there. -/
def Out.close {V W : Type} (L : Nat) : Out V W → Out V W
  | .nxt s => if s.stk.length ≤ L then .nxt s else .stuck
  | .brk s => if s.stk.length ≤ L then .brk s else .stuck
  | .cnt s => if s.stk.length ≤ L then .cnt s else .stuck
  | .exn x s => if s.stk.length ≤ L then .exn x s else .stuck
  | o => o

/-- An exception in the body of a `try` goes to the handler if the entry of the `try` is the newest. -/
def tryOut {V W : Type} (L : Nat) (h : S V W → Out V W) (o : Out V W) : Out V W :=
  match o with
  | .exn x s =>
    if s.stk.length = L + 1 then (h { s with stk := some x :: s.stk.tail }).close L else (Out.exn x s).close L
  | o => o.close L

mutual
/-- The meaning of a statement; `n` bounds the iterations of each loop. -/
def eval {V W : Type} (P : Prims V) (n : Nat) : Stmt V W → S V W → Out V W
  | .exp e, s => onE s (evalE s.σ s.w e) fun _ s => .nxt s
  | .decl x e, s => onE s (evalE s.σ s.w e) fun v s => .nxt { s with σ := set s.σ x v }
  | .upd x e, s => onE s (evalE s.σ s.w e) fun v s => s.update x v
  | .call c, s => onE s (evalCall s.σ s.w c) fun _ s => .nxt s
  | .declCall x c, s => onE s (evalCall s.σ s.w c) fun v s => .nxt { s with σ := set s.σ x v }
  | .updCall x c, s => onE s (evalCall s.σ s.w c) fun v s => s.update x v
  | .mutCall f xs c, s => onE s (evalCall s.σ s.w c) fun v s =>
      onE s ((rd s.σ xs).map fun vs => f (vs ++ [v]) s.w) fun _ s => .nxt s
  | .ret e, s => onE s (evalE s.σ s.w e) fun v s => .ret v s
  | .retCall c, s => onE s (evalCall s.σ s.w c) fun v s => .ret v s
  | .brk, s => .brk s
  | .cnt, s => .cnt s
  | .ite e a b, s => onE s (evalE s.σ s.w e) fun v s => if P.truth v then evalS P n a s else evalS P n b s
  | .whl e b els, s => loop P (fun s => evalE s.σ s.w e) (evalS P n b) (evalS P n els) n s
  | .tryS _ b h, s => tryOut s.stk.length (evalS P n h) (evalS P n b { s with stk := none :: s.stk })
  | .drop, s => match s.stk with | [] => .stuck | _ :: st => .nxt { s with stk := st }
  | .pop x, s => match s.stk with | some v :: st => .nxt { s with σ := set s.σ x v, stk := st } | _ => .stuck
  | .raise e, s => onE s (evalE s.σ s.w e) fun v s => .exn v s
def evalS {V W : Type} (P : Prims V) (n : Nat) : Suite V W → S V W → Out V W
  | .nil, s => .nxt s
  | .cons s ss, st => (eval P n s st).seq (evalS P n ss)
end

/-- How the procedure ends: with a value, the world and the number of entries left behind, or with an
exception. -/
def Out.fin {V W : Type} (P : Prims V) : Out V W → Fin V W
  | .nxt s => .fin P.none s.w s.stk.length
  | .ret v s => .fin v s.w s.stk.length
  | .exn x s => .raised x s.w
  | .timeout => .timeout
  | _ => .stuck

/-- A call of the procedure before the conversion. -/
def Proc.run {V W : Type} (P : Prims V) (p : Proc V W) (n : Nat) (vs : List V) (w : W) : Fin V W :=
  (evalS P n p.body ⟨bindParams p.params vs, w, []⟩).fin P

/-! ### Conditions on the source -/

/-- Inclusion of lists. -/
def sub (xs ys : List Nat) : Bool := xs.all (· ∈ ys)

/-- The variables that the falling branches of two both set. -/
def sureBoth (fa fb : Bool) (sa sb : List Nat) : List Nat :=
  if fa then (if fb then sa.filter (· ∈ sb) else sa) else (if fb then sb else [])

mutual
/-- The variables that a statement has set when it stops normally. -/
def sure {V W : Type} : Stmt V W → List Nat
  | .decl x _ => [x]
  | .declCall x _ => [x]
  | .pop x => [x]
  | .ite _ a b => sureBoth (falls a) (falls b) (sureS a) (sureS b)
  | .tryS _ b h => sureBoth (falls b) (falls h) (sureS b) (sureS h)
  | _ => []
def sureS {V W : Type} : Suite V W → List Nat
  | .nil => []
  | .cons s ss => sure s ++ sureS ss
end

mutual
/-- The statement may stop normally. -/
def stops {V W : Type} : Stmt V W → Bool
  | .raise _ => false
  | .ret _ => false
  | .retCall _ => false
  | .brk => false
  | .cnt => false
  | .ite _ a b => stopsS a || stopsS b
  | .whl _ b els => breaksS b || stopsS els
  | .tryS _ b h => stopsS b || stopsS h
  | _ => true
def stopsS {V W : Type} : Suite V W → Bool
  | .nil => true
  | .cons s ss => stops s && stopsS ss
/-- The statement may stop with `break`. -/
def breaks {V W : Type} : Stmt V W → Bool
  | .brk => true
  | .ite _ a b => breaksS a || breaksS b
  | .whl _ _ els => breaksS els
  | .tryS _ b h => breaksS b || breaksS h
  | _ => false
def breaksS {V W : Type} : Suite V W → Bool
  | .nil => false
  | .cons s ss => breaks s || (stops s && breaksS ss)
end

/-- The variables used after the statement before `ss`, if `A` are those used after `ss`. -/
def later {V W : Type} (A : List Nat) (ss : Suite V W) : List Nat :=
  readsS ss ++ updatesS ss ++ A

/-- The statement has suites inside. -/
def isCompound {V W : Type} : Stmt V W → Bool
  | .ite _ _ _ => true
  | .whl _ _ _ => true
  | .tryS _ _ _ => true
  | _ => false

/-- The suite is empty. -/
def Suite.isNil {V W : Type} : Suite V W → Bool
  | .nil => true
  | _ => false

/-- What a statement declares for later use it has set whenever it stops normally. If the conversion makes
a continuation for what follows a compound statement, every variable that the statement sets and that is
used after the suite is used in the suite too, and every volatile one that the suite assigns is read in the suite too. -/
def inScope {V W : Type} (Vol A : List Nat) (s : Stmt V W) (ss : Suite V W) : Bool :=
  ((envOf s).all fun v => !decide (v ∈ later A ss) || decide (v ∈ sure s)) &&
  (!(needCont false s && isCompound s && !ss.isNil) ||
    (sure s).all fun v =>
      (!(falls ss && decide (v ∈ A)) || decide (v ∈ readsS ss ++ updatesS ss)) &&
      (!(decide (v ∈ updatesS ss) && decide (v ∈ Vol)) || decide (v ∈ readsS ss)))

mutual
/-- Variables are declared once and set before use. `L` are the variables set, `A` those used after the
statement. -/
def wf {V W : Type} (Vol A L : List Nat) : Stmt V W → Bool
  | .exp e => sub e.fv L
  | .decl x e => sub e.fv L && decide (x ∉ L)
  | .upd x e => sub e.fv L && decide (x ∈ L)
  | .call c => sub c.xs L
  | .declCall x c => sub c.xs L && decide (x ∉ L)
  | .updCall x c => sub c.xs L && decide (x ∈ L)
  | .mutCall _ xs c => sub c.xs L && sub xs L
  | .ret e => sub e.fv L
  | .retCall c => sub c.xs L
  | .brk => true
  | .cnt => true
  | .ite e a b => sub e.fv L && wfS Vol A L a && wfS Vol A L b
  | .whl e b els => sub e.fv L && wfS Vol [] L b && wfS Vol [] L els
  | .tryS _ b h => wfS Vol A L b && wfS Vol A L h
  | .drop => true
  | .pop x => decide (x ∉ L)
  | .raise e => sub e.fv L
def wfS {V W : Type} (Vol A L : List Nat) : Suite V W → Bool
  | .nil => true
  | .cons s ss => wf Vol (later A ss) L s && wfS Vol A (L ++ sure s) ss && inScope Vol A s ss
end

/-- How many buffers a piece of direct-style code has pushed when it stops normally: it never does, or
that number, or the code touches what it has not pushed. -/
inductive Depth
  | bad
  | no
  | at (d : Nat)
  deriving DecidableEq, Repr

/-- Two branches. -/
def Depth.join : Depth → Depth → Depth
  | .bad, _ => .bad
  | _, .bad => .bad
  | .no, d => d
  | d, .no => d
  | .at d, .at e => if d = e then .at d else .bad

/-- The code stops with the given number or not at all. -/
def Depth.back (d : Nat) : Depth → Bool
  | .no => true
  | .at e => decide (e = d)
  | .bad => false

mutual
/-- The number of pushed buffers after a statement without continuation that starts with `d`; `lp` is the
number at the start of the loop around it. If `pd`, `$DROP` and `$POP` are about the catchers. -/
def own {V W : Type} (pd : Bool) (lp : Option Nat) (d : Nat) : Stmt V W → Depth
  | .exp _ => .at d
  | .decl _ _ => .at d
  | .upd _ _ => .at d
  | .ite _ a b => (ownS pd lp d a).join (ownS pd lp d b)
  | .whl _ b els => if (ownS pd (some d) d b).back d && (ownS pd lp d els).back d then .at d else .bad
  | .tryS _ b h =>
    let r := (ownS false lp (d + 1) b).join (ownS false lp (d + 1) h)
    if r.back d then r else .bad
  | .drop => if pd then .at d else if d = 0 then .bad else .at (d - 1)
  | .pop _ => if pd then .at d else if d = 0 then .bad else .at (d - 1)
  | .raise _ => .no
  | .brk => if lp = some d then .no else .bad
  | .cnt => if lp = some d then .no else .bad
  | _ => .bad
def ownS {V W : Type} (pd : Bool) (lp : Option Nat) (d : Nat) : Suite V W → Depth
  | .nil => .at d
  | .cons s ss => match own pd lp d s with
    | .at d' => ownS pd lp d' ss
    | r => r
end

mutual
/-- Every statement that stays in direct style pops only what it has pushed itself. -/
def owns {V W : Type} (pd : Bool) : Stmt V W → Bool
  | .ite e a b => if needCont false (.ite e a b) then ownsS pd a && ownsS pd b else (own pd none 0 (.ite e a b)).back 0
  | .whl e b els => if needCont false (.whl e b els) then ownsS pd b && ownsS pd els
      else (own pd none 0 (.whl e b els)).back 0
  | .tryS f b h => if needCont false (.tryS f b h) then ownsS true b && ownsS true h
      else (own pd none 0 (.tryS f b h)).back 0
  | s => needCont false s || (own pd none 0 s).back 0
def ownsS {V W : Type} (pd : Bool) : Suite V W → Bool
  | .nil => true
  | .cons s ss => owns pd s && ownsS pd ss
end

/-- The conditions on a procedure. The last one the normalizer establishes (Normalizer.hs:495). -/
def Proc.ok {V W : Type} (p : Proc V W) : Bool :=
  decide p.params.Nodup && wfS p.vol [] p.params p.body && ownsS false p.body && !stopsS p.body

/-! ### Parameter lists -/

/-- The lists of parameters of the continuations defined in a piece of code. -/
def paramLists {V W : Type} : Code V W → List (List Nat)
  | .simp _ c => paramLists c
  | .kdef _ ps b c => ps :: (paramLists b ++ paramLists c)
  | .ite _ a b => paramLists a ++ paramLists b
  | _ => []

mutual
/-- A compound statement with calls declares each variable once, and the statements after it do not assign
to what it declares, except to volatile variables. -/
def once {V W : Type} (Vol : List Nat) : Stmt V W → Bool
  | .ite _ a b => onceS Vol a && onceS Vol b
  | .whl _ b els => onceS Vol b && onceS Vol els
  | .tryS _ b h => onceS Vol b && onceS Vol h
  | _ => true
def onceS {V W : Type} (Vol : List Nat) : Suite V W → Bool
  | .nil => true
  | .cons s ss => once Vol s && onceS Vol ss &&
    (!(needCont false s && isCompound s) ||
      decide (envOf s).Nodup && (envOf s).all fun v => !decide (v ∈ updatesS ss) || decide (v ∈ Vol))
end

end Verif.Cps
