import Mathlib.Data.List.Basic

/-!
The normalizer's translation of loops, `try` statements and the statements that leave them
(compiler/lib/src/Acton/Normalizer.hs:204-355), with the control flow analysis it relies on
(compiler/lib/src/Acton/Env.hs:1309-1346).

Both languages are generic in the state `S` of the program (everything user code can read and write),
its exceptions `E`, its values `V` and its iterators `I`. Expressions are functions on the state: what
the normalizer does inside expressions (comprehensions, operators, string literals) is not modelled,
nor are `with` (rejected by `notYet`), nested declarations and types.
-/
namespace Verif.Norm

/-- The result of an expression: a value, or an exception, and the new state. -/
inductive Ev (S E A : Type) where
  | ok (a : A) (s : S)
  | exc (e : E) (s : S)

/-- What `$RAISE` may throw: an exception of the program, or one of the four classes that carry control
flow through a `finally` clause (Prim.hs:73-81, exceptions.c:21-130). -/
inductive X (E V : Type) where
  | user (e : E)
  | SEQ
  | BRK
  | CNT
  | RET (v : V)

/-- The target of a `for`: a variable, or a pattern whose matching may raise (Normalizer.hs:335-342). -/
inductive Pat (S E V : Type) where
  | var (set : V → S → S)
  | pat (set : V → S → Ev S E Unit)

/-- The head of a handler: `except:`, `except C:` and `except C as z:` (Normalizer.hs:216-221). A class is
the test `isinstance` makes; the program may name a superclass of the control classes. -/
inductive Head (S E V : Type) where
  | all
  | exc (c : X E V → Bool)
  | excAs (c : X E V → Bool) (bind : X E V → S → S)

mutual
/-- Statements before normalization (Syntax.hs, `Stmt`). `act` stands for every statement without
control flow (expression, assignment, `pass`, `assert`, …); `retv` for a `return` whose expression
passes `isVal` (Normalizer.hs:240-256), `rete` for one whose expression does not. -/
inductive Stmt (S E V I : Type) where
  | act (f : S → Ev S E Unit)
  | raise (f : S → E × S)
  | retv (f : S → V)
  | rete (f : S → Ev S E V)
  | brk
  | cnt
  | ifs (bs : Branches S E V I) (els : Suite S E V I)
  | whl (c : S → Ev S E Bool) (b els : Suite S E V I)
  | for_ (p : Pat S E V) (it : S → Ev S E I) (nx : I → S → Ev S E V) (b els : Suite S E V I)
  | try_ (b : Suite S E V I) (hs : Handlers S E V I) (els fin : Suite S E V I)
inductive Suite (S E V I : Type) where
  | nil
  | cons (s : Stmt S E V I) (ss : Suite S E V I)
/-- The branches of an `if`. -/
inductive Branches (S E V I : Type) where
  | nil
  | cons (c : S → Ev S E Bool) (b : Suite S E V I) (bs : Branches S E V I)
inductive Handlers (S E V I : Type) where
  | nil
  | cons (h : Head S E V) (b : Suite S E V I) (hs : Handlers S E V I)
end

/-- Names made by the normalizer: `Internal NormPass _ n` (Normalizer.hs:52-55; the number alone makes
them distinct), and `Derived x RET` (line 294). -/
inductive Nm where
  | int (n : Nat)
  | der (n : Nat)
deriving DecidableEq

/-- The number a name was made from. -/
def Nm.id : Nm → Nat
  | .int n => n
  | .der n => n

/-- Returned expressions after normalization: one of the program, a temporary, and `x'.val` of a
caught `$RET` (Normalizer.hs:293-296). -/
inductive RVal (S V : Type) where
  | user (f : S → V)
  | nm (x : Nm)
  | attr (x : Nm)

/-- The argument of `$RAISE` after normalization. -/
inductive XExp (S E V : Type) where
  | user (f : S → E × S)
  | nm (x : Nm)
  | SEQ
  | BRK
  | CNT
  | RET (r : RVal S V)

/-- Conditions after normalization. -/
inductive TCond (S E V : Type) where
  | tt
  | user (c : S → Ev S E Bool)
  | isUser (x : Nm) (c : X E V → Bool)
  | isSEQ (x : Nm)
  | isBRK (x : Nm)
  | isCNT (x : Nm)
  | isRET (x : Nm)

mutual
/-- Statements after normalization. `ifpush a b` is `if $PUSH(): a else: b` (also `$PUSHF`, the same
macro, rts.h:270-271); `loop b` is `while True: b`. -/
inductive TStmt (S E V I : Type) where
  | act (f : S → Ev S E Unit)
  | asgV (x : Nm) (f : S → Ev S E V)
  | asgI (x : Nm) (f : S → Ev S E I)
  | nextP (set : V → S → S) (i : Nm) (nx : I → S → Ev S E V)
  | nextV (x i : Nm) (nx : I → S → Ev S E V)
  | bindP (set : V → S → Ev S E Unit) (x : Nm)
  | bindX (bind : X E V → S → S) (x : Nm)
  | pop (x : Nm)
  | downcast (x' x : Nm)
  | drop
  | raise (x : XExp S E V)
  | ret (r : RVal S V)
  | brk
  | cnt
  | ifs (bs : TBranches S E V I) (els : TSuite S E V I)
  | ifpush (a b : TSuite S E V I)
  | loop (b : TSuite S E V I)
inductive TSuite (S E V I : Type) where
  | nil
  | cons (s : TStmt S E V I) (ss : TSuite S E V I)
inductive TBranches (S E V I : Type) where
  | nil
  | cons (c : TCond S E V) (b : TSuite S E V I) (bs : TBranches S E V I)
end

variable {S E V I : Type}

/-- `++` on suites. -/
def TSuite.app : TSuite S E V I → TSuite S E V I → TSuite S E V I
  | .nil, b => b
  | .cons s a, b => .cons s (a.app b)

/-! ## Control flow analysis -/

/-- The ways out of a statement (Env.hs:1311). -/
inductive Flow where
  | RET | BRK | CNT | SEQ
deriving DecidableEq, Repr

/-- `brkseq` (Env.hs:1318). `List.diff` is Haskell's `\\`: it removes the first occurrence. -/
def brkseq (f : List Flow) : List Flow :=
  (if f.contains .BRK then .SEQ :: f else f).diff [.BRK, .CNT]

/-- The local `seq` in `flows (s : ss)` (Env.hs:1324). -/
def flowSeq (f1 f2 : List Flow) : List Flow :=
  if f1.contains .SEQ then f1.diff [.SEQ] ++ f2 else f1

mutual
/-- `flows` on statements (Env.hs:1326-1340). `$NotImplemented` is left out. -/
def flows : Stmt S E V I → List Flow
  | .act _ => [.SEQ]
  | .raise _ => []
  | .retv _ => [.RET]
  | .rete _ => [.RET]
  | .brk => [.BRK]
  | .cnt => [.CNT]
  | .ifs bs els => flowsB bs ++ flowsK els [.SEQ]
  | .whl _ b els => brkseq (flowsK b [.SEQ]) ++ flowsK els [.SEQ]
  | .for_ _ _ _ b els => brkseq (flowsK b [.SEQ]) ++ flowsK els [.SEQ]
  | .try_ b hs els fin => flowsK b (flowsK els [.SEQ]) ++ flowsH hs ++ (flowsK fin [.SEQ]).diff [.SEQ]
/-- `flows` of a suite followed by a suite with the flows `f` (Env.hs:1321-1324): `flows (b ++ els)` is
`flowsK b (flowsK els [SEQ])`. -/
def flowsK : Suite S E V I → List Flow → List Flow
  | .nil, f => f
  | .cons s ss, f => flowSeq (flows s) (flowsK ss f)
/-- `concatMap flows` on branches (Env.hs:1342-1343). -/
def flowsB : Branches S E V I → List Flow
  | .nil => []
  | .cons _ b bs => flowsK b [.SEQ] ++ flowsB bs
/-- `concatMap flows` on handlers (Env.hs:1345-1346). -/
def flowsH : Handlers S E V I → List Flow
  | .nil => []
  | .cons _ b hs => flowsK b [.SEQ] ++ flowsH hs
end

/-- `flows` of a suite. -/
def flowsS (ss : Suite S E V I) : List Flow := flowsK ss [.SEQ]

/-- `nub` of Data.List: the first occurrence of every element. -/
def nub : List Flow → List Flow
  | [] => []
  | f :: fs => f :: (nub fs).filter (· ≠ f)

/-! ## Normalization -/

/-- `ContextMark` (Normalizer.hs:75). -/
inductive Mark where
  | DROP | LOOP | FINAL
deriving DecidableEq

/-- The statements `exitContext` is called with. -/
inductive Leave (S V : Type) where
  | brk
  | cnt
  | ret (r : RVal S V)

/-- The statement itself. -/
def Leave.stmt : Leave S V → TStmt S E V I
  | .brk => .brk
  | .cnt => .cnt
  | .ret r => .ret r

/-- The local `exn` of `exitContext` (Normalizer.hs:228-230). -/
def Leave.exn : Leave S V → XExp S E V
  | .brk => .BRK
  | .cnt => .CNT
  | .ret r => .RET r

/-- `exitContext` (Normalizer.hs:223-230). -/
def exitContext : List Mark → Leave S V → TSuite S E V I
  | .DROP :: c, l => .cons .drop (exitContext c l)
  | .FINAL :: _, l => .cons (.raise l.exn) .nil
  | .LOOP :: c, l =>
    match l with
    | .brk => .cons .brk .nil
    | .cnt => .cons .cnt .nil
    | .ret r => exitContext c (.ret r)
  | [], l => .cons l.stmt .nil

/-- Is the statement an expression statement, after normalization? -/
def TStmt.isExpr : TStmt S E V I → Bool
  | .drop => true
  | .raise _ => true
  | _ => false

/-- `valid` (Normalizer.hs:297-299): relays that only raise again are left to the `else` branch. -/
def valid : TSuite S E V I → Bool
  | .cons s .nil => !s.isExpr
  | .cons (.downcast _ _) (.cons s .nil) => !s.isExpr
  | _ => true

/-- `relay` (Normalizer.hs:290-296). -/
def relay (ms : List Mark) (x : Nat) : Flow → TCond S E V × TSuite S E V I
  | .SEQ => (.isSEQ (.int x), .cons (.act fun s => .ok () s) .nil)
  | .BRK => (.isBRK (.int x), exitContext ms .brk)
  | .CNT => (.isCNT (.int x), exitContext ms .cnt)
  | .RET => (.isRET (.int x),
      .cons (.downcast (.der x) (.int x)) (exitContext ms (.ret (.attr (.der x)))))

/-- The branches of `relays` (Normalizer.hs:289). -/
def relayBranches (ms : List Mark) (x : Nat) : List Flow → TBranches S E V I
  | [] => .nil
  | f :: fs =>
    let r := relay ms x f
    if valid r.2 then .cons r.1 r.2 (relayBranches ms x fs) else relayBranches ms x fs

/-- `iff` (Normalizer.hs:302-303). -/
def iff : TBranches S E V I → TSuite S E V I → TSuite S E V I
  | .nil, els => els
  | bs, els => .cons (.ifs bs els) .nil

/-- `relays` (Normalizer.hs:289). -/
def relays (ms : List Mark) (x : Nat) (ctrl : List Flow) : TSuite S E V I :=
  iff (relayBranches ms x ctrl) (.cons (.raise (.nm (.int x))) .nil)

/-- `mbseq` (Normalizer.hs:300). -/
def mbseq (ctrl : List Flow) : TSuite S E V I :=
  if ctrl.contains .SEQ then .cons (.raise .SEQ) .nil else .nil

/-- The test of `while` put into the loop (Normalizer.hs:267): `if e: pass else: els; break`. -/
def whileTest (c : TCond S E V) (els : TSuite S E V I) : TSuite S E V I :=
  .cons (.ifs (.cons c (.cons (.act fun s => .ok () s) .nil) .nil) els) .nil

/-- The statements that advance a `for` loop (Normalizer.hs:335-342): `p = next(i)`, or `v = next(i)`
and `p = v` when `p` is no variable. -/
def forNext (p : Pat S E V) (i v : Nat) (nx : I → S → Ev S E V) : TSuite S E V I :=
  match p with
  | .var set => .cons (.nextP set (.int i) nx) .nil
  | .pat set => .cons (.nextV (.int v) (.int i) nx) (.cons (.bindP set (.int v)) .nil)

/-- `mkBody` (Syntax.hs:272-273), applied after normalization: `pass` is normalized to itself. -/
def mkBody : TSuite S E V I → TSuite S E V I
  | .nil => .cons (.act fun s => .ok () s) .nil
  | b => b

/-- Is the exception a StopIteration? No control class is. -/
def isStopX (stop : E → Bool) : X E V → Bool
  | .user e => stop e
  | _ => false

/-- A branch of `handle` (Normalizer.hs:216-221). -/
def handleCond (x : Nat) : Head S E V → TCond S E V
  | .all => .tt
  | .exc c => .isUser (.int x) c
  | .excAs c _ => .isUser (.int x) c

/-- The binding of `except C as z` (Normalizer.hs:219-220). -/
def handleBind (x : Nat) : Head S E V → TSuite S E V I → TSuite S E V I
  | .excAs _ bind, b => .cons (.bindX bind (.int x)) b
  | _, b => b

/-- The `else` branch of `handle` (Normalizer.hs:215). -/
def reraise (x : Nat) : TSuite S E V I := .cons (.raise (.nm (.int x))) .nil

/-- Is there no handler? -/
def Handlers.isNil : Handlers S E V I → Bool
  | .nil => true
  | _ => false

/-- Is the suite absent? -/
def Suite.isNil : Suite S E V I → Bool
  | .nil => true
  | _ => false

/-- The marks of `try0` inside a `try` with the `finally` suite `fin` (Normalizer.hs:284). -/
def finMarks (fin : Suite S E V I) (ms : List Mark) : List Mark :=
  if fin.isNil then ms else .FINAL :: ms

/-- The marks of the body of a `try` (Normalizer.hs:277-278). -/
def tryMarks (hs : Handlers S E V I) (ms : List Mark) : List Mark :=
  if hs.isNil then ms else .DROP :: ms

/-- The code of a `try` without `finally` from the code of its parts (Normalizer.hs:277-282). -/
def tryCode (hs : Handlers S E V I) (x : Nat) (b els : TSuite S E V I) (bs : TBranches S E V I) :
    TSuite S E V I :=
  if hs.isNil then b.app els else
  .cons (.ifpush (b.app (.cons .drop els))
    (.cons (.pop (.int x)) (.cons (.ifs bs (reraise x)) .nil))) .nil

mutual
/-- `norm'` on statements (Normalizer.hs:258-345), with the counter of `newName`. The recursion of
`Try b [] els []` on `b ++ els` is written as two calls, the one of `try … finally` on `try0` is
written out (`tr` is the code of `try0`), and so are the `while` and `try` that replace a `for`. -/
def norm (stop : E → Bool) : List Mark → Stmt S E V I → Nat → TSuite S E V I × Nat
  | _, .act f, k => (.cons (.act f) .nil, k)
  | _, .raise f, k => (.cons (.raise (.user f)) .nil, k)
  | ms, .retv f, k => (exitContext ms (.ret (.user f)), k)
  | ms, .rete f, k => (.cons (.asgV (.int k) f) (exitContext ms (.ret (.nm (.int k)))), k + 1)
  | ms, .brk, k => (exitContext ms .brk, k)
  | ms, .cnt, k => (exitContext ms .cnt, k)
  | ms, .ifs bs els, k =>
    let r := normB stop ms bs k
    let q := normS stop ms els r.2
    (.cons (.ifs r.1 q.1) .nil, q.2)
  | ms, .whl c b els, k =>
    let r := normS stop (.LOOP :: ms) els k
    let q := normS stop (.LOOP :: ms) b r.2
    (.cons (.loop ((whileTest (.user c)
      (r.1.app (exitContext (.LOOP :: ms) .brk))).app q.1)) .nil, q.2)
  | ms, .for_ p it nx b els, k =>
    let r := normS stop (.LOOP :: .DROP :: ms) b (k + 2)
    let q := normS stop ms els (r.2 + 1)
    (.cons (.asgI (.int k) it) (.cons (.ifpush
      (.cons (.loop ((whileTest .tt (exitContext (.LOOP :: .DROP :: ms) .brk)).app
        ((forNext p k (k + 1) nx).app r.1))) (.cons .drop .nil))
      (.cons (.pop (.int r.2)) (.cons (.ifs (.cons (.isUser (.int r.2) (isStopX stop)) (mkBody q.1) .nil)
        (reraise r.2)) .nil))) .nil), q.2)
  | ms, .try_ b hs els fin, k =>
    let ms1 := finMarks fin ms
    let r := normS stop (tryMarks hs ms1) b k
    let q := normS stop ms1 els r.2
    let p := normH stop ms1 q.2 hs (q.2 + 1)
    let tr := tryCode hs q.2 r.1 q.1 p.1
    let k1 := if hs.isNil then q.2 else p.2
    let f := normS stop ms fin (k1 + 1)
    let ctrl := nub (flowsK b (flowsK els [.SEQ]) ++ flowsH hs)
    if fin.isNil then (tr, k1) else
    (.cons (.ifpush (tr.app (mbseq ctrl))
      (.cons (.pop (.int k1)) (f.1.app (relays ms k1 ctrl)))) .nil, f.2)
/-- `normSuite` (Normalizer.hs:109-119), without comprehensions. -/
def normS (stop : E → Bool) : List Mark → Suite S E V I → Nat → TSuite S E V I × Nat
  | _, .nil, k => (.nil, k)
  | ms, .cons s ss, k =>
    let r := norm stop ms s k
    let q := normS stop ms ss r.2
    (r.1.app q.1, q.2)
/-- Branches of an `if` (Normalizer.hs:266, 629-630). -/
def normB (stop : E → Bool) : List Mark → Branches S E V I → Nat → TBranches S E V I × Nat
  | _, .nil, k => (.nil, k)
  | ms, .cons c b bs, k =>
    let r := normS stop ms b k
    let q := normB stop ms bs r.2
    (.cons (.user c) r.1 q.1, q.2)
/-- The branches of `handle` (Normalizer.hs:214-221). -/
def normH (stop : E → Bool) : List Mark → Nat → Handlers S E V I → Nat → TBranches S E V I × Nat
  | _, _, .nil, k => (.nil, k)
  | ms, x, .cons h b hs, k =>
    let r := normS stop ms b k
    let q := normH stop ms x hs r.2
    (.cons (handleCond x h) (handleBind x h r.1) q.1, q.2)
end

/-! ## The run-time machine -/

/-- The content of a variable made by the normalizer. -/
inductive Cell (E V I : Type) where
  | undef
  | exn (x : X E V)
  | val (v : V)
  | iter (i : I)

/-- The state of a running function: the state of the program, the variables made by the normalizer,
and the stack of `JumpBuf`s of the worker, each with its `xval` (exceptions.h:1-9, rts.h:259-264). -/
structure T (S E V I : Type) where
  s : S
  cells : Nm → Cell E V I
  stack : List (Option (X E V))

/-- The end of running normalized code. `jump` is a `longjmp` to the top of the stack; `stuck` is the
failure of an assertion of the run-time system, a use of a variable without a fitting value, or a
`longjmp` into a suite that has already been left; `timeout` is explained at `iter`. -/
inductive TOut (S E V I : Type) where
  | seq (t : T S E V I)
  | brk (t : T S E V I)
  | cnt (t : T S E V I)
  | ret (v : V) (t : T S E V I)
  | jump (t : T S E V I)
  | timeout
  | stuck

/-- `$RAISE` (rts.c:1009-1014): the exception is stored in the top of the stack, then jump there. -/
def raiseX (x : X E V) (t : T S E V I) : TOut S E V I :=
  match t.stack with
  | [] => .stuck
  | _ :: st => .jump { t with stack := some x :: st }

/-- Assignment to a variable made by the normalizer. -/
def T.set (t : T S E V I) (x : Nm) (c : Cell E V I) : T S E V I :=
  { t with cells := fun y => if y = x then c else t.cells y }

/-- The value of a returned expression. -/
def rval : RVal S V → T S E V I → Option V
  | .user f, t => some (f t.s)
  | .nm x, t => match t.cells x with
    | .val v => some v
    | _ => none
  | .attr x, t => match t.cells x with
    | .exn (.RET v) => some v
    | _ => none

/-- `$RAISE` of an expression. -/
def runRaise : XExp S E V → T S E V I → TOut S E V I
  | .user f, t => raiseX (.user (f t.s).1) { t with s := (f t.s).2 }
  | .nm x, t => match t.cells x with
    | .exn e => raiseX e t
    | _ => .stuck
  | .SEQ, t => raiseX .SEQ t
  | .BRK, t => raiseX .BRK t
  | .CNT, t => raiseX .CNT t
  | .RET r, t => match rval r t with
    | some v => raiseX (.RET v) t
    | none => .stuck

/-- Go on with the result of an expression; an exception jumps. -/
def runEv {A : Type} (r : Ev S E A) (t : T S E V I) (k : A → T S E V I → TOut S E V I) : TOut S E V I :=
  match r with
  | .ok a s => k a { t with s := s }
  | .exc e s => raiseX (.user e) { t with s := s }

/-- The exception tests. -/
def X.isSEQ : X E V → Bool
  | .SEQ => true
  | _ => false
def X.isBRK : X E V → Bool
  | .BRK => true
  | _ => false
def X.isCNT : X E V → Bool
  | .CNT => true
  | _ => false
def X.isRET : X E V → Bool
  | .RET _ => true
  | _ => false

/-- `isinstance(x, C)`. -/
def runIs (x : Nm) (c : X E V → Bool) (t : T S E V I) (k : Bool → T S E V I → TOut S E V I) :
    TOut S E V I :=
  match t.cells x with
  | .exn e => k (c e) t
  | _ => .stuck

/-- The value of a condition. -/
def runCond : TCond S E V → T S E V I → (Bool → T S E V I → TOut S E V I) → TOut S E V I
  | .tt, t, k => k true t
  | .user c, t, k => runEv (c t.s) t k
  | .isUser x c, t, k => runIs x c t k
  | .isSEQ x, t, k => runIs x X.isSEQ t k
  | .isBRK x, t, k => runIs x X.isBRK t k
  | .isCNT x, t, k => runIs x X.isCNT t k
  | .isRET x, t, k => runIs x X.isRET t k

/-- The code after the `setjmp` of `$PUSH` on a stack of length `n`, when the suite under it has
jumped: a jump to this buffer continues with the `else` branch, a jump to an older one leaves. -/
def catchAt (n : Nat) (o : TOut S E V I) (b : T S E V I → TOut S E V I) : TOut S E V I :=
  match o with
  | .jump t => if t.stack.length = n + 1 then b t else if t.stack.length ≤ n then .jump t else .stuck
  | o => o

/-- At most `n` rounds of `while True`. Executions are cut off by allowing every loop the same number
of rounds; a loop that needs more is a `timeout`. An execution that ends does so for every large
enough number, one that does not end is a `timeout` for all numbers. -/
def iter : Nat → (T S E V I → TOut S E V I) → T S E V I → TOut S E V I
  | 0, _, _ => .timeout
  | n + 1, f, t =>
    match f t with
    | .seq t' => iter n f t'
    | .cnt t' => iter n f t'
    | .brk t' => .seq t'
    | o => o

/-- One statement after another. -/
def TOut.andThen (o : TOut S E V I) (k : T S E V I → TOut S E V I) : TOut S E V I :=
  match o with
  | .seq t => k t
  | o => o

mutual
/-- Running a normalized statement: the C code generated for it, with the primitives of
rts.c:977-1014 on the stack of jump buffers. Called functions leave the stack as it was. -/
def run (n : Nat) : TStmt S E V I → T S E V I → TOut S E V I
  | .act f, t => runEv (f t.s) t fun _ t => .seq t
  | .asgV x f, t => runEv (f t.s) t fun v t => .seq (t.set x (.val v))
  | .asgI x f, t => runEv (f t.s) t fun i t => .seq (t.set x (.iter i))
  | .nextP set i nx, t => match t.cells i with
    | .iter i => runEv (nx i t.s) t fun v t => .seq { t with s := set v t.s }
    | _ => .stuck
  | .nextV x i nx, t => match t.cells i with
    | .iter i => runEv (nx i t.s) t fun v t => .seq (t.set x (.val v))
    | _ => .stuck
  | .bindP set x, t => match t.cells x with
    | .val v => runEv (set v t.s) t fun _ t => .seq t
    | _ => .stuck
  | .bindX bind x, t => match t.cells x with
    | .exn e => .seq { t with s := bind e t.s }
    | _ => .stuck
  | .pop x, t => match t.stack with
    | some e :: st => .seq ({ t with stack := st }.set x (.exn e))
    | _ => .stuck
  | .downcast x' x, t => .seq (t.set x' (t.cells x))
  | .drop, t => match t.stack with
    | _ :: st => .seq { t with stack := st }
    | [] => .stuck
  | .raise x, t => runRaise x t
  | .ret r, t => match rval r t with
    | some v => .ret v t
    | none => .stuck
  | .brk, t => .brk t
  | .cnt, t => .cnt t
  | .ifs bs els, t => runB n bs (runS n els) t
  | .ifpush a b, t =>
    catchAt t.stack.length (runS n a { t with stack := none :: t.stack }) (runS n b)
  | .loop b, t => iter n (runS n b) t
def runS (n : Nat) : TSuite S E V I → T S E V I → TOut S E V I
  | .nil, t => .seq t
  | .cons s ss, t => (run n s t).andThen (runS n ss)
def runB (n : Nat) : TBranches S E V I → (T S E V I → TOut S E V I) → T S E V I → TOut S E V I
  | .nil, els, t => els t
  | .cons c b bs, els, t =>
    runCond c t fun r t => if r then runS n b t else runB n bs els t
end

end Verif.Norm
