import Verif.Norm.Model

/-! What statements mean: the semantics of the language before normalization, as the Python language
reference gives it, and the conditions of the claims. -/
namespace Verif.Norm

/-- The end of a suite. -/
inductive Out (S E V : Type) where
  | seq (s : S)
  | brk (s : S)
  | cnt (s : S)
  | ret (v : V) (s : S)
  | exc (e : E) (s : S)
  | timeout
deriving DecidableEq

variable {S E V I : Type}

/-- Go on after the normal end of a statement. -/
def Out.andThen (o : Out S E V) (k : S → Out S E V) : Out S E V :=
  match o with
  | .seq s => k s
  | o => o

/-- Go on with the value of an expression. -/
def Ev.andThen {A : Type} (r : Ev S E A) (k : A → S → Out S E V) : Out S E V :=
  match r with
  | .ok a s => k a s
  | .exc e s => .exc e s

/-- At most `n` rounds of `while c: b else: els`. -/
def whileLoop (c : S → Ev S E Bool) (b els : S → Out S E V) : Nat → S → Out S E V
  | 0, _ => .timeout
  | n + 1, s =>
    (c s).andThen fun r s =>
      if r then
        match b s with
        | .seq s' => whileLoop c b els n s'
        | .cnt s' => whileLoop c b els n s'
        | .brk s' => .seq s'
        | o => o
      else els s

/-- Give the value to the target of a `for`. -/
def Pat.bind : Pat S E V → V → S → Ev S E Unit
  | .var set, v, s => .ok () (set v s)
  | .pat set, v, s => set v s

/-- At most `n` rounds of `for p in i: b else: els`. In Python (`py`), a StopIteration ends the loop
only if the iterator has raised it; otherwise one raised by the body or by the target does so too. -/
def forLoop (py : Bool) (stop : E → Bool) (p : Pat S E V) (nx : S → Ev S E V) (b els : S → Out S E V) :
    Nat → S → Out S E V
  | 0, _ => .timeout
  | n + 1, s =>
    match nx s with
    | .exc e s => if stop e then els s else .exc e s
    | .ok v s =>
      match (p.bind v s).andThen fun _ s => b s with
      | .seq s' => forLoop py stop p nx b els n s'
      | .cnt s' => forLoop py stop p nx b els n s'
      | .brk s' => .seq s'
      | .exc e s' => if !py && stop e then els s' else .exc e s'
      | o => o

/-- Does the handler take the exception? -/
def Head.takes : Head S E V → E → Bool
  | .all, _ => true
  | .exc c, e => c (.user e)
  | .excAs c _, e => c (.user e)

/-- The state in which the handler runs. -/
def Head.enter : Head S E V → E → S → S
  | .excAs _ bind, e, s => bind (.user e) s
  | _, _, s => s

/-- `finally`: the suite runs in every case; if it ends normally, the statement ends as the rest did. -/
def finish (o : Out S E V) (fin : S → Out S E V) : Out S E V :=
  match o with
  | .seq s => fin s
  | .brk s => (fin s).andThen .brk
  | .cnt s => (fin s).andThen .cnt
  | .ret v s => (fin s).andThen (.ret v)
  | .exc e s => (fin s).andThen (.exc e)
  | .timeout => .timeout

/-- `try` without `finally`: the handlers guard the body, not the `else` suite. -/
def guarded (o : Out S E V) (hdl : E → S → Out S E V) (els : S → Out S E V) : Out S E V :=
  match o with
  | .seq s => els s
  | .exc e s => hdl e s
  | o => o

mutual
/-- Statements. -/
def eval (py : Bool) (stop : E → Bool) (n : Nat) : Stmt S E V I → S → Out S E V
  | .act f, s => (f s).andThen fun _ s => .seq s
  | .raise f, s => .exc (f s).1 (f s).2
  | .retv f, s => .ret (f s) s
  | .rete f, s => (f s).andThen .ret
  | .brk, s => .brk s
  | .cnt, s => .cnt s
  | .ifs bs els, s => evalB py stop n bs (evalS py stop n els) s
  | .whl c b els, s => whileLoop c (evalS py stop n b) (evalS py stop n els) n s
  | .for_ p it nx b els, s =>
    (it s).andThen fun i s => forLoop py stop p (nx i) (evalS py stop n b) (evalS py stop n els) n s
  | .try_ b hs els fin, s =>
    finish (guarded (evalS py stop n b s) (evalH py stop n hs) (evalS py stop n els))
      (evalS py stop n fin)
def evalS (py : Bool) (stop : E → Bool) (n : Nat) : Suite S E V I → S → Out S E V
  | .nil, s => .seq s
  | .cons st ss, s => (eval py stop n st s).andThen (evalS py stop n ss)
/-- `if`: the first branch whose condition holds. -/
def evalB (py : Bool) (stop : E → Bool) (n : Nat) : Branches S E V I → (S → Out S E V) → S → Out S E V
  | .nil, els, s => els s
  | .cons c b bs, els, s =>
    (c s).andThen fun r s => if r then evalS py stop n b s else evalB py stop n bs els s
/-- `except`: the first handler that takes the exception; none does: it goes on. -/
def evalH (py : Bool) (stop : E → Bool) (n : Nat) : Handlers S E V I → E → S → Out S E V
  | .nil, e, s => .exc e s
  | .cons h b hs, e, s =>
    if h.takes e then evalS py stop n b (h.enter e s) else evalH py stop n hs e s
end

mutual
/-- There is no `break` or `continue` that belongs to a loop around the statement. -/
def closed : Stmt S E V I → Bool
  | .brk => false
  | .cnt => false
  | .ifs bs els => closedB bs && closedS els
  | .whl _ _ els => closedS els
  | .for_ _ _ _ _ els => closedS els
  | .try_ b hs els fin => closedS b && closedH hs && closedS els && closedS fin
  | _ => true
def closedS : Suite S E V I → Bool
  | .nil => true
  | .cons s ss => closed s && closedS ss
def closedB : Branches S E V I → Bool
  | .nil => true
  | .cons _ b bs => closedS b && closedB bs
def closedH : Handlers S E V I → Bool
  | .nil => true
  | .cons _ b hs => closedS b && closedH hs
end

mutual
/-- Every `while` of the suite has an `else` suite without `break` and `continue` of its own. -/
def elseOk : Stmt S E V I → Bool
  | .ifs bs els => elseOkB bs && elseOkS els
  | .whl _ b els => closedS els && elseOkS b && elseOkS els
  | .for_ _ _ _ b els => elseOkS b && elseOkS els
  | .try_ b hs els fin => elseOkS b && elseOkH hs && elseOkS els && elseOkS fin
  | _ => true
def elseOkS : Suite S E V I → Bool
  | .nil => true
  | .cons s ss => elseOk s && elseOkS ss
def elseOkB : Branches S E V I → Bool
  | .nil => true
  | .cons _ b bs => elseOkS b && elseOkB bs
def elseOkH : Handlers S E V I → Bool
  | .nil => true
  | .cons _ b hs => elseOkS b && elseOkH hs
end

mutual
/-- No `for` of the suite has a body or a target that raises StopIteration. -/
def NoStop (stop : E → Bool) : Stmt S E V I → Prop
  | .ifs bs els => NoStopB stop bs ∧ NoStopS stop els
  | .whl _ b els => NoStopS stop b ∧ NoStopS stop els
  | .for_ p _ _ b els =>
    (∀ v s e s', p.bind v s = .exc e s' → stop e = false) ∧
    (∀ n s e s', evalS true stop n b s = .exc e s' → stop e = false) ∧
    NoStopS stop b ∧ NoStopS stop els
  | .try_ b hs els fin => NoStopS stop b ∧ NoStopH stop hs ∧ NoStopS stop els ∧ NoStopS stop fin
  | _ => True
def NoStopS (stop : E → Bool) : Suite S E V I → Prop
  | .nil => True
  | .cons s ss => NoStop stop s ∧ NoStopS stop ss
def NoStopB (stop : E → Bool) : Branches S E V I → Prop
  | .nil => True
  | .cons _ b bs => NoStopS stop b ∧ NoStopB stop bs
def NoStopH (stop : E → Bool) : Handlers S E V I → Prop
  | .nil => True
  | .cons _ b hs => NoStopS stop b ∧ NoStopH stop hs
end

/-- The way out an end of a suite stands for. -/
def Out.flow : Out S E V → Option Flow
  | .seq _ => some .SEQ
  | .brk _ => some .BRK
  | .cnt _ => some .CNT
  | .ret _ _ => some .RET
  | _ => none

/-- Run a normalized function body as the C code of the function does, on a stack of jump buffers. -/
def runBody (stop : E → Bool) (n : Nat) (ss : Suite S E V I) (t : T S E V I) : TOut S E V I :=
  runS n (normS stop [] ss 0).1 t

/-- The normalized body has ended as the body must, with the stack of jump buffers it began with (an
exception is in the newest of them). -/
def Same (st : List (Option (X E V))) : Out S E V → TOut S E V I → Prop
  | .seq s, .seq t => t.s = s ∧ t.stack = st
  | .brk s, .brk t => t.s = s ∧ t.stack = st
  | .cnt s, .cnt t => t.s = s ∧ t.stack = st
  | .ret v s, .ret v' t => v' = v ∧ t.s = s ∧ t.stack = st
  | .exc e s, .jump t => t.s = s ∧ t.stack = some (.user e) :: st.tail
  | .timeout, .timeout => True
  | _, _ => False

/-- Running the code has left the stack of jump buffers as it was; if it ends by an exception, the newest
buffer has one of the program, not one that carries control flow. -/
def Balanced (st : List (Option (X E V))) : TOut S E V I → Prop
  | .seq t => t.stack = st
  | .brk t => t.stack = st
  | .cnt t => t.stack = st
  | .ret _ t => t.stack = st
  | .jump t => ∃ e, t.stack = some (.user e) :: st.tail
  | .timeout => True
  | .stuck => False

mutual
/-- `break` and `continue` stand inside loops only (`l`: there is a loop around). -/
def inLoop (l : Bool) : TStmt S E V I → Bool
  | .brk => l
  | .cnt => l
  | .ifs bs els => inLoopB l bs && inLoopS l els
  | .ifpush a b => inLoopS l a && inLoopS l b
  | .loop b => inLoopS true b
  | _ => true
def inLoopS (l : Bool) : TSuite S E V I → Bool
  | .nil => true
  | .cons s ss => inLoop l s && inLoopS l ss
def inLoopB (l : Bool) : TBranches S E V I → Bool
  | .nil => true
  | .cons _ b bs => inLoopS l b && inLoopB l bs
end

mutual
/-- The analysis finds at most one `break` and one `continue` in the body of each loop. -/
def once : Stmt S E V I → Bool
  | .ifs bs els => onceB bs && onceS els
  | .whl _ b els => decide ((flowsS b).count .BRK ≤ 1 ∧ (flowsS b).count .CNT ≤ 1) && onceS b && onceS els
  | .for_ _ _ _ b els =>
    decide ((flowsS b).count .BRK ≤ 1 ∧ (flowsS b).count .CNT ≤ 1) && onceS b && onceS els
  | .try_ b hs els fin => onceS b && onceH hs && onceS els && onceS fin
  | _ => true
def onceS : Suite S E V I → Bool
  | .nil => true
  | .cons s ss => once s && onceS ss
def onceB : Branches S E V I → Bool
  | .nil => true
  | .cons _ b bs => onceS b && onceB bs
def onceH : Handlers S E V I → Bool
  | .nil => true
  | .cons _ b hs => onceS b && onceH hs
end

mutual
/-- The names the code assigns to, in the order of the text. -/
def assigned : TStmt S E V I → List Nm
  | .asgV x _ => [x]
  | .asgI x _ => [x]
  | .nextV x _ _ => [x]
  | .pop x => [x]
  | .downcast x _ => [x]
  | .ifs bs els => assignedB bs ++ assignedS els
  | .ifpush a b => assignedS a ++ assignedS b
  | .loop b => assignedS b
  | _ => []
def assignedS : TSuite S E V I → List Nm
  | .nil => []
  | .cons s ss => assigned s ++ assignedS ss
def assignedB : TBranches S E V I → List Nm
  | .nil => []
  | .cons _ b bs => assignedS b ++ assignedB bs
end

end Verif.Norm
