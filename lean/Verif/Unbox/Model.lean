import Verif.Int.Model
import Mathlib.Data.Int.Bitwise
/-!
# Model of arithmetic on unboxed numbers

The passes Boxing and CodeGen of the compiler (compiler/lib/src/Acton/Boxing.hs,
compiler/lib/src/Acton/CodeGen.hs), as far as they treat operators on the integer types, the macros
and functions that the generated code calls (base/builtin/{int,i8,i16,i32,u1,u8,u16,u32,u64}.{h,c}),
and the methods that are called for boxed numbers (same files).

Not modelled: `float` and `bigint`, true division (`/`, whose result is a `float`), and the
comparison operators (see `Verif/Unbox/Cond.lean` for these). All code is compiled with `-fwrapv`
(base/build.zig:235, builder/build.zig:216).
-/
namespace Verif.Unbox
open Verif.IntT

/-- The type `u1`, a `uint8_t` that is kept below 2 (u1.h:1-4, u1.c:17). `⟨1, false⟩.wrap` is `& 1`. -/
def u1 : Ty := ⟨1, false⟩

/-- The binary operators that Boxing treats (`bin2Binary`, Boxing.hs:921-933), without `/`. -/
inductive BinOp
  | add | sub | mul | pow | mod | fdiv | shl | shr | bor | bxor | band
  deriving DecidableEq, Repr

/-- The unary operators (`un2Unary`, Boxing.hs:935-938). -/
inductive UnOp
  | pos | neg | inv
  deriving DecidableEq, Repr

/-- An expression before Boxing. An operator is a call of the method of a witness there; the node
names the type of the witness. A call stands for any call of a function or method that returns a
number and may have effects; its arguments are left out. A variable stands for a local or global
variable or for an attribute. -/
inductive Expr
  | lit (t : Ty) (n : Int)
  | var (t : Ty) (x : Nat)
  | call (t : Ty) (f : Nat)
  | bin (t : Ty) (o : BinOp) (a b : Expr)
  | un (t : Ty) (o : UnOp) (a : Expr)
  deriving DecidableEq, Repr

/-- The type of an expression. -/
def Expr.ty : Expr → Ty
  | .lit t _ => t
  | .var t _ => t
  | .call t _ => t
  | .bin t _ _ _ => t
  | .un t _ _ => t

/-! ### The operators of C -/

/-- The value of `x op y` in C for operands of the C type `t`. The operands are promoted to `int` if
their type is smaller (`Ty.arith`), and so is the type of the result. Shifts by less than zero or by
the width of the type and more are undefined, as are divisions by zero and those whose quotient does
not fit. There is no power operator. -/
def cop (t : Ty) (o : BinOp) (x y : Int) : Res Int :=
  match o with
  | .add => .ok (t.arith.wrap (x + y))
  | .sub => .ok (t.arith.wrap (x - y))
  | .mul => .ok (t.arith.wrap (x * y))
  | .fdiv => if divOk t x y then .ok (x.tdiv y) else .ub
  | .mod => if divOk t x y then .ok (x.tmod y) else .ub
  | .shl => if 0 ≤ y ∧ y < t.arith.bits then .ok (t.arith.wrap (x * 2 ^ y.toNat)) else .ub
  | .shr => if 0 ≤ y ∧ y < t.arith.bits then .ok (x / 2 ^ y.toNat) else .ub
  | .bor => .ok (Int.lor x y)
  | .bxor => .ok (Int.xor x y)
  | .band => .ok (Int.land x y)
  | .pow => .ub

/-- The value of `-x`, `~x` and `+x` in C for an operand of the C type `t`. -/
def cun (t : Ty) (o : UnOp) (x : Int) : Int :=
  match o with
  | .pos => x
  | .neg => t.arith.wrap (-x)
  | .inv => t.arith.wrap (-x - 1)

/-- Conversion of a result to the type. -/
def convert (t : Ty) : Res Int → Res Int
  | .ok v => .ok (t.wrap v)
  | r => r

/-! ### The methods of boxed numbers -/

/-- `__add__`, `__sub__`, … of the witness for the type (int.c:83-216, i8.c:81-230, i16.c, i32.c,
u8.c:81-223, u16.c, u32.c, u64.c, u1.c:99-232): the C operator on the `val` fields, converted to the
parameter of `toB_int`, `toB_i8`, … The shifts take their second operand as an `int64_t`.
`__mod__` tests for zero in u1.c only. -/
def method (t : Ty) (o : BinOp) (x y : Int) : Res Int :=
  match o with
  | .pow => if t.signed then IntT.pow t x y else uPowBoxed t x y
  | .fdiv => IntT.floordiv t x y
  | .mod => if t = u1 then modUnboxed t x y else IntT.mod t x y
  | o => convert t (cop t o x y)

/-- `__pos__`, `__neg__`, `__invert__` of the witness (int.c:115-121, 209-211, …). -/
def methodU (t : Ty) (o : UnOp) (x : Int) : Int := t.wrap (cun t o x)

/-! ### The generated C code -/

/-- A C expression as generated for unboxed numbers. The annotation of an operator is the C type of
its operands. -/
inductive C
  | lit (n : Int)
  | var (x : Nat)
  | call (f : Nat)
  /-- `((T)(c))`, `castRawResult` (CodeGen.hs:1738) -/
  | cast (t : Ty) (c : C)
  /-- `((c) & 1)`, `genU1Norm` (CodeGen.hs:1736) -/
  | norm (c : C)
  | op (t : Ty) (o : BinOp) (a b : C)
  | un (t : Ty) (o : UnOp) (a : C)
  /-- `T_FLOORDIV(a, b)` (int.h:17, i8.h:13, …, u1.h:12) -/
  | floordiv (t : Ty) (a b : C)
  /-- `T_MOD(a, b)` (int.h:18, i8.h:14, …, u1.h:13) -/
  | modm (t : Ty) (a b : C)
  /-- `T_pow(a, b)` (int.h:14, i8.h:16, …, u1.h:15) -/
  | pow (t : Ty) (a b : C)
  deriving DecidableEq, Repr

/-- An expression after Boxing. -/
inductive B
  | int (n : Int)
  | var (t : Ty) (x : Nat)
  | call (t : Ty) (f : Nat)
  | box (t : Ty) (e : B)
  | unbox (t : Ty) (e : B)
  | paren (e : B)
  | bin (o : BinOp) (a b : B)
  | un (o : UnOp) (a : B)
  deriving DecidableEq, Repr

/-- `unbox` (Boxing.hs:425-427). -/
def unbox (t : Ty) : B → B
  | .box _ e => e
  | e => .unbox t e

/-- `boxing` of an expression: literals (`boxingFromAtom`, Boxing.hs:642-645), variables
(Boxing.hs:601-610), calls whose result is not boxed (`tryBox`, Boxing.hs:687-691, 433), binary
operators (`boxingBinop`, Boxing.hs:650-653) and unary ones (`boxingUnop`, Boxing.hs:656-659). -/
def boxing : Expr → B
  | .lit t n => .box t (unbox t (.int n))
  | .var t x => .box t (.var t x)
  | .call t f => .box t (.call t f)
  | .bin t o a b => .box t (.paren (.bin o (unbox t (boxing a)) (unbox t (boxing b))))
  | .un t o a => .box t (.paren (.un o (unbox t (boxing a))))

/-- `typeOf` of an expression after Boxing (QuickType.hs): the type of an operator expression is the
type of its first operand. -/
def B.ty : B → Ty
  | .int _ => i64
  | .var t _ => t
  | .call t _ => t
  | .box t _ => t
  | .unbox t _ => t
  | .paren e => e.ty
  | .bin _ a _ => a.ty
  | .un _ a => a.ty

/-- The operators that `genU1RawBinOp` handles (CodeGen.hs:1701-1709). -/
def u1Ops : List BinOp := [.add, .sub, .mul, .bor, .bxor, .band, .shl, .shr]

/-- The choice among the ways to generate a binary operator (CodeGen.hs:1620-1628). -/
def genBin (t : Ty) (o : BinOp) (a b : C) : C :=
  if t = u1 ∧ o ∈ u1Ops then .norm (.op t o a b)
  else match o with
    | .pow => .pow t a b
    | .mod => .modm t a b
    | .fdiv => .floordiv t a b
    | o => .cast t (.op t o a b)

/-- The unary operators (CodeGen.hs:1644-1647, `genRawUnOp` 1713-1714, `genU1RawUnOp` 1716-1719). -/
def genUn (t : Ty) (o : UnOp) (a : C) : C :=
  if t = u1 then
    match o with
    | .pos => a
    | o => .norm (.un t o a)
  else
    match o with
    | .pos => .cast t a
    | o => .cast t (.un t o a)

/-- `gen` of an expression after Boxing (CodeGen.hs:1619-1688). What is left of the boxes at the
outside is the business of the context; the number in it is what `gen` computes here. -/
def gen : B → C
  | .int n => .lit n
  | .var _ x => .var x
  | .call _ f => .call f
  | .box _ e => gen e
  | .unbox _ e => gen e
  | .paren e => gen e
  | .bin o a b => genBin a.ty o (gen a) (gen b)
  | .un o a => genUn a.ty o (gen a)

/-- The C expression for an expression in a context that needs an unboxed number. -/
def compile (e : Expr) : C := gen (unbox e.ty (boxing e))

/-! ### Execution -/

/-- The variables and functions of the program. -/
structure World (S : Type) where
  get : Nat → S → Int
  set : Nat → Int → S → S
  call : Nat → S → Res Int × S

/-- The possible results of an evaluation, each with the state it leaves behind. C does not say in
which order the operands of an operator or the arguments of a function are evaluated; here one of
them is evaluated completely and then the other one. -/
abbrev Outs (S : Type) := List (Res Int × S)

/-- Carry on after a normal result. -/
def andThen {S} (l : Outs S) (k : Int → S → Outs S) : Outs S :=
  l.flatMap fun o => match o.1 with
    | .ok v => k v o.2
    | r => [(r, o.2)]

/-- Evaluate two operands in either order. -/
def both {S} (m n : S → Outs S) (k : Int → Int → S → Outs S) (s : S) : Outs S :=
  andThen (m s) (fun x s1 => andThen (n s1) (fun y s2 => k x y s2)) ++
  andThen (n s) (fun y s1 => andThen (m s1) (fun x s2 => k x y s2))

/-- The functions `int_pow`, `i8_pow`, …, `u64_pow`, `u1_pow` (int.c:18-23, u8.c:18-23, u1.c:34-39). -/
def powC (t : Ty) (x y : Int) : Res Int := if t.signed then powT t 65 x y else uPow t x y

/-- Evaluation of the generated C expression. The macros insert the text of their arguments:
`T_FLOORDIV(a, b)` is `({if (b==0) $RAISE(…); a/b;})`, and `T_MOD` likewise; the ones of `u1` are
`({if (b==0) $RAISE(…); a;})` and `({if (b==0) $RAISE(…); (a%b)&1;})`. -/
def ceval {S} (W : World S) : C → S → Outs S
  | .lit n, s => [(.ok n, s)]
  | .var x, s => [(.ok (W.get x s), s)]
  | .call f, s => [W.call f s]
  | .cast t c, s => andThen (ceval W c s) fun v s1 => [(.ok (t.wrap v), s1)]
  | .norm c, s => andThen (ceval W c s) fun v s1 => [(.ok (u1.wrap v), s1)]
  | .op t o a b, s => both (ceval W a) (ceval W b) (fun x y s1 => [(cop t o x y, s1)]) s
  | .un t o a, s => andThen (ceval W a s) fun v s1 => [(.ok (cun t o v), s1)]
  | .floordiv t a b, s =>
    andThen (ceval W b s) fun z s1 =>
      if z = 0 then [(.raise .zeroDivision, s1)]
      else if t = u1 then ceval W a s1
      else both (ceval W a) (ceval W b) (fun x y s2 => [(cop t .fdiv x y, s2)]) s1
  | .modm t a b, s =>
    andThen (ceval W b s) fun z s1 =>
      if z = 0 then [(.raise .zeroDivision, s1)]
      else if t = u1 then
        both (ceval W a) (ceval W b) (fun x y s2 => [(convert u1 (cop t .mod x y), s2)]) s1
      else both (ceval W a) (ceval W b) (fun x y s2 => [(cop t .mod x y, s2)]) s1
  | .pow t a b, s => both (ceval W a) (ceval W b) (fun x y s1 => [(powC t x y, s1)]) s

/-! ### Augmented assignment -/

/-- The protocol method of an augmented assignment (`oper`, Types.hs:876-887): there is no case for
`^=`, on which the compiler stops. -/
def oper : BinOp → Option BinOp
  | .bxor => none
  | o => some o

/-- A statement of the generated code. -/
inductive CStmt
  /-- `x op= c;` -/
  | aug (x : Nat) (t : Ty) (o : BinOp) (c : C)
  /-- `x = c;` -/
  | assign (x : Nat) (t : Ty) (c : C)
  deriving DecidableEq, Repr

/-- An augmented assignment to a variable or attribute of an unboxed type (Boxing.hs:784-790,
805-812; CodeGen.hs:881-886). For `u1` the right-hand side is generated by `genU1RawAugOp`
(CodeGen.hs:1721-1734); for the other types C's own augmented assignment is used, where `//=`
becomes `/=` (`augPretty`, CodeGen.hs:1756-1757). `**=` is printed as it is, which is no C. -/
def genAug (t : Ty) (x : Nat) (o : BinOp) (e : Expr) : Option CStmt :=
  match oper o with
  | none => none
  | some o =>
    let c := gen (unbox t (boxing e))
    if t = u1 then
      match o with
      | .pow => some (.assign x t (.pow t (.var x) c))
      | .mod => some (.assign x t (.modm t (.var x) c))
      | .fdiv => some (.assign x t (.floordiv t (.var x) c))
      | o => some (.assign x t (.norm (.op t o (.var x) c)))
    else
      match o with
      | .pow => none
      | o => some (.aug x t o c)

/-- An augmented assignment to an attribute that holds a boxed number (Boxing.hs:813-817): an
assignment of the plain operator. -/
def genAugBoxed (t : Ty) (x : Nat) (o : BinOp) (e : Expr) : Option CStmt :=
  match oper o with
  | none => none
  | some o => some (.assign x t (genBin t o (.var x) (gen (unbox t (boxing e)))))

/-- Storing a number converts it to the type of the variable. -/
def store {S} (W : World S) (x : Nat) (t : Ty) (l : Outs S) : Outs S :=
  andThen l fun v s => [(.ok (t.wrap v), W.set x (t.wrap v) s)]

/-- Execution of a generated statement. -/
def cexec {S} (W : World S) : CStmt → S → Outs S
  | .aug x t o c, s =>
    store W x t (both (fun s => [(.ok (W.get x s), s)]) (ceval W c) (fun v y s1 => [(cop t o v y, s1)]) s)
  | .assign x t c, s => store W x t (ceval W c s)

end Verif.Unbox
