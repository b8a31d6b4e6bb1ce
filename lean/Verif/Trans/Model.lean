/-!
# The term simplifier of the type checker

`compiler/lib/src/Acton/Transform.hs`: after every top-level statement has been checked, `termred`
simplifies it, and `termsubst` replaces names by expressions (for witnesses, and for names narrowed
by a test).  Both are the one function `trans`, which substitutes, reduces every call of a lambda
and every selection from a tuple, and eta-reduces every lambda.

Modelled: `trans` on expressions, with `termsubst` (lines 33-35), `blockscope`, `extsubst`,
`limsubst`, `trfind`, `trfinds` (lines 51-61), `eta` (its first clause), `pzip`, `positem`,
`posrest`, `prename`, `rename`, `erename`.

Simplifications, here and in what follows:
* parameters and arguments are positional; keyword parameters are matched in order just the same
  (`kzip`), and starred ones are left out;
* the constructors that `trans` only maps over (`TApp`, `Async`, `Cond`, `BinOp`, `List`, and so on)
  are all `node`, told apart by a number; constants are nodes without arguments;
* `ListComp`, `SetComp` and `DictComp` are `comp`, with one `for` over one name;
* `Paren` is left out, as are types, `Let`, the calls of the wrapping primitives (`transCall`), and
  the witness equations of statements (`wtrans`);
* `final` is always set: it is in `termsubst`, and with no equations it makes no difference in
  `termred`;
* `trans` need not terminate on terms without a type, so the model counts down a bound and gives
  `none` when it is used up.  It also gives `none` where the code stops with an error, namely when
  a component is selected that the tuple does not have.
-/

namespace Verif.Trans

/-- Names: those of the program, and the internal `yNames` (`Names.hs` line 59). -/
inductive Nm where
  | user (k : Nat)
  | y (i : Nat)
  deriving DecidableEq, Repr

/-- An expression, or a list of arguments. -/
inductive Srt where
  | e
  | l
  deriving DecidableEq

/-- Expressions (`Syntax.hs`, `Expr` and `PosArg`), as far as they are modelled. -/
inductive Ex : Srt → Type where
  | var (x : Nm) : Ex .e
  | lam (ps : List Nm) (b : Ex .e) : Ex .e
  | call (f : Ex .e) (as : Ex .l) : Ex .e
  | node (k : Nat) (as : Ex .l) : Ex .e
  | tup (as : Ex .l) : Ex .e
  | dotI (a : Ex .e) (i : Nat) : Ex .e
  | restI (a : Ex .e) (i : Nat) : Ex .e
  | comp (b : Ex .e) (x : Nm) (s : Ex .e) : Ex .e
  | nil : Ex .l
  | cons (a : Ex .e) (as : Ex .l) : Ex .l
  deriving DecidableEq, Repr

namespace Ex

/-- `freeQ` (`Names.hs` lines 264-302 and 389).  The names of a comprehension are also taken away
from the expression it draws from, `(freeQ e ++ freeQ c) diffQ bound pat`; with `fix` they are not. -/
def free (fix : Bool) : {s : Srt} → Ex s → List Nm
  | _, .var x => [x]
  | _, .lam ps b => (b.free fix).filter (· ∉ ps)
  | _, .call f as => f.free fix ++ as.free fix
  | _, .node _ as => as.free fix
  | _, .tup as => as.free fix
  | _, .dotI a _ => a.free fix
  | _, .restI a _ => a.free fix
  | _, .comp b x s => (b.free fix).filter (· ≠ x) ++
      (if fix then s.free fix else (s.free fix).filter (· ≠ x))
  | _, .nil => []
  | _, .cons a as => a.free fix ++ as.free fix

/-- The arguments of a list. -/
def elems : Ex .l → List (Ex .e)
  | .nil => []
  | .cons a as => a :: as.elems

/-- A list of arguments. -/
def ofList : List (Ex .e) → Ex .l
  | [] => .nil
  | a :: as => .cons a (ofList as)

end Ex

/-- `trsubst`, seen through `trfind` (lines 40 and 57-59): a name that is blocked is found no more
than one that is absent. -/
abbrev Sub := Nm → Option (Ex .e)

/-- `env0`, line 49. -/
def Sub.empty : Sub := fun _ => none

/-- `limsubst`, line 55, and `blockscope`, line 51. -/
def Sub.lim (ns : List Nm) (σ : Sub) : Sub := fun x => if x ∈ ns then none else σ x

/-- `extsubst s env0`, line 53: the first of several pairs for a name is inserted last. -/
def Sub.ofPairs : List (Nm × Ex .e) → Sub
  | [] => Sub.empty
  | (n, u) :: s => fun x => if x = n then some u else Sub.ofPairs s x

/-- `free (trfinds fvs env1)`, lines 61 and 192. -/
def Sub.imgFree (fix : Bool) (σ : Sub) (fvs : List Nm) : List Nm :=
  fvs.flatMap fun x => match σ x with
    | some u => u.free fix
    | none => []

/-- The first `k` names of `yNames \\ xs`, line 193. -/
def freshes (k : Nat) (xs : List Nm) : List Nm :=
  (((List.range (k + xs.length)).map fun i => Nm.y (i + 1)).filter (· ∉ xs)).take k

/-- `rename`, lines 277-279. -/
def rename : List (Nm × Nm) → Nm → Nm
  | [], n => n
  | (a, b) :: s, n => if n = a then b else rename s n

/-- The substitution of `erename`, line 281. -/
def renSub (s : List (Nm × Nm)) : Sub := Sub.ofPairs (s.map fun p => (p.1, .var p.2))

/-- `eq1` of `eta`, lines 214-217: the arguments are the parameters. -/
def argsAre : List Nm → Ex .l → Bool
  | [], .nil => true
  | p :: ps, .cons (.var x) as => p = x && argsAre ps as
  | _, _ => false

/-- `eta`, lines 211-220.  With `fix`, the function must not mention the parameters, which must
differ. -/
def eta (fix : Bool) (ps : List Nm) : Ex .e → Ex .e
  | .call f as =>
    if argsAre ps as && (!fix || (ps.all (· ∉ f.free fix) && ps.Nodup)) then f
    else .lam ps (.call f as)
  | b => .lam ps b

/-- `pzip`, lines 244-247: arguments in excess are ignored.  With `fix` there may be none. -/
def pzip (fix : Bool) : List Nm → Ex .l → Option (List (Nm × Ex .e))
  | p :: ps, .cons a as => (pzip fix ps as).map ((p, a) :: ·)
  | [], .nil => some []
  | [], .cons _ _ => if fix then none else some []
  | _ :: _, .nil => none

/-- `positem`, lines 254-255. -/
def positem : Nat → Ex .l → Option (Ex .e)
  | 0, .cons a _ => some a
  | i + 1, .cons _ as => positem i as
  | _, .nil => none

/-- `posrest`, lines 262-263. -/
def posrest : Nat → Ex .l → Option (Ex .l)
  | 0, .cons _ as => some as
  | i + 1, .cons a as => (posrest i as).map (.cons a ·)
  | _, .nil => none

/-- The renaming of a lambda, lines 189-193: `clash` paired with `yNames \\ (fvs++bvs)`.  With `fix`
the new names also avoid those of the expressions put in. -/
def clashes (fix : Bool) (σ : Sub) (ps : List Nm) (b : Ex .e) : List (Nm × Nm) :=
  let fvs := b.free fix
  let img := (σ.lim ps).imgFree fix fvs
  let clash := ps.filter (· ∈ img)
  clash.zip (freshes clash.length (fvs ++ ps ++ if fix then img else []))

/-- What is translated under a lambda, lines 187-188: with no clash the body as it is, otherwise
`erename s e`, where `rec` is `trans`. -/
def renamed (rec : Sub → Ex .e → Option (Ex .e)) (s : List (Nm × Nm)) (b : Ex .e) :
    Option (Ex .e) :=
  match s with
  | [] => some b
  | _ :: _ => rec (renSub s) b

/-- The translation under a binder, lines 186-193: the new parameters and the new body.  With `fix`
the new names are also taken out of the substitution. -/
def under (fix : Bool) (rec : Sub → Ex .e → Option (Ex .e)) (σ : Sub) (ps : List Nm) (b : Ex .e) :
    Option (List Nm × Ex .e) :=
  let s := clashes fix σ ps b
  (renamed rec s b).bind fun b1 =>
    (rec ((σ.lim ps).lim (if fix then s.map Prod.snd else [])) b1).map fun b' =>
      (ps.map (rename s), b')

/-- The call of a translated function, lines 146-156: `termsubst (s1++s2) (exp1 e')` if it is a
lambda with as many parameters.  `termsubst []` does nothing (line 34). -/
def apply (fix : Bool) (rec : Sub → Ex .e → Option (Ex .e)) (f : Ex .e) (as : Ex .l) :
    Option (Ex .e) :=
  match f with
  | .lam ps b => match pzip fix ps as with
    | some [] => some b
    | some (p :: s) => rec (Sub.ofPairs (p :: s)) b
    | none => some (.call f as)
  | _ => some (.call f as)

/-- `DotI` of a translated expression, lines 178-181. -/
def select (a : Ex .e) (i : Nat) : Option (Ex .e) :=
  match a with
  | .tup as => positem i as
  | _ => some (.dotI a i)

/-- `RestI` of a translated expression, lines 182-185. -/
def rest (a : Ex .e) (i : Nat) : Option (Ex .e) :=
  match a with
  | .tup as => (posrest i as).map .tup
  | _ => some (.restI a i)

/-- `ListComp`, lines 199-200: the names are blocked in both parts and nothing is renamed.  With
`fix` the source is outside the scope of the name, and the name is renamed like a parameter. -/
def transComp (fix : Bool) (rec : Sub → Ex .e → Option (Ex .e)) (σ : Sub) (b : Ex .e) (x : Nm)
    (s : Ex .e) : Option (Ex .e) :=
  if fix then
    (rec σ s).bind fun s' => (under fix rec σ [x] b).bind fun r =>
      match r with
      | ([x'], b') => some (.comp b' x' s')
      | _ => none
  else
    (rec (σ.lim [x]) s).bind fun s' => (rec (σ.lim [x]) b).map fun b' => .comp b' x s'

/-- `trans`, lines 142-209.  `fix = false` is the code; `fix = true` is the code with the repairs
described at the definitions above. -/
def trans (fix : Bool) : Nat → Sub → {s : Srt} → Ex s → Option (Ex s)
  | 0, _, _, _ => none
  | _ + 1, σ, _, .var x => some ((σ x).getD (.var x))
  | n + 1, σ, _, .call f as =>
    (trans fix n σ f).bind fun f' => (trans fix n σ as).bind fun as' =>
      apply fix (fun τ b => trans fix n τ b) f' as'
  | n + 1, σ, _, .node k as => (trans fix n σ as).map (.node k)
  | n + 1, σ, _, .dotI a i => (trans fix n σ a).bind (select · i)
  | n + 1, σ, _, .restI a i => (trans fix n σ a).bind (rest · i)
  | n + 1, σ, _, .lam ps b =>
    (under fix (fun τ b => trans fix n τ b) σ ps b).map fun r => eta fix r.1 r.2
  | n + 1, σ, _, .tup as => (trans fix n σ as).map .tup
  | n + 1, σ, _, .comp b x s => transComp fix (fun τ b => trans fix n τ b) σ b x s
  | _ + 1, _, _, .nil => some .nil
  | n + 1, σ, _, .cons a as =>
    (trans fix n σ a).bind fun a' => (trans fix n σ as).map (.cons a' ·)

end Verif.Trans
