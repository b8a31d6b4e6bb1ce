import Verif.Trans.Model

/-!
# What simplification may do

Terms without names (`Db`), with bound variables counted outwards, so that there is nothing to
capture; the meaning of a named expression as such a term (`Ex.db`); and one-step reduction of such
terms by beta, eta and selection (`Step`).  A simplifier is right if what it returns is a reduct of
what it was given.

For effects, an evaluator of named expressions that keeps a record of what was done (`ev`).
-/

namespace Verif.Trans

/-- Terms in which bound variables are numbers: `lam k` binds `0, …, k - 1`, and `comp` binds `0` in
its first part. -/
inductive Db : Srt → Type where
  | bvar (i : Nat) : Db .e
  | cst (x : Nm) : Db .e
  | lam (k : Nat) (b : Db .e) : Db .e
  | call (f : Db .e) (as : Db .l) : Db .e
  | node (k : Nat) (as : Db .l) : Db .e
  | tup (as : Db .l) : Db .e
  | dotI (a : Db .e) (i : Nat) : Db .e
  | restI (a : Db .e) (i : Nat) : Db .e
  | comp (b : Db .e) (s : Db .e) : Db .e
  | nil : Db .l
  | cons (a : Db .e) (as : Db .l) : Db .l

/-- A renaming of numbers, under `k` binders. -/
def upr (k : Nat) (f : Nat → Nat) (i : Nat) : Nat := if i < k then i else f (i - k) + k

namespace Db

/-- Renumbering. -/
def ren : {s : Srt} → (Nat → Nat) → Db s → Db s
  | _, f, .bvar i => .bvar (f i)
  | _, _, .cst x => .cst x
  | _, f, .lam k b => .lam k (b.ren (upr k f))
  | _, f, .call g as => .call (g.ren f) (as.ren f)
  | _, f, .node k as => .node k (as.ren f)
  | _, f, .tup as => .tup (as.ren f)
  | _, f, .dotI a i => .dotI (a.ren f) i
  | _, f, .restI a i => .restI (a.ren f) i
  | _, f, .comp b s => .comp (b.ren (upr 1 f)) (s.ren f)
  | _, _, .nil => .nil
  | _, f, .cons a as => .cons (a.ren f) (as.ren f)

/-- A substitution, under `k` binders. -/
def up (k : Nat) (τ : Nat → Db .e) (i : Nat) : Db .e :=
  if i < k then .bvar i else (τ (i - k)).ren (· + k)

/-- Substitution for bound variables. -/
def sub : {s : Srt} → (Nat → Db .e) → Db s → Db s
  | _, τ, .bvar i => τ i
  | _, _, .cst x => .cst x
  | _, τ, .lam k b => .lam k (b.sub (up k τ))
  | _, τ, .call g as => .call (g.sub τ) (as.sub τ)
  | _, τ, .node k as => .node k (as.sub τ)
  | _, τ, .tup as => .tup (as.sub τ)
  | _, τ, .dotI a i => .dotI (a.sub τ) i
  | _, τ, .restI a i => .restI (a.sub τ) i
  | _, τ, .comp b s => .comp (b.sub (up 1 τ)) (s.sub τ)
  | _, _, .nil => .nil
  | _, τ, .cons a as => .cons (a.sub τ) (as.sub τ)

/-- The terms of a list. -/
def elems : Db .l → List (Db .e)
  | .nil => []
  | .cons a as => a :: as.elems

/-- The list of some terms. -/
def ofList : List (Db .e) → Db .l
  | [] => .nil
  | a :: as => .cons a (ofList as)

/-- The first `vs.length` variables become `vs`; the others move down. -/
def inst (vs : List (Db .e)) (i : Nat) : Db .e := (vs[i]?).getD (.bvar (i - vs.length))

/-- One step of reduction, anywhere in a term. -/
inductive Step : {s : Srt} → Db s → Db s → Prop where
  | beta (k : Nat) (b : Db .e) (vs : Db .l) :
      vs.elems.length = k → Step (.call (.lam k b) vs) (b.sub (inst vs.elems))
  | eta (k : Nat) (f : Db .e) :
      Step (.lam k (.call (f.ren (· + k)) (ofList ((List.range k).map .bvar)))) f
  | sel (vs : Db .l) (i : Nat) (v : Db .e) :
      vs.elems[i]? = some v → Step (.dotI (.tup vs) i) v
  | rest (vs : Db .l) (i : Nat) :
      i < vs.elems.length → Step (.restI (.tup vs) i) (.tup (ofList (vs.elems.eraseIdx i)))
  | lam {k b b'} : Step b b' → Step (.lam k b) (.lam k b')
  | callF {f f' as} : Step f f' → Step (.call f as) (.call f' as)
  | callA {f as as'} : Step as as' → Step (.call f as) (.call f as')
  | node {k as as'} : Step as as' → Step (.node k as) (.node k as')
  | tup {as as'} : Step as as' → Step (.tup as) (.tup as')
  | dotI {a a' i} : Step a a' → Step (.dotI a i) (.dotI a' i)
  | restI {a a' i} : Step a a' → Step (.restI a i) (.restI a' i)
  | compB {b b' s} : Step b b' → Step (.comp b s) (.comp b' s)
  | compS {b s s'} : Step s s' → Step (.comp b s) (.comp b s')
  | consA {a a' as} : Step a a' → Step (.cons a as) (.cons a' as)
  | consS {a as as'} : Step as as' → Step (.cons a as) (.cons a as')

/-- Reduction in any number of steps. -/
inductive Red : {s : Srt} → Db s → Db s → Prop where
  | refl {s} (a : Db s) : Red a a
  | tail {s} {a b c : Db s} : Red a b → Step b c → Red a c

end Db

/-- What the names mean under the parameters `ps`: the first of that name, or what they meant. -/
def scope (ps : List Nm) (ρ : Nm → Db .e) (x : Nm) : Db .e :=
  if x ∈ ps then .bvar (ps.idxOf x) else (ρ x).ren (· + ps.length)

/-- The meaning of an expression, given that of its names.  The name of a comprehension is in scope
in its first part only. -/
def Ex.db : {s : Srt} → (Nm → Db .e) → Ex s → Db s
  | _, ρ, .var x => ρ x
  | _, ρ, .lam ps b => .lam ps.length (b.db (scope ps ρ))
  | _, ρ, .call f as => .call (f.db ρ) (as.db ρ)
  | _, ρ, .node k as => .node k (as.db ρ)
  | _, ρ, .tup as => .tup (as.db ρ)
  | _, ρ, .dotI a i => .dotI (a.db ρ) i
  | _, ρ, .restI a i => .restI (a.db ρ) i
  | _, ρ, .comp b x s => .comp (b.db (scope [x] ρ)) (s.db ρ)
  | _, _, .nil => .nil
  | _, ρ, .cons a as => .cons (a.db ρ) (as.db ρ)

/-- The meaning of names for which expressions have been put in. -/
def Sub.sem (σ : Sub) (ρ : Nm → Db .e) (x : Nm) : Db .e :=
  match σ x with
  | some u => u.db ρ
  | none => ρ x

/-! ## Evaluation with effects -/

/-- Values. -/
inductive Val where
  | int (n : Nat)
  | tup (vs : List Val)
  | lst (vs : List Val)
  | clo (ρ : List (Nm × Val)) (ps : List Nm) (b : Ex .e)

/-- The value of a name. -/
def look : List (Nm × Val) → Nm → Option Val
  | [], _ => none
  | (a, v) :: ρ, x => if x = a then some v else look ρ x

/-- The nodes of the example programs: `0` adds two numbers, `1` makes a list, `2` and `3` are the
numbers one and two, `4` adds up a list, `5` is the function that a pair holds in front.  Any other
is an effect that is recorded, and gives the number of effects so far. -/
def prim : Nat → List Val → List Nat → Option (Val × List Nat)
  | 0, [.int a, .int b], tr => some (.int (a + b), tr)
  | 1, vs, tr => some (.lst vs, tr)
  | 2, [], tr => some (.int 1, tr)
  | 3, [], tr => some (.int 2, tr)
  | 4, [.lst vs], tr =>
    some (.int ((vs.map fun | .int n => n | _ => 0).sum), tr)
  | 5, [.tup (f :: _)], tr => some (f, tr)
  | k + 6, _, tr => some (.int (tr.length + 1), tr ++ [k])
  | _, _, _ => none

/-- Evaluation from left to right, arguments first; a list of arguments gives a list of values, an
expression a list of one. -/
def ev : Nat → {s : Srt} → List (Nm × Val) → List Nat → Ex s → Option (List Val × List Nat)
  | 0, _, _, _, _ => none
  | _ + 1, _, ρ, tr, .var x => (look ρ x).map fun v => ([v], tr)
  | _ + 1, _, ρ, tr, .lam ps b => some ([.clo ρ ps b], tr)
  | n + 1, _, ρ, tr, .call f as =>
    (ev n ρ tr f).bind fun r => (ev n ρ r.2 as).bind fun q =>
      match r.1 with
      | [.clo ρ' ps b] =>
        if ps.length = q.1.length then ev n (ps.zip q.1 ++ ρ') q.2 b else none
      | _ => none
  | n + 1, _, ρ, tr, .node k as =>
    (ev n ρ tr as).bind fun r => (prim k r.1 r.2).map fun p => ([p.1], p.2)
  | n + 1, _, ρ, tr, .tup as => (ev n ρ tr as).map fun r => ([.tup r.1], r.2)
  | n + 1, _, ρ, tr, .dotI a i =>
    (ev n ρ tr a).bind fun r => match r.1 with
      | [.tup vs] => (vs[i]?).map fun v => ([v], r.2)
      | _ => none
  | n + 1, _, ρ, tr, .restI a i =>
    (ev n ρ tr a).bind fun r => match r.1 with
      | [.tup vs] => some ([.tup (vs.eraseIdx i)], r.2)
      | _ => none
  | n + 1, _, ρ, tr, .comp b x s =>
    (ev n ρ tr s).bind fun r => match r.1 with
      | [.lst vs] =>
        (vs.foldl (fun acc v => acc.bind fun (q : List Val × List Nat) =>
          (ev n ((x, v) :: ρ) q.2 b).map fun p => (q.1 ++ p.1, p.2)) (some ([], r.2))).map
          fun q => ([.lst q.1], q.2)
      | _ => none
  | _ + 1, _, _, tr, .nil => some ([], tr)
  | n + 1, _, ρ, tr, .cons a as =>
    (ev n ρ tr a).bind fun r => (ev n ρ r.2 as).map fun q => (r.1 ++ q.1, q.2)

/-- The number a program comes to, and its effects. -/
def run (n : Nat) (p : Ex .e) : Option (Nat × List Nat) :=
  (ev n [] [] p).bind fun r => match r.1 with
    | [.int v] => some (v, r.2)
    | _ => none

end Verif.Trans
