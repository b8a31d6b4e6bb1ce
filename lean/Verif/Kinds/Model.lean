import Verif.Ty.Model

/-!
Model of the kind inference of types, `compiler/lib/src/Acton/Kinds.hs`.

Simplifications, for every definition of this file:
* names are natural numbers, and resolved (`unalias` is the identity); source locations are
  left out;
* the map from kind variables to kinds is a list of bindings, the newest first: `Map.insert`
  puts a binding in front, `Map.lookup` takes the first one;
* errors are one outcome, `err`; a run that needs more than the given number of steps is
  `none`;
* the kind annotations of variables, which `kinfer` writes into the resulting type, are left
  out of it.
-/
namespace Verif.Kinds
open Verif.Ty

/-- `Kind`, Syntax.hs:221. -/
inductive Kind
  | ktype
  | kproto
  | kfx
  | prow
  | krow
  | kfun (ks : List Kind) (k : Kind)
  | kuni (v : Nat)
  | kwild
  deriving Repr

namespace Kind
mutual
/-- The derived `Eq` of `Kind`, Syntax.hs:221. -/
def beq : Kind → Kind → Bool
  | ktype, ktype => true
  | kproto, kproto => true
  | kfx, kfx => true
  | prow, prow => true
  | krow, krow => true
  | kfun a b, kfun a' b' => beqs a a' && beq b b'
  | kuni v, kuni w => v == w
  | kwild, kwild => true
  | _, _ => false
/-- The derived `Eq` of lists of kinds. -/
def beqs : List Kind → List Kind → Bool
  | [], [] => true
  | a :: as, b :: bs => beq a b && beqs as bs
  | _, _ => false
end

mutual
theorem beq_eq : ∀ a b : Kind, beq a b = true → a = b
  | ktype, b => by cases b <;> simp [beq]
  | kproto, b => by cases b <;> simp [beq]
  | kfx, b => by cases b <;> simp [beq]
  | prow, b => by cases b <;> simp [beq]
  | krow, b => by cases b <;> simp [beq]
  | kuni v, b => by cases b <;> simp [beq]
  | kwild, b => by cases b <;> simp [beq]
  | kfun a r, b => by
      cases b <;> simp only [beq, Bool.false_eq_true, false_implies, Bool.and_eq_true]
      rintro ⟨h1, h2⟩
      rw [beqs_eq _ _ h1, beq_eq _ _ h2]
theorem beqs_eq : ∀ a b : List Kind, beqs a b = true → a = b
  | [], b => by cases b <;> simp [beqs]
  | t :: ts, b => by
      cases b <;> simp only [beqs, Bool.false_eq_true, false_implies, Bool.and_eq_true]
      rintro ⟨h1, h2⟩
      rw [beq_eq _ _ h1, beqs_eq _ _ h2]
end

mutual
theorem beq_refl : ∀ a : Kind, beq a a = true
  | ktype => by simp [beq]
  | kproto => by simp [beq]
  | kfx => by simp [beq]
  | prow => by simp [beq]
  | krow => by simp [beq]
  | kuni v => by simp [beq]
  | kwild => by simp [beq]
  | kfun a r => by simp [beq, beqs_refl a, beq_refl r]
theorem beqs_refl : ∀ a : List Kind, beqs a a = true
  | [] => by simp [beqs]
  | t :: ts => by simp [beqs, beq_refl t, beqs_refl ts]
end

instance : DecidableEq Kind := fun a b =>
  if h : beq a b = true then isTrue (beq_eq a b h)
  else isFalse (fun e => h (e ▸ beq_refl a))
end Kind

/-- `unisubst`, Kinds.hs:41. -/
abbrev KSubst := List (Nat × Kind)

/-- `Map.lookup`. -/
def look (v : Nat) : KSubst → Option Kind
  | [] => none
  | (w, k) :: s => if v = w then some k else look v s

/-- What a computation gives: a value, or an error of the compiler. -/
inductive KOut (α : Type)
  | ok (a : α)
  | err
  deriving Repr, DecidableEq

/-- Sequencing; an error or missing steps end the computation. -/
def kbind {α β : Type} (m : Option (KOut α)) (f : α → Option (KOut β)) : Option (KOut β) :=
  match m with
  | none => none
  | some .err => some .err
  | some (.ok a) => f a

mutual
/-- `ksubst False` on kinds, Kinds.hs:603-609. -/
def ksubst : Nat → KSubst → Kind → Option Kind
  | 0, _, _ => none
  | n + 1, s, .kuni v => substVar n s v (look v s)
  | n + 1, s, .kfun ks k => substFun (ksubsts n s ks) (ksubst n s k)
  | _ + 1, _, k => some k
/-- The case `KUni`, Kinds.hs:605-608. -/
def substVar : Nat → KSubst → Nat → Option Kind → Option Kind
  | _, _, v, none => some (.kuni v)
  | 0, _, _, some _ => none
  | n + 1, s, _, some k => ksubst n s k
/-- `mapM (ksubst False)`, Kinds.hs:609. -/
def ksubsts : Nat → KSubst → List Kind → Option (List Kind)
  | 0, _, _ => none
  | _ + 1, _, [] => some []
  | n + 1, s, k :: ks => substCons (ksubst n s k) (ksubsts n s ks)
/-- `KFun <$> ks <*> k`, Kinds.hs:609. -/
def substFun : Option (List Kind) → Option Kind → Option Kind
  | some ks, some k => some (.kfun ks k)
  | _, _ => none
/-- `mapM` on a list that is not empty. -/
def substCons : Option Kind → Option (List Kind) → Option (List Kind)
  | some k, some ks => some (k :: ks)
  | _, _ => none
end

mutual
/-- `kfree`, Kinds.hs:585-587. (It gives no variable at all, as the code does.) -/
def kfree : Kind → List Nat
  | .kuni _ => []
  | .kfun ks k => kfree k ++ kfrees ks
  | _ => []
/-- `concatMap kfree`, Kinds.hs:586. -/
def kfrees : List Kind → List Nat
  | [] => []
  | k :: ks => kfree k ++ kfrees ks
end

/-- Binding of a variable in `kunify'`, Kinds.hs:571-576, and `usubstitute`, Kinds.hs:54-55. -/
def bindVar (s : KSubst) (v : Nat) (k : Kind) : KOut KSubst :=
  if v ∈ kfree k then .err else .ok ((v, k) :: s)

mutual
/-- `kunify`, Kinds.hs:567. -/
def kunify : Nat → KSubst → Kind → Kind → Option (KOut KSubst)
  | 0, _, _, _ => none
  | n + 1, s, k1, k2 => kunifyS n s (ksubst n s k1) (ksubst n s k2)
/-- `kunify'` on substituted kinds, Kinds.hs:569-582. -/
def kunifyS : Nat → KSubst → Option Kind → Option Kind → Option (KOut KSubst)
  | 0, _, _, _ => none
  | n + 1, s, some (.kuni v), some (.kuni w) =>
      if v = w then some (.ok s) else some (bindVar s v (.kuni w))
  | _ + 1, s, some (.kuni v), some k2 => some (bindVar s v k2)
  | _ + 1, s, some k1, some (.kuni w) => some (bindVar s w k1)
  | n + 1, s, some (.kfun ks1 k1), some (.kfun ks2 k2) =>
      if ks1.length = ks2.length then kunifys n s (ks1.zip ks2 ++ [(k1, k2)]) else some .err
  | _ + 1, s, some k1, some k2 => if k1 = k2 then some (.ok s) else some .err
  | _ + 1, _, none, _ => none
  | _ + 1, _, _, none => none
/-- The pairs of arguments and the results, one after the other, Kinds.hs:578-579. -/
def kunifys : Nat → KSubst → List (Kind × Kind) → Option (KOut KSubst)
  | 0, _, _ => none
  | _ + 1, s, [] => some (.ok s)
  | n + 1, s, p :: ps => kbind (kunify n s p.1 p.2) (fun s => kunifys n s ps)
end

/-- The part of the environment that `kinfer` looks at: the kinds of constructors
(`tcKind`, Kinds.hs:90, Env.hs:712-721), the kinds of the type variables in scope (`tvKind`,
Kinds.hs:92-94), and the kinds written at the occurrences of type variables and unification
variables (`none` is `KWild`). -/
structure KEnv where
  con : Nat → Option Kind
  tv : Nat → Option Kind
  vk : Nat → Option Kind
  uk : Nat → Option Kind

/-- `KindState`, Kinds.hs:39-43, without `xvars`. -/
structure KSt where
  s : KSubst
  next : Nat

/-- `newKUni`, Kinds.hs:72, where `instKWild` finds no kind (Kinds.hs:140-146). -/
def instK (st : KSt) : Option Kind → Kind × KSt
  | some k => (k, st)
  | none => (.kuni st.next, { st with next := st.next + 1 })

/-- `kunify` in the state of the inference. -/
def kuni2 (n : Nat) (st : KSt) (k1 k2 : Kind) : Option (KOut KSt) :=
  kbind (kunify n st.s k1 k2) fun s => some (.ok { st with s := s })

/-- The second half of `kexp`, Kinds.hs:560-562. -/
def expect {α : Type} (n : Nat) (k : Kind) (r : Option (KOut (Kind × α × KSt))) :
    Option (KOut (α × KSt)) :=
  kbind r fun (k', a, st) => kbind (kuni2 n st k' k) fun st => some (.ok (a, st))

/-- `kinfer` of a type variable, Kinds.hs:508-510 and 530-532. -/
def kinferVar (n : Nat) (E : KEnv) (st : KSt) (v : Nat) : Option (KOut (Kind × Ty × KSt)) :=
  match E.tv v with
  | none => some .err
  | some k0 =>
      let r := instK st (E.vk v)
      kbind (kuni2 n r.2 r.1 k0) fun st' => some (.ok (r.1, .var v, st'))

/-- `kinfer` of a unification variable, Kinds.hs:512-514 and 533-534. -/
def kinferUni (E : KEnv) (st : KSt) (u : Nat) : Option (KOut (Kind × Ty × KSt)) :=
  let r := instK st (E.uk u)
  some (.ok (r.1, .uni u, r.2))

/-- `ksubst False k` in the state of the inference. -/
def subst2 (n : Nat) (st : KSt) (k : Kind) (c : Nat) (ts : List Ty) :
    Option (KOut (Kind × Ty × KSt)) :=
  match ksubst n st.s k with
  | none => none
  | some k => some (.ok (k, .con c ts, st))

/-- `kinfer` of an application after the arguments, Kinds.hs:520-523. -/
def kinferApp (n : Nat) (kn : Kind) (c : Nat) (r : Option (KOut (List Kind × List Ty × KSt))) :
    Option (KOut (Kind × Ty × KSt)) :=
  kbind r fun (ks, ts, st) =>
    kbind (kuni2 n { st with next := st.next + 1 } kn (.kfun ks (.kuni st.next))) fun st' =>
      subst2 n st' (.kuni st.next) c ts

/-- The kind `PRow` or `KRow` of a row. -/
def rk : RKind → Kind
  | .prow => .prow
  | .krow => .krow

/-- Whether a type is an option. -/
def isOpt : Ty → Bool
  | .opt _ => true
  | _ => false

/-- The kind `k`, with the type and state of `r`. -/
def give (k : Kind) (f : Ty → Ty) (r : Option (KOut (Ty × KSt))) :
    Option (KOut (Kind × Ty × KSt)) :=
  kbind r fun (t, st) => some (.ok (k, f t, st))

/-- The cases for `TOpt`, Kinds.hs:545-547; `r` is the result for the type under the
option. -/
def kinferOpt (n : Nat) (t : Ty) (r : Option (KOut (Kind × Ty × KSt))) :
    Option (KOut (Kind × Ty × KSt)) :=
  if isOpt t then r else give .ktype .opt (expect n .ktype r)

/-- Whether a type is a type variable. -/
def isVar : Ty → Bool
  | .var _ => true
  | _ => false

/-- `kfx`, Kinds.hs:557-558; `r` is the result for the effect. -/
def kfx (n : Nat) (t : Ty) (r : Option (KOut (Kind × Ty × KSt))) : Option (KOut (Ty × KSt)) :=
  if isVar t then some .err else expect n .kfx r

/-- The kind of a constructor without arguments, Kinds.hs:516. -/
def conKind (E : KEnv) (st : KSt) (c : Nat) : Option (KOut (Kind × Ty × KSt)) :=
  match E.con c with
  | none => some .err
  | some k => some (.ok (k, .con c [], st))

/-- A constructor with arguments, Kinds.hs:517-518. -/
def conApp (n : Nat) (E : KEnv) (c : Nat) (r : Option (KOut (List Kind × List Ty × KSt))) :
    Option (KOut (Kind × Ty × KSt)) :=
  match E.con c with
  | none => some .err
  | some k => kinferApp n k c r

mutual
/-- `kinfer` of types, Kinds.hs:528-555. -/
def kinfer (n : Nat) (E : KEnv) (st : KSt) : Ty → Option (KOut (Kind × Ty × KSt))
  | .wild => some .err
  | .var v => kinferVar n E st v
  | .uni u => kinferUni E st u
  | .con c [] => give .ktype id (expect n .ktype (conKind E st c))
  | .con c (t :: ts) =>
      give .ktype id (expect n .ktype (conApp n E c (kinfers n E st (t :: ts))))
  | .fn x p k t =>
      kbind (kfx n x (kinfer n E st x)) fun (x, st) =>
      kbind (expect n .prow (kinfer n E st p)) fun (p, st) =>
      kbind (expect n .krow (kinfer n E st k)) fun (k, st) =>
      kbind (expect n .ktype (kinfer n E st t)) fun (t, st) =>
      some (.ok (.ktype, .fn x p k t, st))
  | .tup p k =>
      kbind (expect n .prow (kinfer n E st p)) fun (p, st) =>
      kbind (expect n .krow (kinfer n E st k)) fun (k, st) =>
      some (.ok (.ktype, .tup p k, st))
  | .opt t => kinferOpt n t (kinfer n E st t)
  | .none_ => some (.ok (.ktype, .none_, st))
  | .nil k => some (.ok (rk k, .nil k, st))
  | .row k m t r =>
      kbind (expect n .ktype (kinfer n E st t)) fun (t, st) =>
      kbind (expect n (rk k) (kinfer n E st r)) fun (r, st) =>
      some (.ok (rk k, .row k m t r, st))
  | .star k r => give (rk k) (.star k) (expect n (rk k) (kinfer n E st r))
  | .fx x => some (.ok (.kfx, .fx x, st))
/-- `mapM (kinfer env)` and `unzip`, Kinds.hs:519. -/
def kinfers (n : Nat) (E : KEnv) (st : KSt) : List Ty →
    Option (KOut (List Kind × List Ty × KSt))
  | [] => some (.ok ([], [], st))
  | t :: ts =>
      kbind (kinfer n E st t) fun (k, t, st) =>
      kbind (kinfers n E st ts) fun (ks, ts, st) =>
      some (.ok (k :: ks, t :: ts, st))
end

end Verif.Kinds
