import Mathlib.Data.List.Basic
import Mathlib.Tactic.Tauto

/-!
Model of the types of the Acton compiler and of the substitution of type variables,
`compiler/lib/src/Acton/Syntax.hs` and `compiler/lib/src/Acton/Subst.hs`.

Simplifications, for every definition of this file:
* names (`QName`, `Name`) are natural numbers; two names of the compiler are equal when
  the numbers are;
* source locations are left out (no equality of the compiler looks at them);
* a unification variable is its `uvid`, by which alone it is compared
  (Syntax.hs:788-789); its kind is left out;
* `TUnboxed` is left out: only the pass `Boxing`, after type inference, builds it.
-/
namespace Verif.Ty

/-- `Kind` of a row (Syntax.hs:218): only `PRow` and `KRow` are kinds of rows. -/
inductive RKind
  | prow
  | krow
  deriving DecidableEq, Repr

/-- `FX`, Syntax.hs:237. -/
inductive FX
  | pure
  | mutable
  | proc
  | action
  deriving DecidableEq, Repr

/-- `Type`, Syntax.hs:248-261, and `TCon`, Syntax.hs:235, inlined into `con`. -/
inductive Ty
  | uni (u : Nat)
  | var (v : Nat)
  | con (n : Nat) (ts : List Ty)
  | fn (fx p k t : Ty)
  | tup (p k : Ty)
  | opt (t : Ty)
  | none_
  | wild
  | nil (k : RKind)
  | row (k : RKind) (n : Nat) (t r : Ty)
  | star (k : RKind) (r : Ty)
  | fx (f : FX)
  deriving Repr

namespace Ty

mutual
/-- `instance Eq Type`, Syntax.hs:797-811. -/
def beq : Ty → Ty → Bool
  | uni a, uni b => a == b
  | var a, var b => a == b
  | con n ts, con m us => n == m && beqs ts us
  | fn a b c d, fn a' b' c' d' => beq a a' && beq b b' && beq c c' && beq d d'
  | tup a b, tup a' b' => beq a a' && beq b b'
  | opt a, opt b => beq a b
  | none_, none_ => true
  | wild, wild => true
  | nil a, nil b => a == b
  | row k n t r, row k' n' t' r' => k == k' && n == n' && beq t t' && beq r r'
  | star k r, star k' r' => k == k' && beq r r'
  | fx a, fx b => a == b
  | _, _ => false
/-- Equality of argument lists, derived for `TCon` (Syntax.hs:235). -/
def beqs : List Ty → List Ty → Bool
  | [], [] => true
  | t :: ts, u :: us => beq t u && beqs ts us
  | _, _ => false
end

mutual
theorem beq_eq : ∀ a b : Ty, beq a b = true → a = b
  | uni a, b => by cases b <;> simp [beq]
  | var a, b => by cases b <;> simp [beq]
  | con n ts, b => by
      cases b <;> simp only [beq, Bool.false_eq_true, false_implies, Bool.and_eq_true, beq_iff_eq]
      rintro ⟨rfl, h⟩
      rw [beqs_eq _ _ h]
  | fn a b c d, x => by
      cases x <;> simp only [beq, Bool.false_eq_true, false_implies, Bool.and_eq_true]
      rintro ⟨⟨⟨h1, h2⟩, h3⟩, h4⟩
      rw [beq_eq _ _ h1, beq_eq _ _ h2, beq_eq _ _ h3, beq_eq _ _ h4]
  | tup a b, x => by
      cases x <;> simp only [beq, Bool.false_eq_true, false_implies, Bool.and_eq_true]
      rintro ⟨h1, h2⟩
      rw [beq_eq _ _ h1, beq_eq _ _ h2]
  | opt a, x => by
      cases x <;> simp only [beq, Bool.false_eq_true, false_implies]
      intro h
      rw [beq_eq _ _ h]
  | none_, x => by cases x <;> simp [beq]
  | wild, x => by cases x <;> simp [beq]
  | nil k, x => by cases x <;> simp [beq]
  | row k n t r, x => by
      cases x <;> simp only [beq, Bool.false_eq_true, false_implies, Bool.and_eq_true, beq_iff_eq]
      rintro ⟨⟨⟨rfl, rfl⟩, h3⟩, h4⟩
      rw [beq_eq _ _ h3, beq_eq _ _ h4]
  | star k r, x => by
      cases x <;> simp only [beq, Bool.false_eq_true, false_implies, Bool.and_eq_true, beq_iff_eq]
      rintro ⟨rfl, h4⟩
      rw [beq_eq _ _ h4]
  | fx f, x => by cases x <;> simp [beq]
theorem beqs_eq : ∀ a b : List Ty, beqs a b = true → a = b
  | [], b => by cases b <;> simp [beqs]
  | t :: ts, b => by
      cases b <;> simp only [beqs, Bool.false_eq_true, false_implies, Bool.and_eq_true]
      rintro ⟨h1, h2⟩
      rw [beq_eq _ _ h1, beqs_eq _ _ h2]
end

mutual
theorem beq_refl : ∀ a : Ty, beq a a = true
  | uni a => by simp [beq]
  | var a => by simp [beq]
  | con n ts => by simp [beq, beqs_refl ts]
  | fn a b c d => by simp [beq, beq_refl a, beq_refl b, beq_refl c, beq_refl d]
  | tup a b => by simp [beq, beq_refl a, beq_refl b]
  | opt a => by simp [beq, beq_refl a]
  | none_ => by simp [beq]
  | wild => by simp [beq]
  | nil k => by simp [beq]
  | row k n t r => by simp [beq, beq_refl t, beq_refl r]
  | star k r => by simp [beq, beq_refl r]
  | fx f => by simp [beq]
theorem beqs_refl : ∀ a : List Ty, beqs a a = true
  | [] => by simp [beqs]
  | t :: ts => by simp [beqs, beq_refl t, beqs_refl ts]
end

instance : DecidableEq Ty := fun a b =>
  if h : beq a b = true then isTrue (beq_eq a b h)
  else isFalse (fun e => h (e ▸ beq_refl a))

/-- The collapsing constructor of option types that `vsubst` (Subst.hs:227-229) and
`usubstWith` (TypeEnv.hs:834-836) use: `?(?t)` becomes `?t`. -/
def optOf : Ty → Ty
  | opt t => opt t
  | t => opt t

mutual
/-- `ufree`, Subst.hs:416-428: the unification variables of a type. -/
def ufree : Ty → List Nat
  | uni u => [u]
  | var _ => []
  | con _ ts => ufrees ts
  | fn a b c d => ufree a ++ ufree b ++ ufree c ++ ufree d
  | tup a b => ufree a ++ ufree b
  | opt t => ufree t
  | none_ => []
  | wild => []
  | nil _ => []
  | row _ _ t r => ufree t ++ ufree r
  | star _ r => ufree r
  | fx _ => []
/-- `ufree` of a list, Subst.hs (`instance UFree a => UFree [a]`). -/
def ufrees : List Ty → List Nat
  | [] => []
  | t :: ts => ufree t ++ ufrees ts
end

mutual
/-- `vfree`, Subst.hs:57-67: the type variables of a type. -/
def vfree : Ty → List Nat
  | uni _ => []
  | var v => [v]
  | con _ ts => vfrees ts
  | fn a b c d => vfree a ++ vfree b ++ vfree c ++ vfree d
  | tup a b => vfree a ++ vfree b
  | opt t => vfree t
  | none_ => []
  | wild => []
  | nil _ => []
  | row _ _ t r => vfree t ++ vfree r
  | star _ r => vfree r
  | fx _ => []
/-- `vfree` of a list. -/
def vfrees : List Ty → List Nat
  | [] => []
  | t :: ts => vfree t ++ vfrees ts
end

/-- Lookup of the first binding of a key, Haskell's `lookup`. -/
def look (v : Nat) : List (Nat × Ty) → Option Ty
  | [] => none
  | (w, t) :: s => if v = w then some t else look v s

/-- The case `TVar` of `vsubst`, Subst.hs:219-221. -/
def substVar (s : List (Nat × Ty)) (v : Nat) : Ty :=
  match look v s with
  | some t => t
  | none => var v

mutual
/-- `vsubst` on types, Subst.hs:218-236. -/
def vsubst (s : List (Nat × Ty)) : Ty → Ty
  | var v => substVar s v
  | uni u => uni u
  | con n ts => con n (vsubsts s ts)
  | fn a b c d => fn (vsubst s a) (vsubst s b) (vsubst s c) (vsubst s d)
  | tup a b => tup (vsubst s a) (vsubst s b)
  | opt t => optOf (vsubst s t)
  | row k n t r => row k n (vsubst s t) (vsubst s r)
  | star k r => star k (vsubst s r)
  | none_ => none_
  | wild => wild
  | nil k => nil k
  | fx f => fx f
/-- `vsubst` on lists, Subst.hs:207-208. -/
def vsubsts (s : List (Nat × Ty)) : List Ty → List Ty
  | [] => []
  | t :: ts => vsubst s t :: vsubsts s ts
end

end Ty
end Verif.Ty
