import Verif.Json.Text
/-!
# What encoding and decoding must compute
-/
namespace Verif.Json
open Verif

mutual
/-- Only values of the classes that have a form in JSON. -/
def Supported : V → Prop
  | .other => False
  | .list l => SupportedL l
  | .dict d => SupportedD d
  | _ => True

def SupportedL : List V → Prop
  | [] => True
  | v :: l => Supported v ∧ SupportedL l

def SupportedD : List (Str × V) → Prop
  | [] => True
  | (_, v) :: l => Supported v ∧ SupportedD l
end

mutual
/-- No infinite number and no NaN. -/
def Finite : V → Prop
  | .float .inf => False
  | .float .ninf => False
  | .float .nan => False
  | .list l => FiniteL l
  | .dict d => FiniteD d
  | _ => True

def FiniteL : List V → Prop
  | [] => True
  | v :: l => Finite v ∧ FiniteL l

def FiniteD : List (Str × V) → Prop
  | [] => True
  | (_, v) :: l => Finite v ∧ FiniteD l
end

mutual
/-- No string and no key has a NUL in it, and no dictionary has a key twice. -/
def Clean : V → Prop
  | .str s => 0 ∉ s
  | .list l => CleanL l
  | .dict d => CleanD d
  | _ => True

def CleanL : List V → Prop
  | [] => True
  | v :: l => Clean v ∧ CleanL l

def CleanD : List (Str × V) → Prop
  | [] => True
  | (k, v) :: l => 0 ∉ k ∧ k ∉ l.map Prod.fst ∧ Clean v ∧ CleanD l
end

/-- The class of an integer that is read: the first of `int`, `u64` and `bigint` that holds it. -/
def Holds : Kind → Int → Prop
  | .int, n => -9223372036854775808 ≤ n ∧ n ≤ 9223372036854775807
  | .u64, n => 9223372036854775808 ≤ n ∧ n ≤ 18446744073709551615
  | .bigint, n => n < -9223372036854775808 ∨ 18446744073709551615 < n
  | _, _ => False

/-- The number that decimal digits stand for. -/
def digitsValue : Str → Nat
  | [] => 0
  | c :: l => (c - 48) * 10 ^ l.length + digitsValue l

/-- A string is the decimal form of an integer: a sign, if it is negative, and digits, the first of which
is zero only if it is the only one. -/
def Denotes (s : Str) (n : Int) : Prop :=
  ∃ c l, (∀ x ∈ c :: l, 48 ≤ x ∧ x ≤ 57) ∧ (c = 48 → l = []) ∧
    ((0 ≤ n ∧ s = c :: l ∧ n = digitsValue (c :: l)) ∨ (n < 0 ∧ s = 45 :: c :: l ∧ n = -digitsValue (c :: l)))

mutual
/-- Two values are the same but for the classes of their integers; those of the second are the ones that
integers have when they are read. With `asStr` a `bigint` has become a string. -/
inductive Same (asStr : Bool) : V → V → Prop
  | none : Same asStr .none .none
  | bool (b) : Same asStr (.bool b) (.bool b)
  | int (k k' n) : (k = .bigint → asStr = false) → Holds k' n → Same asStr (.int k n) (.int k' n)
  | big (n s) : asStr = true → Denotes s n → Same asStr (.int .bigint n) (.str s)
  | float (b) : Same asStr (.float (.fin b)) (.float (.fin b))
  | str (s) : Same asStr (.str s) (.str s)
  | list {l m} : SameL asStr l m → Same asStr (.list l) (.list m)
  | dict {l m} : SameD asStr l m → Same asStr (.dict l) (.dict m)

inductive SameL (asStr : Bool) : List V → List V → Prop
  | nil : SameL asStr [] []
  | cons {v u l m} : Same asStr v u → SameL asStr l m → SameL asStr (v :: l) (u :: m)

inductive SameD (asStr : Bool) : List (Str × V) → List (Str × V) → Prop
  | nil : SameD asStr [] []
  | cons (k) {v u l m} : Same asStr v u → SameD asStr l m → SameD asStr ((k, v) :: l) ((k, u) :: m)
end

mutual
/-- Every integer has the class that it has when it is read. -/
def Read : V → Prop
  | .int k n => Holds k n
  | .list l => ReadL l
  | .dict d => ReadD d
  | _ => True

def ReadL : List V → Prop
  | [] => True
  | v :: l => Read v ∧ ReadL l

def ReadD : List (Str × V) → Prop
  | [] => True
  | (_, v) :: l => Read v ∧ ReadD l
end

mutual
/-- A document without a NUL in a string and without a key twice in an object. -/
def CleanDoc : D → Prop
  | .str s => 0 ∉ s
  | .arr l => CleanDocL l
  | .obj d => CleanDocD d
  | _ => True

def CleanDocL : List D → Prop
  | [] => True
  | v :: l => CleanDoc v ∧ CleanDocL l

def CleanDocD : List (Str × D) → Prop
  | [] => True
  | (k, v) :: l => 0 ∉ k ∧ k ∉ l.map Prod.fst ∧ CleanDoc v ∧ CleanDocD l
end

mutual
/-- No number with a decimal point or exponent is beyond the range of `double`. -/
def InRange : D → Prop
  | .huge => False
  | .arr l => InRangeL l
  | .obj d => InRangeD d
  | _ => True

def InRangeL : List D → Prop
  | [] => True
  | v :: l => InRange v ∧ InRangeL l

def InRangeD : List (Str × D) → Prop
  | [] => True
  | (_, v) :: l => InRange v ∧ InRangeD l
end

/-- The value of the last member with the key `k`. -/
def lastMember (k : Str) : List (Str × D) → Option D
  | [] => none
  | (j, v) :: l =>
    match lastMember k l with
    | some u => some u
    | none => if j = k then some v else none

/-- The value of a key in a dictionary. -/
def find (k : Str) : List (Str × V) → Option V
  | [] => none
  | (j, v) :: l => if j = k then some v else find k l

end Verif.Json
