import Verif.Dict.Model
/-!
# Specification: insertion-ordered finite maps as association lists

Independent of the hash table: a map is a list of bindings with pairwise different keys, in
order of insertion.
-/
namespace Verif.Dict

/-- A consistent key type: `__eq__` is an equivalence, equal keys have equal 64-bit hashes.
Nothing else is assumed of the hash function (all keys may collide). -/
structure HashW.Ok {K : Type} (W : HashW K) : Prop where
  refl : ∀ a, W.eq a a = true
  symm : ∀ a b, W.eq a b = true → W.eq b a = true
  trans : ∀ a b c, W.eq a b = true → W.eq b c = true → W.eq a c = true
  hash_eq : ∀ a b, W.eq a b = true → W.hash a = W.hash b
  hash_lt : ∀ a, W.hash a < 2 ^ 64

variable {K V : Type}

/-- The value bound to a key equal to `k`. -/
def alookup (eq : K → K → Bool) : List (K × V) → K → Option V
  | [], _ => none
  | (k', v) :: l, k => if eq k k' then some v else alookup eq l k

/-- Bind `k`: in place if it is bound already, otherwise at the end. -/
def aset (eq : K → K → Bool) : List (K × V) → K → V → List (K × V)
  | [], k, v => [(k, v)]
  | (k', v') :: l, k, v => if eq k k' then (k', v) :: l else (k', v') :: aset eq l k v

/-- Remove the binding of `k`. -/
def aerase (eq : K → K → Bool) (l : List (K × V)) (k : K) : List (K × V) :=
  l.filter (fun p => !eq k p.1)

/-- All keys are different. -/
def Distinct (eq : K → K → Bool) (l : List (K × V)) : Prop :=
  l.Pairwise (fun a b => eq a.1 b.1 = false)

/-- Calls that change a dict. -/
inductive Op (K V : Type)
  | set (k : K) (v : V)
  | pop (k : K)
  | popitem
  | setdefault (k : K) (v : V)

/-- Meaning of a call on association lists. -/
def specStep (eq : K → K → Bool) (l : List (K × V)) : Op K V → List (K × V)
  | .set k v => aset eq l k v
  | .pop k => aerase eq l k
  | .popitem => l.dropLast
  | .setdefault k v => if (alookup eq l k).isSome then l else aset eq l k v

end Verif.Dict
