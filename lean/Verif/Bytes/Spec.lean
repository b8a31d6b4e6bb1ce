import Verif.Bytes.Model
import Verif.Str.Spec
/-!
# Specification of the methods of `bytes`

Search, splitting, joining and stripping are specified as for `str` (`Verif/Str/Spec.lean`), on bytes instead of code
points.
-/
namespace Verif.Bytes

/-- The white space of ASCII. -/
def Space (c : Nat) : Prop := 9 ≤ c ∧ c ≤ 13 ∨ c = 32

/-- The same as a list: what `strip` removes when no set is given. -/
def spaces : List Nat := [9, 10, 11, 12, 13, 32]

/-- The 26 capital and the 26 small letters of ASCII. -/
def capitals : List Nat := List.range' 65 26
def smalls : List Nat := List.range' 97 26

/-- A letter in the other case, everything else as it is. -/
def upperOf (c : Nat) : Nat := (capitals[smalls.idxOf c]?).getD c
def lowerOf (c : Nat) : Nat := (smalls[capitals.idxOf c]?).getD c

/-- `ws` are the maximal stretches of `t` without white space. -/
inductive Words : List Nat → List (List Nat) → Prop
  | blank (t) : (∀ c ∈ t, Space c) → Words t []
  | word (sp w rest ws) : (∀ c ∈ sp, Space c) → w ≠ [] → (∀ c ∈ w, ¬ Space c) → (∀ c, rest.head? = some c → Space c) →
      Words rest ws → Words (sp ++ w ++ rest) (w :: ws)

/-- `e` ends a line that is followed by `b`. -/
def LineEnd (e b : List Nat) : Prop := e = [10] ∨ e = [13, 10] ∨ e = [13] ∧ b.head? ≠ some 10

/-- `ls` are the lines of `t`, with their ends if `keep`. -/
inductive Lines (keep : Bool) : List Nat → List (List Nat) → Prop
  | nil : Lines keep [] []
  | last (t) : t ≠ [] → (∀ c ∈ t, c ≠ 10 ∧ c ≠ 13) → Lines keep t [t]
  | more (a e b ls) : (∀ c ∈ a, c ≠ 10 ∧ c ≠ 13) → LineEnd e b → Lines keep b ls →
      Lines keep (a ++ e ++ b) ((if keep then a ++ e else a) :: ls)

/-- `r` is `t` with tabs replaced by spaces up to the next multiple of `k`, from column `pos` on. -/
inductive Tabs (k : Nat) : Nat → List Nat → List Nat → Prop
  | nil (pos) : Tabs k pos [] []
  | tab (pos n t r) : 0 < n → n ≤ k → k ∣ pos + n → Tabs k (pos + n) t r → Tabs k pos (9 :: t) (List.replicate n 32 ++ r)
  | line (pos c t r) : c = 10 ∨ c = 13 → Tabs k 0 t r → Tabs k pos (c :: t) (c :: r)
  | char (pos c t r) : c ≠ 9 → c ≠ 10 → c ≠ 13 → Tabs k (pos + 1) t r → Tabs k pos (c :: t) (c :: r)

/-- `new` before each of the first `n` of the places of `t` (before each element and at the end). -/
def between0 (new : List Nat) : Nat → List Nat → List Nat
  | 0, t => t
  | _ + 1, [] => new
  | n + 1, c :: t => new ++ c :: between0 new n t

end Verif.Bytes
