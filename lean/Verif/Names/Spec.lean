import Verif.Names.Model

/-! What the generated identifiers must satisfy. -/
namespace Verif.Names

/-- The string has the letter `a` followed by an underscore. -/
def Has (a : Nat) (s : Txt) : Prop := ∃ pre post, s = pre ++ a :: 95 :: post

/-- The letters that the compiler uses with an underscore: A, B, C, D, E, G, L, N, Q, U, V,
W, X. -/
def marks : List Nat := [65, 66, 67, 68, 69, 71, 76, 78, 81, 85, 86, 87, 88]

/-- None of the letters of the compiler is followed by an underscore. -/
def PlainTxt (s : Txt) : Prop := ∀ a ∈ marks, ¬ Has a s

/-- Names of variables, and names made by the compiler. -/
inductive Atom : Name → Prop
  | name {s} : s ≠ [] → s.head? ≠ some 36 → PlainTxt s → Atom (.name s)
  | internal {p s i} : PlainTxt s → (∀ c, s.head? = some c → ¬ (48 ≤ c ∧ c ≤ 57)) →
      Atom (.internal p s i)

/-- Names derived from these, one after the other. -/
inductive Plain : Name → Prop
  | atom {n} : Atom n → Plain n
  | derived {n a} : Plain n → Atom a → Plain (.derived n a)

/-- Qualified names made of plain names. -/
inductive PlainQ : QName → Prop
  | prim {n} : Plain n → PlainQ (.prim n)
  | builtin {n} : Plain n → PlainQ (.builtin n)
  | glob {m n} : m ≠ [] → (∀ x ∈ m, Plain x) → Plain n → PlainQ (.glob m n)
  | loc {n} : Plain n → PlainQ (.loc n)

/-- A C identifier (with `$`, an extension of the C compilers used): letters, digits, `_`,
`$`, the first one not a digit. -/
def CIdent (s : Txt) : Prop :=
  (∃ c r, s = c :: r ∧ ¬ (48 ≤ c ∧ c ≤ 57)) ∧
  ∀ c ∈ s, (97 ≤ c ∧ c ≤ 122) ∨ (65 ≤ c ∧ c ≤ 90) ∨ c = 95 ∨ c = 36 ∨ (48 ≤ c ∧ c ≤ 57)

/-- The keywords of C23 (ISO/IEC 9899:2024, 6.4.1), with the alternative spellings and
`_Imaginary` of earlier editions. -/
def c23Keywords : List Txt := [
  /- alignas -/ [97, 108, 105, 103, 110, 97, 115],
  /- alignof -/ [97, 108, 105, 103, 110, 111, 102],
  /- auto -/ [97, 117, 116, 111],
  /- bool -/ [98, 111, 111, 108],
  /- break -/ [98, 114, 101, 97, 107],
  /- case -/ [99, 97, 115, 101],
  /- char -/ [99, 104, 97, 114],
  /- const -/ [99, 111, 110, 115, 116],
  /- constexpr -/ [99, 111, 110, 115, 116, 101, 120, 112, 114],
  /- continue -/ [99, 111, 110, 116, 105, 110, 117, 101],
  /- default -/ [100, 101, 102, 97, 117, 108, 116],
  /- do -/ [100, 111],
  /- double -/ [100, 111, 117, 98, 108, 101],
  /- else -/ [101, 108, 115, 101],
  /- enum -/ [101, 110, 117, 109],
  /- extern -/ [101, 120, 116, 101, 114, 110],
  /- false -/ [102, 97, 108, 115, 101],
  /- float -/ [102, 108, 111, 97, 116],
  /- for -/ [102, 111, 114],
  /- goto -/ [103, 111, 116, 111],
  /- if -/ [105, 102],
  /- inline -/ [105, 110, 108, 105, 110, 101],
  /- int -/ [105, 110, 116],
  /- long -/ [108, 111, 110, 103],
  /- nullptr -/ [110, 117, 108, 108, 112, 116, 114],
  /- register -/ [114, 101, 103, 105, 115, 116, 101, 114],
  /- restrict -/ [114, 101, 115, 116, 114, 105, 99, 116],
  /- return -/ [114, 101, 116, 117, 114, 110],
  /- short -/ [115, 104, 111, 114, 116],
  /- signed -/ [115, 105, 103, 110, 101, 100],
  /- sizeof -/ [115, 105, 122, 101, 111, 102],
  /- static -/ [115, 116, 97, 116, 105, 99],
  /- static_assert -/ [115, 116, 97, 116, 105, 99, 95, 97, 115, 115, 101, 114, 116],
  /- struct -/ [115, 116, 114, 117, 99, 116],
  /- switch -/ [115, 119, 105, 116, 99, 104],
  /- thread_local -/ [116, 104, 114, 101, 97, 100, 95, 108, 111, 99, 97, 108],
  /- true -/ [116, 114, 117, 101],
  /- typedef -/ [116, 121, 112, 101, 100, 101, 102],
  /- typeof -/ [116, 121, 112, 101, 111, 102],
  /- typeof_unqual -/ [116, 121, 112, 101, 111, 102, 95, 117, 110, 113, 117, 97, 108],
  /- union -/ [117, 110, 105, 111, 110],
  /- unsigned -/ [117, 110, 115, 105, 103, 110, 101, 100],
  /- void -/ [118, 111, 105, 100],
  /- volatile -/ [118, 111, 108, 97, 116, 105, 108, 101],
  /- while -/ [119, 104, 105, 108, 101],
  /- _Alignas -/ [95, 65, 108, 105, 103, 110, 97, 115],
  /- _Alignof -/ [95, 65, 108, 105, 103, 110, 111, 102],
  /- _Atomic -/ [95, 65, 116, 111, 109, 105, 99],
  /- _BitInt -/ [95, 66, 105, 116, 73, 110, 116],
  /- _Bool -/ [95, 66, 111, 111, 108],
  /- _Complex -/ [95, 67, 111, 109, 112, 108, 101, 120],
  /- _Decimal128 -/ [95, 68, 101, 99, 105, 109, 97, 108, 49, 50, 56],
  /- _Decimal32 -/ [95, 68, 101, 99, 105, 109, 97, 108, 51, 50],
  /- _Decimal64 -/ [95, 68, 101, 99, 105, 109, 97, 108, 54, 52],
  /- _Generic -/ [95, 71, 101, 110, 101, 114, 105, 99],
  /- _Imaginary -/ [95, 73, 109, 97, 103, 105, 110, 97, 114, 121],
  /- _Noreturn -/ [95, 78, 111, 114, 101, 116, 117, 114, 110],
  /- _Static_assert -/ [95, 83, 116, 97, 116, 105, 99, 95, 97, 115, 115, 101, 114, 116],
  /- _Thread_local -/ [95, 84, 104, 114, 101, 97, 100, 95, 108, 111, 99, 97, 108]]

end Verif.Names
