import Verif.Str.Spec
/-!
# Specification of glob patterns

The features of the comment of `fs.glob` (fs.act:16-35): a pattern is read as a list of tokens, and a list of tokens stands
for a set of paths. A separator is a single character here.
-/
namespace Verif.Glob

/-- A member of a character class. -/
inductive Item
  | one (c : Nat)
  | range (a b : Nat)
  deriving DecidableEq

/-- The characters that a member stands for. -/
def Item.Has : Item → Nat → Prop
  | .one c, x => x = c
  | .range a b, x => a ≤ x ∧ x ≤ b

/-- The content of a class as a list of members: `a-b` is a range, a dash at the end is a character. -/
inductive Items : List Nat → List Item → Prop
  | nil : Items [] []
  | range (a b t is) : Items t is → Items (a :: 45 :: b :: t) (.range a b :: is)
  | one (c t is) : (∀ b t', t ≠ 45 :: b :: t') → Items t is → Items (c :: t) (.one c :: is)

/-- A class, negated by `^` (or `!`) at its beginning. -/
inductive Class : List Nat → Bool → List Item → Prop
  | pos (t is) : t.head? ≠ some 33 → t.head? ≠ some 94 → Items t is → Class t false is
  | neg (m t is) : m = 33 ∨ m = 94 → Items t is → Class (m :: t) true is

inductive Tok
  | lit (c : Nat)
  | any
  | star
  | dstar
  | dirs
  | cls (neg : Bool) (items : List Item)
  | alt (opts : List (List Tok))

/-- What a list of tokens matches. `D` says what `**` and a separator may match. -/
inductive Match (D : List Nat → Prop) (sep : Nat) : List Tok → List Nat → Prop
  | nil : Match D sep [] []
  | lit (c ts w) : Match D sep ts w → Match D sep (.lit c :: ts) (c :: w)
  | any (c ts w) : Match D sep ts w → Match D sep (.any :: ts) (c :: w)
  | star (u ts w) : sep ∉ u → Match D sep ts w → Match D sep (.star :: ts) (u ++ w)
  | dstar (u ts w) : Match D sep ts w → Match D sep (.dstar :: ts) (u ++ w)
  | dirs (u ts w) : D u → Match D sep ts w → Match D sep (.dirs :: ts) (u ++ w)
  | cls (neg is c ts w) : ((∃ i ∈ is, i.Has c) ↔ neg = false) → Match D sep ts w → Match D sep (.cls neg is :: ts) (c :: w)
  | alt (os q ts w) : q ∈ os → Match D sep (q ++ ts) w → Match D sep (.alt os :: ts) w

/-- Any number of directories: nothing, or something that ends with a separator. -/
def Dirs (sep : Nat) (u : List Nat) : Prop := u = [] ∨ u.getLast? = some sep

/-- What stands before the place where we read: one star, two stars, or something else. -/
inductive Prev
  | other
  | star
  | dstar

/-- One star is not followed by a star (two of them are another token), two stars are not followed by a separator. -/
def Fits (sep : Nat) : Prev → List Nat → Prop
  | .other, _ => True
  | .star, t => t.head? ≠ some 42
  | .dstar, t => t.head? ≠ some sep

/-- `Reads safe sep prev t ts`: the text `t` of a pattern is read as the tokens `ts`. With `safe`, an option of a brace
expression has to have the same reading when it is put in the place of the expression (an option `*` after a `*` has not). -/
inductive Reads (safe : Bool) (sep : Nat) : Prev → List Nat → List Tok → Prop
  | nil (b) : Reads safe sep b [] []
  | esc (b c t ts) : Fits sep b (92 :: c :: t) → Reads safe sep .other t ts → Reads safe sep b (92 :: c :: t) (.lit c :: ts)
  | escEnd (b) : Fits sep b [92] → Reads safe sep b [92] [.lit 92]
  | star (b t ts) : Fits sep b (42 :: t) → Reads safe sep .star t ts → Reads safe sep b (42 :: t) (.star :: ts)
  | dstar (b t ts) : Fits sep b (42 :: 42 :: t) → Reads safe sep .dstar t ts →
      Reads safe sep b (42 :: 42 :: t) (.dstar :: ts)
  | dirs (b t ts) : Fits sep b (42 :: 42 :: sep :: t) → Reads safe sep .other t ts →
      Reads safe sep b (42 :: 42 :: sep :: t) (.dirs :: ts)
  | any (b t ts) : Fits sep b (63 :: t) → Reads safe sep .other t ts → Reads safe sep b (63 :: t) (.any :: ts)
  | cls (b body neg is t ts) : Fits sep b (91 :: (body ++ 93 :: t)) → 93 ∉ body → Class body neg is →
      Reads safe sep .other t ts → Reads safe sep b (91 :: (body ++ 93 :: t)) (.cls neg is :: ts)
  | bracket (b t ts) : Fits sep b (91 :: t) → 93 ∉ t → Reads safe sep .other t ts →
      Reads safe sep b (91 :: t) (.lit 91 :: ts)
  | alt (b body opts alts t ts) : Fits sep b (123 :: (body ++ 125 :: t)) → 125 ∉ body →
      Str.SplitsTo [44] none body opts → opts.length = alts.length →
      (∀ (i : Nat) (o : List Nat) (q : List Tok), opts[i]? = some o → alts[i]? = some q → Reads safe sep .other o q) →
      (∀ (i : Nat) (o : List Nat) (q : List Tok), safe = true → opts[i]? = some o → alts[i]? = some q →
        Reads safe sep b (o ++ t) (q ++ ts)) →
      Reads safe sep .other t ts → Reads safe sep b (123 :: (body ++ 125 :: t)) (.alt alts :: ts)
  | brace (b t ts) : Fits sep b (123 :: t) → 125 ∉ t → Reads safe sep .other t ts →
      Reads safe sep b (123 :: t) (.lit 123 :: ts)
  | lit (b c t ts) : Fits sep b (c :: t) → c ≠ 92 → c ≠ 42 → c ≠ 63 → c ≠ 91 → c ≠ 123 → Reads safe sep .other t ts →
      Reads safe sep b (c :: t) (.lit c :: ts)

/-- No `**` with a separator after it, in any choice of options. -/
inductive NoDirs : List Tok → Prop
  | nil : NoDirs []
  | lit (c ts) : NoDirs ts → NoDirs (.lit c :: ts)
  | any (ts) : NoDirs ts → NoDirs (.any :: ts)
  | star (ts) : NoDirs ts → NoDirs (.star :: ts)
  | dstar (ts) : NoDirs ts → NoDirs (.dstar :: ts)
  | cls (n is ts) : NoDirs ts → NoDirs (.cls n is :: ts)
  | alt (os ts) : (∀ q ∈ os, NoDirs (q ++ ts)) → NoDirs (.alt os :: ts)

end Verif.Glob
