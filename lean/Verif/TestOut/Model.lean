import Mathlib.Data.List.Basic
/-!
# Model of how the output of tests is shown; C189, C190

`splitTestOutput`, `renderIterationOutput`, `dedupCombinedOutput`, `trim`, `stripAnsi`, `dropAnsi`,
compiler/acton/TestRunner.hs:472-534 (and, word by word, in TestFormat.hs:352-402).

Simplifications: `isSpace` knows the spaces of ASCII only.
-/
namespace Verif.TestOut

abbrev Text := List Char

/-- `isSpace` -/
def isSpace (c : Char) : Bool := c = ' ' || c = '\t' || c = '\n' || c = '\r' || c = '\x0b' || c = '\x0c'

/-- `lines` of Haskell. -/
def linesGo (cur : Text) : Text → List Text
  | [] => if cur.isEmpty then [] else [cur.reverse]
  | c :: cs => if c = '\n' then cur.reverse :: linesGo [] cs else linesGo (c :: cur) cs
def lines (s : Text) : List Text := linesGo [] s

/-- `trim`, TestRunner.hs:519-522. -/
def dropEnd (s : Text) : Text := (s.reverse.dropWhile isSpace).reverse
def trim (s : Text) : Text := (dropEnd s).dropWhile isSpace

/-- `dropAnsi` and `stripAnsi`, TestRunner.hs:524-533; `inside` says whether `dropAnsi` is at work
(which passes over the `[` too). -/
def strip (inside : Bool) : Text → Text
  | [] => []
  | c :: cs =>
    if inside then strip (c ≠ 'm') cs
    else if c = '\x1b' && cs.head? = some '[' then strip true cs
    else c :: strip false cs

/-- `isInfixOf` -/
def contains (p : Text) : Text → Bool
  | [] => p.isEmpty
  | c :: cs => p.isPrefixOf (c :: cs) || contains p cs

def marker : Text := "== Running test, iteration:".toList

/-- `isMarker`, TestRunner.hs:475. -/
def isMarker (l : Text) : Bool := contains marker (strip false (trim l))

structure St where
  chunks : List Text
  current : Text
  seen : Bool

/-- `current'`, TestRunner.hs:482. -/
def add (cur line : Text) : Text := if cur.isEmpty then line else cur ++ '\n' :: line

/-- `step`, TestRunner.hs:476-483. -/
def step (s : St) (line : Text) : St :=
  if isMarker line then
    if s.seen then ⟨s.chunks ++ [trim s.current], [], true⟩ else ⟨s.chunks, [], true⟩
  else ⟨s.chunks, add s.current line, s.seen⟩

/-- `splitTestOutput`, TestRunner.hs:472-489. -/
def split (buf : Text) : List Text :=
  let s := (lines buf).foldl step ⟨[], [], false⟩
  if s.seen then s.chunks ++ [trim s.current]
  else if (trim buf).isEmpty then [] else [trim buf]

/-- `renderSection` of TestRunner.hs:495-497. -/
def section' (label content : Text) : Text :=
  label ++ (":\n".toList ++ List.intercalate ['\n'] ((lines content).map (fun l => ' ' :: ' ' :: l)))

/-- `renderIterationOutput`, TestRunner.hs:491-502. -/
def render (out err : Text) : Text :=
  List.intercalate ['\n'] ((if (trim out).isEmpty then [] else [section' "STDOUT".toList (trim out)]) ++
    (if (trim err).isEmpty then [] else [section' "STDERR".toList (trim err)]))

/-- `getChunk` -/
def getChunk (xs : List Text) (i : Nat) : Text := if i < xs.length then xs.getD i [] else []

/-- `combined`, TestRunner.hs:507-509. -/
def combined (o e : List Text) : List Text :=
  (List.range (max o.length e.length)).map (fun i => render (getChunk o i) (getChunk e i))

/-- `stepCount`, TestRunner.hs:511-514; the map is a function. -/
def stepCount (s : List Text × (Text → Option Nat)) (c : Text) : List Text × (Text → Option Nat) :=
  (if (s.2 c).isSome then s.1 else s.1 ++ [c], fun x => if x = c then some ((s.2 c).getD 0 + 1) else s.2 x)

/-- The counts, TestRunner.hs:515-516. -/
def counts (parts : List Text) : List (Text × Nat) :=
  let s := parts.foldl stepCount ([], fun _ => none)
  s.1.map (fun c => (c, (s.2 c).getD 0))

/-- `dedupCombinedOutput`, TestRunner.hs:504-516. -/
def dedup (out err : Text) : List (Text × Nat) :=
  counts ((combined (split out) (split err)).filter (fun c => !(trim c).isEmpty))

/-! ## Specification -/

/-- The text of some lines. -/
def text (ls : List Text) : Text := ls.flatMap (fun l => l ++ ['\n'])

/-- Lines of the test: no newline, not a marker. -/
def Plain (l : Text) : Prop := '\n' ∉ l ∧ isMarker l = false

/-- `y` is `x` without spaces at either end. -/
def Trimmed (x y : Text) : Prop :=
  ∃ a b, x = a ++ (y ++ b) ∧ (∀ c ∈ a, isSpace c = true) ∧ (∀ c ∈ b, isSpace c = true) ∧
    (∀ c r, y = c :: r → isSpace c = false) ∧ (∀ c r, y = r ++ [c] → isSpace c = false)

/-- The iterations of a test, each with the marker line before it (testing.act:1240-1241) and the
lines of its output. -/
abbrev Iters := List (Text × List Text)

def Ok (its : Iters) : Prop := ∀ it ∈ its, '\n' ∉ it.1 ∧ isMarker it.1 = true ∧ ∀ l ∈ it.2, Plain l

def outputOf (its : Iters) : Text := text (its.flatMap (fun it => it.1 :: it.2))

end Verif.TestOut
