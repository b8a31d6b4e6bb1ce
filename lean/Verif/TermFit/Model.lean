import Mathlib.Data.List.Basic
/-!
# Model of fitting lines to the width of the terminal; C186, C187

compiler/acton/TerminalSize.hs: `termVisibleLength`, `termFitAnsiRight`, `termFitPlainRight`, and
`formatTestLineFitted` with its helpers in compiler/acton/TestFormat.hs.

Simplifications: widths are natural numbers (all functions treat negative ones as 0); every character
takes one column, as in the code; the texts made of numbers (runs, durations, overview of workers)
are arbitrary texts.
-/
namespace Verif.TermFit

abbrev Text := List Char

def ESC : Char := '\x1b'

/-- `c >= '@' && c <= '~'` -/
def isFinal (c : Char) : Bool := decide ('@' ≤ c) && decide (c ≤ '~')

/-- The pattern `'\ESC':'[':xs`, TerminalSize.hs:129, 143. -/
def isEsc (c : Char) (cs : Text) : Bool := decide (c = ESC) && decide (cs.head? = some '[')

/-- `dropAnsi`, TerminalSize.hs:197-201. -/
def dropAnsi : Text → Text
  | [] => []
  | c :: cs => if isFinal c then cs else dropAnsi cs

/-- `spanAnsi`, TerminalSize.hs:203-209. -/
def spanAnsi : Text → Text × Text
  | [] => ([], [])
  | c :: cs => if isFinal c then ([c], cs) else (c :: (spanAnsi cs).1, (spanAnsi cs).2)

theorem dropAnsi_len (s : Text) : (dropAnsi s).length ≤ s.length := by
  induction s with
  | nil => exact Nat.le_refl _
  | cons c cs ih =>
    rw [dropAnsi]
    split
    · simp
    · simp only [List.length_cons]; omega

theorem spanAnsi_len (s : Text) : (spanAnsi s).2.length ≤ s.length := by
  induction s with
  | nil => exact Nat.le_refl _
  | cons c cs ih =>
    rw [spanAnsi]
    split
    · simp
    · simp only [List.length_cons]; omega

/-- `go` in `termVisibleLength`, TerminalSize.hs:125-130. -/
def visLen (acc : Nat) : Text → Nat
  | [] => acc
  | c :: cs => if isEsc c cs then visLen acc (dropAnsi cs.tail) else visLen (acc + 1) cs
termination_by s => s.length
decreasing_by
  · have := dropAnsi_len cs.tail
    simp only [List.length_tail, List.length_cons] at *
    omega
  · simp

/-- `go` in `termFitAnsiRight`, TerminalSize.hs:140-146. -/
def cut (n : Nat) : Text → Text
  | [] => []
  | c :: cs =>
    if n = 0 then []
    else if isEsc c cs then ESC :: '[' :: ((spanAnsi cs.tail).1 ++ cut n (spanAnsi cs.tail).2)
    else c :: cut (n - 1) cs
termination_by s => s.length
decreasing_by
  · have := spanAnsi_len cs.tail
    simp only [List.length_tail, List.length_cons] at *
    omega
  · simp

/-- `"\ESC[" `isInfixOf` trimmed` -/
def hasEsc : Text → Bool
  | [] => false
  | c :: cs => isEsc c cs || hasEsc cs

/-- `testColorReset`, TestFormat.hs:59. -/
def reset : Text := [ESC, '[', '0', 'm']

/-- `termFitAnsiRight`, TerminalSize.hs:132-146. -/
def fitAnsi (width : Nat) (s : Text) : Text :=
  if width = 0 then []
  else if visLen 0 s ≤ width then s
  else if hasEsc (cut width s) then cut width s ++ reset else cut width s

/-- `termFitPlainRight`, TerminalSize.hs:148-152. -/
def fitPlain (width : Nat) (s : Text) : Text :=
  if width = 0 then [] else if s.length ≤ width then s else s.take width

/-- `fitTestDisplay`, TestFormat.hs:157-162. -/
def fitDisplay (width : Nat) (s : Text) : Text :=
  if width = 0 then []
  else if s.length ≤ width then s
  else if width ≤ 3 then s.take width
  else fitPlain (width - 3) s ++ "...".toList

def yellow : Text := [ESC, '[', '3', '3', 'm']
def green : Text := [ESC, '[', '3', '2', 'm']
def red : Text := [ESC, '[', '3', '1', 'm']
def bold : Text := [ESC, '[', '1', 'm']

/-- `testColorApply`, TestFormat.hs:74-78. -/
def apply (color : Bool) (codes msg : Text) : Text := if color then codes ++ (msg ++ reset) else msg

/-- `core`, TestFormat.hs:123: the status without `FLAKY `. -/
def core (st : Text) : Text := if "FLAKY ".toList.isPrefixOf st then st.drop 6 else st

/-- The colours of a status, TestFormat.hs:124-129. -/
def codes (st : Text) : Text :=
  if core st = "RUN".toList then yellow
  else if core st = "SKIP".toList then yellow
  else if core st = "OK".toList then green
  else if core st = "UPDATED".toList then yellow
  else bold ++ red

/-- What a line shows. -/
structure Item where
  color : Bool
  cached : Bool
  status : Text
  display : Text
  nameWidth : Nat
  /-- `runs` and the overview of the workers, TestFormat.hs:169-175 -/
  runs : Text
  /-- `summaryFull` and `summaryCompact` -/
  full : Text
  compact : Text

/-- `star`, TestFormat.hs:130-133. -/
def star (i : Item) : Text := if i.cached then (if i.color then yellow ++ ('*' :: reset) else ['*']) else []

/-- `renderStatusToken`, TestFormat.hs:119-134. -/
def plain (i : Item) : Text := i.status ++ (if i.cached then ['*'] else [])
def token (i : Item) : Text := apply i.color (codes i.status) i.status ++ star i

/-- `testStatusWidth` -/
def statusWidth : Nat := 15

def spaces (n : Nat) : Text := List.replicate n ' '

/-- `pad` in `renderStatusField`, TestFormat.hs:113-117. -/
def pad (i : Item) : Text := spaces (statusWidth - (plain i).length)
def fieldPlain (i : Item) : Text := plain i ++ (pad i ++ [':'])
def field (i : Item) : Text := token i ++ (pad i ++ [':'])

/-- `formatTestLineWith`, TestFormat.hs:165-176; `statusPart` is `field` with ` runs`. -/
def legacy (i : Item) : Text :=
  let p := "   ".toList ++ (i.display ++ ": ".toList)
  p ++ (spaces (i.nameWidth - p.length) ++ (field i ++ (' ' :: i.runs)))

def indent (width : Nat) : Text := if width ≥ 4 then "   ".toList else []

/-- `maybe "" (\s -> " " ++ s)` -/
def tailOf : Option Text → Text
  | none => []
  | some s => ' ' :: s

/-- `alignedPrefix`, TestFormat.hs:251-252. -/
def prefixOf (i : Item) (width : Nat) : Text :=
  let p := indent width ++ (i.display ++ ": ".toList)
  p ++ spaces (i.nameWidth - p.length)

/-- `alignedLine`, TestFormat.hs:253-260. -/
def aligned (i : Item) (width : Nat) (s : Option Text) : Option Text :=
  if (prefixOf i width).length + (fieldPlain i).length + (tailOf s).length ≤ width then
    some (prefixOf i width ++ (field i ++ tailOf s))
  else none

/-- `compactLine`, TestFormat.hs:261-271. -/
def compactLine (i : Item) (width : Nat) (s : Option Text) : Option Text :=
  if (indent width).length + 2 + (plain i).length + (tailOf s).length + 1 ≤ width then
    some (indent width ++ (fitDisplay (width - ((indent width).length + 2 + (plain i).length + (tailOf s).length)) i.display ++
      (": ".toList ++ (token i ++ tailOf s))))
  else none

/-- `legacyLine`, TestFormat.hs:247-249. -/
def legacyLine (i : Item) (width : Nat) : Option Text :=
  if visLen 0 (legacy i) ≤ width then some (legacy i) else none

/-- `fallback`, TestFormat.hs:273-275. -/
def fallback (i : Item) (width : Nat) : Text :=
  if (plain i).length ≤ width then token i else fitDisplay width i.display

def summaries (i : Item) : List (Option Text) := [some i.full, some i.compact, none]

/-- All attempts, TestFormat.hs:236-237. -/
def attempts (i : Item) (width : Nat) : List (Option Text) :=
  legacyLine i width :: ((summaries i).map (aligned i width) ++ (summaries i).map (compactLine i width))

/-- `formatTestLineFitted`, TestFormat.hs:233-275. -/
def fitted (i : Item) (width : Nat) : Text :=
  if width = 0 then []
  else ((attempts i width).findSome? id).getD (fallback i width)

/-! ## Specification -/

/-- `Shows s v`: a terminal shows the text `v` when it is sent `s`. Escape sequences show nothing. -/
inductive Shows : Text → Text → Prop
  | nil : Shows [] []
  | esc {b : Text} {f : Char} {s v : Text} (hb : ∀ c ∈ b, isFinal c = false) (hf : isFinal f = true) (h : Shows s v) :
      Shows (ESC :: '[' :: (b ++ f :: s)) v
  | unfinished {b : Text} (hb : ∀ c ∈ b, isFinal c = false) : Shows (ESC :: '[' :: b) []
  | char {c : Char} {s v : Text} (hc : ∀ t, c :: s ≠ ESC :: '[' :: t) (h : Shows s v) : Shows (c :: s) (c :: v)

/-- Text without escapes. -/
def Clean (s : Text) : Prop := ESC ∉ s

end Verif.TermFit
