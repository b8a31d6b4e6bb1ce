/-!
# Model of the fingerprints of projects: compiler/lib/src/Acton/Fingerprint.hs

Texts are lists of code points. Parameters: `sp` is `isSpace`, `low` is `toLower`.
-/
namespace Verif.Finger

/-- One turn of `go` (Fingerprint.hs:24-29). -/
def step (c : BitVec 32) : BitVec 32 := if c &&& 1 ≠ 0 then (c >>> 1) ^^^ 0xEDB88320 else c >>> 1

/-- `go` from 0 to 8. -/
def steps : Nat → BitVec 32 → BitVec 32
  | 0, c => c
  | n + 1, c => steps n (step c)

/-- `update` (Fingerprint.hs:23) -/
def update (c : BitVec 32) (b : Nat) : BitVec 32 := steps 8 (c ^^^ BitVec.ofNat 32 b)

/-- `crc32IsoHdlc` (Fingerprint.hs:20-29) -/
def crc (bs : List Nat) : BitVec 32 := ~~~ (bs.foldl update 0xffffffff)

/-- `fingerprintPrefixForName` (Fingerprint.hs:31-33); `B.pack` keeps the low 8 bits of a character. -/
def prefixFor (name : List Nat) : Nat := (crc (name.map (· % 256))).toNat

/-- A digit of `showHex`. -/
def digit (v : Nat) : Nat := if v < 10 then 48 + v else 87 + v

/-- `showHex` -/
def showHex (n : Nat) : List Nat := if h : n < 16 then [digit n] else showHex (n / 16) ++ [digit (n % 16)]
decreasing_by omega

/-- `padHex` (Fingerprint.hs:62-66) -/
def padHex (w n : Nat) : List Nat := List.replicate (w - (showHex n).length) 48 ++ showHex n

/-- `formatFingerprint` (Fingerprint.hs:35-37) -/
def format (n : Nat) : List Nat := 48 :: 120 :: padHex 16 n

/-- `updateFingerprintPrefix` (Fingerprint.hs:43-45) for a 32-bit and a 64-bit number. -/
def updatePrefix (p fp : Nat) : Nat := (p <<< 32) ||| (fp &&& 0xffffffff)

/-- The value of a hexadecimal digit. -/
def hexVal (c : Nat) : Option Nat :=
  if 48 ≤ c ∧ c ≤ 57 then some (c - 48)
  else if 97 ≤ c ∧ c ≤ 102 then some (c - 87)
  else if 65 ≤ c ∧ c ≤ 70 then some (c - 55)
  else none

/-- The loop of `readHex`: the value of the digits at the front, and what is behind. -/
def readLoop : Nat → List Nat → Nat × List Nat
  | n, [] => (n, [])
  | n, c :: cs =>
    match hexVal c with
    | some v => readLoop (16 * n + v) cs
    | none => (n, c :: cs)

/-- `readHex` (module `Numeric`): one digit at least, as many as possible. -/
def readHex : List Nat → Option (Nat × List Nat)
  | [] => none
  | c :: cs =>
    match hexVal c with
    | some v => some (readLoop v cs)
    | none => none

/-- `parseHex` (Fingerprint.hs:57-60) -/
def parseHex (low : Nat → Nat) (s : List Nat) : Option Nat :=
  match readHex (s.map low) with
  | some (n, []) => if n ≤ 2 ^ 64 - 1 then some n else none
  | _ => none

/-- `trim` (Fingerprint.hs:55) -/
def trim (sp : Nat → Bool) (s : List Nat) : List Nat := ((s.reverse.dropWhile sp).reverse).dropWhile sp

/-- `parseFingerprint` (Fingerprint.hs:47-60) -/
def parse (sp : Nat → Bool) (low : Nat → Nat) (raw : List Nat) : Option Nat :=
  match trim sp raw with
  | 48 :: 120 :: rest => parseHex low rest
  | 48 :: 88 :: rest => parseHex low rest
  | _ => none

/-- `validateFingerprint` (Compile.hs:4855-4883): whether a fingerprint is accepted for a project of that name. -/
def validate (sp : Nat → Bool) (low : Nat → Nat) (name raw : List Nat) : Bool :=
  match parse sp low raw with
  | none => false
  | some fp => if format fp = format 0xacedf00dacedf00d then false else decide (prefixFor name = fp >>> 32)

/-- `suggestFingerprint` (Compile.hs:4848-4853) and `generateFingerprint` (acton/Main.hs:2503-2508), with the random
number. -/
def suggest (name : List Nat) (r : Nat) : List Nat := format ((prefixFor name <<< 32) ||| r)

end Verif.Finger
