import Verif.Str.Spec
import Verif.Str.Utf8
import Verif.Big.TextSpec
/-!
# Specification of HTTP messages (RFC 9112), independent of the code

Bytes and code points are numbers. `wire` is what is sent.
-/
namespace Verif.Http.Spec
open Verif.Str Verif.Big.TextSpec

/-- A code point that UTF-8 can encode, other than zero, CR and LF. -/
def Plain (c : Nat) : Prop := (c < 0xD800 ∨ 0xE000 ≤ c ∧ c < 0x110000) ∧ c ≠ 0 ∧ c ≠ 13 ∧ c ≠ 10

/-- Does not begin or end with a space. -/
def Trimmed (t : List Nat) : Prop := t.head? ≠ some 32 ∧ t.getLast? ≠ some 32

/-- `line` is a header line for `name` and `value`: name, colon, spaces, value, spaces. -/
def Field (line : List Nat) (f : List Nat × List Nat) : Prop :=
  ∃ a b : Nat, line = enc f.1 ++ [58] ++ List.replicate a 32 ++ enc f.2 ++ List.replicate b 32 ∧
    (∀ c ∈ f.1, Plain c ∧ c ≠ 58) ∧ (∀ c ∈ f.2, Plain c) ∧ Trimmed f.1 ∧ Trimmed f.2

/-- The value of header `k` (a lower-case name): that of the last line with this name. -/
def valueOf (lower : List Nat → List Nat) (fs : List (List Nat × List Nat)) (k : List Nat) : Option (List Nat) :=
  ((fs.filter (fun f => lower f.1 = k)).getLast?).map Prod.snd

/-- `t` is a number in `base` without sign, with the value `n`. -/
def Number (base : Nat) (t : List Nat) (n : Nat) : Prop :=
  ∃ ds, ds ≠ [] ∧ (∀ d ∈ ds, d < base) ∧ List.Forall₂ IsDigit t ds ∧ value base ds = n

/-- A chunk size that does not begin with "0b" or "0B". -/
def Size (t : List Nat) (n : Nat) : Prop := Number 16 t n ∧ ∀ r, t ≠ 48 :: 98 :: r ∧ t ≠ 48 :: 66 :: r

/-- `wire` is the body in chunks (without extensions and trailers). -/
inductive Chunked : List Nat → List Nat → Prop
  | last (sz) : Size sz 0 → Chunked (sz ++ [13, 10] ++ [13, 10]) []
  | chunk (sz data wire body) : Size sz data.length → data ≠ [] → Chunked wire body →
      Chunked (sz ++ [13, 10] ++ (data ++ [13, 10] ++ wire)) (data ++ body)

/-- "content-length", "transfer-encoding" and "chunked". -/
def contentLength : List Nat := [99, 111, 110, 116, 101, 110, 116, 45, 108, 101, 110, 103, 116, 104]
def transferEncoding : List Nat := [116, 114, 97, 110, 115, 102, 101, 114, 45, 101, 110, 99, 111, 100, 105, 110, 103]
def chunked : List Nat := [99, 104, 117, 110, 107, 101, 100]

/-- `wire` carries the body `body` of a message with the headers `fs`. -/
inductive Body (lower : List Nat → List Nat) (fs : List (List Nat × List Nat)) : List Nat → List Nat → Prop
  | empty : valueOf lower fs contentLength = none → valueOf lower fs transferEncoding = none → Body lower fs [] []
  | sized (v body) : valueOf lower fs contentLength = some v → Number 10 v body.length → Body lower fs body body
  | chunked (cs wire body) : valueOf lower fs contentLength = none →
      valueOf lower fs transferEncoding = some (joinWith [44] cs) → Spec.chunked ∈ cs → (∀ c ∈ cs, 44 ∉ c) →
      Chunked wire body → Body lower fs wire body

/-- `wire` is a message with this start line, these headers and this body. -/
def Wire (lower : List Nat → List Nat) (wire start : List Nat) (fs : List (List Nat × List Nat)) (body : List Nat) : Prop :=
  ∃ lines bw, wire = joinWith [13, 10] (start :: lines) ++ [13, 10, 13, 10] ++ bw ∧ start ≠ [] ∧ 13 ∉ start ∧ 10 ∉ start ∧
    List.Forall₂ Field lines fs ∧ Body lower fs bw body

/-- `h` gives each lower-case name its value. -/
def Gives (lower : List Nat → List Nat) (fs : List (List Nat × List Nat)) (h : List Nat → Option (List Nat)) : Prop :=
  ∀ k, h k = valueOf lower fs k

/-- The versions of HTTP: "1.1" and "1.0". -/
def Version (v : List Nat) : Prop := v = [49, 46, 49] ∨ v = [49, 46, 48]

/-- `start` is a request line. -/
def RequestLine (start : List Nat) (method path : List Nat) (version : List Nat) : Prop :=
  start = enc method ++ [32] ++ enc path ++ [32, 72, 84, 84, 80, 47] ++ version ∧ Version version ∧
    (∀ c ∈ method, Plain c ∧ c ≠ 32) ∧ (∀ c ∈ path, Plain c ∧ c ≠ 32)

/-- `start` is a status line: the reason may be missing. -/
def StatusLine (start : List Nat) (version : List Nat) (status : Nat) : Prop :=
  ∃ st reason, start = [72, 84, 84, 80, 47] ++ version ++ [32] ++ st ++ reason ∧ Version version ∧ Number 10 st status ∧
    status < 2 ^ 63 ∧ (reason = [] ∨ ∃ r, reason = 32 :: r) ∧ 13 ∉ reason ∧ 10 ∉ reason

end Verif.Http.Spec
