/-!
# Specification of netstrings

A framed message is the length in decimal, a colon, the payload and a comma.
-/
namespace Verif.Netstring

/-- Decimal notation in ASCII. -/
def decimal (n : Nat) : List Nat := (Nat.toDigits 10 n).map Char.toNat

/-- The framing of a payload. -/
def frame (d : List Nat) : List Nat := decimal d.length ++ [58] ++ d ++ [44]

end Verif.Netstring
