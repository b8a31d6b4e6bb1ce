import Verif.Hash.Sink

/-!
What the sink should hand to SHA256: the bytes of its operations, one after
the other, with no trace of the buffer they pass through.
-/

namespace Verif.Hash

/-- The bytes of a string: a NUL is doubled, and NUL, one ends it. -/
def chrBytes (c : Chr) : List Nat := if c.val = 0 then [0, 0] else utf8 c.val

/-- The bytes of one operation. -/
def Op.enc : Op → List Nat
  | .w8 b => [b.val]
  | .str cs => cs.flatMap chrBytes ++ [0, 1]
  | .int i => intBytes i
  | .w64 w => word64Bytes w.val
  | .bytes bs => bs.map (·.val)

end Verif.Hash
