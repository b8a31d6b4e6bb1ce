import Verif.Serial.Model
/-!
# Specification of the row encoding
-/
namespace Verif.Serial

/-- A sequence of bytes. -/
def Bytes (l : List Nat) : Prop := ∀ b ∈ l, b < 256

/-- A row as the serializer builds it: 32-bit class id, and a blob of `blobSize` words. -/
structure WF (r : Row) : Prop where
  cls : InI32 r.classId
  size : 0 ≤ r.blobSize ∧ r.blobSize < 2^31
  blob : r.blob.length = 8 * r.blobSize
  bytes : Bytes r.blob

/-- Number of bytes needed: eight for the header plus the blob. -/
def needed (rows : List Row) : Nat := (rows.map (fun r => 8 + r.blob.length)).sum

end Verif.Serial
