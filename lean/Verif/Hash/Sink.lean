/-
The byte sink of `compiler/lib/src/Acton/Hashing.hs`: the operations every
hash feed is made of, and the fixed buffer they are collected in before they
are handed to SHA256.

Cited lines are those of `compiler/lib/src/Acton/Hashing.hs`.

A byte is a natural number; that every byte written is below 256, so that the
`fromIntegral`s of the code lose nothing, is a theorem.  A Haskell `Char` is a
code point, surrogates included.
-/

namespace Verif.Hash

/-- A Haskell `Char`. -/
abbrev Chr := Fin 0x110000

/-- A Haskell `String`. -/
abbrev Str := List Chr

/-- `hashBufferSize`, lines 247-248. -/
def bufSize : Nat := 32768

/-- `HashSink`, line 115.  `fed` is what `SHA256.update` has been given so
far, in order; the buffer is a function from offsets to bytes, and `off` is
the cell `offp`. -/
structure Sink where
  fed : List Nat
  buf : Nat → Nat
  off : Nat

/-- The first `n` bytes of the buffer, as packed by `sinkFlush`. -/
def Sink.pend (s : Sink) (n : Nat) : List Nat := (List.range n).map s.buf

/-- `sinkFlush`, lines 250-259. -/
def Sink.flush (s : Sink) : Sink :=
  if s.off > 0 then { s with fed := s.fed ++ s.pend s.off, off := 0 } else s

/-- `pokeByteOff buf i b`.  A write outside the 32768 bytes that
`withHashScratch` allocates (lines 194-201) is undefined; here it is `none`. -/
def Sink.poke (s : Sink) (i b : Nat) : Option Sink :=
  if i < bufSize then some { s with buf := fun j => if j = i then b else s.buf j }
  else none

/-- A run of `pokeByteOff`s at increasing offsets. -/
def Sink.pokes (s : Sink) (i : Nat) : List Nat → Option Sink
  | [] => some s
  | b :: bs => (s.poke i b).bind fun s => s.pokes (i + 1) bs

/-- `sinkWriteWord8`, lines 268-278. -/
def Sink.write8 (s : Sink) (b : Nat) : Option Sink :=
  if s.off < bufSize then
    (s.poke s.off b).map fun s' => { s' with off := s.off + 1 }
  else
    (s.flush.poke 0 b).map fun s' => { s' with off := 1 }

/-- `sinkWriteBytes`, lines 281-285. -/
def Sink.writeBytes (s : Sink) (bs : List Nat) : Option Sink :=
  some { s.flush with fed := s.flush.fed ++ bs }

/-- The bytes `sinkWriteNatural` writes, lines 297-302, one `sinkWriteWord8`
each. -/
def leb (n : Nat) : List Nat :=
  if n < 128 then [n] else ((n &&& 0x7f) ||| 0x80) :: leb (n >>> 7)
termination_by n
decreasing_by simp only [Nat.shiftRight_eq_div_pow]; omega

/-- The bytes of `sinkWriteInteger` and `sinkWriteInt`, lines 287-295. -/
def intBytes (i : Int) : List Nat :=
  if i < 0 then 1 :: leb (-i).toNat else 0 :: leb i.toNat

/-- A run of `sinkWriteWord8`s. -/
def Sink.write8s (s : Sink) : List Nat → Option Sink
  | [] => some s
  | b :: bs => (s.write8 b).bind fun s => s.write8s bs

/-- The bytes of `sinkWriteWord64LE`, lines 304-317. -/
def word64Bytes (w : Nat) : List Nat :=
  [w &&& 0xff, (w >>> 8) &&& 0xff, (w >>> 16) &&& 0xff, (w >>> 24) &&& 0xff,
   (w >>> 32) &&& 0xff, (w >>> 40) &&& 0xff, (w >>> 48) &&& 0xff, (w >>> 56) &&& 0xff]

/-- `sinkEnsure`, lines 261-266: the offset to write at. -/
def Sink.ensure (s : Sink) (n : Nat) : Sink × Nat :=
  if s.off + n ≤ bufSize then (s, s.off) else (s.flush, 0)

/-- `sinkWriteWord64LE`, lines 304-317. -/
def Sink.write64 (s : Sink) (w : Nat) : Option Sink :=
  ((s.ensure 8).1.pokes (s.ensure 8).2 (word64Bytes w)).map fun s' =>
    { s' with off := (s.ensure 8).2 + 8 }

/-- The bytes `writeUtf8Char` writes, lines 360-381. -/
def utf8 (n : Nat) : List Nat :=
  if n ≤ 0x7f then [n]
  else if n ≤ 0x7ff then [0xc0 + (n >>> 6), 0x80 + (n &&& 0x3f)]
  else if n ≤ 0xffff then
    [0xe0 + (n >>> 12), 0x80 + ((n >>> 6) &&& 0x3f), 0x80 + (n &&& 0x3f)]
  else
    [0xf0 + (n >>> 18), 0x80 + ((n >>> 12) &&& 0x3f), 0x80 + ((n >>> 6) &&& 0x3f),
     0x80 + (n &&& 0x3f)]

/-- `ensureLocal` in `sinkWriteString`, lines 350-355: the string writer keeps
the offset in a variable and stores it in `offp` only to flush. -/
def Sink.ensureLocal (s : Sink) (off n : Nat) : Sink × Nat :=
  if off + n ≤ bufSize then (s, off) else ({ s with off := off }.flush, 0)

/-- `go` in `sinkWriteString`, lines 326-342. -/
def Sink.goStr (s : Sink) (off : Nat) : Str → Option (Sink × Nat)
  | [] => some (s, off)
  | c :: cs =>
    if c.val = 0 then
      ((s.ensureLocal off 2).1.pokes (s.ensureLocal off 2).2 [0, 0]).bind fun s' =>
        s'.goStr ((s.ensureLocal off 2).2 + 2) cs
    else if c.val ≤ 0x7f then
      ((s.ensureLocal off 1).1.pokes (s.ensureLocal off 1).2 [c.val]).bind fun s' =>
        s'.goStr ((s.ensureLocal off 1).2 + 1) cs
    else
      ((s.ensureLocal off 4).1.pokes (s.ensureLocal off 4).2 (utf8 c.val)).bind fun s' =>
        s'.goStr ((s.ensureLocal off 4).2 + (utf8 c.val).length) cs

/-- `writeStringTerm` and the final store of the offset, lines 323-324 and
344-348. -/
def Sink.termStr (s : Sink) (off : Nat) : Option Sink :=
  ((s.ensureLocal off 2).1.pokes (s.ensureLocal off 2).2 [0, 1]).map fun s' =>
    { s' with off := (s.ensureLocal off 2).2 + 2 }

/-- `sinkWriteString`, lines 319-358. -/
def Sink.writeStr (s : Sink) (cs : Str) : Option Sink :=
  (s.goStr s.off cs).bind fun p => p.1.termStr p.2

/-- One call of a sink operation. -/
inductive Op where
  /-- `feedTag` and `feedBool`, lines 217-220 and 243-244. -/
  | w8 (b : Fin 256)
  /-- `feedString`, lines 231-232. -/
  | str (s : Str)
  /-- `feedInt` and `feedInteger`, lines 234-238. -/
  | int (i : Int)
  /-- `feedDouble`, lines 240-241: the bits of the double. -/
  | w64 (w : Fin (2 ^ 64))
  /-- The bytes of `feedHashBytes`, lines 730-731. -/
  | bytes (bs : List (Fin 256))

/-- The effect of one operation. -/
def Op.run (s : Sink) : Op → Option Sink
  | .w8 b => s.write8 b.val
  | .str cs => s.writeStr cs
  | .int i => s.write8s (intBytes i)
  | .w64 w => s.write64 w.val
  | .bytes bs => s.writeBytes (bs.map (·.val))

/-- The effect of a feed. -/
def runOps (s : Sink) : List Op → Option Sink
  | [] => some s
  | o :: os => (o.run s).bind fun s => runOps s os

/-- `hashFeedWith`, lines 203-209, up to the digest: the bytes SHA256 sees.
The buffer may hold the bytes of an earlier feed. -/
def hashInput (buf : Nat → Nat) (ops : List Op) : Option (List Nat) :=
  (runOps { fed := [], buf := buf, off := 0 } ops).map fun s => s.flush.fed

end Verif.Hash
