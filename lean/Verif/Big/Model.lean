import Verif.Common
/-!
# Model of the shifts and bitwise operations of `bigint` (base/builtin/bigint.c)

A number is a sign-and-magnitude value of the library bsdnt: `|size|` words of 64 bits, least significant first, the
sign of `size` is that of the number. The library itself is not part of the repository: `nn_shl` and `nn_shr`, which
shift the words by less than 64 bits, are given by their specification. The loops count with `int`: numbers of at most
`2^31` words are meant.
-/
namespace Verif.Big
open Verif

/-- The number of values of a word. -/
def B : Nat := 2 ^ 64

/-- `zz_struct`: `n` is the content of the `alloc` words of the block, words that have not been written are arbitrary. -/
structure Z where
  size : Int
  alloc : Nat
  n : Nat → Nat

/-- The number that `k` words denote. -/
def words (n : Nat → Nat) : Nat → Nat
  | 0 => 0
  | k + 1 => words n k + n k * B ^ k

/-- The number that a `zz_struct` denotes. -/
def Z.val (z : Z) : Int := if z.size < 0 then -(words z.n z.size.natAbs : Int) else words z.n z.size.natAbs

/-- What the library demands of its operands: the words are in range and the most significant one is not zero. -/
structure Z.Ok (z : Z) : Prop where
  lt : ∀ i, i < z.size.natAbs → z.n i < B
  top : z.size ≠ 0 → z.n (z.size.natAbs - 1) ≠ 0
  fit : z.size.natAbs ≤ z.alloc

/-- `n[i] = w` in a block of `alloc` words. -/
def wr (alloc : Nat) (n : Nat → Nat) (i w : Nat) : Res (Nat → Nat) :=
  if i < alloc then .ok (fun j => if j = i then w else n j) else .ub

/-- `nn_shl(dst, src, m, bits)` of bsdnt: the words of the shifted number, and those bits that have been shifted out. -/
def nnShl (dst src : Nat → Nat) (m bits : Nat) : (Nat → Nat) × Nat :=
  (fun i => if i < m then words src m * 2 ^ bits / B ^ i % B else dst i, words src m * 2 ^ bits / B ^ m)

/-- `nn_shr(dst, src, m, bits)` of bsdnt. -/
def nnShr (dst src : Nat → Nat) (m bits : Nat) : Nat → Nat :=
  fun i => if i < m then words src m / 2 ^ bits / B ^ i % B else dst i

/-- bigint.c:389-390: `n[i+shw] = n[i]` for the indexes below `i`, from above. -/
def moveUp (alloc shw : Nat) : Nat → (Nat → Nat) → Res (Nat → Nat)
  | 0, n => .ok n
  | i + 1, n => do
    let n ← wr alloc n (i + shw) (n i)
    moveUp alloc shw i n

/-- bigint.c:391-392: `n[i] = 0` for `k` indexes from `i`. -/
def clear (alloc : Nat) : Nat → Nat → (Nat → Nat) → Res (Nat → Nat)
  | 0, _, n => .ok n
  | k + 1, i, n => do
    let n ← wr alloc n i 0
    clear alloc k (i + 1) n

/-- The condition of bigint.c:388. -/
def moveWords (alloc shw k : Nat) (n : Nat → Nat) : Res (Nat → Nat) :=
  if shw > 0 then do
    let n ← moveUp alloc shw k n
    clear alloc shw 0 n
  else .ok n

/-- bigint.c:382-397: the shift by `shw` words and `shb` bits; `g` is the content of the new block. -/
def lshiftBy (g : Nat → Nat) (a : Z) (shw shb : Nat) : Res Z := do
  let m := a.size.natAbs
  let mres := m + shw + (if shb > 0 then 1 else 0)
  let s := nnShl g a.n m shb
  let n ← wr mres s.1 m s.2
  let n ← moveWords mres shw (m + (if shb > 0 then 1 else 0)) n
  let k : Int := (mres : Int) - (if n (mres - 1) = 0 then 1 else 0)
  return ⟨if a.size < 0 then -k else k, mres, n⟩

/-- `__lshift__`, bigint.c:369-398. -/
def lshift (g : Nat → Nat) (a : Z) (b : Int) : Res Z :=
  if a.size = 0 ∨ b = 0 then .ok a
  else if b < 0 then .raise .valueError
  else lshiftBy g a (b.toNat / 64) (b.toNat % 64)

/-- bigint.c:415-424: if there are no words left, arrays of length zero or less are created and the word with number
`mres - 1` is read. -/
def rshiftBy (g : Nat → Nat) (a : Z) (shw shb : Nat) : Res Z :=
  let m := a.size.natAbs
  if m ≤ shw then .ub
  else
    let mres := m - shw
    let n := nnShr g (fun i => a.n (i + shw)) mres shb
    let k : Int := (mres : Int) - (if n (mres - 1) = 0 then 1 else 0)
    .ok ⟨if a.size < 0 then -k else k, mres, n⟩

/-- `__rshift__`, bigint.c:400-425. -/
def rshift (g : Nat → Nat) (a : Z) (b : Int) : Res Z :=
  if a.size = 0 ∨ b = 0 then .ok a
  else if b < 0 then .raise .valueError
  else rshiftBy g a (b.toNat / 64) (b.toNat % 64)

/-! ### Bitwise operations -/

/-- The words and the carry of `twocompl`, bigint.c:441-452, after `k` words. -/
def twoLoop (src : Nat → Nat) : Nat → (Nat → Nat) → (Nat → Nat) × Nat
  | 0, dst => (dst, 1)
  | k + 1, dst =>
    let r := twoLoop src k dst
    let t := B - 1 - src k
    if t < B - 1 ∨ r.2 = 0 then (fun j => if j = k then (t + r.2) % B else r.1 j, 0)
    else (fun j => if j = k then 0 else r.1 j, r.2)

/-- `twocompl`, bigint.c:441-452. A word of the source is read before the same word of the destination is written, so
that both may be the same block. -/
def twocompl (dst src : Nat → Nat) (len : Nat) : Nat → Nat := (twoLoop src len dst).1

/-- bigint.c:462-471: the words of an operand in two's complement. -/
def compl (g : Nat → Nat) (a : Z) : Nat → Nat :=
  if a.size < 0 then twocompl g a.n a.size.natAbs else a.n

/-- An operand in two's complement: words, number of words, whether it is negative. -/
structure Opd where
  n : Nat → Nat
  size : Nat
  neg : Bool

def opd (g : Nat → Nat) (a : Z) : Opd := ⟨compl g a, a.size.natAbs, decide (a.size < 0)⟩

/-- The loops that fill the words from `hi - 1` down to `lo` by `f` and note the first that is not zero, e.g.
bigint.c:485-489. -/
def fill (alloc : Nat) (f : Nat → Nat) (lo : Nat) : Nat → (Nat → Nat) × Nat → Res ((Nat → Nat) × Nat)
  | 0, s => .ok s
  | i + 1, s =>
    if i < lo then .ok s
    else do
      let n ← wr alloc s.1 i (f i)
      fill alloc f lo i (n, if s.2 = 0 ∧ f i ≠ 0 then i + 1 else s.2)

/-- The common end, e.g. bigint.c:496-500. -/
def finish (alloc : Nat) (rneg : Bool) (s : (Nat → Nat) × Nat) : Z :=
  if rneg then ⟨-(s.2 : Int), alloc, twocompl s.1 s.1 s.2⟩ else ⟨s.2, alloc, s.1⟩

/-- The exchange of the operands, so that the first is not shorter, e.g. bigint.c:473-477. -/
def order (x y : Opd) : Opd × Opd := if x.size < y.size then (y, x) else (x, y)

/-- The upper part of a loop that is only run under a condition, e.g. bigint.c:484-490. -/
def fillIf (c : Bool) (alloc : Nat) (f : Nat → Nat) (lo hi : Nat) (s : (Nat → Nat) × Nat) : Res ((Nat → Nat) × Nat) :=
  if c then fill alloc f lo hi s else .ok s

/-- What the three operations have in common: the operands are exchanged if necessary, a new block of `len` words is
filled by `fills`, and the result gets its sign. -/
def combine (len : Opd → Opd → Nat) (fills : Opd → Opd → Res ((Nat → Nat) × Nat)) (rneg : Bool) (x y : Opd) : Res Z := do
  let p := order x y
  let s ← fills p.1 p.2
  return finish (len p.1 p.2) rneg s

/-- bigint.c:482. -/
def andLen (x y : Opd) : Nat := if y.neg then x.size else y.size

/-- bigint.c:484-495. -/
def andFill (g : Nat → Nat) (x y : Opd) : Res ((Nat → Nat) × Nat) := do
  let s ← fillIf y.neg (andLen x y) x.n y.size x.size (g, 0)
  fill (andLen x y) (fun i => x.n i &&& y.n i) 0 y.size s

/-- `zero`: `toB_bigint(0)`, bigint.c:673-675. -/
def zero : Z := ⟨0, 1, fun _ => 0⟩

/-- `__and__`, bigint.c:454-501; the `g`s are the contents of the new blocks. -/
def and (g1 g2 g3 : Nat → Nat) (a b : Z) : Res Z :=
  if b.size = 0 then .ok zero
  else if a.size = 0 then .ok zero
  else combine andLen (andFill g3) (decide (a.size < 0) && decide (b.size < 0)) (opd g1 a) (opd g2 b)

/-- bigint.c:529. -/
def orLen (x y : Opd) : Nat := if y.neg then y.size else x.size

/-- bigint.c:531-542. -/
def orFill (g : Nat → Nat) (x y : Opd) : Res ((Nat → Nat) × Nat) := do
  let s ← fillIf (!y.neg) (orLen x y) x.n y.size x.size (g, 0)
  fill (orLen x y) (fun i => x.n i ||| y.n i) 0 y.size s

/-- `__or__`, bigint.c:504-548. -/
def or (g1 g2 g3 : Nat → Nat) (a b : Z) : Res Z :=
  if b.size = 0 then .ok a
  else if a.size = 0 then .ok b
  else combine orLen (orFill g3) (decide (a.size < 0) || decide (b.size < 0)) (opd g1 a) (opd g2 b)

/-- bigint.c:576. -/
def xorLen (x _ : Opd) : Nat := x.size

/-- bigint.c:578-587. -/
def xorFill (g : Nat → Nat) (x y : Opd) : Res ((Nat → Nat) × Nat) := do
  let s ← fill (xorLen x y) (fun i => if y.neg then B - 1 - x.n i else x.n i) y.size x.size (g, 0)
  fill (xorLen x y) (fun i => x.n i ^^^ y.n i) 0 y.size s

/-- `__xor__`, bigint.c:551-593. -/
def xor (g1 g2 g3 : Nat → Nat) (a b : Z) : Res Z :=
  if b.size = 0 then .ok a
  else if a.size = 0 then .ok b
  else combine xorLen (xorFill g3) (decide (a.size < 0) ^^ decide (b.size < 0)) (opd g1 a) (opd g2 b)

/-- `toB_bigint`, bigint.c:673-682. -/
def ofInt (n : Int) : Z :=
  if 0 ≤ n ∧ n < 256 then ⟨if n = 0 then 0 else 1, 1, fun _ => n.toNat⟩
  else ⟨if n < 0 then -1 else if n > 0 then 1 else 0, 1, fun _ => n.natAbs⟩

/-- `__int__` and `__index__`, bigint.c:319-339. -/
def toInt (a : Z) : Res Int :=
  let k := a.n 0
  if a.size.natAbs > 1 ∨ (a.size = 1 ∧ k > 0x7fffffffffffffff) ∨ (a.size = -1 ∧ k > 0x8000000000000000) then
    .raise .valueError
  else .ok (wrap64 (k * a.size))

end Verif.Big
