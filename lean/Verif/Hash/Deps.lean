import Verif.Hash.Model
import Mathlib.Data.List.Lex
import Mathlib.Data.List.Sort
import Mathlib.Data.Prod.Lex

/-!
How the hash of a name takes in the hashes of what the name depends on:
`computeHashesSortedDeps` of `compiler/lib/src/Acton/Hashing.hs`, lines
1415-1497, and the feeds it uses, lines 730-775.

Names of the module and names of other modules are numbers, in the order of
`Ord Name` and `Ord QName`.  SHA256 is any function from bytes to bytes.
A `Map` is a function to `Option`; the map of the names' own hashes is the list
of its entries in ascending order.
-/

namespace Verif.Hash

/-- A `ByteString` that holds a hash. -/
abbrev Hash := List (Fin 256)

/-- A map from names to hashes. -/
abbrev Acc := Nat → Option Hash

/-- `M.insert`. -/
def Acc.put (m : Acc) (n : Nat) (h : Hash) : Acc := fun x => if x = n then some h else m x

/-- The arguments of `computeHashesSortedDeps`, and `nameKey`, lines 83-84. -/
structure Deps where
  selfs : List (Nat × Hash)
  loc : Nat → List Nat
  ext : Nat → List (Nat ×ₗ Hash)
  key : Nat → Str

/-- `M.lookup n selfHashes`. -/
def Deps.self (D : Deps) (n : Nat) : Option Hash := D.selfs.lookup n

/-- `hashFeed`, lines 189-192 and 203-209, of a feed: the digest of what
SHA256 sees. -/
def digest (H : List Nat → Hash) (ops : List Op) : Hash :=
  H ((hashInput (fun _ => 0) ops).getD [])

/-- `feedHashBytes`, lines 730-731. -/
def feedHash (h : Hash) : List Op := [.int h.length, .bytes h]

/-- `feedLocal`, lines 744-747. -/
def feedLocal (look : Acc) (n : Nat) : List Op :=
  match look n with
  | some h => feedHash h
  | none => []

/-- `feedResolvedDepHashes`, lines 733-748. -/
def feedDeps (look : Acc) (ls : List Nat) (es : List (Nat ×ₗ Hash)) : List Op :=
  tag 4 ++ ls.flatMap (feedLocal look) ++ es.flatMap (fun e => feedHash (ofLex e).2) ++ tag 5

/-- `hashSelfWithDepsFromWith`, lines 750-759. -/
def feedSelf (self : Hash) (look : Acc) (ls : List Nat) (es : List (Nat ×ₗ Hash)) : List Op :=
  tag 254 ++ tag 0 ++ feedHash self ++ feedDeps look ls es

/-- `hashCycleGroupFromWith`, lines 761-770. -/
def feedGroup (selfs : List Hash) (look : Acc) (ls : List Nat) (es : List (Nat ×ₗ Hash)) :
    List Op :=
  tag 254 ++ tag 1 ++ (tag 4 ++ selfs.flatMap feedHash ++ tag 5) ++ feedDeps look ls es

/-- `hashCycleMemberWith`, lines 772-775. -/
def feedMember (self group : Hash) (key : Str) : List Op :=
  tag 254 ++ tag 2 ++ feedHash self ++ feedHash group ++ [.str key]

/-- `lookupLocalHash`, lines 1491-1494. -/
def Deps.look (D : Deps) (m : Acc) : Acc := fun n =>
  match m n with
  | some h => some h
  | none => D.self n

/-- `foldM (visitDep …)`, lines 1444 and 1457-1458. -/
def foldVisit (f : Acc → Nat → Option Acc) : Acc → List Nat → Option Acc
  | m, [] => some m
  | m, n :: ns => (f m n).bind fun m => foldVisit f m ns

/-- `visit`, lines 1435-1455.  `fuel` is how much deeper it may go: `depth` is
`maxAcyclicHashDepth + 1 - fuel`. -/
def visit (D : Deps) (H : List Nat → Hash) : (fuel : Nat) → List Nat → Acc → Nat → Option Acc
  | fuel, vis, m, n =>
    match m n with
    | some _ => some m
    | none =>
      match D.self n with
      | none => some m
      | some s =>
        match fuel with
        | 0 => none
        | k + 1 =>
          if n ∈ vis then none
          else
            (foldVisit (visit D H k (n :: vis)) m (D.loc n)).map fun m' =>
              m'.put n (digest H (feedSelf s (D.look m') (D.loc n) (D.ext n)))

/-- `maxAcyclicHashDepth`, lines 1496-1497. -/
def maxDepth : Nat := 10000

/-- `computeAcyclic`, lines 1426-1433. -/
def fast (D : Deps) (H : List Nat → Hash) : Option Acc :=
  foldVisit (visit D H (maxDepth + 1) []) (fun _ => none) (D.selfs.map (·.1))

/-- `SCC` of the library `containers`. -/
inductive Scc where
  | acyclic (n : Nat)
  | cyclic (ns : List Nat)

/-- `Data.List.sortOn nameKey`, line 1479. -/
def Deps.sortKey (D : Deps) (ns : List Nat) : List Nat :=
  ns.insertionSort (fun a b => D.key a ≤ D.key b)

/-- One step of `Data.Set.fromList`. -/
def setIns {α : Type} [LinearOrder α] (x : α) : List α → List α
  | [] => [x]
  | y :: ys => if x < y then x :: y :: ys else if x = y then y :: ys else y :: setIns x ys

/-- `Data.Set.toList . Data.Set.fromList`. -/
def setList {α : Type} [LinearOrder α] (l : List α) : List α := l.foldr setIns []

/-- `selfHashesSorted`, line 1479; `M.!` of a missing name, which would stop the
compiler, is left out. -/
def Deps.groupSelfs (D : Deps) (ns : List Nat) : List Hash := (D.sortKey ns).filterMap D.self

/-- `outsideDeps`, lines 1480-1481. -/
def Deps.outs (D : Deps) (ns : List Nat) : List Nat :=
  setList ((ns.flatMap D.loc).filter (· ∉ ns))

/-- `externalDeps`, line 1482. -/
def Deps.exts (D : Deps) (ns : List Nat) : List (Nat ×ₗ Hash) := setList (ns.flatMap D.ext)

/-- `groupHash`, line 1485. -/
def Deps.group (D : Deps) (H : List Nat → Hash) (look : Acc) (ns : List Nat) : Hash :=
  digest H (feedGroup (D.groupSelfs ns) look (D.outs ns) (D.exts ns))

/-- `insertOne`, lines 1486-1488. -/
def insertOne (D : Deps) (H : List Nat → Hash) (g : Hash) (m : Acc) (n : Nat) : Acc :=
  match D.self n with
  | some s => m.put n (digest H (feedMember s g (D.key n)))
  | none => m

/-- `addScc`, lines 1465-1489. -/
def addScc (D : Deps) (H : List Nat → Hash) (m : Acc) : Scc → Acc
  | .acyclic n =>
    match D.self n with
    | some s => m.put n (digest H (feedSelf s (D.look m) (D.loc n) (D.ext n)))
    | none => m
  | .cyclic ns => ns.foldl (insertOne D H (D.group H (D.look m) ns)) m

/-- `computeScc`, lines 1460-1461, given the result of `stronglyConnComp`. -/
def slow (D : Deps) (H : List Nat → Hash) (cs : List Scc) : Acc :=
  cs.foldl (addScc D H) (fun _ => none)

/-- `computeHashesSortedDeps`, lines 1415-1424. -/
def compute (D : Deps) (H : List Nat → Hash) (cs : List Scc) : Acc :=
  match fast D H with
  | some m => m
  | none => slow D H cs

end Verif.Hash
