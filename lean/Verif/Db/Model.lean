import Verif.Common
/-!
# Model of the tables of the database (backend/db.c)

A table is a tree of cells: the rows by primary key, below each row the cells by clustering keys.
The maps of the code are skip lists over 64-bit keys (`create_skiplist_long`); here a map is the list
of its entries in the order of the keys. Property C22 shows that the skip list is that map as long as
the keys lie in a window of width `2^31`.

All callers in /repo use schemas whose primary key is column 0 and whose clustering keys are the columns
`1, 2, …` (actondb.c:252-256, queue.c:47-49); the model has this fixed. Secondary indexes, the queue
metadata of a row (see `Verif.Queue`) and memory management are not modelled. A column is a value of an
arbitrary type `α` (a word, or for the last column a blob that is copied). A version is a value of an
arbitrary type `ν`.
-/
namespace Verif.Db
open Verif

variable {α ν β : Type}

/-- `skiplist_search`, skiplist.c:131-145, as a map. -/
def find (m : List (Int × β)) (k : Int) : Option β :=
  match m with
  | [] => none
  | e :: m => if e.1 = k then some e.2 else find m k

/-- `skiplist_insert`, skiplist.c:80-117, as a map. -/
def put (m : List (Int × β)) (k : Int) (v : β) : List (Int × β) :=
  match m with
  | [] => [(k, v)]
  | e :: m => if e.1 < k then e :: put m k v else if e.1 = k then (k, v) :: m else (k, v) :: e :: m

/-- `skiplist_delete`, skiplist.c:208-241, as a map. -/
def del (m : List (Int × β)) (k : Int) : List (Int × β) :=
  match m with
  | [] => []
  | e :: m => if e.1 = k then m else e :: del m k

/-- `skiplist_search_higher`, skiplist.c:147-160: the entries from the first key that is not below `k`. -/
def higher (m : List (Int × β)) (k : Int) : List (Int × β) :=
  match m with
  | [] => []
  | e :: m => if e.1 < k then higher m k else e :: m

/-- `db_cell_t`, db.h:110-128: key, child cells (`none` is `NULL`), column array (`none` is `NULL`), version. -/
inductive Cell (α ν : Type)
  | mk (key : Int) (cells : Option (List (Int × Cell α ν))) (cols : Option (List α)) (ver : Option ν)

namespace Cell
def key : Cell α ν → Int | mk k _ _ _ => k
def cells : Cell α ν → Option (List (Int × Cell α ν)) | mk _ c _ _ => c
def cols : Cell α ν → Option (List α) | mk _ _ c _ => c
def ver : Cell α ν → Option ν | mk _ _ _ v => v
end Cell

/-- `db_table_t`, db.h:96-106: the schema's `min_no_clustering_keys` and the rows. -/
structure Table (α ν : Type) where
  minKeys : Nat
  rows : List (Int × Cell α ν)

/-- `col_index`, db.c:77 and db.c:379: the column that holds the clustering key `i`. -/
def colIndex (minKeys i : Nat) : Nat := if i < minKeys then i + 1 else i

/-- The clustering keys that the code uses for the columns `pk, cks…`: column `colIndex i` for each `i`. -/
def keyPath (minKeys : Nat) (pk : Int) (cks : List Int) : List Int :=
  (List.range cks.length).map fun i => (pk :: cks).getD (colIndex minKeys i) 0

/-- `create_empty_row`, db.c:34-57. -/
def emptyCell (k : Int) : Cell α ν := .mk k none none none

/-- The loop of `create_db_row_schemaless`, db.c:71-104, below the cell with key `k`: the columns are stored
in the cell of the last clustering key. -/
def buildCell (cols : List α) (k : Int) : List Int → Cell α ν
  | [] => emptyCell k
  | [c] => .mk k (some [(c, .mk c none (some cols) none)]) none none
  | c :: d :: cs => .mk k (some [(c, buildCell cols c (d :: cs))]) none none

/-- The version of a new row, db.c:368. -/
def setVer (v : Option ν) : Cell α ν → Cell α ν
  | .mk k c cols _ => .mk k c cols v

/-- `if(version != NULL) update_or_replace_vc(…)`, db.c:424-425 and vector_clock.c:110-136: the clock is
replaced. -/
def replaceVer (old new : Option ν) : Option ν :=
  match new with
  | some v => some v
  | none => old

/-- The new cell of `table_insert`, db.c:385-390. -/
def newCell (k : Int) (rest : List Int) : Cell α ν :=
  if rest = [] then emptyCell k else .mk k (some []) none none

/-- Populating the cell, db.c:402-425. -/
def populate (cols : List α) (v : Option ν) : Cell α ν → Res (Cell α ν)
  | .mk k none _ old => .ok (.mk k none (some cols) (replaceVer old v))
  | .mk _ (some _) _ _ => .raise .assertFail

/-- The loop of `table_insert` over the clustering keys, db.c:377-398, and the population of the last
cell. Searching the cells of a cell that has none dereferences `NULL`. -/
def insertCell (cols : List α) (v : Option ν) : List Int → Cell α ν → Res (Cell α ν)
  | [], c => populate cols v c
  | k :: ks, .mk ck cells ccols cv =>
    match cells with
    | none => .ub
    | some m => do
      let sub ← insertCell cols v ks ((find m k).getD (newCell k ks))
      return .mk ck (some (put m k sub)) ccols cv

/-- The row of `table_insert` with primary key `pk`, db.c:363-426. -/
def insertRow (minKeys : Nat) (pk : Int) (cks : List Int) (cols : List α) (v : Option ν) :
    Option (Cell α ν) → Res (Cell α ν)
  | none => .ok (setVer v (buildCell cols pk (keyPath minKeys pk cks)))
  | some row => insertCell cols v (keyPath minKeys pk cks) row

/-- `table_insert`, db.c:348-435. -/
def insert (t : Table α ν) (pk : Int) (cks : List Int) (cols : List α) (v : Option ν) : Res (Table α ν) :=
  if cks.length < t.minKeys ∨ cols = [] then .raise .assertFail
  else do
    let row ← insertRow t.minKeys pk cks cols v (find t.rows pk)
    return ⟨t.minKeys, put t.rows pk row⟩

/-- `table_search`, db.c:496-510. -/
def search (t : Table α ν) (pk : Int) : Option (Cell α ν) := find t.rows pk

/-- The loop of `table_search_clustering`, db.c:603-619. -/
def descend : List Int → Cell α ν → Res (Option (Cell α ν))
  | [], c => .ok (some c)
  | k :: ks, .mk _ cells _ _ =>
    match cells with
    | none => .ub
    | some m => match find m k with
      | none => .ok none
      | some c => descend ks c

/-- `table_search_clustering`, db.c:587-622. -/
def searchClustering (t : Table α ν) (pk : Int) (cks : List Int) : Res (Option (Cell α ν)) :=
  if cks = [] then .raise .assertFail
  else match search t pk with
    | none => .ok none
    | some row => descend cks row

/-- `handle_read_query`, actondb.c:546-563. -/
def read (t : Table α ν) (pk : Int) (cks : List Int) : Res (Option (Cell α ν)) :=
  if cks = [] then .ok (search t pk) else searchClustering t pk cks

/-- `table_delete_row`, db.c:940-959: the result is 1 if there was no such row. -/
def deleteRow (t : Table α ν) (pk : Int) : Table α ν × Int :=
  (⟨t.minKeys, del t.rows pk⟩, if (find t.rows pk).isNone then 1 else 0)

/-- The loop over the results, db.c:542 and db.c:686: the entries from the first to `end_row`. -/
def upTo (m : List (Int × β)) (b : Int) : List (Int × β) :=
  match m with
  | [] => []
  | [e] => [e]
  | e :: f :: m => if e.1 < b then e :: upTo (f :: m) b else [e]

/-- `table_range_search`, db.c:512-543, for keys other than the whole range (`LONG_MIN`, `LONG_MAX - 1`): the
rows from `start_row` to `end_row`. -/
def rangeSearch (t : Table α ν) (a b : Int) : List (Int × Cell α ν) :=
  if a = -2 ^ 63 ∧ b = 2 ^ 63 - 2 then t.rows else upTo (higher t.rows a) b

end Verif.Db
