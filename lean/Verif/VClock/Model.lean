import Verif.Common
/-!
# Model of vector clocks (backend/failure_detector/vector_clock.c)
-/
namespace Verif.VClock
open Verif

/-- `struct vector_clock` (backend/failure_detector/vector_clock.h:45-50). `ids` are the
first `no_nodes` cells of the array `node_ids` as pairs (node id, counter); `cap` is
`capacity`. Cells behind them hold no meaningful data. -/
structure VC where
  ids : List (Int × Int)
  cap : Nat
  deriving DecidableEq, Repr

/-- Loop of `BINARY_SEARCH_NODEID` (vector_clock.h:23-43); result
(`found_idx`, `exact_match`). -/
def bsearchLoop (ids : List (Int × Int)) (n : Int) (first last found : Int) : Res (Int × Bool) :=
  if h : first ≤ last then
    let middle := (first + last).tdiv 2
    if middle < 0 then .ub else
    match ids[middle.toNat]? with
    | none => .ub
    | some e =>
      if e.1 = n then .ok (middle, true)
      else if e.1 < n then bsearchLoop ids n (middle + 1) last middle
      else bsearchLoop ids n first (middle - 1) found
  else .ok (found, false)
termination_by (last - first + 1).toNat
decreasing_by
  all_goals
    have h2 : middle = (first + last) / 2 ∨ middle = -((-(first + last)) / 2) ∧ first + last < 0 := by
      by_cases hn : 0 ≤ first + last
      · left; exact Int.tdiv_eq_ediv_of_nonneg hn
      · right
        refine ⟨?_, by omega⟩
        have e : first + last = -(-(first + last)) := by omega
        show (first + last).tdiv 2 = _
        rw [e, Int.neg_tdiv, Int.tdiv_eq_ediv_of_nonneg (by omega), Int.neg_neg]
    omega

/-- `BINARY_SEARCH_NODEID(vc, node_id, found_idx, exact_match)` (vector_clock.h:23-43). -/
def bsearch (ids : List (Int × Int)) (n : Int) : Res (Int × Bool) :=
  bsearchLoop ids n 0 (ids.length - 1) (-1)

/-- `increment_vc`, vector_clock.c:29-41; `none` is the return value -1 (component
missing). Signed overflow of the counter is undefined (no `-fwrapv` in backend/). -/
def increment (vc : VC) (n : Int) : Res (Option VC) := do
  let (idx, ex) ← bsearch vc.ids n
  if !ex then return none
  match vc.ids[idx.toNat]? with
  | none => .ub
  | some e => if e.2 + 1 < 2^63 then return some { vc with ids := vc.ids.set idx.toNat (e.1, e.2 + 1) } else .ub

/-- The five return values of `compare_vc` (vector_clock.h:13-14, vector_clock.c:43-48). -/
inductive Cmp
  | equal        -- 0
  | before       -- -1
  | after        -- 1
  | incomparable -- VC_INCOMPARABLE -2
  | disjoint     -- VC_DISJOINT -3
  deriving DecidableEq, Repr

/-- The component loop of `compare_vc`, vector_clock.c:62-78. The two clocks have the same
number of components here. -/
def compareLoop : List (Int × Int) → List (Int × Int) → Bool → Bool → Cmp
  | e1 :: r1, e2 :: r2, first, second =>
    if e1.1 ≠ e2.1 then .incomparable
    else if e1.2 > e2.2 then compareLoop r1 r2 true second
    else if e1.2 < e2.2 then compareLoop r1 r2 first true
    else compareLoop r1 r2 first second
  | _, _, first, second =>
    if first && second then .disjoint else if first then .after else if second then .before else .equal

/-- `compare_vc`, vector_clock.c:49-81; `none` is a null pointer. -/
def compare : Option VC → Option VC → Cmp
  | none, none => .equal
  | some a, some b =>
    if a.ids.length ≠ b.ids.length then .incomparable else compareLoop a.ids b.ids false false
  | _, _ => .incomparable

/-- `add_component_vc`, vector_clock.c:138-163. The parameter `initial_counter` is a C
`int`, so a 64-bit counter is truncated at the call. Simplification: the shifting loop
(154-155) and the two stores are one list insertion at `found_idx+1`. `none` is the
return value -1 (component exists). -/
def addComponent (vc : VC) (n : Int) (counter : Int) : Res (Option VC) := do
  let initial := wrap32 counter
  let (idx, ex) ← bsearch vc.ids n
  if ex then return none
  -- grow_vc, vector_clock.c:306-318
  let cap := if vc.ids.length = vc.cap then 2 * vc.ids.length else vc.cap
  let pos := (idx + 1).toNat
  if vc.ids.length < cap then
    return some ⟨vc.ids.take pos ++ (n, if initial > 0 then initial else 0) :: vc.ids.drop pos, cap⟩
  else .ub

/-- Scan of `update_vc`, vector_clock.c:92-93. The array cell is read before the index is
compared with `no_nodes`: reading cell `no_nodes` is harmless if it is inside the
allocation (its content is irrelevant) and undefined otherwise. -/
def scan (vc : VC) (n : Int) (idx : Nat) : Res Nat :=
  if h : idx < vc.ids.length then
    if vc.ids[idx].1 < n then scan vc n (idx + 1) else .ok idx
  else if idx < vc.cap then .ok idx else .ub
termination_by vc.ids.length - idx

/-- Body of the loop of `update_vc`, vector_clock.c:90-104, for one source component. -/
def updateOne (vc : VC) (n c : Int) : Res VC := do
  let idx ← scan vc n 0
  match vc.ids[idx]? with
  | some e =>
    if e.1 = n then
      if c > e.2 then return { vc with ids := vc.ids.set idx (e.1, c) } else return vc
    else
      match ← addComponent vc n c with
      | some vc => return vc
      | none => .ub  -- assert(status == 0)
  | none =>
    match ← addComponent vc n c with
    | some vc => return vc
    | none => .ub

/-- `update_vc`, vector_clock.c:83-108. -/
def update (dest : VC) : List (Int × Int) → Res VC
  | [] => .ok dest
  | (n, c) :: r => do
    let dest ← updateOne dest n c
    update dest r

/-- `get_component_vc`, vector_clock.c:165-176; -1 if missing. -/
def getComponent (vc : VC) (n : Int) : Res Int := do
  let (idx, ex) ← bsearch vc.ids n
  if ex then match vc.ids[idx.toNat]? with
    | some e => return e.2
    | none => .ub
  else return -1

end Verif.VClock
