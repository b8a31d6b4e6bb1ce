import Verif.Db.Model
/-!
# C41: a table is a map from key paths to columns. C42: range searches
-/
namespace Verif.Db
open Verif

variable {α ν β : Type}

/-! ### Maps -/

/-- The keys increase. -/
def Sorted (m : List (Int × β)) : Prop := m.Pairwise fun a b => a.1 < b.1

theorem find_put (m : List (Int × β)) (k : Int) (v : β) (k' : Int) :
    find (put m k v) k' = if k' = k then some v else find m k' := by
  induction m with
  | nil =>
    by_cases h : k' = k
    · simp [put, find, h]
    · simp [put, find, h, Ne.symm h]
  | cons e m ih =>
    unfold put
    by_cases h1 : e.1 < k
    · rw [if_pos h1]
      simp only [find]
      rw [ih]
      by_cases h : e.1 = k'
      · have : k' ≠ k := by omega
        simp [h, this]
      · simp [h]
    · rw [if_neg h1]
      by_cases h2 : e.1 = k
      · rw [if_pos h2]
        simp only [find]
        by_cases h : k' = k
        · simp [h]
        · have : ¬ k = k' := fun e => h e.symm
          simp [h, this, h2]
      · rw [if_neg h2]
        simp only [find]
        by_cases h : k' = k
        · simp [h]
        · have : ¬ k = k' := fun e => h e.symm
          simp [h, this]

theorem mem_put {m : List (Int × β)} {k : Int} {v : β} {e : Int × β} (h : e ∈ put m k v) : e = (k, v) ∨ e ∈ m := by
  induction m with
  | nil => simp [put] at h; exact .inl h
  | cons x m ih =>
    unfold put at h
    split at h
    · rw [List.mem_cons] at h
      rcases h with h | h
      · exact .inr (by simp [h])
      · rcases ih h with h | h
        · exact .inl h
        · exact .inr (by simp [h])
    · split at h
      · rw [List.mem_cons] at h
        rcases h with h | h
        · exact .inl h
        · exact .inr (by simp [h])
      · rw [List.mem_cons] at h
        rcases h with h | h
        · exact .inl h
        · exact .inr h

theorem sorted_put {m : List (Int × β)} (k : Int) (v : β) (h : Sorted m) : Sorted (put m k v) := by
  induction m with
  | nil => simp [put, Sorted]
  | cons x m ih =>
    unfold Sorted at *
    rw [List.pairwise_cons] at h
    unfold put
    split
    · rename_i hx
      rw [List.pairwise_cons]
      refine ⟨?_, ih h.2⟩
      intro e he
      rcases mem_put he with rfl | he
      · exact hx
      · exact h.1 e he
    · split
      · rename_i _ hx
        rw [List.pairwise_cons]
        exact ⟨fun e he => by have := h.1 e he; simp only; omega, h.2⟩
      · rename_i h1 h2
        rw [List.pairwise_cons, List.pairwise_cons]
        refine ⟨?_, h⟩
        intro e he
        rw [List.mem_cons] at he
        rcases he with rfl | he
        · simp only; omega
        · have := h.1 e he; simp only; omega

theorem mem_del {m : List (Int × β)} {k : Int} {e : Int × β} (h : e ∈ del m k) : e ∈ m := by
  induction m with
  | nil => cases h
  | cons x m ih =>
    unfold del at h
    split at h
    · simp [h]
    · rw [List.mem_cons] at h
      rcases h with h | h
      · simp [h]
      · simp [ih h]

theorem sorted_del {m : List (Int × β)} (k : Int) (h : Sorted m) : Sorted (del m k) := by
  induction m with
  | nil => simp [del, Sorted]
  | cons x m ih =>
    unfold Sorted at *
    rw [List.pairwise_cons] at h
    unfold del
    split
    · exact h.2
    · rw [List.pairwise_cons]
      exact ⟨fun e he => h.1 e (mem_del he), ih h.2⟩

theorem find_none {m : List (Int × β)} {k : Int} (h : ∀ e ∈ m, e.1 ≠ k) : find m k = none := by
  induction m with
  | nil => rfl
  | cons x m ih =>
    unfold find
    rw [if_neg (h x (by simp))]
    exact ih fun e he => h e (by simp [he])

theorem find_del {m : List (Int × β)} (h : Sorted m) (k k' : Int) :
    find (del m k) k' = if k' = k then none else find m k' := by
  induction m with
  | nil => simp [del, find]
  | cons x m ih =>
    unfold Sorted at *
    rw [List.pairwise_cons] at h
    unfold del
    by_cases hx : x.1 = k
    · rw [if_pos hx]
      by_cases hk : k' = k
      · rw [if_pos hk]
        exact find_none fun e he => by have := h.1 e he; omega
      · rw [if_neg hk]
        simp only [find]
        rw [if_neg (by omega)]
    · rw [if_neg hx]
      simp only [find]
      rw [ih h.2]
      by_cases hk : k' = k
      · subst hk; simp [hx]
      · simp [hk]

theorem find_mem {m : List (Int × β)} {k : Int} {v : β} (h : find m k = some v) : (k, v) ∈ m := by
  induction m with
  | nil => cases h
  | cons x m ih =>
    unfold find at h
    split at h
    · rename_i hx
      injection h with h
      rw [← hx, ← h]
      simp
    · simp [ih h]

/-! ### Specification -/

/-- A request: insert a row, delete all rows under a primary key. -/
inductive Op (α ν : Type)
  | ins (pk : Int) (cks : List Int) (cols : List α) (v : Option ν)
  | del (pk : Int)

/-- A map from key paths to columns. -/
abbrev Spec (α : Type) := Int → List Int → Option (List α)

def Spec.step (f : Spec α) : Op α ν → Spec α
  | .ins pk cks cols _ => fun p c => if p = pk ∧ c = cks then some cols else f p c
  | .del pk => fun p c => if p = pk then none else f p c

/-- The requests with `n` clustering keys and at least one column. -/
def Op.Ok (n : Nat) : Op α ν → Prop
  | .ins _ cks cols _ => cks.length = n ∧ cols ≠ []
  | .del _ => True

/-- The code for a request. -/
def step (t : Table α ν) : Op α ν → Res (Table α ν)
  | .ins pk cks cols v => insert t pk cks cols v
  | .del pk => .ok (deleteRow t pk).1

def run : List (Op α ν) → Table α ν → Res (Table α ν)
  | [], t => .ok t
  | o :: os, t => do
    let t ← step t o
    run os t

/-- The columns that a search answers. -/
def colsOf (r : Res (Option (Cell α ν))) : Res (Option (List α)) := do
  let c ← r
  return c.bind Cell.cols

/-! ### Shape of the tree -/

/-- A tree of depth `n` whose leaves, and only they, hold columns. -/
def Shape : Nat → Cell α ν → Prop
  | 0, .mk _ cells cols _ => cells = none ∧ cols.isSome
  | n + 1, .mk _ cells _ _ => ∃ m, cells = some m ∧ ∀ e ∈ m, Shape n e.2

theorem keyPath_eq {n : Nat} {pk : Int} {cks : List Int} (h : cks.length ≤ n) : keyPath n pk cks = cks := by
  unfold keyPath
  apply List.ext_getElem
  · simp
  · intro i h1 h2
    simp only [List.getElem_map, List.getElem_range, colIndex]
    rw [if_pos (by omega)]
    simp [List.getD_eq_getElem?_getD, h2]

theorem shape_build (cols : List α) : ∀ (ks : List Int) (k : Int), ks ≠ [] →
    Shape ks.length (buildCell cols k ks : Cell α ν)
  | [], _, h => absurd rfl h
  | [c], _, _ => ⟨_, rfl, by intro e he; simp at he; subst he; exact ⟨rfl, rfl⟩⟩
  | c :: d :: cs, _, _ => ⟨_, rfl, by
      intro e he; simp only [List.mem_singleton] at he; subst he; exact shape_build cols (d :: cs) c (by simp)⟩

theorem shape_setVer {n : Nat} {v : Option ν} {c : Cell α ν} (h : Shape n c) : Shape n (setVer v c) := by
  obtain ⟨k, cells, cols, w⟩ := c
  cases n <;> exact h

theorem descend_setVer {v : Option ν} {c : Cell α ν} {ks : List Int} (h : ks ≠ []) :
    descend ks (setVer v c) = descend ks c := by
  obtain ⟨k, cells, cols, w⟩ := c
  cases ks with
  | nil => exact absurd rfl h
  | cons a ks => rfl

theorem descend_build (cols : List α) : ∀ (ks ks' : List Int) (k : Int), ks ≠ [] → ks'.length = ks.length →
    colsOf (descend ks' (buildCell cols k ks : Cell α ν)) = .ok (if ks' = ks then some cols else none)
  | [], _, _, h, _ => absurd rfl h
  | [c], ks', _, _, hl => by
    obtain ⟨a, rfl⟩ := List.length_eq_one_iff.1 hl
    simp only [buildCell, descend, find]
    by_cases h : c = a
    · subst h; simp [descend, colsOf, Cell.cols]
    · have : ¬ a = c := fun e => h e.symm
      simp [h, this, colsOf]
  | c :: d :: cs, ks', _, _, hl => by
    cases ks' with
    | nil => simp at hl
    | cons a ks' =>
      simp only [buildCell, descend, find]
      by_cases h : c = a
      · subst h
        simp only [if_true]
        rw [descend_build cols (d :: cs) ks' c (by simp) (by simpa using hl)]
        by_cases h2 : ks' = d :: cs <;> simp [h2]
      · have : ¬ a = c := fun e => h e.symm
        simp [h, this, colsOf]

theorem insertCell_spec (cols : List α) (v : Option ν) : ∀ (ks : List Int) (c : Cell α ν),
    (Shape ks.length c ∨ ∃ k, c = newCell k ks) → ∃ c', insertCell cols v ks c = .ok c' ∧ Shape ks.length c' ∧
      ∀ ks', ks'.length = ks.length → colsOf (descend ks' c') = if ks' = ks then .ok (some cols) else colsOf (descend ks' c)
  | [], c, h => by
    obtain ⟨k, cells, cc, w⟩ := c
    have hc : cells = none := by
      rcases h with h | ⟨k', h⟩
      · exact h.1
      · simp [newCell, emptyCell] at h; exact h.2.1
    subst hc
    refine ⟨_, rfl, ⟨rfl, rfl⟩, ?_⟩
    intro ks' hl
    have : ks' = [] := List.length_eq_zero_iff.1 hl
    subst this
    simp [descend, colsOf, Cell.cols]
  | a :: ks, .mk k cells cc w, h => by
    have hm : ∃ m, cells = some m ∧ ∀ e ∈ m, Shape ks.length e.2 := by
      rcases h with h | ⟨k', h⟩
      · exact h
      · simp [newCell] at h; exact ⟨[], h.2.1, by simp⟩
    obtain ⟨m, rfl, hm⟩ := hm
    have hsub : Shape ks.length ((find m a).getD (newCell a ks)) ∨ ∃ k', (find m a).getD (newCell a ks) = newCell k' ks := by
      cases hf : find m a with
      | none => exact .inr ⟨a, rfl⟩
      | some c => exact .inl (hm _ (find_mem hf))
    obtain ⟨c', e1, e2, e3⟩ := insertCell_spec cols v ks _ hsub
    refine ⟨.mk k (some (put m a c')) cc w, ?_, ⟨_, rfl, ?_⟩, ?_⟩
    · simp only [insertCell]; rw [e1]; rfl
    · intro e he
      rcases mem_put he with rfl | he
      · exact e2
      · exact hm e he
    · intro ks' hl
      cases ks' with
      | nil => simp at hl
      | cons b ks' =>
        simp only [descend, find_put]
        by_cases hb : b = a
        · subst hb
          simp only [if_true, List.cons.injEq, true_and]
          rw [e3 ks' (by simpa using hl)]
          by_cases hk : ks' = ks
          · simp [hk]
          · rw [if_neg hk, if_neg hk]
            cases hf : find m b with
            | some c => rfl
            | none =>
              show colsOf (descend ks' (newCell b ks)) = colsOf (.ok none)
              cases ks' with
              | nil =>
                have : ks = [] := by simpa using hl.symm
                exact absurd this.symm hk
              | cons x xs =>
                have : ks ≠ [] := by intro e; subst e; simp at hl
                simp [newCell, this, descend, find]
        · simp [hb]

/-- All rows are trees of the depth of the schema. -/
structure Inv (n : Nat) (t : Table α ν) : Prop where
  min : t.minKeys = n
  srt : Sorted t.rows
  shape : ∀ e ∈ t.rows, Shape n e.2

/-- What the table answers for all key paths of the depth of the schema. -/
def Answers (n : Nat) (t : Table α ν) (f : Spec α) : Prop :=
  ∀ pk cks, cks.length = n → colsOf (searchClustering t pk cks) = .ok (f pk cks)

theorem step_spec {n : Nat} (hn : 1 ≤ n) {t : Table α ν} {f : Spec α} (hi : Inv n t) (ha : Answers n t f)
    (o : Op α ν) (ho : o.Ok n) : ∃ t', step t o = .ok t' ∧ Inv n t' ∧ Answers n t' (f.step o) := by
  obtain ⟨mk, rows⟩ := t
  have hmk : mk = n := hi.min
  subst hmk
  cases o with
  | ins pk cks cols v =>
    obtain ⟨hl, hc⟩ := ho
    have hne : cks ≠ [] := by intro e; subst e; simp at hl; omega
    have hrow : ∃ row, insertRow mk pk cks cols v (find rows pk) = .ok row ∧ Shape mk row ∧
        ∀ ks', ks'.length = mk → colsOf (descend ks' row) = .ok (if ks' = cks then some cols else f pk ks') := by
      cases hf : find rows pk with
      | none =>
        have hkp : keyPath mk pk cks = cks := keyPath_eq (by omega)
        refine ⟨setVer v (buildCell cols pk cks), ?_, ?_, ?_⟩
        · simp only [insertRow]; rw [hkp]
        · exact shape_setVer (hl ▸ shape_build cols cks pk hne)
        · intro ks' hk
          rw [descend_setVer (by intro e; subst e; simp at hk; omega), descend_build cols cks ks' pk hne (by omega)]
          have := ha pk ks' hk
          unfold searchClustering at this
          rw [if_neg (by intro e; subst e; simp at hk; omega)] at this
          simp only [search, hf, colsOf, Res.ok_bind, Option.bind_none, Res.pure_eq] at this
          injection this with this
          rw [← this]
      | some row =>
        have hkp : keyPath mk pk cks = cks := keyPath_eq (by omega)
        have hs := hi.shape _ (find_mem hf)
        obtain ⟨c', e1, e2, e3⟩ := insertCell_spec cols v cks row (.inl (by rw [hl]; exact hs))
        refine ⟨c', ?_, hl ▸ e2, ?_⟩
        · simp only [insertRow]; rw [hkp]; exact e1
        · intro ks' hk
          rw [e3 ks' (by omega)]
          have := ha pk ks' hk
          unfold searchClustering at this
          rw [if_neg (by intro e; subst e; simp at hk; omega)] at this
          simp only [search, hf] at this
          rw [this]
          by_cases h : ks' = cks <;> simp [h]
    obtain ⟨row, e1, e2, e3⟩ := hrow
    refine ⟨⟨mk, put rows pk row⟩, ?_, ⟨rfl, sorted_put pk row hi.srt, ?_⟩, ?_⟩
    · simp only [step, insert]
      rw [if_neg (by
        rintro (h | h)
        · omega
        · exact hc h)]
      rw [e1]; rfl
    · intro e he
      rcases mem_put he with rfl | he
      · exact e2
      · exact hi.shape e he
    · intro p c hpc
      have hcne : c ≠ [] := by intro e; subst e; simp at hpc; omega
      simp only [searchClustering, search, find_put, Spec.step]
      rw [if_neg hcne]
      by_cases hp : p = pk
      · subst hp
        simp only [if_true, true_and]
        rw [e3 c hpc]
      · simp only [hp, if_false, false_and]
        have := ha p c hpc
        simp only [searchClustering, search] at this
        rw [if_neg hcne] at this
        exact this
  | del pk =>
    refine ⟨_, rfl, ⟨rfl, sorted_del pk hi.srt, fun e he => hi.shape e (mem_del he)⟩, ?_⟩
    intro p c hpc
    have hcne : c ≠ [] := by intro e; subst e; simp at hpc; omega
    simp only [deleteRow, searchClustering, search, Spec.step]
    rw [if_neg hcne, find_del hi.srt]
    by_cases hp : p = pk
    · simp [hp, colsOf]
    · simp only [hp, if_false]
      have := ha p c hpc
      simp only [searchClustering, search] at this
      rw [if_neg hcne] at this
      exact this

theorem run_spec {n : Nat} (hn : 1 ≤ n) : ∀ (ops : List (Op α ν)) {t : Table α ν} {f : Spec α}, Inv n t → Answers n t f →
    (∀ o ∈ ops, o.Ok n) → ∃ t', run ops t = .ok t' ∧ Inv n t' ∧ Answers n t' (ops.foldl Spec.step f)
  | [], t, f, hi, ha, _ => ⟨t, rfl, hi, ha⟩
  | o :: os, t, f, hi, ha, ho => by
    obtain ⟨t1, e1, i1, a1⟩ := step_spec hn hi ha o (ho o (by simp))
    obtain ⟨t2, e2, i2, a2⟩ := run_spec hn os i1 a1 fun x hx => ho x (by simp [hx])
    exact ⟨t2, by simp only [run]; rw [e1]; exact e2, i2, a2⟩

/-- C41. After any sequence of insertions with exactly the clustering keys of the schema and of row
deletions, none of which fails, a search by a full key path answers the columns of the last insertion under
that path since the last deletion of the row. Missing for the whole claim: schemas without clustering
keys and insertions with further clustering keys, for which it is false, see the refutations. -/
theorem C41_table_partial {n : Nat} (hn : 1 ≤ n) (ops : List (Op α ν)) (ho : ∀ o ∈ ops, o.Ok n) :
    ∃ t, run ops ⟨n, []⟩ = .ok t ∧ ∀ pk cks, cks.length = n →
      colsOf (searchClustering t pk cks) = .ok (ops.foldl Spec.step (fun _ _ => none) pk cks) := by
  obtain ⟨t, e, _, h⟩ := run_spec hn ops (t := ⟨n, []⟩) (f := fun _ _ => none) ⟨rfl, List.Pairwise.nil, by simp⟩
    (by
      intro pk cks h
      have : cks ≠ [] := by intro e; subst e; simp at h; omega
      simp [searchClustering, search, find, this, colsOf]) ho
  exact ⟨t, e, h⟩

/-- Two tables: two clustering keys; an insertion, an overwriting one, one elsewhere and a deletion. -/
def testOps : List (Op Nat Nat) :=
  [.ins 1 [10, 11] [5, 6] (some 0), .ins 1 [10, 12] [7] none, .ins 1 [10, 11] [8] none, .ins 2 [10, 11] [9] none, .del 2]

example : ∀ o ∈ testOps, o.Ok 2 := by
  intro o ho
  simp only [testOps, List.mem_cons, List.not_mem_nil, or_false] at ho
  rcases ho with rfl | rfl | rfl | rfl | rfl <;> simp [Op.Ok]

example : testOps.foldl Spec.step (fun _ _ => none) 1 [10, 11] = some [8] := by decide +kernel
example : testOps.foldl Spec.step (fun _ _ => none) 1 [10, 12] = some [7] := by decide +kernel
example : testOps.foldl Spec.step (fun _ _ => none) 2 [10, 11] = none := by decide +kernel

/-- A request outcome reduced to what a reader sees. -/
def readCols (ops : List (Op Nat Nat)) (n : Nat) (pk : Int) (cks : List Int) : Res (Option (List Nat)) := do
  let t ← run ops ⟨n, []⟩
  colsOf (read t pk cks)

example : readCols testOps 2 1 [10, 11] = .ok (some [8]) := by decide +kernel

/-- Without clustering keys the columns of the first insertion under a key are lost: the loop that stores
them (db.c:73-104) has no rounds. The row is found and has no columns, on which
`get_read_response_packet` (actondb.c:487-489) aborts. A second insertion stores its columns. -/
theorem C41_refuted_no_clustering (pk : Int) (cols : List α) (hc : cols ≠ []) (v : Option ν) :
    ∃ t, insert ⟨0, []⟩ pk [] cols v = .ok t ∧ colsOf (read t pk []) = .ok none ∧
      ∃ t', insert t pk [] cols v = .ok t' ∧ colsOf (read t' pk []) = .ok (some cols) := by
  refine ⟨⟨0, [(pk, .mk pk none none v)]⟩, ?_, ?_, ⟨⟨0, [(pk, .mk pk none (some cols) (replaceVer v v))]⟩, ?_, ?_⟩⟩
  · simp [insert, hc, insertRow, find, put, keyPath, buildCell, emptyCell, setVer]
  · simp [read, search, find, colsOf, Cell.cols]
  · simp [insert, hc, insertRow, find, put, keyPath, insertCell, populate]
  · simp [read, search, find, colsOf, Cell.cols]

/-- With more clustering keys than the schema has, the further ones are read one column too far left
(db.c:77, 379): the last key is dropped, so rows that differ in it overwrite each other, and a search by the
keys of the insertion finds nothing. -/
theorem C41_refuted_extra_clustering :
    readCols [.ins 1 [10, 20] [5] none] 1 1 [10, 20] = .ok none ∧
    readCols [.ins 1 [10, 20] [5] none, .ins 1 [10, 30] [6] none] 1 1 [10, 10] = .ok (some [6]) := by decide +kernel

/-- A search that is deeper than the row dereferences `NULL` (db.c:605), a shallower insertion aborts
(db.c:402). -/
theorem C41_refuted_depth :
    readCols [.ins 1 [10] [5] none] 1 1 [10, 20] = .ub ∧
    readCols [.ins 1 [10, 20] [5] none, .ins 1 [10] [6] none] 1 1 [10] = .raise .assertFail := by decide +kernel

/-- The version that a search answers. -/
def verOf (r : Res (Option (Cell α ν))) : Res (Option ν) := do
  let c ← r
  return c.bind Cell.ver

/-- The first insertion under a primary key gives its version to the row and not to the cell
(db.c:368); all others give it to the cell (db.c:424). -/
theorem C41_refuted_version (pk ck : Int) (cols : List α) (hc : cols ≠ []) (v : ν) :
    ∃ t, insert ⟨1, []⟩ pk [ck] cols (some v) = .ok t ∧ verOf (read t pk [ck]) = .ok none ∧
      ∃ t', insert t pk [ck] cols (some v) = .ok t' ∧ verOf (read t' pk [ck]) = .ok (some v) := by
  have hk : keyPath 1 pk [ck] = [ck] := keyPath_eq (by simp)
  refine ⟨⟨1, [(pk, .mk pk (some [(ck, .mk ck none (some cols) none)]) none (some v))]⟩, ?_, ?_,
    ⟨⟨1, [(pk, .mk pk (some [(ck, .mk ck none (some cols) (some v))]) none (some v))]⟩, ?_, ?_⟩⟩
  · simp [insert, hc, insertRow, find, put, hk, buildCell, setVer]
  · simp [read, searchClustering, search, find, descend, verOf, Cell.ver]
  · simp [insert, hc, insertRow, find, put, hk, insertCell, populate, replaceVer]
  · simp [read, searchClustering, search, find, descend, verOf, Cell.ver]

/-! ### C42 -/

theorem higher_eq {m : List (Int × β)} (h : Sorted m) (a : Int) : higher m a = m.filter fun e => a ≤ e.1 := by
  induction m with
  | nil => rfl
  | cons x m ih =>
    unfold Sorted at *
    rw [List.pairwise_cons] at h
    unfold higher
    split
    · rename_i hx
      rw [List.filter_cons_of_neg (by simp; omega)]
      exact ih h.2
    · rename_i hx
      rw [List.filter_eq_self.2]
      intro e he
      rw [List.mem_cons] at he
      rcases he with rfl | he
      · simp; omega
      · have := h.1 e he; simp; omega

theorem upTo_eq {m : List (Int × β)} (h : Sorted m) (b : Int) :
    ∃ x, upTo m b = (m.filter fun e => e.1 ≤ b) ++ x ∧ x.length ≤ 1 ∧ (∀ e ∈ x, b < e.1) ∧
      ((∃ e ∈ m, e.1 = b) ∨ (∀ e ∈ m, e.1 ≤ b) → x = []) ∧ (∀ e ∈ x, e ∈ m) := by
  induction m with
  | nil => exact ⟨[], rfl, by simp, by simp, by simp, by simp⟩
  | cons e m ih =>
    unfold Sorted at *
    rw [List.pairwise_cons] at h
    cases m with
    | nil =>
      by_cases he : e.1 ≤ b
      · exact ⟨[], by simp [upTo, he], by simp, by simp, by simp, by simp⟩
      · refine ⟨[e], by simp [upTo, he], by simp, by simp; omega, ?_, by simp⟩
        rintro (⟨x, hx, hb⟩ | hx)
        · simp at hx; subst hx; omega
        · have := hx e (by simp); omega
    | cons f m =>
      by_cases he : e.1 < b
      · obtain ⟨x, h1, h2, h3, h4, h5⟩ := ih h.2
        refine ⟨x, ?_, h2, h3, ?_, fun y hy => List.mem_cons_of_mem _ (h5 y hy)⟩
        · simp only [upTo]
          rw [if_pos he, h1, List.filter_cons (x := e), if_pos (by simp; omega)]
          rfl
        · intro hh
          apply h4
          rcases hh with ⟨y, hy, hb⟩ | hh
          · rw [List.mem_cons] at hy
            rcases hy with rfl | hy
            · omega
            · exact .inl ⟨y, hy, hb⟩
          · exact .inr fun y hy => hh y (List.mem_cons_of_mem _ hy)
      · have hf : (f :: m).filter (fun e => decide (e.1 ≤ b)) = [] := by
          rw [List.filter_eq_nil_iff]
          intro y hy
          have := h.1 y hy
          simp; omega
        simp only [upTo]
        rw [if_neg he]
        by_cases hb : e.1 = b
        · refine ⟨[], ?_, by simp, by simp, by simp, by simp⟩
          rw [List.filter_cons_of_pos (by simp; omega), hf]; rfl
        · refine ⟨[e], ?_, by simp, by simp; omega, ?_, by simp⟩
          · rw [List.filter_cons_of_neg (by simp; omega), hf]; rfl
          · rintro (⟨y, hy, hyb⟩ | hh)
            · rw [List.mem_cons] at hy
              rcases hy with rfl | hy
              · omega
              · have := h.1 y hy; omega
            · have := hh e (by simp); omega

/-- C42. A range search answers all rows whose key lies in the range, in the order of the keys, and at most
one further row, whose key is above the end of the range. There is no further row if a row has the key at
the end of the range or if no row lies above it. Missing for the whole claim: the further row, see the
refutation. -/
theorem C42_range_partial (t : Table α ν) (hs : Sorted t.rows) (hk : ∀ e ∈ t.rows, InI64 e.1 ∧ e.1 ≠ 2 ^ 63 - 1) (a b : Int) :
    ∃ x, rangeSearch t a b = (t.rows.filter fun e => a ≤ e.1 ∧ e.1 ≤ b) ++ x ∧ x.length ≤ 1 ∧
      (∀ e ∈ x, e ∈ t.rows ∧ a ≤ e.1 ∧ b < e.1) ∧
      ((∃ e ∈ t.rows, e.1 = b ∧ a ≤ b) ∨ (∀ e ∈ t.rows, e.1 ≤ b) → x = []) := by
  unfold rangeSearch
  by_cases h : a = -2 ^ 63 ∧ b = 2 ^ 63 - 2
  · rw [if_pos h]
    refine ⟨[], ?_, by simp, by simp, by simp⟩
    rw [List.append_nil, List.filter_eq_self.2]
    intro e he
    obtain ⟨⟨h1, h2⟩, h3⟩ := hk e he
    simp only [decide_eq_true_eq]
    omega
  · rw [if_neg h, higher_eq hs]
    obtain ⟨x, h1, h2, h3, h4, h5⟩ := upTo_eq (b := b) (m := t.rows.filter fun e => decide (a ≤ e.1)) (List.Pairwise.filter _ hs)
    refine ⟨x, ?_, h2, ?_, ?_⟩
    · rw [h1, List.filter_filter]
      congr 2
      funext e
      simp [Bool.and_comm]
    · intro e he
      have := h5 e he
      rw [List.mem_filter] at this
      exact ⟨this.1, by simpa using this.2, h3 e he⟩
    · intro hh
      apply h4
      rcases hh with ⟨e, he, hb, hab⟩ | hh
      · exact .inl ⟨e, by rw [List.mem_filter]; exact ⟨he, by simp; omega⟩, hb⟩
      · exact .inr fun e he => hh e (List.mem_filter.1 he).1

/-- The keys that a range search of a table with the rows 1, 5 and 9 answers. -/
def rangeKeys (a b : Int) : List Int :=
  (rangeSearch (⟨1, [(1, emptyCell 1), (5, emptyCell 5), (9, emptyCell 9)]⟩ : Table Nat Nat) a b).map Prod.fst

/-- Both hypotheses of `C42_range_partial` hold for a table with three rows, and the range ends at a row. -/
example : rangeKeys 2 9 = [5, 9] := by decide +kernel

example : Sorted [(1, 'a'), (5, 'b'), (9, 'c')] := by simp [Sorted]

/-- The row behind the end of the range is answered as well: no row lies in 2…4, the search answers row 5. -/
theorem C42_refuted_past_end : rangeKeys 2 4 = [5] ∧ rangeKeys 1 6 = [1, 5, 9] ∧ rangeKeys 6 2 = [9] := by decide +kernel

end Verif.Db
