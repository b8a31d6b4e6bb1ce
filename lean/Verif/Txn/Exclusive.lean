import Verif.Txn.Lemmas
/-!
# C27: two transactions that are validated at the same time do not write the same key
-/
namespace Verif.Txn
open Verif

variable {α ν : Type}

/-! ### Specification: what the messages and replies say -/

/-- An open transaction as its client sees it: the writes it has sent, and whether it was told that the
transaction is valid. -/
structure View (α ν : Type) where
  writes : List (Write α ν)
  valid : Bool

/-- The open transactions after a message with its reply. -/
def see (f : Int → Option (View α ν)) : Op α ν × Int → Int → Option (View α ν)
  | (.start i, r) => if r = 0 then setI f i (some ⟨[], false⟩) else f
  | (.write i w, r) => match f i with
    | some x => if r = 0 then setI f i (some ⟨x.writes ++ [w], x.valid⟩) else f
    | none => f
  | (.validate i _, r) => match f i with
    | some x => if r = 0 then setI f i (some ⟨x.writes, true⟩) else f
    | none => f
  | (.commit i _, _) => setI f i none
  | (.abort i, _) => setI f i none

/-- The open transactions after a history. -/
def seen (es : List (Op α ν × Int)) : Int → Option (View α ν) := es.foldl see fun _ => none

/-- A write of a row or cell of a data table. -/
def Regular (w : Write α ν) : Prop := w.kind = .update ∨ w.kind = .delete

/-- Two writes of the same key. -/
def SameKey (w w' : Write α ν) : Prop := w.table = w'.table ∧ w.keys = w'.keys

/-- No two valid open transactions write the same key. -/
def Exclusive (f : Int → Option (View α ν)) : Prop :=
  ∀ i j x y, i ≠ j → f i = some x → f j = some y → x.valid = true → y.valid = true →
    ∀ w ∈ x.writes, ∀ w' ∈ y.writes, Regular w → Regular w' → ¬ SameKey w w'

/-! ### Invariant -/

variable {b : Int} {Q : Int → Bool}

theorem regular_iff {w : Write α ν} : w.kind.regular = true ↔ Regular w := by
  unfold Regular Kind.regular
  cases w.kind <;> simp

theorem code_regular {w w' : Write α ν} (h : Regular w) (h' : Regular w') : code w = code w' ↔ SameKey w w' := by
  unfold code
  rw [if_pos (regular_iff.2 h), if_pos (regular_iff.2 h')]
  unfold SameKey
  constructor
  · intro e; simp only [List.cons.injEq] at e; exact ⟨e.1, e.2.2⟩
  · rintro ⟨e1, e2⟩; rw [e1, e2]

theorem code_order {w : Write α ν} (h : Regular w) (o : Int) : code { w with order := o } = code w := by
  have : Regular ({ w with order := o } : Write α ν) := h
  exact (code_regular this h).2 ⟨rfl, rfl⟩

/-- The write set consists of writes that were issued. -/
theorem build_from {ws : List (Write α ν)} {l : Write α ν} (hl : l ∈ build ws) :
    ∃ w ∈ ws, ∃ o, l = { w with order := o } := by
  induction ws using List.reverseRecOn with
  | nil => simp [build] at hl
  | append_singleton ws a ih =>
    rw [build_snoc] at hl
    rcases (mem_ins (srt_build ws)).1 hl with h | ⟨h, _⟩
    · exact ⟨a, by simp, _, h⟩
    · obtain ⟨w, hw, o, e⟩ := ih h
      exact ⟨w, by simp [hw], o, e⟩

theorem dom_order {w : Write α ν} (h : Dom b Q w) (o : Int) : Dom b Q { w with order := o } :=
  ⟨h.table, h.keys, h.queue, h.app, h.shard, h.consumer, h.sep⟩

theorem table_of_code {w w' : Write α ν} (h : code w = code w') : w.table = w'.table := by
  unfold code at h
  exact (List.cons.inj h).1

theorem regular_of_code {w w' : Write α ν} (hw : Dom b Q w) (hw' : Dom b Q w') (h : code w = code w')
    (hr : Regular w) : Regular w' := by
  have h1 := hw.sep
  have h2 := hw'.sep
  rw [table_of_code h, h2, regular_iff.2 hr] at h1
  rw [← regular_iff]
  simpa using h1

/-- Every regular write has its key in the write set. -/
theorem mem_build {ws : List (Write α ν)} (hd : ∀ w ∈ ws, Dom b Q w) {w : Write α ν} (hw : w ∈ ws) (hr : Regular w) :
    ∃ l ∈ build ws, code l = code w ∧ Regular l := by
  induction ws using List.reverseRecOn with
  | nil => simp at hw
  | append_singleton ws a ih =>
    rw [build_snoc]
    unfold add
    generalize hn : ((build ws).length : Int) = n
    rcases List.mem_append.1 hw with hw | hw
    · obtain ⟨l, hl, hc, hlr⟩ := ih (fun w hw => hd w (by simp [hw])) hw
      by_cases h : code l = code { a with order := n }
      · refine ⟨{ a with order := n }, (mem_ins (srt_build ws)).2 (.inl rfl), h.symm.trans hc, ?_⟩
        obtain ⟨l', hl', o, rfl⟩ := build_from hl
        exact regular_of_code (dom_order (hd l' (by simp [hl'])) o) (dom_order (hd a (by simp)) n) h hlr
      · exact ⟨l, (mem_ins (srt_build ws)).2 (.inr ⟨hl, h⟩), hc, hlr⟩
    · rw [List.mem_singleton] at hw
      subst hw
      exact ⟨{ w with order := n }, (mem_ins (srt_build ws)).2 (.inl rfl), code_order hr n, hr⟩

/-- The transaction `t` of the server is the one that the client sees as `x`. -/
structure Match (b : Int) (Q : Int → Bool) (n : Nat) (t : Txn α ν) (x : View α ν) : Prop where
  rep : Rep b Q t (build x.writes)
  valid : t.validated = x.valid
  dom : ∀ w ∈ x.writes, Dom b Q w
  len : x.writes.length ≤ n

structure TInv (b : Int) (Q : Int → Bool) (n : Nat) (s : Server α ν) (f : Int → Option (View α ν)) : Prop where
  srt : Db.Sorted s.txns
  rel : ∀ i, (Db.find s.txns i = none ∧ f i = none) ∨
    ∃ t x, Db.find s.txns i = some t ∧ f i = some x ∧ Match b Q n t x

theorem Match.mono {n m : Nat} {t : Txn α ν} {x : View α ν} (h : Match b Q n t x) (hm : n ≤ m) : Match b Q m t x :=
  ⟨h.rep, h.valid, h.dom, Nat.le_trans h.len hm⟩

theorem TInv.mono {n m : Nat} {s : Server α ν} {f : Int → Option (View α ν)} (h : TInv b Q n s f) (hm : n ≤ m) :
    TInv b Q m s f := by
  refine ⟨h.srt, fun i => ?_⟩
  rcases h.rel i with h1 | ⟨t, x, h1, h2, h3⟩
  · exact .inl h1
  · exact .inr ⟨t, x, h1, h2, h3.mono hm⟩

theorem TInv.put {n : Nat} {s : Server α ν} {f : Int → Option (View α ν)} (h : TInv b Q n s f) (i : Int)
    {t : Txn α ν} {x : View α ν} (hm : Match b Q n t x) : TInv b Q n (putTxn s i t) (setI f i (some x)) := by
  refine ⟨Db.sorted_put i t h.srt, fun j => ?_⟩
  simp only [putTxn, Db.find_put, setI]
  by_cases hj : j = i
  · right; exact ⟨t, x, by simp [hj], by simp [hj], hm⟩
  · simp only [hj, if_false]; exact h.rel j

theorem TInv.drop {n : Nat} {s : Server α ν} {f : Int → Option (View α ν)} (h : TInv b Q n s f) (i : Int)
    (st : Store α ν) : TInv b Q n ⟨Db.del s.txns i, st⟩ (setI f i none) := by
  refine ⟨Db.sorted_del i h.srt, fun j => ?_⟩
  simp only [Db.find_del h.srt, setI]
  by_cases hj : j = i
  · left; simp [hj]
  · simp only [hj, if_false]; exact h.rel j

/-- The writes of a message are in the domain of the comparison. -/
def Op.Dom (b : Int) (Q : Int → Bool) : Op α ν → Prop
  | .write _ w => Txn.Dom b Q w
  | _ => True

theorem setI_same {β : Type} {f : Int → β} {i : Int} {v : β} (h : f i = v) : setI f i v = f := by
  funext j
  unfold setI
  split
  · rename_i hj; rw [hj, h]
  · rfl

theorem step_inv {cv : Option ν → Option ν → Int} {lvl : Write α ν → Nat} {n : Nat} {s s' : Server α ν}
    {f : Int → Option (View α ν)} (h : TInv b Q n s f) (hn : n < 2 ^ 31) {o : Op α ν} (ho : o.Dom b Q) {r : Int}
    (hs : step cv lvl s o = .ok (s', r)) : TInv b Q (n + 1) s' (see f (o, r)) := by
  cases o with
  | start i =>
    simp only [step] at hs
    rcases h.rel i with ⟨h1, h2⟩ | ⟨t, x, h1, h2, h3⟩
    · rw [h1] at hs
      cases hs
      simp only [see, if_true]
      exact (h.put i ⟨rep_new _ _, rfl, by simp, by simp⟩).mono (by omega)
    · rw [h1] at hs
      cases hs
      have : ¬ DUPLICATE_TXN = 0 := by decide
      simp only [see, this, if_false]
      exact h.mono (by omega)
  | write i w =>
    simp only [step] at hs
    rcases h.rel i with ⟨h1, h2⟩ | ⟨t, x, h1, h2, h3⟩
    · rw [h1] at hs
      cases hs
      simp only [see, h2]
      exact h.mono (by omega)
    · rw [h1] at hs
      simp only at hs
      obtain ⟨t', ht, hs⟩ := bind_ok hs
      cases hs
      simp only [see, h2, if_true]
      have hl : (build x.writes).length < 2 ^ 31 := by
        have := length_build x.writes
        have := h3.len
        omega
      obtain ⟨r1, r2⟩ := addWrite_spec h3.rep ho hl ht
      refine (h.mono (Nat.le_succ n)).put i ⟨?_, r2.trans h3.valid, ?_, ?_⟩
      · rw [build_snoc]; exact r1
      · intro w' hw'
        rcases List.mem_append.1 hw' with hw' | hw'
        · exact h3.dom w' hw'
        · rw [List.mem_singleton] at hw'; rw [hw']; exact ho
      · have := h3.len; simp; omega
  | validate i v =>
    simp only [step] at hs
    rcases h.rel i with ⟨h1, h2⟩ | ⟨t, x, h1, h2, h3⟩
    · rw [h1] at hs
      cases hs
      simp only [see, h2]
      exact h.mono (by omega)
    · rw [h1] at hs
      simp only at hs
      unfold validateTxn at hs
      split at hs
      · cases hs
      · rename_i hv
        obtain ⟨c, hc, hs⟩ := bind_ok hs
        cases hs
        simp only [see, h2]
        have hrep : ∀ q, Rep b Q (⟨t.heap, t.nxt, t.nodes, t.items, q, some v⟩ : Txn α ν) (build x.writes) := by
          intro q
          obtain ⟨r1, P, r2, r3⟩ := h3.rep
          exact ⟨r1, P, ⟨r2.nodes, r2.good, r2.apart, r2.bound, r2.items⟩, r3⟩
        by_cases h0 : r = 0
        · rw [if_pos h0]
          refine (h.mono (Nat.le_succ n)).put i ⟨hrep _, ?_, h3.dom, Nat.le_succ_of_le h3.len⟩
          simp [VAL_COMMIT, h0]
        · rw [if_neg h0]
          have e := setI_same h2
          rw [← e]
          refine (h.mono (Nat.le_succ n)).put i ⟨hrep _, ?_, h3.dom, Nat.le_succ_of_le h3.len⟩
          rw [← h3.valid]
          simp only [VAL_COMMIT, h0, decide_false]
          simpa using hv
  | commit i v =>
    simp only [step] at hs
    simp only [see]
    rcases h.rel i with ⟨h1, h2⟩ | ⟨t, x, h1, h2, h3⟩
    · rw [h1] at hs
      cases hs
      rw [setI_same h2]
      exact h.mono (by omega)
    · rw [h1] at hs
      simp only at hs
      unfold persistTxn at hs
      obtain ⟨c, hc, hs⟩ := bind_ok hs
      cases hs
      exact (h.drop i _).mono (by omega)
  | abort i =>
    simp only [step] at hs
    simp only [see]
    rcases h.rel i with ⟨h1, h2⟩ | ⟨t, x, h1, h2, h3⟩
    · rw [h1] at hs
      cases hs
    · rw [h1] at hs
      cases hs
      exact (h.drop i _).mono (by omega)

theorem run_inv {cv : Option ν → Option ν → Int} {lvl : Write α ν → Nat} : ∀ (ops : List (Op α ν)) {n : Nat}
    {s s' : Server α ν} {f : Int → Option (View α ν)} {es : List (Op α ν × Int)}, TInv b Q n s f →
    n + ops.length ≤ 2 ^ 31 → (∀ o ∈ ops, o.Dom b Q) → run cv lvl ops s = .ok (s', es) →
    TInv b Q (n + ops.length) s' (es.foldl see f)
  | [], n, s, s', f, es, h, _, _, hr => by cases hr; exact h
  | o :: os, n, s, s', f, es, h, hn, ho, hr => by
    simp only [run] at hr
    obtain ⟨x, hx, hr⟩ := bind_ok hr
    obtain ⟨y, hy, hr⟩ := bind_ok hr
    cases hr
    simp only [List.length_cons] at hn ⊢
    have := run_inv os (step_inv h (by omega) (ho o (by simp)) hx) (by omega) (fun o ho' => ho o (by simp [ho'])) hy
    rw [show n + (os.length + 1) = n + 1 + os.length by omega]
    exact this

theorem tinv_init (st : Store α ν) : TInv b Q 0 ⟨[], st⟩ fun _ => none :=
  ⟨List.Pairwise.nil, fun _ => .inl ⟨rfl, rfl⟩⟩

/-! ### Validation -/

/-- The validation loop passes only if every write is fine. -/
theorem validateLoop_ok {cv : Option ν → Option ν → Int} {s : Server α ν} {i : Int} {t : Txn α ν}
    {P : List ((Nat × Nat) × Write α ν)} (hg : ∀ e ∈ P, Good b Q t.heap e)
    (h : validateLoop cv s i t.heap (P.map (·.1)) = .ok VAL_COMMIT) :
    ∀ e ∈ P, writeStatus cv s i e.2 = .ok VAL_COMMIT := by
  induction P with
  | nil => intro e he; simp at he
  | cons a P ih =>
    simp only [List.map_cons, validateLoop] at h
    obtain ⟨w, hw, h⟩ := bind_ok h
    rw [deref_ok, (hg a (by simp)).1] at hw
    cases hw
    obtain ⟨c, hc, h⟩ := bind_ok h
    by_cases h0 : c = VAL_COMMIT
    · subst h0
      rw [if_neg (by simp)] at h
      intro e he
      rcases List.mem_cons.1 he with rfl | he
      · exact hc
      · exact ih (fun e he => hg e (by simp [he])) h e he
    · rw [if_pos h0] at h
      cases h
      exact absurd rfl h0

theorem conflictLoop_false {i : Int} {w : Write α ν} {l : List (Int × Txn α ν)} (h : conflictLoop i w l = .ok false) :
    ∀ e ∈ l, e.2.validated = true → e.1 ≠ i → wsSearch e.2.heap e.2.nodes w = .ok none := by
  induction l with
  | nil => intro e he; simp at he
  | cons a l ih =>
    simp only [conflictLoop] at h
    intro e he hv hi
    split at h
    · rename_i hc
      rcases List.mem_cons.1 he with rfl | he
      · rcases hc with hc | hc
        · rw [hv] at hc; cases hc
        · exact absurd hc hi
      · exact ih h e he hv hi
    · obtain ⟨r, hr, h⟩ := bind_ok h
      cases r with
      | some p => cases h
      | none =>
        simp only [Option.isSome_none, Bool.false_eq_true, if_false] at h
        rcases List.mem_cons.1 he with rfl | he
        · exact hr
        · exact ih h e he hv hi

theorem writeStatus_regular {cv : Option ν → Option ν → Int} {s : Server α ν} {i : Int} {w : Write α ν}
    (hr : Regular w) : writeStatus cv s i w =
      (conflictLoop i w s.txns >>= fun c => .ok (if c then VAL_ABORT else VAL_COMMIT)) := by
  unfold writeStatus
  rcases hr with h | h <;> rw [h] <;> rfl

/-- A transaction that validates writes no key of another valid transaction. -/
theorem validate_exclusive {cv : Option ν → Option ν → Int} {n : Nat} {s s' : Server α ν}
    {f : Int → Option (View α ν)} (h : TInv b Q n s f) {i : Int} {v : ν} {t : Txn α ν} {x : View α ν}
    (hm : Match b Q n t x) (hs : validateTxn cv s i v t = .ok (s', 0)) {j : Int} (hij : j ≠ i) {y : View α ν}
    (hy : f j = some y) (hv : y.valid = true) : ∀ w ∈ x.writes, ∀ w' ∈ y.writes, Regular w → Regular w' → ¬ SameKey w w' := by
  intro w hw w' hw' hr hr' hk
  unfold validateTxn at hs
  split at hs
  · cases hs
  obtain ⟨c, hc, hs⟩ := bind_ok hs
  injection hs with hs
  have hc0 : c = VAL_COMMIT := congrArg Prod.snd hs
  subst hc0
  obtain ⟨s1, P, hP, e1⟩ := hm.rep
  rw [hP.nodes] at hc
  obtain ⟨l, hl, hlc, hlr⟩ := mem_build hm.dom hw hr
  rw [e1] at hl
  obtain ⟨e, he, rfl⟩ := List.mem_map.1 hl
  have hst := validateLoop_ok hP.good hc e he
  rw [writeStatus_regular hlr] at hst
  obtain ⟨q, hq, hst⟩ := bind_ok hst
  have hqf : q = false := by
    cases q
    · rfl
    · cases hst
  subst hqf
  rcases h.rel j with ⟨_, h2⟩ | ⟨t', y', h1, h2, h3⟩
  · rw [hy] at h2; cases h2
  · rw [hy] at h2
    cases h2
    have := conflictLoop_false hq (j, t') (Db.find_mem h1) (h3.valid.trans hv) hij
    obtain ⟨s2, P', hP', e2⟩ := h3.rep
    have hgl := (hP.good e he).2.1
    have hno := (wsSearch_spec hP' (e2 ▸ s2) hgl.1 hgl.2 this).2 rfl
    obtain ⟨l', hl', hlc', _⟩ := mem_build h3.dom hw' hr'
    rw [e2] at hl'
    obtain ⟨e', he', rfl⟩ := List.mem_map.1 hl'
    exact hno e' he' (hlc'.trans ((code_regular hr' hr).2 ⟨hk.1.symm, hk.2.symm⟩ |>.trans hlc.symm))

/-- The transactions that a client was told to be valid. -/
def Told (A : List (Op α ν)) (f : Int → Option (View α ν)) : Prop :=
  ∀ i x, f i = some x → x.valid = true → ∃ v, Op.validate i v ∈ A

theorem step_excl {cv : Option ν → Option ν → Int} {lvl : Write α ν → Nat} {n : Nat} {s s' : Server α ν}
    {f : Int → Option (View α ν)} (h : TInv b Q n s f) {A : List (Op α ν)} (ht : Told A f) (he : Exclusive f)
    {o : Op α ν} (ho : ∀ i w, o = .write i w → ∀ v, Op.validate i v ∉ A) {r : Int}
    (hs : step cv lvl s o = .ok (s', r)) : Told (A ++ [o]) (see f (o, r)) ∧ Exclusive (see f (o, r)) := by
  have hmono : Told (A ++ [o]) f := fun i x hx hv => by
    obtain ⟨v, hv⟩ := ht i x hx hv
    exact ⟨v, by simp [hv]⟩
  -- Setting a transaction that is not valid, or none.
  have hset : ∀ i (z : Option (View α ν)), (∀ x, z = some x → x.valid = false) →
      Told (A ++ [o]) (setI f i z) ∧ Exclusive (setI f i z) := by
    intro i z hz
    refine ⟨fun j x hx hv => ?_, fun j k x y hjk hx hy hvx hvy => ?_⟩
    · unfold setI at hx
      split at hx
      · rw [hz x hx] at hv; cases hv
      · exact hmono j x hx hv
    · unfold setI at hx hy
      split at hx
      · rw [hz x hx] at hvx; cases hvx
      · split at hy
        · rw [hz y hy] at hvy; cases hvy
        · exact he j k x y hjk hx hy hvx hvy
  cases o with
  | start i =>
    simp only [see]
    split
    · exact hset i _ (fun x hx => by cases hx; rfl)
    · exact ⟨hmono, he⟩
  | write i w =>
    simp only [see]
    cases hf : f i with
    | none => exact ⟨hmono, he⟩
    | some x =>
      simp only
      split
      · apply hset
        intro y hy
        cases hy
        show x.valid = false
        cases hv : x.valid with
        | false => rfl
        | true =>
          obtain ⟨v, hv⟩ := ht i x hf hv
          exact absurd hv (ho i w rfl v)
      · exact ⟨hmono, he⟩
  | validate i v =>
    simp only [see]
    cases hf : f i with
    | none => exact ⟨hmono, he⟩
    | some x =>
      simp only
      by_cases h0 : r = 0
      · rw [if_pos h0]
        subst h0
        rcases h.rel i with ⟨_, h2⟩ | ⟨t, x', h1, h2, h3⟩
        · rw [hf] at h2; cases h2
        rw [hf] at h2
        cases h2
        simp only [step, h1] at hs
        have hex := fun {j : Int} (hij : j ≠ i) {y : View α ν} (hy : f j = some y) (hv : y.valid = true) =>
          validate_exclusive h h3 hs hij hy hv
        refine ⟨fun j y hy hv => ?_, fun j k y z hjk hy hz hvy hvz => ?_⟩
        · unfold setI at hy
          split at hy
          · rename_i hj; subst hj; exact ⟨v, by simp⟩
          · exact hmono j y hy hv
        · unfold setI at hy hz
          split at hy
          · rename_i hj
            cases hy
            rw [if_neg (by rw [← hj]; exact fun e => hjk e.symm)] at hz
            exact hex (by rw [← hj]; exact fun e => hjk e.symm) hz hvz
          · rename_i hj
            split at hz
            · cases hz
              intro w hw w' hw' hr hr' hk
              exact hex hj hy hvy w' hw' w hw hr' hr ⟨hk.1.symm, hk.2.symm⟩
            · exact he j k y z hjk hy hz hvy hvz
      · rw [if_neg h0]; exact ⟨hmono, he⟩
  | commit i v => simp only [see]; exact hset i none (fun x hx => by cases hx)
  | abort i => simp only [see]; exact hset i none (fun x hx => by cases hx)

theorem run_excl {cv : Option ν → Option ν → Int} {lvl : Write α ν → Nat} : ∀ (ops : List (Op α ν)) {n : Nat}
    {s s' : Server α ν} {f : Int → Option (View α ν)} {es : List (Op α ν × Int)} {A : List (Op α ν)}, TInv b Q n s f →
    Told A f → Exclusive f → n + ops.length ≤ 2 ^ 31 → (∀ o ∈ ops, o.Dom b Q) →
    (∀ B i w C, A ++ ops = B ++ .write i w :: C → ∀ v, Op.validate i v ∉ B) → run cv lvl ops s = .ok (s', es) →
    Exclusive (es.foldl see f)
  | [], n, s, s', f, es, A, h, _, hex, _, _, _, hr => by cases hr; exact hex
  | o :: os, n, s, s', f, es, A, h, ht, hex, hn, ho, hd, hr => by
    simp only [run] at hr
    obtain ⟨x, hx, hr⟩ := bind_ok hr
    obtain ⟨y, hy, hr⟩ := bind_ok hr
    cases hr
    simp only [List.length_cons] at hn
    obtain ⟨t1, e1⟩ := step_excl h ht hex (fun i w e => hd A i w os (by rw [e])) hx
    exact run_excl (n := n + 1) (A := A ++ [o]) (f := see f (o, x.2)) os (step_inv h (by omega) (ho o (by simp)) hx)
      t1 e1 (by omega) (fun o ho' => ho o (by simp [ho'])) (fun B i w C e => hd B i w C (by simpa using e)) hy

/-- C27. In every history of messages of a server in which no transaction gets a further write after it was
validated, no two transactions that are valid at the same time write the same key of the same table. The
number of messages is below `2^31`, all identifiers lie in one window of that width, and no table is used both
with row and with queue operations. Missing for the whole claim: writes after the validation, a row deletion
against a write below that row, queue operations, and identifiers far apart, for all of which it is false,
see the refutations. -/
theorem C27_exclusive_partial (cv : Option ν → Option ν → Int) (lvl : Write α ν → Nat) (b : Int) (Q : Int → Bool)
    (st : Store α ν) (ops : List (Op α ν)) (hn : ops.length ≤ 2 ^ 31) (hd : ∀ o ∈ ops, o.Dom b Q)
    (hl : ∀ B i w C, ops = B ++ .write i w :: C → ∀ v, Op.validate i v ∉ B) {s : Server α ν}
    {es : List (Op α ν × Int)} (hr : run cv lvl ops ⟨[], st⟩ = .ok (s, es)) : Exclusive (seen es) :=
  run_excl (A := []) ops (tinv_init st) (fun i x hx => by cases hx) (fun i j x y _ hx => by cases hx) (by omega) hd
    (by simpa using hl) hr

/-! ### No abort without a conflict -/

theorem find_of_mem {β : Type} {m : List (Int × β)} (hs : Db.Sorted m) {e : Int × β} (he : e ∈ m) :
    Db.find m e.1 = some e.2 := by
  induction m with
  | nil => simp at he
  | cons a m ih =>
    unfold Db.Sorted at hs
    rw [List.pairwise_cons] at hs
    unfold Db.find
    rcases List.mem_cons.1 he with rfl | he
    · rw [if_pos rfl]
    · have := hs.1 e he
      rw [if_neg (by omega)]
      exact ih hs.2 he

theorem conflictLoop_true {i : Int} {w : Write α ν} {l : List (Int × Txn α ν)} (h : conflictLoop i w l = .ok true) :
    ∃ e ∈ l, e.2.validated = true ∧ e.1 ≠ i ∧ ∃ p, wsSearch e.2.heap e.2.nodes w = .ok (some p) := by
  induction l with
  | nil => simp [conflictLoop] at h
  | cons a l ih =>
    simp only [conflictLoop] at h
    split at h
    · obtain ⟨e, he, h'⟩ := ih h
      exact ⟨e, by simp [he], h'⟩
    · rename_i hc
      obtain ⟨r, hr, h⟩ := bind_ok h
      cases r with
      | some p => exact ⟨a, by simp, by simpa using fun h => hc (.inl h), fun h => hc (.inr h), p, hr⟩
      | none =>
        simp only [Option.isSome_none, Bool.false_eq_true, if_false] at h
        obtain ⟨e, he, h'⟩ := ih h
        exact ⟨e, by simp [he], h'⟩

theorem validateLoop_commit {cv : Option ν → Option ν → Int} {s : Server α ν} {i : Int} {t : Txn α ν}
    {P : List ((Nat × Nat) × Write α ν)} (hg : ∀ e ∈ P, Good b Q t.heap e)
    (hw : ∀ e ∈ P, ∀ c, writeStatus cv s i e.2 = .ok c → c = VAL_COMMIT) {c : Int}
    (h : validateLoop cv s i t.heap (P.map (·.1)) = .ok c) : c = VAL_COMMIT := by
  induction P with
  | nil => cases h; rfl
  | cons a P ih =>
    simp only [List.map_cons, validateLoop] at h
    obtain ⟨w, hw', h⟩ := bind_ok h
    rw [deref_ok, (hg a (by simp)).1] at hw'
    cases hw'
    obtain ⟨d, hd, h⟩ := bind_ok h
    rw [if_neg (by rw [hw a (by simp) d hd]; simp)] at h
    exact ih (fun e he => hg e (by simp [he])) (fun e he => hw e (by simp [he])) h

/-- C27, the other direction: a transaction that writes only rows and shares no key with a valid transaction
is never refused. -/
theorem C27_no_false_abort (cv : Option ν → Option ν → Int) (lvl : Write α ν → Nat) (b : Int) (Q : Int → Bool)
    (st : Store α ν) (ops : List (Op α ν)) (hn : ops.length ≤ 2 ^ 31) (hd : ∀ o ∈ ops, o.Dom b Q) {s s' : Server α ν}
    {es : List (Op α ν × Int)} (hr : run cv lvl ops ⟨[], st⟩ = .ok (s, es)) {i : Int} {x : View α ν}
    (hx : seen es i = some x) (hreg : ∀ w ∈ x.writes, Regular w)
    (hno : ∀ j y, j ≠ i → seen es j = some y → y.valid = true → ∀ w ∈ x.writes, ∀ w' ∈ y.writes, ¬ SameKey w w')
    {v : ν} {r : Int} (hs : step cv lvl s (.validate i v) = .ok (s', r)) : r = 0 := by
  have hi : TInv b Q (0 + ops.length) s (seen es) := run_inv ops (tinv_init st) (by omega) hd hr
  rcases hi.rel i with ⟨_, h2⟩ | ⟨t, x', h1, h2, h3⟩
  · rw [hx] at h2; cases h2
  rw [hx] at h2
  cases h2
  simp only [step, h1, validateTxn] at hs
  split at hs
  · cases hs
  obtain ⟨c, hc, hs⟩ := bind_ok hs
  injection hs with hs
  have hcr : c = r := congrArg Prod.snd hs
  rw [← hcr]
  obtain ⟨s1, P, hP, e1⟩ := h3.rep
  rw [hP.nodes] at hc
  refine validateLoop_commit hP.good ?_ hc
  intro e he c hc
  have hmem : e.2 ∈ build x.writes := by rw [e1]; exact List.mem_map_of_mem he
  obtain ⟨w, hw, o, hwo⟩ := build_from hmem
  have hwr := hreg w hw
  have her : Regular e.2 := by rw [hwo]; exact hwr
  rw [writeStatus_regular her] at hc
  obtain ⟨q, hq, hc⟩ := bind_ok hc
  cases q with
  | false => cases hc; rfl
  | true =>
    exfalso
    obtain ⟨f, hf, hv, hne, p, hp⟩ := conflictLoop_true hq
    have hfind := find_of_mem hi.srt hf
    rcases hi.rel f.1 with ⟨h4, _⟩ | ⟨t', y, h4, h5, h6⟩
    · rw [hfind] at h4; cases h4
    · rw [hfind] at h4
      cases h4
      obtain ⟨s2, P', hP', e2⟩ := h6.rep
      have hge := (hP.good e he).2.1
      obtain ⟨g, hg, hgc, _⟩ := (wsSearch_spec hP' (e2 ▸ s2) hge.1 hge.2 hp).1 p rfl
      have hgm : g.2 ∈ build y.writes := by rw [e2]; exact List.mem_map_of_mem hg
      obtain ⟨w', hw', o', hwo'⟩ := build_from hgm
      have hgr : Regular g.2 := regular_of_code hge.1 (hP'.good g hg).2.1.1 hgc.symm her
      have hk := (code_regular hgr her).1 hgc
      have hk1 : e.2.table = w.table ∧ e.2.keys = w.keys := by rw [hwo]; exact ⟨rfl, rfl⟩
      have hk2 : g.2.table = w'.table ∧ g.2.keys = w'.keys := by rw [hwo']; exact ⟨rfl, rfl⟩
      exact hno f.1 y hne h5 (h6.valid.symm.trans hv) w hw w' hw'
        ⟨hk1.1.symm.trans (hk.1.symm.trans hk2.1), hk1.2.symm.trans (hk.2.symm.trans hk2.2)⟩

/-! ### Examples and refutations -/

/-- An empty database. -/
def noStore : Store Nat Nat := ⟨fun _ => none, fun _ => none⟩

/-- Comparison of versions that finds all equal; level 0 in all skip lists. -/
def cv0 : Option Nat → Option Nat → Int := fun _ _ => 0

def lvl0 : Write Nat Nat → Nat := fun _ => 0

def upd (t : Int) (ks : List Int) (c : Nat) : Write Nat Nat := { kind := .update, table := t, keys := ks, cols := [c] }

def delw (t : Int) (ks : List Int) : Write Nat Nat := { kind := .delete, table := t, keys := ks }

/-- The replies to a history. -/
def replies (ops : List (Op Nat Nat)) : Res (List Int) := do
  let x ← run cv0 lvl0 ops ⟨[], noStore⟩
  return x.2.map (·.2)

/-- Two transactions that write two cells each, one of them in common: the second is refused. -/
def testOps : List (Op Nat Nat) :=
  [.start 1, .start 2, .write 1 (upd 0 [5, 1] 7), .write 2 (upd 0 [5, 2] 8), .write 1 (upd 0 [4, 1] 9),
   .write 2 (upd 0 [4, 1] 9), .validate 1 0, .validate 2 0]

example : replies testOps = .ok [0, 0, 0, 0, 0, 0, 0, 1] := by decide +kernel

/-- Without the common cell both are valid. -/
def testOps' : List (Op Nat Nat) :=
  [.start 1, .start 2, .write 1 (upd 0 [5, 1] 7), .write 2 (upd 0 [5, 2] 8), .validate 1 0, .validate 2 0]

example : replies testOps' = .ok [0, 0, 0, 0, 0, 0] := by decide +kernel

/-- The hypotheses of `C27_exclusive_partial` hold for the two histories. -/
example : ∀ o ∈ testOps ++ testOps', o.Dom 0 fun _ => false := by
  intro o ho
  simp only [testOps, testOps', List.cons_append, List.nil_append, List.mem_cons, List.not_mem_nil, or_false] at ho
  have h : ∀ ks c, (∀ k ∈ ks, InW 0 k) → Dom 0 (fun _ => false) (upd 0 ks c) := fun ks c hk =>
    ⟨by simp [upd, InW], hk, by simp [upd, InW], by simp [upd, InW], by simp [upd, InW], by simp [upd, InW], rfl⟩
  rcases ho with rfl | rfl | rfl | rfl | rfl | rfl | rfl | rfl | rfl | rfl | rfl | rfl | rfl | rfl <;>
    first | trivial | (apply h; simp [InW])

/-- A history as its decompositions: no write after the validation. -/
def noLate : List (Op Nat Nat) → List Int → Bool
  | [], _ => true
  | .write i _ :: os, vs => !vs.contains i && noLate os vs
  | .validate i _ :: os, vs => noLate os (i :: vs)
  | _ :: os, vs => noLate os vs

theorem noLate_spec : ∀ (ops : List (Op Nat Nat)) (vs : List Int), noLate ops vs = true →
    ∀ B i w C, ops = B ++ .write i w :: C → i ∉ vs ∧ ∀ v, Op.validate i v ∉ B
  | [], vs, _, B, i, w, C, e => by simp at e
  | o :: os, vs, h, [], i, w, C, e => by
    simp only [List.nil_append, List.cons.injEq] at e
    obtain ⟨rfl, rfl⟩ := e
    simp only [noLate, Bool.and_eq_true, Bool.not_eq_true', List.contains_eq_mem, decide_eq_false_iff_not] at h
    exact ⟨h.1, fun v hv => by simp at hv⟩
  | o :: os, vs, h, c :: B, i, w, C, e => by
    simp only [List.cons_append, List.cons.injEq] at e
    obtain ⟨rfl, e⟩ := e
    cases o with
    | write j u =>
      simp only [noLate, Bool.and_eq_true] at h
      obtain ⟨h1, h2⟩ := noLate_spec os vs h.2 B i w C e
      exact ⟨h1, fun v hv => by simp at hv; exact h2 v hv⟩
    | validate j u =>
      simp only [noLate] at h
      obtain ⟨h1, h2⟩ := noLate_spec os (j :: vs) h B i w C e
      simp only [List.mem_cons, not_or] at h1
      refine ⟨h1.2, fun v hv => ?_⟩
      rcases List.mem_cons.1 hv with hv | hv
      · cases hv; exact h1.1 rfl
      · exact h2 v hv
    | start j =>
      obtain ⟨h1, h2⟩ := noLate_spec os vs h B i w C e
      exact ⟨h1, fun v hv => by simp at hv; exact h2 v hv⟩
    | commit j u =>
      obtain ⟨h1, h2⟩ := noLate_spec os vs h B i w C e
      exact ⟨h1, fun v hv => by simp at hv; exact h2 v hv⟩
    | abort j =>
      obtain ⟨h1, h2⟩ := noLate_spec os vs h B i w C e
      exact ⟨h1, fun v hv => by simp at hv; exact h2 v hv⟩

example : ∀ B i w C, testOps = B ++ .write i w :: C → ∀ v, Op.validate i v ∉ B :=
  fun B i w C e => (noLate_spec testOps [] (by decide +kernel) B i w C e).2

/-- C27 is false for writes that come after the validation: the server accepts them, and two valid
transactions then write the same cell. -/
theorem C27_refuted_late_write :
    replies [.start 1, .start 2, .validate 1 0, .validate 2 0, .write 1 (upd 0 [5, 1] 7), .write 2 (upd 0 [5, 1] 8)]
      = .ok [0, 0, 0, 0, 0, 0] := by decide +kernel

/-- C27 is false for overlapping key paths: a valid transaction deletes the row 5, another one writes a cell of
this row. -/
theorem C27_refuted_prefix :
    replies [.start 1, .start 2, .write 1 (delw 0 [5]), .write 2 (upd 0 [5, 1] 7), .validate 1 0, .validate 2 0]
      = .ok [0, 0, 0, 0, 0, 0] := by decide +kernel

/-- C27 is false for keys that are `2^31` apart: the comparison then is not an order, and a key that is in
the write set is not found there. -/
theorem C27_refuted_wrap :
    replies [.start 1, .start 2, .write 1 (upd 0 [2 ^ 31, 1] 7), .write 1 (upd 0 [0, 1] 7), .write 2 (upd 0 [2 ^ 31, 1] 8),
      .validate 1 0, .validate 2 0] = .ok [0, 0, 0, 0, 0, 0, 0] := by decide +kernel

/-- A database with one queue table 1 that has the queue 0 with one entry and the consumer 3. -/
def queueStore : Res (Store Nat Nat) := do
  let r ← Queue.create 0
  let r ← Queue.enqueue r [4] 0
  return ⟨fun _ => none, setI (fun _ => none) 1
    (some (setI (fun _ => none) 0 (some ⟨(Queue.subscribe r 3).1, none, fun _ => none⟩)))⟩

def repliesQ (ops : List (Op Nat Nat)) : Res (List Int) := do
  let st ← queueStore
  let x ← run cv0 lvl0 ops ⟨[], st⟩
  return x.2.map (·.2)

/-- C27 is false for queues: two valid transactions both read the first entry of the same queue for the same
consumer, and both consume it. -/
theorem C27_refuted_queue :
    repliesQ [.start 1, .start 2, .write 1 { kind := .readQ, table := 1, consumer := 3, head := 0 },
      .write 2 { kind := .readQ, table := 1, consumer := 3, head := 0 },
      .write 1 { kind := .consumeQ, table := 1, consumer := 3, head := 0 },
      .write 2 { kind := .consumeQ, table := 1, consumer := 3, head := 0 }, .validate 1 0, .validate 2 0]
      = .ok [0, 0, 0, 0, 0, 0, 0, 0] := by decide +kernel

/-- A server that gets a second validation message for a transaction aborts. -/
theorem C27_refuted_revalidate : replies [.start 1, .validate 1 0, .validate 1 0] = .raise .assertFail := by
  decide +kernel

end Verif.Txn
