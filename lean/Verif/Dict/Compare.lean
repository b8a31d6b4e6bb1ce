import Verif.Dict.Props
/-!
# C07: comparison of dicts; C37: serialization of dicts
-/
namespace Verif.Dict
open Verif
set_option linter.unusedSectionVars false
variable {K V : Type} {W : HashW K} [DecidableEq K]

/-- dict.c:349-362: the loop of `B_dictrel` over the keys of `a`. The hash is calculated iff `a` is a
large table, and used for both. `veq` is the equality of values. -/
def relLoop (W : HashW K) (veq : V → V → Bool) (a b : DictObj K V) : List (K × V) → Res Bool
  | [] => .ok true
  | (x, _) :: l => do
    let ra ← lookdict W a.table (tableHash W a.table x) x
    let rb ← lookdict W b.table (tableHash W a.table x) x
    match rb with
    | none => .ok false
    | some (_, vb) =>
      match ra with
      | none => .ub
      | some (_, va) => if veq va vb then relLoop W veq a b l else .ok false

/-- dict.c:338-369 `B_dictrel`. -/
def dictrel (W : HashW K) (veq : V → V → Bool) (directfalse : Bool) (a b : DictObj K V) : Res Bool :=
  if directfalse then .ok false
  else if a.num = 0 then .ok true
  else do
    let ks ← items a
    relLoop W veq a b ks

/-- dict.c:371-373. -/
def eq (W : HashW K) (veq : V → V → Bool) (a b : DictObj K V) : Res Bool := dictrel W veq (a.num ≠ b.num) a b
/-- dict.c:379-381. -/
def lt (W : HashW K) (veq : V → V → Bool) (a b : DictObj K V) : Res Bool := dictrel W veq (a.num ≥ b.num) a b
/-- dict.c:383-385. -/
def le (W : HashW K) (veq : V → V → Bool) (a b : DictObj K V) : Res Bool := dictrel W veq (a.num > b.num) a b
/-- dict.c:387-389. -/
def gt (W : HashW K) (veq : V → V → Bool) (a b : DictObj K V) : Res Bool := do
  let r ← lt W veq b a
  return !r
/-- dict.c:391-393. -/
def ge (W : HashW K) (veq : V → V → Bool) (a b : DictObj K V) : Res Bool := do
  let r ← le W veq b a
  return !r

/-- Specification: every binding of `la` is in `lb`. -/
def SubMap (eq : K → K → Bool) (veq : V → V → Bool) (la lb : List (K × V)) : Prop :=
  ∀ k v, alookup eq la k = some v → ∃ v', alookup eq lb k = some v' ∧ veq v v' = true

/-- Specification: the same keys bound to equal values. -/
def SameMap (eq : K → K → Bool) (veq : V → V → Bool) (la lb : List (K × V)) : Prop :=
  SubMap eq veq la lb ∧ ∀ k, alookup eq la k = none → alookup eq lb k = none

theorem mem_alookup (ok : W.Ok) {l : List (K × V)} (hd : Distinct W.eq l) {p : K × V} (hp : p ∈ l) : alookup W.eq l p.1 = some p.2 := by
  obtain ⟨A, B, rfl⟩ := List.append_of_mem hp
  exact alookup_mid (Distinct.mid ok (k' := p.1) (v := p.2) hd (ok.refl _)).1 (ok.refl _)

theorem alookup_mem {l : List (K × V)} {k : K} {v : V} (h : alookup W.eq l k = some v) :
    ∃ k', (k', v) ∈ l ∧ W.eq k k' = true := by
  induction l with
  | nil => simp [alookup] at h
  | cons p l ih =>
    obtain ⟨a, b⟩ := p
    unfold alookup at h
    cases e : W.eq k a with
    | true => rw [e] at h; simp at h; subst h; exact ⟨a, by simp, e⟩
    | false =>
      rw [e, if_neg (by simp)] at h
      obtain ⟨k', h1, h2⟩ := ih h
      exact ⟨k', List.mem_cons_of_mem _ h1, h2⟩

theorem alookup_congr (ok : W.Ok) (l : List (K × V)) {k k' : K} (h : W.eq k k' = true) : alookup W.eq l k = alookup W.eq l k' := by
  induction l with
  | nil => rfl
  | cons p l ih =>
    obtain ⟨a, b⟩ := p
    unfold alookup
    have : W.eq k a = W.eq k' a := by
      cases e : W.eq k' a with
      | true => exact ok.trans _ _ _ h e
      | false =>
        cases e' : W.eq k a with
        | false => rfl
        | true => rw [ok.trans _ _ _ (ok.symm _ _ h) e'] at e; exact absurd e (by simp)
    rw [this, ih]

theorem relLoop_spec (ok : W.Ok) {veq : V → V → Bool} {a b : DictObj K V} {la lb : List (K × V)} (ha : Good W a la) (hb : Good W b lb)
    (hsz : ∀ ta tb, a.table = some ta → b.table = some tb → ta.size ≠ 4 ∨ tb.size = 4) :
    ∀ l : List (K × V), (∀ p ∈ l, p ∈ la) → ∃ r, relLoop W veq a b l = .ok r ∧
      (r = true ↔ ∀ p ∈ l, ∃ v', alookup W.eq lb p.1 = some v' ∧ veq p.2 v' = true) := by
  intro l
  induction l with
  | nil => intro _; exact ⟨true, rfl, by simp⟩
  | cons p l ih =>
    intro hsub
    obtain ⟨x, v⟩ := p
    have hx := hsub (x, v) (by simp)
    have hlx := mem_alookup ok ha.1.distinct hx
    simp only at hlx
    obtain ⟨r, er, hr⟩ := ih (fun p hp => hsub p (List.mem_cons_of_mem _ hp))
    cases hta : a.table with
    | none => rw [ha.1.none hta] at hx; simp at hx
    | some ta =>
      obtain ⟨ra, e1, hf1, h1⟩ := lookup_spec ok ha.1 hta x
      rw [hlx] at h1
      unfold relLoop
      rw [hta, e1, Res.ok_bind]
      cases ra with
      | none => simp at h1
      | some qa =>
        obtain ⟨ia, va⟩ := qa
        simp at h1
        subst h1
        cases htb : b.table with
        | none =>
          refine ⟨false, rfl, ?_⟩
          rw [hb.1.none htb]
          constructor
          · intro h; simp at h
          · intro h
            obtain ⟨v', h3, -⟩ := h (x, va) (by simp)
            simp [alookup] at h3
        | some tb =>
          obtain ⟨rb, e2, hf2⟩ := lookdict_spec ok (hb.1.some tb htb).1 x (tableHash W (some ta) x) (by
            intro h4
            have := (hsz ta tb hta htb).resolve_right h4
            have h := tableHash_ok ha.1 x ta hta this
            rw [hta] at h; exact h)
          have h2 := found_lookup ok hb.1 htb hf2
          rw [e2, Res.ok_bind]
          cases rb with
          | none =>
            refine ⟨false, rfl, ?_⟩
            simp only [Option.map_none] at h2
            constructor
            · intro h; simp at h
            · intro h
              obtain ⟨v', h3, -⟩ := h (x, va) (by simp)
              simp only at h3
              rw [← h2] at h3; simp at h3
          | some qb =>
            obtain ⟨ib, vb⟩ := qb
            simp only [Option.map_some] at h2
            simp only
            cases hv : veq va vb with
            | true =>
              rw [if_pos rfl]
              refine ⟨r, er, ?_⟩
              rw [hr]
              constructor
              · intro h p hp
                rcases List.mem_cons.1 hp with rfl | hp
                · exact ⟨vb, h2.symm, hv⟩
                · exact h p hp
              · intro h p hp; exact h p (List.mem_cons_of_mem _ hp)
            | false =>
              rw [if_neg (by simp)]
              refine ⟨false, rfl, ?_⟩
              constructor
              · intro h; simp at h
              · intro h
                obtain ⟨v', h3, h4⟩ := h (x, va) (by simp)
                simp only at h3 h4
                rw [← h2] at h3
                simp at h3
                rw [← h3, hv] at h4; simp at h4

theorem dictrel_spec (ok : W.Ok) {veq : V → V → Bool} {a b : DictObj K V} {la lb : List (K × V)} (ha : Good W a la) (hb : Good W b lb)
    (hsz : ∀ ta tb, a.table = some ta → b.table = some tb → ta.size ≠ 4 ∨ tb.size = 4) :
    ∃ r, dictrel W veq false a b = .ok r ∧ (r = true ↔ SubMap W.eq veq la lb) := by
  unfold dictrel
  rw [if_neg (by simp)]
  by_cases h0 : a.num = 0
  · rw [if_pos h0]
    have := ha.1.num
    have hla : la = [] := List.length_eq_zero_iff.1 (by omega)
    subst hla
    exact ⟨true, rfl, by simp [SubMap, alookup]⟩
  · rw [if_neg h0, (C06_observe ok ha).2.2.2.2.1, Res.ok_bind]
    obtain ⟨r, e, hr⟩ := relLoop_spec (veq := veq) ok ha hb hsz la (fun p hp => hp)
    refine ⟨r, e, ?_⟩
    rw [hr]
    constructor
    · intro h k v hk
      obtain ⟨k', h1, h2⟩ := alookup_mem (W := W) hk
      obtain ⟨v', h3, h4⟩ := h _ h1
      exact ⟨v', by rw [alookup_congr ok lb h2]; exact h3, h4⟩
    · intro h p hp
      exact h _ _ (mem_alookup ok ha.1.distinct hp)

/-- Equally many bindings and inclusion of keys give the same keys. -/
theorem same_keys (ok : W.Ok) : ∀ (la lb : List (K × V)), Distinct W.eq la → Distinct W.eq lb → lb.length ≤ la.length →
    (∀ p ∈ la, (alookup W.eq lb p.1).isSome) → ∀ k, alookup W.eq la k = none → alookup W.eq lb k = none := by
  intro la
  induction la with
  | nil =>
    intro lb _ _ hlen _ k _
    have : lb = [] := List.length_eq_zero_iff.1 (by simpa using hlen)
    rw [this]; rfl
  | cons p la ih =>
    intro lb hda hdb hlen hsub k hk
    obtain ⟨a, v⟩ := p
    unfold Distinct at hda
    rw [List.pairwise_cons] at hda
    obtain ⟨v', hv'⟩ := Option.isSome_iff_exists.1 (hsub (a, v) (by simp))
    obtain ⟨a', hm, hea⟩ := alookup_mem (W := W) hv'
    simp only at hea
    have hne : W.eq k a = false := by
      cases e : W.eq k a with
      | false => rfl
      | true => unfold alookup at hk; rw [e] at hk; simp at hk
    obtain ⟨A, B, rfl⟩ := List.append_of_mem hm
    have hmid := hdb.mid ok hea
    have her : aerase W.eq (A ++ (a', v') :: B) a = A ++ B := aerase_mid hmid.1 hmid.2 hea
    have hk' : alookup W.eq la k = none := by
      unfold alookup at hk; rw [hne] at hk; simpa using hk
    have := ih (A ++ B) hda.2 (List.Pairwise.sublist (List.Sublist.append_left (List.sublist_cons_self _ _) _) hdb)
      (by simp at hlen ⊢; omega) (by
        intro p hp
        have h1 := hsub p (List.mem_cons_of_mem _ hp)
        rw [← her, alookup_aerase ok, if_neg]
        · exact h1
        · have := ok.symm_false (hda.1 p hp)
          simp only at this
          rw [this]; simp) k hk'
    rw [← her, alookup_aerase ok, hne] at this
    simpa using this

/-- C07: `a == b` holds iff both have the same keys bound to equal values, if `a` is a large table or `b` a
small one; see the refutation for the other case. -/
theorem C07_eq_partial (ok : W.Ok) {veq : V → V → Bool} {a b : DictObj K V} {la lb : List (K × V)} (ha : Good W a la) (hb : Good W b lb)
    (hsz : ∀ ta tb, a.table = some ta → b.table = some tb → ta.size ≠ 4 ∨ tb.size = 4) :
    ∃ r, eq W veq a b = .ok r ∧ (r = true ↔ SameMap W.eq veq la lb) := by
  have hna := ha.1.num
  have hnb := hb.1.num
  unfold eq
  by_cases hn : a.num = b.num
  · rw [show (decide (a.num ≠ b.num)) = false by simp [hn]]
    obtain ⟨r, e, hr⟩ := dictrel_spec (veq := veq) ok ha hb hsz
    refine ⟨r, e, ?_⟩
    rw [hr]
    constructor
    · intro h
      refine ⟨h, same_keys ok la lb ha.1.distinct hb.1.distinct (by omega) ?_⟩
      intro p hp
      obtain ⟨v', h1, -⟩ := h _ _ (mem_alookup ok ha.1.distinct hp)
      rw [h1]; rfl
    · exact fun h => h.1
  · refine ⟨false, by unfold dictrel; simp [hn], ?_⟩
    constructor
    · intro h; simp at h
    · rintro ⟨h1, h2⟩
      exfalso
      -- inclusion both ways would give equal lengths
      have len : ∀ (la lb : List (K × V)), Distinct W.eq la → Distinct W.eq lb →
          (∀ p ∈ la, (alookup W.eq lb p.1).isSome) → la.length ≤ lb.length := by
        intro la
        induction la with
        | nil => intro lb _ _ _; simp
        | cons p la ih =>
          intro lb hda hdb hsub
          obtain ⟨k, v⟩ := p
          unfold Distinct at hda
          rw [List.pairwise_cons] at hda
          obtain ⟨v', hv'⟩ := Option.isSome_iff_exists.1 (hsub (k, v) (by simp))
          obtain ⟨a', hm, hea⟩ := alookup_mem (W := W) hv'
          simp only at hea
          obtain ⟨A, B, rfl⟩ := List.append_of_mem hm
          have hmid := hdb.mid ok hea
          have her : aerase W.eq (A ++ (a', v') :: B) k = A ++ B := aerase_mid hmid.1 hmid.2 hea
          have := ih (A ++ B) hda.2 (List.Pairwise.sublist (List.Sublist.append_left (List.sublist_cons_self _ _) _) hdb) (by
            intro p hp
            have h1 := hsub p (List.mem_cons_of_mem _ hp)
            rw [← her, alookup_aerase ok, if_neg]
            · exact h1
            · have := ok.symm_false (hda.1 p hp)
              simp only at this
              rw [this]; simp)
          simp at this ⊢; omega
      have l1 := len la lb ha.1.distinct hb.1.distinct (by
        intro p hp
        obtain ⟨v', h, -⟩ := h1 _ _ (mem_alookup ok ha.1.distinct hp)
        rw [h]; rfl)
      have l2 := len lb la hb.1.distinct ha.1.distinct (by
        intro p hp
        by_contra hc
        have := h2 p.1 (by simpa using hc)
        rw [mem_alookup ok hb.1.distinct hp] at this
        simp at this)
      omega

/-- C07: `a < b` is the inclusion of `a` in the larger `b`, `a <= b` inclusion; same restriction. -/
theorem C07_lt_partial (ok : W.Ok) {veq : V → V → Bool} {a b : DictObj K V} {la lb : List (K × V)} (ha : Good W a la) (hb : Good W b lb)
    (hsz : ∀ ta tb, a.table = some ta → b.table = some tb → ta.size ≠ 4 ∨ tb.size = 4) :
    (∃ r, lt W veq a b = .ok r ∧ (r = true ↔ la.length < lb.length ∧ SubMap W.eq veq la lb)) ∧
    (∃ r, le W veq a b = .ok r ∧ (r = true ↔ la.length ≤ lb.length ∧ SubMap W.eq veq la lb)) := by
  have hna := ha.1.num
  have hnb := hb.1.num
  obtain ⟨r, e, hr⟩ := dictrel_spec (veq := veq) ok ha hb hsz
  constructor
  · unfold lt
    by_cases hn : a.num ≥ b.num
    · refine ⟨false, by unfold dictrel; simp [hn], ?_⟩
      constructor
      · intro h; simp at h
      · intro h; omega
    · rw [show (decide (a.num ≥ b.num)) = false from decide_eq_false hn]
      exact ⟨r, e, by rw [hr]; exact ⟨fun h => ⟨by omega, h⟩, fun h => h.2⟩⟩
  · unfold le
    by_cases hn : a.num > b.num
    · refine ⟨false, by unfold dictrel; simp [hn], ?_⟩
      constructor
      · intro h; simp at h
      · intro h; omega
    · rw [show (decide (a.num > b.num)) = false from decide_eq_false hn]
      exact ⟨r, e, by rw [hr]; exact ⟨fun h => ⟨by omega, h⟩, fun h => h.2⟩⟩

/-- `==` is not symmetric: `a = {1:10, 2:20}` and `b` the same after an insertion and deletion of a third
key. The table of `b` is large, and the hash 0 calculated for the small `a` is used to search it. -/
theorem C07_refuted_symmetric : ∃ a b : DictObj Nat Nat,
    run natW empty [.set 1 10, .set 2 20] = .ok a ∧
    run natW empty [.set 1 10, .set 2 20, .set 3 30, .pop 3] = .ok b ∧
    items a = items b ∧
    eq natW (· == ·) a b = .ok false ∧ eq natW (· == ·) b a = .ok true := by
  refine ⟨⟨2, some ⟨4, 0, 2, [0, 1, -1, -1], [⟨0, 1, some 10⟩, ⟨0, 2, some 20⟩]⟩⟩,
    ⟨2, some ⟨8, 2, 3, [-1, 0, 1, -2, -1, -1, -1, -1], [⟨1, 1, some 10⟩, ⟨2, 2, some 20⟩, ⟨3, 3, none⟩]⟩⟩, ?_, ?_, ?_, ?_, ?_⟩ <;>
  decide +kernel

/-- `a > a` holds for the empty dict (and every other one), while `a < a` does not. -/
theorem C07_refuted_gt : gt natW (fun a b : Nat => a == b) empty empty = .ok true ∧
    lt natW (fun a b : Nat => a == b) empty empty = .ok false := by
  constructor <;> decide +kernel

/-- `a >= a` does not hold. -/
theorem C07_refuted_ge : ge natW (fun a b : Nat => a == b) empty empty = .ok false := by decide +kernel

/-! ## C37 -/

/-- What `__serialize__` writes, dict.c:285-306: four words, the index array, the entries with number
below `tb_nentries` (as `long`). The null table of a fresh dict is dereferenced; a deleted entry's value is
the pointer 1, which `$step_serialize` (serialize.c:87-89) dereferences. -/
structure Blob (K V : Type) where
  num : Int
  size : Nat
  usable : Int
  nentries : Int
  indices : List Int
  entries : List (Nat × K × V)
  deriving DecidableEq

/-- dict.c:300-305. -/
def writeEntries : List (Entry K V) → Nat → Res (List (Nat × K × V))
  | _, 0 => .ok []
  | [], _ + 1 => .ub
  | e :: es, n + 1 =>
    match e.value with
    | none => .ub
    | some v => do
      let r ← writeEntries es n
      return (e.hash, e.key, v) :: r

/-- dict.c:285-306. -/
def serialize (d : DictObj K V) : Res (Blob K V) :=
  match d.table with
  | none => .ub
  | some t => do
    let es ← writeEntries t.entries t.nentries.toNat
    return ⟨d.num, t.size, t.usable, t.nentries, t.indices, es⟩

/-- dict.c:308-334; keys and values are taken as transmitted faithfully. -/
def deserialize (b : Blob K V) : DictObj K V :=
  ⟨b.num, some ⟨b.size, b.usable, b.nentries, b.indices, b.entries.map (fun e => ⟨e.1, e.2.1, some e.2.2⟩)⟩⟩

theorem writeEntries_spec : ∀ es : List (Entry K V), (∀ e ∈ es, e.value.isSome) →
    ∃ r, writeEntries es es.length = .ok r ∧ r.map (fun e => (⟨e.1, e.2.1, some e.2.2⟩ : Entry K V)) = es := by
  intro es
  induction es with
  | nil => intro _; exact ⟨[], rfl, rfl⟩
  | cons e es ih =>
    intro h
    obtain ⟨r, e1, e2⟩ := ih (fun x hx => h x (List.mem_cons_of_mem _ hx))
    obtain ⟨v, hv⟩ := Option.isSome_iff_exists.1 (h e (by simp))
    rw [List.length_cons]
    unfold writeEntries
    rw [hv]
    simp only
    rw [e1, Res.ok_bind]
    refine ⟨(e.hash, e.key, v) :: r, rfl, ?_⟩
    rw [List.map_cons, e2]
    simp only [List.cons.injEq, and_true]
    rw [← hv]

/-- C37: a dict that has been assigned to and has no deleted entries survives serialization unchanged. -/
theorem C37_roundtrip_partial {d : DictObj K V} {l : List (K × V)} (h : Good W d l) {t : Table K V} (ht : d.table = some t)
    (hn : t.entries.length = l.length) (hnl : t.nentries = t.entries.length) :
    ∃ b, serialize d = .ok b ∧ deserialize b = d := by
  obtain ⟨hsl, hlive⟩ := h.1.some t ht
  have hall : ∀ e ∈ t.entries, e.value.isSome := by
    intro e he
    by_contra hc
    have h1 := filter_length t.entries
    rw [hlive] at h1
    have : (t.entries.filter (fun e => e.value.isSome)).length < t.entries.length :=
      List.length_filter_lt_length_iff_exists.2 ⟨e, he, by simpa using hc⟩
    omega
  obtain ⟨r, e1, e2⟩ := writeEntries_spec t.entries hall
  unfold serialize
  rw [ht]
  simp only
  rw [hnl, Int.toNat_natCast, e1, Res.ok_bind]
  refine ⟨_, rfl, ?_⟩
  unfold deserialize
  simp only
  rw [e2]
  cases d
  simp only at ht
  subst ht
  simp only [DictObj.mk.injEq, Option.some.injEq, true_and]
  rw [← hnl]

/-- A fresh empty dict cannot be serialized (null dereference), nor can one with a deleted entry; and a dict
whose `tb_nentries` was hit by the write to `tb_indices[-1]` is written without its bindings. -/
theorem C37_refuted :
    serialize (empty : DictObj Nat Nat) = .ub ∧
    (run natW empty [.set 1 10, .set 2 20, .pop 1] >>= serialize : Res (Blob Nat Nat)) = .ub ∧
    (run natW empty [.set 1 10, .set 2 20, .pop 1, .set 3 30, .pop 2] >>= serialize : Res (Blob Nat Nat)) =
      .ok ⟨1, 4, 0, 2 - 2 ^ 33, [-1, 1, -1, -1], []⟩ := by
  refine ⟨rfl, ?_, ?_⟩ <;> decide +kernel

/-- The hypotheses of `C37_roundtrip_partial` are met after two assignments. -/
example : ∃ (d : DictObj Nat Nat) (t : Table Nat Nat) (l : List (Nat × Nat)), Good natW d l ∧ d.table = some t ∧
    t.entries.length = l.length ∧ t.nentries = t.entries.length := by
  obtain ⟨d, e, h⟩ := run_spec natW_ok [.set 1 10, .set 2 20] empty [] good_empty (by decide)
  have : d = ⟨2, some ⟨4, 0, 2, [0, 1, -1, -1], [⟨0, 1, some 10⟩, ⟨0, 2, some 20⟩]⟩⟩ := by
    have h2 : run natW (empty : DictObj Nat Nat) [.set 1 10, .set 2 20] =
        .ok ⟨2, some ⟨4, 0, 2, [0, 1, -1, -1], [⟨0, 1, some 10⟩, ⟨0, 2, some 20⟩]⟩⟩ := by decide +kernel
    rw [e] at h2
    exact Res.ok.inj h2
  subst this
  exact ⟨_, _, _, h, rfl, by decide, by decide⟩

/-- Small tables meet the size hypothesis of the comparison theorems. -/
example : ∀ ta tb : Table Nat Nat, (empty : DictObj Nat Nat).table = some ta → (empty : DictObj Nat Nat).table = some tb →
    ta.size ≠ 4 ∨ tb.size = 4 := by intro _ _ h; simp [empty] at h

end Verif.Dict
