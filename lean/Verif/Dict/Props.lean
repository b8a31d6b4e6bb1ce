import Verif.Dict.Ops
/-!
# C06: a dict is an insertion-ordered finite map
-/
namespace Verif.Dict
open Verif
set_option linter.unusedSectionVars false
variable {K V : Type} {W : HashW K} [DecidableEq K]

/-- A call that changes the dict; its result is dropped. -/
def step (W : HashW K) (d : DictObj K V) : Op K V → Res (DictObj K V)
  | .set k v => setitem W d k v
  | .pop k => do
    let r ← pop W d k
    return r.2
  | .popitem => do
    let r ← popitem W d
    return r.2
  | .setdefault k v => do
    let r ← setdefault W d k v
    return r.2

/-- A history of calls. -/
def run (W : HashW K) (d : DictObj K V) : List (Op K V) → Res (DictObj K V)
  | [] => .ok d
  | o :: os => do
    let d ← step W d o
    run W d os

theorem good_empty : Good W (empty : DictObj K V) [] := by
  refine ⟨⟨rfl, List.Pairwise.nil, fun _ => rfl, fun t ht => ?_⟩, fun t ht => ?_⟩ <;> simp [empty] at ht

theorem setitem_spec (ok : W.Ok) {d : DictObj K V} {l : List (K × V)} (h : Good W d l) (hl : l.length < 2 ^ 28) (k : K) (v : V) :
    ∃ d', setitem W d k v = .ok d' ∧ Good W d' (aset W.eq l k v) :=
  insertdict_spec ok h hl k v _ (tableHash_ok h.1 k)

/-- `pop`, `__delitem__`: returns the bound value and removes the binding. -/
theorem pop_spec (ok : W.Ok) {d : DictObj K V} {l : List (K × V)} (h : Good W d l) (hl : l.length < 2 ^ 28) (k : K) :
    ∃ d', pop W d k = .ok (alookup W.eq l k, d') ∧ Good W d' (aerase W.eq l k) := by
  have hnum := h.1.num
  have emp : l = [] → pop W d k = .ok (none, d) → ∃ d', pop W d k = .ok (alookup W.eq l k, d') ∧ Good W d' (aerase W.eq l k) := by
    intro he e
    subst he
    exact ⟨d, e, h⟩
  by_cases h0 : d.num = 0
  · exact emp (List.length_eq_zero_iff.1 (by omega)) (by unfold pop; rw [if_pos h0])
  unfold pop
  rw [if_neg h0]
  cases ht : d.table with
  | none => rw [h.1.none ht] at hnum; simp at hnum; omega
  | some t =>
    obtain ⟨r, e, hf, hr⟩ := lookup_spec ok h.1 ht k
    simp only
    rw [e, Res.ok_bind, ← hr]
    cases r with
    | none =>
      refine ⟨d, rfl, ?_⟩
      rw [aerase_none (alookup_none_iff.1 hr.symm)]
      exact h
    | some q =>
      obtain ⟨ix, v⟩ := q
      obtain ⟨d', e', h'⟩ := removeAt_spec ok h hl ht hf
      simp only
      rw [e', Res.ok_bind]
      exact ⟨d', rfl, h'⟩

theorem setdefault_spec (ok : W.Ok) {d : DictObj K V} {l : List (K × V)} (h : Good W d l) (hl : l.length < 2 ^ 28) (k : K) (v : V) :
    ∃ d', setdefault W d k v = .ok ((alookup W.eq l k).getD v, d') ∧
      Good W d' (if (alookup W.eq l k).isSome then l else aset W.eq l k v) := by
  unfold setdefault
  have hins : ∃ d', insertdict W d (W.hash k) k v = .ok d' ∧ Good W d' (aset W.eq l k v) :=
    insertdict_spec ok h hl k v _ (fun _ _ _ => rfl)
  cases ht : d.table with
  | none =>
    have := h.1.none ht
    subst this
    obtain ⟨d', e, h'⟩ := hins
    show ∃ d', (insertdict W d (W.hash k) k v >>= fun d => Res.ok (v, d)) = _ ∧ _
    rw [e]
    exact ⟨d', rfl, h'⟩
  | some t =>
    obtain ⟨r, e, hf⟩ := lookdict_spec ok (h.1.some t ht).1 k (W.hash k) (fun _ => rfl)
    have hr := found_lookup ok h.1 ht hf
    rw [e, Res.ok_bind, ← hr]
    cases r with
    | none =>
      obtain ⟨d', e, h'⟩ := hins
      simp only
      rw [e, Res.ok_bind]
      exact ⟨d', rfl, h'⟩
    | some q =>
      obtain ⟨ix, w⟩ := q
      exact ⟨d, rfl, h⟩

/-- C06: one call. The returned values of `pop` and `setdefault` are those of the finite map. -/
theorem C06_step (ok : W.Ok) {d : DictObj K V} {l : List (K × V)} (h : Good W d l) (hl : l.length < 2 ^ 28) (o : Op K V) :
    ∃ d', step W d o = .ok d' ∧ Good W d' (specStep W.eq l o) := by
  cases o with
  | set k v => exact setitem_spec ok h hl k v
  | pop k =>
    obtain ⟨d', e, h'⟩ := pop_spec ok h hl k
    exact ⟨d', by unfold step; simp only; rw [e]; rfl, h'⟩
  | popitem =>
    obtain ⟨d', e, h'⟩ := popitem_spec ok h
    exact ⟨d', by unfold step; simp only; rw [e]; rfl, h'⟩
  | setdefault k v =>
    obtain ⟨d', e, h'⟩ := setdefault_spec ok h hl k v
    exact ⟨d', by unfold step; simp only; rw [e]; rfl, h'⟩

theorem aset_length (eq : K → K → Bool) (l : List (K × V)) (k : K) (v : V) : (aset eq l k v).length ≤ l.length + 1 := by
  induction l with
  | nil => simp [aset]
  | cons p l ih =>
    obtain ⟨a, b⟩ := p
    unfold aset
    split <;> simp only [List.length_cons] <;> omega

theorem specStep_length (eq : K → K → Bool) (l : List (K × V)) (o : Op K V) : (specStep eq l o).length ≤ l.length + 1 := by
  cases o with
  | set k v => exact aset_length eq l k v
  | pop k => exact Nat.le_succ_of_le (List.length_filter_le _ _)
  | popitem => simp only [specStep, List.length_dropLast]; omega
  | setdefault k v =>
    simp only [specStep]
    split
    · omega
    · exact aset_length eq l k v

theorem run_spec (ok : W.Ok) : ∀ (os : List (Op K V)) (d : DictObj K V) (l : List (K × V)), Good W d l →
    l.length + os.length < 2 ^ 28 → ∃ d', run W d os = .ok d' ∧ Good W d' (os.foldl (specStep W.eq) l) := by
  intro os
  induction os with
  | nil => intro d l h _; exact ⟨d, rfl, h⟩
  | cons o os ih =>
    intro d l h hl
    rw [List.length_cons] at hl
    obtain ⟨d1, e1, h1⟩ := C06_step ok h (by omega) o
    have := specStep_length W.eq l o
    obtain ⟨d2, e2, h2⟩ := ih d1 _ h1 (by omega)
    exact ⟨d2, by unfold run; rw [e1, Res.ok_bind, e2], h2⟩

/-- C06: what can be observed of a dict that represents `l`. -/
theorem C06_observe (ok : W.Ok) {d : DictObj K V} {l : List (K × V)} (h : Good W d l) :
    (∀ k, getitem W d k = match alookup W.eq l k with | some v => .ok v | none => .raise .keyError) ∧
    (∀ k, get W d k = .ok (alookup W.eq l k)) ∧
    (∀ k, contains W d k = .ok (alookup W.eq l k).isSome) ∧
    len d = l.length ∧ items d = .ok l ∧ Distinct W.eq l := by
  have hnum := h.1.num
  refine ⟨?_, ?_, ?_, hnum, ?_, h.1.distinct⟩
  · intro k
    unfold getitem
    by_cases h0 : d.num = 0
    · have : l = [] := List.length_eq_zero_iff.1 (by omega)
      subst this
      rw [if_pos h0]; rfl
    rw [if_neg h0]
    cases ht : d.table with
    | none => rw [h.1.none ht] at hnum; simp at hnum; omega
    | some t =>
      obtain ⟨r, e, hf, hr⟩ := lookup_spec ok h.1 ht k
      simp only
      rw [e, Res.ok_bind, ← hr]
      cases r <;> rfl
  · intro k
    unfold get
    cases ht : d.table with
    | none => rw [h.1.none ht]; rfl
    | some t =>
      obtain ⟨r, e, hf, hr⟩ := lookup_spec ok h.1 ht k
      simp only
      rw [e, Res.ok_bind, ← hr]; rfl
  · intro k
    unfold contains
    by_cases h0 : d.num = 0
    · have : l = [] := List.length_eq_zero_iff.1 (by omega)
      subst this
      rw [if_pos h0]; rfl
    rw [if_neg h0]
    cases ht : d.table with
    | none => rw [h.1.none ht] at hnum; simp at hnum; omega
    | some t =>
      obtain ⟨r, e, hf, hr⟩ := lookup_spec ok h.1 ht k
      simp only
      rw [e, Res.ok_bind, ← hr]
      cases r <;> rfl
  · unfold items
    cases ht : d.table with
    | none => rw [h.1.none ht]
    | some t =>
      obtain ⟨hsl, hlive⟩ := h.1.some t ht
      have hlow : wrap32 t.nentries = t.entries.length := by
        rcases hsl with s | g
        · exact s.low
        · have h1 := g.cap
          have h2 := g.nonneg
          have h3 := g.small
          rw [g.low, wrap32_of_in (by unfold InI32; omega)]
      simp only
      rw [hlow, Int.toNat_natCast, itemsLoop_spec (t := t) _ 0 (by omega), List.drop_zero, hlive]

/-- C06: after every history of fewer than 2^28 calls (so that every table index fits in an
`int`), for every consistent equality and hash, the dict shows the bindings of the finite map:
lookup, membership, length and iteration order. No call fails, diverges, or leaves its memory
(but see `C06_refuted_array_bounds`). -/
theorem C06_history (ok : W.Ok) (os : List (Op K V)) (hlen : os.length < 2 ^ 28) :
    ∃ d, run W empty os = .ok d ∧
      let l := os.foldl (specStep W.eq) []
      (∀ k, getitem W d k = match alookup W.eq l k with | some v => .ok v | none => .raise .keyError) ∧
      (∀ k, get W d k = .ok (alookup W.eq l k)) ∧
      (∀ k, contains W d k = .ok (alookup W.eq l k).isSome) ∧
      len d = l.length ∧ items d = .ok l ∧ Distinct W.eq l := by
  obtain ⟨d, e, h⟩ := run_spec ok os empty [] good_empty (by simpa using hlen)
  exact ⟨d, e, C06_observe ok h⟩

/-- C06: the results of the changing calls after every history. -/
theorem C06_results (ok : W.Ok) (os : List (Op K V)) (hlen : os.length < 2 ^ 28) :
    ∃ d, run W empty os = .ok d ∧
      let l := os.foldl (specStep W.eq) []
      (∀ k, ∃ d', pop W d k = .ok (alookup W.eq l k, d')) ∧
      (∀ k v, ∃ d', setdefault W d k v = .ok ((alookup W.eq l k).getD v, d')) ∧
      (∃ d', popitem W d = .ok (l.getLast?, d')) := by
  obtain ⟨d, e, h⟩ := run_spec ok os empty [] good_empty (by simpa using hlen)
  have hl : (os.foldl (specStep W.eq) []).length < 2 ^ 28 := by
    have : ∀ (os : List (Op K V)) (l : List (K × V)), (os.foldl (specStep W.eq) l).length ≤ l.length + os.length := by
      intro os
      induction os with
      | nil => intro l; simp
      | cons o os ih =>
        intro l
        have h1 := ih (specStep W.eq l o)
        have h2 := specStep_length W.eq l o
        rw [List.foldl_cons, List.length_cons]
        omega
    have := this os []
    simp at this
    omega
  refine ⟨d, e, ?_, ?_, ?_⟩
  · intro k; obtain ⟨d', e', -⟩ := pop_spec ok h hl k; exact ⟨d', e'⟩
  · intro k v; obtain ⟨d', e', -⟩ := setdefault_spec ok h hl k v; exact ⟨d', e'⟩
  · obtain ⟨d', e', -⟩ := popitem_spec ok h; exact ⟨d', e'⟩

/-! The finite-map operations themselves satisfy the usual laws. -/

theorem alookup_aset (ok : W.Ok) (l : List (K × V)) (k k' : K) (v : V) :
    alookup W.eq (aset W.eq l k v) k' = if W.eq k' k then some v else alookup W.eq l k' := by
  induction l with
  | nil => rfl
  | cons p l ih =>
    obtain ⟨a, b⟩ := p
    unfold aset
    cases h : W.eq k a with
    | true =>
      rw [if_pos rfl]
      unfold alookup
      cases h' : W.eq k' a with
      | true => rw [ok.trans _ _ _ h' (ok.symm _ _ h)]; rfl
      | false =>
        have : W.eq k' k = false := by
          cases e : W.eq k' k with
          | false => rfl
          | true => rw [ok.trans _ _ _ e h] at h'; exact absurd h' (by simp)
        rw [this]; rfl
    | false =>
      rw [if_neg (by simp)]
      unfold alookup
      rw [ih]
      cases h' : W.eq k' a with
      | false => rfl
      | true =>
        have : W.eq k' k = false := by
          cases e : W.eq k' k with
          | false => rfl
          | true => rw [ok.trans _ _ _ (ok.symm _ _ e) h'] at h; exact absurd h (by simp)
        rw [this]; rfl

theorem alookup_aerase (ok : W.Ok) (l : List (K × V)) (k k' : K) :
    alookup W.eq (aerase W.eq l k) k' = if W.eq k' k then none else alookup W.eq l k' := by
  induction l with
  | nil => unfold aerase; simp [alookup]
  | cons p l ih =>
    obtain ⟨a, b⟩ := p
    unfold aerase at ih ⊢
    rw [List.filter_cons]
    cases h : W.eq k a with
    | true =>
      simp only [Bool.not_true, Bool.false_eq_true, if_false]
      rw [ih]
      cases h' : W.eq k' k with
      | true => rfl
      | false =>
        have : W.eq k' a = false := by
          cases e : W.eq k' a with
          | false => rfl
          | true => rw [ok.trans _ _ _ e (ok.symm _ _ h)] at h'; exact absurd h' (by simp)
        rw [if_neg (by simp), if_neg (by simp)]
        conv_rhs => unfold alookup
        rw [this]; rfl
    | false =>
      simp only [Bool.not_false, if_true]
      unfold alookup
      rw [ih]
      cases h' : W.eq k' a with
      | false => rfl
      | true =>
        have : W.eq k' k = false := by
          cases e : W.eq k' k with
          | false => rfl
          | true => rw [ok.trans _ _ _ (ok.symm _ _ e) h'] at h; exact absurd h (by simp)
        rw [this]; rfl

/-- Keys for the examples: numbers with themselves as hash. -/
def natW : HashW Nat := ⟨fun a b => a == b, fun a => a % 2 ^ 64⟩

theorem natW_ok : natW.Ok := by
  refine ⟨?_, ?_, ?_, ?_, ?_⟩
  · intro a; simp [natW]
  · intro a b h; simp [natW] at h ⊢; exact h.symm
  · intro a b c h h'; simp [natW] at h h' ⊢; exact h.trans h'
  · intro a b h; simp [natW] at h ⊢; rw [h]
  · intro a; exact Nat.mod_lt _ (by norm_num)

/-- Keys that all collide. -/
def collideW : HashW Nat := ⟨fun a b => a == b, fun _ => 7⟩

theorem collideW_ok : collideW.Ok := by
  refine ⟨?_, ?_, ?_, ?_, ?_⟩
  · intro a; simp [collideW]
  · intro a b h; simp [collideW] at h ⊢; exact h.symm
  · intro a b c h h'; simp [collideW] at h h' ⊢; exact h.trans h'
  · intro a b h; rfl
  · intro a; simp [collideW]

example : ((run collideW empty [.set 1 10, .set 2 20, .set 3 30, .pop 2, .set 4 40] : Res (DictObj Nat Nat)) >>= items) =
    .ok [(1, 10), (3, 30), (4, 40)] := by decide +kernel

/-- `{1:_, 2:_}`; delete 1; assign 3; delete 2. The rebuilt small table has no index, so the
deletion writes `DKIX_DUMMY` to `tb_indices[-1]`: the upper half of `tb_nentries` (dict.c:800-801,
536-537). The dict still shows the right bindings, but `tb_nentries` is 2 - 2^33. -/
theorem C06_refuted_array_bounds :
    ∃ d t, run natW empty [.set 1 10, .set 2 20, .pop 1, .set 3 30, .pop 2] = .ok d ∧ d.table = some t ∧
      t.nentries = 2 - 2 ^ 33 ∧ (items d : Res (List (Nat × Nat))) = .ok [(3, 30)] := by
  refine ⟨⟨1, some ⟨4, 0, 2 - 2 ^ 33, [-1, 1, -1, -1], [⟨0, 2, none⟩, ⟨0, 3, some 30⟩]⟩⟩, _, ?_, rfl, rfl, ?_⟩ <;>
  decide +kernel

end Verif.Dict
