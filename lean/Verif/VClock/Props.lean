import Verif.VClock.Lemmas
import Mathlib.Tactic.ByContra
/-!
# C23, C24: vector clock comparison and merge

C23, full statement: `∀ a b, WF a → WF b → CmpSpec a b (compare (some a) (some b))`.
It is false when the two clocks do not cover the same nodes
(`C23_refuted_*`): the code answers "incomparable" whenever the node sets differ.

C24, full statement: for well-formed clocks `update a b` is the least upper bound.
It is false for 64-bit counters of nodes that are new to `a` (`C24_refuted_truncation`)
and undefined when `a`'s array is full (`C24_refuted_overread`).
-/
namespace Verif.VClock
open Verif

theorem compare_some (a b : VC) : compare (some a) (some b) =
    if a.ids.length ≠ b.ids.length then .incomparable else compareLoop a.ids b.ids false false := rfl

/-- C23, partial: on clocks over the same nodes, the answer is exactly the causal order.
Missing: clocks over different nodes, see `C23_refuted_equal`, `C23_refuted_before`. -/
theorem C23_compare_partial (a b : VC) (ha : WF a) (hb : WF b) (hsame : ∀ n, Has a n ↔ Has b n) :
    CmpSpec a b (compare (some a) (some b)) := by
  have hk : a.ids.map (·.1) = b.ids.map (·.1) := by
    apply sorted_ext (r := fun x y : Int => x < y) (fun _ => Int.lt_irrefl _) (fun _ _ h => by omega)
    · exact List.pairwise_map.2 ha.sorted
    · exact List.pairwise_map.2 hb.sorted
    · intro n
      have := hsame n
      unfold Has at this
      simpa using this
  have hlen : a.ids.length = b.ids.length := by
    have := congrArg List.length hk; simpa using this
  obtain ⟨f, s, h1, h2, h3⟩ := compareLoop_spec a.ids b.ids false false hk
  rw [compare_some]
  rw [if_neg (by omega), h3]
  rw [bigger_comp _ _ hk ha.sorted] at h1
  rw [bigger_comp _ _ hk.symm hb.sorted] at h2
  have l1 : Le a b ↔ f = false := by
    unfold Le
    constructor
    · intro h
      cases hf : f with
      | false => rfl
      | true =>
        rcases h1.1 hf with h' | ⟨n, hn⟩
        · cases h'
        · have := h n; rw [comp_look, comp_look] at this; omega
    · intro hf n
      by_contra hc
      have : f = true := h1.2 (Or.inr ⟨n, by rw [comp_look, comp_look] at hc; omega⟩)
      rw [hf] at this; cases this
  have l2 : Le b a ↔ s = false := by
    unfold Le
    constructor
    · intro h
      cases hf : s with
      | false => rfl
      | true =>
        rcases h2.1 hf with h' | ⟨n, hn⟩
        · cases h'
        · have := h n; rw [comp_look, comp_look] at this; omega
    · intro hf n
      by_contra hc
      have : s = true := h2.2 (Or.inr ⟨n, by rw [comp_look, comp_look] at hc; omega⟩)
      rw [hf] at this; cases this
  unfold CmpSpec
  rw [l1, l2]
  cases f <;> cases s <;> simp

/-- Comparison is antisymmetric, for arbitrary clocks (well-formed or not, null or not). -/
theorem C23_antisymm (a b : Option VC) :
    compare b a = match compare a b with | .before => .after | .after => .before | r => r := by
  cases a with
  | none => cases b <;> rfl
  | some a =>
    cases b with
    | none => rfl
    | some b =>
      rw [compare_some, compare_some]
      by_cases h : a.ids.length = b.ids.length
      · ifs; exact compareLoop_swap a.ids b.ids false false
      · ifs

/-- Comparison is reflexive. -/
theorem C23_refl (a : Option VC) : compare a a = .equal := by
  cases a with
  | none => rfl
  | some a =>
    rw [compare_some]
    rw [if_neg (by simp)]
    obtain ⟨f, s, h1, h2, h3⟩ := compareLoop_spec a.ids a.ids false false rfl
    have hn : ¬ Bigger a.ids a.ids := by
      rintro ⟨p, hp, hgt⟩
      have : ∀ l : List (Int × Int), ∀ p ∈ l.zip l, p.1 = p.2 := by
        intro l; induction l with
        | nil => simp
        | cons x t ih => intro p hp; simp only [List.zip_cons_cons, List.mem_cons] at hp
                         rcases hp with rfl | hp
                         · rfl
                         · exact ih p hp
      rw [this _ p hp] at hgt; omega
    have hf : f = false := by cases f with
      | false => rfl
      | true => simp [hn] at h1
    have hs : s = false := by cases s with
      | false => rfl
      | true => simp [hn] at h2
    rw [h3, hf, hs]; rfl

theorem noBigger_trans : ∀ (a b c : List (Int × Int)), a.length = b.length → b.length = c.length →
    ¬ Bigger a b → ¬ Bigger b c → ¬ Bigger a c ∧ (Bigger b a ∨ Bigger c b → Bigger c a) := by
  intro a
  induction a with
  | nil => intro b c h1 h2 _ _; have : b = [] := by simpa using h1.symm
           subst this; have : c = [] := by simpa using h2.symm
           subst this; simp [Bigger]
  | cons x a ih =>
    intro b c h1 h2 h3 h4
    cases b with
    | nil => simp at h1
    | cons y b =>
      cases c with
      | nil => simp at h2
      | cons z c =>
        have hB : ∀ (e1 e2 : Int × Int) a b, Bigger (e1 :: a) (e2 :: b) ↔ e1.2 > e2.2 ∨ Bigger a b := by
          intros; simp [Bigger]
        rw [hB, not_or] at h3 h4
        simp only [List.length_cons, Nat.add_right_cancel_iff] at h1 h2
        have := ih b c h1 h2 h3.2 h4.2
        refine ⟨?_, ?_⟩
        · rw [hB, not_or]; exact ⟨by omega, this.1⟩
        · simp only [hB]
          rintro ((h | h) | (h | h))
          · left; omega
          · right; exact this.2 (Or.inl h)
          · left; omega
          · right; exact this.2 (Or.inr h)

/-- "before" is transitive, for arbitrary clocks. -/
theorem C23_trans (a b c : VC) (h1 : compare (some a) (some b) = .before)
    (h2 : compare (some b) (some c) = .before) : compare (some a) (some c) = .before := by
  have key : ∀ x y : VC, compare (some x) (some y) = .before ↔
      x.ids.map (·.1) = y.ids.map (·.1) ∧ ¬ Bigger x.ids y.ids ∧ Bigger y.ids x.ids := by
    intro x y
    rw [compare_some]
    by_cases hl : x.ids.length = y.ids.length
    · rw [if_neg (by omega)]
      constructor
      · intro h
        have hk := compareLoop_ids x.ids y.ids false false hl (by rw [h]; simp)
        obtain ⟨f, s, p1, p2, p3⟩ := compareLoop_spec x.ids y.ids false false hk
        rw [p3] at h
        refine ⟨hk, ?_⟩
        cases f <;> cases s <;> simp at h p1 p2 ⊢
        exact ⟨p1, p2⟩
      · rintro ⟨hk, h1, h2⟩
        obtain ⟨f, s, p1, p2, p3⟩ := compareLoop_spec x.ids y.ids false false hk
        rw [p3]
        have hf : f = false := by cases f with
          | false => rfl
          | true => simp [h1] at p1
        have hs : s = true := p2.2 (Or.inr h2)
        rw [hf, hs]; rfl
    · rw [if_pos hl]
      constructor
      · intro h; cases h
      · rintro ⟨hk, -⟩; have := congrArg List.length hk; simp at this; exact absurd this hl
  rw [key] at *
  have hl1 := congrArg List.length h1.1
  have hl2 := congrArg List.length h2.1
  simp only [List.length_map] at hl1 hl2
  have := noBigger_trans a.ids b.ids c.ids hl1 hl2 h1.2.1 h2.2.1
  exact ⟨h1.1.trans h2.1, this.1, this.2 (Or.inl h1.2.2)⟩

/-- Clocks with the same meaning but different node sets are not reported equal. -/
theorem C23_refuted_equal :
    ∃ a b : VC, WF a ∧ WF b ∧ (Le a b ∧ Le b a) ∧ compare (some a) (some b) = .incomparable := by
  refine ⟨⟨[(1, 5)], 16⟩, ⟨[(1, 5), (2, 0)], 16⟩, ⟨by simp, by simp, by decide⟩,
    ⟨by simp, by simp, by decide⟩, ⟨?_, ?_⟩, rfl⟩
  · intro n; simp only [comp_look, look_cons, look_nil]; split <;> (try split) <;> simp
  · intro n; simp only [comp_look, look_cons, look_nil]; split <;> (try split) <;> simp

/-- A clock that is causally before another one is reported incomparable when the other
knows one more node. -/
theorem C23_refuted_before :
    ∃ a b : VC, WF a ∧ WF b ∧ (Le a b ∧ ¬ Le b a) ∧ compare (some a) (some b) = .incomparable := by
  refine ⟨⟨[(1, 5)], 16⟩, ⟨[(1, 6), (2, 1)], 16⟩, ⟨by simp, by simp, by decide⟩,
    ⟨by simp, by simp, by decide⟩, ⟨?_, ?_⟩, rfl⟩
  · intro n; simp only [comp_look, look_cons, look_nil]; split <;> (try split) <;> simp
  · intro h; have := h 1; revert this; decide

/-- Hypotheses of `C23_compare_partial` are met by concurrent clocks. -/
example : compare (some ⟨[(1, 5), (7, 2)], 16⟩) (some ⟨[(1, 4), (7, 3)], 16⟩) = .disjoint := by decide
example : WF ⟨[(1, 5), (7, 2)], 16⟩ := ⟨by simp, by simp, by decide⟩

/-- Conditions under which the merge is covered: room in the array for all new
components, and counters of new components below 2^31. -/
def MergeOk (a b : VC) : Prop :=
  a.ids.length + b.ids.length ≤ a.cap ∧ ∀ n, ¬ Has a n → comp b n < 2^31

/-- C24, partial: merging yields the component-wise maximum, well-formed again.
Missing: see `C24_refuted_truncation` and `C24_refuted_overread`. -/
theorem C24_update_partial (a b : VC) (ha : WF a) (hb : WF b) (hm : MergeOk a b) :
    ∃ r, update a b.ids = .ok r ∧ WF r ∧ ∀ n, comp r n = max (comp a n) (comp b n) := by
  have hbig : ∀ e ∈ b.ids, (∀ x ∈ a.ids, x.1 ≠ e.1) → e.2 < 2^31 := by
    intro e he hn
    have h1 := hm.2 e.1 (by rintro ⟨c, hc⟩; exact hn _ hc rfl)
    have h2 : look b.ids e.1 = some e.2 := (look_mem hb.sorted _ _).2 he
    rw [comp_look, h2] at h1
    simpa using h1
  obtain ⟨cap', -, h2, h3⟩ := update_spec b.ids a ha hm.1 hb.nonneg hb.sorted hbig
  refine ⟨_, h2, h3, ?_⟩
  intro n
  simp only [comp_look]
  rw [look_mergeAll _ _ ha.sorted hb.sorted]
  have hA : ∀ c, look a.ids n = some c → 0 ≤ c := by
    intro c hc; exact (ha.nonneg _ ((look_mem ha.sorted _ _).1 hc)).1
  have hB : ∀ c, look b.ids n = some c → 0 ≤ c := by
    intro c hc; exact (hb.nonneg _ ((look_mem hb.sorted _ _).1 hc)).1
  cases hx : look a.ids n with
  | none =>
    cases hy : look b.ids n with
    | none => rfl
    | some d => have := hB d hy; simp only [omax, Option.getD_some, Option.getD_none]; omega
  | some c =>
    cases hy : look b.ids n with
    | none => have := hA c hx; simp only [omax, Option.getD_some, Option.getD_none]; omega
    | some d => rfl

/-- The merge is an upper bound of both, and below every other upper bound. -/
theorem C24_least_upper_bound_partial (a b : VC) (ha : WF a) (hb : WF b) (hm : MergeOk a b) :
    ∃ r, update a b.ids = .ok r ∧ Le a r ∧ Le b r ∧ ∀ u, Le a u → Le b u → Le r u := by
  obtain ⟨r, h1, -, h3⟩ := C24_update_partial a b ha hb hm
  refine ⟨r, h1, ?_, ?_, ?_⟩
  · intro n; rw [h3]; omega
  · intro n; rw [h3]; omega
  · intro u hu1 hu2 n; rw [h3]; have := hu1 n; have := hu2 n; omega

/-- Merging does not depend on the order (the component arrays are identical). -/
theorem C24_comm_partial (a b : VC) (ha : WF a) (hb : WF b) (hm : MergeOk a b) (hm' : MergeOk b a) :
    ∃ r r', update a b.ids = .ok r ∧ update b a.ids = .ok r' ∧ r.ids = r'.ids := by
  have hbig : ∀ a b : VC, WF b → MergeOk a b → ∀ e ∈ b.ids, (∀ x ∈ a.ids, x.1 ≠ e.1) → e.2 < 2^31 := by
    intro a b hb hm e he hn
    have h1 := hm.2 e.1 (by rintro ⟨c, hc⟩; exact hn _ hc rfl)
    have h2 : look b.ids e.1 = some e.2 := (look_mem hb.sorted _ _).2 he
    rw [comp_look, h2] at h1
    simpa using h1
  obtain ⟨c1, -, h2, h3⟩ := update_spec b.ids a ha hm.1 hb.nonneg hb.sorted (hbig a b hb hm)
  obtain ⟨c2, -, h2', h3'⟩ := update_spec a.ids b hb hm'.1 ha.nonneg ha.sorted (hbig b a ha hm')
  refine ⟨_, _, h2, h2', ?_⟩
  apply sorted_look_ext h3.sorted h3'.sorted
  intro n
  simp only
  rw [look_mergeAll _ _ ha.sorted hb.sorted, look_mergeAll _ _ hb.sorted ha.sorted]
  cases look a.ids n <;> cases look b.ids n <;> simp [omax, Int.max_comm]

/-- Merging a clock into itself changes nothing. -/
theorem C24_idem (a : VC) (ha : WF a) (hroom : 2 * a.ids.length ≤ a.cap) :
    ∃ r, update a a.ids = .ok r ∧ r.ids = a.ids := by
  obtain ⟨c1, -, h2, h3⟩ := update_spec a.ids a ha (by omega) ha.nonneg ha.sorted (by
    intro e he hn; exact absurd rfl (hn e he))
  refine ⟨_, h2, ?_⟩
  apply sorted_look_ext h3.sorted ha.sorted
  intro n
  simp only
  rw [look_mergeAll _ _ ha.sorted ha.sorted]
  cases look a.ids n <;> simp [omax]

/-- Ticking a component increases exactly that component by one (so the clock strictly
increases) and is refused exactly for a missing component. -/
theorem C24_increment (a : VC) (ha : WF a) (n : Int) (hmax : comp a n + 1 < 2^63) :
    (Has a n → ∃ r, increment a n = .ok (some r) ∧ WF r ∧
      comp r n = comp a n + 1 ∧ ∀ m, m ≠ n → comp r m = comp a m) ∧
    (¬ Has a n → increment a n = .ok none) := by
  rcases bsearch_spec ha.sorted n with ⟨k, h, he, hb⟩ | ⟨k, h1, h2, h3, hb⟩
  · refine ⟨fun _ => ?_, fun hn => ?_⟩
    · have hlk : look a.ids n = some a.ids[k].2 := (look_mem ha.sorted _ _).2 (by
        rw [← he]; exact List.getElem_mem h)
      rw [comp_look, hlk, Option.getD_some] at hmax
      unfold increment
      rw [hb, Res.ok_bind]
      simp only [Bool.not_true, Int.toNat_natCast]
      rw [if_neg (by simp), List.getElem?_eq_getElem h]
      simp only
      rw [if_pos hmax]
      have hmem : ∀ x ∈ a.ids.set k (a.ids[k].1, a.ids[k].2 + 1),
          x = (a.ids[k].1, a.ids[k].2 + 1) ∨ x ∈ a.ids := by
        intro x hx; rcases List.mem_or_eq_of_mem_set hx with h | h
        · exact Or.inr h
        · exact Or.inl h
      have hsort : Sorted (a.ids.set k (a.ids[k].1, a.ids[k].2 + 1)) := by
        rw [Sorted, List.pairwise_iff_getElem]
        intro i j hi hj hij
        simp only [List.length_set] at hi hj
        have := List.pairwise_iff_getElem.1 ha.sorted i j hi hj hij
        rw [List.getElem_set, List.getElem_set]
        split <;> split <;> simp_all
      refine ⟨_, rfl, ⟨hsort, ?_, by simpa using ha.cap⟩, ?_, ?_⟩
      · intro x hx
        rcases hmem x hx with rfl | hx
        · have := (ha.nonneg _ (List.getElem_mem h)).1; simp only; omega
        · exact ha.nonneg x hx
      · have : look (a.ids.set k (a.ids[k].1, a.ids[k].2 + 1)) n = some (a.ids[k].2 + 1) :=
          (look_mem hsort _ _).2 (by rw [he]; exact List.mem_set h _)
        simp only [comp_look, hlk, this, Option.getD_some]
      · intro m hm
        simp only [comp_look]
        congr 1
        have hiff : ∀ c, (m, c) ∈ a.ids.set k (a.ids[k].1, a.ids[k].2 + 1) ↔ (m, c) ∈ a.ids := by
          intro c
          rw [List.mem_iff_getElem, List.mem_iff_getElem]
          constructor
          · rintro ⟨i, hi, hg⟩
            simp only [List.length_set] at hi
            rw [List.getElem_set] at hg
            split at hg
            · simp only [Prod.mk.injEq] at hg; omega
            · exact ⟨i, hi, hg⟩
          · rintro ⟨i, hi, hg⟩
            refine ⟨i, by simpa using hi, ?_⟩
            rw [List.getElem_set]
            split
            · rename_i hki; subst hki; rw [hg] at he; simp at he; omega
            · exact hg
        cases hx : look (a.ids.set k (a.ids[k].1, a.ids[k].2 + 1)) m with
        | some c => exact ((look_mem ha.sorted _ _).2 ((hiff c).1 ((look_mem hsort _ _).1 hx))).symm
        | none =>
          cases hy : look a.ids m with
          | none => rfl
          | some c =>
            have := (look_mem hsort _ _).2 ((hiff c).2 ((look_mem ha.sorted _ _).1 hy))
            rw [hx] at this; cases this
    · exact absurd ⟨a.ids[k].2, by rw [← he]; exact List.getElem_mem h⟩ hn
  · refine ⟨fun hn => ?_, fun _ => ?_⟩
    · obtain ⟨c, hc⟩ := hn
      obtain ⟨i, hi, hg⟩ := List.mem_iff_getElem.1 hc
      rcases Nat.lt_or_ge i k with hlt | hge
      · have := h2 i hlt hi; rw [hg] at this; simp at this
      · have := h3 i hge hi; rw [hg] at this; simp at this
    · unfold increment; rw [hb, Res.ok_bind]; rfl

/-- Counters of new components are truncated to 32 bits: the merge is not an upper bound. -/
theorem C24_refuted_truncation :
    ∃ a b r : VC, WF a ∧ WF b ∧ update a b.ids = .ok r ∧ ¬ Le b r := by
  refine ⟨⟨[], 16⟩, ⟨[(1, 2^32)], 16⟩, ⟨[(1, 0)], 16⟩, ⟨by simp, by simp, by decide⟩,
    ⟨by simp, by simp, by decide⟩, ?_, ?_⟩
  · unfold update updateOne scan addComponent bsearch bsearchLoop; decide
  · intro h; have := h 1; revert this; decide

/-- With a full array, the scan reads one cell behind the allocation. -/
theorem C24_refuted_overread :
    ∃ a b : VC, WF a ∧ WF b ∧ update a b.ids = .ub := by
  refine ⟨⟨[(1, 0), (2, 0)], 2⟩, ⟨[(3, 1)], 16⟩, ⟨by simp, by simp, by decide⟩,
    ⟨by simp, by simp, by decide⟩, ?_⟩
  have : scan ⟨[(1, 0), (2, 0)], 2⟩ 3 0 = .ub := by
    rw [scan, dif_pos (by simp), if_pos (by simp), scan, dif_pos (by simp), if_pos (by simp), scan,
      dif_neg (by simp), if_neg (by simp)]
  simp only [update, updateOne, this, Res.ub_bind]

/-- The hypotheses of the merge theorems are met by clocks with different nodes. -/
example : MergeOk ⟨[(1, 5), (7, 2)], 16⟩ ⟨[(1, 4), (3, 9)], 16⟩ := by
  refine ⟨by decide, ?_⟩
  intro n _
  simp only [comp_look, look_cons, look_nil]; split <;> (try split) <;> simp

end Verif.VClock
