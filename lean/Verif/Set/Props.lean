import Verif.Set.Ops
/-!
# C08: a set is a finite set

For elements whose hash is nonnegative as a `long` every operation terminates with the right
result. Elements with negative hashes can make the operations run forever; the hash -1 is confused
with the mark of removed entries; `isdisjoint` never returns `True` for different objects.
-/
namespace Verif.Set
open Verif
open Verif.Dict (HashW)
set_option linter.unusedSectionVars false
attribute [local irreducible] lhash
variable {K : Type} {W : HashW K} [DecidableEq K]

/-- A call that changes the set; `pop` of an empty set raises and changes nothing. -/
def step (W : HashW K) (s : SetObj K) : Op K → Res (SetObj K)
  | .add k => add W s k
  | .discard k => discard W s k
  | .pop => match pop s with
    | .raise .valueError => .ok s
    | r => r >>= fun q => .ok q.2

/-- A history of calls. -/
def run (W : HashW K) (s : SetObj K) : List (Op K) → Res (SetObj K)
  | [] => .ok s
  | o :: os => do
    let s ← step W s o
    run W s os

/-- A history of calls on finite sets. -/
inductive SpecRun (eq : K → K → Bool) : List K → List (Op K) → List K → Prop
  | nil (l) : SpecRun eq l [] l
  | cons {l l' l'' o os} : SpecStep eq l o l' → SpecRun eq l' os l'' → SpecRun eq l (o :: os) l''

theorem inv_empty : Inv W (empty : SetObj K) [] := by
  refine ⟨blank_tok 3 (by omega), ?_, rfl, ?_, ?_, List.Pairwise.nil⟩
  · rw [show (empty : SetObj K).table = List.replicate 8 blank from rfl, blank_live]
  · rw [show (empty : SetObj K).table = List.replicate 8 blank from rfl, blank_used]; rfl
  · show (0 : Int) * 5 < ((List.replicate 8 (blank : Entry K)).length - 1) * 3
    rw [List.length_replicate]; omega

theorem step_spec (hn : HOk W) {s : SetObj K} {l : List K} (h : Inv W s l) (hl : l.length < 2 ^ 29) (o : Op K) :
    Term W (step W s o) (fun s' => ∃ l', Inv W s' l' ∧ l'.length ≤ l.length + 1 ∧ SpecStep W.eq l o l') := by
  cases o with
  | add k => exact addEntry_spec hn h hl k
  | discard k =>
    refine (discardEntry_spec hn h k).bind ?_
    rintro r ⟨l', h1, _, h3, h4⟩
    exact Term.pure ⟨l', h1, by omega, h4⟩
  | pop =>
    obtain ⟨h1, h2⟩ := pop_spec hn.ok h
    unfold step
    by_cases hc : l = []
    · simp only
      rw [h1 hc]
      exact Term.pure ⟨l, h, by omega, Or.inl ⟨hc, hc⟩⟩
    · obtain ⟨k, s', l', e, hi, hp⟩ := h2 hc
      have hlen := hp.length_eq
      rw [List.length_cons] at hlen
      simp only
      rw [e]
      refine Term.pure ⟨l', hi, by omega, Or.inr ⟨k, hp.mem_iff.2 List.mem_cons_self, ?_⟩⟩
      exact mem_removed hn.ok h.distinct hp

theorem run_spec (hn : HOk W) : ∀ (os : List (Op K)) {s : SetObj K} {l : List K}, Inv W s l → l.length + os.length ≤ 2 ^ 29 →
    Term W (run W s os) (fun s' => ∃ l', Inv W s' l' ∧ SpecRun W.eq l os l') := by
  intro os
  induction os with
  | nil => intro s l h _; exact Term.pure ⟨l, h, .nil l⟩
  | cons o os ih =>
    intro s l h hl
    rw [List.length_cons] at hl
    unfold run
    refine (step_spec hn h (by omega) o).bind ?_
    rintro s1 ⟨l1, h1, h2, h3⟩
    refine (ih h1 (by omega)).mono ?_
    rintro s2 ⟨l2, h4, h5⟩
    exact ⟨l2, h4, .cons h3 h5⟩

/-- What can be observed of a set: `len`, the elements iteration delivers, membership. -/
structure Observed (W : HashW K) (s : SetObj K) (l : List K) : Prop where
  distinct : Distinct W.eq l
  len : len s = l.length
  iter : (elems s).Perm l
  mem : ∀ k, Term W (contains W s k) (fun b => b = true ↔ Mem W.eq l k)

theorem elems_eq (s : SetObj K) : elems s = live s.table := by
  unfold elems entries live
  rw [List.map_filterMap]
  congr 1
  funext e
  cases e.key <;> rfl

theorem Inv.observed (hn : HOk W) {s : SetObj K} {l : List K} (h : Inv W s l) : Observed W s l :=
  ⟨h.distinct, h.num, by rw [elems_eq]; exact h.perm, fun k => containsEntry_spec hn h k⟩

/-- Hash nonnegative as a `long`. -/
structure NonNeg (W : HashW K) : Prop where
  ok : W.Ok
  lt : ∀ k, W.hash k < 2 ^ 63

theorem NonNeg.hok (h : NonNeg W) : HOk W := by
  refine ⟨h.ok, fun k => ?_⟩
  rw [lhash_nat (h.lt k)]
  omega

theorem Term.ok {α : Type} {r : Res α} {P : α → Prop} (hn : NonNeg W) (h : Term W r P) : ∃ a, r = .ok a ∧ P a := by
  rcases h with ⟨_, k, hk⟩ | h
  · have := hn.lt k; omega
  · exact h

/-- C08, for hashes nonnegative as a `long`: after any history of calls the set is a finite set, and
all calls have terminated without raising. Partial: half of all 64-bit hashes are excluded. -/
theorem C08_history_partial (hn : NonNeg W) (os : List (Op K)) (hl : os.length ≤ 2 ^ 29) :
    ∃ s l, run W empty os = .ok s ∧ SpecRun W.eq [] os l ∧ Distinct W.eq l ∧ len s = l.length ∧ (elems s).Perm l ∧
      ∀ k, ∃ b, contains W s k = .ok b ∧ (b = true ↔ Mem W.eq l k) := by
  obtain ⟨s, e, l, h, hr⟩ := Term.ok hn (run_spec hn.hok os inv_empty (by simpa using hl))
  have ho := h.observed hn.hok
  exact ⟨s, l, e, hr, ho.distinct, ho.len, ho.iter, fun k => Term.ok hn (ho.mem k)⟩

/-- C08, for all hashes other than -1: if the calls of a history terminate, the set is the right
finite set. Partial: termination is not claimed. -/
theorem C08_safety_partial (hn : HOk W) (os : List (Op K)) (hl : os.length ≤ 2 ^ 29) (s : SetObj K) (e : run W empty os = .ok s) :
    ∃ l, SpecRun W.eq [] os l ∧ Observed W s l := by
  rcases run_spec hn os inv_empty (by simpa using hl) with ⟨e', _⟩ | ⟨s', e', l, h, hr⟩
  · rw [e] at e'; simp at e'
  · rw [e] at e'
    have := Res.ok.inj e'
    subst this
    exact ⟨l, hr, h.observed hn⟩

/-- ... and the only other outcome is that they run forever: no exception, no undefined behaviour. -/
theorem C08_outcomes_partial (hn : HOk W) (os : List (Op K)) (hl : os.length ≤ 2 ^ 29) :
    run W empty os = .diverge ∨ ∃ s, run W empty os = .ok s := by
  rcases run_spec hn os inv_empty (by simpa using hl) with ⟨e', _⟩ | ⟨s', e', _⟩
  · exact Or.inl e'
  · exact Or.inr ⟨s', e'⟩

/-- `pop` returns an element of the set and removes it. -/
theorem C08_pop (ok : W.Ok) {s : SetObj K} {l : List K} (h : Inv W s l) :
    (l = [] → pop s = .raise .valueError) ∧
    (l ≠ [] → ∃ k s' l', pop s = .ok (k, s') ∧ Inv W s' l' ∧ k ∈ l ∧ l'.length + 1 = l.length ∧
      ∀ x, Mem W.eq l' x ↔ Mem W.eq l x ∧ ¬ W.eq k x = true) := by
  obtain ⟨h1, h2⟩ := pop_spec ok h
  refine ⟨h1, fun hne => ?_⟩
  obtain ⟨k, s', l', e, hi, hp⟩ := h2 hne
  have hlen := hp.length_eq
  rw [List.length_cons] at hlen
  exact ⟨k, s', l', e, hi, hp.mem_iff.2 List.mem_cons_self, by omega, mem_removed ok h.distinct hp⟩

/-! ## Comparisons and set algebra -/

/-- The iterator delivers the elements with their hashes. -/
theorem entries_eq {s : SetObj K} {l : List K} (h : Inv W s l) : entries s = (live s.table).map (fun k => (k, lhash W k)) := by
  have key : ∀ t : List (Entry K), (∀ (i : Nat) (e : Entry K) (k : K), t[i]? = some e → e.key = .elem k → e.hash = lhash W k) →
      t.filterMap (fun e => match e.key with
        | .elem k => some (k, e.hash)
        | _ => none) = (live t).map (fun k => (k, lhash W k)) := by
    intro t
    induction t with
    | nil => intro _; rfl
    | cons e t ih =>
      intro ht
      have h1 := ih (fun i e k h => ht (i + 1) e k h)
      rw [List.filterMap_cons, live_cons]
      cases hk : e.key with
      | null => exact h1
      | dummy => exact h1
      | elem k =>
        simp only
        rw [h1, ht 0 e k rfl hk]
        rfl
  exact key s.table h.tok.hash

theorem allIn_spec (hn : HOk W) {s : SetObj K} {l : List K} (h : Inv W s l) : ∀ ks : List K,
    Term W (allIn W s ks.length (ks.map (fun k => (k, lhash W k)))) (fun b => b = true ↔ ∀ k ∈ ks, Mem W.eq l k) := by
  intro ks
  induction ks with
  | nil => exact Term.pure (by simp)
  | cons k ks ih =>
    rw [List.length_cons, List.map_cons]
    unfold allIn
    refine (containsEntry_spec hn h k).bind ?_
    intro b hb
    cases b with
    | true =>
      rw [if_pos rfl]
      refine ih.mono ?_
      intro b' hb'
      rw [hb', List.forall_mem_cons]
      exact ⟨fun h => ⟨hb.1 rfl, h⟩, fun h => h.2⟩
    | false =>
      rw [if_neg (by simp)]
      refine Term.pure ?_
      rw [List.forall_mem_cons]
      simp only [Bool.false_eq_true, false_iff]
      intro h
      have := hb.2 h.1
      simp at this

/-- Inclusion up to `__eq__`. -/
def Sub (eq : K → K → Bool) (m l : List K) : Prop := ∀ x, Mem eq m x → Mem eq l x

theorem sub_iff (ok : W.Ok) {m l : List K} : (∀ k ∈ m, Mem W.eq l k) ↔ Sub W.eq m l := by
  constructor
  · rintro h x ⟨y, hy, he⟩
    obtain ⟨z, hz, he'⟩ := h y hy
    exact ⟨z, hz, ok.trans _ _ _ he' he⟩
  · intro h k hk
    exact h k ⟨k, hk, ok.refl k⟩

/-- Pigeonhole: a finite set has at least as many elements as a subset; with equally many they are
equal. -/
theorem sub_card (ok : W.Ok) : ∀ {m l : List K}, Distinct W.eq m → Distinct W.eq l → Sub W.eq m l →
    m.length ≤ l.length ∧ (m.length = l.length → Sub W.eq l m) := by
  intro m
  induction m with
  | nil =>
    intro l _ _ _
    refine ⟨by simp, fun h x hx => ?_⟩
    have : l = [] := List.length_eq_zero_iff.1 (by simpa using h.symm)
    subst this
    exact hx
  | cons a m ih =>
    intro l hm hl hs
    obtain ⟨b, hb, hba⟩ := hs a ⟨a, List.mem_cons_self, ok.refl a⟩
    obtain ⟨hm1, hm2⟩ := List.pairwise_cons.1 hm
    have hp := List.perm_cons_erase hb
    have hl' := distinct_perm ok hp hl
    have hsub : Sub W.eq m (l.erase b) := by
      rintro x ⟨y, hy, he⟩
      have hy' : Mem W.eq l y := hs y ⟨y, List.mem_cons_of_mem _ hy, ok.refl y⟩
      rw [mem_perm hp, mem_cons] at hy'
      rcases hy' with ⟨z, hz, hzy⟩ | hby
      · exact ⟨z, hz, ok.trans _ _ _ hzy he⟩
      · have := hm1 y hy
        rw [ok.trans _ _ _ (ok.symm _ _ hba) hby] at this
        simp at this
    obtain ⟨h1, h2⟩ := ih hm2 (List.pairwise_cons.1 hl').2 hsub
    have hlen := hp.length_eq
    rw [List.length_cons] at hlen
    refine ⟨by rw [List.length_cons]; omega, fun he x hx => ?_⟩
    rw [List.length_cons] at he
    rw [mem_perm hp, mem_cons] at hx
    rw [mem_cons]
    rcases hx with hx | hx
    · exact Or.inl (h2 (by omega) x hx)
    · exact Or.inr (ok.trans _ _ _ (ok.symm _ _ hba) hx)

theorem iter_all (hn : HOk W) {s o : SetObj K} {l m : List K} (hs : Inv W s l) (ho : Inv W o m) :
    Term W (allIn W s o.num.toNat (entries o)) (fun b => b = true ↔ Sub W.eq m l) := by
  rw [entries_eq ho, ho.num, Int.toNat_natCast, ← ho.live_length]
  refine (allIn_spec hn hs (live o.table)).mono ?_
  intro b hb
  rw [hb, ← sub_iff hn.ok]
  exact ⟨fun h k hk => h k (ho.perm.mem_iff.2 hk), fun h k hk => h k (ho.perm.mem_iff.1 hk)⟩

/-- `==` is equality of sets. -/
theorem C08_eq (hn : HOk W) {s o : SetObj K} {l m : List K} (hs : Inv W s l) (ho : Inv W o m) :
    Term W (eq W s o) (fun b => b = true ↔ ∀ x, Mem W.eq l x ↔ Mem W.eq m x) := by
  unfold eq
  have h1 := hs.num
  have h2 := ho.num
  by_cases hc : s.num ≠ o.num
  · rw [if_pos hc]
    refine Term.pure ?_
    simp only [Bool.false_eq_true, false_iff]
    intro h
    have a := (sub_card hn.ok hs.distinct ho.distinct (fun x hx => (h x).1 hx)).1
    have b := (sub_card hn.ok ho.distinct hs.distinct (fun x hx => (h x).2 hx)).1
    omega
  · rw [if_neg hc, show s.num = o.num by omega]
    refine (iter_all hn hs ho).mono ?_
    intro b hb
    rw [hb]
    refine ⟨fun h x => ⟨?_, h x⟩, fun h x hx => (h x).2 hx⟩
    exact (sub_card hn.ok ho.distinct hs.distinct h).2 (by omega) x

/-- `>=` is inclusion. -/
theorem C08_ge (hn : HOk W) {s o : SetObj K} {l m : List K} (hs : Inv W s l) (ho : Inv W o m) :
    Term W (ge W s o) (fun b => b = true ↔ ∀ x, Mem W.eq m x → Mem W.eq l x) := by
  unfold ge
  have h1 := hs.num
  have h2 := ho.num
  by_cases hc : s.num < o.num
  · rw [if_pos hc]
    refine Term.pure ?_
    simp only [Bool.false_eq_true, false_iff]
    intro h
    have := (sub_card hn.ok ho.distinct hs.distinct h).1
    omega
  · rw [if_neg hc]
    exact iter_all hn hs ho

/-- `>` is proper inclusion. -/
theorem C08_gt (hn : HOk W) {s o : SetObj K} {l m : List K} (hs : Inv W s l) (ho : Inv W o m) :
    Term W (gt W s o) (fun b => b = true ↔ (∀ x, Mem W.eq m x → Mem W.eq l x) ∧ ∃ x, Mem W.eq l x ∧ ¬ Mem W.eq m x) := by
  unfold gt
  have h1 := hs.num
  have h2 := ho.num
  by_cases hc : s.num ≤ o.num
  · rw [if_pos hc]
    refine Term.pure ?_
    simp only [Bool.false_eq_true, false_iff]
    rintro ⟨h, x, hx, hx'⟩
    have := sub_card hn.ok ho.distinct hs.distinct h
    exact hx' (this.2 (by omega) x hx)
  · rw [if_neg hc]
    refine (iter_all hn hs ho).mono ?_
    intro b hb
    rw [hb]
    refine ⟨fun h => ⟨h, ?_⟩, fun h => h.1⟩
    by_contra hne
    have hsub : Sub W.eq l m := fun x hx => by
      by_contra hx'
      exact hne ⟨x, hx, hx'⟩
    have := (sub_card hn.ok hs.distinct ho.distinct hsub).1
    omega

theorem subLoop_spec (hn : HOk W) : ∀ (ks : List K) {s : SetObj K} {l : List K}, Inv W s l →
    Term W (subLoop W s ks.length (ks.map (fun k => (k, lhash W k)))) (fun r => ∃ n, Inv W r n ∧
      ∀ x, Mem W.eq n x ↔ Mem W.eq l x ∧ ¬ Mem W.eq ks x) := by
  intro ks
  induction ks with
  | nil => intro s l h; exact Term.pure ⟨l, h, fun x => by simp [Mem]⟩
  | cons k ks ih =>
    intro s l h
    rw [List.length_cons, List.map_cons]
    unfold subLoop
    refine (discardEntry_spec hn h k).bind ?_
    rintro ⟨b, s'⟩ ⟨l', h1, _, _, h4⟩
    refine (ih h1).mono ?_
    rintro r ⟨n, h5, h6⟩
    refine ⟨n, h5, fun x => ?_⟩
    rw [h6, h4, mem_cons]
    tauto

/-- `-` is the set difference. -/
theorem C08_sub (hn : HOk W) {s o : SetObj K} {l m : List K} (hs : Inv W s l) (ho : Inv W o m) :
    Term W (sub W s o) (fun r => ∃ n, Inv W r n ∧ ∀ x, Mem W.eq n x ↔ Mem W.eq l x ∧ ¬ Mem W.eq m x) := by
  unfold sub
  rw [entries_eq ho, ho.num, Int.toNat_natCast, ← ho.live_length]
  refine (subLoop_spec hn (live o.table) hs).mono ?_
  rintro r ⟨n, h1, h2⟩
  exact ⟨n, h1, fun x => by rw [h2, mem_perm ho.perm]⟩

theorem andLoop_spec (hn : HOk W) {o : SetObj K} {m : List K} (ho : Inv W o m) : ∀ (ks : List K) {s : SetObj K} {l : List K}, Inv W s l →
    l.length + ks.length ≤ 2 ^ 29 →
    Term W (andLoop W o s ks.length (ks.map (fun k => (k, lhash W k)))) (fun r => ∃ n, Inv W r n ∧
      ∀ x, Mem W.eq n x ↔ Mem W.eq l x ∨ (Mem W.eq ks x ∧ Mem W.eq m x)) := by
  intro ks
  induction ks with
  | nil => intro s l h _; exact Term.pure ⟨l, h, fun x => by simp [Mem]⟩
  | cons k ks ih =>
    intro s l h hl
    rw [List.length_cons] at hl
    rw [List.length_cons, List.map_cons]
    unfold andLoop
    refine (containsEntry_spec hn ho k).bind ?_
    intro b hb
    have hk : ∀ x, W.eq k x = true → (Mem W.eq m x ↔ b = true) := by
      intro x hx
      rw [hb]
      exact ⟨fun ⟨y, hy, he⟩ => ⟨y, hy, hn.ok.trans _ _ _ he (hn.ok.symm _ _ hx)⟩,
        fun ⟨y, hy, he⟩ => ⟨y, hy, hn.ok.trans _ _ _ he hx⟩⟩
    cases b with
    | true =>
      rw [if_pos rfl]
      refine (addEntry_spec hn h (by omega) k).bind ?_
      rintro s' ⟨l', h1, h2, h3⟩
      refine (ih h1 (by omega)).mono ?_
      rintro r ⟨n, h5, h6⟩
      refine ⟨n, h5, fun x => ?_⟩
      have := hk x
      rw [h6, h3, mem_cons]
      tauto
    | false =>
      rw [if_neg (by simp)]
      refine (ih h (by omega)).mono ?_
      rintro r ⟨n, h5, h6⟩
      refine ⟨n, h5, fun x => ?_⟩
      have := hk x
      simp only [Bool.false_eq_true, iff_false] at this
      rw [h6, mem_cons]
      tauto

theorem and_one (hn : HOk W) {s o : SetObj K} {l m : List K} (hs : Inv W s l) (ho : Inv W o m) (hl : l.length ≤ 2 ^ 29) :
    Term W (andLoop W o empty s.num.toNat (entries s)) (fun r => ∃ n, Inv W r n ∧ ∀ x, Mem W.eq n x ↔ Mem W.eq l x ∧ Mem W.eq m x) := by
  rw [entries_eq hs, hs.num, Int.toNat_natCast, ← hs.live_length]
  refine (andLoop_spec hn ho (live s.table) inv_empty (by rw [hs.live_length]; simpa using hl)).mono ?_
  rintro r ⟨n, h1, h2⟩
  refine ⟨n, h1, fun x => ?_⟩
  rw [h2, mem_perm hs.perm]
  simp [Mem]

/-- `&` is the intersection. -/
theorem C08_and (hn : HOk W) {s o : SetObj K} {l m : List K} (hs : Inv W s l) (ho : Inv W o m)
    (hl : l.length ≤ 2 ^ 29) (hm : m.length ≤ 2 ^ 29) :
    Term W (and W s o) (fun r => ∃ n, Inv W r n ∧ ∀ x, Mem W.eq n x ↔ Mem W.eq l x ∧ Mem W.eq m x) := by
  unfold and
  by_cases hc : o.num > s.num
  · rw [if_pos hc]
    refine (and_one hn ho hs hm).mono ?_
    rintro r ⟨n, h1, h2⟩
    exact ⟨n, h1, fun x => by rw [h2]; tauto⟩
  · rw [if_neg hc]
    exact and_one hn hs ho hl

theorem orLoop_spec (hn : HOk W) : ∀ (ks : List K) {s : SetObj K} {l : List K}, Inv W s l → l.length + ks.length ≤ 2 ^ 29 →
    Term W (orLoop W s ks.length (ks.map (fun k => (k, lhash W k)))) (fun r => ∃ n, Inv W r n ∧
      ∀ x, Mem W.eq n x ↔ Mem W.eq l x ∨ Mem W.eq ks x) := by
  intro ks
  induction ks with
  | nil => intro s l h _; exact Term.pure ⟨l, h, fun x => by simp [Mem]⟩
  | cons k ks ih =>
    intro s l h hl
    rw [List.length_cons] at hl
    rw [List.length_cons, List.map_cons]
    unfold orLoop
    refine (addEntry_spec hn h (by omega) k).bind ?_
    rintro s' ⟨l', h1, h2, h3⟩
    refine (ih h1 (by omega)).mono ?_
    rintro r ⟨n, h5, h6⟩
    refine ⟨n, h5, fun x => ?_⟩
    rw [h6, h3, mem_cons]
    tauto

theorem or_one (hn : HOk W) {s o : SetObj K} {l m : List K} (hs : Inv W s l) (ho : Inv W o m) (hl : l.length + m.length ≤ 2 ^ 29) :
    Term W (orLoop W s o.num.toNat (entries o)) (fun r => ∃ n, Inv W r n ∧ ∀ x, Mem W.eq n x ↔ Mem W.eq l x ∨ Mem W.eq m x) := by
  rw [entries_eq ho, ho.num, Int.toNat_natCast, ← ho.live_length]
  refine (orLoop_spec hn (live o.table) hs (by rw [ho.live_length]; exact hl)).mono ?_
  rintro r ⟨n, h1, h2⟩
  exact ⟨n, h1, fun x => by rw [h2, mem_perm ho.perm]⟩

/-- `|` is the union. -/
theorem C08_or (hn : HOk W) {s o : SetObj K} {l m : List K} (hs : Inv W s l) (ho : Inv W o m) (hl : l.length + m.length ≤ 2 ^ 29) :
    Term W (or W s o) (fun r => ∃ n, Inv W r n ∧ ∀ x, Mem W.eq n x ↔ Mem W.eq l x ∨ Mem W.eq m x) := by
  unfold or
  by_cases hc : o.num > s.num
  · rw [if_pos hc]
    refine (or_one hn ho hs (by omega)).mono ?_
    rintro r ⟨n, h1, h2⟩
    exact ⟨n, h1, fun x => by rw [h2]; tauto⟩
  · rw [if_neg hc]
    exact or_one hn hs ho hl

theorem xorLoop_spec (hn : HOk W) : ∀ (ks : List K) {s : SetObj K} {l : List K}, Inv W s l → Distinct W.eq ks → l.length + ks.length ≤ 2 ^ 29 →
    Term W (xorLoop W s ks.length (ks.map (fun k => (k, lhash W k)))) (fun r => ∃ n, Inv W r n ∧
      ∀ x, Mem W.eq n x ↔ ¬ (Mem W.eq l x ↔ Mem W.eq ks x)) := by
  intro ks
  induction ks with
  | nil => intro s l h _ _; exact Term.pure ⟨l, h, fun x => by simp [Mem]⟩
  | cons k ks ih =>
    intro s l h hd hl
    rw [List.length_cons] at hl
    rw [List.length_cons, List.map_cons]
    obtain ⟨hd1, hd2⟩ := List.pairwise_cons.1 hd
    have hk : ∀ x, W.eq k x = true → ¬ Mem W.eq ks x := by
      rintro x hx ⟨y, hy, he⟩
      have := hd1 y hy
      rw [hn.ok.trans _ _ _ hx (hn.ok.symm _ _ he)] at this
      simp at this
    have hl' : ∀ x, W.eq k x = true → (Mem W.eq l x ↔ Mem W.eq l k) := by
      intro x hx
      exact ⟨fun ⟨y, hy, he⟩ => ⟨y, hy, hn.ok.trans _ _ _ he (hn.ok.symm _ _ hx)⟩,
        fun ⟨y, hy, he⟩ => ⟨y, hy, hn.ok.trans _ _ _ he hx⟩⟩
    unfold xorLoop
    refine (discardEntry_spec hn h k).bind ?_
    rintro ⟨b, s'⟩ ⟨l', h1, h2, h3, h4⟩
    simp only at h1 h2 h3 ⊢
    cases b with
    | true =>
      rw [if_pos rfl]
      refine (ih h1 hd2 (by omega)).mono ?_
      rintro r ⟨n, h5, h6⟩
      refine ⟨n, h5, fun x => ?_⟩
      have a1 := hk x
      have a2 := hl' x
      have a3 := h2.1 rfl
      rw [h6, h4, mem_cons]
      tauto
    | false =>
      rw [if_neg (by simp)]
      refine (addEntry_spec hn h1 (by omega) k).bind ?_
      rintro s'' ⟨l'', h7, h8, h9⟩
      refine (ih h7 hd2 (by omega)).mono ?_
      rintro r ⟨n, h5, h6⟩
      refine ⟨n, h5, fun x => ?_⟩
      have a1 := hk x
      have a2 := hl' x
      have a3 : ¬ Mem W.eq l k := fun hc => by have := h2.2 hc; simp at this
      rw [h6, h9, h4, mem_cons]
      tauto

/-- `^` is the symmetric difference. -/
theorem C08_xor (hn : HOk W) {s o : SetObj K} {l m : List K} (hs : Inv W s l) (ho : Inv W o m) (hl : l.length + m.length ≤ 2 ^ 29) :
    Term W (xor W s o) (fun r => ∃ n, Inv W r n ∧ ∀ x, Mem W.eq n x ↔ ¬ (Mem W.eq l x ↔ Mem W.eq m x)) := by
  unfold xor
  rw [entries_eq ho, ho.num, Int.toNat_natCast, ← ho.live_length]
  refine (xorLoop_spec hn (live o.table) hs (distinct_perm hn.ok ho.perm.symm ho.distinct) (by rw [ho.live_length]; exact hl)).mono ?_
  rintro r ⟨n, h1, h2⟩
  exact ⟨n, h1, fun x => by rw [h2, mem_perm ho.perm]⟩

/-! ## Refutations -/

theorem disjointLoop_spec (hn : NonNeg W) {s : SetObj K} {l : List K} (h : Inv W s l) : ∀ ks : List K,
    ((∃ k ∈ ks, Mem W.eq l k) → disjointLoop W s (ks.map (fun k => (k, lhash W k))) = .ok false) ∧
    (¬ (∃ k ∈ ks, Mem W.eq l k) → disjointLoop W s (ks.map (fun k => (k, lhash W k))) = .raise .stopIteration) := by
  intro ks
  induction ks with
  | nil => exact ⟨fun ⟨k, hk, _⟩ => by simp at hk, fun _ => rfl⟩
  | cons k ks ih =>
    rw [List.map_cons]
    unfold disjointLoop
    obtain ⟨b, e, hb⟩ := Term.ok hn (containsEntry_spec hn.hok h k)
    simp only
    rw [e, Res.ok_bind]
    cases b with
    | true =>
      rw [if_pos rfl]
      exact ⟨fun _ => rfl, fun hc => absurd ⟨k, List.mem_cons_self, hb.1 rfl⟩ hc⟩
    | false =>
      have hk : ¬ Mem W.eq l k := fun hc => by have := hb.2 hc; simp at this
      rw [if_neg (by simp)]
      refine ⟨?_, fun hc => ih.2 (fun ⟨q, h1, h2⟩ => hc ⟨q, List.mem_cons_of_mem _ h1, h2⟩)⟩
      rintro ⟨q, h1, h2⟩
      rcases List.mem_cons.1 h1 with rfl | h1
      · exact absurd h2 hk
      · exact ih.1 ⟨q, h1, h2⟩

/-- `isdisjoint` on two different set objects with a common element is `False`. -/
theorem C08_isdisjoint_partial (hn : NonNeg W) {s o : SetObj K} {l m : List K} (hs : Inv W s l) (ho : Inv W o m)
    (hd : ∃ x, Mem W.eq l x ∧ Mem W.eq m x) : isdisjoint W s o = .ok false := by
  obtain ⟨x, ⟨y, hy, hyx⟩, ⟨z, hz, hzx⟩⟩ := hd
  unfold isdisjoint
  by_cases hc : o.num > s.num
  · rw [if_pos hc, entries_eq hs, (disjointLoop_spec hn ho _).1]
    exact ⟨y, hs.perm.mem_iff.2 hy, z, hz, hn.ok.trans _ _ _ hzx (hn.ok.symm _ _ hyx)⟩
  · rw [if_neg hc, entries_eq ho, (disjointLoop_spec hn hs _).1]
    exact ⟨z, ho.perm.mem_iff.2 hz, y, hy, hn.ok.trans _ _ _ hyx (hn.ok.symm _ _ hzx)⟩

/-- C08 refuted: `isdisjoint` on two different set objects without a common element always raises
`StopIteration` instead of returning `True`. -/
theorem C08_refuted_isdisjoint (hn : NonNeg W) {s o : SetObj K} {l m : List K} (hs : Inv W s l) (ho : Inv W o m)
    (hd : ∀ x, ¬ (Mem W.eq l x ∧ Mem W.eq m x)) : isdisjoint W s o = .raise .stopIteration := by
  unfold isdisjoint
  by_cases hc : o.num > s.num
  · rw [if_pos hc, entries_eq hs, (disjointLoop_spec hn ho _).2]
    rintro ⟨k, hk, hk'⟩
    exact hd k ⟨⟨k, hs.perm.mem_iff.1 hk, hn.ok.refl k⟩, hk'⟩
  · rw [if_neg hc, entries_eq ho, (disjointLoop_spec hn hs _).2]
    rintro ⟨k, hk, hk'⟩
    exact hd k ⟨hk', ⟨k, ho.perm.mem_iff.1 hk, hn.ok.refl k⟩⟩

/-- Integers as elements, hashed by their two's complement. -/
def intW : HashW Int := ⟨fun a b => a == b, fun a => (wrap64 a % 2 ^ 64).toNat⟩

theorem intW_ok : intW.Ok := by
  refine ⟨fun a => by simp [intW], fun a b h => ?_, fun a b c h1 h2 => ?_, fun a b h => ?_, fun a => ?_⟩
  · simp [intW] at h ⊢; exact h.symm
  · simp [intW] at h1 h2 ⊢; exact h1.trans h2
  · simp [intW] at h; rw [h]
  · show (wrap64 a % 2 ^ 64).toNat < 2 ^ 64
    have h1 := Int.emod_nonneg (wrap64 a) (b := 2 ^ 64) (by omega)
    have h2 := Int.emod_lt_of_pos (wrap64 a) (b := 2 ^ 64) (by omega)
    omega

/-- The set `{0}` as the code builds it. -/
def zeroSet : SetObj Int := ⟨1, 1, 0, ⟨.elem 0, 0⟩ :: List.replicate 7 blank⟩

/-- C08 refuted: after `add(0)` the look-up of an element with hash -8 never ends, however many
probe steps (`f`) are granted: the arithmetic shift of the negative hash sticks at -1, so that the
probe sequence `5*i + 1 - 1` stays in slot 0. -/
theorem C08_refuted_termination :
    run intW empty [.add 0] = .ok zeroSet ∧
    ∀ f, lookLoop intW zeroSet.table (lhash intW (-8)) (-8) f (sstart zeroSet.size (lhash intW (-8))) = .diverge := by
  refine ⟨by decide +kernel, ?_⟩
  have hh : lhash intW (-8) = -8 := by decide +kernel
  rw [hh]
  have key : ∀ f, lookLoop intW zeroSet.table (-8) (-8) f (0, -1) = .diverge := by
    intro f
    induction f with
    | zero => rfl
    | succ f ih =>
      have e : lookLoop intW zeroSet.table (-8) (-8) (f + 1) (0, -1) = lookLoop intW zeroSet.table (-8) (-8) f (0, -1) := rfl
      rw [e, ih]
  intro f
  cases f with
  | zero => rfl
  | succ f =>
    have e : lookLoop intW zeroSet.table (-8) (-8) (f + 1) (sstart zeroSet.size (-8)) = lookLoop intW zeroSet.table (-8) (-8) f (0, -1) := rfl
    rw [e, key]

/-- C08 refuted: an element with hash -1 is overwritten by the next element on the same path, and
`len` still counts it. -/
theorem C08_refuted_minus_one : ∃ s, run intW empty [.add (-1), .add 7] = .ok s ∧ len s = 2 ∧
    contains intW s (-1) = .ok false ∧ elems s = [7] :=
  ⟨⟨2, 1, 0, List.replicate 7 blank ++ [⟨.elem 7, 7⟩]⟩, by decide +kernel⟩

/-- C08 refuted: looking up an element with hash -1 after a removal calls `__eq__` on the dummy. -/
theorem C08_refuted_dummy : ∃ s, run intW empty [.add 7, .discard 7] = .ok s ∧ contains intW s (-1) = .ub :=
  ⟨⟨0, 1, 0, List.replicate 7 blank ++ [⟨.dummy, -1⟩]⟩, by decide +kernel⟩

/-! ## Examples -/

/-- Natural numbers below 2^63, all with few hashes: many collisions. -/
def modW : HashW Nat := ⟨fun a b => a == b, fun a => a % 3⟩

theorem modW_nonneg : NonNeg modW := by
  refine ⟨⟨fun a => by simp [modW], fun a b h => ?_, fun a b c h1 h2 => ?_, fun a b h => ?_, fun a => ?_⟩, fun a => ?_⟩
  · simp [modW] at h ⊢; exact h.symm
  · simp [modW] at h1 h2 ⊢; exact h1.trans h2
  · simp [modW] at h; rw [h]
  · show a % 3 < 2 ^ 64; omega
  · show a % 3 < 2 ^ 63; omega

/-- The hypotheses of the C08 theorems hold for colliding elements, with removals, `pop` and growth. -/
example : ∃ s l, run modW empty [.add 1, .add 4, .discard 1, .add 7, .pop, .add 10, .add 13, .add 2, .add 16] = .ok s ∧
    SpecRun modW.eq [] [.add 1, .add 4, .discard 1, .add 7, .pop, .add 10, .add 13, .add 2, .add 16] l ∧ len s = l.length := by
  obtain ⟨s, l, h1, h2, _, h3, _⟩ := C08_history_partial modW_nonneg
    [.add 1, .add 4, .discard 1, .add 7, .pop, .add 10, .add 13, .add 2, .add 16] (by simp)
  exact ⟨s, l, h1, h2, h3⟩

example : (run modW empty [.add 1, .add 4, .discard 1, .add 7, .pop, .add 10, .add 13, .add 2, .add 16] >>= fun s => .ok (elems s, s.size)) =
    .ok ([10, 2, 16, 13, 4], 32) := by decide +kernel

end Verif.Set
