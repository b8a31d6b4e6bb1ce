import Verif.Queue.Model
import Verif.Skiplist.Props
/-!
# Queues: invariant and the effect of each function
-/
namespace Verif.Queue
open Verif Verif.Skiplist

variable {α : Type}

section
variable {K V : Type} {cmp : K → K → Int} {rank : K → Int} {D : K → Prop} {hd : K} {s : SL K V} {L : List Nat}
  {m : List (K × V)}

theorem abs_next (h : Abs rank D hd s L m) {P : List Nat} {x : Nat} {R : List Nat} (e : L = P ++ x :: R) :
    fwd s.heap x 0 = .ok R.head? := by
  have hx : x ∈ L := by rw [e]; simp
  rw [h.rep.links (s.header :: P) x R (by rw [e]; rfl) 0 (h.rep.tallest x hx).1]
  congr 1
  cases R with
  | nil => rfl
  | cons y R =>
    rw [List.find?_cons_of_pos (by rw [tall_of]; exact (h.rep.tallest y (by rw [e]; simp)).1)]
    rfl

theorem abs_higher_split {mA mB : List (K × V)} (hc : CmpOn cmp rank D) (h : Abs rank D hd s L (mA ++ mB)) {k : K}
    (hk : D k) (tA : ∀ e ∈ mA, rank e.1 < rank k) (tB : ∀ e ∈ mB, rank k ≤ rank e.1) :
    ∃ A B, L = A ++ B ∧ B.map (entry s.heap) = mB.map some ∧ searchHigher cmp s k = .ok B.head? := by
  obtain ⟨A, B, rfl, hA, hB⟩ := h.rep.split
  obtain ⟨r, e1, e2, e3, _, e4⟩ := h.rep.descend hA hB (test := fun x => cmp x k < 0)
    (by intro e he; simpa using ((hc e.1 k (h.dom e (by simp [he])) hk).1).2 (tA e he))
    (by
      intro e he
      have h1 := (hc e.1 k (h.dom e (by simp [he])) hk).1
      have h2 := tB e he
      simp; omega)
  refine ⟨A, B, rfl, hB, ?_⟩
  unfold searchHigher
  rw [e1, Res.ok_bind, e4]

theorem abs_length (h : Abs rank D hd s L m) : L.length = m.length := by
  have := congrArg List.length h.rep.cont
  simpa using this

theorem abs_length_le (h : Abs rank D hd s L m) : L.length ≤ s.nxt := by
  have hsub : L ⊆ List.range s.nxt := by
    intro a ha
    rw [List.mem_range]
    exact h.rep.fresh a (by simp [ha])
  have := (List.subperm_of_subset (List.nodup_cons.1 h.rep.nodup).2 hsub).length_le
  simpa using this

end

theorem sorted_ext {V : Type} : ∀ {m m' : List (Int × V)}, (m.Pairwise fun a b => id a.1 < id b.1) →
    (m'.Pairwise fun a b => id a.1 < id b.1) → (∀ k, get id m k = get id m' k) → m = m' := by
  intro m
  induction m with
  | nil =>
    intro m' _ hs' hg
    cases m' with
    | nil => rfl
    | cons e m' =>
      have := hg e.1
      rw [get_cons_eq rfl] at this
      cases this
  | cons e m ih =>
    intro m' hs hs' hg
    cases m' with
    | nil =>
      have := hg e.1
      rw [get_cons_eq rfl] at this
      cases this
    | cons e' m' =>
      have h1 := hg e.1
      have h2 := hg e'.1
      rw [get_cons_eq rfl] at h1
      rw [get_cons_eq (e := e') rfl] at h2
      rw [List.pairwise_cons] at hs hs'
      have hk : e.1 = e'.1 := by
        by_contra hne
        rw [get_cons_ne (fun c => hne c.symm)] at h1
        rw [get_cons_ne hne] at h2
        obtain ⟨x, hx, q1, _⟩ := mem_of_get h1.symm
        obtain ⟨y, hy, q2, _⟩ := mem_of_get h2
        have := hs'.1 x hx
        have := hs.1 y hy
        simp only [id] at *
        omega
      have hv : e.2 = e'.2 := by
        rw [get_cons_eq hk.symm] at h1
        exact Option.some.inj h1
      have he : e = e' := Prod.ext hk hv
      subst he
      congr 1
      apply ih hs.2 hs'.2
      intro k
      by_cases hke : e.1 = k
      · rw [get_of_none, get_of_none]
        · intro x hx
          have := hs'.1 x hx
          simp only [id] at *
          omega
        · intro x hx
          have := hs.1 x hx
          simp only [id] at *
          omega
      · have := hg k
        rwa [get_cons_ne hke, get_cons_ne hke] at this

/-- The cells of the entries, from id `i` on. -/
def entriesFrom : Nat → List α → List (Int × Option α)
  | _, [] => []
  | i, e :: E => ((i : Int), some e) :: entriesFrom (i + 1) E

theorem entriesFrom_append : ∀ (i : Nat) (E F : List α),
    entriesFrom i (E ++ F) = entriesFrom i E ++ entriesFrom (i + E.length) F := by
  intro i E
  induction E generalizing i with
  | nil => intro F; simp [entriesFrom]
  | cons e E ih =>
    intro F
    rw [List.cons_append, entriesFrom, entriesFrom, ih, List.length_cons, List.cons_append]
    congr 3
    omega

theorem entriesFrom_mem : ∀ {i : Nat} {E : List α} {x : Int × Option α}, x ∈ entriesFrom i E →
    (i : Int) ≤ x.1 ∧ x.1 < i + E.length := by
  intro i E
  induction E generalizing i with
  | nil => intro x h; simp [entriesFrom] at h
  | cons e E ih =>
    intro x h
    rw [entriesFrom, List.mem_cons] at h
    rw [List.length_cons]
    rcases h with rfl | h
    · simp only; omega
    · have := ih h
      omega

theorem entriesFrom_length : ∀ (i : Nat) (E : List α), (entriesFrom i E).length = E.length := by
  intro i E
  induction E generalizing i with
  | nil => rfl
  | cons e E ih => rw [entriesFrom, List.length_cons, ih, List.length_cons]

theorem entriesFrom_take : ∀ (i n : Nat) (E : List α), (entriesFrom i E).take n = entriesFrom i (E.take n) := by
  intro i n E
  induction E generalizing i n with
  | nil => simp [entriesFrom]
  | cons e E ih =>
    cases n with
    | zero => simp [entriesFrom]
    | succ n => rw [entriesFrom, List.take_succ_cons, ih, List.take_succ_cons, entriesFrom]

/-- The content of the row. -/
def contents (E : List α) : List (Int × Option α) := (-2, none) :: entriesFrom 0 E

/-- A row that holds the entries `E`, with consistent heads. -/
structure QInv (r : Row α) (E : List α) : Prop where
  abs : ∃ L, Abs id (Window (-2)) longMax r.cells L (contents E)
  count : r.noEntries = E.length
  small : E.length ≤ 2 ^ 31 - 2
  heads : ∀ c cs, r.consumers c = some cs →
    -1 ≤ cs.readHead ∧ cs.readHead ≤ E.length - 1 ∧ cs.consumeHead ≤ cs.readHead

theorem create_spec {lvl : Nat} (hl : lvl < maxLevel) :
    ∃ r : Row α, create lvl = .ok r ∧ QInv r [] ∧ r.consumers = fun _ => none := by
  obtain ⟨s, L, m, e1, a1, g1⟩ := abs_insert (longCmp_on (-2)) (abs_init id (Window (-2)) longMax)
    (k := -2) (by unfold Window; omega) (none : Option α) hl
  have hm : m = contents ([] : List α) := by
    apply sorted_ext a1.rep.srt
    · simp [contents, entriesFrom]
    · intro k
      rw [g1]
      simp only [id]
      by_cases hk : k = -2
      · rw [if_pos hk]; subst hk; rfl
      · rw [if_neg hk]
        unfold contents
        rw [get_cons_ne (by simp only [id]; omega)]
        rfl
  subst hm
  refine ⟨⟨s, 0, fun _ => none⟩, ?_, ⟨⟨L, a1⟩, rfl, by simp, ?_⟩, rfl⟩
  · unfold create; rw [e1]; rfl
  · intro c cs h; cases h

theorem enqueue_spec {r : Row α} {E : List α} (h : QInv r E) (v : α) {lvl : Nat} (hl : lvl < maxLevel)
    (hn : E.length < 2 ^ 31 - 2) :
    ∃ r', enqueue r v lvl = .ok r' ∧ QInv r' (E ++ [v]) ∧ r'.consumers = r.consumers := by
  obtain ⟨L, ha⟩ := h.abs
  obtain ⟨s, L', m, e1, a1, g1⟩ := abs_insert (longCmp_on (-2)) ha (k := (E.length : Int))
    (by unfold Window; omega) (some v) hl
  have hkeys : ∀ x ∈ contents E, x.1 < (E.length : Int) := by
    intro x hx
    unfold contents at hx
    rw [List.mem_cons] at hx
    rcases hx with rfl | hx
    · simp only; omega
    · have := entriesFrom_mem hx; omega
  have happ : contents (E ++ [v]) = contents E ++ [((E.length : Int), some v)] := by
    unfold contents
    rw [entriesFrom_append]
    simp [entriesFrom]
  have hm : m = contents (E ++ [v]) := by
    apply sorted_ext a1.rep.srt
    · rw [happ, List.pairwise_append]
      refine ⟨ha.rep.srt, by simp, ?_⟩
      intro a ha' b hb
      rw [List.mem_singleton] at hb
      subst hb
      exact hkeys a ha'
    · intro k
      rw [g1, happ]
      simp only [id]
      by_cases hk : k = (E.length : Int)
      · rw [if_pos hk, get_append (by intro e he; have := hkeys e he; simp only [id]; omega), get_cons_eq hk.symm]
      · rw [if_neg hk, get_mid_ne (by simp only [id]; omega), List.append_nil]
  subst hm
  refine ⟨⟨s, r.noEntries + 1, r.consumers⟩, ?_, ⟨⟨L', a1⟩, ?_, ?_, ?_⟩, rfl⟩
  · unfold enqueue insertEntry insertCell reserve
    simp only [h.count]
    rw [e1]; rfl
  · simp only [h.count, List.length_append, List.length_singleton]; omega
  · simp only [List.length_append, List.length_singleton]; omega
  · intro c cs hcs
    have := h.heads c cs hcs
    rw [List.length_append, List.length_singleton]
    omega

theorem rangeLoop_spec {s : SL Int (Option α)} {L : List Nat} {m : List (Int × Option α)}
    (h : Abs id (Window (-2)) longMax s L m) (b : Nat) : ∀ (F : List α) (i : Nat) (P : List Nat) (x : Nat) (B : List Nat)
    (f : Nat), L = P ++ x :: B → (x :: B).map (entry s.heap) = (entriesFrom i F).map some → i ≤ b → b < i + F.length →
    b - i < f → rangeLoop s.heap b f x = .ok ((x :: B).take (b - i + 1)) := by
  intro F
  induction F with
  | nil => intro i P x B f _ hm; simp [entriesFrom] at hm
  | cons e F ih =>
    intro i P x B f hL hm hib hbl hf
    obtain ⟨f, rfl⟩ : ∃ g, f = g + 1 := ⟨f - 1, by omega⟩
    rw [entriesFrom, List.map_cons, List.map_cons, List.cons.injEq] at hm
    obtain ⟨n, hn, hnk, _⟩ := entry_some hm.1
    rw [rangeLoop, abs_next h hL, Res.ok_bind]
    by_cases hbi : b = i
    · have : (x :: B).take (b - i + 1) = [x] := by rw [hbi, Nat.sub_self]; rfl
      rw [this]
      cases B with
      | nil => rfl
      | cons y B =>
        simp only [List.head?_cons, keyAt, hn, Res.ok_bind, hnk]
        rw [if_neg (by omega)]
        rfl
    · cases B with
      | nil =>
        have h2 : F.length = 0 := by
          have := congrArg List.length hm.2
          simpa [entriesFrom_length] using this.symm
        rw [List.length_cons] at hbl
        omega
      | cons y B =>
        simp only [List.head?_cons, keyAt, hn, Res.ok_bind, hnk]
        rw [if_pos (by omega)]
        rw [List.length_cons] at hbl
        rw [ih (i + 1) (P ++ [x]) y B f (by rw [hL]; simp) hm.2 (by omega) (by omega) (by omega), Res.ok_bind]
        obtain ⟨d, hd⟩ : ∃ d, b - i = d + 1 := ⟨b - i - 1, by omega⟩
        rw [show b - (i + 1) + 1 = d + 1 by omega, hd, List.take_succ_cons (i := d + 1)]
        rfl

theorem valuesAt_spec {h : Nat → Option (Node Int (Option α))} : ∀ (xs : List Nat) (i : Nat) (F : List α),
    xs.map (entry h) = (entriesFrom i F).map some → valuesAt h xs = .ok F := by
  intro xs
  induction xs with
  | nil =>
    intro i F hm
    cases F with
    | nil => rfl
    | cons e F => simp [entriesFrom] at hm
  | cons x xs ih =>
    intro i F hm
    cases F with
    | nil => simp [entriesFrom] at hm
    | cons e F =>
      rw [entriesFrom, List.map_cons, List.map_cons, List.cons.injEq] at hm
      obtain ⟨n, hn, _, hnv⟩ := entry_some hm.1
      rw [valuesAt, hn]
      simp only [hnv]
      rw [ih (i + 1) F hm.2]
      rfl

theorem range_spec {r : Row α} {E : List α} (h : QInv r E) {a : Int} {a' b : Nat} (ha1 : -1 ≤ a)
    (ha' : (a' : Int) = if a = -1 then 0 else a) (hab : a' ≤ b) (hb : b < E.length) :
    ∃ ns, rangeSearch r.cells a b = .ok ns ∧ ns.length = b - a' + 1 ∧
      valuesAt r.cells.heap ns = .ok ((E.drop a').take (b - a' + 1)) := by
  obtain ⟨L, hL⟩ := h.abs
  have hsplit : contents E = ((-2, none) :: entriesFrom 0 (E.take a')) ++ entriesFrom a' (E.drop a') := by
    unfold contents
    rw [List.cons_append]
    congr 1
    conv_lhs => rw [← List.take_append_drop a' E, entriesFrom_append]
    rw [List.length_take, Nat.min_eq_left (by omega), Nat.zero_add]
  rw [hsplit] at hL
  have hsm := h.small
  have hb' : b < 2 ^ 31 := by omega
  obtain ⟨A, B, e1, e2, e3⟩ := abs_higher_split (longCmp_on (-2)) hL (k := a)
    (by unfold Window; split at ha' <;> omega)
    (by
      intro e he
      simp only [id]
      rw [List.mem_cons] at he
      rcases he with rfl | he
      · simp only; omega
      · have := entriesFrom_mem he
        rw [List.length_take] at this
        split at ha' <;> omega)
    (by
      intro e he
      simp only [id]
      have := entriesFrom_mem he
      split at ha' <;> omega)
  have hlen : B.length = E.length - a' := by
    have := congrArg List.length e2
    simpa [entriesFrom_length] using this
  have hnx := abs_length_le hL
  unfold rangeSearch
  rw [e3, Res.ok_bind]
  cases B with
  | nil => simp at hlen; omega
  | cons x B =>
    simp only [List.head?_cons]
    rw [rangeLoop_spec hL b (E.drop a') a' A x B _ e1 e2 hab (by rw [List.length_drop]; omega)
      (by rw [e1, List.length_append] at hnx; omega)]
    refine ⟨_, rfl, ?_, ?_⟩
    · rw [List.length_take]; omega
    · apply valuesAt_spec _ a'
      rw [← entriesFrom_take, List.map_take, e2, List.map_take]

theorem fetch_spec {r : Row α} {E : List α} (h : QInv r E) {start head : Int} (h1 : -1 ≤ start) (h2 : start < head)
    (h3 : head ≤ E.length - 1) :
    fetch r start head = .ok ⟨if head = E.length - 1 then READ_COMPLETE else READ_INCOMPLETE, head,
      (E.drop (start + 1).toNat).take (head - start).toNat⟩ := by
  obtain ⟨b, rfl⟩ : ∃ b : Nat, head = b := ⟨head.toNat, by omega⟩
  obtain ⟨ns, e1, e2, e3⟩ := range_spec h (a := start + 1) (a' := (start + 1).toNat) (b := b) (by omega)
    (by rw [if_neg (by omega)]; omega) (by omega) (by omega)
  unfold fetch
  rw [e1, Res.ok_bind, if_neg (by omega), e3, Res.ok_bind, h.count]
  rw [show b - (start + 1).toNat + 1 = ((b : Int) - start).toNat by omega]
  rfl

end Verif.Queue
