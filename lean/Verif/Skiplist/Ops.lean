import Verif.Skiplist.Link
/-!
# Skip list: insertion and deletion keep the invariant
-/
namespace Verif.Skiplist
open Verif

variable {K V : Type}

theorem split_mid {A B P R : List Nat} {z x : Nat} (e : A ++ z :: B = P ++ x :: R) :
    (∃ R0, A = P ++ x :: R0 ∧ R = R0 ++ z :: B) ∨ (A = P ∧ z = x ∧ B = R) ∨
      (∃ B1, P = A ++ z :: B1 ∧ B = B1 ++ x :: R) := by
  rcases List.append_eq_append_iff.1 e with ⟨as, h1, h2⟩ | ⟨bs, h1, h2⟩
  · cases as with
    | nil => simp at h1 h2; exact .inr (.inl ⟨h1.symm, h2.1, h2.2⟩)
    | cons a as =>
      rw [List.cons_append] at h2
      injection h2 with h3 h4
      subst h3
      exact .inr (.inr ⟨as, h1, h4⟩)
  · cases bs with
    | nil => simp at h1 h2; exact .inr (.inl ⟨h1, h2.1.symm, h2.2.symm⟩)
    | cons b bs =>
      rw [List.cons_append] at h2
      injection h2 with h3 h4
      subst h3
      exact .inl ⟨bs, h1, h4⟩

theorem split_mid' {A B P R : List Nat} {x : Nat} (e : A ++ B = P ++ x :: R) :
    (∃ R0, A = P ++ x :: R0 ∧ R = R0 ++ B) ∨ (∃ B1, P = A ++ B1 ∧ B = B1 ++ x :: R) := by
  rcases List.append_eq_append_iff.1 e with ⟨as, h1, h2⟩ | ⟨bs, h1, h2⟩
  · exact .inr ⟨as, h1, h2⟩
  · cases bs with
    | nil => simp at h1 h2; exact .inr ⟨[], by simp [h1], by simp [h2]⟩
    | cons b bs =>
      rw [List.cons_append] at h2
      injection h2 with h3 h4
      subst h3
      exact .inl ⟨bs, h1, h4⟩

theorem predAt_unique {h : Nat → Option (Node K V)} {l : List Nat} {i u v : Nat}
    (hu : PredAt h l i u) (hv : PredAt h l i v) : u = v := by
  obtain ⟨Q, R, e, h1, h2⟩ := hu
  obtain ⟨Q', R', e', h1', h2'⟩ := hv
  rw [e] at e'
  rcases split_mid e' with ⟨R0, _, hR⟩ | ⟨_, h, _⟩ | ⟨B1, _, hB⟩
  · have := h2' u (by rw [hR]; simp); omega
  · exact h
  · have := h2 v (by rw [hB]; simp); omega

theorem find_low {h : Nat → Option (Node K V)} {R : List Nat} {i : Nat} (hr : ∀ a ∈ R, ht h a ≤ i) :
    R.find? (tall h i) = none := by
  rw [List.find?_eq_none]
  intro a ha
  rw [tall_of]
  have := hr a ha
  omega

theorem low_of_find {h : Nat → Option (Node K V)} {R : List Nat} {i : Nat}
    (hr : R.find? (tall h i) = none) : ∀ a ∈ R, ht h a ≤ i := by
  intro a ha
  have := List.find?_eq_none.1 hr a ha
  rw [tall_of] at this
  omega

theorem find_congr {h h' : Nat → Option (Node K V)} {R : List Nat} {i : Nat}
    (e : ∀ a ∈ R, ht h' a = ht h a) : R.find? (tall h' i) = R.find? (tall h i) := by
  induction R with
  | nil => rfl
  | cons a R ih =>
    have : tall h' i a = tall h i a := by unfold tall; rw [e a (List.mem_cons_self)]
    rw [List.find?_cons, List.find?_cons, this, ih fun b hb => e b (List.mem_cons_of_mem _ hb)]

theorem fwd_upd {h : Nat → Option (Node K V)} {z : Nat} {n : Option (Node K V)} {a j : Nat} (ha : a ≠ z) :
    fwd (upd h z n) a j = fwd h a j := by unfold fwd upd; rw [if_neg ha]

theorem ht_upd {h : Nat → Option (Node K V)} {z : Nat} {n : Option (Node K V)} {a : Nat} (ha : a ≠ z) :
    ht (upd h z n) a = ht h a := by unfold ht upd; rw [if_neg ha]

theorem entry_upd {h : Nat → Option (Node K V)} {z : Nat} {n : Option (Node K V)} {a : Nat} (ha : a ≠ z) :
    entry (upd h z n) a = entry h a := by unfold entry upd; rw [if_neg ha]

theorem map_congr_mem {α β : Type} {f g : α → β} {l : List α} (h : ∀ a ∈ l, f a = g a) : l.map f = l.map g :=
  List.map_congr_left h

/-- Linking a new node between `A` and `B`. -/
theorem insertNew_spec {rank : K → Int} {s : SL K V} {A B : List Nat} {mA mB : List (K × V)}
    (h : Rep rank s (A ++ B) (mA ++ mB)) (hA : A.map (entry s.heap) = mA.map some)
    (hB : B.map (entry s.heap) = mB.map some) {k : K} (v : V) {lvl : Nat} (hl : lvl < maxLevel)
    (tA : ∀ e ∈ mA, rank e.1 < rank k) (tB : ∀ e ∈ mB, rank k < rank e.1) {us : List Nat}
    (hus : us.length = s.level + 1) (hp : ∀ i u, us[i]? = some u → PredAt s.heap (s.header :: A) i u) :
    ∃ s', insertNew s k v lvl us = .ok s' ∧ Rep rank s' (A ++ s.nxt :: B) (mA ++ (k, v) :: mB) ∧
      s'.header = s.header ∧ (∀ a ∈ s.header :: (A ++ B), ∀ n, s.heap a = some n → ∃ n', s'.heap a = some n' ∧ SameBut n n') := by
  have hz : ∀ a ∈ s.header :: (A ++ B), a ≠ s.nxt := fun a ha => by have := h.fresh a ha; omega
  generalize hzz : s.nxt = z at *
  -- the predecessors on the levels of the new node
  have hup : ∀ i u, ((us ++ List.replicate (lvl - s.level) s.header).take (lvl + 1))[i]? = some u →
      i ≤ lvl ∧ PredAt s.heap (s.header :: A) i u := by
    intro i u hu
    rw [List.getElem?_take] at hu
    split at hu
    · next hi =>
      refine ⟨by omega, ?_⟩
      rw [List.getElem?_append] at hu
      split at hu
      · exact hp i u hu
      · next hge =>
        rw [List.getElem?_replicate] at hu
        split at hu
        · injection hu with hu
          subst hu
          refine ⟨[], A, rfl, by rw [h.hdr]; omega, ?_⟩
          intro a ha
          have := (h.tallest a (by simp [ha])).2
          omega
        · cases hu
    · cases hu
  have hulen : ((us ++ List.replicate (lvl - s.level) s.header).take (lvl + 1)).length = lvl + 1 := by
    rw [List.length_take, List.length_append, List.length_replicate, hus]; omega
  generalize hue : (us ++ List.replicate (lvl - s.level) s.header).take (lvl + 1) = ul at *
  have hmemA : ∀ (i u : Nat), ul[i]? = some u → u ∈ s.header :: A := by
    intro i u hu
    obtain ⟨_, Q, R, e, _⟩ := hup i u hu
    rw [e]; simp
  have hmemA' : ∀ u, u ∈ s.header :: A → u ∈ s.header :: (A ++ B) := by
    intro u hu; simp at hu ⊢; tauto
  generalize hh0 : upd s.heap z (some ⟨k, some v, List.replicate (lvl + 1) none⟩) = h0
  have h0t : ∀ a, a ≠ z → ht h0 a = ht s.heap a := fun a ha => by rw [← hh0]; exact ht_upd ha
  have h0z : ht h0 z = lvl + 1 := by rw [← hh0]; simp [ht, upd]
  have h0f : ∀ a j, a ≠ z → fwd h0 a j = fwd s.heap a j := fun a j ha => by rw [← hh0]; exact fwd_upd ha
  obtain ⟨h', e', sm, f1, f2⟩ := linkLoop_spec z ul h0 0
    (by
      intro j u hu
      have hne := hz u (hmemA' u (hmemA j u hu))
      obtain ⟨_, _, _, _, hi, _⟩ := hup j u hu
      exact ⟨hne, by rw [h0t u hne]; omega⟩)
    (by rw [h0z, hulen]; omega)
  simp only [Nat.zero_le, true_and, Nat.sub_zero, if_true] at f1 f2
  have ht' : ∀ a, a ≠ z → ht h' a = ht s.heap a := fun a ha => by rw [sm.ht, h0t a ha]
  have ht'z : ht h' z = lvl + 1 := by rw [sm.ht, h0z]
  have hent : ∀ a, a ≠ z → entry h' a = entry s.heap a := fun a ha => by
    rw [sm.entry, ← hh0]; exact entry_upd ha
  have hentz : entry h' z = some (k, v) := by
    rw [sm.entry, ← hh0]; simp [entry, upd]
  have hnd := h.nodup
  have hzA : ∀ a ∈ A, a ≠ z := fun a ha => hz a (by simp [ha])
  have hzB : ∀ a ∈ B, a ≠ z := fun a ha => hz a (by simp [ha])
  have hzh : s.header ≠ z := hz _ (by simp)
  have hznot : z ∉ s.header :: (A ++ B) := fun c => hz z c rfl
  refine ⟨⟨if s.level < lvl then lvl else s.level, s.header, s.items + 1, h', z + 1⟩, ?_,
    ⟨?_, ?_, ?_, ?_, ?_, ?_, ?_, ?_, ?_⟩, rfl, ?_⟩
  · unfold insertNew
    simp only
    rw [hzz, hue, hh0, e']
    rfl
  · simp only; rw [ht' _ hzh]; exact h.hdr
  · have : (s.header :: (A ++ z :: B)).Perm (z :: s.header :: (A ++ B)) := by
      refine (List.Perm.cons _ (List.perm_middle)).trans (List.Perm.swap _ _ _)
    exact (List.Perm.nodup_iff this).2 (List.nodup_cons.2 ⟨hznot, hnd⟩)
  · simp only [List.map_append, List.map_cons]
    rw [map_congr_mem fun a ha => hent a (hzA a ha), map_congr_mem fun a ha => hent a (hzB a ha), hA, hB, hentz]
  · intro a ha
    simp only [List.mem_append, List.mem_cons] at ha
    simp only
    have hold : a ∈ A ++ B → 1 ≤ ht h' a ∧ ht h' a ≤ (if s.level < lvl then lvl else s.level) + 1 := by
      intro ha'
      rw [ht' a (hz a (List.mem_cons_of_mem _ ha'))]
      have := h.tallest a ha'
      split <;> omega
    rcases ha with ha | ha | ha
    · exact hold (by simp [ha])
    · rw [ha, ht'z]; split <;> omega
    · exact hold (by simp [ha])
  · intro P x R e i hi
    simp only at hi e ⊢
    rw [← List.cons_append] at e
    have tall_old : ∀ R' : List Nat, (∀ a ∈ R', a ≠ z) → R'.find? (tall h' i) = R'.find? (tall s.heap i) :=
      fun R' hR' => find_congr fun a ha => ht' a (hR' a ha)
    rcases split_mid e with ⟨R0, hP, hR⟩ | ⟨hP, hx, hR⟩ | ⟨B1, hP, hBx⟩
    · -- before the new node
      have hxm : x ∈ s.header :: A := by rw [hP]; simp
      have hxz : x ≠ z := hz x (hmemA' x hxm)
      have hR0 : ∀ a ∈ R0, a ≠ z := by
        intro a ha
        exact hz a (hmemA' a (by rw [hP]; simp [ha]))
      have hold := h.links P x (R0 ++ B) (by rw [← List.cons_append, hP]; simp) i (by rw [← ht' x hxz]; exact hi)
      rw [f1 x i hxz, h0f x i hxz, hold, hR, List.find?_append, List.find?_append, tall_old R0 hR0,
        List.find?_cons]
      by_cases hc : ul[i]? = some x
      · rw [if_pos hc]
        obtain ⟨hil, Q, R', e2, hxi, hlow⟩ := hup i x hc
        have : R' = R0 := by
          rw [hP] at e2
          rcases split_mid e2 with ⟨R1, h1, _⟩ | ⟨_, _, h1⟩ | ⟨B2, h1, _⟩
          · exfalso
            have hnd' : (s.header :: A).Nodup := (List.nodup_append.1 (by rw [← List.cons_append] at hnd; exact hnd)).1
            rw [hP, h1] at hnd'
            simp [List.nodup_append, List.nodup_cons] at hnd'
          · exact h1.symm
          · exfalso
            have hnd' : (s.header :: A).Nodup := (List.nodup_append.1 (by rw [← List.cons_append] at hnd; exact hnd)).1
            rw [hP, e2, h1] at hnd'
            simp [List.nodup_append, List.nodup_cons] at hnd'
        subst this
        rw [find_low hlow, Option.none_or]
        have : tall h' i z = true := by rw [tall_of, ht'z]; omega
        simp only [this]
      · rw [if_neg hc]
        cases hf : R0.find? (tall s.heap i) with
        | some y => simp
        | none =>
          rw [Option.none_or, Option.none_or]
          have hpx : PredAt s.heap (s.header :: A) i x :=
            ⟨P, R0, hP, by rw [← ht' x hxz]; exact hi, low_of_find hf⟩
          have hil : ¬ i ≤ lvl := by
            intro hil
            have : i < ul.length := by omega
            have hui := List.getElem?_eq_getElem this
            have := predAt_unique hpx (hup i _ hui).2
            rw [this] at hc
            exact hc hui
          have : tall h' i z = false := by
            rw [Bool.eq_false_iff]; intro c; rw [tall_of, ht'z] at c; omega
          simp only [this]
          rw [tall_old B hzB]
    · -- the new node
      subst hx
      subst hR
      have hil : i < ul.length := by omega
      have hui := List.getElem?_eq_getElem hil
      rw [f2 i, hui]
      simp only
      obtain ⟨_, Q, R', e2, hxi, hlow⟩ := hup i _ hui
      have hne := hz _ (hmemA' _ (hmemA i _ hui))
      rw [h0f _ _ hne, h.links Q _ (R' ++ B) (by rw [← List.cons_append, e2]; simp) i hxi,
        List.find?_append, find_low hlow, Option.none_or, tall_old B hzB]
    · -- behind the new node
      have hxB : x ∈ B := by rw [hBx]; simp
      have hxz := hzB x hxB
      have hnu : ul[i]? ≠ some x := by
        intro c
        have hxA := hmemA i x c
        rw [← List.cons_append] at hnd
        exact (List.nodup_append.1 hnd).2.2 x hxA x hxB rfl
      rw [f1 x i hxz, if_neg hnu, h0f x i hxz,
        h.links (s.header :: A ++ B1) x R (by rw [hBx]; simp) i (by rw [← ht' x hxz]; exact hi),
        tall_old R fun a ha => hzB a (by rw [hBx]; simp [ha])]
  · simp only; have := h.lvl; split <;> omega
  · have := h.srt
    rw [List.pairwise_append] at this ⊢
    refine ⟨this.1, List.pairwise_cons.2 ⟨fun e he => tB e he, this.2.1⟩, ?_⟩
    intro a ha b hb
    rw [List.mem_cons] at hb
    rcases hb with rfl | hb
    · exact tA a ha
    · exact this.2.2 a ha b hb
  · intro a ha
    simp only
    by_cases haz : a = z
    · omega
    · have := h.fresh a (by simp at ha ⊢; tauto)
      omega
  · simp only [List.length_append, List.length_cons]
    have := h.items
    simp only [List.length_append] at this
    omega
  · intro a ha n hn
    simp only
    have hne := hz a ha
    have : h0 a = some n := by rw [← hh0]; unfold upd; rw [if_neg hne]; exact hn
    rcases sm a with ⟨g1, _⟩ | ⟨m, m', g1, g2, g3⟩
    · rw [this] at g1; cases g1
    · rw [this] at g1; cases g1
      exact ⟨m', g2, g3⟩

/-- Replacing the value of a node. -/
theorem setVal_spec {rank : K → Int} {s : SL K V} {A B : List Nat} {y : Nat} {mA mB : List (K × V)} {k : K} {v0 : V}
    (h : Rep rank s (A ++ y :: B) (mA ++ (k, v0) :: mB)) (hA : A.map (entry s.heap) = mA.map some)
    (hB : (y :: B).map (entry s.heap) = ((k, v0) :: mB).map some) (v : V) {n : Node K V} (hn : s.heap y = some n) :
    Rep rank { s with heap := upd s.heap y (some { n with val := some v }) } (A ++ y :: B) (mA ++ (k, v) :: mB) := by
  have hht : ∀ a, ht (upd s.heap y (some { n with val := some v })) a = ht s.heap a := by
    intro a
    by_cases ha : a = y
    · subst ha; simp [ht, upd, hn]
    · exact ht_upd ha
  have hfw : ∀ a j, fwd (upd s.heap y (some { n with val := some v })) a j = fwd s.heap a j := by
    intro a j
    by_cases ha : a = y
    · subst ha; simp [fwd, upd, hn]
    · exact fwd_upd ha
  have hnd := h.nodup
  have hne : ∀ a, a ∈ A ∨ a ∈ B → a ≠ y := by
    rintro a ha rfl
    simp [List.nodup_cons, List.nodup_append] at hnd
    rcases ha with ha | ha
    · exact (hnd.2.2.2 a ha).1 rfl
    · exact hnd.2.2.1.1 ha
  simp only [List.map_cons, List.cons.injEq] at hB
  obtain ⟨n', h1, h2, h3⟩ := entry_some hB.1
  rw [hn] at h1; cases h1
  refine ⟨?_, hnd, ?_, ?_, ?_, h.lvl, ?_, h.fresh, h.items⟩
  · simp only; rw [hht]; exact h.hdr
  · simp only [List.map_append, List.map_cons]
    rw [map_congr_mem fun a ha => entry_upd (hne a (.inl ha)), map_congr_mem fun a ha => entry_upd (hne a (.inr ha)),
      hA, hB.2]
    congr 2
    simp [entry, upd, h2]
  · intro a ha; simp only; rw [hht]; exact h.tallest a ha
  · intro P x R e i hi
    simp only at hi e ⊢
    rw [hht] at hi
    rw [hfw, h.links P x R e i hi, find_congr fun a _ => hht a]
  · have := h.srt
    rw [List.pairwise_append] at this ⊢
    refine ⟨this.1, ?_, ?_⟩
    · rw [List.pairwise_cons] at this ⊢
      exact ⟨this.2.1.1, this.2.1.2⟩
    · intro a ha b hb
      rw [List.mem_cons] at hb
      rcases hb with rfl | hb
      · exact this.2.2 a ha (k, v0) (by simp)
      · exact this.2.2 a ha b (by simp [hb])

/-- Lowering the level. -/
theorem lowerLevel_spec {h : Nat → Option (Node K V)} {hd : Nat} {L : List Nat} (hl : Links h (hd :: L))
    (hh : ht h hd = maxLevel) : ∀ (l : Nat), l < maxLevel → (∀ a ∈ L, ht h a ≤ l + 1) →
    ∃ l', lowerLevel h hd l = .ok l' ∧ l' ≤ l ∧ ∀ a ∈ L, ht h a ≤ l' + 1 := by
  intro l
  induction l with
  | zero => intro _ ha; exact ⟨0, rfl, by omega, ha⟩
  | succ l ih =>
    intro hlt ha
    rw [lowerLevel, hl [] hd L rfl (l + 1) (by omega), Res.ok_bind]
    cases hf : L.find? (tall h (l + 1)) with
    | some y => exact ⟨l + 1, rfl, by omega, ha⟩
    | none =>
      simp only
      obtain ⟨l', e, h1, h2⟩ := ih (by omega) (low_of_find hf)
      exact ⟨l', e, by omega, h2⟩

/-- Unlinking the node `x` between `A` and `B`. -/
theorem deleteNode_spec {rank : K → Int} {s : SL K V} {A B : List Nat} {x : Nat} {mA mB : List (K × V)} {k : K} {v : V}
    (h : Rep rank s (A ++ x :: B) (mA ++ (k, v) :: mB)) (hA : A.map (entry s.heap) = mA.map some)
    (hB : (x :: B).map (entry s.heap) = ((k, v) :: mB).map some) {us : List Nat} {n : Node K V} (hn : s.heap x = some n)
    (hus : us.length = s.level + 1) (hp : ∀ i u, us[i]? = some u → PredAt s.heap (s.header :: A) i u) :
    ∃ s', deleteNode s x n us = .ok (s', some v) ∧ Rep rank s' (A ++ B) (mA ++ mB) ∧ s'.header = s.header ∧
      (∀ a ∈ s.header :: (A ++ B), ∀ n, s.heap a = some n → ∃ n', s'.heap a = some n' ∧ SameBut n n') := by
  have hnd := h.nodup
  have hnd2 : ((s.header :: A) ++ x :: B).Nodup := hnd
  have hxA : ∀ a ∈ s.header :: A, a ≠ x := fun a ha => (List.nodup_append.1 hnd2).2.2 a ha x (by simp)
  have hxB : ∀ a ∈ B, a ≠ x := by
    rintro a ha rfl
    exact (List.nodup_cons.1 (List.nodup_append.1 hnd2).2.1).1 ha
  have hmemA : ∀ (i u : Nat), us[i]? = some u → u ∈ s.header :: A := by
    intro i u hu
    obtain ⟨Q, R, e, _⟩ := hp i u hu
    rw [e]; simp
  obtain ⟨h', e', sm, f1⟩ := unlinkLoop_spec x us s.heap 0
    (by
      intro j u hu
      obtain ⟨Q, R, e, hi, _⟩ := hp j u hu
      exact ⟨hxA u (hmemA j u hu), by omega⟩)
    (by
      intro j u hu
      obtain ⟨Q, R, e, hi, hlow⟩ := hp j u hu
      rw [Nat.zero_add, h.links Q u (R ++ x :: B) (by rw [← List.cons_append, e]; simp) j hi, List.find?_append,
        find_low hlow, Option.none_or, List.find?_cons]
      by_cases ht' : tall s.heap j x = true
      · simp only [ht', true_iff]; exact tall_of.1 ht'
      · rw [Bool.not_eq_true] at ht'
        simp only [ht']
        constructor
        · intro c
          injection c with c
          exact absurd rfl (hxB x (List.mem_of_find?_eq_some c))
        · intro c
          have := tall_of.2 c
          rw [ht'] at this
          cases this)
  simp only [Nat.zero_le, true_and, Nat.sub_zero] at f1
  have hht : ∀ a, a ≠ x → ht (upd h' x none) a = ht s.heap a := fun a ha => by rw [ht_upd ha, sm.ht]
  have hent : ∀ a, a ≠ x → entry (upd h' x none) a = entry s.heap a := fun a ha => by rw [entry_upd ha, sm.entry]
  simp only [List.map_cons, List.cons.injEq] at hB
  obtain ⟨n', h1, h2, h3⟩ := entry_some hB.1
  rw [hn] at h1; cases h1
  have hlinks : Links (upd h' x none) (s.header :: (A ++ B)) := by
    intro P y R e i hi
    rw [← List.cons_append] at e
    have tall_old : ∀ R' : List Nat, (∀ a ∈ R', a ≠ x) → R'.find? (tall (upd h' x none) i) = R'.find? (tall s.heap i) :=
      fun R' hR' => find_congr fun a ha => hht a (hR' a ha)
    rcases split_mid' e with ⟨R0, hP, hR⟩ | ⟨B1, hP, hBx⟩
    · have hyx : y ≠ x := hxA y (by rw [hP]; simp)
      have hR0 : ∀ a ∈ R0, a ≠ x := fun a ha => hxA a (by rw [hP]; simp [ha])
      have hiy : i < ht s.heap y := by rw [← hht y hyx]; exact hi
      have hold := h.links P y (R0 ++ x :: B) (by rw [← List.cons_append, hP]; simp) i hiy
      rw [fwd_upd hyx, f1 y i, hold, hR, List.find?_append, List.find?_append, tall_old R0 hR0,
        tall_old B hxB, List.find?_cons]
      by_cases hc : us[i]? = some y ∧ i < ht s.heap x
      · rw [if_pos hc, h.links (s.header :: A) x B rfl i hc.2]
        have hlow : R0.find? (tall s.heap i) = none := by
          obtain ⟨Q, R', e2, _, hlow⟩ := hp i y hc.1
          rw [hP] at e2
          rcases split_mid e2 with ⟨R1, h1, h4⟩ | ⟨_, _, h1⟩ | ⟨B2, h1, h4⟩
          · exfalso
            have hnd' : (s.header :: A).Nodup := (List.nodup_append.1 hnd2).1
            rw [hP, h1] at hnd'
            simp [List.nodup_append, List.nodup_cons] at hnd'
          · rw [h1]; exact find_low hlow
          · exfalso
            have hnd' : (s.header :: A).Nodup := (List.nodup_append.1 hnd2).1
            rw [hP, e2, h1] at hnd'
            simp [List.nodup_append, List.nodup_cons] at hnd'
        rw [hlow, Option.none_or]
      · rw [if_neg hc]
        cases hf : R0.find? (tall s.heap i) with
        | some w => simp
        | none =>
          rw [Option.none_or, Option.none_or]
          have hpy : PredAt s.heap (s.header :: A) i y := ⟨P, R0, hP, hiy, low_of_find hf⟩
          have hxi : ¬ i < ht s.heap x := by
            intro hxi
            have := (h.tallest x (by simp)).2
            have hlt : i < us.length := by omega
            have hui := List.getElem?_eq_getElem hlt
            have := predAt_unique hpy (hp i _ hui)
            rw [this] at hc
            exact hc ⟨hui, hxi⟩
          have : tall s.heap i x = false := by
            rw [Bool.eq_false_iff]; intro c; exact hxi (tall_of.1 c)
          simp only [this]
    · have hyB : y ∈ B := by rw [hBx]; simp
      have hyx := hxB y hyB
      have hnu : us[i]? ≠ some y := by
        intro c
        exact (List.nodup_append.1 hnd2).2.2 y (hmemA i y c) y (by simp [hyB]) rfl
      rw [fwd_upd hyx, f1 y i, if_neg (by tauto),
        h.links (s.header :: A ++ x :: B1) y R (by rw [hBx]; simp) i (by rw [← hht y hyx]; exact hi),
        tall_old R fun a ha => hxB a (by rw [hBx]; simp [ha])]
  have hhx : s.header ≠ x := hxA _ (by simp)
  obtain ⟨l', el, hl1, hl2⟩ := lowerLevel_spec hlinks (by rw [hht _ hhx]; exact h.hdr) s.level h.lvl
    (by
      intro a ha
      have : a ≠ x := by
        rw [List.mem_append] at ha
        rcases ha with ha | ha
        · exact hxA a (by simp [ha])
        · exact hxB a ha
      rw [hht a this]
      exact (h.tallest a (by simp at ha ⊢; tauto)).2)
  refine ⟨⟨l', s.header, s.items - 1, upd h' x none, s.nxt⟩, ?_, ⟨?_, ?_, ?_, ?_, hlinks, ?_, ?_, ?_, ?_⟩, rfl, ?_⟩
  · unfold deleteNode
    rw [e', Res.ok_bind]
    simp only
    rw [el, Res.ok_bind, h3]
    rfl
  · simp only; rw [hht _ hhx]; exact h.hdr
  · have : (s.header :: (A ++ x :: B)).Perm (x :: s.header :: (A ++ B)) :=
      (List.Perm.cons _ (List.perm_middle)).trans (List.Perm.swap _ _ _)
    exact (List.nodup_cons.1 ((List.Perm.nodup_iff this).1 hnd)).2
  · simp only [List.map_append]
    rw [map_congr_mem fun a ha => hent a (hxA a (by simp [ha])), map_congr_mem fun a ha => hent a (hxB a ha), hA, hB.2]
  · intro a ha
    simp only
    refine ⟨?_, hl2 a ha⟩
    have : a ≠ x := by
      rw [List.mem_append] at ha
      rcases ha with ha | ha
      · exact hxA a (by simp [ha])
      · exact hxB a ha
    rw [hht a this]
    exact (h.tallest a (by simp at ha ⊢; tauto)).1
  · have := h.lvl; simp only; omega
  · have := h.srt
    rw [List.pairwise_append] at this ⊢
    refine ⟨this.1, (List.pairwise_cons.1 this.2.1).2, fun a ha b hb => this.2.2 a ha b (by simp [hb])⟩
  · intro a ha
    exact h.fresh a (by simp at ha ⊢; tauto)
  · have := h.items
    simp only [List.length_append, List.length_cons] at this ⊢
    omega
  · intro a ha m hm
    simp only
    have hne : a ≠ x := by
      rw [← List.cons_append, List.mem_append] at ha
      rcases ha with ha | ha
      · exact hxA a ha
      · exact hxB a ha
    unfold upd
    rw [if_neg hne]
    rcases sm a with ⟨g1, _⟩ | ⟨m1, m', g1, g2, g3⟩
    · rw [hm] at g1; cases g1
    · rw [hm] at g1; cases g1
      exact ⟨m', g2, g3⟩

end Verif.Skiplist
