import Verif.Unify.Good

/-! Unification ends, and its outcome satisfies the invariant. -/
namespace Verif.Unify
open Verif.Ty

/-- A fully substituted type. -/
structure Fresh (V : List Nat) (s : Subst) (t : Ty) : Prop where
  norm : Ty.Norm t
  inV : InV V t
  free : ∀ u ∈ Ty.ufree t, u ∉ dom s

theorem Fresh.fix {V : List Nat} {s : Subst} {t : Ty} (h : Fresh V s t) : app s t = t :=
  app_fresh h.norm h.free

/-- What has been shown for smaller problems. -/
def Below (lvl : Nat → Nat) (ex : Nat → List Ty → Option Ty) (V : List Nat) (k z : Nat) : Prop :=
  ∀ s a b, Acyclic s → InVs V s → Ty.Norm a → Ty.Norm b → InV V a → InV V b →
    (unb V s < k ∨ (unb V s = k ∧ size (app s a) + size (app s b) < z)) →
    ∃ o N, (∀ n, N ≤ n → unifyF lvl ex n s a b = o) ∧ Good V s [(a, b)] o

theorem seq_good {lvl : Nat → Nat} {ex : Nat → List Ty → Option Ty} {V : List Nat} {k z : Nat}
    (IH : Below lvl ex V k z) : ∀ (ps : List (Ty × Ty)) (s : Subst), Acyclic s → InVs V s →
    (∀ p ∈ ps, Ty.Norm p.1 ∧ Ty.Norm p.2 ∧ InV V p.1 ∧ InV V p.2 ∧
      (unb V s < k ∨ (unb V s = k ∧ size (app s p.1) + size (app s p.2) < z))) →
    ∃ o N, (∀ n, N ≤ n → seq (unifyF lvl ex n) s ps = o) ∧ Good V s ps o := by
  intro ps
  induction ps with
  | nil =>
    intro s hs hV _
    exact ⟨.ok s, 0, fun n _ => rfl, good_same hs hV (by simp)⟩
  | cons p ps ih =>
    obtain ⟨a, b⟩ := p
    intro s hs hV hps
    have hp := hps (a, b) (by simp)
    obtain ⟨o1, N1, hr1, hg1⟩ := IH s a b hs hV hp.1 hp.2.1 hp.2.2.1 hp.2.2.2.1 hp.2.2.2.2
    cases o1 with
    | out => exact absurd hg1 (by simp [Good])
    | fail =>
      refine ⟨.fail, N1, ?_, ?_⟩
      · intro n hn; simp [seq, hr1 n hn]
      · intro ar θ hsv
        refine hg1 ar θ ?_
        intro q hq
        rw [List.mem_singleton] at hq
        subst hq
        exact hsv _ (by simp)
    | ok s1 =>
      obtain ⟨d1, he1, hs1, hV1, hc1, hl1, hm1⟩ := hg1
      have hps' : ∀ p ∈ ps, Ty.Norm p.1 ∧ Ty.Norm p.2 ∧ InV V p.1 ∧ InV V p.2 ∧
          (unb V s1 < k ∨ (unb V s1 = k ∧ size (app s1 p.1) + size (app s1 p.2) < z)) := by
        intro q hq
        have h := hps q (List.mem_cons_of_mem _ hq)
        refine ⟨h.1, h.2.1, h.2.2.1, h.2.2.2.1, ?_⟩
        by_cases hd : d1 = []
        · subst hd
          rw [List.nil_append] at he1
          subst he1
          exact h.2.2.2.2
        · left
          have : unb V s1 < unb V s := by
            rw [he1]; exact unb_lt (he1 ▸ hs1) (he1 ▸ hV1) hd
          rcases h.2.2.2.2 with h | h <;> omega
      obtain ⟨o2, N2, hr2, hg2⟩ := ih s1 hs1 hV1 hps'
      have hmove : ∀ ar θ, Solves ar θ s ((a, b) :: ps) → Solves ar θ s1 ps := by
        intro ar θ hsv q hq
        have hm := hm1 ar θ (by
          intro r hr
          rw [List.mem_singleton] at hr
          subst hr
          exact hsv _ (by simp))
        have hq' := hsv q (List.mem_cons_of_mem _ hq)
        have hn := hps' q hq
        rw [he1, app_append hs hn.1, app_append hs hn.2.1]
        refine ⟨nice_inst (fun v => (hm v).1) (fun v => (hm v).2) hq'.1,
          nice_inst (fun v => (hm v).1) (fun v => (hm v).2) hq'.2.1, ?_⟩
        show inst θ (inst (appVar d1) _) = inst θ (inst (appVar d1) _)
        rw [inst_inst_same (fun v => (hm v).2), inst_inst_same (fun v => (hm v).2)]
        exact hq'.2.2
      refine ⟨o2, max N1 N2, ?_, ?_⟩
      · intro n hn
        simp only [seq, hr1 n (Nat.le_trans (Nat.le_max_left _ _) hn)]
        exact hr2 n (Nat.le_trans (Nat.le_max_right _ _) hn)
      · cases o2 with
        | out => exact hg2
        | fail => intro ar θ hsv; exact hg2 ar θ (hmove ar θ hsv)
        | ok s2 =>
          obtain ⟨d2, he2, hs2, hV2, hc2, hl2, hm2⟩ := hg2
          refine ⟨d2 ++ d1, by rw [he2, he1, List.append_assoc], hs2, hV2, ?_, ?_, ?_⟩
          · intro q hq
            rcases List.mem_cons.mp hq with rfl | hq
            · show Compat (app s2 a) (app s2 b)
              rw [he2, app_append hs1 hp.1, app_append hs1 hp.2.1]
              exact compat_inst _ (hc1 (a, b) (by simp))
            · exact hc2 q hq
          · intro ar hc v
            have hl := hl1 ar (by
              intro r hr
              rw [List.mem_singleton] at hr
              subst hr
              exact hc _ (by simp))
            have hl' := hl2 ar (by
              intro q hq
              have hn := hps' q hq
              have hq' := hc q (List.mem_cons_of_mem _ hq)
              rw [he1, app_append hs hn.1, app_append hs hn.2.1]
              exact ⟨clean_inst ar _ hl _ hq'.1, clean_inst ar _ hl _ hq'.2⟩)
            rcases appVar_append d2 d1 v with h | h
            · rw [h]; exact clean_inst ar _ hl' _ (hl v)
            · rw [h, List.nil_append]; exact hl v
          · intro ar θ hsv v
            have hm := hm1 ar θ (by
              intro r hr
              rw [List.mem_singleton] at hr
              subst hr
              exact hsv _ (by simp))
            have hm' := hm2 ar θ (hmove ar θ hsv)
            rcases appVar_append d2 d1 v with h | h
            · rw [h]
              refine ⟨nice_inst (fun v => (hm' v).1) (fun v => (hm' v).2) (hm v).1, ?_⟩
              show inst θ (inst (appVar d2) _) = _
              rw [inst_inst_same (fun v => (hm' v).2)]
              exact (hm v).2
            · rw [h, List.nil_append]; exact hm v

/-- The parts of fully substituted types. -/
theorem seq_fresh {lvl : Nat → Nat} {ex : Nat → List Ty → Option Ty} {V : List Nat} {k z : Nat}
    (IH : Below lvl ex V k z) {ps : List (Ty × Ty)} {s : Subst} {t1 t2 : Ty} (hs : Acyclic s)
    (hV : InVs V s) (hk : unb V s = k) (f1 : app s t1 = t1) (f2 : app s t2 = t2)
    (hps : ∀ p ∈ ps, Fresh V s p.1 ∧ Fresh V s p.2 ∧ size p.1 + size p.2 < z)
    (ha : ∀ σ : Nat → Ty, (∀ p ∈ ps, Compat (inst σ p.1) (inst σ p.2)) →
      Compat (inst σ t1) (inst σ t2))
    (hb : ∀ ar θ, Nice ar θ t1 → Nice ar θ t2 → inst θ t1 = inst θ t2 →
      ∀ p ∈ ps, Nice ar θ p.1 ∧ Nice ar θ p.2 ∧ inst θ p.1 = inst θ p.2)
    (hcl : ∀ ar, Clean ar t1 → Clean ar t2 → ∀ p ∈ ps, Clean ar p.1 ∧ Clean ar p.2) :
    ∃ o N, (∀ n, N ≤ n → seq (unifyF lvl ex n) s ps = o) ∧ Good V s [(t1, t2)] o := by
  obtain ⟨o, N, h1, h2⟩ := seq_good IH ps s hs hV (by
    intro p hp
    obtain ⟨h1, h2, h3⟩ := hps p hp
    refine ⟨h1.norm, h2.norm, h1.inV, h2.inV, Or.inr ⟨hk, ?_⟩⟩
    rw [h1.fix, h2.fix]; exact h3)
  refine ⟨o, N, h1, good_lift f1 f2 ?_ ha hb hcl h2⟩
  intro p hp
  exact ⟨(hps p hp).1.fix, (hps p hp).2.1.fix⟩

theorem mem_zip_left {α : Type} {a b : α} {l m : List α} (h : (a, b) ∈ l.zip m) :
    a ∈ l ∧ b ∈ m := ⟨(List.of_mem_zip h).1, (List.of_mem_zip h).2⟩

theorem norms_iff {ts : List Ty} : Ty.Norms ts ↔ ∀ t ∈ ts, Ty.Norm t := by
  induction ts with
  | nil => simp [Ty.Norms]
  | cons t ts ih => simp [Ty.Norms, ih]

theorem fresh_con {V : List Nat} {s : Subst} {n : Nat} {ts : List Ty}
    (h : Fresh V s (.con n ts)) {t : Ty} (ht : t ∈ ts) : Fresh V s t := by
  obtain ⟨h1, h2, h3⟩ := h
  simp only [Ty.Norm] at h1
  simp only [InV, Ty.ufree] at h2
  simp only [Ty.ufree] at h3
  exact ⟨norms_iff.mp h1 t ht, fun v hv => h2 v (mem_ufrees.mpr ⟨t, ht, hv⟩),
    fun v hv => h3 v (mem_ufrees.mpr ⟨t, ht, hv⟩)⟩

theorem fresh_fn {V : List Nat} {s : Subst} {a b c d : Ty} (h : Fresh V s (.fn a b c d)) :
    Fresh V s a ∧ Fresh V s b ∧ Fresh V s c ∧ Fresh V s d := by
  obtain ⟨h1, h2, h3⟩ := h
  simp only [Ty.Norm] at h1
  simp only [InV, Ty.ufree, List.mem_append] at h2
  simp only [Ty.ufree, List.mem_append] at h3
  exact ⟨⟨h1.1, fun v hv => h2 v (by tauto), fun v hv => h3 v (by tauto)⟩,
    ⟨h1.2.1, fun v hv => h2 v (by tauto), fun v hv => h3 v (by tauto)⟩,
    ⟨h1.2.2.1, fun v hv => h2 v (by tauto), fun v hv => h3 v (by tauto)⟩,
    ⟨h1.2.2.2, fun v hv => h2 v (by tauto), fun v hv => h3 v (by tauto)⟩⟩

theorem fresh_tup {V : List Nat} {s : Subst} {a b : Ty} (h : Fresh V s (.tup a b)) :
    Fresh V s a ∧ Fresh V s b := by
  obtain ⟨h1, h2, h3⟩ := h
  simp only [Ty.Norm] at h1
  simp only [InV, Ty.ufree, List.mem_append] at h2
  simp only [Ty.ufree, List.mem_append] at h3
  exact ⟨⟨h1.1, fun v hv => h2 v (by tauto), fun v hv => h3 v (by tauto)⟩,
    ⟨h1.2, fun v hv => h2 v (by tauto), fun v hv => h3 v (by tauto)⟩⟩

theorem fresh_row {V : List Nat} {s : Subst} {k : Ty.RKind} {n : Nat} {a b : Ty}
    (h : Fresh V s (.row k n a b)) : Fresh V s a ∧ Fresh V s b := by
  obtain ⟨h1, h2, h3⟩ := h
  simp only [Ty.Norm] at h1
  simp only [InV, Ty.ufree, List.mem_append] at h2
  simp only [Ty.ufree, List.mem_append] at h3
  exact ⟨⟨h1.1, fun v hv => h2 v (by tauto), fun v hv => h3 v (by tauto)⟩,
    ⟨h1.2, fun v hv => h2 v (by tauto), fun v hv => h3 v (by tauto)⟩⟩

theorem fresh_opt {V : List Nat} {s : Subst} {a : Ty} (h : Fresh V s (.opt a)) :
    Fresh V s a := by
  obtain ⟨h1, h2, h3⟩ := h
  simp only [Ty.Norm] at h1
  exact ⟨h1.1, h2, h3⟩

theorem fresh_star {V : List Nat} {s : Subst} {k : Ty.RKind} {a : Ty}
    (h : Fresh V s (.star k a)) : Fresh V s a := by
  obtain ⟨h1, h2, h3⟩ := h
  simp only [Ty.Norm] at h1
  exact ⟨h1, h2, h3⟩

/-- An outcome that takes no recursive call. -/
theorem const_ok {V : List Nat} {s : Subst} {ps : List (Ty × Ty)} {f : Nat → Out} {o : Out}
    (h : ∀ n, f n = o) (hg : Good V s ps o) :
    ∃ o N, (∀ n, N ≤ n → f n = o) ∧ Good V s ps o := ⟨o, 0, fun n _ => h n, hg⟩

theorem good_bindVar {V : List Nat} {s : Subst} {v : Nat} {t t1 t2 : Ty} (hs : Acyclic s)
    (hV : InVs V s) (hv : Fresh V s (.uni v)) (ht : Fresh V s t) (hne : t ≠ .uni v)
    (hcase : (t1 = .uni v ∧ t2 = t) ∨ (t1 = t ∧ t2 = .uni v)) :
    Good V s [(t1, t2)] (bindVar s v t) := by
  unfold bindVar
  by_cases h : v ∈ Ty.ufree t
  · rw [if_pos h]
    exact good_occurs ht.fix hv.fix h hne hcase
  · rw [if_neg h]
    exact good_bind hs hV ht.norm ht.free (hv.inV v (by simp [Ty.ufree])) ht.inV
      (hv.free v (by simp [Ty.ufree])) h hcase

theorem good_bindVars {V : List Nat} {s : Subst} {v w : Nat} (lvl : Nat → Nat) (hs : Acyclic s)
    (hV : InVs V s) (hv : Fresh V s (.uni v)) (hw : Fresh V s (.uni w)) :
    Good V s [(.uni v, .uni w)] (bindVars lvl s v w) := by
  unfold bindVars
  by_cases h : v = w
  · rw [if_pos h, h]
    exact good_same hs hV (by intro p hp; rw [List.mem_singleton] at hp; subst hp; exact .refl)
  · rw [if_neg h]
    by_cases hl : lvl v < lvl w
    · rw [if_pos hl]
      exact good_bind hs hV hv.norm hv.free (hw.inV w (by simp [Ty.ufree])) hv.inV
        (hw.free w (by simp [Ty.ufree])) (by simp [Ty.ufree]; omega) (Or.inr ⟨rfl, rfl⟩)
    · rw [if_neg hl]
      exact good_bind hs hV hw.norm hw.free (hv.inV v (by simp [Ty.ufree])) hw.inV
        (hv.free v (by simp [Ty.ufree])) (by simp [Ty.ufree]; omega) (Or.inl ⟨rfl, rfl⟩)

theorem good_refl {V : List Nat} {s : Subst} {t : Ty} (hs : Acyclic s) (hV : InVs V s) :
    Good V s [(t, t)] (.ok s) :=
  good_same hs hV (by intro p hp; rw [List.mem_singleton] at hp; subst hp; exact .refl)

theorem core_uniL (u : Subst → Ty → Ty → Out) (lvl : Nat → Nat) (s : Subst) (v : Nat) {t : Ty}
    (h : tag t ≠ 0) : core u lvl s (.uni v) t = bindVar s v t := by
  cases t <;> first | exact absurd rfl h | rfl

theorem core_uniR (u : Subst → Ty → Ty → Out) (lvl : Nat → Nat) (s : Subst) (v : Nat) {t : Ty}
    (h : tag t ≠ 0) : core u lvl s t (.uni v) = bindVar s v t := by
  cases t <;> first | exact absurd rfl h | rfl

theorem core_clash (u : Subst → Ty → Ty → Out) (lvl : Nat → Nat) (s : Subst) {t1 t2 : Ty}
    (h1 : tag t1 ≠ 0) (h2 : tag t2 ≠ 0) (h : tag t1 ≠ tag t2) : core u lvl s t1 t2 = .fail := by
  cases t1 <;> cases t2 <;>
    first | exact absurd rfl h | exact absurd rfl h1 | exact absurd rfl h2 | rfl

theorem tag_uni {t : Ty} (h : tag t = 0) : ∃ v, t = .uni v := by
  cases t with
  | uni v => exact ⟨v, rfl⟩
  | _ => simp [tag] at h

theorem tag_wild {t : Ty} (h : isWild t = true) : t = .wild := by
  cases t with
  | wild => rfl
  | _ => simp [isWild] at h

theorem optOf_inj {a b : Ty} (ha : ¬ Ty.IsOpt a) (hb : ¬ Ty.IsOpt b)
    (h : Ty.optOf a = Ty.optOf b) : a = b := by
  rw [Ty.optOf_of_not ha, Ty.optOf_of_not hb] at h
  exact Ty.opt.inj h

theorem core_good {lvl : Nat → Nat} {ex : Nat → List Ty → Option Ty} {V : List Nat} {k z : Nat}
    (IH : Below lvl ex V k z) {s : Subst} {t1 t2 : Ty} (hs : Acyclic s) (hV : InVs V s)
    (hk : unb V s = k) (hz : size t1 + size t2 ≤ z) (f1 : Fresh V s t1) (f2 : Fresh V s t2)
    (hw1 : isWild t1 = false) (hc : sameCon t1 t2 = none) :
    ∃ o N, (∀ n, N ≤ n → core (unifyF lvl ex n) lvl s t1 t2 = o) ∧ Good V s [(t1, t2)] o := by
  by_cases g1 : tag t1 = 0
  · obtain ⟨v, rfl⟩ := tag_uni g1
    by_cases g2 : tag t2 = 0
    · obtain ⟨w, rfl⟩ := tag_uni g2
      exact const_ok (fun n => rfl) (good_bindVars lvl hs hV f1 f2)
    · exact const_ok (fun n => core_uniL _ lvl s v g2)
        (good_bindVar hs hV f1 f2 (by rintro rfl; exact g2 rfl) (Or.inl ⟨rfl, rfl⟩))
  · by_cases g2 : tag t2 = 0
    · obtain ⟨w, rfl⟩ := tag_uni g2
      exact const_ok (fun n => core_uniR _ lvl s w g1)
        (good_bindVar hs hV f2 f1 (by rintro rfl; exact g1 rfl) (Or.inr ⟨rfl, rfl⟩))
    · by_cases g : tag t1 = tag t2
      · cases t1 with
        | uni v => exact absurd rfl g1
        | var v =>
          cases t2 with
          | var w =>
            by_cases h : v = w
            · subst h
              exact const_ok (fun n => by simp [core]) (good_refl hs hV)
            · refine const_ok (o := .fail) (fun n => by simp [core, h])
                (good_clash f1.fix f2.fix ?_)
              intro θ _ _ he
              simp only [inst] at he
              exact h (Ty.var.inj he)
          | _ => simp [tag] at g
        | con n ts =>
          cases t2 with
          | con m us =>
            have hnm : n ≠ m := by
              rintro rfl
              simp [sameCon] at hc
            refine const_ok (o := .fail) (fun n => by simp [core])
                (good_clash f1.fix f2.fix ?_)
            intro θ _ _ he
            simp only [inst] at he
            exact hnm (Ty.con.inj he).1
          | _ => simp [tag] at g
        | fn a b c d =>
          cases t2 with
          | fn a' b' c' d' =>
            obtain ⟨p1, p2, p3, p4⟩ := fresh_fn f1
            obtain ⟨q1, q2, q3, q4⟩ := fresh_fn f2
            simp only [size] at hz
            refine seq_fresh IH (ps := [(a, a'), (b', b), (c', c), (d, d')]) hs hV hk f1.fix
              f2.fix ?_ ?_ ?_ ?_
            · intro p hp
              simp only [List.mem_cons, List.not_mem_nil, or_false] at hp
              rcases hp with rfl | rfl | rfl | rfl
              · exact ⟨p1, q1, by show size a + size a' < z; omega⟩
              · exact ⟨q2, p2, by show size b' + size b < z; omega⟩
              · exact ⟨q3, p3, by show size c' + size c < z; omega⟩
              · exact ⟨p4, q4, by show size d + size d' < z; omega⟩
            · intro σ hp
              simp only [inst]
              exact .fn (hp (a, a') (by simp)) (compat_symm (hp (b', b) (by simp)))
                (compat_symm (hp (c', c) (by simp))) (hp (d, d') (by simp))
            · intro ar θ n1 n2 he
              simp only [Nice, Clean, NoColl] at n1 n2
              simp only [inst] at he
              obtain ⟨e1, e2, e3, e4⟩ := Ty.fn.inj he
              obtain ⟨⟨x1, x2, x3, x4⟩, y1, y2, y3, y4⟩ := n1
              obtain ⟨⟨u1, u2, u3, u4⟩, w1, w2, w3, w4⟩ := n2
              intro p hp
              simp only [List.mem_cons, List.not_mem_nil, or_false] at hp
              rcases hp with rfl | rfl | rfl | rfl
              · exact ⟨⟨x1, y1⟩, ⟨u1, w1⟩, e1⟩
              · exact ⟨⟨u2, w2⟩, ⟨x2, y2⟩, e2.symm⟩
              · exact ⟨⟨u3, w3⟩, ⟨x3, y3⟩, e3.symm⟩
              · exact ⟨⟨x4, y4⟩, ⟨u4, w4⟩, e4⟩
            · intro ar n1 n2 p hp
              simp only [Clean] at n1 n2
              simp only [List.mem_cons, List.not_mem_nil, or_false] at hp
              rcases hp with rfl | rfl | rfl | rfl
              · exact ⟨n1.1, n2.1⟩
              · exact ⟨n2.2.1, n1.2.1⟩
              · exact ⟨n2.2.2.1, n1.2.2.1⟩
              · exact ⟨n1.2.2.2, n2.2.2.2⟩
          | _ => simp [tag] at g
        | tup a b =>
          cases t2 with
          | tup a' b' =>
            obtain ⟨p1, p2⟩ := fresh_tup f1
            obtain ⟨q1, q2⟩ := fresh_tup f2
            simp only [size] at hz
            refine seq_fresh IH (ps := [(a, a'), (b, b')]) hs hV hk f1.fix f2.fix ?_ ?_ ?_ ?_
            · intro p hp
              simp only [List.mem_cons, List.not_mem_nil, or_false] at hp
              rcases hp with rfl | rfl
              · exact ⟨p1, q1, by show size a + size a' < z; omega⟩
              · exact ⟨p2, q2, by show size b + size b' < z; omega⟩
            · intro σ hp
              simp only [inst]
              exact .tup (hp (a, a') (by simp)) (hp (b, b') (by simp))
            · intro ar θ n1 n2 he
              simp only [Nice, Clean, NoColl] at n1 n2
              simp only [inst] at he
              obtain ⟨e1, e2⟩ := Ty.tup.inj he
              obtain ⟨⟨x1, x2⟩, y1, y2⟩ := n1
              obtain ⟨⟨u1, u2⟩, w1, w2⟩ := n2
              intro p hp
              simp only [List.mem_cons, List.not_mem_nil, or_false] at hp
              rcases hp with rfl | rfl
              · exact ⟨⟨x1, y1⟩, ⟨u1, w1⟩, e1⟩
              · exact ⟨⟨x2, y2⟩, ⟨u2, w2⟩, e2⟩
            · intro ar n1 n2 p hp
              simp only [Clean] at n1 n2
              simp only [List.mem_cons, List.not_mem_nil, or_false] at hp
              rcases hp with rfl | rfl
              · exact ⟨n1.1, n2.1⟩
              · exact ⟨n1.2, n2.2⟩
          | _ => simp [tag] at g
        | opt a =>
          cases t2 with
          | opt b =>
            simp only [size] at hz
            refine seq_fresh IH (ps := [(a, b)]) hs hV hk f1.fix f2.fix ?_ ?_ ?_ ?_
            · intro p hp
              rw [List.mem_singleton] at hp
              subst hp
              exact ⟨fresh_opt f1, fresh_opt f2, by show size a + size b < z; omega⟩
            · intro σ hp
              simp only [inst]
              exact compat_optOf (hp (a, b) (by simp))
            · intro ar θ n1 n2 he
              simp only [Nice, Clean, NoColl] at n1 n2
              simp only [inst] at he
              intro p hp
              rw [List.mem_singleton] at hp
              subst hp
              exact ⟨⟨n1.1, n1.2.1⟩, ⟨n2.1, n2.2.1⟩, optOf_inj n1.2.2 n2.2.2 he⟩
            · intro ar n1 n2 p hp
              simp only [Clean] at n1 n2
              rw [List.mem_singleton] at hp
              subst hp
              exact ⟨n1, n2⟩
          | _ => simp [tag] at g
        | none_ =>
          cases t2 with
          | none_ => exact const_ok (fun n => by simp [core]) (good_refl hs hV)
          | _ => simp [tag] at g
        | wild => simp [isWild] at hw1
        | nil k1 =>
          cases t2 with
          | nil k2 =>
            by_cases h : k1 = k2
            · subst h
              exact const_ok (fun n => by simp [core]) (good_refl hs hV)
            · refine const_ok (o := .fail) (fun n => by simp [core, h])
                (good_clash f1.fix f2.fix ?_)
              intro θ _ _ he
              simp only [inst] at he
              exact h (Ty.nil.inj he)
          | _ => simp [tag] at g
        | row k1 n1 a b =>
          cases t2 with
          | row k2 n2 a' b' =>
            by_cases h : k1 = k2 ∧ n1 = n2
            · obtain ⟨rfl, rfl⟩ := h
              obtain ⟨p1, p2⟩ := fresh_row f1
              obtain ⟨q1, q2⟩ := fresh_row f2
              simp only [size] at hz
              have hcore : ∀ n, core (unifyF lvl ex n) lvl s (.row k1 n1 a b)
                  (.row k1 n1 a' b') = seq (unifyF lvl ex n) s [(a, a'), (b, b')] := by
                intro n; simp [core]
              simp only [hcore]
              refine seq_fresh IH (ps := [(a, a'), (b, b')]) hs hV hk f1.fix f2.fix ?_ ?_ ?_ ?_
              · intro p hp
                simp only [List.mem_cons, List.not_mem_nil, or_false] at hp
                rcases hp with rfl | rfl
                · exact ⟨p1, q1, by show size a + size a' < z; omega⟩
                · exact ⟨p2, q2, by show size b + size b' < z; omega⟩
              · intro σ hp
                simp only [inst]
                exact .row (hp (a, a') (by simp)) (hp (b, b') (by simp))
              · intro ar θ n1 n2 he
                simp only [Nice, Clean, NoColl] at n1 n2
                simp only [inst] at he
                obtain ⟨_, _, e1, e2⟩ := Ty.row.inj he
                obtain ⟨⟨x1, x2⟩, y1, y2⟩ := n1
                obtain ⟨⟨u1, u2⟩, w1, w2⟩ := n2
                intro p hp
                simp only [List.mem_cons, List.not_mem_nil, or_false] at hp
                rcases hp with rfl | rfl
                · exact ⟨⟨x1, y1⟩, ⟨u1, w1⟩, e1⟩
                · exact ⟨⟨x2, y2⟩, ⟨u2, w2⟩, e2⟩
              · intro ar n1 n2 p hp
                simp only [Clean] at n1 n2
                simp only [List.mem_cons, List.not_mem_nil, or_false] at hp
                rcases hp with rfl | rfl
                · exact ⟨n1.1, n2.1⟩
                · exact ⟨n1.2, n2.2⟩
            · refine const_ok (o := .fail) (fun n => by simp only [core]; rw [if_neg h])
                (good_clash f1.fix f2.fix ?_)
              intro θ _ _ he
              simp only [inst] at he
              obtain ⟨e1, e2, _, _⟩ := Ty.row.inj he
              exact h ⟨e1, e2⟩
          | _ => simp [tag] at g
        | star k1 a =>
          cases t2 with
          | star k2 b =>
            by_cases h : k1 = k2
            · subst h
              simp only [size] at hz
              have hcore : ∀ n, core (unifyF lvl ex n) lvl s (.star k1 a)
                  (.star k1 b) = seq (unifyF lvl ex n) s [(a, b)] := by
                intro n; simp [core]
              simp only [hcore]
              refine seq_fresh IH (ps := [(a, b)]) hs hV hk f1.fix f2.fix ?_ ?_ ?_ ?_
              · intro p hp
                rw [List.mem_singleton] at hp
                subst hp
                exact ⟨fresh_star f1, fresh_star f2, by show size a + size b < z; omega⟩
              · intro σ hp
                simp only [inst]
                exact .star (hp (a, b) (by simp))
              · intro ar θ n1 n2 he
                simp only [Nice, Clean, NoColl] at n1 n2
                simp only [inst] at he
                intro p hp
                rw [List.mem_singleton] at hp
                subst hp
                exact ⟨n1, n2, (Ty.star.inj he).2⟩
              · intro ar n1 n2 p hp
                simp only [Clean] at n1 n2
                rw [List.mem_singleton] at hp
                subst hp
                exact ⟨n1, n2⟩
            · refine const_ok (o := .fail) (fun n => by simp only [core]; rw [if_neg h])
                (good_clash f1.fix f2.fix ?_)
              intro θ _ _ he
              simp only [inst] at he
              exact h (Ty.star.inj he).1
          | _ => simp [tag] at g
        | fx x =>
          cases t2 with
          | fx y =>
            by_cases h : x = y
            · subst h
              exact const_ok (fun n => by simp [core]) (good_refl hs hV)
            · refine const_ok (o := .fail) (fun n => by simp [core, h])
                (good_clash f1.fix f2.fix ?_)
              intro θ _ _ he
              simp only [inst] at he
              exact h (Ty.fx.inj he)
          | _ => simp [tag] at g
      · exact const_ok (fun n => core_clash _ lvl s g1 g2 g) (good_tag f1.fix f2.fix g1 g2 g)

theorem sameCon_some {t1 t2 : Ty} {ps : List (Ty × Ty)} (h : sameCon t1 t2 = some ps) :
    ∃ n ts us, t1 = .con n ts ∧ t2 = .con n us ∧ ps = ts.zip us := by
  cases t1 with
  | con n ts =>
    cases t2 with
    | con m us =>
      simp only [sameCon] at h
      by_cases e : n = m
      · rw [if_pos e] at h
        subst e
        exact ⟨n, ts, us, rfl, rfl, (Option.some.inj h).symm⟩
      · rw [if_neg e] at h; cases h
    | _ => simp [sameCon] at h
  | _ => cases t2 <;> simp [sameCon] at h

theorem zip_map_eq {f : Ty → Ty} {ts us : List Ty} (h : ts.map f = us.map f) :
    ∀ p ∈ ts.zip us, f p.1 = f p.2 := by
  induction ts generalizing us with
  | nil => simp
  | cons t ts ih =>
    cases us with
    | nil => simp
    | cons u us =>
      simp only [List.map_cons, List.cons.injEq] at h
      intro p hp
      simp only [List.zip_cons_cons, List.mem_cons] at hp
      rcases hp with rfl | hp
      · exact h.1
      · exact ih h.2 p hp

theorem step_good {lvl : Nat → Nat} {ex : Nat → List Ty → Option Ty}
    (hex : ∀ n ts, ex n ts = none) {V : List Nat} {k z : Nat}
    (IH : Below lvl ex V k z) {s : Subst} {t1 t2 : Ty} (hs : Acyclic s) (hV : InVs V s)
    (hk : unb V s = k) (hz : size t1 + size t2 ≤ z) (f1 : Fresh V s t1) (f2 : Fresh V s t2) :
    ∃ o N, (∀ n, N ≤ n → step (unifyF lvl ex n) (unifyF' lvl ex n) lvl ex s t1 t2 = o) ∧
      Good V s [(t1, t2)] o := by
  by_cases hw : (isWild t1 || isWild t2) = true
  · refine const_ok (o := .ok s) (fun n => by unfold step; rw [if_pos hw])
      (good_same hs hV ?_)
    intro p hp
    rw [List.mem_singleton] at hp
    subst hp
    show Compat (app s t1) (app s t2)
    rw [f1.fix, f2.fix]
    rcases Bool.or_eq_true_iff.mp hw with h | h
    · rw [tag_wild h]; exact .wildL
    · rw [tag_wild h]; exact .wildR
  · have hstep : ∀ n, step (unifyF lvl ex n) (unifyF' lvl ex n) lvl ex s t1 t2 =
        match sameCon t1 t2 with
        | some ps => seq (unifyF lvl ex n) s ps
        | none => core (unifyF lvl ex n) lvl s t1 t2 := by
      intro n
      unfold step
      rw [if_neg hw]
      have e : ∀ t, expandOf ex t = none := by
        intro t; cases t <;> simp [expandOf, hex]
      simp only [e]
      cases sameCon t1 t2 <;> rfl
    simp only [hstep]
    cases hc : sameCon t1 t2 with
    | none =>
      have hw1 : isWild t1 = false := by
        cases h : isWild t1 with
        | false => rfl
        | true => simp [h] at hw
      exact core_good IH hs hV hk hz f1 f2 hw1 hc
    | some ps =>
      obtain ⟨n, ts, us, rfl, rfl, rfl⟩ := sameCon_some hc
      simp only [size] at hz
      refine seq_fresh IH (ps := ts.zip us) hs hV hk f1.fix f2.fix ?_ ?_ ?_ ?_
      · rintro ⟨a, b⟩ hp
        obtain ⟨ha, hb⟩ := mem_zip_left hp
        have h1 := size_mem ha
        have h2 := size_mem hb
        exact ⟨fresh_con f1 ha, fresh_con f2 hb, by show size a + size b < z; omega⟩
      · intro σ hp
        simp only [inst]
        apply Compat.con
        intro p hp'
        rw [insts_eq_map, insts_eq_map, List.zip_map, List.mem_map] at hp'
        obtain ⟨q, hq, rfl⟩ := hp'
        exact hp q hq
      · intro ar θ n1 n2 he
        simp only [Nice, Clean, NoColl] at n1 n2
        simp only [inst] at he
        rintro ⟨a, b⟩ hp
        obtain ⟨ha, hb⟩ := mem_zip_left hp
        have e2 := (Ty.con.inj he).2
        rw [insts_eq_map, insts_eq_map] at e2
        exact ⟨⟨cleans_iff.mp n1.1.2 a ha, noColls_iff.mp n1.2 a ha⟩,
          ⟨cleans_iff.mp n2.1.2 b hb, noColls_iff.mp n2.2 b hb⟩, zip_map_eq e2 (a, b) hp⟩
      · intro ar n1 n2
        simp only [Clean] at n1 n2
        rintro ⟨a, b⟩ hp
        obtain ⟨ha, hb⟩ := mem_zip_left hp
        exact ⟨cleans_iff.mp n1.2 a ha, cleans_iff.mp n2.2 b hb⟩

theorem inV_appVar {V : List Nat} {s : Subst} (hV : InVs V s) {v : Nat} (hv : v ∈ V) :
    InV V (appVar s v) := by
  induction s with
  | nil =>
    intro u hu
    simp only [appVar, Ty.ufree, List.mem_singleton] at hu
    rw [hu]; exact hv
  | cons p s ih =>
    obtain ⟨w, t⟩ := p
    have ih' := ih (fun q hq => hV q (List.mem_cons_of_mem _ hq))
    intro u hu
    simp only [appVar] at hu
    rw [ufree_inst] at hu
    obtain ⟨x, hx, hu⟩ := hu
    unfold single at hu
    by_cases e : x = w
    · rw [if_pos e] at hu
      exact (hV (w, t) (by simp)).2 u hu
    · rw [if_neg e] at hu
      simp only [Ty.ufree, List.mem_singleton] at hu
      rw [hu]; exact ih' x hx

theorem inV_app {V : List Nat} {s : Subst} (hV : InVs V s) {t : Ty} (ht : InV V t) :
    InV V (app s t) := by
  intro u hu
  unfold app at hu
  rw [ufree_inst] at hu
  obtain ⟨x, hx, hu⟩ := hu
  exact inV_appVar hV (ht x hx) u hu

/-- The outcome depends on the substituted types only. -/
theorem good_app {V : List Nat} {s : Subst} {t1 t2 : Ty} {o : Out} (hs : Acyclic s)
    (h1 : Ty.Norm t1) (h2 : Ty.Norm t2) (h : Good V s [(app s t1, app s t2)] o) :
    Good V s [(t1, t2)] o := by
  have hsol : ∀ ar θ, Solves ar θ s [(t1, t2)] → Solves ar θ s [(app s t1, app s t2)] := by
    intro ar θ hsv p hp
    rw [List.mem_singleton] at hp
    subst hp
    have := hsv (t1, t2) (by simp)
    simp only [app_idem hs h1, app_idem hs h2]
    exact this
  cases o with
  | out => exact h
  | fail => intro ar θ hsv; exact h ar θ (hsol ar θ hsv)
  | ok s' =>
    obtain ⟨d, e1, e2, e3, e4, e6, e5⟩ := h
    refine ⟨d, e1, e2, e3, ?_, fun ar hc => e6 ar ?_, fun ar θ hsv => e5 ar θ (hsol ar θ hsv)⟩
    rotate_left
    · intro p hp
      rw [List.mem_singleton] at hp
      subst hp
      have := hc (t1, t2) (by simp)
      simp only [app_idem hs h1, app_idem hs h2]
      exact this
    intro p hp
    rw [List.mem_singleton] at hp
    subst hp
    have := e4 _ (List.mem_singleton.mpr rfl)
    simp only [e1, app_append hs (norm_app hs h1), app_append hs (norm_app hs h2),
      app_idem hs h1, app_idem hs h2] at this
    show Compat (app s' t1) (app s' t2)
    rw [e1, app_append hs h1, app_append hs h2]
    exact this

/-- Unification of any two types ends, and the outcome is good. -/
theorem unify_good {lvl : Nat → Nat} {ex : Nat → List Ty → Option Ty}
    (hex : ∀ n ts, ex n ts = none) (V : List Nat) : ∀ k z, Below lvl ex V k z := by
  intro k
  induction k with
  | zero =>
    intro z
    induction z with
    | zero => intro s a b _ _ _ _ _ _ h; omega
    | succ z ihz => exact unify_step hex V 0 z ihz trivial
  | succ k ihk =>
    intro z
    induction z with
    | zero =>
      intro s a b hs hV ha hb hVa hVb h
      have hlt : unb V s < k + 1 := by omega
      exact ihk (size (app s a) + size (app s b) + 1) s a b hs hV ha hb hVa hVb (by omega)
    | succ z ihz => exact unify_step hex V (k + 1) z ihz trivial
where
  unify_step {lvl : Nat → Nat} {ex : Nat → List Ty → Option Ty}
      (hex : ∀ n ts, ex n ts = none) (V : List Nat) (k z : Nat) (IH : Below lvl ex V k z)
      (_ : True) : Below lvl ex V k (z + 1) := by
    intro s a b hs hV ha hb hVa hVb h
    by_cases hlt : unb V s < k ∨ (unb V s = k ∧ size (app s a) + size (app s b) < z)
    · exact IH s a b hs hV ha hb hVa hVb hlt
    · have hk : unb V s = k := by omega
      have hz : size (app s a) + size (app s b) ≤ z := by omega
      obtain ⟨o, N, hr, hg⟩ := step_good hex IH hs hV hk hz
        ⟨norm_app hs ha, inV_app hV hVa, fun u hu => app_free hs hu⟩
        ⟨norm_app hs hb, inV_app hV hVb, fun u hu => app_free hs hu⟩
      obtain ⟨N1, h1⟩ := usubst_ends hs ha
      obtain ⟨N2, h2⟩ := usubst_ends hs hb
      refine ⟨o, N + N1 + N2 + 2, ?_, good_app hs ha hb hg⟩
      intro n hn
      obtain ⟨m, rfl⟩ : ∃ m, n = m + 2 := ⟨n - 2, by omega⟩
      simp only [unifyF, h1 (m + 1) (by omega), h2 (m + 1) (by omega), unifyF']
      exact hr m (by omega)

end Verif.Unify
