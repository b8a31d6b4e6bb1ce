import Verif.Rts.Ord4
/-!
# Awaiting a message: the invariant
-/
namespace Verif.Rts
open Verif Function

/-- The await that a worker is carrying out: actor, message, awaited message. -/
def awOf : Phase → Option (Nat × Nat × Nat)
  | .addWait a m x => some (a, m, x)
  | .flush a m (.frozen x) => some (a, m, x)
  | .loop a m _ (.frozen x) => some (a, m, x)
  | .resume a m x => some (a, m, x)
  | .rdy _ k => awOf k
  | _ => none

/-- The result that a worker hands to the waiting actors: message, mark, value. -/
def wkOf : Phase → Option (Nat × Nat × Nat)
  | .wake _ m mark x _ => some (m, mark, x)
  | .rdy _ k => wkOf k
  | _ => none

def isAdd : Phase → Bool
  | .addWait _ _ _ => true
  | _ => false

section
variable (a m mark x b : Nat) (p : Option Nat) (k : After) (q : List Nat) (P : Phase)
@[simp] theorem awOf_enqPh : awOf (enqPh q b P) = awOf P := by unfold enqPh; split <;> rfl
@[simp] theorem wkOf_enqPh : wkOf (enqPh q b P) = wkOf P := by unfold enqPh; split <;> rfl
@[simp] theorem owner_enqPh' : owner (enqPh q b P) = owner P := by unfold enqPh; split <;> rfl
@[simp] theorem awOf_wakePh : awOf (wakePh a m mark x p) = none := by cases p <;> rfl
@[simp] theorem wkOf_contPh : wkOf (contPh a m p k) = none := by cases p <;> cases k <;> rfl
theorem wkOf_wakePh {y : Nat × Nat × Nat} (h : wkOf (wakePh a m mark x p) = some y) : y = (m, mark, x) := by
  cases p
  · cases h
  · simpa [wakePh, wkOf] using h.symm
theorem awOf_flush : awOf (.flush a m k) = awOf (contPh a m p k) := by cases p <;> cases k <;> rfl
theorem awOf_loop : awOf (.loop a m b k) = awOf (contPh a m p k) := by cases p <;> cases k <;> rfl
theorem isAdd_enqPh (h : isAdd P = false) : isAdd (enqPh q b P) = false := by
  unfold enqPh; split
  · rfl
  · exact h
theorem isAdd_contPh : isAdd (contPh a m p k) = false := by cases p <;> cases k <;> rfl
theorem owner_contPh' : owner (contPh a m p k) = some b → k ≠ .added ∧ b = a := by
  cases p <;> cases k <;> simp [contPh, owner] <;> exact fun h => h.symm
end

theorem owner_of_awOf : ∀ {P : Phase} {a m x : Nat}, awOf P = some (a, m, x) → owner P = some a := by
  intro P
  induction P with
  | rdy b k ih => intro a m x h; exact ih h
  | flush a m k => cases k <;> simp [awOf, owner] <;> intros <;> simp_all
  | loop a m p k => cases k <;> simp [awOf, owner] <;> intros <;> simp_all
  | _ => intro a m x h; simp_all [awOf, owner]

/-- The state of a pending await. -/
structure AwS (v : V) (a m c x : Nat) : Prop where
  head : (v.ml (.mq a)).head? = some m
  lt : x < v.nmsg
  two : 2 ≤ c
  nf : ¬ v.frozen m
  st : (∃ w, awOf (v.wk w) = some (a, m, x) ∧ (v.att m).cont = c) ∨ (v.wf a = some x ∧ (v.att m).cont = c) ∨
    (v.wf a = none ∧ (∃ k, Event.completed x k (v.att m).val ∈ v.log ∧ (v.att m).cont = wakeCont k c) ∧
      ∀ w, owner (v.wk w) = some a → v.wk w = .got a)

structure AwC (v : V) : Prop where
  comp : ∀ x k u, Event.completed x k u ∈ v.log →
    x < v.nmsg ∧ (v.att x).cont = k ∧ (v.att x).val = u ∧ (k = MARK_RESULT ∨ k = MARK_EXCEPTION)
  comp' : ∀ x, x < v.nmsg → v.frozen x → Event.completed x (v.att x).cont (v.att x).val ∈ v.log
  nodup : (completions v.log).Nodup

structure AwP (v : V) : Prop where
  wkc : ∀ w m k u, wkOf (v.wk w) = some (m, k, u) → Event.completed m k u ∈ v.log
  aw : ∀ w a m x, awOf (v.wk w) = some (a, m, x) → x < v.nmsg ∧ (isAdd (v.wk w) = true ∨ v.frozen x)
  pend : ∀ a m c x, pend v.log a = some (m, c, x) → AwS v a m c x

/-- What the record of events says about awaiting. -/
structure AwH (log : List Event) : Prop where
  /-- After an await the next event is the resumption, with the result. -/
  res : ∀ L1 L2 a m c u, log = L1 ++ Event.ran a m c u :: L2 → ∀ m0 c0 x, pend L1 a = some (m0, c0, x) →
    m = m0 ∧ ∃ k, Event.completed x k u ∈ L1 ∧ c = wakeCont k c0
  /-- An actor that awaits does nothing else. -/
  act : ∀ L1 L2 e a, log = L1 ++ e :: L2 → e.actor = some a → pend L1 a = none
  /-- Its message is not completed either. -/
  cmp : ∀ L1 L2 m k u, log = L1 ++ Event.completed m k u :: L2 → ∀ a c x, pend L1 a ≠ some (m, c, x)

structure Aw (v : V) : Prop where
  c : AwC v
  p : AwP v
  h : AwH v.log

variable {v v' : V}

theorem AwH.snoc {L : List Event} (h : AwH L) {e : Event}
    (h1 : ∀ a m c u, e = .ran a m c u → ∀ m0 c0 x, pend L a = some (m0, c0, x) →
      m = m0 ∧ ∃ k, Event.completed x k u ∈ L ∧ c = wakeCont k c0)
    (h2 : ∀ a, e.actor = some a → pend L a = none)
    (h3 : ∀ m k u, e = .completed m k u → ∀ a c x, pend L a ≠ some (m, c, x)) : AwH (L ++ [e]) := by
  constructor
  · intro L1 L2 a m c u he
    rcases snoc_split he with ⟨rfl, h4, rfl⟩ | ⟨L3, rfl, h4⟩
    · exact h1 a m c u h4
    · exact h.res _ _ _ _ _ _ h4
  · intro L1 L2 e' a he
    rcases snoc_split he with ⟨rfl, rfl, rfl⟩ | ⟨L3, rfl, h4⟩
    · exact h2 a
    · exact h.act _ _ _ _ h4
  · intro L1 L2 m k u he
    rcases snoc_split he with ⟨rfl, h4, rfl⟩ | ⟨L3, rfl, h4⟩
    · exact h3 _ _ _ h4
    · exact h.cmp _ _ _ _ _ h4

/-- Events that do not matter for awaiting. -/
theorem AwH.other {L : List Event} (h : AwH L) {e : Event} (h1 : ∀ a m c u, e ≠ .ran a m c u) (h2 : e.actor = none)
    (h3 : ∀ m k u, e ≠ .completed m k u) : AwH (L ++ [e]) :=
  h.snoc (fun a m c u he => absurd he (h1 a m c u)) (fun a ha => by rw [h2] at ha; cases ha) (fun m k u he => absurd he (h3 m k u))

theorem AwC.frame (h : AwC v) (hn : v.nmsg ≤ v'.nmsg)
    (hatt : ∀ x, v'.att x = v.att x ∨ ((¬ v.frozen x ∨ v.nmsg ≤ x) ∧ ¬ v'.frozen x))
    (hnew : ∀ x, v.nmsg ≤ x → x < v'.nmsg → ¬ v'.frozen x)
    (hlog : v'.log = v.log ∨ ∃ e, v'.log = v.log ++ [e] ∧ ∀ x k u, e ≠ Event.completed x k u) : AwC v' := by
  have hmem : ∀ x k u, Event.completed x k u ∈ v'.log ↔ Event.completed x k u ∈ v.log := by
    intro x k u
    rcases hlog with h1 | ⟨e, h1, h2⟩
    · rw [h1]
    · rw [h1]; simp only [List.mem_append, List.mem_singleton]
      exact ⟨fun h => h.resolve_right (fun h => h2 _ _ _ h.symm), .inl⟩
  have hfr : ∀ x, v'.att x = v.att x → (v'.frozen x ↔ v.frozen x) := by
    intro x hx; simp only [V.frozen, hx]
  refine ⟨?_, ?_, ?_⟩
  · intro x k u hx
    obtain ⟨h1, h2, h3, h4⟩ := h.comp x k u ((hmem ..).1 hx)
    have hf : v.frozen x := by simp only [V.frozen, h2]; exact h4
    rcases hatt x with h5 | ⟨h5 | h5, -⟩
    · rw [h5]; exact ⟨by omega, h2, h3, h4⟩
    · exact absurd hf h5
    · omega
  · intro x hx hf
    rcases hatt x with h5 | ⟨-, h5⟩
    · rw [hmem, h5]
      refine h.comp' x ?_ ((hfr x h5).1 hf)
      by_contra hc
      exact hnew x (by omega) hx hf
    · exact absurd hf h5
  · rcases hlog with h1 | ⟨e, h1, h2⟩
    · rw [h1]; exact h.nodup
    · rw [h1]
      have : completions [e] = [] := by
        cases e <;> simp_all [completions]
      rw [completions_append, this, List.append_nil]; exact h.nodup

/-- The phases before and after a step, seen from an actor that is not concerned. -/
structure PhOk (a : Nat) (P P' : Phase) : Prop where
  aw : ∀ m x, awOf P = some (a, m, x) → awOf P' = some (a, m, x)
  own : owner P' = some a → P' = .got a ∨ (owner P = some a ∧ P ≠ .got a)

theorem PhOk.refl (a : Nat) (P : Phase) : PhOk a P P :=
  ⟨fun _ _ h => h, fun h => by by_cases e : P = .got a <;> simp [e, h]⟩

theorem PhOk.of_ne {a : Nat} {P P' : Phase} (h1 : owner P ≠ some a) (h2 : owner P' ≠ some a) : PhOk a P P' :=
  ⟨fun _ _ h => absurd (owner_of_awOf h) h1, fun h => absurd h h2⟩

theorem AwP.frame (h : AwP v) {w : Nat} {P : Phase} (hwk : v'.wk = upd v.wk w P) (hn : v.nmsg ≤ v'.nmsg)
    (hlog : ∀ e ∈ v.log, e ∈ v'.log) (hfro : ∀ x, x < v.nmsg → v.frozen x → v'.frozen x) (A : Nat → Prop)
    (hw1 : ∀ m k u, wkOf P = some (m, k, u) → Event.completed m k u ∈ v'.log)
    (hw2 : ∀ a m x, awOf P = some (a, m, x) → x < v'.nmsg ∧ (isAdd P = true ∨ v'.frozen x))
    (hpend : ∀ a, ¬ A a → Verif.Rts.pend v'.log a = Verif.Rts.pend v.log a)
    (hq : ∀ a m, ¬ A a → (v.ml (.mq a)).head? = some m → (v'.ml (.mq a)).head? = some m ∧ v'.att m = v.att m)
    (hwf : ∀ a, ¬ A a → v'.wf a = v.wf a) (hph : ∀ a, ¬ A a → PhOk a (v.wk w) P)
    (hA : ∀ a m c x, A a → Verif.Rts.pend v'.log a = some (m, c, x) → AwS v' a m c x) : AwP v' := by
  refine ⟨?_, ?_, ?_⟩
  · intro w' m k u hw'
    rw [hwk] at hw'
    by_cases e : w' = w
    · rw [e, upd_self] at hw'; exact hw1 m k u hw'
    · rw [upd_ne _ e] at hw'; exact hlog _ (h.wkc w' m k u hw')
  · intro w' a m x hw'
    rw [hwk] at hw' ⊢
    by_cases e : w' = w
    · rw [e, upd_self] at hw' ⊢; exact hw2 a m x hw'
    · rw [upd_ne _ e] at hw' ⊢
      obtain ⟨h1, h2⟩ := h.aw w' a m x hw'
      exact ⟨by omega, h2.imp_right (hfro x h1)⟩
  · intro a m c x hp
    by_cases ha : A a
    · exact hA a m c x ha hp
    · rw [hpend a ha] at hp
      obtain ⟨h1, h2, h3, h4, h5⟩ := h.pend a m c x hp
      obtain ⟨h6, h7⟩ := hq a m ha h1
      have hwk' : ∀ w', PhOk a (v.wk w') (v'.wk w') := by
        intro w'
        rw [hwk]
        by_cases e : w' = w
        · rw [e, upd_self]; exact hph a ha
        · rw [upd_ne _ e]; exact PhOk.refl _ _
      refine ⟨h6, by omega, h3, by simp only [V.frozen, h7]; exact h4, ?_⟩
      rw [h7, hwf a ha]
      rcases h5 with ⟨w', h5, h8⟩ | h5 | ⟨h5, ⟨k, h8, h9⟩, h10⟩
      · exact .inl ⟨w', (hwk' w').aw _ _ h5, h8⟩
      · exact .inr (.inl h5)
      · refine .inr (.inr ⟨h5, ⟨k, hlog _ h8, h9⟩, ?_⟩)
        intro w' hw'
        rcases (hwk' w').own hw' with h11 | ⟨h11, h12⟩
        · exact h11
        · exact absurd (h10 w' h11) h12

/-- An actor that a worker runs awaits nothing. -/
theorem AwP.none_of (h : AwP v) (hv : VI v) {w a : Nat} (ho : owner (v.wk w) = some a) (h1 : v.wk w ≠ .got a)
    (h2 : awOf (v.wk w) = none) : Verif.Rts.pend v.log a = none := by
  by_contra hne
  obtain ⟨⟨m, c, x⟩, hp⟩ := Option.ne_none_iff_exists'.1 hne
  rcases (h.pend a m c x hp).st with ⟨w', h3, -⟩ | ⟨h3, -⟩ | ⟨-, -, h3⟩
  · have : w' = w := hv.handles (.inl (owner_of_awOf h3)) (.inl ho)
    rw [this, h2] at h3; cases h3
  · rw [hv.own_nowait ho] at h3; cases h3
  · exact h1 (h3 w ho)

/-- An actor whose await a worker is carrying out. -/
theorem AwP.of_aw (h : AwP v) (hv : VI v) {w a m x : Nat} (haw : awOf (v.wk w) = some (a, m, x)) (hg : v.wk w ≠ .got a)
    {m0 c0 x0 : Nat} (hp : Verif.Rts.pend v.log a = some (m0, c0, x0)) : m0 = m ∧ x0 = x ∧ (v.att m).cont = c0 := by
  have ho := owner_of_awOf haw
  rcases (h.pend a m0 c0 x0 hp).st with ⟨w', h3, h4⟩ | ⟨h3, -⟩ | ⟨-, -, h3⟩
  · have : w' = w := hv.handles (.inl (owner_of_awOf h3)) (.inl ho)
    rw [this, haw] at h3
    cases h3
    exact ⟨rfl, rfl, h4⟩
  · rw [hv.own_nowait ho] at h3; cases h3
  · exact absurd (h3 w ho) hg

theorem VI.run_not_frozen (hv : VI v) {w a m : Nat} (hc : curOf (v.wk w) = some (a, m)) (ha : Handles (v.wk w) a)
    (hf : frozenOf (v.wk w) = none) : ¬ v.frozen m := by
  intro hfr
  have hm := List.mem_of_head? (hv.cur w a m hc)
  obtain ⟨w', a', h1⟩ := hv.frz m _ hm hfr
  have h2 := cur_of_frozenOf h1
  have e := hv.Mdisj _ _ m hm (List.mem_of_head? (hv.cur w' a' m h2.1))
  simp only [MLoc.mq.injEq] at e
  subst e
  have : w' = w := hv.handles (.inl h2.2.1) ha
  rw [this, hf] at h1
  cases h1

/-- The first messages of two actors differ. -/
theorem VI.head_ne (hv : VI v) {a b m m' : Nat} (hab : a ≠ b) (h1 : (v.ml (.mq a)).head? = some m)
    (h2 : (v.ml (.mq b)).head? = some m') : m ≠ m' := by
  rintro rfl
  have := hv.Mdisj _ _ m (List.mem_of_head? h1) (List.mem_of_head? h2)
  exact hab (by simpa using this)

end Verif.Rts
