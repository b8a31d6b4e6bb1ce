import Verif.Rts.Tim
/-!
# Awaiting only what was sent last

A call that waits for its result awaits the message sent last. Then no other worker can take the actor before all its
messages are posted.
-/
namespace Verif.Rts
open Verif Function

/-- The awaited message is completed, or the last one the actor sent in this turn. -/
def Sync (s : State) : Label → Prop
  | .ret w (.wait _ x) =>
    match s.wk w with
    | .run a _ => s.frozen x ∨ (s.actors a).outgoing = some x
    | _ => True
  | _ => True

/-- Making an actor ready is never followed by registering a waiter or by the start of a flush. -/
def okR : Phase → Prop
  | .rdy _ k => (∀ a m x, k ≠ .addWait a m x) ∧ (∀ a m k', k ≠ .flush a m k') ∧ okR k
  | _ => True

theorem okR_enqPh (q : List Nat) (b a m : Nat) (p : Option Nat) (k : After) : okR (enqPh q b (contPh a m p k)) := by
  unfold enqPh; cases p <;> cases k <;> (split <;> simp [okR, contPh])
theorem okR_enqPh' (q : List Nat) (b : Nat) : okR (enqPh q b .idle) := by
  unfold enqPh; split <;> simp [okR]
theorem okR_contPh (a m : Nat) (p : Option Nat) (k : After) : okR (contPh a m p k) := by
  cases p <;> cases k <;> simp [okR, contPh]
theorem okR_wakePh (b a m mark x : Nat) (p : Option Nat) : okR (wakePh a m mark x p) ∧ okR (.rdy b (wakePh a m mark x p)) := by
  cases p <;> simp [okR, wakePh]

structure Syn (v : V) : Prop where
  rd : ∀ w, okR (v.wk w)
  add : ∀ w a m x, v.wk w = .addWait a m x → x < v.nmsg ∧ (v.frozen x ∨ (v.ml (.out a)).getLast? = some x)
  fl : ∀ w a m, v.wk w = .flush a m .added → ∃ x, v.wf a = some x ∧ (v.ml (.out a)).getLast? = some x
  lp : ∀ w a, flOf (v.wk w) = some a → poster (v.wk w) = some a → ∃ x, v.wf a = some x ∧ (v.ml (.fl w)).getLast? = some x

variable {v v' : V}

theorem syn_init : Syn (view init (fun _ => []) (fun _ => [])) := by
  constructor <;> simp [view, init, flOf, okR]

theorem syn_frame (h : Syn v) {w : Nat} {P : Phase} (hwk : v'.wk = upd v.wk w P) (hn : v.nmsg ≤ v'.nmsg)
    (hfro : ∀ x, x < v.nmsg → v.frozen x → v'.frozen x)
    (h0 : okR P) (hoth : ∀ w' a, w' ≠ w → Handles (v.wk w') a → v'.ml (.out a) = v.ml (.out a) ∧ v'.ml (.fl w') = v.ml (.fl w') ∧
      ∀ x, v.wf a = some x → x ∈ v.ml (.out a) ∨ x ∈ v.ml (.fl w') → v'.wf a = some x)
    (h1 : ∀ a m x, P = .addWait a m x → x < v'.nmsg ∧ (v'.frozen x ∨ (v'.ml (.out a)).getLast? = some x))
    (h2 : ∀ a m, P = .flush a m .added → ∃ x, v'.wf a = some x ∧ (v'.ml (.out a)).getLast? = some x)
    (h3 : ∀ a, flOf P = some a → poster P = some a → ∃ x, v'.wf a = some x ∧ (v'.ml (.fl w)).getLast? = some x) : Syn v' := by
  constructor
  · intro w'
    rw [hwk]
    by_cases e : w' = w
    · rw [e, upd_self]; exact h0
    · rw [upd_ne _ e]; exact h.rd w'
  · intro w' a m x hw'
    rw [hwk] at hw'
    by_cases e : w' = w
    · rw [e, upd_self] at hw'; exact h1 a m x hw'
    · rw [upd_ne _ e] at hw'
      rw [(hoth w' a e (by rw [hw']; exact .inl rfl)).1]
      obtain ⟨h4, h5⟩ := h.add w' a m x hw'
      exact ⟨by omega, h5.imp_left (hfro x h4)⟩
  · intro w' a m hw'
    rw [hwk] at hw'
    by_cases e : w' = w
    · rw [e, upd_self] at hw'; exact h2 a m hw'
    · rw [upd_ne _ e] at hw'
      obtain ⟨x, h4, h5⟩ := h.fl w' a m hw'
      obtain ⟨h6, -, h7⟩ := hoth w' a e (by rw [hw']; exact handles_flush ..)
      rw [h6]
      exact ⟨x, h7 x h4 (.inl (List.mem_of_getLast? h5)), h5⟩
  · intro w' a hw' hp
    rw [hwk] at hw' hp
    by_cases e : w' = w
    · rw [e, upd_self] at hw' hp; rw [e]; exact h3 a hw' hp
    · rw [upd_ne _ e] at hw' hp
      obtain ⟨x, h4, h5⟩ := h.lp w' a hw' hp
      obtain ⟨-, h6, h7⟩ := hoth w' a e (.inr hp)
      rw [h6]
      exact ⟨x, h7 x h4 (.inr (List.mem_of_getLast? h5)), h5⟩

/-- Messages not yet in the queue of an actor are not completed. -/
theorem VI.unposted (hv : VI v) {x : Nat} {l : MLoc} (hx : x ∈ v.ml l) (hl : ∀ a, l ≠ .mq a) : ¬ v.frozen x := by
  intro hf
  obtain ⟨w, a, h1⟩ := hv.frz x l hx hf
  exact hl a (hv.Mdisj _ _ x hx (List.mem_of_head? (hv.cur w a x (cur_of_frozenOf h1).1)))

/-- Steps that change neither outgoing messages, nor those being flushed, nor `$waitsfor`. -/
theorem syn_still (h : Syn v) {w : Nat} {P : Phase} (hwk : v'.wk = upd v.wk w P) (hn : v.nmsg ≤ v'.nmsg)
    (hfro : ∀ x, x < v.nmsg → v.frozen x → v'.frozen x)
    (h0 : okR P) (hout : ∀ a, v'.ml (.out a) = v.ml (.out a)) (hfl : ∀ w', v'.ml (.fl w') = v.ml (.fl w')) (hwf : v'.wf = v.wf)
    (h1 : ∀ a m x, P ≠ .addWait a m x) (h2 : ∀ a m, P ≠ .flush a m .added)
    (h3 : ∀ a, flOf P = some a → poster P = some a → flOf (v.wk w) = some a ∧ poster (v.wk w) = some a) : Syn v' := by
  refine syn_frame h hwk hn hfro h0 (fun w' a _ _ => ⟨hout a, hfl w', fun x hx _ => by rw [hwf]; exact hx⟩)
    (fun a m x e => absurd e (h1 a m x)) (fun a m e => absurd e (h2 a m)) ?_
  intro a h4 h5
  rw [hfl, hwf]
  obtain ⟨h6, h7⟩ := h3 a h4 h5
  exact h.lp w a h6 h7

theorem getLast_cons {x y : Nat} {t : List Nat} (h : (y :: t).getLast? = some x) (ht : t ≠ []) : t.getLast? = some x := by
  cases t with
  | nil => exact absurd rfl ht
  | cons z t => simpa using h

macro "okr" : tactic => `(tactic| first
  | trivial
  | exact okR_enqPh ..
  | exact okR_enqPh' ..
  | exact okR_contPh ..
  | exact (okR_wakePh 0 ..).1
  | exact (okR_wakePh ..).2
  | (split <;> simp [okR])
  | simp [okR])

theorem syn_step (hv : VI v) (hv' : VI v')
    (hs : AStep (fun a x => v.frozen x ∨ (v.ml (.out a)).head? = some x) v v') (h : Syn v) : Syn v' := by
  cases hs with
  | skip => exact h
  | noFire now hb => exact ⟨h.rd, h.add, h.fl, h.lp⟩
  | take w i r t hw hr' hg =>
    exact syn_still h (w := w) rfl (Nat.le_refl _) (fun _ _ h => h) (by okr) (fun _ => rfl) (fun _ => rfl) rfl (by simp) (by simp) (by simp [flOf])
  | got w a m hw hm hf =>
    exact syn_still h (w := w) rfl (Nat.le_refl _) (fun _ _ h => h) (by okr) (fun _ => rfl) (fun _ => rfl) rfl (by simp) (by simp) (by simp [flOf])
  | send w a m dst c d hw hc hd =>
    refine syn_frame h (w := w) (P := v.wk w) (by simp [upd_same]) (Nat.le_succ _) ?_ (by rw [hw]; trivial) ?_ (by rw [hw]; simp) (by rw [hw]; simp) (by rw [hw]; simp [flOf])
    · intro x hx h1
      have : x ≠ v.nmsg := by omega
      simp only [V.frozen, upd_ne _ this]; exact h1
    · intro w' b hne hb
      have : b ≠ a := fun e => hne (hv.handles hb (by rw [hw, e]; exact .inl rfl))
      refine ⟨by simp [this], by simp, fun x hx _ => hx⟩
  | retDone w a m mark x hw =>
    refine syn_frame h (w := w) rfl (Nat.le_refl _) (fun _ _ h => h) (by okr) ?_ (by simp) (by simp) (by simp [flOf])
    intro w' b hne hb
    have : b ≠ a := fun e => hne (hv.handles hb (by rw [hw, e]; exact .inl rfl))
    refine ⟨by simp [this], by simp, fun x hx _ => hx⟩
  | retCont w a m c x hw hc =>
    have hf := hv.run_not_frozen (w := w) (a := a) (m := m) (by rw [hw]; rfl) (by rw [hw]; exact .inl rfl) (by rw [hw]; rfl)
    exact syn_still h (w := w) rfl (Nat.le_refl _) (fun x _ => fro_one hf rfl x) (by okr) (fun _ => rfl) (fun _ => rfl) rfl (by simp) (by simp) (by simp [flOf])
  | retWait w a m c x hw hc hx hW =>
    have hf := hv.run_not_frozen (w := w) (a := a) (m := m) (by rw [hw]; rfl) (by rw [hw]; exact .inl rfl) (by rw [hw]; rfl)
    refine syn_frame h (w := w) rfl (Nat.le_refl _) (fun x _ => fro_one hf rfl x) (by okr) ?_ ?_ (by simp) (by simp [flOf])
    · intro w' b hne hb
      have : b ≠ a := fun e => hne (hv.handles hb (by rw [hw, e]; exact .inl rfl))
      refine ⟨by simp [this], by simp, fun x hx _ => hx⟩
    · intro a' m' x' e
      cases e
      refine ⟨hx, ?_⟩
      rcases hW with hW | hW
      · exact .inl (fro_one hf rfl x hW)
      · right; simpa using hW
  | addFrozen w a m x hw hx =>
    exact syn_still h (w := w) rfl (Nat.le_refl _) (fun _ _ h => h) (by okr) (fun _ => rfl) (fun _ => rfl) rfl (by simp) (by simp) (by simp [flOf])
  | addWait w a m x hw hx =>
    refine syn_frame h (w := w) rfl (Nat.le_refl _) (fun _ _ h => h) (by okr) ?_ (by simp) ?_ (by simp [flOf])
    · intro w' b hne hb
      have : b ≠ a := fun e => hne (hv.handles hb (by rw [hw, e]; exact .inl rfl))
      exact ⟨rfl, rfl, fun x hx _ => by simpa [upd_ne _ this] using hx⟩
    · intro a' m' e
      cases e
      obtain ⟨-, h1⟩ := h.add w a m x hw
      exact ⟨x, by simp, h1.resolve_left hx⟩
  | flush w a m k hw =>
    refine syn_frame h (w := w) rfl (Nat.le_refl _) (fun _ _ h => h) (by okr) ?_ ?_ ?_ ?_
    · intro w' b hne hb
      have : b ≠ a := fun e => hne (hv.handles hb (by rw [hw, e]; exact handles_flush ..))
      refine ⟨by simp [this], by simp [hne], fun x hx _ => hx⟩
    · intro a' m' x' e
      cases hh : (v.ml (.out a)).head? <;> cases k <;> simp [hh, contPh] at e
    · intro a' m' e
      cases hh : (v.ml (.out a)).head? <;> cases k <;> simp [hh, contPh] at e
    · intro a' h1 h2
      rw [poster_contPh'] at h2
      split at h2
      · rename_i h3
        obtain ⟨h3, rfl⟩ := h3
        cases h2
        obtain ⟨x, h4, h5⟩ := h.fl w a m hw
        exact ⟨x, h4, by simpa using h5⟩
      · cases h2
  | loopNow w a m x k t hw ht hb =>
    refine syn_frame h (w := w) rfl (Nat.le_refl _) (fun _ _ h => h) (by okr) ?_ ?_ ?_ ?_
    · intro w' b hne hb
      refine ⟨by simp, by simp [hne], fun x hx _ => hx⟩
    · intro a' m' x' e
      simp only [enqPh] at e
      split at e
      · cases e
      · cases hh : t.head? <;> cases k <;> simp [hh, contPh] at e
    · intro a' m' e
      simp only [enqPh] at e
      split at e
      · cases e
      · cases hh : t.head? <;> cases k <;> simp [hh, contPh] at e
    · intro a' h1 h2
      rw [poster_enqPh, poster_contPh'] at h2
      split at h2
      · rename_i h3
        obtain ⟨h3, rfl⟩ := h3
        cases h2
        obtain ⟨y, h4, h5⟩ := h.lp w a (by rw [hw]; rfl) (by rw [hw]; simp [poster])
        refine ⟨y, h4, ?_⟩
        rw [ht] at h5
        simpa using getLast_cons h5 (by simpa using h3)
      · cases h2
  | loopTimed w a m x k t A B hw ht hb hAB hA hB =>
    refine syn_frame h (w := w) rfl (Nat.le_refl _) (fun _ _ h => h) (by okr) ?_ ?_ ?_ ?_
    · intro w' b hne hb
      refine ⟨by simp, by simp [hne], fun x hx _ => hx⟩
    · intro a' m' x' e
      cases hh : t.head? <;> cases k <;> simp [hh, contPh] at e
    · intro a' m' e
      cases hh : t.head? <;> cases k <;> simp [hh, contPh] at e
    · intro a' h1 h2
      rw [poster_contPh'] at h2
      split at h2
      · rename_i h3
        obtain ⟨h3, rfl⟩ := h3
        cases h2
        obtain ⟨y, h4, h5⟩ := h.lp w a (by rw [hw]; rfl) (by rw [hw]; simp [poster])
        refine ⟨y, h4, ?_⟩
        rw [ht] at h5
        simpa using getLast_cons h5 (by simpa using h3)
      · cases h2
  | resume w a m x hw =>
    have hf := hv.run_not_frozen (w := w) (a := a) (m := m) (by rw [hw]; rfl) (by rw [hw]; exact .inl rfl) (by rw [hw]; rfl)
    exact syn_still h (w := w) rfl (Nat.le_refl _) (fun x _ => fro_one hf rfl x) (by okr) (fun _ => rfl) (fun _ => rfl) rfl (by simp) (by simp) (by simp [flOf])
  | freeze w a m mark x hw =>
    have hf := hv.run_not_frozen (w := w) (a := a) (m := m) (by rw [hw]; rfl) (by rw [hw]; exact .inl rfl) (by rw [hw]; rfl)
    refine syn_still h (w := w) rfl (Nat.le_refl _) (fun x _ => fro_one hf rfl x) (by okr) (fun _ => rfl) (fun _ => rfl) rfl ?_ ?_ (by simp [flOf_wakePh])
    · intro a m x; cases (v.al (.waiting _)).head? <;> simp [wakePh]
    · intro a m; cases (v.al (.waiting _)).head? <;> simp [wakePh]
  | wake w a m mark x b y t hw ht hy hf hb =>
    refine syn_frame h (w := w) rfl (Nat.le_refl _) (fun x _ => fro_one hf rfl x) (by okr) ?_ (by simp) (by simp) (by simp [flOf, flOf_wakePh])
    intro w' c hne hc
    refine ⟨rfl, rfl, ?_⟩
    intro z hz hzz
    by_cases e : c = b
    · exfalso
      rw [e, hb] at hz
      cases hz
      have hm := hv.frzO w a m (by rw [hw]; rfl)
      rcases hzz with h1 | h1
      · exact hv.unposted h1 (by simp) hm
      · exact hv.unposted h1 (by simp) hm
    · simpa [upd_ne _ e] using hz
  | deq w a m t hw ht =>
    refine syn_still h (w := w) rfl (Nat.le_refl _) (fun _ _ h => h) (by okr) (by simp) (by simp) rfl ?_ ?_ ?_
    · intro a m x; split <;> simp
    · intro a m; split <;> simp
    · intro a; split <;> simp [flOf]
  | ready w b i k hw =>
    have hk := h.rd w
    rw [hw] at hk
    refine syn_still h (w := w) rfl (Nat.le_refl _) (fun _ _ h => h) hk.2.2 (fun _ => rfl) (fun _ => rfl) rfl hk.1 (fun a m => hk.2.1 a m .added) ?_
    intro a h1 h2
    rw [hw]; exact ⟨h1, h2⟩
  | timed w x hw hx =>
    refine syn_still h (w := w) rfl (Nat.le_refl _) (fun _ _ h => h) (by okr) (by simp) (by simp) rfl ?_ ?_ (by simp [flOf_enqPh, flOf])
    · intro a m x; simp only [enqPh]; split <;> simp
    · intro a m; simp only [enqPh]; split <;> simp
  | ext w dst c now hw hc =>
    refine syn_still h (w := w) rfl (Nat.le_succ _) ?_ (by okr) (by simp) (by simp) rfl ?_ ?_ (by simp [flOf_enqPh, flOf])
    · intro x hx h1
      have : x ≠ v.nmsg := by omega
      simp only [V.frozen, upd_ne _ this]; exact h1
    · intro a m x; simp only [enqPh]; split <;> simp
    · intro a m; simp only [enqPh]; split <;> simp
  | fire x now t hw hx hb =>
    exact syn_still h (w := 0) rfl (Nat.le_refl _) (fun _ _ h => h) (by okr) (by simp) (by simp) rfl (by simp) (by simp) (by simp [flOf])

/-- Then no actor is taken while a worker still posts its messages. -/
theorem Syn.noOverlap (hv : VI v) (h : Syn v) {i r w : Nat} (hr : r ∈ v.al (.ready i)) : poster (v.wk w) ≠ some r := by
  intro hp
  have key : ∃ x, v.wf r = some x ∧ ¬ v.frozen x := by
    have hh : (∃ m, v.wk w = .flush r m .added) ∨ flOf (v.wk w) = some r := by
      have hk := h.rd w
      clear hv h hr
      revert hp hk
      induction v.wk w with
      | rdy b k ih =>
        intro hp hk
        right
        rcases ih hp hk.2.2 with ⟨m, h1⟩ | h1
        · exact absurd h1 (hk.2.1 _ _ _)
        · exact h1
      | flush a m k =>
        intro hp _
        simp only [poster] at hp
        split at hp
        · rename_i e; cases hp; exact .inl ⟨m, by rw [e]⟩
        · cases hp
      | loop a m p k =>
        intro hp _
        simp only [poster] at hp
        split at hp
        · cases hp; exact .inr rfl
        · cases hp
      | _ => intro hp; cases hp
    rcases hh with ⟨m, h1⟩ | h1
    · obtain ⟨x, h2, h3⟩ := h.fl w r m h1
      exact ⟨x, h2, hv.unposted (List.mem_of_getLast? h3) (by simp)⟩
    · obtain ⟨x, h2, h3⟩ := h.lp w r h1 hp
      exact ⟨x, h2, hv.unposted (List.mem_of_getLast? h3) (by simp)⟩
  obtain ⟨x, h1, h2⟩ := key
  rcases hv.nowait r (by rw [h1]; simp) with ⟨y, h3⟩ | ⟨w', h3⟩
  · have := hv.Adisj _ _ r hr h3; cases this
  · have := hv.Adisj _ _ r hr h3; cases this

end Verif.Rts
