import Verif.Persist.Spec

/-!
# Persist: lemmas about tables, flushing and saving
-/
namespace Verif.Persist

variable {S K : Type}

@[simp] theorem upd_same {α : Type} (f : Nat → α) (i : Nat) (x : α) : upd f i x i = x := by simp [upd]

theorem upd_ne {α : Type} (f : Nat → α) {i j : Nat} (x : α) (h : j ≠ i) : upd f i x j = f j := by
  simp [upd, h]

/-- The receiver of a message. -/
def destOf (msgs : Nat → Option (Msg K)) (id : Nat) : Option Nat := (msgs id).map Msg.dest

/-- The messages of a list that are for `a`. -/
def sel (msgs : Nat → Option (Msg K)) (l : List Nat) (a : Nat) : List Nat :=
  l.filter (fun id => decide (destOf msgs id = some a))

/-- All messages of a list exist and are without due time. -/
def Now (msgs : Nat → Option (Msg K)) (l : List Nat) : Prop :=
  ∀ id ∈ l, ∃ m, msgs id = some m ∧ m.due = none

theorem Now.tail {msgs : Nat → Option (Msg K)} {x l} (h : Now msgs (x :: l)) : Now msgs l :=
  fun id hid => h id (List.mem_cons_of_mem _ hid)

theorem flushDb_spec (msgs : Nat → Option (Msg K)) (l : List Nat) (h : Now msgs l)
    (q : Nat → Queue) (t : Queue) :
    (flushDb msgs l (q, t)).2 = t ∧
    ∀ d, (flushDb msgs l (q, t)).1 d = { q d with entries := (q d).entries ++ sel msgs l d } := by
  induction l generalizing q with
  | nil => simp [flushDb, sel]
  | cons id ids ih =>
    obtain ⟨m, hm, hd⟩ := h id (List.mem_cons_self ..)
    simp only [flushDb, hm, hd]
    obtain ⟨h1, h2⟩ := ih h.tail (upd q m.dest ((q m.dest).enq id))
    refine ⟨h1, fun d => ?_⟩
    rw [h2 d]
    by_cases e : d = m.dest
    · subst e
      simp [sel, destOf, hm, Queue.enq]
    · rw [upd_ne _ _ e]
      have : ¬ (m.dest = d) := fun h => e h.symm
      simp [sel, destOf, hm, this]

theorem flushLocal_spec (msgs : Nat → Option (Msg K)) (l : List Nat) (h : Now msgs l) (x : Local) :
    (flushLocal msgs l x).timers = x.timers ∧
    ∀ d, (flushLocal msgs l x).inbox d = x.inbox d ++ sel msgs l d ∧
      (flushLocal msgs l x).ready d =
        (x.ready d || (decide (x.inbox d = []) && decide (sel msgs l d ≠ []))) := by
  induction l generalizing x with
  | nil => simp [flushLocal, sel]
  | cons id ids ih =>
    obtain ⟨m, hm, hd⟩ := h id (List.mem_cons_self ..)
    simp only [flushLocal, hm, hd]
    obtain ⟨h1, h2⟩ := ih h.tail (x.enq m.dest id)
    refine ⟨h1, fun d => ?_⟩
    obtain ⟨h3, h4⟩ := h2 d
    rw [h3, h4]
    by_cases e : d = m.dest
    · subst e
      have hs : sel msgs (id :: ids) m.dest = id :: sel msgs ids m.dest := by
        simp [sel, destOf, hm]
      rw [hs]
      by_cases hi : x.inbox m.dest = []
      · simp [Local.enq, hi]
      · simp [Local.enq, hi]
    · have hne : ¬ (m.dest = d) := fun h => e h.symm
      have hs : sel msgs (id :: ids) d = sel msgs ids d := by
        simp [sel, destOf, hm, hne]
      rw [hs]
      by_cases hi : x.inbox m.dest = []
      · simp [Local.enq, hi, upd, e]
      · simp [Local.enq, hi, upd, e]

theorem saveMsgs_spec (mem : Nat → Option (Msg K)) (l : List Nat) (t : Nat → Option (Msg K)) (id : Nat) :
    saveMsgs mem l t id = if id ∈ l then mem id else t id := by
  induction l generalizing t with
  | nil => simp [saveMsgs]
  | cons x xs ih =>
    simp only [saveMsgs]
    rw [ih]
    by_cases h : id ∈ xs
    · simp [h]
    · by_cases e : id = x
      · subst e; simp [h]
      · simp [h, e, upd]

theorem addMsgs_old (a : Nat) (msgs : Nat → Option (Msg K)) (n : Nat) (outs : List (Out K)) (id : Nat)
    (h : id < n ∨ n + outs.length ≤ id) : addMsgs a msgs n outs id = msgs id := by
  induction outs generalizing msgs n with
  | nil => rfl
  | cons o os ih =>
    simp only [addMsgs]
    simp only [List.length_cons] at h
    rw [ih _ _ (by omega), upd_ne _ _ (by omega)]

theorem newIds_succ (n k : Nat) : newIds n (k + 1) = n :: newIds (n + 1) k := by
  simp only [newIds, List.range_succ_eq_map, List.map_cons, List.map_map]
  refine List.cons_eq_cons.mpr ⟨by simp, List.map_congr_left fun i _ => ?_⟩
  simp; omega

theorem addMsgs_new (a : Nat) (msgs : Nat → Option (Msg K)) (n : Nat) (outs : List (Out K)) :
    (newIds n outs.length).map (addMsgs a msgs n outs) = outs.map fun o => some (mkMsg a o) := by
  induction outs generalizing msgs n with
  | nil => rfl
  | cons o os ih =>
    rw [List.length_cons, newIds_succ, List.map_cons, List.map_cons]
    refine List.cons_eq_cons.mpr ⟨?_, ?_⟩
    · simp only [addMsgs]
      rw [addMsgs_old _ _ _ _ _ (by omega), upd_same]
    · simp only [addMsgs]
      exact ih _ _

theorem mem_newIds (n k id : Nat) : id ∈ newIds n k ↔ n ≤ id ∧ id < n + k := by
  simp only [newIds, List.mem_map, List.mem_range]
  constructor
  · rintro ⟨i, h, rfl⟩; omega
  · intro h; exact ⟨id - n, by omega, by omega⟩

theorem newIds_nodup (n k : Nat) : (newIds n k).Nodup := by
  induction k generalizing n with
  | zero => simp [newIds]
  | succ k ih =>
    rw [newIds_succ, List.nodup_cons]
    refine ⟨?_, ih _⟩
    rw [mem_newIds]; omega

theorem setK_ne (msgs : Nat → Option (Msg K)) {m id : Nat} (k : K) (h : id ≠ m) :
    setK msgs m k id = msgs id := by
  unfold setK
  cases msgs m with
  | none => rfl
  | some x => exact upd_ne _ _ h

theorem setK_same (msgs : Nat → Option (Msg K)) {m : Nat} {x : Msg K} (k : K) (h : msgs m = some x) :
    setK msgs m k m = some { x with k := k } := by
  unfold setK
  rw [h]
  exact upd_same ..

theorem freeze_ne (msgs : Nat → Option (Msg K)) {m id : Nat} (h : id ≠ m) :
    freeze msgs m id = msgs id := by
  unfold freeze
  cases msgs m with
  | none => rfl
  | some x => exact upd_ne _ _ h

theorem sel_mem {msgs : Nat → Option (Msg K)} {l : List Nat} {a id : Nat} :
    id ∈ sel msgs l a ↔ id ∈ l ∧ destOf msgs id = some a := by
  simp [sel]

theorem sel_congr {f g : Nat → Option (Msg K)} {l : List Nat} (a : Nat) (h : ∀ id ∈ l, f id = g id) :
    sel f l a = sel g l a := by
  unfold sel
  refine List.filter_congr fun id hid => ?_
  simp [destOf, h id hid]

/-- Part of dealing with a message: continuations that end with another continuation. -/
inductive Part (prog : Prog S K) (a : Nat) : S → K → S → K → Sent K → Prop where
  | refl (s k) : Part prog a s k s k []
  | tail {s k s₁ k₁ o₁ s₂ k₂ outs o₂} : Part prog a s k s₁ k₁ o₁ →
      prog a s₁ k₁ = (s₂, outs, .cont k₂) → outs = o₂.map (fun p => .async p.1 p.2) →
      Part prog a s k s₂ k₂ (o₁ ++ o₂)

theorem Part.exec {prog : Prog S K} {a : Nat} {s k s₁ k₁ o₁} (h : Part prog a s k s₁ k₁ o₁) :
    ∀ {s' o₂}, Exec prog a s₁ k₁ s' o₂ → Exec prog a s k s' (o₁ ++ o₂) := by
  induction h with
  | refl => intro s' o₂ h; simpa using h
  | tail _ hp ho ih =>
    intro s' o₂ h
    rw [List.append_assoc]
    exact ih (.cont hp ho h)

/-- The messages `ids` are what `o` says was sent. -/
def Outs (msgs : Nat → Option (Msg K)) (ids : List Nat) (o : Sent K) : Prop :=
  ids.map msgs = o.map fun p => some ⟨p.1, p.2, none, false⟩

theorem Outs.nil (msgs : Nat → Option (Msg K)) : Outs msgs [] [] := rfl

theorem Outs.append {msgs : Nat → Option (Msg K)} {i₁ i₂ : List Nat} {o₁ o₂ : Sent K}
    (h₁ : Outs msgs i₁ o₁) (h₂ : Outs msgs i₂ o₂) : Outs msgs (i₁ ++ i₂) (o₁ ++ o₂) := by
  simp only [Outs, List.map_append] at *
  rw [h₁, h₂]

theorem Outs.congr {f g : Nat → Option (Msg K)} {ids : List Nat} {o : Sent K}
    (h : Outs f ids o) (e : ∀ id ∈ ids, g id = f id) : Outs g ids o := by
  unfold Outs at *
  rw [← h]
  exact List.map_congr_left e

theorem Outs.sel {msgs : Nat → Option (Msg K)} {ids : List Nat} {o : Sent K} (h : Outs msgs ids o)
    (a : Nat) : (sel msgs ids a).map msgs = (forActor o a).map fun k => some ⟨a, k, none, false⟩ := by
  induction ids generalizing o with
  | nil =>
    cases o with
    | nil => rfl
    | cons p o => simp [Outs] at h
  | cons i is ih =>
    cases o with
    | nil => simp [Outs] at h
    | cons p o =>
      simp only [Outs, List.map_cons, List.cons.injEq] at h
      obtain ⟨h1, h2⟩ := h
      have := ih (o := o) h2
      by_cases e : p.1 = a
      · have hd : destOf msgs i = some a := by simp [destOf, h1, e]
        have hs : Persist.sel msgs (i :: is) a = i :: Persist.sel msgs is a := by
          simp [Persist.sel, hd]
        have hf : forActor (p :: o) a = p.2 :: forActor o a := by
          simp [forActor, e]
        rw [hs, hf, List.map_cons, List.map_cons, this, h1, e]
      · have hd : destOf msgs i ≠ some a := by simp [destOf, h1, e]
        have hs : Persist.sel msgs (i :: is) a = Persist.sel msgs is a := by
          simp [Persist.sel, hd]
        have hf : forActor (p :: o) a = forActor o a := by
          simp [forActor, e]
        rw [hs, hf, this]

end Verif.Persist
