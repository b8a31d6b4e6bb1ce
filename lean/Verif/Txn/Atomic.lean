import Verif.Txn.Exclusive
import Verif.Queue.Props
/-!
# C28: a transaction takes effect as a whole, in the order issued, or not at all
-/
namespace Verif.Txn
open Verif

variable {α ν : Type}

/-! ### Specification -/

/-- The columns of the last update of the cell with the key path `ks` of the table `t`. -/
def lastUpdate (ws : List (Write α ν)) (t : Int) (ks : List Int) : Option (List α) :=
  (ws.reverse.find? fun w => decide (w.kind = .update ∧ w.table = t ∧ w.keys = ks)).map (·.cols)

/-- The row `pk` of the table `t` is deleted. -/
def Deleted (ws : List (Write α ν)) (t pk : Int) : Prop := ∃ w ∈ ws, w.kind = .delete ∧ w.table = t ∧ w.keys = [pk]

instance (ws : List (Write α ν)) (t pk : Int) : Decidable (Deleted ws t pk) := by unfold Deleted; infer_instance

/-- The content of the table `t` after the writes `ws`, `f` before: the last update wins. -/
def effect (ws : List (Write α ν)) (t : Int) (f : Db.Spec α) : Db.Spec α := fun pk cks =>
  match lastUpdate ws t (pk :: cks) with
  | some cols => some cols
  | none => if Deleted ws t pk then none else f pk cks

/-- The entries put into the queue `q` of the table `t`, in the order issued. -/
def enqueued (ws : List (Write α ν)) (t q : Int) : List (List α) :=
  (ws.filter fun w => decide (w.kind = .enqueue ∧ w.table = t ∧ w.queue = q)).map (·.cols)

/-- The writes to a data table with `n` clustering keys: updates of cells, deletions of rows. -/
def RowOk (n : Nat) (w : Write α ν) : Prop :=
  (w.kind = .update → w.keys.length = n + 1 ∧ w.cols ≠ []) ∧ (w.kind = .delete → w.keys.length = 1)

/-- No row is both deleted and updated. -/
def NoMix (ws : List (Write α ν)) (t : Int) : Prop :=
  ∀ w ∈ ws, ∀ w' ∈ ws, w.table = t → w'.table = t → w.kind = .delete → w'.kind = .update → w.keys.head? ≠ w'.keys.head?

/-! ### The writes one after the other -/

/-- `persist_txn` over a list of writes. -/
def persistAll (v : ν) (lvl : Write α ν → Nat) : List (Write α ν) → Store α ν → Int → Res (Store α ν × Int)
  | [], s, res => .ok (s, res)
  | w :: ws, s, _ => do
    let x ← persistWrite s v (lvl w) w
    persistAll v lvl ws x.1 x.2

variable {b : Int} {Q : Int → Bool}

theorem persistLoop_eq {h : Nat → Option (Write α ν)} {v : ν} {lvl : Write α ν → Nat} :
    ∀ (P : List ((Nat × Nat) × Write α ν)) (s : Store α ν) (res : Int), (∀ e ∈ P, h e.1.2 = some e.2) →
    persistLoop h v lvl s res (P.map (·.1)) = persistAll v lvl (P.map (·.2)) s res
  | [], s, res, _ => rfl
  | e :: P, s, res, hg => by
    simp only [List.map_cons, persistLoop, persistAll]
    rw [deref_ok.2 (hg e (by simp)), Res.ok_bind]
    cases persistWrite s v (lvl e.2) e.2 with
    | ok x => exact persistLoop_eq P x.1 x.2 fun f hf => hg f (by simp [hf])
    | raise _ => rfl
    | ub => rfl
    | diverge => rfl

/-- What a write does to the table `t`. -/
def applyW (t : Int) (f : Db.Spec α) (w : Write α ν) : Db.Spec α :=
  if w.table = t then
    match w.kind, w.keys with
    | .update, pk :: cks => fun p c => if p = pk ∧ c = cks then some w.cols else f p c
    | .delete, pk :: _ => fun p c => if p = pk then none else f p c
    | _, _ => f
  else f

theorem withQueue_tables {s s' : Store α ν} {w : Write α ν} {r : Int}
    {k : (Int → Option (QRow α ν)) → QRow α ν → Res (Store α ν × Int)}
    (hk : ∀ f q s' r, k f q = .ok (s', r) → s'.tables = s.tables) (h : withQueue s w k = .ok (s', r)) :
    s'.tables = s.tables := by
  unfold withQueue at h
  split at h
  · cases h; rfl
  · split at h
    · cases h; rfl
    · exact hk _ _ _ _ h

/-- Queue operations leave the data tables alone. -/
theorem persist_queue_tables {s s' : Store α ν} {v : ν} {lvl : Nat} {w : Write α ν} {r : Int}
    (hw : ¬ Regular w) (h : persistWrite s v lvl w = .ok (s', r)) : s'.tables = s.tables := by
  unfold persistWrite at h
  unfold Regular at hw
  cases hk : w.kind <;> rw [hk] at h <;> simp only [hk] at hw
  · simp at hw
  · simp at hw
  · refine withQueue_tables (fun f q s' r h => ?_) h
    obtain ⟨x, _, h⟩ := bind_ok h
    cases h; rfl
  · refine withQueue_tables (fun f q s' r h => ?_) h
    obtain ⟨x, _, h⟩ := bind_ok h
    cases h; rfl
  · refine withQueue_tables (fun f q s' r h => ?_) h
    obtain ⟨x, _, h⟩ := bind_ok h
    cases h; rfl
  · simp only [persistCreate] at h
    split at h
    · cases h; rfl
    · split at h
      · cases h; rfl
      · obtain ⟨x, _, h⟩ := bind_ok h
        cases h; rfl
  · refine withQueue_tables (fun f q s' r h => ?_) h
    cases h; rfl

/-- Row operations leave the queues and the other data tables alone. -/
theorem persist_regular {s s' : Store α ν} {v : ν} {lvl : Nat} {w : Write α ν} {r : Int}
    (hw : Regular w) (h : persistWrite s v lvl w = .ok (s', r)) :
    s'.qtables = s.qtables ∧ ∀ t, w.table ≠ t → s'.tables t = s.tables t := by
  unfold persistWrite at h
  rcases hw with hk | hk <;> rw [hk] at h
  · simp only [persistUpdate] at h
    split at h
    · cases h; exact ⟨rfl, fun _ _ => rfl⟩
    · cases h
    · obtain ⟨x, _, h⟩ := bind_ok h
      cases h
      exact ⟨rfl, fun t ht => by simp [setTable, setI, Ne.symm ht]⟩
  · simp only [persistDelete] at h
    split at h
    · cases h; exact ⟨rfl, fun _ _ => rfl⟩
    · cases h
    · cases h
      exact ⟨rfl, fun t ht => by simp [setTable, setI, Ne.symm ht]⟩

/-- One write and the table `t`. -/
theorem persist_table {n : Nat} (hn : 1 ≤ n) {s s' : Store α ν} {v : ν} {lvl : Nat} {w : Write α ν} {r : Int}
    (h : persistWrite s v lvl w = .ok (s', r)) {t : Int} {tab : Db.Table α ν} (ht : s.tables t = some tab)
    {f : Db.Spec α} (hi : Db.Inv n tab) (ha : Db.Answers n tab f) (hw : w.table = t → RowOk n w) :
    ∃ tab', s'.tables t = some tab' ∧ Db.Inv n tab' ∧ Db.Answers n tab' (applyW t f w) := by
  by_cases hr : Regular w
  · by_cases htt : w.table = t
    · have hok := hw htt
      unfold persistWrite at h
      rcases hr with hk | hk <;> rw [hk] at h
      · simp only [persistUpdate] at h
        rw [htt, ht] at h
        obtain ⟨h1, h2⟩ := hok.1 hk
        cases hks : w.keys with
        | nil => rw [hks] at h1; simp at h1
        | cons pk cks =>
          rw [hks] at h h1
          simp only at h
          obtain ⟨tab', e, i', a'⟩ := Db.step_spec hn hi ha (.ins pk cks w.cols (some v)) ⟨by simpa using h1, h2⟩
          simp only [Db.step] at e
          rw [e] at h
          cases h
          refine ⟨tab', by simp [setTable, setI], i', ?_⟩
          unfold applyW
          rw [if_pos htt, hk, hks]
          exact a'
      · simp only [persistDelete] at h
        rw [htt, ht] at h
        have h1 := hok.2 hk
        cases hks : w.keys with
        | nil => rw [hks] at h1; simp at h1
        | cons pk cks =>
          rw [hks] at h
          simp only at h
          obtain ⟨tab', e, i', a'⟩ := Db.step_spec hn hi ha (.del pk) trivial
          simp only [Db.step] at e
          injection e with e
          cases h
          refine ⟨tab', by simp [setTable, setI, e], i', ?_⟩
          unfold applyW
          rw [if_pos htt, hk, hks]
          exact a'
    · refine ⟨tab, by rw [(persist_regular hr h).2 t htt]; exact ht, hi, ?_⟩
      unfold applyW
      rw [if_neg htt]
      exact ha
  · refine ⟨tab, by rw [persist_queue_tables hr h]; exact ht, hi, ?_⟩
    have : applyW t f w = f := by
      unfold applyW
      unfold Regular at hr
      split
      · split
        · rename_i hk _; exact absurd (.inl hk) hr
        · rename_i hk _; exact absurd (.inr hk) hr
        · rfl
      · rfl
    rw [this]
    exact ha

theorem persistAll_table {n : Nat} (hn : 1 ≤ n) {v : ν} {lvl : Write α ν → Nat} {t : Int} :
    ∀ (L : List (Write α ν)) {s s' : Store α ν} {res r : Int}, persistAll v lvl L s res = .ok (s', r) →
    ∀ {tab : Db.Table α ν}, s.tables t = some tab → ∀ {f : Db.Spec α}, Db.Inv n tab → Db.Answers n tab f →
    (∀ w ∈ L, w.table = t → RowOk n w) →
    ∃ tab', s'.tables t = some tab' ∧ Db.Inv n tab' ∧ Db.Answers n tab' (L.foldl (applyW t) f)
  | [], s, s', res, r, h, tab, ht, f, hi, ha, _ => by cases h; exact ⟨tab, ht, hi, ha⟩
  | w :: L, s, s', res, r, h, tab, ht, f, hi, ha, hw => by
    simp only [persistAll] at h
    obtain ⟨x, hx, h⟩ := bind_ok h
    obtain ⟨tab1, e1, i1, a1⟩ := persist_table hn hx ht hi ha (hw w (by simp))
    exact persistAll_table hn L h e1 i1 a1 fun w' hw' => hw w' (by simp [hw'])

/-! ### Queues -/

theorem findQueue_some {s : Store α ν} {t q : Int} {r : QRow α ν} (h : findQueue s t q = some r) :
    ∃ f, s.qtables t = some f ∧ f q = some r := by
  unfold findQueue at h
  cases hf : s.qtables t with
  | none => rw [hf] at h; cases h
  | some f => rw [hf] at h; exact ⟨f, rfl, h⟩

theorem findQueue_set {s : Store α ν} {t q : Int} {g : Int → Option (QRow α ν)} {x : Option (QRow α ν)} :
    findQueue (setQueue s t q g x) t q = x := by
  simp [findQueue, setQueue, setI]

theorem findQueue_set_ne {s : Store α ν} {t q t' q' : Int} {g : Int → Option (QRow α ν)} {x : Option (QRow α ν)}
    (hg : s.qtables t' = some g) (h : t ≠ t' ∨ q ≠ q') : findQueue (setQueue s t' q' g x) t q = findQueue s t q := by
  unfold findQueue setQueue setI
  simp only
  by_cases ht : t = t'
  · subst ht
    rw [if_pos rfl, hg]
    have : q ≠ q' := by
      rcases h with h | h
      · exact absurd rfl h
      · exact h
    simp [this]
  · rw [if_neg ht]

/-- One write and the queue `q` of the table `t`. -/
theorem persist_queue {s s' : Store α ν} {v : ν} {lvl : Nat} (hlvl : lvl < Skiplist.maxLevel) {w : Write α ν} {c : Int}
    (h : persistWrite s v lvl w = .ok (s', c)) {t q : Int} {r : QRow α ν} (hr : findQueue s t q = some r)
    {E : List (List α)} (hq : Queue.QInv r.row E) (hlen : E.length < 2 ^ 31 - 2)
    (hd : ¬ (w.kind = .deleteQ ∧ w.table = t ∧ w.queue = q)) :
    ∃ r', findQueue s' t q = some r' ∧
      Queue.QInv r'.row (E ++ if w.kind = .enqueue ∧ w.table = t ∧ w.queue = q then [w.cols] else []) := by
  obtain ⟨g, hg, hgq⟩ := findQueue_some hr
  by_cases hreg : Regular w
  · have hne : ¬ (w.kind = .enqueue ∧ w.table = t ∧ w.queue = q) := by
      rintro ⟨h1, _⟩
      rcases hreg with h2 | h2 <;> rw [h1] at h2 <;> cases h2
    rw [if_neg hne, List.append_nil]
    refine ⟨r, ?_, hq⟩
    unfold findQueue
    rw [(persist_regular hreg h).1]
    exact hr
  · by_cases hm : w.table = t ∧ w.queue = q
    · obtain ⟨hm1, hm2⟩ := hm
      unfold persistWrite at h
      unfold Regular at hreg
      cases hk : w.kind <;> rw [hk] at h <;> simp only [hk] at hreg
      · simp at hreg
      · simp at hreg
      · simp only [withQueue, hm1, hm2, hg, hgq] at h
        obtain ⟨x, hx, h⟩ := bind_ok h
        cases h
        obtain ⟨r', e1, e2, _⟩ := Queue.enqueue_spec hq w.cols hlvl hlen
        rw [e1] at hx
        cases hx
        exact ⟨_, findQueue_set, by simpa [hm1, hm2] using e2⟩
      · simp only [withQueue, hm1, hm2, hg, hgq] at h
        obtain ⟨x, hx, h⟩ := bind_ok h
        cases h
        refine ⟨_, findQueue_set, ?_⟩
        simpa using ((Queue.C25_commit_heads hq w.consumer w.head).1 hx).1
      · simp only [withQueue, hm1, hm2, hg, hgq] at h
        obtain ⟨x, hx, h⟩ := bind_ok h
        cases h
        refine ⟨_, findQueue_set, ?_⟩
        simpa using ((Queue.C25_commit_heads hq w.consumer w.head).2 hx).1
      · simp only [persistCreate, hm1, hm2, hg, hgq] at h
        cases h
        exact ⟨r, hr, by simpa using hq⟩
      · exact absurd ⟨hk, hm1, hm2⟩ hd
    · have hne : ¬ (w.kind = .enqueue ∧ w.table = t ∧ w.queue = q) := fun h => hm h.2
      rw [if_neg hne, List.append_nil]
      refine ⟨r, ?_, hq⟩
      have hm' : t ≠ w.table ∨ q ≠ w.queue := by
        by_cases h1 : w.table = t
        · right; intro h2; exact hm ⟨h1, h2.symm⟩
        · left; exact fun h => h1 h.symm
      have hwq : ∀ {k : (Int → Option (QRow α ν)) → QRow α ν → Res (Store α ν × Int)} {s' : Store α ν} {c : Int},
          (∀ g' x, s.qtables w.table = some g' → ∀ s' c, k g' x = .ok (s', c) →
            ∃ z, s' = setQueue s w.table w.queue g' z) →
          withQueue s w k = .ok (s', c) → findQueue s' t q = some r := by
        intro k s' c hk h
        unfold withQueue at h
        cases hf : s.qtables w.table with
        | none => rw [hf] at h; cases h; exact hr
        | some g' =>
          rw [hf] at h
          simp only at h
          cases hx : g' w.queue with
          | none => rw [hx] at h; cases h; exact hr
          | some x =>
            rw [hx] at h
            obtain ⟨z, rfl⟩ := hk g' x hf s' c h
            rw [findQueue_set_ne hf hm']
            exact hr
      unfold persistWrite at h
      unfold Regular at hreg
      cases hk : w.kind <;> rw [hk] at h <;> simp only [hk] at hreg
      · simp at hreg
      · simp at hreg
      · refine hwq (fun g' x _ s' c h => ?_) h
        obtain ⟨x, _, h⟩ := bind_ok h
        cases h; exact ⟨_, rfl⟩
      · refine hwq (fun g' x _ s' c h => ?_) h
        obtain ⟨x, _, h⟩ := bind_ok h
        cases h; exact ⟨_, rfl⟩
      · refine hwq (fun g' x _ s' c h => ?_) h
        obtain ⟨x, _, h⟩ := bind_ok h
        cases h; exact ⟨_, rfl⟩
      · simp only [persistCreate] at h
        cases hf : s.qtables w.table with
        | none => rw [hf] at h; cases h; exact hr
        | some g' =>
          rw [hf] at h
          simp only at h
          cases hx : g' w.queue with
          | some x => rw [hx] at h; cases h; exact hr
          | none =>
            rw [hx] at h
            simp only at h
            obtain ⟨x, _, h⟩ := bind_ok h
            cases h
            rw [findQueue_set_ne hf hm']
            exact hr
      · refine hwq (fun g' x _ s' c h => ?_) h
        cases h; exact ⟨_, rfl⟩

theorem persistAll_queue {v : ν} {lvl : Write α ν → Nat} (hlvl : ∀ w, lvl w < Skiplist.maxLevel) {t q : Int} :
    ∀ (L : List (Write α ν)) {s s' : Store α ν} {res c : Int}, persistAll v lvl L s res = .ok (s', c) →
    ∀ {r : QRow α ν}, findQueue s t q = some r → ∀ {E : List (List α)}, Queue.QInv r.row E →
    E.length + L.length ≤ 2 ^ 31 - 2 → (∀ w ∈ L, ¬ (w.kind = .deleteQ ∧ w.table = t ∧ w.queue = q)) →
    ∃ r', findQueue s' t q = some r' ∧ Queue.QInv r'.row (E ++ enqueued L t q)
  | [], s, s', res, c, h, r, hr, E, hq, _, _ => by cases h; exact ⟨r, hr, by simpa [enqueued] using hq⟩
  | w :: L, s, s', res, c, h, r, hr, E, hq, hl, hd => by
    simp only [persistAll] at h
    obtain ⟨x, hx, h⟩ := bind_ok h
    simp only [List.length_cons] at hl
    obtain ⟨r1, e1, q1⟩ := persist_queue (hlvl w) hx hr hq (by omega) (hd w (by simp))
    have hl1 : (E ++ if w.kind = .enqueue ∧ w.table = t ∧ w.queue = q then [w.cols] else []).length + L.length
        ≤ 2 ^ 31 - 2 := by
      split <;> simp <;> omega
    obtain ⟨r2, e2, q2⟩ := persistAll_queue hlvl L h e1 q1 hl1 fun w' hw' => hd w' (by simp [hw'])
    refine ⟨r2, e2, ?_⟩
    have : enqueued (w :: L) t q = (if w.kind = .enqueue ∧ w.table = t ∧ w.queue = q then [w.cols] else []) ++ enqueued L t q := by
      unfold enqueued
      rw [List.filter_cons]
      by_cases hc : w.kind = .enqueue ∧ w.table = t ∧ w.queue = q
      · simp [hc]
      · simp [hc]
    rw [this, ← List.append_assoc]
    exact q2

/-! ### The enqueued entries keep their order -/

theorem code_enqueue {w l : Write α ν} (hl : l.kind = .enqueue) (h : code l = code w) :
    w.kind = .enqueue ∧ w.table = l.table ∧ w.order = l.order := by
  unfold code at h
  rw [hl] at h
  cases hk : w.kind <;> rw [hk] at h <;> simp [Kind.regular, Kind.num] at h
  · obtain ⟨_, h1, h2⟩ := h
    rw [← h2] at h1
    simp at h1
  · obtain ⟨_, h1, h2⟩ := h
    rw [← h2] at h1
    simp at h1
  · exact ⟨rfl, h.1.symm, h.2.symm⟩

theorem filter_ins {p : Write α ν → Bool} {w : Write α ν} (hp : p w = false) : ∀ {L : List (Write α ν)},
    (∀ l ∈ L, code l = code w → p l = false) → (ins w L).filter p = L.filter p
  | [], _ => by simp [ins, hp]
  | l :: L, h => by
    unfold ins
    split
    · rw [List.filter_cons, List.filter_cons, filter_ins hp fun l hl => h l (by simp [hl])]
    · split
      · rename_i hc
        simp [List.filter_cons, hp, h l (by simp) hc]
      · simp [List.filter_cons, hp]

theorem filter_ins_last {p : Write α ν → Bool} {w : Write α ν} (hp : p w = true) : ∀ {L : List (Write α ν)},
    Srt L → (∀ l ∈ L, p l = true → lex (code l) (code w) < 0) → (ins w L).filter p = L.filter p ++ [w]
  | [], _, _ => by simp [ins, hp]
  | l :: L, hs, h => by
    unfold Srt at hs
    rw [List.pairwise_cons] at hs
    unfold ins
    split
    · rw [List.filter_cons, List.filter_cons, filter_ins_last hp hs.2 fun l hl => h l (by simp [hl])]
      split <;> simp
    · rename_i h1
      have hl : p l = false := by
        cases hpl : p l
        · rfl
        · exact absurd (h l (by simp) hpl) h1
      have hL : L.filter p = [] := by
        rw [List.filter_eq_nil_iff]
        intro m hm hpm
        have h2 := h m (by simp [hm]) hpm
        have h3 := lex_trans (hs.1 m hm) h2
        exact h1 h3
      split
      · simp [List.filter_cons, hp, hl, hL]
      · simp [List.filter_cons, hp, hl, hL]

theorem enqueue_order {ws : List (Write α ν)} : ∀ l ∈ build ws, l.kind = .enqueue → l.order < (build ws).length := by
  induction ws using List.reverseRecOn with
  | nil => intro l hl; simp [build] at hl
  | append_singleton ws w ih =>
    intro l hl hk
    rw [build_snoc] at hl ⊢
    unfold add at hl ⊢
    have hlen := length_ins ({ w with order := (build ws).length } : Write α ν) (srt_build ws)
    rcases (mem_ins (srt_build ws)).1 hl with rfl | ⟨h1, _⟩
    · rw [hlen, if_neg]
      · simp only; omega
      · rintro ⟨m, hm, hc⟩
        obtain ⟨c1, _, c2⟩ := code_enqueue (w := m) hk hc.symm
        have := ih m hm c1
        simp only at c2
        omega
    · have := ih l h1 hk
      rw [hlen]
      split <;> omega

theorem enqueued_build (ws : List (Write α ν)) (t q : Int) : enqueued (build ws) t q = enqueued ws t q := by
  induction ws using List.reverseRecOn with
  | nil => rfl
  | append_singleton ws w ih =>
    rw [build_snoc]
    unfold add
    generalize hw' : ({ w with order := ((build ws).length : Int) } : Write α ν) = w'
    have hk : w'.kind = w.kind := by rw [← hw']
    have ht : w'.table = w.table := by rw [← hw']
    have hq : w'.queue = w.queue := by rw [← hw']
    have hc : w'.cols = w.cols := by rw [← hw']
    have ho : w'.order = ((build ws).length : Int) := by rw [← hw']
    unfold enqueued at ih ⊢
    rw [List.filter_append, List.map_append, ← ih]
    by_cases hp : w.kind = .enqueue ∧ w.table = t ∧ w.queue = q
    · rw [filter_ins_last (by simp [hk, ht, hq, hp]) (srt_build ws)]
      · simp [hp, hc]
      · intro l hl hpl
        simp only [decide_eq_true_eq] at hpl
        have := enqueue_order l hl hpl.1
        unfold code
        rw [hk, hp.1, hpl.1, ht, hp.2.1, hpl.2.1, ho]
        simp only [Kind.regular, Bool.false_eq_true, if_false, lex, ne_eq, not_true_eq_false]
        rw [if_pos (by omega)]
        omega
    · rw [filter_ins (by simp [hk, ht, hq]; simpa using hp)]
      · simp [hp]
      · intro l hl hcl
        simp only [decide_eq_false_iff_not]
        rintro ⟨h1, h2, h3⟩
        obtain ⟨c1, c2, c3⟩ := code_enqueue h1 hcl
        have := enqueue_order l hl h1
        rw [ho] at c3
        omega

/-! ### The last update wins -/

theorem lastUpdate_snoc (ws : List (Write α ν)) (a : Write α ν) (t : Int) (ks : List Int) :
    lastUpdate (ws ++ [a]) t ks =
      if a.kind = .update ∧ a.table = t ∧ a.keys = ks then some a.cols else lastUpdate ws t ks := by
  unfold lastUpdate
  simp only [List.reverse_append, List.reverse_cons, List.reverse_nil, List.nil_append, List.cons_append,
    List.find?_cons]
  by_cases h : a.kind = .update ∧ a.table = t ∧ a.keys = ks
  · simp [h]
  · simp [h]

theorem lastUpdate_build {n : Nat} (hn : 1 ≤ n) {ws : List (Write α ν)} (hd : ∀ w ∈ ws, Dom b Q w) {t : Int}
    (hok : ∀ w ∈ ws, w.table = t → RowOk n w) {ks : List Int} (hl : ks.length = n + 1) (c : List α) :
    (∃ l ∈ build ws, l.kind = .update ∧ l.table = t ∧ l.keys = ks ∧ l.cols = c) ↔ lastUpdate ws t ks = some c := by
  induction ws using List.reverseRecOn with
  | nil => simp [build, lastUpdate]
  | append_singleton ws a ih =>
    have ih := ih (fun w hw => hd w (by simp [hw])) (fun w hw => hok w (by simp [hw]))
    rw [build_snoc, lastUpdate_snoc]
    unfold add
    generalize hw' : ({ a with order := ((build ws).length : Int) } : Write α ν) = w'
    have hk : w'.kind = a.kind := by rw [← hw']
    have ht : w'.table = a.table := by rw [← hw']
    have hq : w'.keys = a.keys := by rw [← hw']
    have hc : w'.cols = a.cols := by rw [← hw']
    have hdw : Dom b Q w' := by rw [← hw']; exact dom_order (hd a (by simp)) _
    by_cases hp : a.kind = .update ∧ a.table = t ∧ a.keys = ks
    · rw [if_pos hp]
      have hreg : Regular w' := .inl (hk.trans hp.1)
      constructor
      · rintro ⟨l, hl, h1, h2, h3, h4⟩
        rcases (mem_ins (srt_build ws)).1 hl with rfl | ⟨_, h5⟩
        · rw [← h4, hc]
        · exact absurd ((code_regular (.inl h1) hreg).2
            ⟨by rw [h2, ht, hp.2.1], by rw [h3, hq, hp.2.2]⟩) h5
      · intro e
        exact ⟨w', (mem_ins (srt_build ws)).2 (.inl rfl), hk.trans hp.1, ht.trans hp.2.1, hq.trans hp.2.2,
          hc.trans (by simpa using e)⟩
    · rw [if_neg hp, ← ih]
      constructor
      · rintro ⟨l, hl, h1, h2, h3, h4⟩
        rcases (mem_ins (srt_build ws)).1 hl with rfl | ⟨h5, _⟩
        · exact absurd ⟨hk ▸ h1, ht ▸ h2, hq ▸ h3⟩ hp
        · exact ⟨l, h5, h1, h2, h3, h4⟩
      · rintro ⟨l, hl', h1, h2, h3, h4⟩
        refine ⟨l, (mem_ins (srt_build ws)).2 (.inr ⟨hl', ?_⟩), h1, h2, h3, h4⟩
        intro hcode
        obtain ⟨w0, hw0, o0, e0⟩ := build_from hl'
        have hdl : Dom b Q l := by rw [e0]; exact dom_order (hd w0 (by simp [hw0])) _
        have hreg := regular_of_code hdl hdw hcode (.inl h1)
        obtain ⟨k1, k2⟩ := (code_regular (.inl h1) hreg).1 hcode
        rcases hreg with hu | hde
        · exact hp ⟨hk ▸ hu, by rw [← ht, ← k1, h2], by rw [← hq, ← k2, h3]⟩
        · have := (hok a (by simp) (by rw [← ht, ← k1, h2])).2 (hk ▸ hde)
          rw [← hq, ← k2, h3] at this
          omega

theorem deleted_build {n : Nat} (hn : 1 ≤ n) {ws : List (Write α ν)} (hd : ∀ w ∈ ws, Dom b Q w) {t : Int}
    (hok : ∀ w ∈ ws, w.table = t → RowOk n w) (pk : Int) : Deleted (build ws) t pk ↔ Deleted ws t pk := by
  constructor
  · rintro ⟨l, hl, h1, h2, h3⟩
    obtain ⟨w, hw, o, rfl⟩ := build_from hl
    exact ⟨w, hw, h1, h2, h3⟩
  · rintro ⟨w, hw, h1, h2, h3⟩
    obtain ⟨l, hl, hc, hr⟩ := mem_build hd hw (.inr h1)
    obtain ⟨k1, k2⟩ := (code_regular hr (.inr h1)).1 hc
    refine ⟨l, hl, ?_, k1.trans h2, k2.trans h3⟩
    rcases hr with hu | hde
    · obtain ⟨w0, hw0, o0, e0⟩ := build_from hl
      have e1 : w0.kind = .update := by rw [e0] at hu; exact hu
      have e2 : w0.table = t := by rw [e0] at k1; exact k1.trans h2
      have e3 : w0.keys = [pk] := by rw [e0] at k2; exact k2.trans h3
      have := ((hok w0 hw0 e2).1 e1).1
      rw [e3] at this
      simp at this
      omega
    · exact hde

/-- The content of a table after writes with different keys, in any order. -/
theorem fold_spec {n : Nat} {t : Int} {pk : Int} {cks : List Int} : ∀ (M : List (Write α ν)) (f : Db.Spec α), Srt M →
    (∀ w ∈ M, w.table = t → RowOk n w) → NoMix M t →
    (∀ w ∈ M, w.kind = .update → w.table = t → w.keys = pk :: cks → M.foldl (applyW t) f pk cks = some w.cols) ∧
    ((∀ w ∈ M, ¬ (w.kind = .update ∧ w.table = t ∧ w.keys = pk :: cks)) →
      M.foldl (applyW t) f pk cks = if Deleted M t pk then none else f pk cks)
  | [], f, _, _, _ => by simp [Deleted]
  | a :: M, f, hs, hok, hmix => by
    unfold Srt at hs
    rw [List.pairwise_cons] at hs
    obtain ⟨hs1, hs2⟩ := hs
    obtain ⟨i1, i2⟩ := fold_spec (pk := pk) (cks := cks) M (applyW t f a) hs2 (fun w hw => hok w (by simp [hw]))
      (fun w hw w' hw' => hmix w (by simp [hw]) w' (by simp [hw']))
    simp only [List.foldl_cons]
    refine ⟨fun w hw h1 h2 h3 => ?_, fun hno => ?_⟩
    · rcases List.mem_cons.1 hw with rfl | hw'
      · rw [i2]
        · rw [if_neg]
          · unfold applyW
            rw [if_pos h2, h1, h3]
            simp
          · rintro ⟨d, hd, d1, d2, d3⟩
            have := hmix d (by simp [hd]) w (by simp) d2 h2 d1 h1
            rw [d3, h3] at this
            simp at this
        · rintro u hu ⟨u1, u2, u3⟩
          have hlt := hs1 u hu
          rw [(code_regular (.inl h1) (.inl u1)).2 ⟨h2.trans u2.symm, h3.trans u3.symm⟩, lex_self] at hlt
          omega
      · exact i1 w hw' h1 h2 h3
    · rw [i2 fun w hw => hno w (by simp [hw])]
      have hdel : Deleted (a :: M) t pk ↔ (a.kind = .delete ∧ a.table = t ∧ a.keys = [pk]) ∨ Deleted M t pk := by
        simp [Deleted]
      by_cases hd : Deleted M t pk
      · rw [if_pos hd, if_pos (hdel.2 (.inr hd))]
      · rw [if_neg hd]
        by_cases ha : a.kind = .delete ∧ a.table = t ∧ a.keys = [pk]
        · rw [if_pos (hdel.2 (.inl ha))]
          unfold applyW
          rw [if_pos ha.2.1, ha.1, ha.2.2]
          simp
        · rw [if_neg (fun h => (hdel.1 h).elim ha hd)]
          unfold applyW
          split
          · rename_i hat
            cases hk : a.kind <;> cases hks : a.keys <;> try rfl
            · rename_i p c
              have : ¬ (pk = p ∧ cks = c) := by
                rintro ⟨rfl, rfl⟩
                exact hno a (by simp) ⟨hk, hat, hks⟩
              simp only
              rw [if_neg this]
            · rename_i p c
              have hlen := (hok a (by simp) hat).2 hk
              rw [hks] at hlen
              have hc : c = [] := by simpa using hlen
              subst hc
              have : ¬ pk = p := by
                rintro rfl
                exact ha ⟨hk, hat, hks⟩
              simp only
              rw [if_neg this]
          · rfl

theorem effect_build {n : Nat} (hn : 1 ≤ n) {ws : List (Write α ν)} (hd : ∀ w ∈ ws, Dom b Q w) {t : Int}
    (hok : ∀ w ∈ ws, w.table = t → RowOk n w) (hmix : NoMix ws t) (f : Db.Spec α) {pk : Int} {cks : List Int}
    (hl : cks.length = n) : (build ws).foldl (applyW t) f pk cks = effect ws t f pk cks := by
  have hok' : ∀ w ∈ build ws, w.table = t → RowOk n w := by
    intro l hl ht
    obtain ⟨w, hw, o, rfl⟩ := build_from hl
    exact hok w hw ht
  have hmix' : NoMix (build ws) t := by
    intro l hl l' hl'
    obtain ⟨w, hw, o, rfl⟩ := build_from hl
    obtain ⟨w', hw', o', rfl⟩ := build_from hl'
    exact hmix w hw w' hw'
  obtain ⟨i1, i2⟩ := fold_spec (pk := pk) (cks := cks) (build ws) f (srt_build ws) hok' hmix'
  have hlu := lastUpdate_build hn hd hok (ks := pk :: cks) (by simp [hl])
  unfold effect
  cases hc : lastUpdate ws t (pk :: cks) with
  | some c =>
    obtain ⟨l, h1, h2, h3, h4, h5⟩ := (hlu c).2 hc
    rw [i1 l h1 h2 h3 h4, h5]
  | none =>
    rw [i2]
    · simp only [deleted_build hn hd hok]
    · rintro w hw ⟨h1, h2, h3⟩
      have := (hlu w.cols).1 ⟨w, hw, h1, h2, h3, rfl⟩
      rw [hc] at this
      cases this

/-! ### The theorems -/

/-- C28. What a commit does, for every history of the server before it: if the transaction `i` has sent the
writes `x.writes`, then after its commit every data table contains, for each key, the columns of the last
update, nothing in the deleted rows, and is unchanged elsewhere; and every queue has got the entries
of the transaction at its end, in the order in which they were sent. The number of messages is below
`2^31`, all identifiers lie in one window of that width, and no table is used both with row and with queue
operations. For a data table the writes have to fit its schema, with at least one clustering key, and no row
may be both deleted and updated; a queue may not be deleted in the same transaction. Missing for the whole
claim: these cases, in which it is false, see the refutations; as it is for a transaction that writes one key
more than twice, which reads freed memory. -/
theorem C28_effect_partial (cv : Option ν → Option ν → Int) (lvl : Write α ν → Nat)
    (hlvl : ∀ w, lvl w < Skiplist.maxLevel) (b : Int) (Q : Int → Bool)
    (st : Store α ν) (ops : List (Op α ν)) (hn : ops.length ≤ 2 ^ 31) (hd : ∀ o ∈ ops, o.Dom b Q) {s s' : Server α ν}
    {es : List (Op α ν × Int)} (hr : run cv lvl ops ⟨[], st⟩ = .ok (s, es)) {i : Int} {x : View α ν}
    (hx : seen es i = some x) {v : ν} {c : Int} (hs : step cv lvl s (.commit i v) = .ok (s', c)) :
    (∀ (t : Int) (n : Nat) (tab : Db.Table α ν) (f : Db.Spec α), 1 ≤ n → s.store.tables t = some tab → Db.Inv n tab →
      Db.Answers n tab f → (∀ w ∈ x.writes, w.table = t → RowOk n w) → NoMix x.writes t →
      ∃ tab', s'.store.tables t = some tab' ∧ Db.Inv n tab' ∧ Db.Answers n tab' (effect x.writes t f)) ∧
    (∀ (t q : Int) (r : QRow α ν) (E : List (List α)), findQueue s.store t q = some r → Queue.QInv r.row E →
      E.length + x.writes.length ≤ 2 ^ 31 - 2 →
      (∀ w ∈ x.writes, ¬ (w.kind = .deleteQ ∧ w.table = t ∧ w.queue = q)) →
      ∃ r', findQueue s'.store t q = some r' ∧ Queue.QInv r'.row (E ++ enqueued x.writes t q)) := by
  have hi : TInv b Q (0 + ops.length) s (seen es) := run_inv ops (tinv_init st) (by omega) hd hr
  rcases hi.rel i with ⟨_, h2⟩ | ⟨t, x', h1, h2, h3⟩
  · rw [hx] at h2; cases h2
  rw [hx] at h2
  cases h2
  simp only [step, h1, persistTxn] at hs
  obtain ⟨y, hy, hs⟩ := bind_ok hs
  cases hs
  obtain ⟨_, P, hP, e1⟩ := h3.rep
  rw [hP.nodes, persistLoop_eq P _ _ (fun e he => (hP.good e he).1), ← e1] at hy
  refine ⟨fun t n tab f hn ht hi ha hok hmix => ?_, fun t q r E hq hi hl hdel => ?_⟩
  · obtain ⟨tab', k1, k2, k3⟩ := persistAll_table hn (build x.writes) (r := y.2) (s' := y.1) hy ht hi ha (by
      intro l hl ht
      obtain ⟨w, hw, o, rfl⟩ := build_from hl
      exact hok w hw ht)
    refine ⟨tab', k1, k2, fun pk cks hl => ?_⟩
    rw [k3 pk cks hl, effect_build hn h3.dom hok hmix f hl]
  · have hlen := length_build x.writes
    obtain ⟨r', k1, k2⟩ := persistAll_queue hlvl (build x.writes) (c := y.2) (s' := y.1) hy hq hi (by omega) (by
      intro l hl
      obtain ⟨w, hw, o, rfl⟩ := build_from hl
      exact hdel w hw)
    exact ⟨r', k1, by rw [← enqueued_build]; exact k2⟩

/-- C28. Nothing but a commit changes the database; a transaction that was aborted is gone, and a commit of
it has no effect. -/
theorem C28_abort (cv : Option ν → Option ν → Int) (lvl : Write α ν → Nat) (s s' : Server α ν) (r : Int) (o : Op α ν)
    (hs : step cv lvl s o = .ok (s', r)) :
    ((∀ i v, o ≠ .commit i v) → s'.store = s.store) ∧
    (∀ i, Db.Sorted s.txns → o = .abort i → ∀ v, step cv lvl s' (.commit i v) = .ok (s', NO_SUCH_TXN)) := by
  refine ⟨fun hc => ?_, fun i hsrt ho v => ?_⟩
  · cases o with
    | start i =>
      simp only [step] at hs
      split at hs <;> cases hs <;> rfl
    | write i w =>
      simp only [step] at hs
      split at hs
      · cases hs; rfl
      · obtain ⟨t', _, hs⟩ := bind_ok hs
        cases hs; rfl
    | validate i v =>
      simp only [step] at hs
      split at hs
      · cases hs; rfl
      · unfold validateTxn at hs
        split at hs
        · cases hs
        · obtain ⟨c, _, hs⟩ := bind_ok hs
          cases hs; rfl
    | commit i v => exact absurd rfl (hc i v)
    | abort i =>
      simp only [step] at hs
      split at hs
      · cases hs
      · cases hs; rfl
  · subst ho
    simp only [step] at hs
    split at hs
    · cases hs
    · cases hs
      simp only [step, dropTxn, Db.find_del hsrt, if_true]

/-- C28. The commit of a local database changes it only if the transaction is valid. -/
theorem C28_local (cv : Option ν → Option ν → Int) (lvl : Write α ν → Nat) (s s' : Server α ν) (i : Int) (v : ν)
    (r : Int) (hs : commitLocal cv lvl s i v = .ok (s', r)) :
    s'.store = s.store ∨ ∃ s1, step cv lvl s (.validate i v) = .ok (s1, VAL_COMMIT) := by
  unfold commitLocal at hs
  split at hs
  · cases hs; exact .inl rfl
  · rename_i t ht
    obtain ⟨x, hx, hs⟩ := bind_ok hs
    split at hs
    · rename_i hc
      right
      refine ⟨x.1, ?_⟩
      simp only [step, ht]
      rw [hx, ← hc]
    · cases hs
      left
      unfold validateTxn at hx
      split at hx
      · cases hx
      · obtain ⟨c, _, hx⟩ := bind_ok hx
        cases hx; rfl

/-! ### Writes with different targets do not fail -/

/-- The same row or cell, or the same consumer's head of the same queue. -/
def SameTarget (w w' : Write α ν) : Prop :=
  (Regular w ∧ Regular w' ∧ w.table = w'.table ∧ w.keys = w'.keys) ∨
  ((w.kind = .readQ ∨ w.kind = .consumeQ) ∧ w.kind = w'.kind ∧ w.table = w'.table ∧ w.queue = w'.queue ∧ w.app = w'.app ∧
    w.shard = w'.shard ∧ w.consumer = w'.consumer)

/-- The writes of a transaction one after the other. -/
def addAll (t : Txn α ν) : List (Write α ν) → Res (Txn α ν)
  | [] => .ok t
  | w :: ws => do
    let t' ← addWrite t w
    addAll t' ws

def Alive (h : Nat → Option (Write α ν)) (nodes : List (Nat × Nat)) : Prop := ∀ n ∈ nodes, (h n.1).isSome = true

theorem deref_alive {h : Nat → Option (Write α ν)} {p : Nat} (hp : (h p).isSome = true) : ∃ k, deref h p = .ok k := by
  unfold deref
  cases hk : h p with
  | none => rw [hk] at hp; cases hp
  | some k => exact ⟨k, rfl⟩

theorem walk_alive {h : Nat → Option (Write α ν)} {w : Write α ν} : ∀ (nodes : List (Nat × Nat)) (x : Option (Nat × Nat)),
    Alive h nodes → ∃ y, walk h w x nodes = .ok y ∧ ∀ n, y = some n → x = some n ∨ n ∈ nodes
  | [], x, _ => ⟨x, rfl, fun n h => .inl h⟩
  | n :: r, x, ha => by
    obtain ⟨k, hk⟩ := deref_alive (ha n (by simp))
    simp only [walk]
    rw [hk, Res.ok_bind]
    split
    · obtain ⟨y, e, hy⟩ := walk_alive (w := w) r (some n) fun m hm => ha m (by simp [hm])
      refine ⟨y, e, fun m hm => ?_⟩
      rcases hy m hm with h1 | h1
      · cases h1; simp
      · simp [h1]
    · exact ⟨x, rfl, fun m h => .inl h⟩

theorem search_alive {h : Nat → Option (Write α ν)} {w : Write α ν} {nodes : List (Nat × Nat)} (ha : Alive h nodes) :
    ∃ y, wsSearch h nodes w = .ok y := by
  obtain ⟨y, e, hy⟩ := walk_alive (w := w) nodes none ha
  unfold wsSearch
  rw [e, Res.ok_bind]
  cases y with
  | none => exact ⟨none, rfl⟩
  | some n =>
    rcases hy n rfl with h1 | h1
    · cases h1
    · obtain ⟨k, hk⟩ := deref_alive (ha n h1)
      simp only [checkNode]
      rw [hk, Res.ok_bind]
      split <;> exact ⟨_, rfl⟩

theorem insert_alive {h : Nat → Option (Write α ν)} {w : Write α ν} {p : Nat} (hp : (h p).isSome = true) :
    ∀ (nodes : List (Nat × Nat)), Alive h nodes → ∃ y, wsInsert h w p nodes = .ok y ∧ Alive h y.1
  | [], _ => ⟨_, rfl, fun n hn => by simp at hn; rw [hn]; exact hp⟩
  | n :: r, ha => by
    obtain ⟨k, hk⟩ := deref_alive (ha n (by simp))
    simp only [wsInsert]
    rw [hk, Res.ok_bind]
    split
    · obtain ⟨y, e, hy⟩ := insert_alive (w := w) hp r fun m hm => ha m (by simp [hm])
      rw [e]
      refine ⟨_, rfl, fun m hm => ?_⟩
      rcases List.mem_cons.1 hm with rfl | h1
      · exact ha m (by simp)
      · exact hy m h1
    · split
      · refine ⟨_, rfl, fun m hm => ?_⟩
        rcases List.mem_cons.1 hm with rfl | h1
        · exact ha n (by simp)
        · exact ha m (by simp [h1])
      · refine ⟨_, rfl, fun m hm => ?_⟩
        rcases List.mem_cons.1 hm with rfl | h1
        · exact hp
        · exact ha m h1

theorem same_target {w l : Write α ν} (hw : Dom b Q w) (hl : Dom b Q l) (hr : w.kind.replaces = true) (hc : code l = code w) :
    SameTarget l w := by
  by_cases hreg : Regular w
  · have hreg' := regular_of_code hw hl hc.symm hreg
    exact .inl ⟨hreg', hreg, (code_regular hreg' hreg).1 hc⟩
  · right
    have hreg' : ¬ Regular l := fun h => hreg (regular_of_code hl hw hc h)
    unfold code at hc
    unfold Regular at hreg hreg'
    cases hk : w.kind <;> rw [hk] at hc hr hreg <;> simp [Kind.replaces] at hr hreg <;>
      cases hk' : l.kind <;> rw [hk'] at hc hreg' <;> simp [Kind.regular, Kind.num] at hc hreg'
    · exact ⟨.inl rfl, rfl, hc.1, hc.2.1, hc.2.2.1, hc.2.2.2.1, hc.2.2.2.2⟩
    · exact ⟨.inr rfl, rfl, hc.1, hc.2.1, hc.2.2.1, hc.2.2.2.1, hc.2.2.2.2⟩

theorem addWrite_alive {t : Txn α ν} {L : List (Write α ν)} (hr : Rep b Q t L) (ha : Alive t.heap t.nodes) {w : Write α ν}
    (hw : Dom b Q w) (hl : L.length < 2 ^ 31) (hf : ∀ l ∈ L, ¬ SameTarget l w) :
    ∃ t', addWrite t w = .ok t' ∧ Alive t'.heap t'.nodes := by
  obtain ⟨hs, P, hP, rfl⟩ := hr
  have hlen : t.items = ((P.map (·.2)).length : Int) := by rw [hP.items]; simp
  unfold addWrite
  simp only
  generalize hw' : ({ w with order := t.items } : Write α ν) = w'
  have dw : Dom b Q w' := by subst hw'; exact dom_order hw _
  have ow : OrdOk w' := by
    subst hw'
    show InW 0 t.items
    unfold InW; rw [hlen]; omega
  have hh : ∀ q, q ≠ t.nxt → setF t.heap t.nxt (some w') q = t.heap q := by
    intro q hq; simp [setF, hq]
  have hgood : ∀ e ∈ P, Good b Q (setF t.heap t.nxt (some w')) e := by
    intro e he
    obtain ⟨b1, b2⟩ := hP.bound e he
    obtain ⟨g1, g2, g3⟩ := hP.good e he
    refine ⟨?_, g2, ?_⟩
    · rw [hh _ (by omega)]; exact g1
    · rw [hh _ (by omega)]; exact g3
  have hrep' : RepP b Q ⟨setF t.heap t.nxt (some w'), t.nxt, t.nodes, t.items, t.validated, t.ver⟩ P :=
    ⟨hP.nodes, hgood, hP.apart, hP.bound, hP.items⟩
  have ha' : Alive (setF t.heap t.nxt (some w')) t.nodes := by
    intro n hn
    rw [hP.nodes] at hn
    obtain ⟨e, he, rfl⟩ := List.mem_map.1 hn
    rw [hh _ (by have := hP.bound e he; omega)]
    exact ha _ (by rw [hP.nodes]; exact hn)
  have hprev : prevWrite (setF t.heap t.nxt (some w')) t.nodes w' = .ok none := by
    unfold prevWrite
    split
    · rename_i hk
      obtain ⟨y, hy⟩ := search_alive (w := w') ha'
      have h1 := (wsSearch_spec hrep' hs dw ow hy).1
      cases y with
      | none => exact hy
      | some p =>
        obtain ⟨e, he, h2, _⟩ := h1 p rfl
        have := same_target dw (hP.good e he).2.1.1 hk h2
        refine absurd ?_ (hf e.2 (List.mem_map_of_mem he))
        subst hw'
        exact this
    · rfl
  obtain ⟨y, e, hy⟩ := insert_alive (h := setF t.heap t.nxt (some w')) (w := w') (p := t.nxt) (by simp [setF]) t.nodes ha'
  rw [hprev, Res.ok_bind, e, Res.ok_bind]
  exact ⟨_, rfl, hy⟩

theorem addAll_alive : ∀ (ws done : List (Write α ν)) {t : Txn α ν}, Rep b Q t (build done) → Alive t.heap t.nodes →
    (∀ w ∈ done ++ ws, Dom b Q w) → (done ++ ws).length ≤ 2 ^ 31 → (done ++ ws).Pairwise (fun x y => ¬ SameTarget x y) →
    ∃ t', addAll t ws = .ok t' ∧ Rep b Q t' (build (done ++ ws))
  | [], done, t, hr, _, _, _, _ => ⟨t, rfl, by simpa using hr⟩
  | w :: ws, done, t, hr, ha, hd, hl, hp => by
    have hlen := length_build done
    simp only [List.length_append, List.length_cons] at hl
    have hw : Dom b Q w := hd w (by simp)
    obtain ⟨t1, e1, a1⟩ := addWrite_alive hr ha hw (by omega) (by
      intro l hl hst
      obtain ⟨x, hx, o, rfl⟩ := build_from hl
      rw [List.pairwise_append] at hp
      exact hp.2.2 x hx w (by simp) hst)
    have r1 := (addWrite_spec hr hw (by omega) e1).1
    rw [← build_snoc] at r1
    obtain ⟨t2, e2, r2⟩ := addAll_alive ws (done ++ [w]) r1 a1 (by simpa using hd) (by simp; omega) (by simpa using hp)
    refine ⟨t2, ?_, by simpa using r2⟩
    simp only [addAll]
    rw [e1]
    exact e2

/-- C28. A transaction that writes no row, cell or queue head twice accepts all its writes: no freed
memory is read. -/
theorem C28_writes_partial (b : Int) (Q : Int → Bool) (ws : List (Write α ν)) (hd : ∀ w ∈ ws, Dom b Q w)
    (hl : ws.length ≤ 2 ^ 31) (hp : ws.Pairwise fun x y => ¬ SameTarget x y) :
    ∃ t : Txn α ν, addAll newTxn ws = .ok t := by
  obtain ⟨t, e, _⟩ := addAll_alive (b := b) (Q := Q) ws [] (t := newTxn) (rep_new _ _) (by intro n hn; simp [newTxn] at hn)
    (by simpa using hd) (by simpa using hl) (by simpa using hp)
  exact ⟨t, e⟩

/-! ### Examples and refutations -/

/-- A database with the data table 0, with one clustering key and the cell `(5, 1) ↦ [6]`, and the queue table 1
with the queue 0. -/
def dataStore : Res (Store Nat Nat) := do
  let t ← Db.insert ⟨1, []⟩ 5 [1] [6] (some 0)
  let r ← Queue.create 0
  let r ← Queue.enqueue r [4] 0
  return ⟨setI (fun _ => none) 0 (some t), setI (fun _ => none) 1
    (some (setI (fun _ => none) 0 (some ⟨(Queue.subscribe r 3).1, none, fun _ => none⟩)))⟩

/-- The server after a history on this database. -/
def after (ops : List (Op Nat Nat)) : Res (Server Nat Nat × List Int) := do
  let st ← dataStore
  let x ← run cv0 lvl0 ops ⟨[], st⟩
  return (x.1, x.2.map (·.2))

/-- The columns of a cell after a history, with the replies. -/
def cellAfter (ops : List (Op Nat Nat)) (pk ck : Int) : Res (Option (List Nat) × List Int) := do
  let x ← after ops
  match x.1.store.tables 0 with
  | none => .ub
  | some t => do
    let c ← Db.colsOf (Db.searchClustering t pk [ck])
    return (c, x.2)

/-- The number of entries of a queue after a history (`none`: no such queue), with the replies. -/
def queueAfter (ops : List (Op Nat Nat)) (q : Int) : Res (Option Int × List Int) := do
  let x ← after ops
  return ((findQueue x.1.store 1 q).map fun r => r.row.noEntries, x.2)

def enq (q : Int) (c : Nat) : Write Nat Nat := { kind := .enqueue, table := 1, queue := q, cols := [c] }

/-- A transaction with two updates of a cell, a deletion of another row and two queue entries. -/
def goodTxn : List (Write Nat Nat) :=
  [enq 0 1, upd 0 [7, 1] 8, delw 0 [5], enq 0 2, upd 0 [7, 1] 9]

example : cellAfter (.start 1 :: goodTxn.map (.write 1) ++ [.validate 1 0, .commit 1 0]) 7 1 =
    .ok (some [9], [0, 0, 0, 0, 0, 0, 0, 0]) := by decide +kernel

example : effect goodTxn 0 (fun _ _ => some [6]) 7 [1] = some [9] ∧ effect goodTxn 0 (fun _ _ => some [6]) 5 [1] = none ∧
    effect goodTxn 0 (fun _ _ => some [6]) 6 [1] = some [6] ∧ enqueued goodTxn 1 0 = [[1], [2]] := by decide +kernel

/-- The hypotheses of `C28_effect_partial` about the writes hold for it. -/
example : (∀ w ∈ goodTxn, w.table = 0 → RowOk 1 w) ∧ NoMix goodTxn 0 ∧
    ∀ w ∈ goodTxn, ¬ (w.kind = .deleteQ ∧ w.table = 1 ∧ w.queue = 0) := by
  simp [goodTxn, RowOk, NoMix, enq, upd, delw]

example : ∀ w ∈ goodTxn, Dom 0 (fun t => decide (t = 1)) w := by
  intro w hw
  simp only [goodTxn, List.mem_cons, List.not_mem_nil, or_false] at hw
  rcases hw with rfl | rfl | rfl | rfl | rfl <;> constructor <;> simp [enq, upd, delw, InW, Kind.regular]

/-- The queue of the example satisfies the invariant of `C28_effect_partial`, and so does the table. -/
example : ∃ r : Queue.Row (List Nat), Queue.QInv r [[4]] ∧ [[4]].length + goodTxn.length ≤ 2 ^ 31 - 2 := by
  obtain ⟨r, _, h1, _⟩ := Queue.create_spec (α := List Nat) (lvl := 0) (by decide)
  obtain ⟨r', _, h2, _⟩ := Queue.enqueue_spec h1 [4] (lvl := 0) (by decide) (by simp)
  exact ⟨r', h2, by decide⟩

example : ∃ t : Db.Table Nat Nat, Db.Inv 1 t ∧ Db.Answers 1 t (Db.Spec.step (ν := Nat) (fun _ _ => none) (.ins 5 [1] [6] (some 0))) := by
  obtain ⟨t, _, h1, h2⟩ := Db.step_spec (n := 1) (by decide) (t := (⟨1, []⟩ : Db.Table Nat Nat)) (f := fun _ _ => none)
    ⟨rfl, List.Pairwise.nil, by simp⟩
    (by
      intro pk cks h
      have : cks ≠ [] := by intro e; subst e; simp at h
      simp [Db.searchClustering, Db.search, Db.find, this, Db.colsOf])
    (.ins 5 [1] [6] (some 0)) ⟨rfl, by simp⟩
  exact ⟨t, h1, h2⟩

/-- An aborted transaction. -/
example : cellAfter [.start 1, .write 1 (upd 0 [7, 1] 8), .abort 1, .commit 1 0] 7 1 = .ok (none, [0, 0, 0, -3]) := by
  decide +kernel

/-- The writes of `C28_writes_partial`. -/
example : (goodTxn.take 4).Pairwise fun x y => ¬ SameTarget x y := by
  simp [goodTxn, SameTarget, Regular, enq, upd, delw]

/-- C28 is false: the server takes the commit of a transaction that was never validated, and of one whose
validation failed. -/
theorem C28_refuted_unvalidated :
    cellAfter [.start 1, .write 1 (upd 0 [7, 1] 8), .commit 1 0] 7 1 = .ok (some [8], [0, 0, 0]) ∧
    cellAfter [.start 1, .start 2, .write 1 (upd 0 [7, 1] 8), .write 2 (upd 0 [7, 1] 9), .validate 1 0, .validate 2 0,
      .commit 1 0, .commit 2 0] 7 1 = .ok (some [9], [0, 0, 0, 0, 0, 1, 0, 0]) := by decide +kernel

/-- A second write of a key frees the first one, which the skip list still has as its key
(txn_state.c:369-375, skiplist.c:93): the next write of the transaction reads it. -/
theorem C28_refuted_use_after_free :
    replies [.start 1, .write 1 (upd 0 [7, 1] 8), .write 1 (upd 0 [7, 1] 9)] = .ok [0, 0, 0] ∧
    replies [.start 1, .write 1 (upd 0 [7, 1] 8), .write 1 (upd 0 [7, 1] 9), .write 1 (upd 0 [9, 1] 9)] = .ub := by
  decide +kernel

/-- Of an update and a later deletion of the row the deletion is persisted first, the shorter key being the
lower one: the cell is there after the commit. -/
theorem C28_refuted_update_then_delete :
    cellAfter [.start 1, .write 1 (upd 0 [5, 1] 8), .write 1 (delw 0 [5]), .validate 1 0, .commit 1 0] 5 1 =
      .ok (some [8], [0, 0, 0, 0, 0]) := by decide +kernel

/-- The deletion of one cell deletes the row, with its other cells (txns.c:507-509). -/
theorem C28_refuted_delete_cell :
    cellAfter [.start 1, .write 1 (delw 0 [5, 2]), .validate 1 0, .commit 1 0] 5 1 = .ok (none, [0, 0, 0, 0]) := by
  decide +kernel

/-- A transaction that creates a queue and puts an entry into it is refused: the validation looks for the queue in the
database. Without the validation the entry is lost as well, enqueueing (9) comes before creating (12), and
the commit replies success. -/
theorem C28_refuted_create_enqueue :
    queueAfter [.start 1, .write 1 { kind := .createQ, table := 1, queue := 5 }, .write 1 (enq 5 1), .validate 1 0] 5 =
      .ok (none, [0, 0, 0, -8]) ∧
    queueAfter [.start 1, .write 1 { kind := .createQ, table := 1, queue := 5 }, .write 1 (enq 5 1), .commit 1 0] 5 =
      .ok (some 0, [0, 0, 0, 0]) := by decide +kernel

/-- Of two queues of a table that a transaction deletes only the second one is deleted. -/
theorem C28_refuted_delete_queues :
    queueAfter [.start 1, .write 1 { kind := .createQ, table := 1, queue := 5 }, .commit 1 0, .start 2,
      .write 2 { kind := .deleteQ, table := 1, queue := 0 }, .write 2 { kind := .deleteQ, table := 1, queue := 5 },
      .validate 2 0, .commit 2 0] 0 = .ok (some 1, [0, 0, 0, 0, 0, 0, 0, 0]) := by decide +kernel

/-- A failed write does not stop the others, and the reply is that of the last one: here one
of two updates is to a table that does not exist, and the other takes effect; the reply is failure or success. -/
theorem C28_refuted_atomic :
    cellAfter [.start 1, .write 1 (upd 3 [7, 1] 8), .write 1 (upd 0 [7, 1] 8), .validate 1 0, .commit 1 0] 7 1 =
      .ok (some [8], [0, 0, 0, 0, -1]) ∧
    cellAfter [.start 1, .write 1 (upd (-3) [7, 1] 8), .write 1 (upd 0 [7, 1] 8), .validate 1 0, .commit 1 0] 7 1 =
      .ok (some [8], [0, 0, 0, 0, 0]) := by decide +kernel

/-- A server that is asked to abort a transaction it does not know aborts itself (actondb.c:1241-1242). -/
theorem C28_refuted_abort_crash : replies [.start 1, .commit 1 0, .abort 1] = .raise .assertFail := by decide +kernel

end Verif.Txn
