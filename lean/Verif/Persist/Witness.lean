import Verif.Persist.Props

/-!
# Persist: concrete executions

States and continuations are numbers.  `prog`: actor 0 adds the number in a message to its state; actor
`a > 0` in state `s` sends the number to actor `s`; number 100 sends two timed messages to oneself,
number 200 sends 3 to actor 1 and waits, number 300 sends 5 to actor 7.
-/
namespace Verif.Persist

namespace Ex

def prog : Prog Nat Nat := fun a s k =>
  if k = 100 then (s + 1, [.after 20 1, .after 10 2], .done)
  else if k = 200 then (s + 1, [.async 1 3], .wait 0 0)
  else if k = 300 then (s + 1, [.async 7 5], .done)
  else if a = 0 then (s + k, [], .done)
  else (s, [.async s k], .done)

/-- A configuration that the database has as a whole: the actors below `n`, with states 0, and inboxes
`l` for actor 0, `l₁` for actor 1, `l₂` for actor 2, whose messages have the keys from 0 on. -/
def box (l l₁ l₂ : List Nat) (a : Nat) : List Nat :=
  match a with
  | 0 => newIds 0 l.length
  | 1 => newIds l.length l₁.length
  | 2 => newIds (l.length + l₁.length) l₂.length
  | _ => []

def tbl (l l₁ l₂ : List Nat) (id : Nat) : Option (Msg Nat) :=
  if id < l.length then l[id]?.map fun k => ⟨0, k, none, false⟩
  else if id < l.length + l₁.length then l₁[id - l.length]?.map fun k => ⟨1, k, none, false⟩
  else l₂[id - l.length - l₁.length]?.map fun k => ⟨2, k, none, false⟩

def cfg (l l₁ l₂ : List Nat) : Cfg Nat Nat :=
  { mem := { st := fun a => if a < 3 then some 0 else none
             msgs := tbl l l₁ l₂
             inbox := box l l₁ l₂
             outgoing := fun _ => []
             waits := fun _ => none
             ready := fun a => decide (box l l₁ l₂ a ≠ [])
             timers := []
             next := l.length + l₁.length + l₂.length
             jobs := fun _ => none
             mover := none }
    db := { actors := fun a => if a < 3 then some ⟨0, none⟩ else none
            msgs := tbl l l₁ l₂
            queue := fun a => ⟨box l l₁ l₂ a, 0, 0⟩
            timer := ⟨[], 0, 0⟩ } }

/-- The system of it. -/
def sys (l l₁ l₂ : List Nat) : Sys Nat Nat :=
  { st := fun a => if a < 3 then some 0 else none
    box := fun a => match a with | 0 => l | 1 => l₁ | 2 => l₂ | _ => [] }

theorem mem_box {l l₁ l₂ : List Nat} {a id : Nat} (h : id ∈ box l l₁ l₂ a) :
    (a = 0 ∧ id < l.length) ∨ (a = 1 ∧ l.length ≤ id ∧ id < l.length + l₁.length) ∨
    (a = 2 ∧ l.length + l₁.length ≤ id ∧ id < l.length + l₁.length + l₂.length) := by
  match a, h with
  | 0, h => simp only [box, mem_newIds] at h; exact Or.inl ⟨rfl, by omega⟩
  | 1, h => simp only [box, mem_newIds] at h; exact Or.inr (Or.inl ⟨rfl, by omega, by omega⟩)
  | 2, h => simp only [box, mem_newIds] at h; exact Or.inr (Or.inr ⟨rfl, by omega, by omega⟩)
  | n + 3, h => cases h

theorem tbl_box {l l₁ l₂ : List Nat} {a id : Nat} (h : id ∈ box l l₁ l₂ a) :
    ∃ k, tbl l l₁ l₂ id = some ⟨a, k, none, false⟩ := by
  unfold tbl
  rcases mem_box h with ⟨rfl, hl⟩ | ⟨rfl, hl, h'⟩ | ⟨rfl, hl, h'⟩
  · rw [if_pos hl, List.getElem?_eq_getElem hl]; exact ⟨_, rfl⟩
  · have h1 : ¬ id < l.length := by omega
    rw [if_neg h1, if_pos h', List.getElem?_eq_getElem (by omega)]; exact ⟨_, rfl⟩
  · have h1 : ¬ id < l.length := by omega
    have h2 : ¬ id < l.length + l₁.length := by omega
    rw [if_neg h1, if_neg h2, List.getElem?_eq_getElem (by omega)]; exact ⟨_, rfl⟩

theorem start (l l₁ l₂ : List Nat) : Start (cfg l l₁ l₂) := by
  refine ⟨⟨fun _ => rfl, fun _ => rfl, fun _ => rfl, rfl, rfl, fun a => ?_⟩,
    ⟨fun a => ?_, fun a => ⟨rfl, rfl⟩, fun _ _ _ => rfl, Nat.le_refl _⟩,
    ⟨fun id h => ?_, fun a id h => tbl_box h, fun a => ⟨?_, fun id h => ?_⟩, fun a b id ha hb => ?_,
      fun a h => ?_, fun a => Nat.zero_le _⟩⟩
  · simp [cfg]
  · show (if a < 3 then some _ else none) = (if a < 3 then some 0 else none).map _
    by_cases h : a < 3
    · simp [h]
    · simp [h]
  · have h' : l.length + l₁.length + l₂.length ≤ id := h
    have : tbl l l₁ l₂ id = none := by
      unfold tbl
      have h1 : ¬ id < l.length := by omega
      have h2 : ¬ id < l.length + l₁.length := by omega
      rw [if_neg h1, if_neg h2, List.getElem?_eq_none (by omega)]; rfl
    exact ⟨this, this⟩
  · show (box l l₁ l₂ a).Nodup
    match a with
    | 0 => exact newIds_nodup _ _
    | 1 => exact newIds_nodup _ _
    | 2 => exact newIds_nodup _ _
    | n + 3 => exact List.nodup_nil
  · show id < l.length + l₁.length + l₂.length
    rcases mem_box h with h | h | h <;> omega
  · rcases mem_box ha with h | h | h <;> rcases mem_box hb with h' | h' | h' <;> omega
  · show (if a < 3 then some 0 else none).isSome
    obtain ⟨id, hid⟩ := List.exists_mem_of_ne_nil _ h
    have : a < 3 := by rcases mem_box hid with h | h | h <;> omega
    rw [if_pos this]; rfl

theorem conts (n : Nat) (ks : List Nat) (f : Nat → Option Nat)
    (h : ∀ i, i < ks.length → f (n + i) = ks[i]?) : (newIds n ks.length).map f = ks.map some := by
  induction ks generalizing n with
  | nil => rfl
  | cons k ks ih =>
    rw [List.length_cons, newIds_succ, List.map_cons, List.map_cons]
    refine List.cons_eq_cons.mpr ⟨by simpa using h 0 (by simp), ih (n + 1) fun i hi => ?_⟩
    have := h (i + 1) (by simp; omega)
    rw [show n + (i + 1) = n + 1 + i from by omega] at this
    simpa using this

theorem isSys (l l₁ l₂ : List Nat) : IsSys (cfg l l₁ l₂).mem (sys l l₁ l₂) := by
  refine ⟨fun a => rfl, fun a => ?_⟩
  match a with
  | 0 =>
    refine conts 0 l _ fun i hi => ?_
    show (tbl l l₁ l₂ (0 + i)).map Msg.k = _
    rw [Nat.zero_add]
    unfold tbl
    rw [if_pos hi]
    cases l[i]? <;> rfl
  | 1 =>
    refine conts l.length l₁ _ fun i hi => ?_
    show (tbl l l₁ l₂ (l.length + i)).map Msg.k = _
    unfold tbl
    have h1 : ¬ l.length + i < l.length := by omega
    have h2 : l.length + i < l.length + l₁.length := by omega
    rw [if_neg h1, if_pos h2, Nat.add_sub_cancel_left]
    cases l₁[i]? <;> rfl
  | 2 =>
    refine conts (l.length + l₁.length) l₂ _ fun i hi => ?_
    show (tbl l l₁ l₂ (l.length + l₁.length + i)).map Msg.k = _
    unfold tbl
    have h1 : ¬ l.length + l₁.length + i < l.length := by omega
    have h2 : ¬ l.length + l₁.length + i < l.length + l₁.length := by omega
    rw [if_neg h1, if_neg h2, show l.length + l₁.length + i - l.length - l₁.length = i from by omega]
    cases l₂[i]? <;> rfl
  | n + 3 => rfl

/-- State and messages of an actor in memory. -/
def look (c : Cfg Nat Nat) (a : Nat) : Option Nat × List (Option Nat) :=
  (c.mem.st a, (c.mem.inbox a).map (contOf c.mem.msgs))

end Ex

open Ex

/-- The hypotheses of the positive theorems are met by executions that do something: actor 1 sends 7 to
actor 0 while actor 0 adds 5; both commits are done, the flush of actor 1 is not, and actor 0 has
begun with nothing more. -/
example : ∃ d, Exe prog (cfg [5] [7] []) 2 d ∧ NotReading d ∧
    look d 0 = (some 5, []) ∧ look (crashStep d 0) 0 = (some 5, [some 7]) := by
  let c₀ := cfg [5] [7] []
  have hp : ∀ (c : Cfg Nat Nat) a, (∀ m rest, c.mem.inbox a = m :: rest → contOf c.mem.msgs m = some 5 ∨
      contOf c.mem.msgs m = some 7) → c.mem.st a = some 0 → (c.db.actors 0).isSome → Plain prog c a := by
    intro c a h hs hA m rest s msg hi hst hm
    rw [hs] at hst
    have es := Option.some.inj hst
    subst es
    have hk : msg.k = 5 ∨ msg.k = 7 := by
      have := h m rest hi
      rw [contOf, hm] at this
      simpa using this
    by_cases ha : a = 0
    · rcases hk with hk | hk <;> simp [prog, hk, ha] <;> exact ⟨[], by simp, by simp⟩
    · rcases hk with hk | hk
      · simp only [prog, hk, ha]
        exact ⟨fun k i h => by simp at h, [(0, 5)], by simp, by simpa using hA⟩
      · simp only [prog, hk, ha]
        exact ⟨fun k i h => by simp at h, [(0, 7)], by simp, by simpa using hA⟩
  have e0 : Exe prog c₀ 0 c₀ := .refl _
  have e1 := Exe.run (w := 0) (a := 0) e0 (hp _ 0 (by
    intro m rest h; cases h; exact Or.inl rfl) rfl rfl) rfl
  have e2 := Exe.read (w := 0) e1 rfl
  have e3 := Exe.commit (w := 0) e2 (by
    intro w' j hj hph
    by_cases h : w' = 0
    · exact h
    · have : (none : Option (Job Nat)) = some j := by
        rw [← hj]; simp [c₀, cfg, runStep, prog, readStep, upd, h]
      cases this) rfl
  have e4 := Exe.finish (w := 0) e3 rfl
  have e5 := Exe.run (w := 0) (a := 1) e4 (hp _ 1 (by
    intro m rest h; cases h; exact Or.inr rfl) rfl rfl) rfl
  have e6 := Exe.read (w := 0) e5 rfl
  have e7 := Exe.commit (w := 0) e6 (by
    intro w' j hj hph
    by_cases h : w' = 0
    · exact h
    · have : (none : Option (Job Nat)) = some j := by
        rw [← hj]; simp [c₀, cfg, runStep, prog, readStep, commitStep, finishDone, upd, h]
      cases this) rfl
  refine ⟨_, e7, ?_, rfl, rfl⟩
  intro w' j h hj
  by_cases hw : w' = 0
  · subst hw; cases hj; exact fun h => by cases h
  · have : (none : Option (Job Nat)) = some j := by
      rw [← hj]; simp [c₀, cfg, runStep, prog, readStep, commitStep, finishDone, upd, hw]
    cases this

/-! ## The refutations, concretely -/

/-- All systems that actor 0 can reach from state 0 with one message 5. -/
theorem reach_one {n : Nat} {y : Sys Nat Nat} (h : Sys.Steps prog n (sys [5] [] []) y) :
    (∀ a, a ≠ 0 → y.box a = []) ∧
    ((y.st 0 = some 0 ∧ y.box 0 = [5]) ∨ (y.st 0 = some 5 ∧ y.box 0 = [])) := by
  generalize hx : sys [5] [] [] = x at h
  induction h with
  | refl =>
    subst hx
    refine ⟨fun a ha => ?_, Or.inl ⟨rfl, rfl⟩⟩
    match a, ha with
    | 1, _ => rfl
    | 2, _ => rfl
    | n + 3, _ => rfl
  | tail _ hs ih =>
    obtain ⟨h1, h2⟩ := ih hx
    cases hs with
    | mk hst hbox hex =>
      rename_i y' a s k rest s' o
      have ha : a = 0 := by
        by_cases h : a = 0
        · exact h
        · rw [h1 a h] at hbox; cases hbox
      subst ha
      rcases h2 with ⟨h3, h4⟩ | ⟨h3, h4⟩
      · rw [h4] at hbox
        rw [h3] at hst
        cases hbox; cases hst
        have hso : s' = 5 ∧ o = [] := by
          cases hex with
          | done hp ho =>
            simp only [prog] at hp
            cases hp
            exact ⟨rfl, by cases o with | nil => rfl | cons p o => cases ho⟩
          | cont hp => simp [prog] at hp
        obtain ⟨rfl, rfl⟩ := hso
        refine ⟨fun a ha => ?_, Or.inr ⟨rfl, rfl⟩⟩
        simp only [if_neg ha, h1 a ha]; rfl
      · rw [h4] at hbox; cases hbox

/-- **C71** fails for an execution of one worker and one actor, with one message: if the process dies
between the dummy read and the commit, the system read back is none that can be reached by the actors, the message
is neither dealt with nor there. -/
theorem C71_refuted_lost : ∃ d, Exe prog (cfg [5] [] []) 0 d ∧
    ¬ ∃ n y, Sys.Steps prog n (sys [5] [] []) y ∧ IsSys (crashStep d 0).mem y := by
  have e0 : Exe prog (cfg [5] [] []) 0 (cfg [5] [] []) := .refl _
  have e1 := Exe.run (w := 0) (a := 0) e0 (by
    intro m rest s msg hi hs hm
    cases hi; cases hs; cases hm
    exact ⟨fun k i h => (by cases h), [], rfl, fun p h => (by cases h)⟩) rfl
  have e2 := Exe.read (w := 0) e1 rfl
  refine ⟨_, e2, ?_⟩
  rintro ⟨n, y, hy, hi1, hi2⟩
  have h1 := hi1 0
  have h2 := hi2 0
  have h1' : some 0 = y.st 0 := h1
  have h2' : [] = (y.box 0).map some := h2
  rcases (reach_one hy).2 with ⟨h3, h4⟩ | ⟨h3, h4⟩
  · rw [h4] at h2'; cases h2'
  · rw [h3] at h1'; cases h1'

/-- The same for a process that dies twice: all is well after the first crash, the message is lost after the
second. -/
theorem C71_refuted_twice :
    look (crashStep (cfg [5] [] []) 0) 0 = (some 0, [some 5]) ∧
    look (crashStep (crashStep (cfg [5] [] []) 0) 0) 0 = (some 0, []) ∧
    ¬ ∃ n y, Sys.Steps prog n (sys [5] [] []) y ∧
      IsSys (crashStep (crashStep (cfg [5] [] []) 0) 0).mem y := by
  refine ⟨rfl, rfl, ?_⟩
  rintro ⟨n, y, hy, hi1, hi2⟩
  have h1' : some 0 = y.st 0 := hi1 0
  have h2' : [] = (y.box 0).map some := hi2 0
  rcases (reach_one hy).2 with ⟨h3, h4⟩ | ⟨h3, h4⟩
  · rw [h4] at h2'; cases h2'
  · rw [h3] at h1'; cases h1'

/-- An await: before the crash actor 0 has state 1, waits, and will go on with continuation 0; after it
the actor is ready to run continuation 200 again, in state 1; when it does, its state is 2 and
actor 1 has two messages instead of one. -/
theorem C71_refuted_await_run :
    (steps prog (cfg [200] [] []) [.run 0 0, .commit 0, .finish 0]).map
      (fun d => ((look d 0, d.mem.waits 0, look d 1),
        (look (crashStep d 0) 0, (crashStep d 0).mem.ready 0, look (crashStep d 0) 1))) =
      some (((some 1, [some 0]), some 1, (some 0, [some 3])),
        ((some 1, [some 200]), true, (some 0, [some 3]))) ∧
    (steps prog (cfg [200] [] []) [.run 0 0, .commit 0, .finish 0, .crash 0, .run 0 0, .commit 0,
      .finish 0]).map (fun d => (look d 0, look d 1)) =
      some ((some 2, [some 0]), (some 0, [some 3, some 3])) := by
  constructor <;> rfl

/-- A new actor: actor 0 creates actor 7 and sends 5 to it; it commits.  Before the crash actor 7 has
the message; after it, it does not exist, and the message of actor 0 counts as dealt with. -/
theorem C71_refuted_new_actor_run :
    (steps prog (cfg [300] [] []) [.create 7 0, .run 0 0, .read 0, .commit 0, .finish 0]).map
      (fun d => ((look d 0, look d 7), (look (crashStep d 0) 0, look (crashStep d 0) 7))) =
      some (((some 1, []), (some 0, [some 5])), ((some 1, []), (none, []))) := by
  rfl

/-- **C72** fails if a commit has to be repeated: the dummy read is repeated too, and the commit for the
first message consumes the entry of the second.  Memory still has the second message, recovery does not. -/
theorem C72_refuted_retry :
    (steps prog (cfg [1, 2] [] []) [.run 0 0, .read 0, .abort 0, .read 0, .commit 0, .finish 0]).map
      (fun d => (look d 0, (d.db.queue 0).co, look (crashStep d 0) 0)) =
      some ((some 1, [some 2]), 2, (some 1, [])) := by
  decide +kernel

/-- **C72** fails if the event loop sends messages: actor 0 first has 10 from the event loop, then 5 from
actor 1; the commit for 10 consumes the entry of 5. -/
theorem C72_refuted_io :
    (steps prog (cfg [] [5] []) [.io 0 10, .run 0 1, .read 0, .commit 0, .finish 0,
      .run 0 0, .read 0, .commit 0, .finish 0]).map
      (fun d => (look d 0, look (crashStep d 0) 0)) =
      some ((some 10, [some 5]), (some 10, [])) := by
  decide +kernel

/-- **C72** fails for two workers: actors 1 and 2 send 1 and 2 to actor 0; they commit in this order, and flush
in the opposite order.  Actor 0 deals with 2 first, and the commit consumes the entry of 1: memory has
1 left, recovery finds 2 again. -/
theorem C72_refuted_workers :
    (steps prog (cfg [] [1] [2]) [.run 0 1, .run 1 2, .read 0, .read 1, .commit 0, .commit 1,
      .finish 1, .finish 0, .run 0 0, .read 0, .commit 0, .finish 0]).map
      (fun d => (look d 0, look (crashStep d 0) 0)) =
      some ((some 2, [some 1]), (some 2, [some 2])) := by
  decide +kernel

/-- **C72** fails for timers: actor 0 sends itself 1 at time 20 and 2 at time 10.  When 2 is due, the first
entry of the timer queue, which is that of 1, is consumed: memory has 2 in the inbox and 1 in
`timerQ`, recovery finds 2 in both, and 1 is lost. -/
theorem C72_refuted_timer :
    (steps prog (cfg [100] [] []) [.run 0 0, .read 0, .commit 0, .finish 0, .tick 10, .tread,
      .tcommit]).map
      (fun d => ((look d 0, d.mem.timers.map (contOf d.mem.msgs)),
        (look (crashStep d 10) 0, (crashStep d 10).mem.timers.map (contOf (crashStep d 10).mem.msgs)))) =
      some (((some 1, [some 2]), [some 1]), ((some 1, [some 2]), [some 2])) := by
  decide +kernel

end Verif.Persist
