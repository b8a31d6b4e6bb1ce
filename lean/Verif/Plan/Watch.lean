import Verif.Plan.Select
/-!
# Watching the sources (C147): compiler/acton/Main.hs and startCompile of Compile.hs

The number of a file is that of its task. A write gives the file a stamp that no file had before (the original takes
the time and the size). A run reads the sources when it starts and what it compiles counts when it is done; a run that
is cancelled leaves nothing. Runs that fail are not modelled, nor are files that appear or vanish: the events for
these start full runs.
-/
namespace Verif.Plan.Watch

/-- What is compiled: all tasks, or those that a change of one file calls for. -/
abbrev What := Option Key

structure State where
  clock : Nat := 1
  /-- the stamps of the sources -/
  disk : Key → Nat := fun _ => 0
  /-- the stamps of the sources of which the outputs were made -/
  compiled : Key → Option Nat := fun _ => none
  /-- `stampsRef` (Main.hs:887) -/
  stamps : Key → Option Nat := fun _ => none
  /-- files that were written, without that the program has been told yet -/
  pending : List Key := []
  /-- `csAsyncRef` (Compile.hs:616): the run in progress, with the sources that it read -/
  running : Option (What × (Key → Nat)) := none

/-- `startCompile` (Compile.hs:614-628): cancels the run in progress. -/
def start (w : What) (s : State) : State := { s with running := some (w, s.disk) }

/-- At the beginning of `runWatchProject` everything is compiled (Main.hs:908). -/
def init : State := start none {}

/-- Somebody writes a file. -/
def write (k : Key) (s : State) : State :=
  { s with clock := s.clock + 1, disk := Function.update s.disk k s.clock, pending := k :: s.pending }

/-- The program is told: `onAct`, `scheduleMaybe` (Main.hs:888-899) and `shouldTriggerFile` (Main.hs:835-844). -/
def notify (k : Key) (s : State) : State :=
  let s' := { s with pending := s.pending.filter (· ≠ k) }
  if s.stamps k = some (s.disk k) then s'
  else start (some k) { s' with stamps := Function.update s.stamps k (some (s.disk k)) }

/-- A file appears or vanishes, or `Build.act` is written: `onRoot` and `WatchFull` (Main.hs:848-872, 899). -/
def full (s : State) : State := start none s

/-- The tasks of a run (Compile.hs:735-741). -/
def tasks (ts : List Task) (groups : List (List Key)) (dbp : Key → Bool) : What → List Task
  | none => ts
  | some k => plan ts groups dbp [k]

/-- The run is done. -/
def done (ts : List Task) (groups : List (List Key)) (dbp : Key → Bool) (s : State) : State :=
  match s.running with
  | none => s
  | some (w, src) =>
    { s with
      running := none
      compiled := fun k => if k ∈ (tasks ts groups dbp w).map (·.key) then some (src k) else s.compiled k }

inductive Event
  | write (k : Key)
  | notify (k : Key)
  | full
  | done

def step (ts : List Task) (groups : List (List Key)) (dbp : Key → Bool) (s : State) : Event → State
  | .write k => write k s
  | .notify k => notify k s
  | .full => full s
  | .done => done ts groups dbp s

def run (ts : List Task) (groups : List (List Key)) (dbp : Key → Bool) (es : List Event) : State :=
  es.foldl (step ts groups dbp) init

/-- Nothing runs and nothing has to be told. -/
def Quiet (s : State) : Prop := s.running = none ∧ s.pending = []

/-- The outputs of all tasks are made of the sources as they are. -/
def Fresh (ts : List Task) (s : State) : Prop := ∀ t ∈ ts, s.compiled t.key = some (s.disk t.key)

/-! ## Invariant -/

/-- The source is compiled, or is being compiled, as it is. -/
def Ok (s : State) (k : Key) : Prop := s.compiled k = some (s.disk k) ∧ s.running = none ∨ ∃ w src, s.running = some (w, src) ∧ src k = s.disk k

structure Inv (ts : List Task) (s : State) : Prop where
  ok : ∀ t ∈ ts, t.key ∈ s.pending ∨ Ok s t.key
  stamp : ∀ t ∈ ts, s.stamps t.key = some (s.disk t.key) → Ok s t.key
  disk : ∀ k, s.disk k < s.clock
  old : ∀ k n, s.stamps k = some n → n < s.clock
  what : ∀ k src, s.running = some (some k, src) → ∃ t ∈ ts, t.key = k

variable {ts : List Task} {groups : List (List Key)} {dbp : Key → Bool}

theorem start_ok (w : What) (s : State) (k : Key) : Ok (start w s) k := .inr ⟨w, s.disk, rfl, rfl⟩

theorem inv_init : Inv ts init :=
  ⟨fun _ _ => .inr (start_ok _ _ _), fun _ _ _ => start_ok _ _ _, fun _ => Nat.one_pos, (fun _ _ h => by cases h), (fun _ _ h => by cases h)⟩

theorem inv_write {s : State} (h : Inv ts s) (k : Key) : Inv ts (write k s) := by
  have hok : ∀ j, j ≠ k → Ok s j → Ok (write k s) j := by
    intro j hj
    rintro (⟨h1, h2⟩ | ⟨w, src, h1, h2⟩)
    · exact .inl ⟨by simp [write, hj, h1], h2⟩
    · exact .inr ⟨w, src, h1, by simp [write, hj, h2]⟩
  refine ⟨fun t ht => ?_, fun t ht he => ?_, fun j => ?_, fun j n hn => ?_, h.what⟩
  · by_cases hj : t.key = k
    · exact .inl (by simp [write, hj])
    · rcases h.ok t ht with h' | h'
      · exact .inl (.tail _ h')
      · exact .inr (hok _ hj h')
  · by_cases hj : t.key = k
    · have := h.old t.key _ he
      simp [write, hj] at this
    · exact hok _ hj (h.stamp t ht (by simpa [write, hj] using he))
  · by_cases hj : j = k
    · simp [write, hj]
    · have := h.disk j
      simp only [write, Function.update_of_ne hj]
      omega
  · have := h.old j n hn
    show n < s.clock + 1
    omega

theorem inv_start {s : State} (h : Inv ts s) (w : What) (hw : ∀ k, w = some k → ∃ t ∈ ts, t.key = k) : Inv ts (start w s) :=
  ⟨fun _ _ => .inr (start_ok _ _ _), fun _ _ _ => start_ok _ _ _, h.disk, h.old, fun k src hr => by
    simp only [start, Option.some.injEq, Prod.mk.injEq] at hr
    exact hw k hr.1⟩

theorem inv_notify {s : State} (h : Inv ts s) (k : Key) (hk : ∃ t ∈ ts, t.key = k) : Inv ts (notify k s) := by
  unfold notify
  by_cases hs : s.stamps k = some (s.disk k)
  · simp only [if_pos hs]
    refine ⟨fun t ht => ?_, h.stamp, h.disk, h.old, h.what⟩
    by_cases hj : t.key = k
    · exact .inr (h.stamp t ht (by rw [hj]; exact hs))
    · rcases h.ok t ht with h' | h'
      · exact .inl (by simp [h', hj])
      · exact .inr h'
  · simp only [if_neg hs]
    refine ⟨fun _ _ => .inr (start_ok _ _ _), fun _ _ _ => start_ok _ _ _, h.disk, fun j n hn => ?_, fun j src hr => ?_⟩
    · simp only [start] at hn ⊢
      by_cases hj : j = k
      · subst hj
        rw [Function.update_self, Option.some.injEq] at hn
        have := h.disk j; omega
      · rw [Function.update_of_ne hj] at hn
        exact h.old j n hn
    · simp only [start, Option.some.injEq, Prod.mk.injEq] at hr
      exact hr.1 ▸ hk

/-- If a task imports all, then every run compiles all. -/
theorem tasks_all (hk : (ts.map (·.key)).Nodup) (hg : ∀ g ∈ groups, ∀ k ∈ g, ∃ t ∈ ts, t.key = k)
    {m : Task} (hm : m ∈ ts) (hall : ∀ t ∈ ts, Reach (ImportsT ts) m.key t.key) (w : What) (hw : ∀ k, w = some k → ∃ t ∈ ts, t.key = k)
    (t : Task) (ht : t ∈ ts) : t ∈ tasks ts groups dbp w := by
  cases w with
  | none => exact ht
  | some k =>
    obtain ⟨u, hu, rfl⟩ := hw k rfl
    have hsel : m ∈ selectAffected ts dbp [u.key] :=
      (C144_partial hk dbp [u.key] (by simp) m).2 ⟨hm, .inl ⟨u.key, by simp, hall u hu⟩⟩
    rw [tasks, plan, C145 hk groups _ (fun k h => by
      obtain ⟨t, ht, rfl⟩ := List.mem_map.1 h
      exact ⟨t, ((C144_partial hk dbp [u.key] (by simp) t).1 ht).1, rfl⟩) hg]
    refine ⟨ht, ?_⟩
    have := hall t ht
    generalize t.key = x at this
    induction this with
    | refl => exact .given (List.mem_map_of_mem (f := (·.key)) hsel)
    | tail _ h ih => exact .dep ih h

theorem inv_done (hk : (ts.map (·.key)).Nodup) (hg : ∀ g ∈ groups, ∀ k ∈ g, ∃ t ∈ ts, t.key = k)
    {m : Task} (hm : m ∈ ts) (hall : ∀ t ∈ ts, Reach (ImportsT ts) m.key t.key) {s : State} (h : Inv ts s) :
    Inv ts (done ts groups dbp s) := by
  unfold done
  cases hr : s.running with
  | none => simpa [hr] using h
  | some r =>
    obtain ⟨w, src⟩ := r
    have hok : ∀ t ∈ ts, Ok s t.key → Ok { s with
        running := none
        compiled := fun k => if k ∈ (tasks ts groups dbp w).map (·.key) then some (src k) else s.compiled k } t.key := by
      intro t ht
      rintro (⟨_, h2⟩ | ⟨w', src', h1, h2⟩)
      · rw [hr] at h2; cases h2
      · rw [hr] at h1
        cases h1
        refine .inl ⟨?_, rfl⟩
        have := tasks_all (dbp := dbp) hk hg hm hall w (fun k hw => h.what k src (by rw [hr, hw])) t ht
        show (if t.key ∈ _ then _ else _) = _
        rw [if_pos (List.mem_map_of_mem (f := (·.key)) this), h2]
    exact ⟨fun t ht => (h.ok t ht).imp id (hok t ht), fun t ht he => hok t ht (h.stamp t ht he), h.disk, h.old, fun _ _ h => by cases h⟩

/-- **C147.** When nothing runs and nothing has to be told, the outputs are made of the sources as they are, if a
task imports all others. -/
theorem C147_partial (hk : (ts.map (·.key)).Nodup) (hg : ∀ g ∈ groups, ∀ k ∈ g, ∃ t ∈ ts, t.key = k)
    {m : Task} (hm : m ∈ ts) (hall : ∀ t ∈ ts, Reach (ImportsT ts) m.key t.key) (es : List Event)
    (hes : ∀ k, .notify k ∈ es → ∃ t ∈ ts, t.key = k) (hq : Quiet (run ts groups dbp es)) : Fresh ts (run ts groups dbp es) := by
  have hinv : ∀ (es : List Event) (s : State), Inv ts s → (∀ k, .notify k ∈ es → ∃ t ∈ ts, t.key = k) →
      Inv ts (es.foldl (step ts groups dbp) s) := by
    intro es
    induction es with
    | nil => intro s h _; exact h
    | cons e es ih =>
      intro s h hes
      refine ih _ ?_ fun k h => hes k (.tail _ h)
      cases e with
      | write k => exact inv_write h k
      | notify k => exact inv_notify h k (hes k (by simp))
      | full => exact inv_start h none (by simp)
      | done => exact inv_done hk hg hm hall h
  intro t ht
  obtain ⟨h1, h2⟩ := hq
  rcases (hinv es init inv_init hes).ok t ht with h | ⟨h, _⟩ | ⟨w, src, h, _⟩
  · exact absurd h (by rw [show (es.foldl (step ts groups dbp) init).pending = [] from h2]; simp)
  · exact h
  · rw [show (es.foldl (step ts groups dbp) init).running = none from h1] at h; cases h

instance (s : State) : Decidable (Fresh ts s) := by unfold Fresh; infer_instance

/-- Two files are written at nearly the same time: the run for the second cancels that for the first, whose change is
not compiled. -/
theorem C147_refuted_cancelled :
    let ts : List Task := [⟨1, []⟩, ⟨2, []⟩]
    let s := run ts [] (fun _ => false) [.done, .write 1, .write 2, .notify 1, .notify 2, .done]
    s.running.isNone ∧ s.pending = [] ∧ ¬ Fresh ts s := by decide

/-- A file is written while everything is compiled at the beginning: nothing else is compiled then. -/
theorem C147_refuted_full :
    let ts : List Task := [⟨1, []⟩, ⟨2, []⟩]
    let s := run ts [] (fun _ => false) [.write 1, .notify 1, .done]
    s.running.isNone ∧ s.pending = [] ∧ ¬ Fresh ts s := by decide

/-- The same with a task that imports both. -/
example :
    let ts : List Task := [⟨1, []⟩, ⟨2, []⟩, ⟨3, [1, 2]⟩]
    let s := run ts [] (fun _ => false) [.done, .write 1, .write 2, .notify 1, .notify 2, .done]
    s.running.isNone ∧ s.pending = [] ∧ Fresh ts s := by decide

example : ∀ t ∈ ([⟨1, []⟩, ⟨2, []⟩, ⟨3, [1, 2]⟩] : List Task), Reach (ImportsT [⟨1, []⟩, ⟨2, []⟩, ⟨3, [1, 2]⟩]) 3 t.key := by
  intro t ht
  have h : ∀ b, b = 1 ∨ b = 2 → ImportsT [⟨1, []⟩, ⟨2, []⟩, ⟨3, [1, 2]⟩] 3 b := by
    rintro b (rfl | rfl)
    · exact ⟨⟨⟨3, [1, 2]⟩, by simp, rfl, by simp⟩, ⟨1, []⟩, by simp, rfl⟩
    · exact ⟨⟨⟨3, [1, 2]⟩, by simp, rfl, by simp⟩, ⟨2, []⟩, by simp, rfl⟩
  simp only [List.mem_cons, List.not_mem_nil, or_false] at ht
  rcases ht with rfl | rfl | rfl
  · exact .single (h 1 (.inl rfl))
  · exact .single (h 2 (.inr rfl))
  · exact .refl

end Verif.Plan.Watch
