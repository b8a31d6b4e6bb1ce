import Verif.Proc.Stdin
/-!
# C167: what is written before done_writing reaches the process
-/
namespace Verif.Proc.Stdin

/-- After the handle was closed, nothing new comes into the pipe. -/
theorem closed_step {cap s e s'} (hc : s.closed = true) (hq : s.queue = []) (h : step cap s e = some s') :
    s'.closed = true ∧ s'.queue = [] ∧ s'.got ++ s'.chan <+: s.got ++ s.chan ∧
      (e ≠ .exit → s'.got ++ s'.chan = s.got ++ s.chan) := by
  cases e with
  | write d n =>
    simp only [step] at h
    split at h
    swap
    · cases h
    have h := Option.some.inj h; subst h
    have : write s d n = s := by unfold write; split <;> simp [hc]
    rw [this]; exact ⟨hc, hq, List.prefix_rfl, fun _ => rfl⟩
  | flush n =>
    simp only [step] at h
    split at h
    swap
    · cases h
    have h := Option.some.inj h; subst h
    simp [hc, hq]
  | read n =>
    simp only [step] at h
    split at h
    swap
    · cases h
    have h := Option.some.inj h; subst h
    simp [hc, hq]
  | done =>
    have h := Option.some.inj h; subst h
    have : done s = s := by unfold done close; split <;> simp [hc]
    rw [this]; exact ⟨hc, hq, List.prefix_rfl, fun _ => rfl⟩
  | exit =>
    simp only [step] at h
    split at h
    swap
    · cases h
    have h := Option.some.inj h; subst h
    have : close s = s := by unfold close; simp [hc]
    rw [this]
    exact ⟨hc, hq, by simp, fun h => absurd rfl h⟩

theorem closed_run {cap es s s'} (hc : s.closed = true) (hq : s.queue = []) (h : run cap s es = some s') :
    s'.got ++ s'.chan <+: s.got ++ s.chan ∧ (Ev.exit ∉ es → s'.got ++ s'.chan = s.got ++ s.chan) := by
  induction es generalizing s with
  | nil => have h := Option.some.inj h; subst h; exact ⟨List.prefix_rfl, fun _ => rfl⟩
  | cons e es ih =>
    simp only [run] at h
    split at h
    · cases h
    rename_i t ht
    obtain ⟨h1, h2, h3, h4⟩ := closed_step hc hq ht
    obtain ⟨h5, h6⟩ := ih h1 h2 h
    refine ⟨h5.trans h3, fun hn => ?_⟩
    rw [h6 (fun hm => hn (List.mem_cons_of_mem _ hm)), h4 (fun he => hn (he ▸ List.mem_cons_self))]

/-- What is read, in the pipe and waits is what was written, from any open state on. -/
theorem open_run {cap es s s'} (ha : s.alive = true) (hc : s.closed = false) (h : run cap s es = some s') :
    s'.got ++ s'.chan <+: s.got ++ s.chan ++ s.queue ++ asked es ∧
    (s'.closed = false → s'.got ++ s'.chan ++ s'.queue = s.got ++ s.chan ++ s.queue ++ asked es) := by
  induction es generalizing s with
  | nil => have h := Option.some.inj h; subst h; exact ⟨by simp [asked, List.append_assoc], fun _ => by simp [asked]⟩
  | cons e es ih =>
    simp only [run] at h
    split at h
    · cases h
    rename_i t ht
    cases e with
    | write d n =>
      simp only [step] at ht
      split at ht
      swap
      · cases ht
      have ht := Option.some.inj ht; subst ht
      have hw : (write s d n).alive = true ∧ (write s d n).closed = false ∧
          (write s d n).got ++ (write s d n).chan ++ (write s d n).queue = s.got ++ s.chan ++ s.queue ++ d := by
        unfold write
        rw [if_neg (by simp [ha]), if_neg (by simp [hc])]
        by_cases hq : s.queue = []
        · rw [if_pos hq]; simp [ha, hc, hq]
        · rw [if_neg hq]; simp [ha, hc]
      have := ih hw.1 hw.2.1 h
      rw [hw.2.2] at this
      simpa [asked] using this
    | flush n =>
      simp only [step] at ht
      split at ht
      swap
      · cases ht
      have ht := Option.some.inj ht; subst ht
      have := ih (s := { s with chan := s.chan ++ s.queue.take n, queue := s.queue.drop n }) ha hc h
      have he : s.got ++ (s.chan ++ s.queue.take n) ++ s.queue.drop n = s.got ++ s.chan ++ s.queue := by simp
      simp only [he] at this
      simpa [asked] using this
    | read n =>
      simp only [step] at ht
      rw [if_pos ha] at ht
      have ht := Option.some.inj ht; subst ht
      have := ih (s := { s with got := s.got ++ s.chan.take n, chan := s.chan.drop n }) ha hc h
      have he : s.got ++ s.chan.take n ++ s.chan.drop n = s.got ++ s.chan := by simp
      simp only [he] at this
      simpa [asked] using this
    | done =>
      have ht := Option.some.inj ht; subst ht
      have hd : done s = { s with closed := true, queue := [] } := by simp [done, close, ha, hc]
      rw [hd] at h
      have := closed_run (s := { s with closed := true, queue := [] }) rfl rfl h
      refine ⟨this.1.trans (by simp [asked]), fun hcl => ?_⟩
      have : ∀ es (s : S), s.closed = true → s.queue = [] → run cap s es = some s' → s'.closed = true := by
        intro es
        induction es with
        | nil => intro s hs _ h; have h := Option.some.inj h; subst h; exact hs
        | cons e es ih =>
          intro s hs hq h
          simp only [run] at h
          split at h
          · cases h
          rename_i t ht
          have := closed_step hs hq ht
          exact ih t this.1 this.2.1 h
      have := this es _ rfl rfl h
      rw [hcl] at this; cases this
    | exit =>
      simp only [step] at ht
      rw [if_pos ha] at ht
      have ht := Option.some.inj ht; subst ht
      have hd : close s = { s with closed := true, queue := [] } := by simp [close, hc]
      rw [hd] at h
      have := closed_run (s := { s with closed := true, queue := [], alive := false, chan := [] }) rfl rfl h
      refine ⟨this.1.trans (by simp [asked, List.append_assoc]), fun hcl => ?_⟩
      have : ∀ es (s : S), s.closed = true → s.queue = [] → run cap s es = some s' → s'.closed = true := by
        intro es
        induction es with
        | nil => intro s hs _ h; have h := Option.some.inj h; subst h; exact hs
        | cons e es ih =>
          intro s hs hq h
          simp only [run] at h
          split at h
          · cases h
          rename_i t ht
          have := closed_step hs hq ht
          exact ih t this.1 this.2.1 h
      have := this es _ rfl rfl h
      rw [hcl] at this; cases this

/-- **C167**, order: what the process gets is a beginning of what was written before
`done_writing`; nothing comes twice, in another order or from later writes. -/
theorem C167_prefix {cap es s} (h : run cap s0 es = some s) : s.got ++ s.chan <+: asked es := by
  have := (open_run rfl rfl h).1
  simpa [s0] using this

/-- **C167**, open: as long as stdin is not closed, nothing is lost. -/
theorem C167_open {cap es s} (h : run cap s0 es = some s) (hc : s.closed = false) :
    s.got ++ s.chan ++ s.queue = asked es := by
  have := (open_run rfl rfl h).2 hc
  simpa [s0] using this

/-- **C167** if no write waits when `done_writing` is called and the process goes on: it gets all
that was written. Missing: writes that wait, which are lost (`C167_refuted`). -/
theorem C167_partial {cap es s es' s'} (h : run cap s0 es = some s) (hc : s.closed = false) (hq : s.queue = [])
    (h' : run cap s (.done :: es') = some s') (hx : Ev.exit ∉ es') : s'.got ++ s'.chan = asked es := by
  have h1 := C167_open h hc
  rw [hq, List.append_nil] at h1
  simp only [run, step] at h'
  have hd : (done s).closed = true ∧ (done s).queue = [] ∧ (done s).got ++ (done s).chan = s.got ++ s.chan ∨ done s = s ∧ s.alive = false := by
    unfold done
    by_cases ha : s.alive = false
    · rw [if_pos ha]; exact Or.inr ⟨rfl, ha⟩
    · rw [if_neg ha]; left; simp [close, hc]
  rcases hd with ⟨d1, d2, d3⟩ | ⟨-, ha⟩
  · rw [(closed_run d1 d2 h').2 hx, d3, h1]
  · exfalso
    have : ∀ es (t : S), (t.alive = false → t.closed = true) → run cap t es = some s → (s.alive = false → s.closed = true) := by
      intro es
      induction es with
      | nil => intro t ht h; have h := Option.some.inj h; subst h; exact ht
      | cons e es ih =>
        intro t ht h
        simp only [run] at h
        split at h
        · cases h
        rename_i u hu
        refine ih u ?_ h
        cases e with
        | write d n =>
          simp only [step] at hu
          split at hu
          swap
          · cases hu
          have hu := Option.some.inj hu; subst hu
          unfold write
          repeat' split
          all_goals exact ht
        | flush n =>
          simp only [step] at hu
          split at hu
          swap
          · cases hu
          have hu := Option.some.inj hu; subst hu
          exact ht
        | read n =>
          simp only [step] at hu
          split at hu
          swap
          · cases hu
          have hu := Option.some.inj hu; subst hu
          exact ht
        | done =>
          have hu := Option.some.inj hu; subst hu
          unfold done close
          repeat' split
          all_goals first | exact ht | exact fun _ => rfl
        | exit =>
          simp only [step] at hu
          split at hu
          swap
          · cases hu
          have hu := Option.some.inj hu; subst hu
          intro _
          show (close t).closed = true
          unfold close
          split
          · assumption
          · rfl
    have := this es s0 (fun h => by cases h) h ha
    rw [hc] at this; cases this

/-- **C167** is false for every size of the pipe: the process reads as long as it wants, and a byte
that was written before `done_writing` never comes. -/
theorem C167_refuted (cap : Nat) : ∃ d : Bytes, ∃ s, run cap s0 [.write d cap, .done] = some s ∧ s.alive = true ∧
    ∀ es s', run cap s es = some s' → s'.got ≠ asked [.write d cap, .done] := by
  have hl : ((List.replicate (cap + 1) (0 : UInt8)).take cap).length = cap := by simp
  refine ⟨List.replicate (cap + 1) 0,
    { s0 with chan := (List.replicate (cap + 1) (0 : UInt8)).take cap, closed := true }, ?_, rfl, ?_⟩
  · simp only [run, step]
    rw [if_pos (by rw [hl]; simp [s0])]
    simp [write, s0, done, close]
  · intro es s' h heq
    have h1 := (closed_run (s := { s0 with chan := (List.replicate (cap + 1) (0 : UInt8)).take cap, closed := true })
      rfl rfl h).1.length_le
    rw [heq] at h1
    simp [asked, s0] at h1
    omega

/-- Hypotheses of `C167_partial`: two writes of which the second has to wait, and a flush. -/
example : ∃ s s', run 4 s0 [.write [1, 2, 3] 3, .write [4, 5] 1, .read 2, .flush 1] = some s ∧ s.closed = false ∧ s.queue = [] ∧
    run 4 s [.done, .read 9] = some s' ∧ s'.got = [1, 2, 3, 4, 5] :=
  ⟨_, _, rfl, rfl, rfl, rfl, rfl⟩

end Verif.Proc.Stdin
