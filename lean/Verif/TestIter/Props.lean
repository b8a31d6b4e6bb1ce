import Verif.TestIter.Model
/-!
# C191, C192: numbers of iterations
-/
namespace Verif.TestIter

theorem loop_some {c : Args} {t : Test} {fuel k n : Nat} (h : loop c t fuel k = some n) :
    k < n ∧ complete c n (t.time n) (t.skips n) = true ∧ ∀ j, k < j → j < n → complete c j (t.time j) (t.skips j) = false := by
  induction fuel generalizing k with
  | zero => cases h
  | succ fuel ih =>
    rw [loop] at h
    by_cases hc : complete c (k + 1) (t.time (k + 1)) (t.skips (k + 1)) = true
    · rw [if_pos hc] at h
      have := Option.some.inj h
      subst this
      exact ⟨by omega, hc, fun j h1 h2 => by omega⟩
    · rw [if_neg hc] at h
      obtain ⟨h1, h2, h3⟩ := ih h
      refine ⟨by omega, h2, fun j hj1 hj2 => ?_⟩
      by_cases hj : j = k + 1
      · subst hj; simpa using hc
      · exact h3 j (by omega) hj2

theorem loop_ends {c : Args} {t : Test} {m : Nat} (hm : complete c m (t.time m) (t.skips m) = true) (d k : Nat) (hk : k + d + 1 = m) :
    ∃ n, loop c t (d + 1) k = some n := by
  induction d generalizing k with
  | zero =>
    have : k + 1 = m := by omega
    rw [loop, this, if_pos hm]; exact ⟨m, rfl⟩
  | succ d ih =>
    rw [loop]
    split
    · exact ⟨_, rfl⟩
    · exact ih (k + 1) (by omega)

theorem complete_iff {c : Args} {n t : Nat} {s : Bool} : complete c n t s = true ↔
    s = true ∨ (t > c.minTime ∧ n > c.minIter) ∨ (c.maxTime > 0 ∧ t > c.maxTime) ∨ (c.maxIter > 0 ∧ n ≥ c.maxIter) := by
  unfold complete
  simp only [Bool.or_eq_true, Bool.and_eq_true, decide_eq_true_eq, or_assoc]

/-- The number of iterations is determined. -/
theorem runs_unique {m : Mode} {o : Opts} {t : Test} {a b : Nat} (ha : Runs m o t a) (hb : Runs m o t b) : a = b := by
  obtain ⟨_, ha⟩ := ha
  obtain ⟨_, hb⟩ := hb
  obtain ⟨a1, a2, a3⟩ := loop_some ha
  obtain ⟨b1, b2, b3⟩ := loop_some hb
  rcases Nat.lt_trichotomy a b with h | h | h
  · rw [b3 a a1 h] at a2; cases a2
  · exact h
  · rw [a3 b b1 h] at b2; cases b2

theorem args_plain (m : Mode) {o : Opts} (hi : o.iter = 0) : args m o = ⟨o.maxIter.getD (10 ^ 6), o.minIter, maxTime m o, minTime m o⟩ := by
  unfold args
  rw [if_neg (by omega)]

/-- **C191** (partial) A test is run for at least `--min-iter` iterations if it is not skipped and if there is
no limit of time (`--max-time 0`); missing: any limit of time, see `C191_refuted`. -/
theorem C191_partial {m : Mode} {o : Opts} {t : Test} {n : Nat} (hi : o.iter = 0) (ht : o.maxTime = some 0)
    (hs : ∀ j, t.skips j = false) (h : Runs m o t n) : o.minIter ≤ n := by
  obtain ⟨_, h⟩ := h
  obtain ⟨-, h2, -⟩ := loop_some h
  rw [complete_iff, hs] at h2
  have e1 : (config (args m o)).minIter = o.minIter := by simp [config, args, hi]
  have e2 : (config (args m o)).maxTime = 0 := by simp [config, args, hi, maxTime, ht]
  have e3 : (config (args m o)).maxIter > 0 → (config (args m o)).maxIter ≥ o.minIter := by
    rw [args_plain m hi]
    show (if o.maxIter.getD (10 ^ 6) = 0 then 0 else max (o.maxIter.getD (10 ^ 6)) o.minIter) > 0 →
      (if o.maxIter.getD (10 ^ 6) = 0 then 0 else max (o.maxIter.getD (10 ^ 6)) o.minIter) ≥ o.minIter
    split
    · intro h; omega
    · intro _; exact Nat.le_max_right _ _
  rw [e1, e2] at h2
  rcases h2 with h2 | h2 | h2 | h2
  · cases h2
  · omega
  · omega
  · have := e3 h2.1; omega

/-- A test that takes 10 ms per iteration. -/
def quick : Test := ⟨fun n => n * 10000, fun _ => false⟩

example : Runs .run { Opts.default with maxTime := some 0, minIter := 7 } quick 8 := ⟨8, by decide⟩

/-- In an ordinary `acton test` without `--iter`, `--max-time` and `--max-iter`, `--min-iter` (up to its
maximum) has no effect at all: the test is run until its time is over. -/
theorem C191_void {o : Opts} {t : Test} (hi : o.iter = 0) (ht : o.maxTime = none) (hx : o.maxIter = none)
    {k : Nat} (hk : k ≤ 10 ^ 6) (ho : o.minIter ≤ 10 ^ 6) (hp : minTime .run o > 0) (n : Nat) :
    Runs .run o t n ↔ Runs .run { o with minIter := k } t n := by
  have key : ∀ j x s, complete (config (args .run o)) j x s = complete (config (args .run { o with minIter := k })) j x s := by
    intro j x s
    have hm : ∀ q : Opts, q.iter = 0 → q.maxTime = none → q.maxIter = none → q.minIter ≤ 10 ^ 6 → minTime .run q > 0 →
        (complete (config (args .run q)) j x s = true ↔ s = true ∨ x > minTime .run q * 1000 ∨ j ≥ 10 ^ 6) := by
      intro q q1 q2 q3 q4 q5
      have e : config (args .run q) = ⟨10 ^ 6, q.minIter, minTime .run q * 1000, minTime .run q * 1000⟩ := by
        have e0 : maxTime .run q = minTime .run q := by simp [maxTime, q2]
        rw [args_plain .run q1, e0, q3]
        unfold config
        simp only [Option.getD_none]
        rw [if_neg (show ¬ (10 : Nat) ^ 6 = 0 by decide), if_neg (show ¬ minTime .run q = 0 by omega), Nat.max_self, Nat.max_eq_left q4]
      rw [complete_iff, e]
      show _ ∨ (x > minTime .run q * 1000 ∧ j > q.minIter) ∨ (minTime .run q * 1000 > 0 ∧ x > minTime .run q * 1000) ∨ ((10 : Nat) ^ 6 > 0 ∧ j ≥ 10 ^ 6) ↔ _
      constructor
      · rintro (h | h | h | h)
        · exact .inl h
        · exact .inr (.inl h.1)
        · exact .inr (.inl h.2)
        · exact .inr (.inr h.2)
      · rintro (h | h | h)
        · exact .inl h
        · exact .inr (.inr (.inl ⟨by omega, h⟩))
        · exact .inr (.inr (.inr ⟨by decide, h⟩))
    have h1 := hm o hi ht hx ho hp
    have h2 := hm { o with minIter := k } hi ht hx hk hp
    rw [Bool.eq_iff_iff, h1, h2]
    exact Iff.rfl
  have hl : ∀ fuel i, loop (config (args .run o)) t fuel i = loop (config (args .run { o with minIter := k })) t fuel i := by
    intro fuel
    induction fuel with
    | zero => intro i; rfl
    | succ f ih => intro i; rw [loop, loop, key, ih]
  unfold Runs
  exact exists_congr fun f => by rw [hl]

/-- A test that takes 60 ms per iteration. -/
def slow : Test := ⟨fun n => n * 60000, fun _ => false⟩

/-- With the default `--min-iter 3`, it is run once; so it is with `--min-iter 100`. -/
theorem C191_refuted : Runs .run Opts.default slow 1 ∧ Runs .run { Opts.default with minIter := 100 } slow 1 :=
  ⟨⟨1, by decide⟩, ⟨1, by decide⟩⟩

example : Runs .run Opts.default slow 1 ↔ Runs .run { Opts.default with minIter := 500 } slow 1 :=
  C191_void rfl rfl rfl (by decide) (by decide) (by decide) 1

/-- **C192** With `--iter n` a test is run for exactly `n` iterations, if none of the first `n` is skipped
and they take no more than 1000 seconds; in any case it ends, after at most `n`. -/
theorem C192 {m : Mode} {o : Opts} {t : Test} (hi : o.iter > 0) :
    (∃ n, Runs m o t n ∧ 0 < n ∧ n ≤ o.iter) ∧
    ((∀ j ≤ o.iter, t.skips j = false ∧ t.time j ≤ 1000 * 1000000) → Runs m o t o.iter) := by
  have e : config (args m o) = ⟨o.iter, o.iter, 10 ^ 6 * 1000, 1000⟩ := by
    unfold config args
    rw [if_pos hi]
    simp only
    rw [if_neg (by omega), if_neg (by decide), Nat.max_self]
    rfl
  have hend : complete (config (args m o)) o.iter (t.time o.iter) (t.skips o.iter) = true := by
    rw [complete_iff, e]
    exact .inr (.inr (.inr ⟨hi, Nat.le_refl _⟩))
  obtain ⟨n, hn⟩ := loop_ends hend (o.iter - 1) 0 (by omega)
  obtain ⟨h1, h2, h3⟩ := loop_some hn
  have hle : n ≤ o.iter := by
    by_contra hlt
    rw [h3 o.iter hi (by omega)] at hend
    cases hend
  refine ⟨⟨n, ⟨_, hn⟩, h1, hle⟩, fun hall => ?_⟩
  have : n = o.iter := by
    rw [complete_iff, e, (hall n hle).1] at h2
    have ht := (hall n hle).2
    rcases h2 with h2 | h2 | h2 | h2
    · cases h2
    · have : n > o.iter := h2.2
      omega
    · have : t.time n > 10 ^ 6 * 1000 := h2.2
      omega
    · have : n ≥ o.iter := h2.2
      omega
  rw [← this]
  exact ⟨_, hn⟩

/-- With `--max-iter x` a test ends, after at most `x` iterations, or `--min-iter` if that is more. -/
theorem C192_max {m : Mode} {o : Opts} (t : Test) {x : Nat} (hi : o.iter = 0) (hx : o.maxIter = some x) (h0 : x > 0) :
    ∃ n, Runs m o t n ∧ 0 < n ∧ n ≤ max x o.minIter := by
  have e : (config (args m o)).maxIter = max x o.minIter := by
    rw [args_plain m hi, hx]
    show (if x = 0 then 0 else max x o.minIter) = _
    rw [if_neg (by omega)]
  have hp : 0 < max x o.minIter := Nat.lt_of_lt_of_le h0 (Nat.le_max_left _ _)
  have hend : complete (config (args m o)) (max x o.minIter) (t.time (max x o.minIter)) (t.skips (max x o.minIter)) = true := by
    rw [complete_iff, e]
    exact .inr (.inr (.inr ⟨hp, Nat.le_refl _⟩))
  obtain ⟨n, hn⟩ := loop_ends hend (max x o.minIter - 1) 0 (by omega)
  obtain ⟨h1, h2, h3⟩ := loop_some hn
  refine ⟨n, ⟨_, hn⟩, h1, ?_⟩
  by_contra hlt
  rw [h3 _ hp (by omega)] at hend
  cases hend

example : ∃ n, Runs .run { Opts.default with maxIter := some 5 } quick n ∧ 0 < n ∧ n ≤ max 5 3 :=
  C192_max (o := { Opts.default with maxIter := some 5 }) quick rfl rfl (by decide)

/-- A skipped iteration is the last one. -/
theorem C192_skip {m : Mode} {o : Opts} {t : Test} {k : Nat} (hk : t.skips k = true) (h0 : 0 < k) : ∃ n, Runs m o t n ∧ 0 < n ∧ n ≤ k := by
  have hend : complete (config (args m o)) k (t.time k) (t.skips k) = true := complete_iff.2 (.inl hk)
  obtain ⟨n, hn⟩ := loop_ends hend (k - 1) 0 (by omega)
  obtain ⟨h1, h2, h3⟩ := loop_some hn
  refine ⟨n, ⟨_, hn⟩, h1, ?_⟩
  by_contra hlt
  rw [h3 _ h0 (by omega)] at hend
  cases hend

example : ∃ n, Runs .run Opts.default ⟨fun _ => 0, fun k => k == 2⟩ n ∧ 0 < n ∧ n ≤ 2 := C192_skip rfl (by decide)

/-- A test is run for longer than `--min-time s` (in milliseconds), unless it is skipped or run for `--max-iter`
iterations. -/
theorem C192_time {m : Mode} {o : Opts} {t : Test} {n x s : Nat} (hi : o.iter = 0) (hx : o.maxIter = some x) (hs : o.minTime = some s)
    (hk : ∀ j, t.skips j = false) (h : Runs m o t n) : t.time n > s * 1000 ∨ n ≥ x := by
  obtain ⟨_, h⟩ := h
  obtain ⟨-, h2, -⟩ := loop_some h
  rw [complete_iff, hk, args_plain m hi] at h2
  have e : minTime m o = s := by simp [minTime, hs]
  rcases h2 with h2 | h2 | h2 | h2
  · cases h2
  · have h3 : t.time n > minTime m o * 1000 := h2.1
    rw [e] at h3
    exact .inl h3
  · left
    have h3 : t.time n > if maxTime m o = 0 then 0 else max (maxTime m o * 1000) (minTime m o * 1000) := h2.2
    have h4 : (if maxTime m o = 0 then 0 else max (maxTime m o * 1000) (minTime m o * 1000)) > 0 := h2.1
    by_cases h0 : maxTime m o = 0
    · rw [if_pos h0] at h4; omega
    · rw [if_neg h0, e] at h3
      have := Nat.le_max_right (maxTime m o * 1000) (s * 1000)
      omega
  · right
    have h3 : n ≥ if o.maxIter.getD (10 ^ 6) = 0 then 0 else max (o.maxIter.getD (10 ^ 6)) o.minIter := h2.2
    rw [hx] at h3
    have h4 : n ≥ if x = 0 then 0 else max x o.minIter := h3
    by_cases h0 : x = 0
    · omega
    · rw [if_neg h0] at h4
      have := Nat.le_max_left x o.minIter
      omega

example : ∀ n, Runs .run { Opts.default with maxIter := some 100, minTime := some 30 } quick n → quick.time n > 30 * 1000 ∨ n ≥ 100 :=
  fun _ h => C192_time (o := { Opts.default with maxIter := some 100, minTime := some 30 }) rfl rfl rfl (fun _ => rfl) h

example : Runs .run { Opts.default with maxIter := some 100, minTime := some 30 } quick 4 := ⟨4, by decide⟩

example : Runs .run { Opts.default with iter := 12 } slow 12 :=
  (C192 (o := { Opts.default with iter := 12 }) (by decide)).2 (fun j hj => ⟨rfl, by
    have : j ≤ 12 := hj
    show j * 60000 ≤ _
    omega⟩)

end Verif.TestIter
