import Verif.Proc.Run
/-!
# C165: RunProcess reports the end of a process once, with its whole output
-/
namespace Verif.Proc

/-- What `read_stdout` sent in a sequence of events. -/
def outSent : List Ev → List (Option Bytes)
  | [] => []
  | .out r :: es => sent r ++ outSent es
  | _ :: es => outSent es

/-- What `read_stderr` sent in a sequence of events. -/
def errSent : List Ev → List (Option Bytes)
  | [] => []
  | .err r :: es => sent r ++ errSent es
  | _ :: es => errSent es

/-- What `exit_handler` sent in a sequence of events. -/
def exitSent : List Ev → List (Int × Int)
  | [] => []
  | .exit c g :: es => (c, g) :: exitSent es
  | _ :: es => exitSent es

/-- Waiting messages of the three kinds. -/
def outMail : List Msg → List (Option Bytes)
  | [] => []
  | .out d :: ms => d :: outMail ms
  | _ :: ms => outMail ms
def errMail : List Msg → List (Option Bytes)
  | [] => []
  | .err d :: ms => d :: errMail ms
  | _ :: ms => errMail ms
def exitMail : List Msg → List (Int × Int)
  | [] => []
  | .exit c g :: ms => (c, g) :: exitMail ms
  | _ :: ms => exitMail ms

/-- The bytes in a sequence of messages. -/
def bytes : List (Option Bytes) → Bytes
  | [] => []
  | some b :: ds => b ++ bytes ds
  | none :: ds => bytes ds

theorem bytes_append (a b : List (Option Bytes)) : bytes (a ++ b) = bytes a ++ bytes b := by
  induction a with
  | nil => rfl
  | cons x a ih => cases x <;> simp [bytes, ih]

theorem bytes_sent (r : Read) : bytes (sent r) = (match r with | .data b => b | _ => []) := by
  cases r with
  | data b => by_cases h : b = [] <;> simp [sent, h, bytes]
  | eof => rfl
  | error => rfl

theorem bytes_outSent (es : List Ev) : bytes (outSent es) = outRead es := by
  induction es with
  | nil => rfl
  | cons e es ih =>
    cases e with
    | out r =>
      simp only [outSent, bytes_append, bytes_sent, ih]
      cases r <;> simp [outRead]
    | _ => simpa [outSent, outRead] using ih

theorem bytes_errSent (es : List Ev) : bytes (errSent es) = errRead es := by
  induction es with
  | nil => rfl
  | cons e es ih =>
    cases e with
    | err r =>
      simp only [errSent, bytes_append, bytes_sent, ih]
      cases r <;> simp [errRead]
    | _ => simpa [errSent, errRead] using ih

theorem outSent_append (a b : List Ev) : outSent (a ++ b) = outSent a ++ outSent b := by
  induction a with
  | nil => rfl
  | cons e a ih => cases e <;> simp [outSent, ih]
theorem errSent_append (a b : List Ev) : errSent (a ++ b) = errSent a ++ errSent b := by
  induction a with
  | nil => rfl
  | cons e a ih => cases e <;> simp [errSent, ih]
theorem exitSent_append (a b : List Ev) : exitSent (a ++ b) = exitSent a ++ exitSent b := by
  induction a with
  | nil => rfl
  | cons e a ih => cases e <;> simp [exitSent, ih]
theorem outMail_append (a b : List Msg) : outMail (a ++ b) = outMail a ++ outMail b := by
  induction a with
  | nil => rfl
  | cons e a ih => cases e <;> simp [outMail, ih]
theorem errMail_append (a b : List Msg) : errMail (a ++ b) = errMail a ++ errMail b := by
  induction a with
  | nil => rfl
  | cons e a ih => cases e <;> simp [errMail, ih]
theorem exitMail_append (a b : List Msg) : exitMail (a ++ b) = exitMail a ++ exitMail b := by
  induction a with
  | nil => rfl
  | cons e a ih => cases e <;> simp [exitMail, ih]

theorem outMail_out (l : List (Option Bytes)) : outMail (l.map .out) = l := by
  induction l with
  | nil => rfl
  | cons x l ih => simp [outMail, ih]
theorem outMail_err (l : List (Option Bytes)) : outMail (l.map .err) = [] := by
  induction l with
  | nil => rfl
  | cons x l ih => simp [outMail, ih]
theorem errMail_err (l : List (Option Bytes)) : errMail (l.map .err) = l := by
  induction l with
  | nil => rfl
  | cons x l ih => simp [errMail, ih]
theorem errMail_out (l : List (Option Bytes)) : errMail (l.map .out) = [] := by
  induction l with
  | nil => rfl
  | cons x l ih => simp [errMail, ih]
theorem exitMail_out (l : List (Option Bytes)) : exitMail (l.map .out) = [] := by
  induction l with
  | nil => rfl
  | cons x l ih => simp [exitMail, ih]
theorem exitMail_err (l : List (Option Bytes)) : exitMail (l.map .err) = [] := by
  induction l with
  | nil => rfl
  | cons x l ih => simp [exitMail, ih]

/-- What was sent for a stream, what still waits, and the attributes agree. -/
structure Str (opened done : Bool) (buf : Bytes) (q all : List (Option Bytes)) : Prop where
  split : ∃ d, all = d ++ q ∧ buf = bytes d ∧ (done = true ↔ none ∈ d)
  last : none ∉ all ∨ opened = false ∧ ∃ ds, all = ds ++ [none] ∧ none ∉ ds

theorem Str.done_nil {o b q a} (h : Str o true b q a) : q = [] := by
  obtain ⟨d, hd, -, hm⟩ := h.split
  have hm := hm.1 rfl
  rcases h.last with hn | ⟨-, ds, ha, hn⟩
  · exact absurd (by rw [hd]; exact List.mem_append_left _ hm) hn
  · rcases List.eq_nil_or_concat q with hq | ⟨q', x, rfl⟩
    · exact hq
    · rw [ha, List.concat_eq_append, ← List.append_assoc] at hd
      have := List.append_inj_left' hd rfl
      exact absurd (by rw [this]; exact List.mem_append_left _ hm) hn

theorem Str.send {d b q a} (h : Str true d b q a) (r : Read) : Str (goesOn r) d b (q ++ sent r) (a ++ sent r) := by
  obtain ⟨x, hx, hb, hm⟩ := h.split
  have hn : none ∉ a := by
    rcases h.last with hn | ⟨hf, -⟩
    · exact hn
    · cases hf
  refine ⟨⟨x, by rw [hx, List.append_assoc], hb, hm⟩, ?_⟩
  cases r with
  | data b =>
    left
    by_cases hb : b = []
    · simpa [sent, hb] using hn
    · simpa [sent, hb] using hn
  | eof => exact Or.inr ⟨rfl, a, rfl, hn⟩
  | error => left; simpa [sent] using hn

theorem Str.take_some {o d b q a x} (h : Str o d b (some x :: q) a) : Str o d (b ++ x) q a := by
  obtain ⟨l, hl, hb, hm⟩ := h.split
  refine ⟨⟨l ++ [some x], by simp [hl], ?_, ?_⟩, h.last⟩
  · rw [bytes_append, hb]; simp [bytes]
  · rw [hm]; simp

theorem Str.take_none {o d b q a} (h : Str o d b (none :: q) a) : Str o true b q a := by
  obtain ⟨l, hl, hb, hm⟩ := h.split
  refine ⟨⟨l ++ [none], by simp [hl], ?_, ?_⟩, h.last⟩
  · rw [bytes_append, hb]; simp [bytes]
  · simp

/-- The report that the attributes call for. -/
def report (s : S) : List Told :=
  if s.outDone && s.errDone && s.exited then [.exit s.code s.sig s.outBuf s.errBuf] else []

/-- The invariant. -/
structure Inv (es : List Ev) (s : S) : Prop where
  out : Str s.outOpen s.outDone s.outBuf (outMail s.mail) (outSent es)
  err : Str s.errOpen s.errDone s.errBuf (errMail s.mail) (errSent es)
  exit : exitSent es = (if s.exited then [(s.code, s.sig)] else []) ++ exitMail s.mail
  once : (exitSent es).length + s.alive.toNat ≤ 1
  fresh : s.created = false → (∀ ok, Ev.spawn ok ∉ es) ∧ s.told = [] ∧ s.mail = [] ∧ s.outOpen = false ∧ s.errOpen = false ∧
    s.alive = false ∧ s.outDone = false ∧ s.exited = false ∧ exitSent es = [] ∧ s.errDone = false
  fail : Ev.spawn false ∈ es → s.told = [.error] ∧ s.mail = [] ∧ s.outOpen = false ∧ s.errOpen = false ∧
    s.alive = false ∧ s.exited = false
  ok : Ev.spawn false ∉ es → s.told = report s

theorem inv_s0 : Inv [] s0 where
  out := ⟨⟨[], rfl, rfl, by simp [s0]⟩, Or.inl (by simp [outSent])⟩
  err := ⟨⟨[], rfl, rfl, by simp [s0]⟩, Or.inl (by simp [errSent])⟩
  exit := rfl
  once := by simp [exitSent, s0]
  fresh := fun _ => ⟨by simp, rfl, rfl, rfl, rfl, rfl, rfl, rfl, rfl, rfl⟩
  fail := fun h => absurd h (by simp)
  ok := fun _ => rfl

theorem checkDone_eq (s : S) (hp : s.process = true) : checkDone s = { s with told := s.told ++ report s } := by
  unfold checkDone report
  rw [if_pos hp]
  split <;> simp

/-- Handling a message keeps the invariant. -/
theorem inv_handle {es s m ms} (h : Inv es s) (hp : s.process = true) (hm : s.mail = m :: ms) :
    Inv (es ++ [.deliver]) (handle { s with mail := ms } m) := by
  have hc : s.created = true := by
    cases hc : s.created with
    | true => rfl
    | false => have := (h.fresh hc).2.2.1; rw [hm] at this; cases this
  have hno : Ev.spawn false ∉ es := fun hf => by
    have := (h.fail hf).2.1; rw [hm] at this; cases this
  have hok := h.ok hno
  have hno' : Ev.spawn false ∉ es ++ [Ev.deliver] := by simpa using hno
  have eo : outSent (es ++ [.deliver]) = outSent es := by rw [outSent_append]; simp [outSent]
  have ee : errSent (es ++ [.deliver]) = errSent es := by rw [errSent_append]; simp [errSent]
  have ex : exitSent (es ++ [.deliver]) = exitSent es := by rw [exitSent_append]; simp [exitSent]
  have ho := h.out
  have he := h.err
  have hx := h.exit
  rw [hm] at ho he hx
  cases m with
  | out d =>
    simp only [outMail] at ho
    simp only [errMail] at he
    simp only [exitMail] at hx
    have hd : s.outDone = false := by
      cases hd : s.outDone with
      | false => rfl
      | true => rw [hd] at ho; cases ho.done_nil
    have ht : s.told = [] := by rw [hok]; simp [report, hd]
    cases d with
    | some d =>
      exact ⟨by rw [eo]; exact ho.take_some, by rw [ee]; exact he, by rw [ex]; exact hx, by rw [ex]; exact h.once,
        fun hf => absurd (hc.symm.trans hf) (by simp),
        fun hf => absurd hf hno', fun _ => by
          show s.told = report _
          rw [ht]; simp [report, handle, hd]⟩
    | none =>
      show Inv _ (checkDone { s with mail := ms, outDone := true })
      rw [checkDone_eq { s with mail := ms, outDone := true } hp]
      exact ⟨by rw [eo]; exact ho.take_none, by rw [ee]; exact he, by rw [ex]; exact hx, by rw [ex]; exact h.once,
        fun hf => absurd (hc.symm.trans hf) (by simp), fun hf => absurd hf hno', fun _ => by
          show s.told ++ _ = _
          rw [ht]; rfl⟩
  | err d =>
    simp only [outMail] at ho
    simp only [errMail] at he
    simp only [exitMail] at hx
    have hd : s.errDone = false := by
      cases hd : s.errDone with
      | false => rfl
      | true => rw [hd] at he; cases he.done_nil
    have ht : s.told = [] := by rw [hok]; simp [report, hd]
    cases d with
    | some d =>
      exact ⟨by rw [eo]; exact ho, by rw [ee]; exact he.take_some, by rw [ex]; exact hx, by rw [ex]; exact h.once,
        fun hf => absurd (hc.symm.trans hf) (by simp),
        fun hf => absurd hf hno', fun _ => by
          show s.told = report _
          rw [ht]; simp [report, handle, hd]⟩
    | none =>
      show Inv _ (checkDone { s with mail := ms, errDone := true })
      rw [checkDone_eq { s with mail := ms, errDone := true } hp]
      exact ⟨by rw [eo]; exact ho, by rw [ee]; exact he.take_none, by rw [ex]; exact hx, by rw [ex]; exact h.once,
        fun hf => absurd (hc.symm.trans hf) (by simp), fun hf => absurd hf hno', fun _ => by
          show s.told ++ _ = _
          rw [ht]; rfl⟩
  | exit c g =>
    simp only [outMail] at ho
    simp only [errMail] at he
    simp only [exitMail] at hx
    have hd : s.exited = false := by
      cases hd : s.exited with
      | false => rfl
      | true =>
        have := h.once
        rw [hx, hd] at this
        simp at this
        omega
    have ht : s.told = [] := by rw [hok]; simp [report, hd]
    show Inv _ (checkDone { s with mail := ms, exited := true, code := c, sig := g })
    rw [checkDone_eq { s with mail := ms, exited := true, code := c, sig := g } hp]
    exact ⟨by rw [eo]; exact ho, by rw [ee]; exact he, by rw [ex, hx, hd]; rfl, by rw [ex]; exact h.once,
      fun hf => absurd (hc.symm.trans hf) (by simp), fun hf => absurd hf hno', fun _ => by
        show s.told ++ _ = _
        rw [ht]; rfl⟩

/-- A step keeps the invariant. -/
theorem inv_step {es s e s'} (h : Inv es s) (hs : step s e = some s') : Inv (es ++ [e]) s' := by
  cases e with
  | spawn ok =>
    have eo : outSent (es ++ [.spawn ok]) = outSent es := by rw [outSent_append]; simp [outSent]
    have ee : errSent (es ++ [.spawn ok]) = errSent es := by rw [errSent_append]; simp [errSent]
    have ex : exitSent (es ++ [.spawn ok]) = exitSent es := by rw [exitSent_append]; simp [exitSent]
    simp only [step] at hs
    split at hs
    · cases hs
    rename_i hc
    have hc : s.created = false := by simpa using hc
    have hs := Option.some.inj hs; subst hs
    obtain ⟨f1, f2, f3, f4, f5, f6, f7, f8, f9, f10⟩ := h.fresh hc
    cases ok with
    | true =>
      refine ⟨?_, ?_, ?_, ?_, ?_, ?_, ?_⟩
      · rw [eo]
        have ho := h.out
        refine ⟨ho.split, ?_⟩
        left
        obtain ⟨d, hd, -, hm⟩ := ho.split
        rw [hd, f3]
        have : none ∉ d := fun hx => by rw [f7] at hm; cases hm.2 hx
        simpa [outMail] using this
      · rw [ee]
        have ho := h.err
        refine ⟨ho.split, ?_⟩
        left
        obtain ⟨d, hd, -, hm⟩ := ho.split
        rw [hd, f3]
        have : none ∉ d := fun hx => by rw [f10] at hm; cases hm.2 hx
        simpa [errMail] using this
      · rw [ex]; exact h.exit
      · rw [ex, f9]; simp [Bool.toNat_le]
      · intro hf; cases hf
      · intro hf; exact absurd (by simpa using hf) (f1 false)
      · intro hf
        exact h.ok (f1 false)
    | false =>
      refine ⟨by rw [eo]; exact h.out, by rw [ee]; exact h.err, by rw [ex]; exact h.exit, by rw [ex]; exact h.once,
        fun hf => (by cases hf), fun _ => ⟨?_, f3, f4, f5, f6, f8⟩, fun hf => absurd (by simp) hf⟩
      show s.told ++ _ = _
      rw [f2]; rfl
  | resume =>
    have eo : outSent (es ++ [.resume]) = outSent es := by rw [outSent_append]; simp [outSent]
    have ee : errSent (es ++ [.resume]) = errSent es := by rw [errSent_append]; simp [errSent]
    have ex : exitSent (es ++ [.resume]) = exitSent es := by rw [exitSent_append]; simp [exitSent]
    simp only [step] at hs
    split at hs
    swap
    · cases hs
    rename_i hc
    have hs := Option.some.inj hs; subst hs
    have hc : s.created = true := by simp at hc; exact hc.1
    exact ⟨by rw [eo]; exact h.out, by rw [ee]; exact h.err, by rw [ex]; exact h.exit, by rw [ex]; exact h.once,
      fun hf => absurd (hc.symm.trans hf) (by simp),
      fun hf => h.fail (by simpa using hf), fun hf => h.ok (by simpa using hf)⟩
  | out r =>
    have eo : outSent (es ++ [.out r]) = outSent es ++ sent r := by rw [outSent_append]; simp [outSent]
    have ee : errSent (es ++ [.out r]) = errSent es := by rw [errSent_append]; simp [errSent]
    have ex : exitSent (es ++ [.out r]) = exitSent es := by rw [exitSent_append]; simp [exitSent]
    simp only [step] at hs
    split at hs
    swap
    · cases hs
    rename_i hc
    have hs := Option.some.inj hs; subst hs
    refine ⟨?_, ?_, ?_, by rw [ex]; exact h.once, ?_, ?_, ?_⟩
    · rw [eo]
      have ho := h.out
      rw [hc] at ho
      have := ho.send r
      show Str (goesOn r) s.outDone s.outBuf (outMail (s.mail ++ _)) _
      rw [outMail_append, outMail_out]; exact this
    · rw [ee]
      show Str s.errOpen s.errDone s.errBuf (errMail (s.mail ++ _)) _
      rw [errMail_append, errMail_out, List.append_nil]; exact h.err
    · rw [ex]
      show _ = _ ++ exitMail (s.mail ++ _)
      rw [exitMail_append, exitMail_out, List.append_nil]; exact h.exit
    · intro hf
      have := (h.fresh hf).2.2.2.1
      rw [hc] at this; cases this
    · intro hf
      have := (h.fail (by simpa using hf)).2.2.1
      rw [hc] at this; cases this
    · intro hf
      exact h.ok (by simpa using hf)
  | err r =>
    have eo : outSent (es ++ [.err r]) = outSent es := by rw [outSent_append]; simp [outSent]
    have ee : errSent (es ++ [.err r]) = errSent es ++ sent r := by rw [errSent_append]; simp [errSent]
    have ex : exitSent (es ++ [.err r]) = exitSent es := by rw [exitSent_append]; simp [exitSent]
    simp only [step] at hs
    split at hs
    swap
    · cases hs
    rename_i hc
    have hs := Option.some.inj hs; subst hs
    refine ⟨?_, ?_, ?_, by rw [ex]; exact h.once, ?_, ?_, ?_⟩
    · rw [eo]
      show Str s.outOpen s.outDone s.outBuf (outMail (s.mail ++ _)) _
      rw [outMail_append, outMail_err, List.append_nil]; exact h.out
    · rw [ee]
      have ho := h.err
      rw [hc] at ho
      have := ho.send r
      show Str (goesOn r) s.errDone s.errBuf (errMail (s.mail ++ _)) _
      rw [errMail_append, errMail_err]; exact this
    · rw [ex]
      show _ = _ ++ exitMail (s.mail ++ _)
      rw [exitMail_append, exitMail_err, List.append_nil]; exact h.exit
    · intro hf
      have := (h.fresh hf).2.2.2.2.1
      rw [hc] at this; cases this
    · intro hf
      have := (h.fail (by simpa using hf)).2.2.2.1
      rw [hc] at this; cases this
    · intro hf
      exact h.ok (by simpa using hf)
  | exit c g =>
    have eo : outSent (es ++ [.exit c g]) = outSent es := by rw [outSent_append]; simp [outSent]
    have ee : errSent (es ++ [.exit c g]) = errSent es := by rw [errSent_append]; simp [errSent]
    have ex : exitSent (es ++ [.exit c g]) = exitSent es ++ [(c, g)] := by rw [exitSent_append]; simp [exitSent]
    simp only [step] at hs
    split at hs
    swap
    · cases hs
    rename_i hc
    have hs := Option.some.inj hs; subst hs
    refine ⟨?_, ?_, ?_, ?_, ?_, ?_, ?_⟩
    · rw [eo]
      show Str s.outOpen s.outDone s.outBuf (outMail (s.mail ++ _)) _
      rw [outMail_append]; simpa [outMail] using h.out
    · rw [ee]
      show Str s.errOpen s.errDone s.errBuf (errMail (s.mail ++ _)) _
      rw [errMail_append]; simpa [errMail] using h.err
    · rw [ex, h.exit]
      show _ = _ ++ exitMail (s.mail ++ _)
      rw [exitMail_append, List.append_assoc]; rfl
    · have := h.once
      rw [hc] at this
      rw [ex]; simpa using this
    · intro hf
      have := (h.fresh hf).2.2.2.2.2.1
      rw [hc] at this; cases this
    · intro hf
      have := (h.fail (by simpa using hf)).2.2.2.2.1
      rw [hc] at this; cases this
    · intro hf
      exact h.ok (by simpa using hf)
  | deliver =>
    simp only [step] at hs
    split at hs
    · rename_i m ms hp hm
      have hs := Option.some.inj hs; subst hs
      exact inv_handle h hp hm
    · cases hs

theorem inv {es s} (h : Run es s) : Inv es s := by
  induction h with
  | nil => exact inv_s0
  | snoc _ hs ih => exact inv_step ih hs

theorem mem_exitSent {es : List Ev} {c g} (h : (c, g) ∈ exitSent es) : Ev.exit c g ∈ es := by
  induction es with
  | nil => cases h
  | cons e es ih =>
    cases e with
    | exit c' g' =>
      rcases List.mem_cons.1 h with h | h
      · cases h; exact List.mem_cons_self
      · exact List.mem_cons_of_mem _ (ih h)
    | _ => exact List.mem_cons_of_mem _ (ih h)

theorem exitSent_mem {es : List Ev} {c g} (h : Ev.exit c g ∈ es) : (c, g) ∈ exitSent es := by
  induction es with
  | nil => cases h
  | cons e es ih =>
    rcases List.mem_cons.1 h with h' | h'
    · subst h'; exact List.mem_cons_self
    · cases e <;> simp [exitSent, ih h']

theorem outSent_mem {es : List Ev} (h : Ev.out .eof ∈ es) : none ∈ outSent es := by
  induction es with
  | nil => cases h
  | cons e es ih =>
    rcases List.mem_cons.1 h with h' | h'
    · subst h'; simp [outSent, sent]
    · cases e <;> simp [outSent, ih h']

theorem errSent_mem {es : List Ev} (h : Ev.err .eof ∈ es) : none ∈ errSent es := by
  induction es with
  | nil => cases h
  | cons e es ih =>
    rcases List.mem_cons.1 h with h' | h'
    · subst h'; simp [errSent, sent]
    · cases e <;> simp [errSent, ih h']

theorem Str.all {o b q a} (h : Str o true b q a) : b = bytes a := by
  have hq := h.done_nil
  obtain ⟨d, hd, hb, -⟩ := h.split
  rw [hd, hq, List.append_nil, hb]

/-- **C165**, once: the program is told at most one thing, the end of the process or an error. -/
theorem C165_once {es s} (h : Run es s) : s.told.length ≤ 1 := by
  have hi := inv h
  by_cases hf : Ev.spawn false ∈ es
  · rw [(hi.fail hf).1]; simp
  · rw [hi.ok hf]; unfold report; split <;> simp

/-- **C165**, whole: a report carries the exit status of the process and all that was read from
it, also if the report is looked at later. -/
theorem C165_whole {es s c g o e} (h : Run es s) (ht : Told.exit c g o e ∈ s.told) :
    Ev.exit c g ∈ es ∧ Ev.spawn false ∉ es ∧ o = outRead es ∧ e = errRead es := by
  have hi := inv h
  have hf : Ev.spawn false ∉ es := fun hf => by
    rw [(hi.fail hf).1] at ht; simp at ht
  rw [hi.ok hf] at ht
  unfold report at ht
  split at ht
  swap
  · cases ht
  rename_i hd
  simp only [Bool.and_eq_true] at hd
  obtain ⟨⟨hd1, hd2⟩, hd3⟩ := hd
  simp only [List.mem_singleton, Told.exit.injEq] at ht
  obtain ⟨rfl, rfl, rfl, rfl⟩ := ht
  refine ⟨mem_exitSent ?_, hf, ?_, ?_⟩
  · rw [hi.exit, hd3]; simp
  · have := hi.out; rw [hd1] at this; rw [this.all, bytes_outSent]
  · have := hi.err; rw [hd2] at this; rw [this.all, bytes_errSent]

/-- **C165**, a process that cannot be started: the program is told of the error, and of nothing
else. -/
theorem C165_error {es s} (h : Run es s) (hf : Ev.spawn false ∈ es) : s.told = [.error] :=
  ((inv h).fail hf).1

/-- **C165** for processes whose streams are read to the end: when the process has exited, both
streams have ended and no message waits, the program was told so exactly once, with the status
and the whole output. Missing: streams with a read error, for which this is false
(`C165_refuted`). -/
theorem C165_partial {es s c g} (h : Run es s) (ho : Ev.out .eof ∈ es) (he : Ev.err .eof ∈ es)
    (hx : Ev.exit c g ∈ es) (hm : s.mail = []) : s.told = [.exit c g (outRead es) (errRead es)] := by
  have hi := inv h
  have hxs := exitSent_mem hx
  have h3 : s.exited = true ∧ s.code = c ∧ s.sig = g := by
    rw [hi.exit, hm] at hxs
    cases hb : s.exited with
    | false => rw [hb] at hxs; simp [exitMail] at hxs
    | true => rw [hb] at hxs; simp [exitMail] at hxs; exact ⟨rfl, hxs.1.symm, hxs.2.symm⟩
  have hf : Ev.spawn false ∉ es := fun hf => by
    have := (hi.fail hf).2.2.2.2.2
    rw [h3.1] at this; cases this
  have h1 : s.outDone = true := by
    obtain ⟨d, hd, -, hn⟩ := hi.out.split
    rw [hm] at hd
    exact hn.2 (by have := outSent_mem ho; rwa [hd, outMail, List.append_nil] at this)
  have h2 : s.errDone = true := by
    obtain ⟨d, hd, -, hn⟩ := hi.err.split
    rw [hm] at hd
    exact hn.2 (by have := errSent_mem he; rwa [hd, errMail, List.append_nil] at this)
  rw [hi.ok hf]
  have e1 := hi.out; rw [h1] at e1
  have e2 := hi.err; rw [h2] at e2
  simp only [report, h1, h2, h3.1, h3.2.1, h3.2.2, e1.all, e2.all, bytes_outSent, bytes_errSent, Bool.and_self, if_true]

/-- **C165** is false after a read error: the process has exited, nothing can happen any more, and
the program was told nothing. -/
theorem C165_refuted : ∃ es s, Run es s ∧ (∀ e, step s e = none) ∧ Ev.exit 0 0 ∈ es ∧ s.told = [] := by
  refine ⟨[] ++ [.spawn true] ++ [.resume] ++ [.out .error] ++ [.err .eof] ++ [.exit 0 0] ++ [.deliver] ++ [.deliver], _,
    .snoc (.snoc (.snoc (.snoc (.snoc (.snoc (.snoc .nil rfl) rfl) rfl) rfl) rfl) rfl) rfl, ?_, by simp, rfl⟩
  intro e
  cases e <;> rfl

/-- A run that meets the hypotheses of `C165_partial`: output on both streams, the exit before the
end of the streams. -/
example : ∃ es s, Run es s ∧ Ev.out .eof ∈ es ∧ Ev.err .eof ∈ es ∧ Ev.exit 3 0 ∈ es ∧ s.mail = [] ∧
    s.told = [.exit 3 0 [1, 2] [7]] := by
  refine ⟨[] ++ [.spawn true] ++ [.out (.data [1])] ++ [.resume] ++ [.err (.data [7])] ++ [.exit 3 0] ++ [.deliver] ++
    [.out (.data [2])] ++ [.out .eof] ++ [.err .eof] ++ [.deliver] ++ [.deliver] ++ [.deliver] ++ [.deliver] ++ [.deliver], _,
    .snoc (.snoc (.snoc (.snoc (.snoc (.snoc (.snoc (.snoc (.snoc (.snoc (.snoc (.snoc (.snoc (.snoc .nil rfl) rfl) rfl) rfl) rfl) rfl) rfl)
      rfl) rfl) rfl) rfl) rfl) rfl) rfl, by simp, by simp, by simp, rfl, rfl⟩

/-- A run with a process that cannot be started. -/
example : ∃ es s, Run es s ∧ Ev.spawn false ∈ es :=
  ⟨[] ++ [.spawn false], _, .snoc .nil rfl, by simp⟩

end Verif.Proc
