import Verif.Str.Split
import Mathlib.Tactic.Ring
/-!
# C10: `count`, `join`, `replace`
-/
namespace Verif.Str
open Verif Verif.Search

theorem countLoop_spec {s sub : Str} {t p : List Nat} (h : Repr s t) (hp : Repr sub p)
    (hmax : s.nbytes + sub.nbytes < 2^31) (hne : p ≠ []) :
    ∀ (f j : Nat) (res : Int), j ≤ t.length → t.length - j < f →
      ∃ qs, SplitsTo p none (t.drop j) qs ∧
        countLoop s.buf (off t t.length : Nat) sub f (off t j : Nat) res = .ok (res + qs.length - 1) := by
  have hpl : 0 < p.length := List.length_pos_iff.2 hne
  have hpb : sub.nbytes > 0 := by rw [hp.nb]; have := length_le_enc p; omega
  intro f
  induction f with
  | zero => intro j res _ hf; omega
  | succ f ih =>
    intro j res hj hf
    have htk : (t.drop j).take (t.length - j) = t.drop j := by
      apply List.take_of_length_le; rw [List.length_drop]
    unfold countLoop
    obtain ⟨r, hr, ⟨rfl, e⟩ | ⟨i, rfl, hik, e⟩⟩ := searchAt_bmh h hp hmax hj (Nat.le_refl _)
    · rw [htk] at hr
      rw [e, Res.ok_bind, if_neg (by omega)]
      refine ⟨[t.drop j], .last _ _ (isFirst_neg hr (by omega)).2, ?_⟩
      show Res.ok res = _
      congr 1; simp
    · rw [htk] at hr
      obtain ⟨ho, hfirst⟩ := isFirst_nat hr
      have hm := off_mono (t := t) (j := j) (k := j + i) (by omega)
      rw [e, Res.ok_bind, if_pos (by omega), if_pos hpb]
      have h1 := ho.1
      rw [List.length_drop] at h1
      have hoff : (off t j : Int) + ((off t (j + i) : Int) - off t j) + sub.nbytes =
          ((off t (j + i + p.length) : Nat) : Int) := by
        have h1 := off_add t (j + i) p.length
        have h2 : off (t.drop (j + i)) p.length = (enc p).length := by
          have := ho.2
          rw [List.drop_drop] at this
          unfold off; rw [this]
        rw [hp.nb]; omega
      rw [hoff]
      obtain ⟨qs, hq, e2⟩ := ih (j + i + p.length) (res + 1) (by omega) (by omega)
      rw [e2]
      refine ⟨(t.drop j).take i :: qs, ?_, by congr 1; simp; omega⟩
      refine .more _ _ _ (t.drop (j + i + p.length)) _ ?_ ?_ hq (by simp)
      · have := occurs_split ho
        rw [List.drop_drop, show j + (i + p.length) = j + i + p.length by omega] at this
        exact this
      · rw [List.length_take, List.length_drop, Nat.min_eq_left (by omega)]
        exact hfirst

/-- `count` is one less than the number of pieces. -/
theorem count_spec {s sub : Str} {t p : List Nat} (h : Repr s t) (hp : Repr sub p)
    (hmax : s.nbytes + sub.nbytes < 2^31) (hne : p ≠ []) :
    ∃ qs, SplitsTo p none t qs ∧ count s sub none none = .ok ((qs.length : Int) - 1) := by
  unfold count
  rw [fix_default]
  simp only
  have h0 := h.skip0 (k := 0) (by omega)
  have h1 := h.skip0 (k := t.length) (by omega)
  simp only [Int.natCast_zero] at h0
  rw [h0, Res.ok_bind, off_zero, Int.sub_zero, h.nc]
  simp only [Int.natCast_zero]
  rw [h1, Res.ok_bind]
  have hl : t.length < s.buf.length + 2 := by
    rw [h.buf, List.length_append]; have := length_le_enc t; omega
  obtain ⟨qs, hq, e⟩ := countLoop_spec h hp hmax hne (s.buf.length + 2) 0 0 (by omega) (by omega)
  rw [off_zero] at e
  simp only [List.drop_zero, Int.natCast_zero, Int.zero_add] at hq e
  exact ⟨qs, hq, e⟩

theorem joinTail_enc {sep : Str} {p : List Nat} (hp : Repr sep p) : ∀ {ss ts}, Reprs ss ts → ∀ x : List Nat,
    enc x ++ joinTail sep ss = enc (joinWith p (x :: ts)) := by
  intro ss ts h
  induction h with
  | nil => intro x; simp [joinTail, joinWith]
  | @cons s t ss ts h hs ih =>
    intro x
    show enc x ++ (sep.bytes ++ s.bytes ++ joinTail sep ss) = enc (x ++ p ++ joinWith p (t :: ts))
    rw [enc_append, enc_append, ← ih, hp.bytes_eq, h.bytes_eq]
    simp only [List.append_assoc]

theorem joinWith_length (sep : List Nat) (f : List Nat → Nat) (hf : ∀ a b, f (a ++ b) = f a + f b) :
    ∀ (ts : List (List Nat)) (x : List Nat),
    f (joinWith sep (x :: ts)) = ((x :: ts).map f).sum + ts.length * f sep := by
  intro ts
  induction ts with
  | nil => intro x; simp [joinWith]
  | cons t ts ih =>
    intro x
    show f (x ++ sep ++ joinWith sep (t :: ts)) = _
    rw [hf, hf, ih]
    simp only [List.map_cons, List.sum_cons, List.length_cons, Nat.add_mul]
    omega

theorem reprs_sum_nc : ∀ {ss ts}, Reprs ss ts → (ss.map Str.nchars).sum = ((ts.map List.length).sum : Nat) := by
  intro ss ts h
  induction h with
  | nil => rfl
  | cons h _ ih => simp only [List.map_cons, List.sum_cons, ih, h.nc]; omega

theorem reprs_sum_nb : ∀ {ss ts}, Reprs ss ts →
    (ss.map Str.nbytes).sum = ((ts.map (fun t => (enc t).length)).sum : Nat) := by
  intro ss ts h
  induction h with
  | nil => rfl
  | cons h _ ih => simp only [List.map_cons, List.sum_cons, ih, h.nb]; omega

theorem reprs_length : ∀ {ss ts}, Reprs ss ts → ss.length = ts.length := by
  intro ss ts h
  induction h with
  | nil => rfl
  | cons _ _ ih => simp [ih]

theorem mem_joinWith {p : List Nat} {P : Nat → Prop} (hp : ∀ c ∈ p, P c) : ∀ (ts : List (List Nat)),
    (∀ t ∈ ts, ∀ c ∈ t, P c) → ∀ c ∈ joinWith p ts, P c := by
  intro ts
  induction ts with
  | nil => intro _ c hc; cases hc
  | cons t ts ih =>
    intro h
    cases ts with
    | nil => exact h t (by simp)
    | cons u us =>
      intro c hc
      have hc : c ∈ t ++ p ++ joinWith p (u :: us) := hc
      rcases List.mem_append.1 hc with hc | hc
      · rcases List.mem_append.1 hc with hc | hc
        · exact h t (by simp) c hc
        · exact hp c hc
      · exact ih (fun x hx => h x (List.mem_cons_of_mem _ hx)) c hc

theorem reprs_cp : ∀ {ss ts}, Reprs ss ts → ∀ t ∈ ts, ∀ c ∈ t, CodePoint c := by
  intro ss ts h
  induction h with
  | nil => intro t ht; cases ht
  | cons h _ ih =>
    intro t ht
    rcases List.mem_cons.1 ht with rfl | ht
    · exact h.cp
    · exact ih t ht

/-- C10: `sep.join(l)` is the concatenation with separators, if it fits in a string. -/
theorem C10_join {sep : Str} {p : List Nat} (hp : Repr sep p) {ss : List Str} {ts : List (List Nat)}
    (h : Reprs ss ts) (hsize : (enc (joinWith p ts)).length < 2^31) :
    ∃ r, join sep ss = .ok r ∧ Repr r (joinWith p ts) := by
  have hle := length_le_enc (joinWith p ts)
  have hcp := mem_joinWith hp.cp ts (reprs_cp h)
  cases h with
  | nil => exact ⟨_, rfl, null_repr⟩
  | @cons s t ss ts h hs =>
    have e1 := joinWith_length p List.length (fun a b => List.length_append) ts t
    have e2 := joinWith_length p (fun a => (enc a).length) (fun a b => enc_len_append a b) ts t
    have hl := reprs_length hs
    have s1 := reprs_sum_nc (.cons h hs)
    have s2 := reprs_sum_nb (.cons h hs)
    have nc : joinSize Str.nchars sep (s :: ss) = ((joinWith p (t :: ts)).length : Nat) := by
      unfold joinSize
      simp only
      rw [s1]
      by_cases hlen : (s :: ss).length > 1
      · rw [if_pos hlen, wrap32_of_in]
        · rw [hp.nc, e1, List.length_cons, hl]; push_cast; ring_nf
        · have : (((s :: ss).length : Int) - 1) * sep.nchars = ((ts.length * p.length : Nat) : Int) := by
            rw [hp.nc, List.length_cons, hl]; push_cast; ring_nf
          rw [this]; unfold InI32; omega
      · rw [if_neg hlen]
        have : ts.length = 0 := by simp at hlen; rw [hlen] at hl; simpa using hl.symm
        rw [this, Nat.zero_mul] at e1
        rw [wrap32_of_in (by unfold InI32; omega)]; omega
    have nb : joinSize Str.nbytes sep (s :: ss) = ((enc (joinWith p (t :: ts))).length : Nat) := by
      unfold joinSize
      simp only
      rw [s2]
      by_cases hlen : (s :: ss).length > 1
      · rw [if_pos hlen, wrap32_of_in]
        · rw [hp.nb, e2, List.length_cons, hl]; push_cast; ring_nf
        · have : (((s :: ss).length : Int) - 1) * sep.nbytes = ((ts.length * (enc p).length : Nat) : Int) := by
            rw [hp.nb, List.length_cons, hl]; push_cast; ring_nf
          rw [this]; unfold InI32; omega
      · rw [if_neg hlen]
        have : ts.length = 0 := by simp at hlen; rw [hlen] at hl; simpa using hl.symm
        rw [this, Nat.zero_mul] at e2
        rw [wrap32_of_in (by unfold InI32; omega)]; omega
    unfold join
    simp only
    rw [h.bytes_eq, joinTail_enc hp hs t]
    exact mkStr_repr hcp hsize nc nb

/-- Splitting with a limit gives the first cuts. -/
theorem SplitsTo.trunc {sep : List Nat} {m : Option Nat} {t : List Nat} {qs : List (List Nat)}
    (h : SplitsTo sep m t qs) : m = none → ∀ k, k + 1 ≤ qs.length →
    ∃ qs', SplitsTo sep (some k) t qs' ∧ qs'.length = k + 1 := by
  induction h with
  | stop t => intro h0; cases h0
  | last m t hf =>
    intro _ k hk
    simp at hk
    subst hk
    exact ⟨[t], .stop t, rfl⟩
  | more m t a b ps e hfirst h hm ih =>
    intro h0 k hk
    subst h0
    cases k with
    | zero => exact ⟨[t], .stop t, rfl⟩
    | succ k =>
      obtain ⟨qs', h1, h2⟩ := ih rfl k (by simpa using hk)
      exact ⟨a :: qs', .more _ t a b qs' e hfirst h1 (by simp), by simp [h2]⟩

/-- A limit that is not reached does not matter. -/
theorem SplitsTo.limited {sep : List Nat} {m : Option Nat} {t : List Nat} {qs : List (List Nat)}
    (h : SplitsTo sep m t qs) : m = none → ∀ k, qs.length ≤ k + 1 → SplitsTo sep (some k) t qs := by
  induction h with
  | stop t => intro h0; cases h0
  | last m t hf => intro _ k _; exact .last _ _ hf
  | more m t a b ps e hfirst h hm ih =>
    intro h0 k hk
    subst h0
    have : ps ≠ [] := h.ne_nil
    have : 0 < ps.length := List.length_pos_iff.2 this
    simp at hk
    refine .more _ t a b ps e hfirst ?_ (by intro h0; injection h0 with h0; omega)
    exact ih rfl (k - 1) (by omega)

/-- The loop of `replace`: `k` cuts exist from position `j` on. -/
theorem replaceLoop_spec {s old new : Str} {t p w : List Nat} (h : Repr s t) (hp : Repr old p) (hw : Repr new w)
    (hmax : s.nbytes + old.nbytes < 2^31) (hne : p ≠ []) :
    ∀ (k j : Nat) (first : Bool) (qs : List (List Nat)), j ≤ t.length →
      SplitsTo p (some k) (t.drop j) qs → qs.length = k + 1 →
      ∃ out j', j' ≤ t.length ∧
        replaceLoop s.buf old new k first (off t j : Nat) (s.nbytes - off t j) =
          .ok (out, ((off t j' : Nat) : Int), s.nbytes - off t j') ∧
        out ++ enc (t.drop j') = enc (joinWith w qs) := by
  have hpl : 0 < p.length := List.length_pos_iff.2 hne
  have hpb : old.nbytes > 0 := by rw [hp.nb]; have := length_le_enc p; omega
  intro k
  induction k with
  | zero =>
    intro j first qs hj hs hl
    refine ⟨[], j, hj, rfl, ?_⟩
    have : qs = [t.drop j] := (SplitsTo.stop (t.drop j)).unique hs |>.symm
    subst this
    rfl
  | succ k ih =>
    intro j first qs hj hs hl
    have htk : (t.drop j).take (t.length - j) = t.drop j := by
      apply List.take_of_length_le; rw [List.length_drop]
    cases hs with
    | last => simp at hl
    | more _ _ a b ps e hfirst hs hm =>
    have o1 : OccursAt (t.drop j) p a.length := e ▸ occurs_of_split a p b
    obtain ⟨r, hr, hcase⟩ := searchAt_bmh h hp hmax hj (Nat.le_refl _)
    rw [htk] at hr
    have hr' : IsFirst (t.drop j) p (a.length : Int) := Or.inl ⟨a.length, rfl, o1, hfirst⟩
    have hra := isFirst_unique hr hr'
    subst hra
    obtain ⟨i, hi, hik, e1⟩ : ∃ i : Nat, (a.length : Int) = i ∧ j + i ≤ t.length ∧
        searchAt bmh s.buf (off t j : Nat) ((off t t.length : Int) - off t j) old.bytes =
          .ok ((off t (j + i) : Int) - off t j) := by
      rcases hcase with ⟨h0, -⟩ | h1
      · omega
      · exact h1
    have : i = a.length := by omega
    subst this
    rw [off_all t (Nat.le_refl _), ← h.nb] at e1
    have hb1 := o1.1
    rw [List.length_drop] at hb1
    have hdrop2 : (t.drop j).drop (a.length + p.length) = b := by
      rw [e, ← List.length_append, List.drop_left]
    rw [List.drop_drop] at hdrop2
    have hoff : (off t (j + a.length) : Int) + old.nbytes = ((off t (j + (a.length + p.length)) : Nat) : Int) := by
      have h1 := off_add t (j + a.length) p.length
      have h2 : off (t.drop (j + a.length)) p.length = (enc p).length := by
        have := o1.2
        rw [List.drop_drop] at this
        unfold off; rw [this]
      rw [hp.nb, show j + (a.length + p.length) = j + a.length + p.length by omega]; omega
    have hmono := off_mono (t := t) (j := j) (k := j + a.length) (by omega)
    have hta : (t.drop j).take a.length = a := by rw [e, List.append_assoc, List.take_left]
    obtain ⟨out, j', hj', e2, hout⟩ := ih (j + (a.length + p.length)) false ps (by omega)
      (by rw [hdrop2]; exact hs) (by simpa using hl)
    have hpsne : ps ≠ [] := hs.ne_nil
    refine ⟨enc a ++ enc w ++ out, j', hj', ?_, ?_⟩
    · unfold replaceLoop
      have e1' : nextCut s.buf old first (off t j : Nat) (s.nbytes - off t j) = .ok ((off t (j + a.length) : Int) - off t j) := by
        unfold nextCut; rw [if_neg (by rintro ⟨-, h0⟩; omega), e1]
      rw [e1', Res.ok_bind]
      have e3 : copyPos s.buf (off t j : Nat) ((off t (j + a.length) : Int) - off t j) = .ok (enc a) := by
        unfold copyPos
        by_cases ha0 : a.length = 0
        · rw [if_neg (by rw [ha0]; simp), List.length_eq_zero_iff.1 ha0]; rfl
        · have hlt := off_lt (t := t) (j := j) (k := j + a.length) (by omega) (by omega)
          have hcp := h.copy_spec (j := j) (k := j + a.length) (by omega)
          rw [Nat.add_sub_cancel_left, hta] at hcp
          rw [if_pos (by omega), hcp]
      rw [e3, Res.ok_bind]
      have e4 : (if (off t (j + a.length) : Int) - off t j > 0 then (off t j : Int) + ((off t (j + a.length) : Int) - off t j)
          else (off t j : Int)) = off t (j + a.length) := by split <;> omega
      simp only [e4]
      rw [hoff, show s.nbytes - (off t j : Int) - ((off t (j + a.length) : Int) - off t j + old.nbytes) =
            s.nbytes - ((off t (j + (a.length + p.length)) : Nat) : Int) by omega, e2, Res.ok_bind, hw.bytes_eq]
      rfl
    · cases ps with
      | nil => exact absurd rfl hpsne
      | cons q qs =>
        show _ = enc (a ++ w ++ joinWith w (q :: qs))
        rw [enc_append, enc_append, ← hout]
        simp only [List.append_assoc]

theorem size_replace (f : List Nat → Nat) (hf : ∀ a b, f (a ++ b) = f a + f b) (old new : List Nat)
    (qs : List (List Nat)) (k : Nat) (hl : qs.length = k + 1) :
    (f (joinWith new qs) : Int) = f (joinWith old qs) + (k : Int) * ((f new : Int) - f old) := by
  cases qs with
  | nil => simp at hl
  | cons q qs =>
    have h1 := joinWith_length new f hf qs q
    have h2 := joinWith_length old f hf qs q
    have : qs.length = k := by simpa using hl
    rw [h1, h2, this]
    push_cast
    ring_nf

/-- C10: `s.replace(old, new, count)` is `new.join(s.split(old, count))`, for every non-empty
`old` and every count that is absent or not negative, if the result fits in a string.
Missing for the full claim: negative counts, where the code is wrong. -/
theorem C10_replace_partial {s old new : Str} {t p w : List Nat} (h : Repr s t) (hp : Repr old p) (hw : Repr new w)
    (hmax : s.nbytes + old.nbytes < 2^31) (hne : p ≠ []) (cnt : Option Int) (hcnt : ∀ m ∈ cnt, 0 ≤ m)
    (hsize : ∀ qs, SplitsTo p (limit cnt) t qs → (enc (joinWith w qs)).length < 2^31) :
    ∃ r qs, replace s old new cnt = .ok r ∧ SplitsTo p (limit cnt) t qs ∧ Repr r (joinWith w qs) := by
  obtain ⟨full, hfull, hc⟩ := count_spec h hp hmax hne
  have hfl : 0 < full.length := List.length_pos_iff.2 hfull.ne_nil
  have hflt : full.length ≤ t.length + 1 := by
    obtain ⟨ks, h1, h2⟩ := (hfull.count rfl).1
    have hpl : 0 < p.length := List.length_pos_iff.2 hne
    have : ∀ (ks : List Nat) lo, Disjoint t p lo ks → lo ≤ t.length → ks.length + lo ≤ t.length := by
      intro ks
      induction ks with
      | nil => intro lo _ h; simpa using h
      | cons k ks ih =>
        intro lo hd hlo
        have h3 := hd.1
        have h4 := hd.2.1.1
        have := ih (k + p.length) hd.2.2 (by omega)
        simp only [List.length_cons]; omega
    have := this ks 0 h1 (by omega)
    omega
  have hlt := h.len_lt
  have wc : wrap32 ((full.length : Int) - 1) = (full.length : Int) - 1 := wrap32_of_in (by unfold InI32; omega)
  -- the number of cuts
  obtain ⟨c0, hc0, hc0le, hlim⟩ : ∃ c0 : Nat,
      wrap32 (if cnt.getD (2^31 - 1) < (full.length : Int) - 1 then cnt.getD (2^31 - 1) else (full.length : Int) - 1) = (c0 : Int) ∧
      c0 + 1 ≤ full.length ∧
      (∀ qs, SplitsTo p (some c0) t qs → SplitsTo p (limit cnt) t qs) := by
    have whole : ∀ m : Nat, full.length ≤ m + 1 → ∀ qs, SplitsTo p (some (full.length - 1)) t qs → SplitsTo p (some m) t qs := by
      intro m hm qs hq
      have h1 := hfull.limited rfl (full.length - 1) (by omega)
      rw [← h1.unique hq]
      exact hfull.limited rfl m hm
    cases cnt with
    | none =>
      refine ⟨full.length - 1, ?_, by omega, ?_⟩
      · rw [Option.getD_none]
        rw [if_neg (by omega), wc]; omega
      · intro qs hq
        have h1 := hfull.limited rfl (full.length - 1) (by omega)
        rw [← h1.unique hq]
        exact hfull
    | some m =>
      have hm := hcnt m rfl
      rw [Option.getD_some]
      by_cases hlt : m < (full.length : Int) - 1
      · refine ⟨m.toNat, ?_, by omega, ?_⟩
        · rw [if_pos hlt, wrap32_of_in (by unfold InI32; omega)]; omega
        · unfold limit; simp only; rw [if_neg (by omega)]; exact fun _ h => h
      · refine ⟨full.length - 1, ?_, by omega, ?_⟩
        · rw [if_neg hlt, wc]; omega
        · unfold limit; simp only; rw [if_neg (by omega)]
          exact whole m.toNat (by omega)
  obtain ⟨qs, hqs, hql⟩ := hfull.trunc rfl c0 hc0le
  have hlimq := hlim qs hqs
  have hsz := hsize qs hlimq
  unfold replace
  rw [hc, Res.ok_bind]
  simp only
  rw [wc, hc0]
  by_cases hz : c0 = 0
  · subst hz
    rw [if_pos (by rfl)]
    have : qs = [t] := ((SplitsTo.stop t).unique hqs).symm
    subst this
    exact ⟨s, [t], rfl, hlimq, h⟩
  · rw [if_neg (by omega)]
    obtain ⟨out, j', hj', e, hout⟩ := replaceLoop_spec h hp hw hmax hne c0 0 true qs (by omega)
      (by simpa using hqs) hql
    rw [off_zero] at e
    simp only [Int.natCast_zero, Int.sub_zero] at e
    rw [Int.toNat_natCast, e, Res.ok_bind]
    have hj1 := off_le_len t j'
    have hrest : copyPos s.buf (off t j' : Nat) (s.nbytes - off t j') = .ok (enc (t.drop j')) := by
      unfold copyPos
      have hcp := h.copy_spec (j := j') (k := t.length) hj'
      rw [off_all t (Nat.le_refl _), ← h.nb] at hcp
      have htk : (t.drop j').take (t.length - j') = t.drop j' := by
        apply List.take_of_length_le; rw [List.length_drop]
      rw [htk] at hcp
      by_cases hpos : s.nbytes - (off t j' : Int) > 0
      · rw [if_pos hpos, hcp]
      · rw [if_neg hpos]
        have : (enc (t.drop j')).length = 0 := by
          have h5 := congrArg List.length (enc_drop t j')
          rw [List.length_drop] at h5
          rw [h.nb] at hpos; omega
        rw [List.length_eq_zero_iff.1 this]
    simp only
    rw [hrest, Res.ok_bind, hout]
    have hj := hqs.join
    have z1 := size_replace List.length (fun a b => List.length_append) p w qs c0 hql
    have z2 := size_replace (fun a => (enc a).length) (fun a b => enc_len_append a b) p w qs c0 hql
    simp only [hj] at z1 z2
    have hle := length_le_enc (joinWith w qs)
    have hcp : ∀ c ∈ joinWith w qs, CodePoint c := by
      have sub : ∀ q ∈ qs, ∀ c ∈ q, CodePoint c := by
        have : ∀ (qs : List (List Nat)), (∀ c ∈ joinWith p qs, CodePoint c) → ∀ q ∈ qs, ∀ c ∈ q, CodePoint c := by
          intro qs
          induction qs with
          | nil => intro _ q hq; cases hq
          | cons q qs ih =>
            intro hh x hx
            cases qs with
            | nil => rw [List.mem_singleton.1 hx]; exact hh
            | cons u us =>
              have e : joinWith p (q :: u :: us) = q ++ p ++ joinWith p (u :: us) := rfl
              rw [e] at hh
              rcases List.mem_cons.1 hx with rfl | hx
              · intro c hc; exact hh c (by simp [hc])
              · exact ih (fun c hc => hh c (by simp [hc])) x hx
        apply this; rw [hj]; exact h.cp
      exact mem_joinWith hw.cp qs sub
    obtain ⟨r, hr, hR⟩ := mkStr_repr hcp hsz
      (a := wrap32 (s.nchars + (c0 : Int) * (new.nchars - old.nchars)))
      (b := wrap32 (s.nbytes + (c0 : Int) * (new.nbytes - old.nbytes)))
      (by rw [h.nc, hw.nc, hp.nc, ← z1, wrap32_of_in (by unfold InI32; omega)])
      (by rw [h.nb, hw.nb, hp.nb, ← z2, wrap32_of_in (by unfold InI32; omega)])
    exact ⟨r, qs, hr, hlimq, hR⟩

end Verif.Str
