import Verif.TermFit.Props
/-!
# C186, C187: colours

The theorems of `Verif.TermFit.Props` once more, for what a terminal shows together with colours.
-/
namespace Verif.TermFit

/-- `Paints st s v st'`: a terminal that has received the escape sequences `st` (the last one first)
shows the cells `v` when it is sent `s`, each a character with the sequences received before it; `st'`
are the sequences received in the end. -/
inductive Paints : List Text → Text → List (Char × List Text) → List Text → Prop
  | nil {st : List Text} : Paints st [] [] st
  | esc {st st' : List Text} {b : Text} {f : Char} {s : Text} {v : List (Char × List Text)} (hb : ∀ c ∈ b, isFinal c = false)
      (hf : isFinal f = true) (h : Paints ((b ++ [f]) :: st) s v st') : Paints st (ESC :: '[' :: (b ++ f :: s)) v st'
  | unfinished {st : List Text} {b : Text} (hb : ∀ c ∈ b, isFinal c = false) : Paints st (ESC :: '[' :: b) [] st
  | char {st st' : List Text} {c : Char} {s : Text} {v : List (Char × List Text)} (hc : ∀ t, c :: s ≠ ESC :: '[' :: t)
      (h : Paints st s v st') : Paints st (c :: s) ((c, st) :: v) st'

/-- No colour is left on: nothing has been received, or a reset at last. -/
def Off (st : List Text) : Prop := st = [] ∨ ∃ r, st = "0m".toList :: r

/-- Colours aside, `Paints` is `Shows`. -/
theorem paints_shows {st st' : List Text} {s : Text} {v : List (Char × List Text)} (h : Paints st s v st') : Shows s (v.map (·.1)) := by
  induction h with
  | nil => exact .nil
  | esc hb hf _ ih => exact .esc hb hf ih
  | unfinished hb => exact .unfinished hb
  | char hc _ ih => exact .char hc ih

theorem paints_total (st : List Text) (s : Text) : ∃ v st', Paints st s v st' := by
  obtain ⟨w, hw⟩ := shows_total s
  induction hw generalizing st with
  | nil => exact ⟨_, _, .nil⟩
  | esc hb hf _ ih => obtain ⟨v, st', h⟩ := ih _; exact ⟨_, _, .esc hb hf h⟩
  | unfinished hb => exact ⟨_, _, .unfinished hb⟩
  | char hc _ ih => obtain ⟨v, st', h⟩ := ih st; exact ⟨_, _, .char hc h⟩

theorem paints_unique {st st1 : List Text} {s : Text} {v : List (Char × List Text)} (h : Paints st s v st1) :
    ∀ {w : List (Char × List Text)} {st2 : List Text}, Paints st s w st2 → v = w ∧ st1 = st2 := by
  induction h with
  | nil => intro w st2 hw; cases hw; exact ⟨rfl, rfl⟩
  | @esc st st' b f s v hb hf _ ih =>
    intro w st2 hw
    generalize hx : ESC :: '[' :: (b ++ f :: s) = x at hw
    cases hw with
    | nil => cases hx
    | @esc _ _ b' f' s' _ hb' hf' h' =>
      have e : b ++ f :: s = b' ++ f' :: s' := by simpa using hx
      have e' := spanAnsi_body (s := s) hb hf
      rw [e, spanAnsi_body hb' hf'] at e'
      obtain ⟨e1, e2⟩ := Prod.mk.inj e'
      subst e2
      rw [e1] at h'
      exact ih h'
    | @unfinished _ b' hb' =>
      have e : b ++ f :: s = b' := by simpa using hx
      have := hb' f (by rw [← e]; simp)
      rw [hf] at this; cases this
    | char hc _ => exact absurd hx.symm (hc _)
  | @unfinished st b hb =>
    intro w st2 hw
    generalize hx : ESC :: '[' :: b = x at hw
    cases hw with
    | nil => cases hx
    | @esc _ _ b' f' s' _ hb' hf' h' =>
      have e : b = b' ++ f' :: s' := by simpa using hx
      have := hb f' (by rw [e]; simp)
      rw [hf'] at this; cases this
    | unfinished => exact ⟨rfl, rfl⟩
    | char hc _ => exact absurd hx.symm (hc _)
  | @char st st' c s v hc _ ih =>
    intro w st2 hw
    generalize hx : c :: s = x at hw
    cases hw with
    | nil => cases hx
    | esc => exact absurd hx (hc _)
    | unfinished => exact absurd hx (hc _)
    | char _ h' =>
      obtain ⟨rfl, rfl⟩ := List.cons.inj hx
      obtain ⟨rfl, rfl⟩ := ih h'
      exact ⟨rfl, rfl⟩

theorem cut_paints {st st' : List Text} {s : Text} {v : List (Char × List Text)} (h : Paints st s v st') :
    ∀ n, n < v.length → ∃ mid, ∀ {t : Text} {u : List (Char × List Text)} {st2 : List Text}, t.head? ≠ some '[' →
      Paints mid t u st2 → Paints st (cut n s ++ t) (v.take n ++ u) st2 := by
  induction h with
  | nil => intro n hn; cases hn
  | @esc st st' b f s v hb hf _ ih =>
    intro n hn
    by_cases h0 : n = 0
    · refine ⟨st, fun _ ht => ?_⟩
      rw [cut, if_pos h0]; subst h0; simpa using ht
    · obtain ⟨mid, hm⟩ := ih n hn
      refine ⟨mid, fun hh ht => ?_⟩
      rw [cut, if_neg h0, if_pos (esc_isEsc _), List.tail_cons, spanAnsi_body hb hf]
      have := Paints.esc hb hf (hm hh ht)
      simpa using this
  | unfinished hb => intro n hn; cases hn
  | @char st st' c s v hc h' ih =>
    intro n hn
    by_cases h0 : n = 0
    · refine ⟨st, fun _ ht => ?_⟩
      rw [cut, if_pos h0]; subst h0; simpa using ht
    · have hne : ¬ isEsc c s = true := fun he => by
        obtain ⟨t, e⟩ := isEsc_iff.1 he
        exact hc t e
      obtain ⟨k, rfl⟩ := Nat.exists_eq_succ_of_ne_zero h0
      obtain ⟨mid, hm⟩ := ih k (by simp at hn; omega)
      refine ⟨mid, fun {t u st2} hh ht => ?_⟩
      rw [cut, if_neg h0, if_neg hne, Nat.succ_sub_one, List.take_succ_cons]
      refine .char ?_ (hm hh ht)
      intro t' e
      have e1 : c = ESC := (List.cons.inj e).1
      have e2 : cut k s ++ t = '[' :: t' := (List.cons.inj e).2
      cases hcs : cut k s with
      | nil =>
        rw [hcs, List.nil_append] at e2
        rw [e2] at hh; exact hh rfl
      | cons x xs =>
        rcases cut_head k s with hk | hk
        · rw [hcs] at hk; cases hk
        · rw [hcs] at e2 hk
          have : x = '[' := (List.cons.inj e2).1
          subst this
          cases s with
          | nil => cases hk
          | cons y ys =>
            have : y = '[' := by simpa using hk.symm
            subst this
            exact hc ys (by rw [e1])

theorem noEsc_style {st st' : List Text} {s : Text} {v : List (Char × List Text)} (h : Paints st s v st') (hn : hasEsc s = false) : st' = st := by
  induction h with
  | nil => rfl
  | esc => rw [hasEsc, esc_isEsc] at hn; cases hn
  | unfinished => rfl
  | char _ _ ih =>
    rw [hasEsc, Bool.or_eq_false_iff] at hn
    exact ih hn.2

/-- **C186**, with colours: a line cut to a width shows the beginning of the whole line in the same
colours, and if anything is cut off, no colour is left on. -/
theorem C186_colors (width : Nat) {s : Text} {v : List (Char × List Text)} {st : List Text} (h : Paints [] s v st) :
    ∃ st', Paints [] (fitAnsi width s) (v.take width) st' ∧ (width < v.length → Off st') := by
  have hv := visLen_shows (paints_shows h) 0
  rw [List.length_map] at hv
  unfold fitAnsi
  by_cases h0 : width = 0
  · rw [if_pos h0, h0]; exact ⟨[], .nil, fun _ => .inl rfl⟩
  · rw [if_neg h0]
    by_cases hl : visLen 0 s ≤ width
    · rw [if_pos hl, List.take_of_length_le (by omega)]
      exact ⟨st, h, fun hx => by omega⟩
    · rw [if_neg hl]
      obtain ⟨mid, hm⟩ := cut_paints h width (by omega)
      by_cases he : hasEsc (cut width s) = true
      · rw [if_pos he]
        have hr : Paints mid reset [] ("0m".toList :: mid) := Paints.esc (b := ['0']) (f := 'm') (by decide) (by decide) .nil
        have := hm (by decide) hr
        rw [List.append_nil] at this
        exact ⟨_, this, fun _ => .inr ⟨mid, rfl⟩⟩
      · rw [if_neg he]
        have := hm (by simp) .nil
        rw [List.append_nil, List.append_nil] at this
        refine ⟨_, this, fun _ => .inl ?_⟩
        exact noEsc_style this (by simpa using he)

/-- A red line. -/
example : ∃ v st, Paints [] (red ++ "abc".toList) v st ∧ 2 < v.length :=
  ⟨_, _, Paints.esc (b := ['3', '1']) (f := 'm') (by decide) (by decide)
    (.char (by intro t h; cases h) (.char (by intro t h; cases h) (.char (by intro t h; cases h) .nil))), by decide⟩

/-! ## Lines of tests -/

/-- A piece of text after which no colour is on if none was before. -/
def Closed (a : Text) : Prop := ∀ st, Off st → ∃ v st1, Off st1 ∧
  ∀ {s : Text} {u : List (Char × List Text)} {st2 : List Text}, Paints st1 s u st2 → Paints st (a ++ s) (v ++ u) st2

theorem closed_append {a b : Text} (ha : Closed a) (hb : Closed b) : Closed (a ++ b) := by
  intro st hst
  obtain ⟨v, st1, h1, f1⟩ := ha st hst
  obtain ⟨w, st2, h2, f2⟩ := hb st1 h1
  refine ⟨v ++ w, st2, h2, fun h => ?_⟩
  rw [List.append_assoc, List.append_assoc]
  exact f1 (f2 h)

theorem clean_paints {a : Text} (ha : Clean a) (st : List Text) {s : Text} {u : List (Char × List Text)} {st2 : List Text}
    (h : Paints st s u st2) : Paints st (a ++ s) (a.map (fun c => (c, st)) ++ u) st2 := by
  induction a with
  | nil => exact h
  | cons c a ih =>
    refine .char ?_ (ih (fun hm => ha (List.mem_cons_of_mem _ hm)))
    intro t e
    exact ha (by rw [(List.cons.inj e).1]; exact List.mem_cons_self)

theorem clean_closed {a : Text} (ha : Clean a) : Closed a := fun st hst =>
  ⟨_, st, hst, fun h => clean_paints ha st h⟩

theorem reset_paints (st : List Text) {s : Text} {u : List (Char × List Text)} {st2 : List Text}
    (h : Paints ("0m".toList :: st) s u st2) : Paints st (reset ++ s) u st2 :=
  Paints.esc (b := ['0']) (f := 'm') (by decide) (by decide) h

/-- Colours do not show. -/
def Seqs (a : Text) : Prop := ∀ st, ∃ st1, ∀ {s : Text} {u : List (Char × List Text)} {st2 : List Text}, Paints st1 s u st2 → Paints st (a ++ s) u st2

theorem yellow_seqs : Seqs yellow := fun st => ⟨"33m".toList :: st, fun h => Paints.esc (b := ['3', '3']) (f := 'm') (by decide) (by decide) h⟩
theorem green_seqs : Seqs green := fun st => ⟨"32m".toList :: st, fun h => Paints.esc (b := ['3', '2']) (f := 'm') (by decide) (by decide) h⟩
theorem red_seqs : Seqs red := fun st => ⟨"31m".toList :: st, fun h => Paints.esc (b := ['3', '1']) (f := 'm') (by decide) (by decide) h⟩
theorem bold_seqs : Seqs bold := fun st => ⟨"1m".toList :: st, fun h => Paints.esc (b := ['1']) (f := 'm') (by decide) (by decide) h⟩

theorem codes_seqs (st : Text) : Seqs (codes st) := by
  unfold codes
  split
  · exact yellow_seqs
  · split
    · exact yellow_seqs
    · split
      · exact green_seqs
      · split
        · exact yellow_seqs
        · intro s0
          obtain ⟨s1, h1⟩ := bold_seqs s0
          obtain ⟨s2, h2⟩ := red_seqs s1
          exact ⟨s2, fun h => by rw [List.append_assoc]; exact h1 (h2 h)⟩

theorem colored_closed {cs a : Text} (hc : Seqs cs) (ha : Clean a) : Closed (cs ++ (a ++ reset)) := by
  intro st _
  obtain ⟨st1, h1⟩ := hc st
  refine ⟨a.map (fun c => (c, st1)), "0m".toList :: st1, .inr ⟨_, rfl⟩, fun h => ?_⟩
  rw [List.append_assoc, List.append_assoc]
  exact h1 (clean_paints ha st1 (reset_paints st1 h))

theorem nil_closed : Closed [] := fun st hst => ⟨[], st, hst, fun h => h⟩

theorem token_closed {i : Item} (h : Clean i.status) : Closed (token i) := by
  have hs : Clean ['*'] := by unfold Clean; decide
  unfold token
  refine closed_append ?_ ?_
  · unfold apply
    cases i.color with
    | false => exact clean_closed h
    | true => exact colored_closed (codes_seqs _) h
  · unfold star
    cases i.cached with
    | false => exact nil_closed
    | true =>
      cases i.color with
      | false => exact clean_closed hs
      | true => exact colored_closed (a := ['*']) yellow_seqs hs

theorem field_closed {i : Item} (h : Clean i.status) : Closed (field i) :=
  closed_append (token_closed h) (closed_append (clean_closed (spaces_clean _)) (clean_closed (by unfold Clean; decide)))

theorem fitted_closed {i : Item} (h : CleanItem i) (width : Nat) : Closed (fitted i width) := by
  unfold fitted
  by_cases h0 : width = 0
  · rw [if_pos h0]; exact nil_closed
  · rw [if_neg h0]
    cases hf : (attempts i width).findSome? id with
    | none =>
      show Closed (fallback i width)
      unfold fallback
      split
      · exact token_closed h.status
      · exact clean_closed (fitDisplay_clean h.display _)
    | some l =>
      show Closed l
      obtain ⟨o, hm, ho⟩ := List.exists_of_findSome?_eq_some hf
      have ho : o = some l := ho
      subst ho
      unfold attempts at hm
      rcases List.mem_cons.1 hm with hm | hm
      · unfold legacyLine at hm
        split at hm
        · have := Option.some.inj hm
          subst this
          unfold legacy
          refine closed_append (clean_closed (clean_append (by unfold Clean; decide) (clean_append h.display (by unfold Clean; decide))))
            (closed_append (clean_closed (spaces_clean _)) (closed_append (field_closed h.status) (clean_closed ?_)))
          intro hm
          rcases List.mem_cons.1 hm with hm | hm
          · exact absurd hm (by decide)
          · exact h.runs hm
        · cases hm
      · rcases List.mem_append.1 hm with hm | hm
        · obtain ⟨s, hs, e⟩ := List.mem_map.1 hm
          unfold aligned at e
          split at e
          · have := Option.some.inj e
            subst this
            refine closed_append (clean_closed ?_) (closed_append (field_closed h.status) (clean_closed (tail_clean h hs)))
            unfold prefixOf
            exact clean_append (clean_append (indent_clean _) (clean_append h.display (by unfold Clean; decide))) (spaces_clean _)
          · cases e
        · obtain ⟨s, hs, e⟩ := List.mem_map.1 hm
          unfold compactLine at e
          split at e
          · have := Option.some.inj e
            subst this
            exact closed_append (clean_closed (indent_clean _)) (closed_append (clean_closed (fitDisplay_clean h.display _))
              (closed_append (clean_closed (by unfold Clean; decide)) (closed_append (token_closed h.status) (clean_closed (tail_clean h hs)))))
          · cases e

/-- **C187**, with colours: after the line of a test no colour is left on. -/
theorem C187_colors {i : Item} (h : CleanItem i) (width : Nat) {v : List (Char × List Text)} {st : List Text}
    (hv : Paints [] (fitted i width) v st) : Off st := by
  obtain ⟨w, st1, h1, f⟩ := fitted_closed h width [] (.inl rfl)
  have := f .nil
  rw [List.append_nil, List.append_nil] at this
  rw [(paints_unique hv this).2]
  exact h1

example : ∃ v st, Paints [] (fitted sample 40) v st := paints_total _ _

end Verif.TermFit
