import Verif.TermFit.Model
/-!
# C186, C187: lines fit
-/
namespace Verif.TermFit

theorem isEsc_iff {c : Char} {cs : Text} : isEsc c cs = true ↔ ∃ t, c :: cs = ESC :: '[' :: t := by
  unfold isEsc
  cases cs with
  | nil => simp
  | cons d ds => simp

/-- Sequences end with a character from 0x40 to 0x7E, as ECMA-48 (5.4) says. -/
theorem isFinal_iff (c : Char) : isFinal c = true ↔ 0x40 ≤ c.toNat ∧ c.toNat ≤ 0x7e := by
  unfold isFinal
  rw [Bool.and_eq_true, decide_eq_true_eq, decide_eq_true_eq, Char.le_def, Char.le_def, UInt32.le_iff_toNat_le, UInt32.le_iff_toNat_le]
  exact Iff.rfl

theorem spanAnsi_body {b : Text} {f : Char} {s : Text} (hb : ∀ c ∈ b, isFinal c = false) (hf : isFinal f = true) :
    spanAnsi (b ++ f :: s) = (b ++ [f], s) := by
  induction b with
  | nil => simp [spanAnsi, hf]
  | cons c b ih =>
    have h1 := hb c List.mem_cons_self
    rw [List.cons_append, spanAnsi, ih (fun x hx => hb x (List.mem_cons_of_mem _ hx))]
    simp [h1]

theorem dropAnsi_body {b : Text} {f : Char} {s : Text} (hb : ∀ c ∈ b, isFinal c = false) (hf : isFinal f = true) :
    dropAnsi (b ++ f :: s) = s := by
  induction b with
  | nil => simp [dropAnsi, hf]
  | cons c b ih =>
    have h1 := hb c List.mem_cons_self
    rw [List.cons_append, dropAnsi, ih (fun x hx => hb x (List.mem_cons_of_mem _ hx))]
    simp [h1]

theorem dropAnsi_none {b : Text} (hb : ∀ c ∈ b, isFinal c = false) : dropAnsi b = [] := by
  induction b with
  | nil => rfl
  | cons c b ih =>
    have h1 := hb c List.mem_cons_self
    rw [dropAnsi, ih (fun x hx => hb x (List.mem_cons_of_mem _ hx))]
    simp [h1]

theorem esc_isEsc (t : Text) : isEsc ESC ('[' :: t) = true := isEsc_iff.2 ⟨t, rfl⟩

theorem visLen_shows {s v : Text} (h : Shows s v) : ∀ acc, visLen acc s = acc + v.length := by
  induction h with
  | nil => intro acc; rw [visLen]; rfl
  | esc hb hf _ ih =>
    intro acc
    rw [visLen, if_pos (esc_isEsc _), List.tail_cons, dropAnsi_body hb hf, ih]
  | unfinished hb =>
    intro acc
    rw [visLen, if_pos (esc_isEsc _), List.tail_cons, dropAnsi_none hb, visLen]; rfl
  | char hc _ ih =>
    intro acc
    rw [visLen, if_neg, ih, List.length_cons]
    · omega
    · intro he
      obtain ⟨t, ht⟩ := isEsc_iff.1 he
      exact hc t ht

theorem body_split (s : Text) : (∀ c ∈ s, isFinal c = false) ∨ ∃ b f t, s = b ++ f :: t ∧ (∀ c ∈ b, isFinal c = false) ∧ isFinal f = true := by
  induction s with
  | nil => exact .inl (by simp)
  | cons c s ih =>
    cases hc : isFinal c with
    | true => exact .inr ⟨[], c, s, rfl, by simp, hc⟩
    | false =>
      rcases ih with ih | ⟨b, f, t, e, hb, hf⟩
      · left
        intro x hx
        rcases List.mem_cons.1 hx with rfl | hx
        · exact hc
        · exact ih x hx
      · right
        refine ⟨c :: b, f, t, by rw [e]; rfl, ?_, hf⟩
        intro x hx
        rcases List.mem_cons.1 hx with rfl | hx
        · exact hc
        · exact hb x hx

/-- A terminal shows something for every text. -/
theorem shows_total (s : Text) : ∃ v, Shows s v := by
  induction hn : s.length using Nat.strongRecOn generalizing s with
  | _ n ih =>
    cases s with
    | nil => exact ⟨[], .nil⟩
    | cons c s =>
      by_cases he : ∃ t, c :: s = ESC :: '[' :: t
      · obtain ⟨t, ht⟩ := he
        rw [ht] at hn ⊢
        rcases body_split t with hb | ⟨b, f, r, e, hb, hf⟩
        · exact ⟨[], .unfinished hb⟩
        · subst e
          obtain ⟨v, hv⟩ := ih r.length (by simp at hn; omega) r rfl
          exact ⟨v, .esc hb hf hv⟩
      · obtain ⟨v, hv⟩ := ih s.length (by simp at hn; omega) s rfl
        exact ⟨c :: v, .char (fun t ht => he ⟨t, ht⟩) hv⟩

/-- And only one thing. -/
theorem shows_unique {s v : Text} (h : Shows s v) : ∀ {w : Text}, Shows s w → v = w := by
  induction h with
  | nil => intro w hw; cases hw; rfl
  | @esc b f s v hb hf _ ih =>
    intro w hw
    generalize hx : ESC :: '[' :: (b ++ f :: s) = x at hw
    cases hw with
    | nil => cases hx
    | @esc b' f' s' _ hb' hf' h' =>
      have e : b ++ f :: s = b' ++ f' :: s' := by simpa using hx
      have e' := dropAnsi_body (s := s) hb hf
      rw [e, dropAnsi_body hb' hf'] at e'
      subst e'
      exact ih h'
    | @unfinished b' hb' =>
      have e : b ++ f :: s = b' := by simpa using hx
      have := hb' f (by rw [← e]; simp)
      rw [hf] at this; cases this
    | char hc _ => exact absurd hx.symm (hc _)
  | @unfinished b hb =>
    intro w hw
    generalize hx : ESC :: '[' :: b = x at hw
    cases hw with
    | nil => cases hx
    | @esc b' f' s' _ hb' hf' h' =>
      have e : b = b' ++ f' :: s' := by simpa using hx
      have := hb f' (by rw [e]; simp)
      rw [hf'] at this; cases this
    | unfinished => rfl
    | char hc _ => exact absurd hx.symm (hc _)
  | @char c s v hc _ ih =>
    intro w hw
    generalize hx : c :: s = x at hw
    cases hw with
    | nil => cases hx
    | esc => exact absurd hx (hc _)
    | unfinished => exact absurd hx (hc _)
    | char _ h' =>
      obtain ⟨rfl, rfl⟩ := List.cons.inj hx
      rw [ih h']

theorem cut_head (n : Nat) (s : Text) : cut n s = [] ∨ (cut n s).head? = s.head? := by
  cases s with
  | nil => left; rw [cut]
  | cons c cs =>
    rw [cut]
    by_cases hn : n = 0
    · rw [if_pos hn]; exact .inl rfl
    · rw [if_neg hn]
      by_cases he : isEsc c cs = true
      · rw [if_pos he]
        obtain ⟨t, ht⟩ := isEsc_iff.1 he
        rw [ht]; exact .inr rfl
      · rw [if_neg he]; exact .inr rfl

theorem cut_shows {s v : Text} (h : Shows s v) {t u : Text} (ht : Shows t u) (hh : t.head? ≠ some '[') :
    ∀ n, n < v.length → Shows (cut n s ++ t) (v.take n ++ u) := by
  induction h with
  | nil => intro n hn; cases hn
  | @esc b f s v hb hf _ ih =>
    intro n hn
    rw [cut]
    by_cases h0 : n = 0
    · rw [if_pos h0]; subst h0; simpa using ht
    · rw [if_neg h0, if_pos (esc_isEsc _), List.tail_cons, spanAnsi_body hb hf]
      have := Shows.esc hb hf (ih n hn)
      simpa using this
  | unfinished hb => intro n hn; cases hn
  | @char c s v hc h' ih =>
    intro n hn
    rw [cut]
    by_cases h0 : n = 0
    · rw [if_pos h0]; subst h0; simpa using ht
    · have hne : ¬ isEsc c s = true := fun he => by
        obtain ⟨t, e⟩ := isEsc_iff.1 he
        exact hc t e
      rw [if_neg h0, if_neg hne]
      obtain ⟨k, rfl⟩ := Nat.exists_eq_succ_of_ne_zero h0
      rw [Nat.succ_sub_one, List.take_succ_cons]
      refine .char ?_ (ih k (by simp at hn; omega))
      intro t' e
      have e1 : c = ESC := (List.cons.inj e).1
      have e2 : cut k s ++ t = '[' :: t' := (List.cons.inj e).2
      rcases cut_head k s with hk | hk
      · rw [hk, List.nil_append] at e2
        rw [e2] at hh; exact hh rfl
      · cases hcs : cut k s with
        | nil =>
          rw [hcs, List.nil_append] at e2
          rw [e2] at hh; exact hh rfl
        | cons x xs =>
          rw [hcs] at e2 hk
          have : x = '[' := (List.cons.inj e2).1
          subst this
          cases s with
          | nil => cases hk
          | cons y ys =>
            have : y = '[' := by simpa using hk.symm
            subst this
            exact hc ys (by rw [e1])

theorem reset_shows : Shows reset [] :=
  Shows.esc (b := ['0']) (f := 'm') (by decide) (by decide) .nil

/-- **C186** A line cut to a width shows just the beginning of what the whole line shows, whatever
escapes it contains. -/
theorem C186 (width : Nat) {s v : Text} (h : Shows s v) : Shows (fitAnsi width s) (v.take width) := by
  unfold fitAnsi
  by_cases h0 : width = 0
  · rw [if_pos h0, h0]; exact .nil
  · rw [if_neg h0]
    have hv := visLen_shows h 0
    by_cases hl : visLen 0 s ≤ width
    · rw [if_pos hl, List.take_of_length_le (by omega)]; exact h
    · rw [if_neg hl]
      have hlt : width < v.length := by omega
      by_cases he : hasEsc (cut width s) = true
      · rw [if_pos he]
        have := cut_shows h reset_shows (by decide) width hlt
        simpa using this
      · rw [if_neg he]
        have := cut_shows h .nil (by simp) width hlt
        simpa using this

example : Shows (fitAnsi 2 (red ++ "abc".toList)) "ab".toList :=
  C186 2 (v := "abc".toList) (Shows.esc (b := ['3', '1']) (f := 'm') (by decide) (by decide)
    (.char (by intro t h; cases h) (.char (by intro t h; cases h) (.char (by intro t h; cases h) .nil))))

/-! ## Lines of tests -/

theorem clean_shows {a : Text} (ha : Clean a) {s v : Text} (h : Shows s v) : Shows (a ++ s) (a ++ v) := by
  induction a with
  | nil => exact h
  | cons c a ih =>
    refine .char ?_ (ih (fun hm => ha (List.mem_cons_of_mem _ hm)))
    intro t e
    exact ha (by rw [(List.cons.inj e).1]; exact List.mem_cons_self)

theorem sgr_shows {b : Text} (hb : ∀ c ∈ b, isFinal c = false) {s v : Text} (h : Shows s v) : Shows (ESC :: '[' :: (b ++ 'm' :: s)) v :=
  .esc hb (by decide) h

theorem reset_app {s v : Text} (h : Shows s v) : Shows (reset ++ s) v := sgr_shows (b := ['0']) (by decide) h
theorem yellow_app {s v : Text} (h : Shows s v) : Shows (yellow ++ s) v := sgr_shows (b := ['3', '3']) (by decide) h
theorem green_app {s v : Text} (h : Shows s v) : Shows (green ++ s) v := sgr_shows (b := ['3', '2']) (by decide) h
theorem red_app {s v : Text} (h : Shows s v) : Shows (red ++ s) v := sgr_shows (b := ['3', '1']) (by decide) h
theorem bold_app {s v : Text} (h : Shows s v) : Shows (bold ++ s) v := sgr_shows (b := ['1']) (by decide) h

theorem codes_app (st : Text) {s v : Text} (h : Shows s v) : Shows (codes st ++ s) v := by
  unfold codes
  split
  · exact yellow_app h
  · split
    · exact yellow_app h
    · split
      · exact green_app h
      · split
        · exact yellow_app h
        · rw [List.append_assoc]; exact bold_app (red_app h)

theorem apply_app {color : Bool} {st : Text} (hc : Clean st) {s v : Text} (h : Shows s v) : Shows (apply color (codes st) st ++ s) (st ++ v) := by
  unfold apply
  cases color with
  | false => exact clean_shows hc h
  | true =>
    rw [if_pos rfl, List.append_assoc, List.append_assoc]
    exact codes_app st (clean_shows hc (reset_app h))

theorem star_app (i : Item) {s v : Text} (h : Shows s v) : Shows (star i ++ s) ((if i.cached then ['*'] else []) ++ v) := by
  unfold star
  cases i.cached with
  | false => exact h
  | true =>
    have hs : Clean ['*'] := by unfold Clean; decide
    cases i.color with
    | false => exact clean_shows hs h
    | true =>
      rw [if_pos rfl, if_pos rfl, if_pos rfl, List.append_assoc]
      exact yellow_app (clean_shows (a := ['*']) hs (reset_app h))

theorem token_app {i : Item} (hc : Clean i.status) {s v : Text} (h : Shows s v) : Shows (token i ++ s) (plain i ++ v) := by
  unfold token plain
  rw [List.append_assoc, List.append_assoc]
  exact apply_app hc (star_app i h)

theorem spaces_clean (n : Nat) : Clean (spaces n) := by
  intro h
  have := List.eq_of_mem_replicate h
  exact absurd this (by decide)

theorem field_app {i : Item} (hc : Clean i.status) {s v : Text} (h : Shows s v) : Shows (field i ++ s) (fieldPlain i ++ v) := by
  unfold field fieldPlain
  rw [List.append_assoc, List.append_assoc, List.append_assoc, List.append_assoc]
  refine token_app hc (clean_shows (spaces_clean _) (clean_shows ?_ h))
  unfold Clean; decide

theorem clean_append {a b : Text} (ha : Clean a) (hb : Clean b) : Clean (a ++ b) := fun h =>
  (List.mem_append.1 h).elim ha hb

theorem indent_clean (w : Nat) : Clean (indent w) := by
  unfold indent Clean
  split <;> decide

theorem clean_take {a : Text} (ha : Clean a) (n : Nat) : Clean (a.take n) := fun h => ha (List.mem_of_mem_take h)

theorem fitPlain_clean {a : Text} (ha : Clean a) (n : Nat) : Clean (fitPlain n a) := by
  unfold fitPlain
  split
  · exact fun h => by cases h
  · split
    · exact ha
    · exact clean_take ha n

theorem fitDisplay_clean {a : Text} (ha : Clean a) (n : Nat) : Clean (fitDisplay n a) := by
  unfold fitDisplay
  split
  · exact fun h => by cases h
  · split
    · exact ha
    · split
      · exact clean_take ha n
      · exact clean_append (fitPlain_clean ha _) (by unfold Clean; decide)

theorem fitPlain_len (n : Nat) (a : Text) : (fitPlain n a).length ≤ n := by
  unfold fitPlain
  split
  · simp
  · split
    · assumption
    · rw [List.length_take]; omega

theorem fitDisplay_len (n : Nat) (a : Text) : (fitDisplay n a).length ≤ n := by
  unfold fitDisplay
  split
  · simp
  · split
    · assumption
    · split
      · rw [List.length_take]; omega
      · have := fitPlain_len (n - 3) a
        rw [List.length_append]
        have : "...".toList.length = 3 := by decide
        omega

/-- Texts of which lines are made have no escapes. -/
structure CleanItem (i : Item) : Prop where
  status : Clean i.status
  display : Clean i.display
  runs : Clean i.runs
  full : Clean i.full
  compact : Clean i.compact

/-- What is to be shown of a line. -/
def Good (i : Item) (width : Nat) (l : Text) : Prop :=
  ∃ v, Shows l v ∧ v.length ≤ width ∧ ((plain i).length ≤ width → plain i <:+: v)

theorem shows_nil_app {l v : Text} (h : Shows (l ++ []) (v ++ [])) : Shows l v := by simpa using h

theorem legacy_good {i : Item} (h : CleanItem i) {width : Nat} {l : Text} (hl : legacyLine i width = some l) : Good i width l := by
  unfold legacyLine at hl
  split at hl
  · rename_i hle
    have := Option.some.inj hl
    subst this
    have hsh : ∃ a b, Shows (legacy i) (a ++ (fieldPlain i ++ b)) := by
      unfold legacy
      refine ⟨("   ".toList ++ (i.display ++ ": ".toList)) ++ spaces (i.nameWidth - ("   ".toList ++ (i.display ++ ": ".toList)).length), ' ' :: i.runs, ?_⟩
      simp only
      rw [List.append_assoc _ (spaces _)]
      refine clean_shows (clean_append (by unfold Clean; decide) (clean_append h.display (by unfold Clean; decide))) (clean_shows (spaces_clean _) (field_app h.status ?_))
      have := clean_shows (a := ' ' :: i.runs) (by
        intro hm
        rcases List.mem_cons.1 hm with hm | hm
        · exact absurd hm (by decide)
        · exact h.runs hm) .nil
      simpa using this
    obtain ⟨a, b, hs⟩ := hsh
    refine ⟨_, hs, ?_, fun _ => ?_⟩
    · have := visLen_shows hs 0
      omega
    · exact ⟨a, pad i ++ [':'] ++ b, by unfold fieldPlain; simp⟩
  · cases hl

theorem tail_clean {i : Item} (h : CleanItem i) {s : Option Text} (hs : s ∈ summaries i) : Clean (tailOf s) := by
  have key : ∀ t : Text, Clean t → Clean (' ' :: t) := fun t ht hm => by
    rcases List.mem_cons.1 hm with hm | hm
    · exact absurd hm (by decide)
    · exact ht hm
  simp only [summaries, List.mem_cons, List.not_mem_nil, or_false] at hs
  rcases hs with rfl | rfl | rfl
  · exact key _ h.full
  · exact key _ h.compact
  · exact fun h => by cases h

theorem tail_shows {t : Text} (h : Clean t) : Shows t t := by simpa using clean_shows h .nil

theorem aligned_good {i : Item} (h : CleanItem i) {width : Nat} {s : Option Text} (hs : s ∈ summaries i) {l : Text}
    (hl : aligned i width s = some l) : Good i width l := by
  unfold aligned at hl
  split at hl
  · rename_i hle
    have := Option.some.inj hl
    subst this
    have hp : Clean (prefixOf i width) := by
      unfold prefixOf
      exact clean_append (clean_append (indent_clean _) (clean_append h.display (by unfold Clean; decide))) (spaces_clean _)
    refine ⟨prefixOf i width ++ (fieldPlain i ++ tailOf s), clean_shows hp (field_app h.status (tail_shows (tail_clean h hs))), ?_, fun _ => ?_⟩
    · rw [List.length_append, List.length_append]; omega
    · exact ⟨prefixOf i width, pad i ++ [':'] ++ tailOf s, by unfold fieldPlain; simp⟩
  · cases hl

theorem compact_good {i : Item} (h : CleanItem i) {width : Nat} {s : Option Text} (hs : s ∈ summaries i) {l : Text}
    (hl : compactLine i width s = some l) : Good i width l := by
  unfold compactLine at hl
  split at hl
  · rename_i hle
    have := Option.some.inj hl
    subst this
    refine ⟨_, clean_shows (indent_clean _) (clean_shows (fitDisplay_clean h.display _) (clean_shows (by unfold Clean; decide)
      (token_app h.status (tail_shows (tail_clean h hs))))), ?_, fun _ => ?_⟩
    · have := fitDisplay_len (width - ((indent width).length + 2 + (plain i).length + (tailOf s).length)) i.display
      have h2 : ": ".toList.length = 2 := by decide
      rw [List.length_append, List.length_append, List.length_append, List.length_append]
      omega
    · refine ⟨indent width ++ (fitDisplay (width - ((indent width).length + 2 + (plain i).length + (tailOf s).length)) i.display ++ ": ".toList), tailOf s, ?_⟩
      simp only [List.append_assoc]
  · cases hl

theorem fallback_good {i : Item} (h : CleanItem i) (width : Nat) : Good i width (fallback i width) := by
  unfold fallback
  by_cases hw : (plain i).length ≤ width
  · rw [if_pos hw]
    refine ⟨plain i, shows_nil_app (token_app h.status .nil), hw, fun _ => List.infix_refl _⟩
  · rw [if_neg hw]
    exact ⟨_, tail_shows (fitDisplay_clean h.display _), fitDisplay_len _ _, fun h => absurd h hw⟩

/-- **C187** The line of a test takes no more columns than the terminal has, and shows the whole
status of the test wherever that is possible. -/
theorem C187 {i : Item} (h : CleanItem i) (width : Nat) {v : Text} (hv : Shows (fitted i width) v) :
    v.length ≤ width ∧ ((plain i).length ≤ width → plain i <:+: v) := by
  have hg : Good i width (fitted i width) := by
    unfold fitted
    by_cases h0 : width = 0
    · rw [if_pos h0]
      refine ⟨[], .nil, Nat.zero_le _, fun hp => ?_⟩
      rw [h0] at hp
      rw [List.length_eq_zero_iff.1 (Nat.le_zero.1 hp)]
      exact List.infix_refl _
    · rw [if_neg h0]
      cases hf : (attempts i width).findSome? id with
      | none => exact fallback_good h width
      | some l =>
        obtain ⟨o, hm, ho⟩ := List.exists_of_findSome?_eq_some hf
        have ho : o = some l := ho
        subst ho
        unfold attempts at hm
        rcases List.mem_cons.1 hm with hm | hm
        · exact legacy_good h hm.symm
        · rcases List.mem_append.1 hm with hm | hm
          · obtain ⟨s, hs, e⟩ := List.mem_map.1 hm
            exact aligned_good h hs e
          · obtain ⟨s, hs, e⟩ := List.mem_map.1 hm
            exact compact_good h hs e
  obtain ⟨w, hw, h1, h2⟩ := hg
  rw [shows_unique hv hw]
  exact ⟨h1, h2⟩

/-- A failed test, with colours. -/
def sample : Item := ⟨true, true, "FAIL".toList, "test_of_something".toList, 20, "1 runs".toList, "1 runs 0s".toList, "1r 0s".toList⟩

example : CleanItem sample := by
  constructor <;> · unfold Clean; decide

end Verif.TermFit
