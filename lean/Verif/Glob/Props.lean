import Verif.Glob.Sem
import Verif.Glob.Total
/-!
# C73: what `fs.glob` matches
-/
namespace Verif.Glob
open Verif

theorem Match.mono {D E : Text → Prop} {sep : Nat} (hDE : ∀ u, D u → E u) {ts : List Tok} {w : Text} (h : Match D sep ts w) :
    Match E sep ts w := by
  induction h with
  | nil => exact .nil
  | lit c ts u _ ih => exact .lit c _ _ ih
  | any c ts u _ ih => exact .any c _ _ ih
  | star v ts u hv _ ih => exact .star v _ _ hv ih
  | dstar v ts u _ ih => exact .dstar v _ _ ih
  | dirs v ts u hv _ ih => exact .dirs v _ _ (hDE v hv) ih
  | cls n is c ts u hc _ ih => exact .cls n is c _ _ hc ih
  | alt os q ts u hq _ ih => exact .alt os q _ _ hq ih

theorem Match.noDirs {D E : Text → Prop} {sep : Nat} {ts : List Tok} {w : Text} (h : Match D sep ts w) (hn : NoDirs ts) :
    Match E sep ts w := by
  induction h with
  | nil => exact .nil
  | lit c ts u _ ih => cases hn; exact .lit c _ _ (ih (by assumption))
  | any c ts u _ ih => cases hn; exact .any c _ _ (ih (by assumption))
  | star v ts u hv _ ih => cases hn; exact .star v _ _ hv (ih (by assumption))
  | dstar v ts u _ ih => cases hn; exact .dstar v _ _ (ih (by assumption))
  | dirs v ts u hv _ ih => cases hn
  | cls n is c ts u hc _ ih => cases hn; exact .cls n is c _ _ hc (ih (by assumption))
  | alt os q ts u hq _ ih => cases hn with | alt _ _ hn => exact .alt os q _ _ hq (ih (hn q hq))

/-- C73: what the answer means exactly, for every pattern and path: `**` and a separator match any text.
Missing for the full claim: such a text should end with a separator; options that combine with what stands around them. -/
theorem C73_exact_partial {sep : Nat} {pat path : Text} {ts : List Tok} (h : Reads true sep .other pat ts) :
    ∃ b, glob pat path [sep] = .ok b ∧ (b = true ↔ Match (fun _ => True) sep ts path) := by
  obtain ⟨b, e, -⟩ := C74_total [sep] path pat
  have := good sep path (depth pat path) [] [] pat ts .other 0 b (by omega) (fun _ _ _ h => h) h
    ⟨0, by omega, .nil, Or.inl (by simp)⟩ e
  refine ⟨b, e, ?_⟩
  cases b with
  | true => exact ⟨fun _ => this.1 rfl, fun _ => rfl⟩
  | false => exact ⟨fun h => absurd h (by decide), fun h => absurd h (this.2 rfl)⟩

/-- C73: patterns without `**` and a separator after it match what they should, and nothing else. -/
theorem C73_match_partial {sep : Nat} {pat path : Text} {ts : List Tok} (h : Reads true sep .other pat ts) (hn : NoDirs ts) :
    ∃ b, glob pat path [sep] = .ok b ∧ (b = true ↔ Match (Dirs sep) sep ts path) := by
  obtain ⟨b, e, hb⟩ := C73_exact_partial (path := path) h
  exact ⟨b, e, hb.trans ⟨fun hm => hm.noDirs hn, fun hm => hm.noDirs hn⟩⟩

/-- C73: no match is missed, also with `**` and a separator. -/
theorem C73_complete_partial {sep : Nat} {pat path : Text} {ts : List Tok} (h : Reads true sep .other pat ts)
    (hm : Match (Dirs sep) sep ts path) : glob pat path [sep] = .ok true := by
  obtain ⟨b, e, hb⟩ := C73_exact_partial (path := path) h
  rw [e, hb.2 (hm.mono (fun _ _ => trivial))]

theorem split_at {x : Nat} {t : Text} (h : x ∈ t) : ∃ a b, t = a ++ x :: b ∧ x ∉ a := by
  induction t with
  | nil => simp at h
  | cons c t ih =>
    by_cases hc : c = x
    · exact ⟨[], t, by simp [hc], by simp⟩
    · obtain ⟨a, b, rfl, ha⟩ := ih (by rcases List.mem_cons.1 h with e | e; exact absurd e.symm hc; exact e)
      exact ⟨c :: a, b, rfl, by simp [ha]; exact fun e => hc e.symm⟩

/-- C73: every pattern without an opening brace can be read, so the theorems above are about all of them. -/
theorem C73_reads (safe : Bool) (sep : Nat) : ∀ (n : Nat) (b : Prev) (t : Text), t.length ≤ n → 123 ∉ t → Fits sep b t →
    ∃ ts, Reads safe sep b t ts := by
  intro n
  induction n with
  | zero =>
    intro b t hn _ _
    cases t with
    | nil => exact ⟨[], .nil _⟩
    | cons c t => simp at hn
  | succ n ih =>
    intro b t hn hb hf
    match t, hn, hb, hf with
    | [], _, _, _ => exact ⟨[], .nil _⟩
    | c :: t, hn, hb, hf =>
      simp only [List.length_cons] at hn
      simp only [List.mem_cons, not_or] at hb
      by_cases h1 : c = 92
      · subst h1
        match t, hn, hb, hf with
        | [], _, _, hf => exact ⟨_, .escEnd _ hf⟩
        | d :: t, hn, hb, hf =>
          simp only [List.length_cons] at hn
          simp only [List.mem_cons, not_or] at hb
          obtain ⟨ts, hr⟩ := ih .other t (by omega) hb.2.2 trivial
          exact ⟨_, .esc _ d t ts hf hr⟩
      by_cases h2 : c = 42
      · subst h2
        by_cases h3 : t.head? = some 42
        · obtain ⟨t', rfl⟩ : ∃ t', t = 42 :: t' := by
            cases t with
            | nil => simp at h3
            | cons d t => exact ⟨t, by simpa using h3⟩
          simp only [List.length_cons] at hn
          simp only [List.mem_cons, not_or] at hb
          by_cases h4 : t'.head? = some sep
          · obtain ⟨t2, rfl⟩ : ∃ t2, t' = sep :: t2 := by
              cases t' with
              | nil => simp at h4
              | cons d t => exact ⟨t, by simpa using h4⟩
            simp only [List.length_cons] at hn
            simp only [List.mem_cons, not_or] at hb
            obtain ⟨ts, hr⟩ := ih .other t2 (by omega) hb.2.2.2 trivial
            exact ⟨_, .dirs _ t2 ts hf hr⟩
          · obtain ⟨ts, hr⟩ := ih .dstar t' (by omega) hb.2.2 h4
            exact ⟨_, .dstar _ t' ts hf hr⟩
        · obtain ⟨ts, hr⟩ := ih .star t (by omega) hb.2 h3
          exact ⟨_, .star _ t ts hf hr⟩
      by_cases h3 : c = 63
      · subst h3
        obtain ⟨ts, hr⟩ := ih .other t (by omega) hb.2 trivial
        exact ⟨_, .any _ t ts hf hr⟩
      by_cases h4 : c = 91
      · subst h4
        by_cases h5 : 93 ∈ t
        · obtain ⟨body, t', rfl, hx⟩ := split_at h5
          obtain ⟨neg, is, hc⟩ := class_total body
          simp only [List.length_append, List.length_cons] at hn
          simp only [List.mem_append, List.mem_cons, not_or] at hb
          obtain ⟨ts, hr⟩ := ih .other t' (by omega) hb.2.2.2 trivial
          exact ⟨_, .cls _ body neg is t' ts hf hx hc hr⟩
        · obtain ⟨ts, hr⟩ := ih .other t (by omega) hb.2 trivial
          exact ⟨_, .bracket _ t ts hf h5 hr⟩
      · obtain ⟨ts, hr⟩ := ih .other t (by omega) hb.2 trivial
        exact ⟨_, .lit _ c t ts hf h1 h2 h3 h4 (fun e => hb.1 e.symm) hr⟩

/-- C73: `**/b` matches "ab", although "a" is not a number of directories. -/
theorem C73_refuted_dirs : ∃ ts, Reads true 47 .other [42, 42, 47, 98] ts ∧ ¬ Match (Dirs 47) 47 ts [97, 98] ∧
    glob [42, 42, 47, 98] [97, 98] [47] = .ok true := by
  refine ⟨[.dirs, .lit 98], .dirs _ _ _ trivial (.lit _ _ _ _ trivial (by decide) (by decide) (by decide) (by decide) (by decide)
    (.nil _)), ?_, by decide +kernel⟩
  intro h
  obtain ⟨u, v, e, hu, hv⟩ := match_dirs h
  cases hv with
  | lit _ _ w hw =>
    cases hw
    match u, e, hu with
    | [], e, _ => simp at e
    | [a], e, hu => simp at e; subst e; simp [Dirs] at hu
    | a :: b :: u, e, _ => simp at e

theorem splits_star_x : Str.SplitsTo [44] none [42, 44, 120] [[42], [120]] := by
  refine .more _ _ [42] [120] _ rfl ?_ (.last _ _ ?_) (by simp)
  · intro j hj
    rw [occurs_comma]
    simp at hj
    subst hj
    simp
  · intro k
    rw [occurs_comma]
    intro h
    have := List.mem_of_getElem? h
    simp at this

/-- C73: `*{*,x}` matches "a/b", although neither `*` nor the options match a separator: put in its place, the option `*` makes
`**`. -/
theorem C73_refuted_brace : ∃ ts, Reads false 47 .other [42, 123, 42, 44, 120, 125] ts ∧ NoDirs ts ∧
    ¬ Match (Dirs 47) 47 ts [97, 47, 98] ∧ glob [42, 123, 42, 44, 120, 125] [97, 47, 98] [47] = .ok true := by
  refine ⟨[.star, .alt [[.star], [.lit 120]]], ?_, ?_, ?_, by decide +kernel⟩
  · refine .star _ _ _ trivial (.alt _ [42, 44, 120] [[42], [120]] _ [] [] (by simp [Fits]) (by decide) splits_star_x rfl ?_ ?_ (.nil _))
    · intro i o q h1 h2
      match i with
      | 0 => simp at h1 h2; subst h1 h2; exact .star _ _ _ trivial (.nil _)
      | 1 =>
        simp at h1 h2; subst h1 h2
        exact .lit _ _ _ _ trivial (by decide) (by decide) (by decide) (by decide) (by decide) (.nil _)
      | i + 2 => simp at h1
    · intro i o q h; exact absurd h (by decide)
  · refine .star _ (.alt _ _ ?_)
    intro q hq
    simp at hq
    rcases hq with rfl | rfl
    · exact .star _ .nil
    · exact .lit _ _ .nil
  · intro h
    obtain ⟨u, v, e, hu, hv⟩ := match_star h
    obtain ⟨q, hq, hv⟩ := match_alt hv
    simp at hq
    rcases hq with rfl | rfl
    · obtain ⟨u', v', e', hu', hv'⟩ := match_star hv
      cases hv'
      have : (47 : Nat) ∈ u ++ v := by rw [← e]; simp
      rcases List.mem_append.1 this with h | h
      · exact hu h
      · rw [e', List.append_nil] at h; exact hu' h
    · cases hv with
      | lit _ _ w hw =>
        cases hw
        have := congrArg List.getLast? e
        simp at this

/-- The hypotheses are met by `s/{*.c,*.h}`, which then matches "s/a.h" and not "s/b/a.h". -/
theorem splits_ch : Str.SplitsTo [44] none [42, 46, 99, 44, 42, 46, 104] [[42, 46, 99], [42, 46, 104]] := by
  refine .more _ _ [42, 46, 99] [42, 46, 104] _ rfl ?_ (.last _ _ ?_) (by simp)
  · intro j hj
    rw [occurs_comma]
    intro h
    match j, hj with
    | 0, _ => simp at h
    | 1, _ => simp at h
    | 2, _ => simp at h
  · intro k
    rw [occurs_comma]
    intro h
    have := List.mem_of_getElem? h
    simp at this

theorem reads_glob_c (safe : Bool) (e : Nat) (h : e = 99 ∨ e = 104) :
    Reads safe 47 .other [42, 46, e] [.star, .lit 46, .lit e] := by
  refine .star _ _ _ trivial (.lit _ _ _ _ (by simp [Fits]) (by decide) (by decide) (by decide) (by decide) (by decide) ?_)
  exact .lit _ _ _ _ trivial (by omega) (by omega) (by omega) (by omega) (by omega) (.nil _)

theorem reads_example : Reads true 47 .other [115, 47, 123, 42, 46, 99, 44, 42, 46, 104, 125]
    [.lit 115, .lit 47, .alt [[.star, .lit 46, .lit 99], [.star, .lit 46, .lit 104]]] := by
  refine .lit _ _ _ _ trivial (by decide) (by decide) (by decide) (by decide) (by decide) ?_
  refine .lit _ _ _ _ trivial (by decide) (by decide) (by decide) (by decide) (by decide) ?_
  refine .alt _ [42, 46, 99, 44, 42, 46, 104] _ _ [] [] trivial (by decide) splits_ch rfl ?_ ?_ (.nil _)
  · intro i o q h1 h2
    match i with
    | 0 => simp at h1 h2; subst h1 h2; exact reads_glob_c _ _ (by decide)
    | 1 => simp at h1 h2; subst h1 h2; exact reads_glob_c _ _ (by decide)
    | i + 2 => simp at h1
  · intro i o q _ h1 h2
    match i with
    | 0 => simp at h1 h2; subst h1 h2; exact reads_glob_c _ _ (by decide)
    | 1 => simp at h1 h2; subst h1 h2; exact reads_glob_c _ _ (by decide)
    | i + 2 => simp at h1

example : ∃ pat ts, Reads true 47 .other pat ts ∧ NoDirs ts ∧ glob pat [115, 47, 97, 46, 104] [47] = .ok true ∧
    glob pat [115, 47, 98, 47, 97, 46, 104] [47] = .ok false := by
  refine ⟨_, _, reads_example, .lit _ _ (.lit _ _ (.alt _ _ ?_)), by decide +kernel, by decide +kernel⟩
  intro q hq
  simp at hq
  rcases hq with rfl | rfl <;> exact .star _ (.lit _ _ (.lit _ _ .nil))

end Verif.Glob
