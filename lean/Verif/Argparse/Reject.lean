import Verif.Argparse.Errors
/-!
# C91 to C95: what is rejected, the end of the options; where the code does not do what is claimed
-/
namespace Verif.Argparse

variable {pi : Txt → Option Int}

/-- An argument that fails, after well formed parts. -/
theorem parse_fails {alnum : Nat → Bool} (h45 : alnum 45 = false) {p : Parser} (hb : Built alnum p) {heap : List (List Txt)}
    (ho : OwnLists p.opts heap) {is : List Item} {gs : List Given} {ws : List Txt}
    (h : MeansAll (optsH p) p.shorts p.cmds false is gs ws) (prog : Txt) {t : Txt} {more : List Txt} (ht : t ≠ [45, 45])
    (hs : ∀ s : St, Sep s.res → step pi (optsH p) p.shorts p.cmds t more.head? s = .error .argument) :
    parse pi p heap (prog :: (line is ++ t :: more)) = .error .argument := by
  have hok := optsH_ok (built_ok h45 hb) p.args p.cmds
  obtain ⟨h1, h2, h3, _⟩ := start_next (opts := optsH p) (a := ⟨[], heap, none⟩) p.args hok.nodup (sep_empty _ _) (ownH ho)
    (fun k t r hk => ⟨(ownH ho k t r hk).1, fun k' t' h' => by simp [get] at h'⟩)
  have hl := loop_items (pi := pi) (shorts := p.shorts) hok.dash h (line is ++ t :: more) (t :: more)
    (line is ++ t :: more).length 0 ⟨argDefaults p.args (optDefaults (optsH p) ⟨[], heap, none⟩), [], none⟩ rfl h2 rfl (by omega)
  have sc : scan pi (optsH p) p.shorts p.args p.cmds (line is ++ t :: more) ⟨[], heap, none⟩ = .error .argument := by
    simp only [scan]
    cases ea : assignAll pi (view (argDefaults p.args (optDefaults (optsH p) ⟨[], heap, none⟩))) gs with
    | none =>
      simp only [ea] at hl
      exact hl
    | some m =>
      simp only [ea] at hl
      obtain ⟨a', n', p', n1, hd, hle, hl⟩ := hl
      rw [hl]
      have hp : p' < (line is ++ t :: more).length := by
        by_contra hc
        rw [List.drop_of_length_le (by omega)] at hd
        cases hd
      have g0 : (line is ++ t :: more)[p']? = some t := by
        have := congrArg List.head? hd
        rw [List.head?_drop] at this
        exact this
      have g1 : (line is ++ t :: more)[p' + 1]? = more.head? := by
        have := congrArg (fun l => (List.drop 1 l).head?) hd
        simp only [List.drop_drop, List.drop_succ_cons, List.drop_zero] at this
        rw [List.head?_drop] at this
        exact this
      cases n' with
      | zero => omega
      | succ n' =>
        simp only [loop, g0]
        rw [if_neg ht, g1, hs _ n1.sep]
  simp only [parse, withHelp_eq]
  rw [consume, sc]
  rfl

/-- An option that takes a value, without value. -/
inductive Lacks (opts : List (Txt × Spec)) (shorts : List (Nat × Txt)) : Txt → Prop
  | long {n t d} : n ≠ [] → 61 ∉ n → get opts n = some ⟨t, d⟩ → t ≠ .bool → Lacks opts shorts (45 :: 45 :: n)
  | short {cs gs c n t d} : Flags opts shorts cs gs → get shorts c = some n → get opts n = some ⟨t, d⟩ → t ≠ .bool →
      Lacks opts shorts (45 :: (cs ++ [c]))

theorem noDash {shorts : List (Nat × Txt)} (hd : get shorts 45 = none) {c : Nat} {n : Txt} (h : get shorts c = some n) : c ≠ 45 := by
  rintro rfl
  rw [hd] at h
  cases h

theorem group_head {opts : List (Txt × Spec)} {shorts : List (Nat × Txt)} (hd : get shorts 45 = none) {cs : Txt}
    {gs : List Given} (hf : Flags opts shorts cs gs) {c : Nat} {n : Txt} (hc : get shorts c = some n) (ds : Txt) :
    ∃ x xs, cs ++ c :: ds = x :: xs ∧ x ≠ 45 := by
  cases hf with
  | nil => exact ⟨c, ds, rfl, noDash hd hc⟩
  | cons h1 _ _ => exact ⟨_, _, rfl, noDash hd h1⟩

theorem step_group {opts : List (Txt × Spec)} {shorts : List (Nat × Txt)} {cmds : Cmds} (hd : get shorts 45 = none) {cs : Txt}
    {gs : List Given} (hf : Flags opts shorts cs gs) {c : Nat} {n : Txt} {ty : OTy} {d : Option Val} (hc : get shorts c = some n)
    (hk : get opts n = some ⟨ty, d⟩) (hty : ty ≠ .bool) (ds : Txt) (nxt : Option Txt)
    (hbad : (cs ≠ [] ∧ ds ≠ []) ∨ (ds = [] ∧ nxt = none)) (s : St) (hs : Sep s.res) :
    step pi opts shorts cmds (45 :: (cs ++ c :: ds)) nxt s = .error .argument := by
  obtain ⟨x, xs, e, hx⟩ := group_head hd hf hc ds
  rw [e, step_short hx, ← e, short_grouped]
  · obtain ⟨a', m, _, _, e3⟩ := group_flags (pi := pi) nxt hf (c :: ds) [] hs
    have : group pi opts shorts nxt (c :: ds) a' [] = .error .argument := by
      simp only [group, hc, hk]
      rw [if_neg hty]
      rcases hbad with ⟨_, h⟩ | ⟨rfl, rfl⟩
      · rw [if_pos h]
      · rw [if_neg (by simp)]
    simp only [grouped, e3, this]
    rfl
  · intro c' d' more e4
    cases hf with
    | nil =>
      rcases hbad with ⟨h, _⟩ | ⟨rfl, _⟩
      · exact absurd rfl h
      · simp at e4
    | cons h1 h2 _ =>
      rw [List.cons_append] at e4
      rw [← (List.cons.inj e4).1]
      exact .inr ⟨_, _, h1, h2⟩

/-- **C92** (partial). An option that takes a value but is the last argument is an error. -/
theorem C92_missing_partial {alnum : Nat → Bool} (h45 : alnum 45 = false) {p : Parser} (hb : Built alnum p)
    {heap : List (List Txt)} (ho : OwnLists p.opts heap) {is : List Item} {gs : List Given} {ws : List Txt}
    (h : MeansAll (optsH p) p.shorts p.cmds false is gs ws) (prog : Txt) {t : Txt} (ht : Lacks (optsH p) p.shorts t) :
    parse pi p heap (prog :: (line is ++ [t])) = .error .argument := by
  have hok := optsH_ok (built_ok h45 hb) p.args p.cmds
  cases ht with
  | @long n t d hn h61 hk ht =>
    refine parse_fails h45 hb ho h prog (by simpa using hn) (fun s _ => ?_)
    rw [step_long]
    simp only [long, List.drop_succ_cons, List.drop_zero, takeWhile_key h61, hk, List.head?_nil]
    rw [if_neg ht, if_neg h61]
  | @short cs gs' c n t d hf hc hk ht =>
    obtain ⟨x, xs, e, hx⟩ := group_head hok.dash hf hc []
    refine parse_fails h45 hb ho h prog ?_ (fun s hs => step_group hok.dash hf hc hk ht [] none (.inr ⟨rfl, rfl⟩) s hs)
    rw [e]
    intro e2
    exact hx (List.cons.inj (List.cons.inj e2).2).1

/-- **C92** (partial). In a group of short options one that takes a value must be the first or the last. -/
theorem C92_middle_partial {alnum : Nat → Bool} (h45 : alnum 45 = false) {p : Parser} (hb : Built alnum p)
    {heap : List (List Txt)} (ho : OwnLists p.opts heap) {is : List Item} {gs : List Given} {ws : List Txt}
    (h : MeansAll (optsH p) p.shorts p.cmds false is gs ws) (prog : Txt) {cs ds : Txt} {gs' : List Given}
    (hf : Flags (optsH p) p.shorts cs gs') {c : Nat} {n : Txt} {ty : OTy} {d : Option Val} (hc : get p.shorts c = some n)
    (hk : get (optsH p) n = some ⟨ty, d⟩) (hty : ty ≠ .bool) (hcs : cs ≠ []) (hds : ds ≠ []) (more : List Txt) :
    parse pi p heap (prog :: (line is ++ (45 :: (cs ++ c :: ds)) :: more)) = .error .argument := by
  have hok := optsH_ok (built_ok h45 hb) p.args p.cmds
  obtain ⟨x, xs, e, hx⟩ := group_head hok.dash hf hc ds
  refine parse_fails h45 hb ho h prog ?_ (fun s hs => step_group hok.dash hf hc hk hty ds _ (.inl ⟨hcs, hds⟩) s hs)
  rw [e]
  intro e2
  exact hx (List.cons.inj (List.cons.inj e2).2).1

theorem place_cmd : ∀ (ws : List Txt) (gs : List Arg) (a : Args) (rest : List Txt), (place ws gs a rest).1.cmd = a.cmd
  | [], gs, a, rest => by simp [place]
  | w :: ws, [], a, rest => by rw [place_left]
  | w :: ws, g :: gs, a, rest => by
    cases hn : g.nargs with
    | one => simp only [place, hn]; rw [place_cmd]; rfl
    | many =>
      simp only [place, hn]
      rw [place_cmd]
      simp only [appendTo]
      split <;> rfl
    | star => simp only [place, hn]; rw [place_cmd]
    | other => simp only [place, hn]; rw [place_cmd]

/-- **C93** (partial: `C93_refuted_command`). What comes after `--` sets no option, whatever it looks like: all of it goes to the
positional arguments, after those before `--`. -/
theorem C93_end_partial {alnum : Nat → Bool} (h45 : alnum 45 = false) {p : Parser} (hb : Built alnum p)
    {heap : List (List Txt)} (ho : OwnLists p.opts heap) {is : List Item} {gs : List Given} {ws : List Txt}
    (h : MeansAll (optsH p) p.shorts p.cmds false is gs ws) (tail : List Txt) (prog : Txt)
    (hopt : ∀ g ∈ p.args, get (optsH p) g.name = none) (hnames : (p.args.map Arg.name).Nodup) {m : Env}
    (hm : assignAll pi (start p heap) gs = some m)
    (hhelp : ¬ (get p.opts help = none ∧ m help = some (.bool, .bool true))) (hone : ∀ g ∈ p.args, g.nargs = .one)
    (hlen : p.args.length ≤ ws.length + tail.length) :
    ∃ a q, parse pi p heap (prog :: (line is ++ [45, 45] :: tail)) = .ok (a, q) ∧ a.cmd = none ∧
      (∀ (i : Nat) g w, p.args[i]? = some g → (ws ++ tail)[i]? = some w → view a g.name = some (.str, .str w)) ∧
      ∀ k, (∀ g ∈ p.args, g.name ≠ k) → view a k = m k := by
  obtain ⟨a, q, h1, h2, _, h4⟩ := (C91_singles h45 hb ho h (some tail) prog hopt hnames hm hhelp hone (ws ++ tail) rfl).2 (by
    rw [List.drop_of_length_le (by rw [List.length_append]; exact hlen)]
    intro g hg
    cases hg)
  refine ⟨a, q, h1, ?_, h2, h4⟩
  have pl := parse_line (pi := pi) h45 hb ho h (some tail) prog
  rw [start] at hm
  rw [hm] at pl
  obtain ⟨b, _, hs, hc, pl⟩ := pl
  have pl : parse pi p heap (prog :: (line is ++ ending (some tail))) = _ := pl
  rw [h1] at pl
  simp only at pl
  cases hk : checkHelp (get p.opts help).isNone (finish (optsH p) p.shorts p.args ⟨b, ws ++ tail, p.cmds⟩) with
  | error x => rw [Option.getD_some, hk] at pl; cases pl
  | ok u =>
    rw [Option.getD_some, hk] at pl
    cases hk2 : checkArgs (finish (optsH p) p.shorts p.args ⟨b, ws ++ tail, p.cmds⟩) with
    | error x => rw [hk2] at pl; cases pl
    | ok u =>
      rw [hk2] at pl
      cases pl
      rw [← hc]
      exact (place_cmd _ _ _ _)

/-! ## Examples -/

/-- Letters and digits of ASCII. -/
def ascii (c : Nat) : Bool := (48 ≤ c && c ≤ 57) || (65 ≤ c && c ≤ 90) || (97 ≤ c && c ≤ 122)

/-- Numbers of one digit. -/
def digit : Txt → Option Int
  | [c] => if 48 ≤ c ∧ c ≤ 57 then some (c - 48) else none
  | _ => none

/-- "vb", a flag. -/
def sV : Txt := [118, 98]
/-- "nm", a string. -/
def sN : Txt := [110, 109]
/-- "lv", a number. -/
def sL : Txt := [108, 118]
/-- "tg", a list of strings. -/
def sT : Txt := [116, 103]
/-- "fl", a positional argument. -/
def sF : Txt := [102, 108]
/-- "cm", a command. -/
def sC : Txt := [99, 109]
/-- "x". -/
def sX : Txt := [120]

/-- A parser with a flag `-v`, a string `-n`, a number and a list whose default is the list 0. -/
def sample (args : List Arg) (cmds : Cmds) : Parser := .mk
  [(sV, ⟨.bool, some (.bool false)⟩), (sN, ⟨.str, none⟩), (sL, ⟨.int, some (.int 1)⟩), (sT, ⟨.strlist, some (.list 0)⟩)]
  [(118, sV), (110, sN)] args cmds

theorem sample_built : Built ascii (sample [] .nil) :=
  .option (n := sT) (t := .strlist) (d := some (.list 0)) (s := none) (.option (n := sL) (t := .int) (d := some (.int 1)) (s := none)
    (.option (n := sN) (t := .str) (d := none) (s := some [110]) (.bool (n := sV) (s := some [118]) .empty rfl) rfl) rfl) rfl

/-- The sample with a required positional argument. -/
def sample1 : Parser := sample [⟨sF, true, .one⟩] .nil

theorem sample1_built : Built ascii sample1 := .arg (n := sF) (r := true) (k := .one) sample_built rfl

theorem sample_own (args : List Arg) (cmds : Cmds) (l : List Txt) : OwnLists (sample args cmds).opts [l] := by
  have key : ∀ k t r, get (sample args cmds).opts k = some ⟨t, some (.list r)⟩ → k = sT ∧ r = 0 := by
    intro k t r h
    simp only [sample, Parser.opts, get] at h
    split at h
    · simp at h
    · split at h
      · simp at h
      · split at h
        · simp at h
        · split at h
          · rename_i e
            simp only [Option.some.injEq, Spec.mk.injEq, Val.list.injEq] at h
            exact ⟨e.symm, h.2.symm⟩
          · cases h
  intro k t r h
  obtain ⟨rfl, rfl⟩ := key k t r h
  exact ⟨by simp, fun k' t' h' => (key k' t' 0 h').1⟩

/-- `-v --nm=x --lv 5 x`. -/
def items : List Item := [.flags [118], .longEq sN sX, .longSep sL [53], .raw sX]

theorem items_mean (args : List Arg) : MeansAll (optsH (sample args .nil)) (sample args .nil).shorts (sample args .nil).cmds false items
    [⟨sV, .bool, []⟩, ⟨sN, .str, sX⟩, ⟨sL, .int, [53]⟩] [sX] :=
  .cons (g := [⟨sV, .bool, []⟩]) (w := [])
    (.flags (by simp) (.cons (d := some (.bool false)) (by rfl) (by rfl) .nil))
    (.cons (g := [⟨sN, .str, sX⟩]) (w := []) (.longEq (d := none) (by decide) (by rfl) (by decide))
      (.cons (g := [⟨sL, .int, [53]⟩]) (w := []) (.longSep (d := some (.int 1)) (by decide) (by decide) (by rfl) (by decide))
        (.cons (g := []) (w := [sX]) (.raw (.word (by decide) (fun _ => rfl))) .nil)))

/-- C90, C91: the hypotheses are met, and the result is as expected. -/
example : ∃ m, assignAll digit (start sample1 [[sX]]) [⟨sV, .bool, []⟩, ⟨sN, .str, sX⟩, ⟨sL, .int, [53]⟩] = some m ∧
    ∃ a q, parse digit sample1 [[sX]] (sX :: (line items ++ ending none)) = .ok (a, q) ∧ view a sF = some (.str, .str sX) ∧
      view a sL = some (.int, .int 5) := by
  refine ⟨_, rfl, ?_⟩
  obtain ⟨a, q, h1, h2, _, h4⟩ := (C91_singles (pi := digit) (by decide) sample1_built (sample_own _ _ [sX])
    (items_mean [⟨sF, true, .one⟩]) none sX (by decide) (by decide) rfl (by decide) (by decide) [sX] rfl).2 (by decide)
  exact ⟨a, q, h1, h2 0 _ _ rfl rfl, h4 sL (by decide)⟩

/-- C91_many: `+` between two others. -/
example : ∃ a q, parse digit (sample [⟨sF, true, .many⟩, ⟨sX, true, .one⟩] .nil) [[sX]]
    (sX :: (line items ++ ending (some [[49], [45, 50]]))) = .ok (a, q) ∧ view a sF = some (.strlist, .list [sX, [49]]) ∧
      view a sX = some (.str, .str [45, 50]) := by
  obtain ⟨a, q, h1, _, h2, h3, _⟩ := C91_many (pi := digit) (alnum := ascii) (by decide)
    (p := sample [⟨sF, true, .many⟩, ⟨sX, true, .one⟩] .nil)
    (.arg (n := sX) (r := true) (k := .one) (.arg (n := sF) (r := true) (k := .many) sample_built rfl) rfl)
    (sample_own _ _ [sX]) (items_mean _) (some [[49], [45, 50]]) sX (by decide) (by decide) rfl (by decide)
    (pre := []) (g := ⟨sF, true, .many⟩) (post := [⟨sX, true, .one⟩]) rfl rfl (by decide) (by decide) (xs := []) (ys := [sX, [49]])
    (zs := [[45, 50]]) rfl rfl (by decide) rfl
  exact ⟨a, q, h1, h2, h3 0 _ _ rfl rfl⟩

/-- C91_few: nothing is left for the last one. -/
example : parse digit (sample [⟨sF, true, .many⟩, ⟨sX, true, .one⟩] .nil) [[sX]] (sX :: (line items ++ ending none)) =
    .error .argument :=
  (C91_few (pi := digit) (alnum := ascii) (by decide)
    (p := sample [⟨sF, true, .many⟩, ⟨sX, true, .one⟩] .nil)
    (.arg (n := sX) (r := true) (k := .one) (.arg (n := sF) (r := true) (k := .many) sample_built rfl) rfl)
    (sample_own _ _ [sX]) (items_mean _) none sX (by decide) (by decide) rfl (by decide)
    (pre := []) (g := ⟨sF, true, .many⟩) (post := [⟨sX, true, .one⟩]) rfl rfl (by decide) (by decide) [sX] rfl (by decide) _ rfl).1
    (by decide)

/-- C91_required: a line that is parsed. -/
example : ∃ a q, parse digit sample1 [[]] [sX, sX] = .ok (a, q) := ⟨_, _, rfl⟩

/-- C92_missing_partial, C92_middle_partial: `--nm`, `-vn`, `-vnx`. -/
example : parse digit sample1 [[]] (sX :: (line items ++ [45 :: 45 :: sN])) = .error .argument ∧
    parse digit sample1 [[]] (sX :: (line items ++ [[45, 118, 110]])) = .error .argument ∧
    parse digit sample1 [[]] (sX :: (line items ++ [[45, 118, 110, 120]])) = .error .argument :=
  ⟨C92_missing_partial (by decide) sample1_built (sample_own _ _ []) (items_mean _) sX
      (.long (t := .str) (d := none) (by decide) (by decide) (by rfl) (by decide)),
    C92_missing_partial (by decide) sample1_built (sample_own _ _ []) (items_mean _) sX
      (.short (cs := [118]) (c := 110) (n := sN) (t := .str) (d := none) (.cons (d := some (.bool false)) (by rfl) (by rfl) .nil)
        (by rfl) (by rfl) (by decide)),
    C92_middle_partial (by decide) sample1_built (sample_own _ _ []) (items_mean _) sX (cs := [118]) (c := 110) (ds := [120])
      (n := sN) (ty := .str) (d := none) (.cons (d := some (.bool false)) (by rfl) (by rfl) .nil)
      (by rfl) (by rfl) (by decide) (by decide) (by decide) []⟩

/-- C93_end_partial: `-v … x -- -v`. -/
example : ∃ a q, parse digit (sample [⟨sF, true, .one⟩, ⟨sX, true, .one⟩] .nil) [[]]
    (sX :: (line items ++ [45, 45] :: [[45, 45, 104, 101, 108, 112]])) = .ok (a, q) ∧
      view a sX = some (.str, .str [45, 45, 104, 101, 108, 112]) := by
  obtain ⟨a, q, h1, _, h2, _⟩ := C93_end_partial (pi := digit) (alnum := ascii) (by decide)
    (p := sample [⟨sF, true, .one⟩, ⟨sX, true, .one⟩] .nil)
    (.arg (n := sX) (r := true) (k := .one) (.arg (n := sF) (r := true) (k := .one) sample_built rfl) rfl)
    (sample_own _ _ []) (items_mean _) [[45, 45, 104, 101, 108, 112]] sX (by decide) (by decide) rfl (by decide) (by decide) (by decide)
  exact ⟨a, q, h1, h2 1 _ _ rfl rfl⟩

/-- C92_exceptions_partial, C92_plain_partial: a line that fails. -/
example : parse digit sample1 [[]] [sX] = .error .argument := rfl

/-- The parser of a command with an option `--xx`, `-o` that takes a string. -/
def child : Parser := .mk [([120, 120], ⟨.str, none⟩)] [(111, [120, 120])] [] .nil

theorem child_built : Built ascii child := .option (n := [120, 120]) (t := .str) (d := none) (s := some [111]) .empty rfl

/-- The sample with a command. -/
def sampleC : Parser := sample [] (.cons sC 7 child .nil)

theorem sampleC_built : Built ascii sampleC := .cmd (n := sC) (f := 7) sample_built child_built

/-- C94_command_partial: `-v cm --xx 5 --nm=x`. -/
example : ∃ a q, parse digit sampleC [[]] (sX :: (line [.flags [118]] ++ sC :: [[45, 45, 120, 120], [53], [45, 45, 110, 109, 61, 120]])) =
    .ok (a, q) ∧ a.cmd = some 7 ∧ view a [120, 120] = some (.str, .str [53]) ∧ view a sN = some (.str, .str sX) := by
  have := C94_command_partial (pi := digit) (alnum := ascii) (by decide) (p := sampleC) (c := child) sampleC_built (heap := [[]])
    ⟨sample_own _ _ [], by
      intro k t r h
      simp only [child, Parser.opts, get] at h
      split at h <;> simp at h, by
      intro k t r k' t' h
      simp only [child, Parser.opts, get] at h
      split at h <;> simp at h⟩
    (is1 := [.flags [118]]) (gs1 := [⟨sV, .bool, []⟩])
    (.cons (g := [⟨sV, .bool, []⟩]) (w := []) (.flags (by simp) (.cons (d := some (.bool false)) (by rfl) (by rfl) .nil)) .nil)
    (n := sC) (f := 7) (by rfl) (by decide) (argv := [[45, 45, 120, 120], [53], [45, 45, 110, 109, 61, 120]])
    (gs2 := [⟨sN, .str, sX⟩]) (hs := [⟨[120, 120], .str, [53]⟩]) (ws := [])
    (.theirs (j := .longSep [120, 120] [53]) (g := [⟨[120, 120], .str, [53]⟩]) (w := [])
      (.longSep (d := none) (by decide) (by decide) (by rfl) (by decide))
      (by
        intro t ht
        simp only [Item.args, List.mem_cons, List.not_mem_nil, or_false] at ht
        rcases ht with rfl | rfl
        · exact .long (n := [120, 120]) (by decide) ⟨by decide, .inl rfl⟩ rfl
        · exact .word (by decide) (by decide))
      (.mine (i := .longEq sN sX) (g := [⟨sN, .str, sX⟩]) (.longEq (d := none) (by decide) (by rfl) (by decide)) .nil)) sX
  obtain ⟨a, q, h1, h2, h3⟩ := this.2 rfl rfl (fun _ => rfl)
  exact ⟨a, q, h1, h3, by rw [h2]; rfl, by rw [h2]; rfl⟩

/-- C95_again_partial: a parser with `--help` of its own and a command. -/
example : Simple (.mk [(help, ⟨.bool, some (.bool false)⟩), (sN, ⟨.str, some (.str sX)⟩)] [] [] (.cons sC 7 child .nil)) := by
  refine .mk (by decide) ?_ ?_
  · intro k t r h
    simp only [get] at h
    split at h
    · simp at h
    · split at h <;> simp at h
  · intro n f c h
    simp only [Cmds.get] at h
    split at h
    · simp only [Option.some.injEq, Prod.mk.injEq] at h
      rw [← h.2]
      refine .mk (by decide) ?_ (by intro n f c h; simp [Cmds.get] at h)
      intro k t r h
      simp only [get] at h
      split at h <;> simp at h
    · cases h

/-! ## Where the code does something else -/

/-- **C91** fails for commands: a required positional argument of a command may be missing (lines 418-420 look only at the arguments
of the parser itself). -/
theorem C91_refuted_command : ∃ a q, parse digit (.mk [] [] [] (.cons sC 7 (.mk [] [] [⟨sF, true, .one⟩] .nil) .nil)) [] [sX, sC] =
    .ok (a, q) ∧ a.cmd = some 7 ∧ view a sF = none := ⟨_, _, rfl, rfl, rfl⟩

/-- **C91** fails for `nargs="*"`, which `add_arg` and the documentation allow: its values are dropped (lines 615-629). -/
theorem C91_refuted_star : Built ascii (.mk [] [] [⟨sF, false, .star⟩] .nil) ∧
    ∃ a q, parse digit (.mk [] [] [⟨sF, false, .star⟩] .nil) [] [sX, [49], [50]] = .ok (a, q) ∧ view a sF = none :=
  ⟨.arg (n := sF) (r := false) (k := .star) .empty rfl, _, _, rfl, rfl⟩

/-- **C92** fails: an unknown option is accepted, and so is an argument too many. -/
theorem C92_refuted_unknown : Built ascii empty ∧ ∃ a b, parse digit empty [] [sX, [45, 45, 120]] = .ok a ∧
    parse digit empty [] [sX, sX] = .ok b := ⟨.empty, _, _, rfl, rfl⟩

/-- **C92** fails: a value for a flag is accepted and ignored: `--vb=0` sets it. -/
theorem C92_refuted_flag : ∃ a q, parse digit (sample [] .nil) [[]] [sX, [45, 45, 118, 98, 61, 48]] = .ok (a, q) ∧
    view a sV = some (.bool, .bool true) := ⟨_, _, rfl, rfl⟩

/-- **C92** fails: with a positional argument `help` every line with a word raises ValueError. -/
theorem C92_refuted_value : Built ascii (.mk [] [] [⟨help, true, .one⟩] .nil) ∧
    parse digit (.mk [] [] [⟨help, true, .one⟩] .nil) [] [sX, sX] = .error .value :=
  ⟨.arg (n := help) (r := true) (k := .one) .empty rfl, rfl⟩

/-- **C92** fails: without program name there is an IndexError. -/
theorem C92_refuted_index : parse digit empty [] [] = .error .index := rfl

/-- **C93** fails with a command: after `cm --`, `--xx=5` is an option of the command. -/
theorem C93_refuted_command : ∃ a q, parse digit sampleC [[]] [sX, sC, [45, 45], [45, 45, 120, 120, 61, 53]] = .ok (a, q) ∧
    view a [120, 120] = some (.str, .str [53]) := ⟨_, _, rfl, rfl⟩

/-- **C94** fails: in `cm -oxvy` the value of the command's option `-o` loses the `v`, which sets the parser's flag `-v`. -/
theorem C94_refuted_value : ∃ a q, parse digit sampleC [[]] [sX, sC, [45, 111, 120, 118, 121]] = .ok (a, q) ∧
    view a [120, 120] = some (.str, .str [120, 121]) ∧ view a sV = some (.bool, .bool true) := ⟨_, _, rfl, rfl, rfl⟩

/-- **C94** fails: if an option of the command has the name of one of the parser, its default replaces the value given. -/
theorem C94_refuted_default : ∃ a q, parse digit (.mk [(sL, ⟨.int, some (.int 1)⟩)] [] []
      (.cons sC 7 (.mk [(sL, ⟨.int, some (.int 1)⟩)] [] [] .nil) .nil)) [] [sX, [45, 45, 108, 118, 61, 53], sC] = .ok (a, q) ∧
    view a sL = some (.int, .int 1) := ⟨_, _, rfl, rfl⟩

/-- **C94** fails: `cm --xx -v` is an error, since the value `-v` of the command's option is taken for an option of the parser;
`cm --xx=-v` is none. -/
theorem C94_refuted_dash : parse digit sampleC [[]] [sX, sC, [45, 45, 120, 120], [45, 118]] = .error .argument ∧
    ∃ a q, parse digit sampleC [[]] [sX, sC, [45, 45, 120, 120, 61, 45, 118]] = .ok (a, q) ∧
      view a [120, 120] = some (.str, .str [45, 118]) := ⟨rfl, _, _, rfl, rfl⟩

/-- **C95** fails: the positional arguments are gone after parsing (lines 613-631). The second time the value is dropped, and a
required one is not missed. -/
theorem C95_refuted_args : ∃ a q b r, parse digit sample1 [[]] [sX, sX] = .ok (a, q) ∧ view a sF = some (.str, .str sX) ∧
    parse digit q a.heap [sX, sX] = .ok (b, r) ∧ view b sF = none := ⟨_, _, _, _, rfl, rfl, rfl, rfl⟩

/-- **C95** fails: values are appended to the default list itself (lines 485-491), and are there the next time. -/
theorem C95_refuted_list : ∃ a q b r, parse digit (sample [] .nil) [[]] [sX, [45, 45, 116, 103, 61, 120]] = .ok (a, q) ∧
    view a sT = some (.strlist, .list [sX]) ∧ parse digit q a.heap [sX] = .ok (b, r) ∧ view b sT = some (.strlist, .list [sX]) ∧
    start (sample [] .nil) [[]] sT = some (.strlist, .list []) := ⟨_, _, _, _, rfl, rfl, rfl, rfl, rfl⟩

/-- **C95** fails: `--help` is added the first time (lines 400-403) and stays, so that the second time it is taken for an option of the
program, and there is no usage. -/
theorem C95_refuted_help : parse digit (sample [] .nil) [[]] [sX, [45, 45, 104, 101, 108, 112]] = .error .usage ∧
    ∃ a q b r, parse digit (sample [] .nil) [[]] [sX] = .ok (a, q) ∧
      parse digit q a.heap [sX, [45, 45, 104, 101, 108, 112]] = .ok (b, r) := ⟨rfl, _, _, _, _, rfl, rfl⟩

/-- Does the argument take several values? -/
def several (g : Arg) : Bool := g.nargs = .many ∨ g.nargs = .star

/-- **C91**: at most one argument of a parser takes several values, so that it is clear which one gets what is left over. -/
theorem C91_one_takes_several {alnum : Nat → Bool} {p : Parser} (hb : Built alnum p) : (p.args.filter several).length ≤ 1 := by
  induction hb with
  | empty => exact Nat.zero_le _
  | @bool p q n s _ hq ih =>
    obtain ⟨opts, shorts, args, cmds⟩ := p
    simp only [addBool] at hq
    cases e : addShort alnum shorts n s with
    | error e' => rw [e] at hq; cases hq
    | ok q' => rw [e] at hq; cases hq; exact ih
  | @option p q n t d s _ hq ih =>
    obtain ⟨opts, shorts, args, cmds⟩ := p
    simp only [addOption] at hq
    cases eo : get opts n with
    | some s => rw [eo] at hq; cases hq
    | none =>
      rw [eo] at hq
      cases t with
      | bool => cases hq
      | int | str | strlist =>
        cases e : addShort alnum shorts n s with
        | error e' => simp only at hq; rw [e] at hq; cases hq
        | ok q' => simp only at hq; rw [e] at hq; cases hq; exact ih
  | @arg p q n r k _ hq ih =>
    obtain ⟨opts, shorts, args, cmds⟩ := p
    simp only [addArg] at hq
    by_cases hc : (k = .many ∨ k = .star) ∧ ∃ a ∈ args, a.nargs = .many ∨ a.nargs = .star
    · rw [if_pos hc] at hq; cases hq
    · rw [if_neg hc] at hq
      cases hq
      simp only [Parser.args] at ih ⊢
      rw [List.filter_append, List.length_append]
      by_cases hk : k = .many ∨ k = .star
      · have h0 : args.filter several = [] := by
          rw [List.filter_eq_nil_iff]
          intro a ha hs
          exact hc ⟨hk, a, ha, by simpa [several] using hs⟩
        rw [h0]
        exact Nat.le_trans (Nat.add_le_add_left (List.length_filter_le _ _) _) (by simp)
      · have h0 : [(⟨n, r, k⟩ : Arg)].filter several = [] := by
          rw [List.filter_eq_nil_iff]
          intro a ha hs
          rw [List.mem_singleton] at ha
          subst ha
          exact hk (by simpa [several] using hs)
        rw [h0]
        exact ih
  | @cmd p c n f _ _ ih _ =>
    obtain ⟨opts, shorts, args, cmds⟩ := p
    exact ih

example : Built ascii (.mk [] [] [⟨sF, false, .star⟩] .nil) := C91_refuted_star.1

end Verif.Argparse
