import Verif.Argparse.Props
/-!
# C92 to C94: what is rejected, the end of the options, commands
-/
namespace Verif.Argparse

variable {pi : Txt → Option Int}

/-! ## C94 -/

/-- Options of a parser and of the parser `c` of a command, mixed: `argv` are the arguments, `gs` the options of the parser,
`hs` those of the command, `ws` the other arguments. -/
inductive Mix (p c : Parser) : List Txt → List Given → List Given → List Txt → Prop
  | nil : Mix p c [] [] [] []
  | mine {i g argv gs hs ws} : Means (optsH p) p.shorts p.cmds true i g [] → Mix p c argv gs hs ws →
      Mix p c (i.args ++ argv) (g ++ gs) hs ws
  | theirs {j g w argv gs hs ws} : Means c.opts c.shorts c.cmds false j g w →
      (∀ t ∈ j.args, Unknown (optsH p) p.shorts p.cmds true t) → Mix p c argv gs hs ws →
      Mix p c (j.args ++ argv) gs (g ++ hs) (w ++ ws)

theorem mk_opts (o s a c) : (Parser.mk o s a c).opts = o := rfl
theorem mk_shorts (o s a c) : (Parser.mk o s a c).shorts = s := rfl
theorem mk_args (o s a c) : (Parser.mk o s a c).args = a := rfl
theorem mk_cmds (o s a c) : (Parser.mk o s a c).cmds = c := rfl

/-- Arguments that are passed on. -/
theorem raws {opts : List (Txt × Spec)} {shorts : List (Nat × Txt)} {cmds : Cmds} {sel : Bool} {is : List Item}
    {gs : List Given} {ws : List Txt} (h : MeansAll opts shorts cmds sel is gs ws) : ∀ (ts : List Txt),
    (∀ t ∈ ts, Unknown opts shorts cmds sel t) →
    ∃ is', line is' = ts ++ line is ∧ MeansAll opts shorts cmds sel is' gs (ts ++ ws)
  | [], _ => ⟨is, rfl, h⟩
  | t :: ts, hu => by
    obtain ⟨is', h1, h2⟩ := raws h ts (fun t' ht => hu t' (by simp [ht]))
    refine ⟨.raw t :: is', ?_, ?_⟩
    · rw [show line (.raw t :: is') = t :: line is' from rfl, h1]
      rfl
    · exact .cons (.raw (hu t (by simp))) h2

theorem mix_split {p c : Parser} {argv : List Txt} {gs hs : List Given} {ws : List Txt} (h : Mix p c argv gs hs ws) :
    ∃ is js, line is = argv ∧ MeansAll (optsH p) p.shorts p.cmds true is gs (line js) ∧
      MeansAll c.opts c.shorts c.cmds false js hs ws := by
  induction h with
  | nil => exact ⟨[], [], rfl, .nil, .nil⟩
  | @mine i g argv gs hs ws hi _ ih =>
    obtain ⟨is, js, h1, h2, h3⟩ := ih
    refine ⟨i :: is, js, ?_, .cons hi h2, h3⟩
    rw [← h1]
    rfl
  | @theirs j g w argv gs hs ws hj hu _ ih =>
    obtain ⟨is, js, h1, h2, h3⟩ := ih
    obtain ⟨is', h4, h5⟩ := raws h2 j.args hu
    refine ⟨is', j :: js, by rw [h4, h1], h5, .cons hj h3⟩

theorem runCmd_get {cmds : Cmds} {n : Txt} {f : Nat} {c : Parser} (h : cmds.get n = some (f, c)) (argv : List Txt) (a : Args) :
    match consume pi c argv a with
    | .error e => runCmd pi cmds n argv a = .error e
    | .ok o => ∃ cs, runCmd pi cmds n argv a = .ok ⟨o.res, o.rest, cs⟩ := by
  match cmds with
  | .nil => simp [Cmds.get] at h
  | .cons n0 f0 p0 r =>
    simp only [Cmds.get] at h
    by_cases e : n0 = n
    · rw [if_pos e] at h
      cases h
      rw [runCmd, if_pos e]
      cases consume pi c argv a with
      | error x => rfl
      | ok o => exact ⟨_, rfl⟩
    · rw [if_neg e] at h
      have ih := runCmd_get h argv a
      rw [runCmd, if_neg e]
      cases hc : consume pi c argv a with
      | error x => rw [hc] at ih; simp only at ih ⊢; rw [ih]
      | ok o =>
        rw [hc] at ih
        obtain ⟨cs, ih⟩ := ih
        simp only
        rw [ih]
        exact ⟨_, rfl⟩

theorem assignAll_bind (m : Env) (gs hs : List Given) :
    assignAll pi m (gs ++ hs) = (assignAll pi m gs).bind fun m' => assignAll pi m' hs := assignAll_append pi m gs hs

theorem view_cmd (a : Args) (c : Option Nat) : view { a with cmd := c } = view a := rfl

/-- The loop over a line with a command. -/
theorem scan_cmd {opts : List (Txt × Spec)} {shorts : List (Nat × Txt)} {args : List Arg} {cmds : Cmds}
    (hok : Ok (.mk opts shorts args cmds)) {a : Args} (hs : Sep a) (ho : OwnLists opts a.heap)
    (hf : ∀ k t r, get opts k = some ⟨t, some (.list r)⟩ → Fresh r a)
    {is1 is2 : List Item} {gs1 gs2 : List Given} {ws : List Txt} (h1 : MeansAll opts shorts cmds false is1 gs1 [])
    {n : Txt} {f : Nat} {c : Parser} (hn : cmds.get n = some (f, c)) (hn45 : n.head? ≠ some 45)
    (h2 : MeansAll opts shorts cmds true is2 gs2 ws) :
    match assignAll pi (argDefs args (defaults opts a.heap (view a))) (gs1 ++ gs2) with
    | none => scan pi opts shorts args cmds (line is1 ++ n :: line is2) a = .error .argument
    | some m => ∃ a', view a' = m ∧ Sep a' ∧ a'.cmd = some f ∧
        (∀ r, Fresh r a → (∀ k t, get opts k ≠ some ⟨t, some (.list r)⟩) → Fresh r a' ∧ a'.heap[r]? = a.heap[r]?) ∧
        scan pi opts shorts args cmds (line is1 ++ n :: line is2) a = .ok ⟨a', ws, some n⟩ := by
  obtain ⟨s1, s2, s3, s4⟩ := start_next (opts := opts) args hok.nodup hs ho hf
  have hl := loop_items (pi := pi) (shorts := shorts) hok.dash h1 (line is1 ++ n :: line is2) (n :: line is2)
    (line is1 ++ n :: line is2).length 0 ⟨argDefaults args (optDefaults opts a), [], none⟩ rfl s2 rfl (by omega)
  simp only at hl
  simp only [scan]
  rw [← s1, assignAll_append]
  cases e1 : assignAll pi (view (argDefaults args (optDefaults opts a))) gs1 with
  | none =>
    rw [e1] at hl
    exact hl
  | some m1 =>
    rw [e1] at hl
    obtain ⟨a1, n1, p1, x1, d1, l1, hl⟩ := hl
    simp only [Option.bind_some]
    obtain ⟨n2, d2, l2, hl2⟩ := loop_cmd (pi := pi) (opts := opts) (shorts := shorts) _ _ n1 p1
      ⟨a1, [] ++ [], none⟩ hn hn45 rfl d1 l1
    have sepc : Sep { a1 with cmd := some f } := x1.sep
    have hl3 := loop_items (pi := pi) (shorts := shorts) hok.dash h2 (line is1 ++ n :: line is2) [] n2 (p1 + 1)
      ⟨{ a1 with cmd := some f }, [] ++ [], some n⟩ rfl sepc (by rw [List.append_nil]; exact d2) l2
    simp only at hl3
    rw [view_cmd, x1.view] at hl3
    cases e2 : assignAll pi m1 gs2 with
    | none =>
      rw [e2] at hl3
      simp only at hl3 ⊢
      rw [hl, hl2, hl3]
    | some m =>
      rw [e2] at hl3
      obtain ⟨a2, n3, p3, x2, d3, l3, hl3⟩ := hl3
      refine ⟨a2, x2.view, x2.sep, x2.cmd, ?_, ?_⟩
      · intro r hr hr'
        obtain ⟨f1, f2⟩ := s4 r hr hr'
        obtain ⟨f3, f4⟩ := x1.frame r f1
        have f3' : Fresh r { a1 with cmd := some f } := f3
        obtain ⟨f5, f6⟩ := x2.frame r f3'
        exact ⟨f5, by rw [f6]; exact f4.trans f2⟩
      · rw [hl, hl2, hl3, loop_ending _ none n3 p3 _ d3 l3]
        simp

/-- The lists of the parser `c` of a command are not those of the parser. -/
def OwnLists2 (p c : Parser) (heap : List (List Txt)) : Prop :=
  OwnLists p.opts heap ∧ OwnLists c.opts heap ∧
  ∀ k t r k' t', get c.opts k = some ⟨t, some (.list r)⟩ → get p.opts k' ≠ some ⟨t', some (.list r)⟩

theorem built_cmd {alnum : Nat → Bool} {p : Parser} (h : Built alnum p) : ∀ {n f c}, p.cmds.get n = some (f, c) →
    Built alnum c := by
  induction h with
  | empty => intro n f c h; simp [empty, Parser.cmds, Cmds.get] at h
  | @bool p q n s _ hq ih =>
    intro n' f c h
    refine ih (n := n') (f := f) ?_
    obtain ⟨opts, shorts, args, cmds⟩ := p
    simp only [addBool] at hq
    cases e : addShort alnum shorts n s with
    | error e' => rw [e] at hq; cases hq
    | ok q' => rw [e] at hq; cases hq; exact h
  | @option p q n t d s _ hq ih =>
    intro n' f c h
    refine ih (n := n') (f := f) ?_
    obtain ⟨opts, shorts, args, cmds⟩ := p
    simp only [addOption] at hq
    cases eo : get opts n with
    | some s => rw [eo] at hq; cases hq
    | none =>
      rw [eo] at hq
      cases t with
      | bool => cases hq
      | int | str | strlist =>
        cases e : addShort alnum shorts n s with
        | error e' => simp only at hq; rw [e] at hq; cases hq
        | ok q' => simp only at hq; rw [e] at hq; cases hq; exact h
  | @arg p q n r k _ hq ih =>
    intro n' f c h
    refine ih (n := n') (f := f) ?_
    obtain ⟨opts, shorts, args, cmds⟩ := p
    simp only [addArg] at hq
    split at hq
    · cases hq
    · cases hq; exact h
  | @cmd p c0 n0 f0 _ hc ih _ =>
    intro n f c h
    obtain ⟨opts, shorts, args, cmds⟩ := p
    simp only [addCmd, Parser.cmds] at h ih
    have key : ∀ (cs : Cmds), (cs.put n0 f0 c0).get n = some (f, c) → (n = n0 ∧ c = c0) ∨ cs.get n = some (f, c) := by
      intro cs
      induction cs using Cmds.rec (motive_1 := fun _ => True) with
      | mk => trivial
      | nil =>
        intro h
        simp only [Cmds.put, Cmds.get] at h
        by_cases e : n0 = n
        · rw [if_pos e] at h; cases h; exact .inl ⟨e.symm, rfl⟩
        · rw [if_neg e] at h; cases h
      | cons x g p r _ ih =>
        intro h
        simp only [Cmds.put] at h
        by_cases e0 : x = n0
        · rw [if_pos e0] at h
          simp only [Cmds.get] at h ⊢
          by_cases e : x = n
          · rw [if_pos e] at h; cases h; exact .inl ⟨e.symm.trans e0, rfl⟩
          · rw [if_neg e] at h ⊢; exact .inr h
        · rw [if_neg e0] at h
          simp only [Cmds.get] at h ⊢
          by_cases e : x = n
          · rw [if_pos e] at h ⊢; exact .inr h
          · rw [if_neg e] at h ⊢; exact ih h
    rcases key cmds h with ⟨_, rfl⟩ | h'
    · exact hc
    · exact ih h'

/-- **C94** (partial: `C94_refuted_value`, `C94_refuted_default`, `C94_refuted_dash`). Options of the parser before the command,
then the command, then options of both in any order: both are set as they are given, and the command is chosen. The
names of the command's options, its short options and its separate values must not look like options of the parser. -/
theorem C94_command_partial {alnum : Nat → Bool} (h45 : alnum 45 = false) {p c : Parser} (hb : Built alnum p)
    {heap : List (List Txt)} (ho : OwnLists2 p c heap) {is1 : List Item} {gs1 : List Given}
    (h1 : MeansAll (optsH p) p.shorts p.cmds false is1 gs1 []) {n : Txt} {f : Nat} (hn : p.cmds.get n = some (f, c))
    (hn45 : n.head? ≠ some 45) {argv : List Txt} {gs2 hs : List Given} {ws : List Txt} (h2 : Mix p c argv gs2 hs ws)
    (prog : Txt) :
    match (assignAll pi (start p heap) (gs1 ++ gs2)).bind
      (fun m => assignAll pi (argDefs c.args (defaults c.opts heap m)) hs) with
    | none => parse pi p heap (prog :: (line is1 ++ n :: argv)) = .error .argument
    | some m =>
      (∀ a q, parse pi p heap (prog :: (line is1 ++ n :: argv)) = .ok (a, q) →
        a.cmd = some f ∧ ∀ k, (∀ g ∈ p.args, g.name ≠ k) → (∀ g ∈ c.args, g.name ≠ k) → view a k = m k) ∧
      (p.args = [] → c.args = [] → (get p.opts help = none → m help = some (.bool, .bool false)) →
        ∃ a q, parse pi p heap (prog :: (line is1 ++ n :: argv)) = .ok (a, q) ∧ view a = m ∧ a.cmd = some f) := by
  obtain ⟨is2, js, rfl, m2, m3⟩ := mix_split h2
  have hok := optsH_ok (built_ok h45 hb) p.args p.cmds
  have sc := scan_cmd (pi := pi) hok (a := ⟨[], heap, none⟩) (sep_empty _ _) (ownH ho.1)
    (fun k t r hk => ⟨(ownH ho.1 k t r hk).1, fun k' t' h' => by simp [get] at h'⟩) h1 hn hn45 m2
  rw [view_empty] at sc
  simp only at sc
  have pe : parse pi p heap (prog :: (line is1 ++ n :: line is2)) = (do
      let o ← consume pi (.mk (optsH p) p.shorts p.args p.cmds) (line is1 ++ n :: line is2) ⟨[], heap, none⟩
      checkHelp (get p.opts help).isNone o
      checkArgs o
      .ok (o.res, o.after)) := by
    simp only [parse, withHelp_eq]
  rw [pe, start]
  cases ea : assignAll pi (argDefs p.args (defaults (optsH p) heap (fun _ => none))) (gs1 ++ gs2) with
  | none =>
    rw [ea] at sc
    simp only [Option.bind_none] at sc ⊢
    rw [consume, sc]
    rfl
  | some m1 =>
    rw [ea] at sc
    obtain ⟨a1, v1, sep1, c1, fr, sc⟩ := sc
    simp only [Option.bind_some]
    have pOwn : ∀ k t r, get c.opts k = some ⟨t, some (.list r)⟩ → Fresh r a1 ∧ a1.heap[r]? = heap[r]? := by
      intro k t r hk
      refine fr r ⟨(ho.2.1 k t r hk).1, fun k' t' h' => by simp [get] at h'⟩ (fun k' t' h' => ?_)
      simp only [optsH] at h'
      cases e : get p.opts help with
      | some _ => rw [e] at h'; exact ho.2.2 k t r k' t' hk h'
      | none =>
        rw [e] at h'
        simp only at h'
        rw [get_put] at h'
        by_cases ek : k' = help
        · rw [if_pos ek] at h'
          simp at h'
        · rw [if_neg ek] at h'
          exact ho.2.2 k t r k' t' hk h'
    have hbc := built_ok h45 (built_cmd hb hn)
    obtain ⟨copts, cshorts, cargs, ccmds⟩ := c
    simp only [mk_opts, mk_shorts, mk_args, mk_cmds] at pOwn m3 ⊢
    have ho2 : OwnLists copts heap := ho.2.1
    have sc2 := scan_line (pi := pi) (args := cargs) hbc (a := a1) sep1
      (fun k t r hk => ⟨(pOwn k t r hk).1.1, (ho2 k t r hk).2⟩) (fun k t r hk => (pOwn k t r hk).1) m3 none
    have ed : defaults copts a1.heap (view a1) = defaults copts heap m1 := by
      funext k
      simp only [defaults, v1]
      cases hk : get copts k with
      | none => rfl
      | some s =>
        obtain ⟨t, d⟩ := s
        cases d with
        | none => rfl
        | some v =>
          cases v with
          | list r => simp only [contents, (pOwn k t r hk).2]
          | _ => rfl
    rw [ed] at sc2
    have hrun := runCmd_get (pi := pi) hn (line js) a1
    simp only [ending, List.append_nil] at sc2
    cases e3 : assignAll pi (argDefs cargs (defaults copts heap m1)) hs with
    | none =>
      rw [e3] at sc2
      simp only at sc2 ⊢
      rw [consume, sc2] at hrun
      simp only at hrun
      rw [consume, sc]
      simp only
      rw [hrun]
      rfl
    | some m =>
      rw [e3] at sc2
      obtain ⟨a2, v2, sep2, c2, sc2⟩ := sc2
      rw [consume, sc2] at hrun
      obtain ⟨cs, hrun⟩ := hrun
      rw [consume, sc]
      simp only
      rw [hrun]
      simp only [finish, Option.getD_none, List.append_nil]
      have cmdKeep : ∀ (ws : List Txt) (gs : List Arg) (a : Args) (rest : List Txt),
          (place ws gs a rest).1.cmd = a.cmd ∧ (Sep a → Sep (place ws gs a rest).1) := by
        intro ws
        induction ws with
        | nil => intro gs a rest; exact ⟨rfl, id⟩
        | cons w ws ih =>
          intro gs a rest
          cases gs with
          | nil => simp only [place]; exact ih _ _ _
          | cons g gs =>
            cases hg : g.nargs with
            | one =>
              simp only [place, hg]
              obtain ⟨i1, i2⟩ := ih gs (a.set g.name .str (.str w)) rest
              exact ⟨i1, fun hs => i2 (next_set hs g.name .str (v := .str w) (by intro r h; cases h)).sep⟩
            | many =>
              simp only [place, hg]
              obtain ⟨i1, i2⟩ := ih (if ws.length = gs.length then gs else g :: gs) (appendTo a g.name w) rest
              have : (appendTo a g.name w).cmd = a.cmd := by
                simp only [appendTo]
                split <;> rfl
              exact ⟨i1.trans this, fun hs => i2 (next_append hs g.name w).sep⟩
            | star => simp only [place, hg]; exact ih _ _ _
            | other => simp only [place, hg]; exact ih _ _ _
      constructor
      · intro a q hp
        have hp : (do
            checkHelp (get p.opts help).isNone
              ⟨(place (place ws cargs a2 []).2.2 p.args (place ws cargs a2 []).1 []).1,
                (place (place ws cargs a2 []).2.2 p.args (place ws cargs a2 []).1 []).2.2,
                .mk (optsH p) p.shorts (place (place ws cargs a2 []).2.2 p.args (place ws cargs a2 []).1 []).2.1 cs⟩
            checkArgs
              ⟨(place (place ws cargs a2 []).2.2 p.args (place ws cargs a2 []).1 []).1,
                (place (place ws cargs a2 []).2.2 p.args (place ws cargs a2 []).1 []).2.2,
                .mk (optsH p) p.shorts (place (place ws cargs a2 []).2.2 p.args (place ws cargs a2 []).1 []).2.1 cs⟩
            Except.ok ((place (place ws cargs a2 []).2.2 p.args (place ws cargs a2 []).1 []).1,
              Parser.mk (optsH p) p.shorts (place (place ws cargs a2 []).2.2 p.args (place ws cargs a2 []).1 []).2.1 cs)) =
            .ok (a, q) := hp
        generalize hO : (⟨(place (place ws cargs a2 []).2.2 p.args (place ws cargs a2 []).1 []).1,
                (place (place ws cargs a2 []).2.2 p.args (place ws cargs a2 []).1 []).2.2,
                .mk (optsH p) p.shorts (place (place ws cargs a2 []).2.2 p.args (place ws cargs a2 []).1 []).2.1 cs⟩ : Outcome) = O
            at hp
        have hres : a = (place (place ws cargs a2 []).2.2 p.args (place ws cargs a2 []).1 []).1 := by
          cases h1 : checkHelp (get p.opts help).isNone O with
          | error x => rw [h1] at hp; cases hp
          | ok u =>
            rw [h1] at hp
            cases h2 : checkArgs O with
            | error x => rw [h2] at hp; cases hp
            | ok u =>
              rw [h2] at hp
              cases hp
              rfl
        obtain ⟨k1, k2⟩ := cmdKeep ws cargs a2 []
        obtain ⟨k3, _⟩ := cmdKeep (place ws cargs a2 []).2.2 p.args (place ws cargs a2 []).1 []
        refine ⟨by rw [hres, k3, k1, c2, c1], fun k hk1 hk2 => ?_⟩
        rw [hres, (place_other k _ p.args _ [] hk1 (k2 sep2)).1, (place_other k _ cargs _ [] hk2 sep2).1, v2]
      · intro hp hc hh
        subst hc
        rw [hp, place_left, place_left]
        have hcl : checkHelp (get p.opts help).isNone
            ⟨a2, [] ++ ([] ++ ws), .mk (optsH p) p.shorts [] cs⟩ = .ok () := by
          simp only [checkHelp]
          cases e : get p.opts help with
          | some _ => rfl
          | none =>
            have : view a2 help = some (.bool, .bool false) := by rw [v2, hh e]
            simp only [Option.isNone_none, if_pos, getBool_view this]
            rfl
        have hca : checkArgs ⟨a2, [] ++ ([] ++ ws), .mk (optsH p) p.shorts [] cs⟩ = .ok () := by
          simp [checkArgs, Parser.args]
        refine ⟨a2, .mk (optsH p) p.shorts [] cs, ?_, v2, by rw [c2, c1]⟩
        have : ∀ (x y : Except Err Unit), x = .ok () → y = .ok () → (do x; y; Except.ok (a2, Parser.mk (optsH p) p.shorts [] cs)) =
            (.ok (a2, Parser.mk (optsH p) p.shorts [] cs) : Except Err _) := by
          intro x y hx hy
          rw [hx, hy]
          rfl
        exact this _ _ hcl hca

end Verif.Argparse
