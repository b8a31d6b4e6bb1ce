import Verif.Deact.Model
/-!
# C139: the attributes of an actor are declared
-/
namespace Verif.Deact.Attrs

mutual
/-- The statements of the body of an actor (behind the normalizer), as far as they define names. `assign`
has a type if it is the first assignment in its scope (Types.hs:2543-2558); `fin` tells an `If` with the
condition `$PUSHF()`, the form of `try .. finally` (Normalizer.hs:287-291). -/
inductive Ini
  | assign (n : Name) (typed : Bool)
  | varAssign (n : Name)
  | other
  | stop
  | ite (bs : Bodies) (els : Inis) (fin : Bool)

inductive Inis
  | nil
  | cons (s : Ini) (ss : Inis)

/-- The branches of `If`, at least one. -/
inductive Bodies
  | one (b : Inis)
  | cons (b : Inis) (bs : Bodies)
end

mutual
/-- `fallsthru` (Env.hs:1316-1345): `stop` is `Return` or `$RAISE`. -/
def falls : Ini → Bool
  | .stop => false
  | .ite bs els _ => fallsAny bs || fallsAll els
  | _ => true
def fallsAll : Inis → Bool
  | .nil => true
  | .cons s ss => falls s && fallsAll ss
def fallsAny : Bodies → Bool
  | .one b => fallsAll b
  | .cons b bs => fallsAll b || fallsAny bs
end

mutual
/-- `bound`, here the same as `assigned` (Names.hs:217-239) -/
def bound : Ini → List Name
  | .assign n _ => [n]
  | .varAssign n => [n]
  | .ite bs els _ => boundb bs ++ bounds els
  | _ => []
def bounds : Inis → List Name
  | .nil => []
  | .cons s ss => bound s ++ bounds ss
def boundb : Bodies → List Name
  | .one b => bounds b
  | .cons b bs => bounds b ++ boundb bs
end

/-- The names of a branch, unless it does not fall through (`tail liveSuites`, QuickType.hs:436-440). -/
def keep (b : Inis) (l : List Name) : List Name := if fallsAll b then l.filter (· ∈ bounds b) else l

def keeps : Bodies → List Name → List Name
  | .one b, l => keep b l
  | .cons b bs, l => keeps bs (keep b l)

mutual
/-- The domain of `envOf` (QuickType.hs:425-440). -/
def dom : Ini → List Name
  | .assign n t => if t then [n] else []
  | .varAssign n => [n]
  | .ite bs els fin =>
    if fin then domFirst bs ++ doms els else domb els (doms els) bs
  | _ => []
def doms : Inis → List Name
  | .nil => []
  | .cons s ss => dom s ++ doms ss
/-- `envOf` of the branch of an `If` with one branch -/
def domFirst : Bodies → List Name
  | .one b => doms b
  | .cons b _ => doms b
/-- `commonEnvOf` of the branches and `else` (whose names are `l`): the names of the first that falls through, if
the others bind them. -/
def domb (els : Inis) (l : List Name) : Bodies → List Name
  | .one b => if fallsAll b then keep els (doms b) else if fallsAll els then l else []
  | .cons b bs => if fallsAll b then keep els (keeps bs (doms b)) else domb els l bs
end

/-- `foldr1 intersect` of the assigned names (Deactorizer.hs:157) -/
def common : Bodies → List Name
  | .one b => bounds b
  | .cons b bs => (bounds b).filter (· ∈ common bs)

mutual
/-- `props` (Deactorizer.hs:155-158) -/
def props (locals : List Name) : Ini → List Name
  | .assign n t => if t && decide (n ∈ locals) then [n] else []
  | .varAssign n => [n]
  | .ite bs els _ => (propss locals els).filter (· ∈ common bs)
  | _ => []
def propss (locals : List Name) : Inis → List Name
  | .nil => []
  | .cons s ss => props locals s ++ propss locals ss
end

/-- `statevars` (Names.hs:145) -/
def stvars : Inis → List Name
  | .cons (.varAssign n) ss => n :: stvars ss
  | .cons _ ss => stvars ss
  | .nil => []

/-- `locals` (Deactorizer.hs:143-149), without `NotImplemented`: parameters that methods mention, the names that
the body defines unless they are hidden and neither state variables nor mentioned in methods, the methods.
`fvs` are the free names of the methods, `hidden` is `isHidden`. -/
def locals (hidden : Name → Bool) (params fvs decls : List Name) (inits : Inis) : List Name :=
  (params.filter (· ∈ fvs) ++ (doms inits).filter (fun n => !hidden n || decide (n ∈ stvars inits ++ fvs)) ++ decls).dedup

/-- The declared attributes (Deactorizer.hs:153-165), without those of the methods. -/
def declared (hidden : Name → Bool) (params fvs decls : List Name) (inits : Inis) : List Name :=
  params.filter (· ∈ locals hidden params fvs decls inits) ++ propss (locals hidden params fvs decls inits) inits

/-- Assignments to a name in the body of the actor are assignments to an attribute if it is in `locals`
(Deactorizer.hs:101-103). -/
def attributes (hidden : Name → Bool) (params fvs decls : List Name) (inits : Inis) : List Name :=
  (bounds inits).filter (· ∈ locals hidden params fvs decls inits)

/-! ## The property -/

mutual
/-- There is no `try .. finally`, all branches fall through, and what an `else` assigns it defines. -/
def Even : Ini → Prop
  | .ite bs els fin => fin = false ∧ fallsAll els = true ∧ EvenB bs ∧ Evens els ∧ ∀ n ∈ bounds els, n ∈ doms els
  | _ => True
def Evens : Inis → Prop
  | .nil => True
  | .cons s ss => Even s ∧ Evens ss
def EvenB : Bodies → Prop
  | .one b => fallsAll b = true
  | .cons b bs => fallsAll b = true ∧ EvenB bs
end

mutual
theorem dom_bound : ∀ (s : Ini), ∀ n ∈ dom s, n ∈ bound s
  | .assign m t, n, h => by
    rw [dom] at h
    split at h
    · rw [bound]; exact h
    · cases h
  | .varAssign m, n, h => h
  | .other, n, h => h
  | .stop, n, h => h
  | .ite bs els fin, n, h => by
    rw [bound, List.mem_append]
    rw [dom] at h
    split at h
    · rcases List.mem_append.1 h with h | h
      · exact .inl (domFirst_bound bs n h)
      · exact .inr (doms_bound els n h)
    · exact domb_bound els _ (doms_bound els) bs n h
theorem doms_bound : ∀ (ss : Inis), ∀ n ∈ doms ss, n ∈ bounds ss
  | .nil, n, h => h
  | .cons s ss, n, h => by
    rw [doms, List.mem_append] at h
    rw [bounds, List.mem_append]
    exact h.imp (dom_bound s n) (doms_bound ss n)
theorem domFirst_bound : ∀ (bs : Bodies), ∀ n ∈ domFirst bs, n ∈ boundb bs
  | .one b, n, h => doms_bound b n h
  | .cons b bs, n, h => by
    rw [boundb, List.mem_append]
    exact .inl (doms_bound b n h)
theorem domb_bound (els : Inis) (l : List Name) (hl : ∀ n ∈ l, n ∈ bounds els) :
    ∀ (bs : Bodies), ∀ n ∈ domb els l bs, n ∈ boundb bs ∨ n ∈ bounds els
  | .one b, n, h => by
    rw [domb] at h
    rw [boundb]
    split at h
    · left
      unfold keep at h
      split at h
      · exact doms_bound b n (List.mem_filter.1 h).1
      · exact doms_bound b n h
    · split at h
      · exact .inr (hl n h)
      · cases h
  | .cons b bs, n, h => by
    rw [domb] at h
    rw [boundb, List.mem_append]
    split at h
    · have h1 : n ∈ keeps bs (doms b) := by
        unfold keep at h
        split at h
        · exact (List.mem_filter.1 h).1
        · exact h
      exact .inl (.inl (doms_bound b n (keeps_sub bs (doms b) n h1)))
    · rcases domb_bound els l hl bs n h with h | h
      · exact .inl (.inr h)
      · exact .inr h
theorem keeps_sub : ∀ (bs : Bodies) (l : List Name), ∀ n ∈ keeps bs l, n ∈ l
  | .one b, l, n, h => by
    rw [keeps, keep] at h
    split at h
    · exact (List.mem_filter.1 h).1
    · exact h
  | .cons b bs, l, n, h => by
    rw [keeps] at h
    have := keeps_sub bs _ n h
    rw [keep] at this
    split at this
    · exact (List.mem_filter.1 this).1
    · exact this
end

theorem keeps_common : ∀ (bs : Bodies) (l : List Name), EvenB bs → ∀ n ∈ keeps bs l, n ∈ common bs
  | .one b, l, he, n, h => by
    rw [EvenB] at he
    rw [keeps, keep, if_pos he] at h
    rw [common]
    simpa using (List.mem_filter.1 h).2
  | .cons b bs, l, he, n, h => by
    have h1 := keeps_common bs _ he.2 n h
    have h2 := keeps_sub bs _ n h
    rw [keep, if_pos he.1] at h2
    rw [common, List.mem_filter]
    exact ⟨by simpa using (List.mem_filter.1 h2).2, by simpa using h1⟩

mutual
theorem props_ok (locals : List Name) : ∀ (s : Ini), Even s → ∀ n ∈ dom s, n ∈ locals → n ∈ props locals s
  | .assign m t, _, n, h, hl => by
    rw [dom] at h
    split at h
    · next ht =>
      rw [List.mem_singleton] at h
      subst h
      rw [props, ht]
      simp [hl]
    · cases h
  | .varAssign m, _, n, h, _ => h
  | .other, _, n, h, _ => by cases h
  | .stop, _, n, h, _ => by cases h
  | .ite bs els fin, he, n, h, hl => by
    obtain ⟨rfl, h1, h2, h3, h4⟩ := he
    rw [dom] at h
    simp only [Bool.false_eq_true, if_false] at h
    have hn : n ∈ bounds els ∧ n ∈ common bs := by
      cases bs with
      | one b =>
        rw [EvenB] at h2
        rw [domb, if_pos h2, keep, if_pos h1, List.mem_filter] at h
        rw [common]
        exact ⟨by simpa using h.2, doms_bound b n h.1⟩
      | cons b bs =>
        rw [EvenB] at h2
        rw [domb, if_pos h2.1, keep, if_pos h1, List.mem_filter] at h
        refine ⟨by simpa using h.2, ?_⟩
        rw [common, List.mem_filter]
        exact ⟨doms_bound b n (keeps_sub bs _ n h.1), by simpa using keeps_common bs _ h2.2 n h.1⟩
    rw [props, List.mem_filter]
    exact ⟨propss_ok locals els h3 n (h4 n hn.1) hl, by simpa using hn.2⟩
theorem propss_ok (locals : List Name) : ∀ (ss : Inis), Evens ss → ∀ n ∈ doms ss, n ∈ locals → n ∈ propss locals ss
  | .nil, _, n, h, _ => by cases h
  | .cons s ss, he, n, h, hl => by
    rw [doms, List.mem_append] at h
    rw [propss, List.mem_append]
    rcases h with h | h
    · exact .inl (props_ok locals s he.1 n h hl)
    · exact .inr (propss_ok locals ss he.2 n h hl)
end

/-- **C139.** Each attribute that the body of an actor assigns is declared, if the `If`s of the body are even
and no method has the name of a variable. -/
theorem C139_partial (hidden : Name → Bool) (params fvs decls : List Name) (inits : Inis) (he : Evens inits)
    (hd : ∀ n ∈ bounds inits, n ∉ decls) :
    ∀ n ∈ attributes hidden params fvs decls inits, n ∈ declared hidden params fvs decls inits := by
  intro n hn
  rw [attributes, List.mem_filter, decide_eq_true_eq] at hn
  obtain ⟨hb, hl⟩ := hn
  rw [declared, List.mem_append, List.mem_filter, decide_eq_true_eq]
  by_cases hp : n ∈ params
  · exact .inl ⟨hp, hl⟩
  · refine .inr (propss_ok _ inits he n ?_ hl)
    rw [locals, List.mem_dedup, List.mem_append, List.mem_append, List.mem_filter, List.mem_filter] at hl
    rcases hl with (hl | hl) | hl
    · exact absurd hl.1 hp
    · exact hl.1
    · exact absurd hl (hd n hb)

/-- What a method mentions is an attribute, if the body of the actor defines it. -/
theorem C139_mentioned (hidden : Name → Bool) (params fvs decls : List Name) (inits : Inis) (n : Name) (hf : n ∈ fvs)
    (h : n ∈ params ∨ n ∈ doms inits ∨ n ∈ decls) : n ∈ locals hidden params fvs decls inits := by
  rw [locals, List.mem_dedup, List.mem_append, List.mem_append, List.mem_filter, List.mem_filter]
  rcases h with h | h | h
  · exact .inl (.inl ⟨h, by simpa using hf⟩)
  · exact .inl (.inr ⟨h, by simp [hf]⟩)
  · exact .inr h

/-- `var n = ..` is one of the statements of the body. -/
inductive HasVar (n : Name) : Inis → Prop
  | here {ss} : HasVar n (.cons (.varAssign n) ss)
  | there {s ss} : HasVar n ss → HasVar n (.cons s ss)

/-- State variables are attributes, hidden ones too. -/
theorem C139_variable (hidden : Name → Bool) (params fvs decls : List Name) (inits : Inis) (n : Name) (h : HasVar n inits) :
    n ∈ locals hidden params fvs decls inits := by
  have h1 : n ∈ stvars inits := by
    induction h with
    | here => simp [stvars]
    | @there s ss _ ih => cases s <;> simp [stvars, ih]
  have h2 : n ∈ doms inits := by
    clear h1
    induction h with
    | here => simp [doms, dom]
    | there _ ih => simp [doms, ih]
  rw [locals, List.mem_dedup, List.mem_append, List.mem_append, List.mem_filter, List.mem_filter]
  exact .inl (.inr ⟨h2, by simp [h1]⟩)

example : HasVar 3 (.cons (.assign 1 true) (.cons (.varAssign 3) .nil)) := .there .here

/-- `x = ..; if ..: y = .. elif ..: y = .. else: y = ..` -/
def evenInits : Inis := .cons (.assign 1 true) (.cons (.ite (.cons (.cons (.assign 2 true) .nil)
  (.one (.cons (.assign 2 true) .nil))) (.cons (.assign 2 true) .nil) false) .nil)

example : Evens evenInits ∧ (∀ n ∈ bounds evenInits, n ∉ [9]) := by
  refine ⟨?_, by decide⟩
  simp [evenInits, Evens, Even, EvenB, fallsAll, falls, bounds, bound, doms, dom]

example : attributes (fun _ => false) [] [] [9] evenInits = [1, 2, 2, 2] := by decide

/-- `if ..: y = .. else: raise ..`: `y` is assigned as an attribute that is not declared. -/
theorem C139_refuted_raise :
    let inits : Inis := .cons (.ite (.one (.cons (.assign 2 true) .nil)) (.cons .stop .nil) false) .nil
    2 ∈ attributes (fun _ => false) [] [2] [] inits ∧ 2 ∉ declared (fun _ => false) [] [2] [] inits := by decide

/-- `try: y = .. finally: ..` -/
theorem C139_refuted_finally :
    let inits : Inis := .cons (.ite (.one (.cons (.assign 2 true) .nil)) (.cons .other .nil) true) .nil
    2 ∈ attributes (fun _ => false) [] [2] [] inits ∧ 2 ∉ declared (fun _ => false) [] [2] [] inits := by decide

/-- `if ..: y = .. else: if ..: y = ..`, where nothing else mentions `y`. -/
theorem C139_refuted_nested :
    let inits : Inis := .cons (.ite (.one (.cons (.assign 2 true) .nil))
      (.cons (.ite (.one (.cons (.assign 2 true) .nil)) .nil false) .nil) false) .nil
    2 ∈ attributes (fun _ => false) [] [] [] inits ∧ 2 ∉ declared (fun _ => false) [] [] [] inits := by decide

end Verif.Deact.Attrs
