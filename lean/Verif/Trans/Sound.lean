import Verif.Trans.Lemmas
import Mathlib.Data.List.Nodup
import Mathlib.Data.List.Perm.Subperm
import Mathlib.Tactic.Set

/-!
# The repaired simplifier reduces
-/

namespace Verif.Trans

/-! ## Fresh names -/

theorem mem_freshes {k : Nat} {xs : List Nm} {y : Nm} (h : y ∈ freshes k xs) : y ∉ xs := by
  have := List.mem_of_mem_take h
  simp only [List.mem_filter, decide_eq_true_eq] at this
  exact this.2

theorem Nodup_freshes (k : Nat) (xs : List Nm) : (freshes k xs).Nodup := by
  refine List.Nodup.sublist (List.take_sublist _ _) (List.Nodup.sublist List.filter_sublist ?_)
  rw [List.nodup_iff_pairwise_ne, List.pairwise_map]
  exact List.Pairwise.imp (fun h e => h (by simpa using e)) List.nodup_range

/-- There are enough of them. -/
theorem length_freshes (k : Nat) (xs : List Nm) : (freshes k xs).length = k := by
  have key : ∀ (l : List Nm), l.Nodup → ∀ xs : List Nm,
      l.length ≤ (l.filter (· ∉ xs)).length + xs.length := by
    intro l hl xs
    have h1 : (l.filter (· ∈ xs)).length ≤ xs.length := by
      have hn : (l.filter (· ∈ xs)).Nodup := hl.sublist List.filter_sublist
      refine (List.Nodup.subperm hn ?_).length_le
      intro a ha
      simpa using (List.mem_filter.1 ha).2
    have h2 := List.length_eq_length_filter_add (l := l) (fun a => decide (a ∈ xs))
    simp only [← decide_not] at h2
    omega
  have h := key ((List.range (k + xs.length)).map fun i => Nm.y (i + 1)) (by
    rw [List.nodup_iff_pairwise_ne, List.pairwise_map]
    exact List.Pairwise.imp (fun h e => h (by simpa using e)) List.nodup_range) xs
  simp only [List.length_map, List.length_range] at h
  simp only [freshes, List.length_take]
  omega

/-! ## Renaming -/

/-- The expression that `erename` puts in. -/
theorem renSub_eq (s : List (Nm × Nm)) (x : Nm) :
    renSub s x = if x ∈ s.map Prod.fst then some (.var (rename s x)) else none := by
  induction s with
  | nil => rfl
  | cons p s ih =>
    obtain ⟨a, b⟩ := p
    simp only [renSub, List.map_cons, Sub.ofPairs, rename, List.mem_cons] at ih ⊢
    by_cases h : x = a
    · simp [h]
    · simp only [h, if_false, false_or]
      exact ih

theorem rename_of_not_mem {s : List (Nm × Nm)} {x : Nm} (h : x ∉ s.map Prod.fst) :
    rename s x = x := by
  induction s with
  | nil => rfl
  | cons p s ih =>
    obtain ⟨a, b⟩ := p
    simp only [List.map_cons, List.mem_cons, not_or] at h
    simp only [rename, h.1, if_false, ih h.2]

theorem rename_mem {s : List (Nm × Nm)} {x : Nm} (h : x ∈ s.map Prod.fst) :
    rename s x ∈ s.map Prod.snd := by
  induction s with
  | nil => cases h
  | cons p s ih =>
    obtain ⟨a, b⟩ := p
    simp only [List.map_cons, List.mem_cons] at h ⊢
    simp only [rename]
    by_cases hx : x = a
    · simp [hx]
    · simp only [hx, if_false]
      exact Or.inr (ih (h.resolve_left hx))

theorem rename_inj {s : List (Nm × Nm)} (hn : (s.map Prod.snd).Nodup) {x y : Nm}
    (hx : x ∈ s.map Prod.fst) (hy : y ∈ s.map Prod.fst) (h : rename s x = rename s y) : x = y := by
  induction s with
  | nil => cases hx
  | cons p s ih =>
    obtain ⟨a, b⟩ := p
    simp only [List.map_cons, List.mem_cons, List.nodup_cons] at hx hy hn
    simp only [rename] at h
    by_cases hxa : x = a <;> by_cases hya : y = a
    · rw [hxa, hya]
    · simp only [hxa, hya, if_true, if_false] at h
      exact absurd (h ▸ rename_mem (hy.resolve_left hya)) hn.1
    · simp only [hxa, hya, if_true, if_false] at h
      exact absurd (h ▸ rename_mem (hx.resolve_left hxa)) hn.1
    · simp only [hxa, hya, if_false] at h
      exact ih hn.2 (hx.resolve_left hxa) (hy.resolve_left hya) h

theorem idxOf_map {f : Nm → Nm} {ps : List Nm} {x : Nm} (hx : x ∈ ps)
    (hi : ∀ p ∈ ps, f p = f x → p = x) : (ps.map f).idxOf (f x) = ps.idxOf x := by
  induction ps with
  | nil => cases hx
  | cons p ps ih =>
    simp only [List.map_cons, List.idxOf_cons]
    by_cases h : p = x
    · simp [h]
    · have h' : f p ≠ f x := fun e => h (hi p (by simp) e)
      rw [show (f p == f x) = false by simpa using h', show (p == x) = false by simpa using h]
      simp only [cond_false]
      rw [ih ((List.mem_cons.1 hx).resolve_left (fun e => h e.symm))
        (fun q hq => hi q (by simp [hq]))]

/-- What the repaired renaming avoids. -/
structure Fresh (σ : Sub) (ps : List Nm) (b : Ex .e) (s : List (Nm × Nm)) : Prop where
  sub : ∀ x ∈ s.map Prod.fst, x ∈ ps
  inj : (s.map Prod.snd).Nodup
  new : ∀ y ∈ s.map Prod.snd, y ∉ ps ∧ y ∉ b.free true
  img : ∀ x ∈ b.free true, x ∉ ps → ∀ u, σ x = some u → ∀ z ∈ u.free true,
    z ∉ s.map Prod.snd ∧ (z ∈ ps → z ∈ s.map Prod.fst)

theorem mem_imgFree {σ : Sub} {fvs : List Nm} {x z : Nm} {u : Ex .e} (hx : x ∈ fvs)
    (hu : σ x = some u) (hz : z ∈ u.free true) : z ∈ σ.imgFree true fvs := by
  simp only [Sub.imgFree, List.mem_flatMap]
  exact ⟨x, hx, by simpa only [hu] using hz⟩

theorem clashes_fresh (σ : Sub) (ps : List Nm) (b : Ex .e) :
    Fresh σ ps b (clashes true σ ps b) := by
  simp only [clashes, if_true]
  set img := (σ.lim ps).imgFree true (b.free true)
  set clash := ps.filter (· ∈ img)
  set fr := freshes clash.length (b.free true ++ ps ++ img)
  have hlen : fr.length = clash.length := length_freshes _ _
  have h1 : (clash.zip fr).map Prod.fst = clash := List.map_fst_zip (by omega)
  have h2 : (clash.zip fr).map Prod.snd = fr := List.map_snd_zip (by omega)
  have hf : ∀ y ∈ fr, y ∉ b.free true ++ ps ++ img := fun y hy => mem_freshes hy
  simp only [List.mem_append, not_or] at hf
  refine ⟨?_, ?_, ?_, ?_⟩
  · rw [h1]; intro x hx; exact (List.mem_filter.1 hx).1
  · rw [h2]; exact Nodup_freshes _ _
  · rw [h2]; intro y hy; exact ⟨(hf y hy).1.2, (hf y hy).1.1⟩
  · intro x hx hp u hu z hz
    have hi : z ∈ img := mem_imgFree hx (by simp [Sub.lim, hp, hu]) hz
    rw [h1, h2]
    refine ⟨fun hy => (hf z hy).2 hi, fun hzp => ?_⟩
    simp only [clash, List.mem_filter, hzp, true_and, decide_eq_true_eq]
    exact hi

/-- Renaming and substituting under new names is substituting under the old. -/
theorem rename_db {σ : Sub} {ps : List Nm} {b : Ex .e} {s : List (Nm × Nm)}
    (hs : Fresh σ ps b s) (ρ : Nm → Db .e) :
    b.db (scope ps (σ.sem ρ)) =
      b.db ((renSub s).sem (((σ.lim ps).lim (s.map Prod.snd)).sem
        (scope (ps.map (rename s)) ρ))) := by
  refine Ex.db_congr b fun x hx => ?_
  have hinj : ∀ p ∈ ps, ∀ q ∈ ps, rename s p = rename s q → p = q := by
    intro p hp q hq h
    by_cases hpm : p ∈ s.map Prod.fst <;> by_cases hqm : q ∈ s.map Prod.fst
    · exact rename_inj hs.inj hpm hqm h
    · rw [rename_of_not_mem hqm] at h
      exact absurd hq (h ▸ (hs.new _ (rename_mem hpm)).1)
    · rw [rename_of_not_mem hpm] at h
      exact absurd hp (h ▸ (hs.new _ (rename_mem hqm)).1)
    · rwa [rename_of_not_mem hpm, rename_of_not_mem hqm] at h
  have hidx : ∀ {z}, z ∈ ps →
      scope (ps.map (rename s)) ρ (rename s z) = .bvar (ps.idxOf z) := by
    intro z hz
    rw [scope_lt (List.mem_map_of_mem hz), idxOf_map hz fun p hp h => hinj p hp z hz h]
  by_cases hp : x ∈ ps
  · rw [scope_lt hp]
    by_cases hm : x ∈ s.map Prod.fst
    · have h1 : (renSub s).sem (((σ.lim ps).lim (s.map Prod.snd)).sem
          (scope (ps.map (rename s)) ρ)) x =
          ((σ.lim ps).lim (s.map Prod.snd)).sem (scope (ps.map (rename s)) ρ) (rename s x) := by
        simp only [Sub.sem, renSub_eq, hm, if_true, Ex.db]
      have h2 : ((σ.lim ps).lim (s.map Prod.snd)) (rename s x) = none := by
        simp only [Sub.lim, rename_mem hm, if_true]
      rw [h1]
      simp only [Sub.sem, h2]
      exact (hidx hp).symm
    · simp only [Sub.sem, renSub_eq, hm, if_false]
      have h2 : ((σ.lim ps).lim (s.map Prod.snd)) x = none := by
        simp [Sub.lim, hp]
      simp only [h2]
      have := hidx hp
      rw [rename_of_not_mem hm] at this
      exact this.symm
  · have hm : x ∉ s.map Prod.fst := fun h => hp (hs.sub x h)
    have hn : x ∉ s.map Prod.snd := fun h => (hs.new x h).2 hx
    have h2 : ((σ.lim ps).lim (s.map Prod.snd)) x = σ x := by
      simp only [Sub.lim, hp, hn, if_false]
    have hout : ∀ z, z ∉ s.map Prod.snd → (z ∈ ps → z ∈ s.map Prod.fst) →
        z ∉ ps.map (rename s) := by
      intro z hz1 hz2 hz
      obtain ⟨p, hpp, rfl⟩ := List.mem_map.1 hz
      by_cases hpm : p ∈ s.map Prod.fst
      · exact hz1 (rename_mem hpm)
      · rw [rename_of_not_mem hpm] at hz2
        exact hpm (hz2 hpp)
    rw [scope_ge hp]
    simp only [Sub.sem, renSub_eq, hm, if_false, h2]
    cases hu : σ x with
    | none =>
      simp only []
      rw [scope_ge (hout x hn fun h => absurd h hp), List.length_map]
    | some u =>
      simp only []
      rw [← Ex.db_ren]
      refine Ex.db_congr u fun z hz => ?_
      obtain ⟨hz1, hz2⟩ := hs.img x hx hp u hu z hz
      rw [scope_ge (hout z hz1 hz2), List.length_map]

/-! ## The steps of the simplifier -/

/-- What the recursive calls are assumed to do. -/
def Good (rec : Sub → Ex .e → Option (Ex .e)) : Prop :=
  ∀ τ b b', rec τ b = some b' → ∀ ρ, Db.Red (b.db (τ.sem ρ)) (b'.db ρ)

theorem renSub_nil_sem (ρ : Nm → Db .e) : (renSub []).sem ρ = ρ := rfl

theorem renamed_good {rec : Sub → Ex .e → Option (Ex .e)} (hr : Good rec) {s : List (Nm × Nm)}
    {b b1 : Ex .e} (h : renamed rec s b = some b1) (ρ : Nm → Db .e) :
    Db.Red (b.db ((renSub s).sem ρ)) (b1.db ρ) := by
  cases s with
  | nil =>
    simp only [renamed, Option.some.injEq] at h
    subst h
    exact .refl _
  | cons p s => exact hr _ _ _ h ρ

theorem under_good {rec : Sub → Ex .e → Option (Ex .e)} (hr : Good rec) {σ : Sub} {ps ps' : List Nm}
    {b b' : Ex .e} (h : under true rec σ ps b = some (ps', b')) :
    ps'.length = ps.length ∧
      ∀ ρ, Db.Red (b.db (scope ps (σ.sem ρ))) (b'.db (scope ps' ρ)) := by
  simp only [under, if_true, Option.bind_eq_some_iff, Option.map_eq_some_iff,
    Prod.mk.injEq] at h
  obtain ⟨b1, h1, b2, h2, rfl, rfl⟩ := h
  refine ⟨List.length_map _, fun ρ => ?_⟩
  rw [rename_db (clashes_fresh σ ps b) ρ]
  exact (renamed_good hr h1 _).trans (hr _ _ _ h2 _)

theorem argsAre_eq {ps : List Nm} {as : Ex .l} (h : argsAre ps as = true) :
    as = Ex.ofList (ps.map .var) := by
  induction ps generalizing as with
  | nil =>
    match as, h with
    | .nil, _ => rfl
  | cons p ps ih =>
    match as, h with
    | .cons (.var x) as, h =>
      simp only [argsAre, Bool.and_eq_true, decide_eq_true_eq] at h
      rw [h.1, ih h.2]
      rfl

theorem map_scope {ps : List Nm} (hn : ps.Nodup) (ρ : Nm → Db .e) :
    ps.map (scope ps ρ) = (List.range ps.length).map .bvar := by
  refine List.ext_getElem (by simp) fun i h1 h2 => ?_
  simp only [List.length_map] at h1
  simp only [List.getElem_map, List.getElem_range]
  rw [scope_lt (List.getElem_mem h1), List.Nodup.idxOf_getElem hn]

theorem eta_good (ps : List Nm) (b : Ex .e) (ρ : Nm → Db .e) :
    Db.Red (.lam ps.length (b.db (scope ps ρ))) ((eta true ps b).db ρ) := by
  cases b with
  | call f as =>
    simp only [eta]
    split
    · rename_i h
      simp only [Bool.not_true, Bool.false_or, Bool.and_eq_true, List.all_eq_true,
        decide_eq_true_eq] at h
      obtain ⟨ha, hf, hn⟩ := h
      rw [argsAre_eq ha]
      simp only [Ex.db, Ex.db_ofList, List.map_map]
      have h1 : (fun x => ((Ex.var x).db (scope ps ρ))) = scope ps ρ := rfl
      have h2 : f.db (scope ps ρ) = (f.db ρ).ren (· + ps.length) := by
        rw [← Ex.db_ren]
        exact Ex.db_congr f fun x hx => scope_ge fun hp => hf x hp hx
      rw [show ((fun e : Ex .e => e.db (scope ps ρ)) ∘ Ex.var) = scope ps ρ from rfl,
        map_scope hn, h2]
      exact .one (.eta _ _)
    · exact .refl _
  | _ => exact .refl _

theorem pzip_eq {ps : List Nm} {as : Ex .l} {s : List (Nm × Ex .e)}
    (h : pzip true ps as = some s) :
    as.elems.length = ps.length ∧
      ∀ x, Sub.ofPairs s x = if x ∈ ps then as.elems[ps.idxOf x]? else none := by
  induction ps generalizing as s with
  | nil =>
    match as, h with
    | .nil, h =>
      simp only [pzip, Option.some.injEq] at h
      subst h
      exact ⟨by simp only [Ex.elems, List.length_nil], fun x => rfl⟩
    | .cons _ _, h => simp [pzip] at h
  | cons p ps ih =>
    match as, h with
    | .cons a as, h =>
      simp only [pzip, Option.map_eq_some_iff] at h
      obtain ⟨s', hs', rfl⟩ := h
      obtain ⟨hl, hx⟩ := ih hs'
      refine ⟨by simp [Ex.elems, hl], fun x => ?_⟩
      simp only [Sub.ofPairs, Ex.elems, List.mem_cons, List.idxOf_cons]
      by_cases h : x = p
      · simp [h]
      · have hb : (p == x) = false := by simpa using fun e : p = x => h e.symm
        simp only [h, if_false, false_or, hx, hb, cond_false, List.getElem?_cons_succ]
    | .nil, h => simp [pzip] at h

theorem beta_good {ps : List Nm} {b : Ex .e} {as : Ex .l} {s : List (Nm × Ex .e)}
    (h : pzip true ps as = some s) (ρ : Nm → Db .e) :
    Db.Red (.call ((Ex.lam ps b).db ρ) (as.db ρ)) (b.db ((Sub.ofPairs s).sem ρ)) := by
  obtain ⟨hl, hx⟩ := pzip_eq h
  have hl' : (as.db ρ).elems.length = ps.length := by rw [Ex.db_elems, List.length_map, hl]
  have := Db.Red.one (Db.Step.beta ps.length (b.db (scope ps ρ)) (as.db ρ) hl')
  rw [Ex.db_inst b ps ρ _ hl'] at this
  have heq : (fun x => if x ∈ ps then Db.inst (as.db ρ).elems (ps.idxOf x) else ρ x) =
      (Sub.ofPairs s).sem ρ := ?_
  · rw [heq] at this
    exact this
  funext x
  simp only [Sub.sem, hx]
  by_cases hp : x ∈ ps
  · have hi : ps.idxOf x < as.elems.length := hl ▸ List.idxOf_lt_length_of_mem hp
    simp only [hp, if_true, Db.inst, Ex.db_elems, List.getElem?_map,
      List.getElem?_eq_getElem hi, Option.map_some, Option.getD_some]
  · simp only [hp, if_false]

theorem apply_good {rec : Sub → Ex .e → Option (Ex .e)} (hr : Good rec) {f r : Ex .e} {as : Ex .l}
    (h : apply true rec f as = some r) (ρ : Nm → Db .e) :
    Db.Red (.call (f.db ρ) (as.db ρ)) (r.db ρ) := by
  cases f with
  | lam ps b =>
    simp only [apply] at h
    cases hz : pzip true ps as with
    | none =>
      simp only [hz, Option.some.injEq] at h
      subst h
      exact .refl _
    | some s =>
      have hb := beta_good (b := b) hz ρ
      cases s with
      | nil =>
        simp only [hz, Option.some.injEq] at h
        subst h
        exact hb
      | cons p s =>
        simp only [hz] at h
        exact hb.trans (hr _ _ _ h ρ)
  | _ =>
    simp only [apply, Option.some.injEq] at h
    subst h
    exact .refl _

theorem positem_eq {i : Nat} {as : Ex .l} {r : Ex .e} (h : positem i as = some r) :
    as.elems[i]? = some r := by
  induction i generalizing as with
  | zero =>
    match as, h with
    | .cons a as, h => simpa [positem, Ex.elems] using h
    | .nil, h => simp [positem] at h
  | succ i ih =>
    match as, h with
    | .cons a as, h => simpa [Ex.elems] using ih (by simpa [positem] using h)
    | .nil, h => simp [positem] at h

theorem posrest_eq {i : Nat} {as r : Ex .l} (h : posrest i as = some r) :
    i < as.elems.length ∧ r.elems = as.elems.eraseIdx i := by
  induction i generalizing as r with
  | zero =>
    match as, h with
    | .cons a as, h =>
      simp only [posrest, Option.some.injEq] at h
      subst h
      simp [Ex.elems]
    | .nil, h => simp [posrest] at h
  | succ i ih =>
    match as, h with
    | .cons a as, h =>
      simp only [posrest, Option.map_eq_some_iff] at h
      obtain ⟨r', hr', rfl⟩ := h
      obtain ⟨h1, h2⟩ := ih hr'
      exact ⟨by simpa [Ex.elems] using h1, by simp [Ex.elems, h2]⟩
    | .nil, h => simp [posrest] at h

theorem select_good {a r : Ex .e} {i : Nat} (h : select a i = some r) (ρ : Nm → Db .e) :
    Db.Red (.dotI (a.db ρ) i) (r.db ρ) := by
  cases a with
  | tup as =>
    have := positem_eq (by simpa [select] using h)
    exact .one (.sel _ _ _ (by rw [Ex.db_elems, List.getElem?_map, this]; rfl))
  | _ =>
    simp only [select, Option.some.injEq] at h
    subst h
    exact .refl _

theorem Db.ofList_elems : (as : Db .l) → Db.ofList as.elems = as
  | .nil => by simp only [elems, ofList]
  | .cons a as => by simp only [elems, ofList, ofList_elems as]

theorem rest_good {a r : Ex .e} {i : Nat} (h : rest a i = some r) (ρ : Nm → Db .e) :
    Db.Red (.restI (a.db ρ) i) (r.db ρ) := by
  cases a with
  | tup as =>
    simp only [rest, Option.map_eq_some_iff] at h
    obtain ⟨r', hr', rfl⟩ := h
    obtain ⟨h1, h2⟩ := posrest_eq hr'
    have := Db.Step.rest (as.db ρ) i (by rw [Ex.db_elems, List.length_map]; exact h1)
    rw [Ex.db_elems, List.eraseIdx_map, ← h2, ← Ex.db_elems, Db.ofList_elems] at this
    exact .one this
  | _ =>
    simp only [rest, Option.some.injEq] at h
    subst h
    exact .refl _

theorem comp_good {rec : Sub → Ex .e → Option (Ex .e)} (hr : Good rec) {σ : Sub} {b s r : Ex .e}
    {x : Nm} (h : transComp true rec σ b x s = some r) (ρ : Nm → Db .e) :
    Db.Red ((Ex.comp b x s).db (σ.sem ρ)) (r.db ρ) := by
  simp only [transComp, if_true, Option.bind_eq_some_iff] at h
  obtain ⟨s', hs', ⟨ps', b'⟩, hu, h⟩ := h
  obtain ⟨hl, hu⟩ := under_good hr hu
  match ps', hl with
  | [x'], _ =>
    simp only [Option.some.injEq] at h
    subst h
    exact .comp (hu ρ) (hr _ _ _ hs' ρ)

/-- The repaired simplifier returns a reduct. -/
theorem trans_good (n : Nat) {σ : Sub} {s : Srt} {e e' : Ex s} (h : trans true n σ e = some e')
    (ρ : Nm → Db .e) : Db.Red (e.db (σ.sem ρ)) (e'.db ρ) := by
  induction n generalizing σ s ρ with
  | zero => simp [trans] at h
  | succ n ih =>
    have hg : Good fun τ b => trans true n τ b := fun τ b b' h ρ => ih h ρ
    cases e with
    | var x =>
      simp only [trans, Option.some.injEq] at h
      subst h
      simp only [Ex.db, Sub.sem]
      cases σ x <;> exact .refl _
    | lam ps b =>
      simp only [trans, Option.map_eq_some_iff] at h
      obtain ⟨⟨ps', b'⟩, hu, rfl⟩ := h
      obtain ⟨hl, hu⟩ := under_good hg hu
      have := eta_good ps' b' ρ
      rw [hl] at this
      exact (Db.Red.lam (hu ρ)).trans this
    | call f as =>
      simp only [trans, Option.bind_eq_some_iff] at h
      obtain ⟨f', hf, as', ha, h⟩ := h
      exact (Db.Red.call (ih hf ρ) (ih ha ρ)).trans (apply_good hg h ρ)
    | node k as =>
      simp only [trans, Option.map_eq_some_iff] at h
      obtain ⟨as', ha, rfl⟩ := h
      exact .node (ih ha ρ)
    | tup as =>
      simp only [trans, Option.map_eq_some_iff] at h
      obtain ⟨as', ha, rfl⟩ := h
      exact .tup (ih ha ρ)
    | dotI a i =>
      simp only [trans, Option.bind_eq_some_iff] at h
      obtain ⟨a', ha, h⟩ := h
      exact (Db.Red.dotI (ih ha ρ)).trans (select_good h ρ)
    | restI a i =>
      simp only [trans, Option.bind_eq_some_iff] at h
      obtain ⟨a', ha, h⟩ := h
      exact (Db.Red.restI (ih ha ρ)).trans (rest_good h ρ)
    | comp b x s => exact comp_good hg (by simpa only [trans] using h) ρ
    | nil =>
      simp only [trans, Option.some.injEq] at h
      subst h
      exact .refl _
    | cons a as =>
      simp only [trans, Option.bind_eq_some_iff, Option.map_eq_some_iff] at h
      obtain ⟨a', ha, as', has, rfl⟩ := h
      exact .cons (ih ha ρ) (ih has ρ)

end Verif.Trans
