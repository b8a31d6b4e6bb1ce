import Verif.Hash.DepsLemmas
import Verif.Hash.Inj

namespace Verif.Hash
open Relation

/-! ### Reading back the feeds of hashes -/

theorem digest_eq (H : List Nat → Hash) (ops : List Op) : digest H ops = H (enc ops) := by
  simp [digest, hashInput_eq, enc]

theorem digest_inj {H : List Nat → Hash} (hH : Function.Injective H) {a b : List Op}
    (h : digest H a = digest H b) : enc a = enc b := by
  rw [digest_eq, digest_eq] at h
  exact hH h

theorem enc_hash (h : Hash) : enc (feedHash h) = intBytes h.length ++ h.map (·.val) := by
  simp [feedHash, enc, Op.enc]

theorem hash_reads (h h' : Hash) (r t : List Nat)
    (e : enc (feedHash h) ++ r = enc (feedHash h') ++ t) : h = h' ∧ r = t := by
  rw [enc_hash, enc_hash, List.append_assoc, List.append_assoc] at e
  obtain ⟨el, e⟩ := int_inj _ _ _ _ e
  have el : h.length = h'.length := by exact_mod_cast el
  obtain ⟨e1, e2⟩ := List.append_inj e (by simpa using el)
  refine ⟨?_, e2⟩
  exact List.map_injective_iff.2 (fun a b => Fin.ext) e1

theorem hash_head (h : Hash) : ∃ b bs, enc (feedHash h) = b :: bs ∧ b ≠ 5 := by
  rw [enc_hash]
  have : ¬ ((h.length : Int) < 0) := by omega
  simp only [intBytes, this, if_false, List.cons_append]
  exact ⟨0, _, rfl, by decide⟩

theorem hashes_read : ∀ (xs ys : List Hash) (r t : List Nat),
    enc (xs.flatMap feedHash) ++ 5 :: r = enc (ys.flatMap feedHash) ++ 5 :: t → xs = ys ∧ r = t
  | [], [], r, t, h => by simpa [enc_nil] using h
  | [], y :: ys, r, t, h => by
    obtain ⟨b, bs, e, hb⟩ := hash_head y
    simp only [List.flatMap_cons, List.flatMap_nil, enc_append, enc_nil, e, List.nil_append,
      List.cons_append, List.cons.injEq] at h
    exact absurd h.1.symm hb
  | x :: xs, [], r, t, h => by
    obtain ⟨b, bs, e, hb⟩ := hash_head x
    simp only [List.flatMap_cons, List.flatMap_nil, enc_append, enc_nil, e, List.nil_append,
      List.cons_append, List.cons.injEq] at h
    exact absurd h.1 hb
  | x :: xs, y :: ys, r, t, h => by
    simp only [List.flatMap_cons, enc_append, List.append_assoc] at h
    obtain ⟨rfl, h1⟩ := hash_reads _ _ _ _ h
    obtain ⟨rfl, h2⟩ := hashes_read xs ys r t h1
    exact ⟨rfl, h2⟩

/-- The hashes that the dependencies are fed as. -/
def depHashes (look : Acc) (ls : List Nat) (es : List (Nat ×ₗ Hash)) : List Hash :=
  ls.filterMap look ++ es.map (fun e => (ofLex e).2)

theorem flatMap_local (look : Acc) : ∀ ls : List Nat,
    ls.flatMap (feedLocal look) = (ls.filterMap look).flatMap feedHash
  | [] => rfl
  | d :: ds => by
    simp only [List.flatMap_cons, List.filterMap_cons, feedLocal, flatMap_local look ds]
    cases look d <;> rfl

theorem enc_deps (look : Acc) (ls : List Nat) (es : List (Nat ×ₗ Hash)) :
    enc (feedDeps look ls es) = 4 :: (enc ((depHashes look ls es).flatMap feedHash) ++ [5]) := by
  simp only [feedDeps, depHashes, flatMap_local, List.flatMap_append, enc_append, enc_w8, enc_nil,
    List.cons_append, List.nil_append, List.append_assoc]
  rw [List.flatMap_map]

theorem self_inj {s s' : Hash} {f g : Acc} {ls ls' : List Nat} {es es' : List (Nat ×ₗ Hash)}
    (h : enc (feedSelf s f ls es) = enc (feedSelf s' g ls' es')) :
    s = s' ∧ depHashes f ls es = depHashes g ls' es' := by
  simp only [feedSelf, enc_append, enc_w8, enc_nil, List.cons_append, List.nil_append,
    enc_deps, List.append_assoc, List.cons.injEq, true_and] at h
  obtain ⟨rfl, h1⟩ := hash_reads _ _ _ _ h
  simp only [List.cons.injEq, true_and] at h1
  exact ⟨rfl, (hashes_read _ _ [] [] h1).1⟩

theorem group_inj {s s' : List Hash} {f g : Acc} {ls ls' : List Nat} {es es' : List (Nat ×ₗ Hash)}
    (h : enc (feedGroup s f ls es) = enc (feedGroup s' g ls' es')) :
    s = s' ∧ depHashes f ls es = depHashes g ls' es' := by
  simp only [feedGroup, enc_append, enc_w8, enc_nil, List.cons_append, List.nil_append,
    enc_deps, List.append_assoc, List.cons.injEq, true_and] at h
  obtain ⟨rfl, h1⟩ := hashes_read _ _ _ _ h
  simp only [List.cons.injEq, true_and] at h1
  exact ⟨rfl, (hashes_read _ _ [] [] h1).1⟩

theorem member_inj {s s' g g' : Hash} {k k' : Str}
    (h : enc (feedMember s g k) = enc (feedMember s' g' k')) : s = s' ∧ g = g' := by
  simp only [feedMember, enc_append, enc_w8, enc_nil, List.cons_append, List.nil_append,
    List.append_assoc, List.cons.injEq, true_and] at h
  obtain ⟨rfl, h1⟩ := hash_reads _ _ _ _ h
  obtain ⟨rfl, _⟩ := hash_reads _ _ _ _ h1
  exact ⟨rfl, rfl⟩

theorem self_ne_member {s s' g' : Hash} {k' : Str} {f : Acc} {ls : List Nat}
    {es : List (Nat ×ₗ Hash)} : enc (feedSelf s f ls es) ≠ enc (feedMember s' g' k') := by
  intro h
  simp [feedMember, feedSelf, enc_append, enc_w8, enc_nil] at h

/-! ### Equal final hashes -/

theorem filterMap_eq {F G : Acc} : ∀ (ls : List Nat) (a b : List Hash),
    (∀ d ∈ ls, F d ≠ none) → (∀ d ∈ ls, G d ≠ none) →
    ls.filterMap F ++ a = ls.filterMap G ++ b → (∀ d ∈ ls, F d = G d) ∧ a = b
  | [], a, b, _, _, h => by simpa using h
  | d :: ds, a, b, hf, hg, h => by
    obtain ⟨x, hx⟩ := Option.ne_none_iff_exists'.1 (hf d (by simp))
    obtain ⟨y, hy⟩ := Option.ne_none_iff_exists'.1 (hg d (by simp))
    simp only [List.filterMap_cons, hx, hy, List.cons_append, List.cons.injEq] at h
    obtain ⟨h1, h2⟩ := filterMap_eq ds a b (fun z hz => hf z (by simp [hz]))
      (fun z hz => hg z (by simp [hz])) h.2
    refine ⟨?_, h2⟩
    intro z hz
    rcases List.mem_cons.1 hz with rfl | hz
    · rw [hx, hy, h.1]
    · exact h1 z hz

theorem pairs_eq : ∀ (a b : List (Nat ×ₗ Hash)),
    a.map (fun e => (ofLex e).1) = b.map (fun e => (ofLex e).1) →
    a.map (fun e => (ofLex e).2) = b.map (fun e => (ofLex e).2) → a = b
  | [], [], _, _ => rfl
  | [], _ :: _, h, _ => by simp at h
  | _ :: _, [], h, _ => by simp at h
  | x :: xs, y :: ys, h1, h2 => by
    simp only [List.map_cons, List.cons.injEq] at h1 h2
    rw [pairs_eq xs ys h1.2 h2.2]
    congr 1
    exact ofLex_inj.1 (Prod.ext h1.1 h2.1)

/-- The members' own hashes, in order, tell the members. -/
theorem members_eq {D E : Deps} (hN : Named D E) : ∀ (xs ys : List Nat),
    (∀ x ∈ xs, D.self x ≠ none) → (∀ y ∈ ys, E.self y ≠ none) →
    xs.filterMap D.self = ys.filterMap E.self → xs = ys ∧ ∀ x ∈ xs, D.self x = E.self x
  | [], [], _, _, _ => ⟨rfl, by simp⟩
  | [], y :: ys, _, hy, h => by
    obtain ⟨a, ha⟩ := Option.ne_none_iff_exists'.1 (hy y (by simp))
    simp [List.filterMap_cons, ha] at h
  | x :: xs, [], hx, _, h => by
    obtain ⟨a, ha⟩ := Option.ne_none_iff_exists'.1 (hx x (by simp))
    simp [List.filterMap_cons, ha] at h
  | x :: xs, y :: ys, hx, hy, h => by
    obtain ⟨a, ha⟩ := Option.ne_none_iff_exists'.1 (hx x (by simp))
    obtain ⟨b, hb⟩ := Option.ne_none_iff_exists'.1 (hy y (by simp))
    simp only [List.filterMap_cons, ha, hb, List.cons.injEq] at h
    obtain ⟨rfl, h⟩ := h
    obtain rfl := hN x y a ha hb
    obtain ⟨rfl, h1⟩ := members_eq hN xs ys (fun z hz => hx z (by simp [hz]))
      (fun z hz => hy z (by simp [hz])) h
    refine ⟨rfl, ?_⟩
    intro z hz
    rcases List.mem_cons.1 hz with rfl | hz
    · rw [ha, hb]
    · exact h1 z hz

theorem mem_exts {D : Deps} {ns : List Nat} {e : Nat ×ₗ Hash} :
    e ∈ D.exts ns ↔ ∃ n ∈ ns, e ∈ D.ext n := by
  simp [Deps.exts, mem_setList, List.mem_flatMap]

/-- The names of a set of dependencies with one hash each are in order. -/
theorem exts_names_sorted {D : Deps} (hO : OneHash D) (ns : List Nat) :
    ((D.exts ns).map (fun e => (ofLex e).1)).Pairwise (· < ·) := by
  rw [List.pairwise_map]
  have hs : (D.exts ns).Pairwise (· < ·) := setList_sorted _
  refine hs.imp_of_mem ?_
  intro a b ha hb hab
  obtain ⟨n, _, ha⟩ := mem_exts.1 ha
  obtain ⟨m, _, hb⟩ := mem_exts.1 hb
  rcases Prod.Lex.lt_iff.1 hab with h | ⟨h, h'⟩
  · exact h
  · have : (ofLex a).2 = (ofLex b).2 := by
      refine hO n m (ofLex a).1 _ _ ha ?_
      rw [h]
      exact hb
    rw [this] at h'
    exact absurd h' (lt_irrefl _)

theorem exts_eq {D E : Deps} (hD : OneHash D) (hE : OneHash E) {ns : List Nat}
    (hn : ∀ n ∈ ns, (D.ext n).map (fun e => (ofLex e).1) = (E.ext n).map (fun e => (ofLex e).1))
    (hh : (D.exts ns).map (fun e => (ofLex e).2) = (E.exts ns).map (fun e => (ofLex e).2)) :
    ∀ n ∈ ns, D.ext n = E.ext n := by
  have hnames : (D.exts ns).map (fun e => (ofLex e).1) = (E.exts ns).map (fun e => (ofLex e).1) := by
    refine sorted_ext (exts_names_sorted hD ns) (exts_names_sorted hE ns) ?_
    intro q
    simp only [List.mem_map, mem_exts]
    have swap : ∀ (A B : Deps), (∀ n ∈ ns, (A.ext n).map (fun e => (ofLex e).1) =
        (B.ext n).map (fun e => (ofLex e).1)) → (∃ a, (∃ n ∈ ns, a ∈ A.ext n) ∧ (ofLex a).1 = q) →
        ∃ a, (∃ n ∈ ns, a ∈ B.ext n) ∧ (ofLex a).1 = q := by
      rintro A B h ⟨a, ⟨n, hn, ha⟩, rfl⟩
      have : (ofLex a).1 ∈ (A.ext n).map (fun e => (ofLex e).1) :=
        List.mem_map.2 ⟨a, ha, rfl⟩
      rw [h n hn] at this
      obtain ⟨b, hb, e⟩ := List.mem_map.1 this
      exact ⟨b, ⟨n, hn, hb⟩, e⟩
    exact ⟨swap D E hn, swap E D (fun n h => (hn n h).symm)⟩
  have hset := pairs_eq _ _ hnames hh
  intro n hnn
  apply pairs_eq _ _ (hn n hnn)
  have hlen : (D.ext n).length = (E.ext n).length := by
    simpa using congrArg List.length (hn n hnn)
  apply List.ext_getElem (by simpa using hlen)
  intro i h1 h2
  simp only [List.length_map] at h1 h2
  simp only [List.getElem_map]
  have hq : (ofLex (D.ext n)[i]).1 = (ofLex (E.ext n)[i]).1 := by
    have := List.getElem_of_eq (hn n hnn) (i := i) (by simpa using h1)
    simpa using this
  have hmem : (D.ext n)[i] ∈ E.exts ns := by
    rw [← hset]
    exact mem_exts.2 ⟨n, hnn, List.getElem_mem h1⟩
  obtain ⟨m, _, hm⟩ := mem_exts.1 hmem
  refine hE m n (ofLex (D.ext n)[i]).1 _ _ hm ?_
  rw [hq]
  exact List.getElem_mem h2

/-- What two versions should agree on below a name with the same final hash. -/
def Same (D E : Deps) (n : Nat) : Prop := D.self n = E.self n ∧ D.ext n = E.ext n

theorem sound_aux {D E : Deps} {H : List Nat → Hash} (hH : Function.Injective H)
    {cs : List Scc} (hI : IsSccs D cs) {F G : Acc} (hF : Final D H F) (hG : Final E H G)
    (hcD : Closed D) (hcE : Closed E) (hS : SameDeps D E) (hO : OneHash D) (hO' : OneHash E) :
    ∀ n, D.self n ≠ none →
      (Named D E ∨ ∀ m, ReflTransGen (Edge D) n m → ¬ OnCycle D m) →
      F n = G n → ∀ m, ReflTransGen (Edge D) n m → Same D E m := by
  have someF : ∀ d, D.self d ≠ none → F d ≠ none := fun d h h' => h ((hF.dom d).1 h')
  have someG : ∀ d, E.self d ≠ none → G d ≠ none := fun d h h' => h ((hG.dom d).1 h')
  refine scc_induction hI (P := fun n =>
    (Named D E ∨ ∀ m, ReflTransGen (Edge D) n m → ¬ OnCycle D m) →
      F n = G n → ∀ m, ReflTransGen (Edge D) n m → Same D E m) ?_
  intro c hc ih n hn hN hFG
  have hsn : D.self n ≠ none := (hI.cover n).1 (List.mem_flatMap.2 ⟨c, hc, hn⟩)
  obtain ⟨s, hs⟩ := Option.ne_none_iff_exists'.1 hsn
  have hEn : E.self n ≠ none := by
    intro h
    exact someF n hsn (by rw [hFG]; exact (hG.dom n).2 h)
  obtain ⟨s', hs'⟩ := Option.ne_none_iff_exists'.1 hEn
  cases c with
  | acyclic x =>
    simp only [Scc.members, List.mem_singleton] at hn
    subst hn
    have hnc := hI.single n hc
    rw [hF.single n s hs hnc] at hFG
    by_cases hE : OnCycle E n
    · obtain ⟨ns, _, _, e⟩ := hG.group n s' hs' hE
      rw [e, Option.some.injEq] at hFG
      exact absurd (digest_inj hH hFG) self_ne_member
    · rw [hG.single n s' hs' hE, Option.some.injEq] at hFG
      obtain ⟨rfl, hd⟩ := self_inj (digest_inj hH hFG)
      obtain ⟨hl, he⟩ := hS n s hs hs'
      simp only [depHashes] at hd
      rw [← hl] at hd
      obtain ⟨hdep, hext⟩ := filterMap_eq _ _ _ (fun d hd => someF d (hcD n hsn d hd))
        (fun d hd => someG d (hcE n hEn d (hl ▸ hd))) hd
      intro m hm
      rcases ReflTransGen.cases_head hm with rfl | ⟨d, hed, hm⟩
      · exact ⟨by rw [hs, hs'], pairs_eq _ _ he hext⟩
      · refine ih n (by simp [Scc.members]) d hed ?_ ?_ (hdep d hed.2.1) m hm
        · simp only [Scc.members, List.mem_singleton]
          rintro rfl
          exact hnc (.single hed)
        · exact hN.imp id (fun h z hz => h z (.head hed hz))
  | cyclic ns0 =>
    have hmut := hI.group ns0 hc n hn
    have hoc : OnCycle D n := ((hmut n).1 hn).1
    have hN := hN.resolve_right (fun h => h n .refl hoc)
    obtain ⟨ns, d1, m1, e1⟩ := hF.group n s hs hoc
    have e0 : ∀ x, x ∈ ns ↔ x ∈ ns0 := fun x => (m1 x).trans (hmut x).symm
    rw [e1] at hFG
    by_cases hE : OnCycle E n
    · obtain ⟨ms, d2, m2, e2⟩ := hG.group n s' hs' hE
      rw [e2, Option.some.injEq] at hFG
      obtain ⟨_, hg⟩ := member_inj (digest_inj hH hFG)
      simp only [Deps.group] at hg
      obtain ⟨hself, hdeps⟩ := group_inj (digest_inj hH hg)
      have nD : ∀ x ∈ ns, D.self x ≠ none := fun x hx => (edge_mem ((m1 x).1 hx).1).2
      have nE : ∀ x ∈ ms, E.self x ≠ none := fun x hx => (edge_mem ((m2 x).1 hx).1).2
      obtain ⟨hsort, hsame⟩ := members_eq hN _ _
        (fun x hx => nD x ((sortKey_perm D ns).mem_iff.1 hx))
        (fun x hx => nE x ((sortKey_perm E ms).mem_iff.1 hx)) hself
      have emem : ∀ x, x ∈ ns ↔ x ∈ ms := fun x => by
        rw [← (sortKey_perm D ns).mem_iff, hsort, (sortKey_perm E ms).mem_iff]
      have hsame : ∀ x ∈ ns, D.self x = E.self x := fun x hx =>
        hsame x ((sortKey_perm D ns).mem_iff.2 hx)
      have hboth : ∀ x ∈ ns, D.loc x = E.loc x ∧
          (D.ext x).map (fun e => (ofLex e).1) = (E.ext x).map (fun e => (ofLex e).1) := by
        intro x hx
        obtain ⟨t, ht⟩ := Option.ne_none_iff_exists'.1 (nD x hx)
        exact hS x t ht ((hsame x hx) ▸ ht)
      have houts : D.outs ns = E.outs ms := by
        refine setList_ext (fun x => ?_)
        simp only [List.mem_filter, List.mem_flatMap, decide_eq_true_eq, ← emem]
        constructor
        · rintro ⟨⟨y, hy, hx⟩, hn⟩
          exact ⟨⟨y, hy, (hboth y hy).1 ▸ hx⟩, hn⟩
        · rintro ⟨⟨y, hy, hx⟩, hn⟩
          exact ⟨⟨y, hy, (hboth y hy).1 ▸ hx⟩, hn⟩
      have hexts : E.exts ms = E.exts ns :=
        setList_ext (fun x => by simp only [List.mem_flatMap, emem])
      simp only [depHashes] at hdeps
      rw [← houts, hexts] at hdeps
      obtain ⟨hdep, hext⟩ := filterMap_eq _ _ _
        (fun d hd => by
          obtain ⟨⟨y, hy, hd⟩, _⟩ := mem_outs.1 hd
          exact someF d (hcD y (nD y hy) d hd))
        (fun d hd => by
          obtain ⟨⟨y, hy, hd⟩, _⟩ := mem_outs.1 hd
          exact someG d (hcE y (hsame y hy ▸ nD y hy) d ((hboth y hy).1 ▸ hd))) hdeps
      have hextall := exts_eq hO hO' (fun x hx => (hboth x hx).2) hext
      have walk : ∀ x m, ReflTransGen (Edge D) x m → x ∈ ns → Same D E m := by
        intro x m hr
        induction hr using ReflTransGen.head_induction_on with
        | refl => exact fun hm => ⟨hsame m hm, hextall m hm⟩
        | @head a b hab hbm ihw =>
          intro ha
          by_cases hb : b ∈ ns
          · exact ihw hb
          · refine ih a ((e0 a).1 ha) b hab (fun h => hb ((e0 b).2 h)) (Or.inl hN) ?_ m hbm
            exact hdep b (mem_outs.2 ⟨⟨a, ha, hab.2.1⟩, hb⟩)
      intro m hm
      exact walk n m hm ((e0 n).2 hn)
    · rw [hG.single n s' hs' hE, Option.some.injEq] at hFG
      exact absurd (digest_inj hH hFG).symm self_ne_member

end Verif.Hash
