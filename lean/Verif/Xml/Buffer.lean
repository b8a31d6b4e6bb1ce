import Verif.Xml.Encode
/-!
# C77, continued: the buffer of a node
-/
namespace Verif.Xml
open Verif Verif.Str

variable {f : Str → Int} {g : Text → Nat}

theorem Meas.spaces (m : Meas f g) (k : Nat) : g (List.replicate k 32) = k := by
  induction k with
  | zero => exact m.nil
  | succ k ih => rw [List.replicate_succ, m.cons _ _ (by omega), ih]

theorem Meas.qname (m : Meas f g) {p : Option Str} {q : Option Text} {n : Str} {t : Text} (hp : OptRepr p q) (hn : Repr n t) :
    (g (qname q t) : Int) = f n + opt1 f p := by
  cases p with
  | none =>
    cases q with
    | none => simp only [Xml.qname, opt1, m.rep hn]; omega
    | some q => exact absurd hp id
  | some p =>
    cases q with
    | none => exact absurd hp id
    | some q =>
      simp only [Xml.qname, opt1, m.app, m.cons 58 _ (show 58 < 128 by omega), m.rep hn, m.rep (show Repr p q from hp)]
      omega

theorem Meas.escOpt (m : Meas f g) {s : Option Str} {t : Option Text} (h : OptRepr s t) (hs : (enc (escOpt t)).length < 2^31) :
    optE f s = g (escOpt t) := by
  cases s with
  | none =>
    cases t with
    | none => simp only [Xml.escOpt, optE, m.nil]; rfl
    | some t => exact absurd h id
  | some s =>
    cases t with
    | none => exact absurd h id
    | some t => exact m.ext false (show Repr s t from h) hs

/-- The text of a node from those of its parts. -/
def assemble (tag : Text) (pre : Option Text) (ns attrs : Text) (text tail : Option Text) (children : Text)
    (empty has pretty : Bool) (k : Nat) : Text :=
  List.replicate k 32 ++ 60 :: qname pre tag ++ (ns ++ attrs) ++
    (if empty then [47, 62]
      else 62 :: escOpt text ++ (if has then (if pretty then [10] else []) ++ children ++ (if pretty then [10] else []) ++ List.replicate k 32 else []) ++
        [60, 47] ++ qname pre tag ++ [62]) ++ escOpt tail

theorem escapeOpt_eq {s : Option Str} {t : Option Text} (h : OptRepr s t) : escapeOpt s = enc (escOpt t) := by
  cases s with
  | none =>
    cases t with
    | none => rfl
    | some t => exact absurd h id
  | some s =>
    cases t with
    | none => exact absurd h id
    | some t => exact escape_repr (show Repr s t from h) false

theorem colonAfter_eq {p : Option Str} {q : Option Text} (h : OptRepr p q) (t : Text) : colonAfter p ++ enc t = enc (qname q t) := by
  cases p with
  | none =>
    cases q with
    | none => rfl
    | some t => exact absurd h id
  | some p =>
    cases q with
    | none => exact absurd h id
    | some q =>
      show (p.bytes ++ [58]) ++ enc t = enc (q ++ 58 :: t)
      rw [(show Repr p q from h).bytes_eq, enc_append, enc_ascii_cons 58 _ (by omega), List.append_assoc]
      rfl

theorem enc_spaces (k : Nat) : enc (List.replicate k 32) = List.replicate k 32 := by
  induction k with
  | zero => rfl
  | succ k ih => rw [List.replicate_succ, enc_ascii_cons _ _ (by omega), ih]

section
variable {tag ns attrs ch : Str} {pre text tail : Option Str} {tag' ns' attrs' ch' : Text} {pre' text' tail' : Option Text}

theorem nodeSize_eq (m : Meas f g) (ht : Repr tag tag') (hp : OptRepr pre pre') (hn : Repr ns ns') (ha : Repr attrs attrs')
    (hx : OptRepr text text') (hl : OptRepr tail tail') (hc : Repr ch ch') {empty has pretty : Bool} {k : Nat}
    (he : empty = true → text' = none) (hh : has = false → ch' = [] ∧ (pretty = false → k = 0)) (hk : pretty = false → k = 0)
    (hs : (enc (assemble tag' pre' ns' attrs' text' tail' ch' empty has pretty k)).length < 2^31) :
    nodeSize f tag pre ns attrs text tail ch empty has pretty k = g (assemble tag' pre' ns' attrs' text' tail' ch' empty has pretty k) := by
  have hle := m.le (assemble tag' pre' ns' attrs' text' tail' ch' empty has pretty k)
  have e1 : (enc (escOpt text')).length < 2^31 := by
    cases empty with
    | true => rw [he rfl]; simp [escOpt]
    | false =>
      unfold assemble at hs
      simp only [encL_app, encL_cons _ _ (show (62 : Nat) < 128 by omega), Bool.false_eq_true, if_false, List.cons_append] at hs
      omega
  have e2 : (enc (escOpt tail')).length < 2^31 := by
    unfold assemble at hs
    rw [encL_app] at hs
    omega
  have q := m.qname hp ht
  have r1 := m.rep hn
  have r2 := m.rep ha
  have r3 := m.rep hc
  have x1 := m.escOpt hx e1
  have x2 := m.escOpt hl e2
  have sp := m.spaces k
  suffices h : (k : Int) + (if empty then 1 else 2) * (f tag + opt1 f pre) + f ns + f attrs +
    (if empty then 0 else optE f text) + (if empty then 0 else if has && pretty then 1 else 0) +
    (if empty then 0 else f ch) + (if empty then 0 else if has && pretty then 1 + (k : Int) else 0) + optE f tail +
    (if empty then 3 else 5) = g (assemble tag' pre' ns' attrs' text' tail' ch' empty has pretty k) by
    unfold nodeSize
    rw [h]
    exact wrap32_of_in (by unfold InI32; omega)
  clear hs hle
  have z : ∀ c, c < 128 → g [c] = 1 := m.one
  unfold assemble
  cases empty with
  | true =>
    simp only [if_true, m.app, m.cons _ _ (show (60 : Nat) < 128 by omega), m.cons _ _ (show (47 : Nat) < 128 by omega), z 62 (by omega), sp, List.cons_append]
    omega
  | false =>
    cases has with
    | false =>
      have hch : ch' = [] := (hh rfl).1
      rw [hch, m.nil] at r3
      simp only [if_false, Bool.false_eq_true, Bool.false_and, m.app, m.cons _ _ (show (60 : Nat) < 128 by omega),
        m.cons _ _ (show (62 : Nat) < 128 by omega), z 47 (by omega), z 62 (by omega), sp, List.cons_append, m.nil]
      omega
    | true =>
      cases pretty with
      | true =>
        simp only [if_false, Bool.false_eq_true, Bool.true_and, if_true, m.app, m.cons _ _ (show (60 : Nat) < 128 by omega),
          m.cons _ _ (show (62 : Nat) < 128 by omega), m.cons _ _ (show (10 : Nat) < 128 by omega), List.nil_append, z 47 (by omega), z 62 (by omega), z 10 (by omega), sp, List.cons_append, m.nil]
        omega
      | false =>
        have hk0 := hk rfl
        subst hk0
        simp only [if_false, Bool.false_eq_true, Bool.true_and, if_true, m.app, m.cons _ _ (show (60 : Nat) < 128 by omega),
          m.cons _ _ (show (62 : Nat) < 128 by omega), z 47 (by omega), z 62 (by omega), sp, List.cons_append, m.nil]
        omega

theorem nodeBytes_eq (ht : Repr tag tag') (hp : OptRepr pre pre') (hn : Repr ns ns') (ha : Repr attrs attrs')
    (hx : OptRepr text text') (hl : OptRepr tail tail') (hc : Repr ch ch') {empty has pretty : Bool} {k : Nat}
    (hk : pretty = false → k = 0) :
    nodeBytes tag pre ns attrs text tail ch empty has pretty k = enc (assemble tag' pre' ns' attrs' text' tail' ch' empty has pretty k) := by
  unfold nodeBytes assemble inner
  rw [hn.bytes_eq, ha.bytes_eq, hc.bytes_eq, ht.bytes_eq, escapeOpt_eq hx, escapeOpt_eq hl]
  have q := colonAfter_eq hp tag'
  have q2 : ∀ l : List Nat, colonAfter pre ++ (enc tag' ++ l) = enc (qname pre' tag') ++ l := by
    intro l; rw [← List.append_assoc, q]
  have a10 : enc [10] = [10] := rfl
  have a6047 : enc [60, 47] = [60, 47] := rfl
  have a4762 : enc [47, 62] = [47, 62] := rfl
  have a62 : enc [62] = [62] := rfl
  cases empty with
  | true =>
    simp only [if_true, enc_append, enc_ascii_cons 60 _ (show 60 < 128 by omega), enc_spaces, List.cons_append, List.append_assoc, q2,
      List.nil_append, enc_ascii_cons 47 _ (show 47 < 128 by omega), enc_ascii_cons 62 _ (show 62 < 128 by omega)]
  | false =>
    cases has with
    | false =>
      simp only [if_false, Bool.false_eq_true, enc_append, enc_ascii_cons 60 _ (show 60 < 128 by omega),
        enc_ascii_cons 62 _ (show 62 < 128 by omega), enc_ascii_cons 47 _ (show 47 < 128 by omega), enc_spaces, List.cons_append,
        List.append_assoc, q2, List.nil_append, enc_nil]
    | true =>
      cases pretty with
      | true =>
        simp only [if_false, if_true, Bool.false_eq_true, enc_append, enc_ascii_cons 60 _ (show 60 < 128 by omega),
          enc_ascii_cons 62 _ (show 62 < 128 by omega), enc_ascii_cons 47 _ (show 47 < 128 by omega),
          enc_ascii_cons 10 _ (show 10 < 128 by omega), enc_spaces, List.cons_append,
          List.append_assoc, q2, List.nil_append, enc_nil]
      | false =>
        have := hk rfl
        subst this
        simp only [if_false, if_true, Bool.false_eq_true, enc_append, enc_ascii_cons 60 _ (show 60 < 128 by omega),
          enc_ascii_cons 62 _ (show 62 < 128 by omega), enc_ascii_cons 47 _ (show 47 < 128 by omega), List.replicate_zero, List.cons_append,
          List.append_assoc, q2, List.nil_append, enc_nil, List.append_nil]

theorem escOpt_cp {s : Option Str} {t : Option Text} (h : OptRepr s t) : ∀ c ∈ escOpt t, CodePoint c := by
  cases t with
  | none => intro c hc; cases hc
  | some t =>
    cases s with
    | none => exact absurd h id
    | some s => exact esc_cp (show Repr s t from h).cp

theorem qname_cp {p : Option Str} {q : Option Text} {n : Str} {t : Text} (hp : OptRepr p q) (hn : Repr n t) :
    ∀ c ∈ qname q t, CodePoint c := by
  cases q with
  | none => exact hn.cp
  | some q =>
    cases p with
    | none => exact absurd hp id
    | some p =>
      intro c hc
      have hc : c ∈ q ++ 58 :: t := hc
      rcases List.mem_append.1 hc with hc | hc
      · exact (show Repr p q from hp).cp c hc
      · rcases List.mem_cons.1 hc with rfl | hc
        · unfold CodePoint; omega
        · exact hn.cp c hc

theorem assemble_cp (ht : Repr tag tag') (hp : OptRepr pre pre') (hn : Repr ns ns') (ha : Repr attrs attrs')
    (hx : OptRepr text text') (hl : OptRepr tail tail') (hc : Repr ch ch') (empty has pretty : Bool) (k : Nat) :
    ∀ c ∈ assemble tag' pre' ns' attrs' text' tail' ch' empty has pretty k, CodePoint c := by
  have app : ∀ {a b : Text}, (∀ c ∈ a, CodePoint c) → (∀ c ∈ b, CodePoint c) → ∀ c ∈ a ++ b, CodePoint c := by
    intro a b h1 h2 c hc
    rcases List.mem_append.1 hc with hc | hc
    · exact h1 c hc
    · exact h2 c hc
  have cons : ∀ {x : Nat} {a : Text}, x < 128 → (∀ c ∈ a, CodePoint c) → ∀ c ∈ x :: a, CodePoint c := by
    intro x a hx h1 c hc
    rcases List.mem_cons.1 hc with rfl | hc
    · unfold CodePoint; omega
    · exact h1 c hc
  have nil : ∀ c ∈ ([] : Text), CodePoint c := by intro c hc; cases hc
  have h7 : ∀ c ∈ List.replicate k 32, CodePoint c := by
    intro c h; rw [List.eq_of_mem_replicate h]; unfold CodePoint; omega
  have h1 := qname_cp hp ht
  have ten : ∀ c ∈ (if pretty then [10] else [] : Text), CodePoint c := by
    cases pretty
    · exact nil
    · exact cons (by omega) nil
  have inn : ∀ c ∈ (if has then (if pretty then [10] else []) ++ ch' ++ (if pretty then [10] else []) ++ List.replicate k 32 else []), CodePoint c := by
    cases has
    · exact nil
    · exact app (app (app ten hc.cp) ten) h7
  have mid : ∀ c ∈ (if empty then [47, 62] else 62 :: escOpt text' ++ (if has then (if pretty then [10] else []) ++ ch' ++
      (if pretty then [10] else []) ++ List.replicate k 32 else []) ++ [60, 47] ++ qname pre' tag' ++ [62]), CodePoint c := by
    cases empty
    · exact app (app (app (app (cons (by omega) (escOpt_cp hx)) inn) (cons (by omega) (cons (by omega) nil))) h1) (cons (by omega) nil)
    · exact cons (by omega) (cons (by omega) nil)
  unfold assemble
  exact app (app (app (app h7 (cons (by omega) h1)) (app hn.cp ha.cp)) mid) (escOpt_cp hl)

end

theorem nodesRepr_length : ∀ {l : List Node} {m : List Tree}, NodesRepr l m → l.length = m.length
  | _, _, .nil => rfl
  | _, _, .cons _ h => by rw [List.length_cons, List.length_cons, nodesRepr_length h]

theorem render_eq (pretty : Bool) (depth : Nat) (tag : Text) (ns : List (Option Text × Text)) (pre : Option Text)
    (attrs : List (Text × Text)) (ch : List Tree) (tx tl : Option Text) :
    render pretty depth (.mk tag ns pre attrs ch tx tl) =
      assemble tag pre (renderAttrs (ns.map nsAttr)) (renderAttrs attrs) tx tl
        (joinWith (if pretty then [10] else []) (renders pretty (depth + 1) ch)) (tx.isNone && ch.isEmpty) (!ch.isEmpty) pretty
        (if pretty then 2 * depth else 0) := by
  unfold render assemble
  simp only [renderAttrs_app]
  cases pretty <;> cases h : ch.isEmpty <;> simp

theorem joinWith_mem {p : Text} : ∀ {l : List Text} {t : Text}, t ∈ l → (enc t).length ≤ (enc (joinWith p l)).length := by
  intro l
  induction l with
  | nil => intro t h; cases h
  | cons a l ih =>
    intro t h
    cases l with
    | nil =>
      simp at h
      subst h
      exact Nat.le_refl _
    | cons b l =>
      show (enc t).length ≤ (enc (a ++ p ++ joinWith p (b :: l))).length
      rw [encL_app, encL_app]
      rcases List.mem_cons.1 h with rfl | h
      · omega
      · have := ih h; omega

mutual
theorem node_repr (pretty : Bool) : ∀ (n : Node) (t : Tree) (depth : Nat), NodeRepr n t → (enc (render pretty depth t)).length < 2^31 →
    ∃ r, node2str pretty depth n = .ok r ∧ Repr r (render pretty depth t)
  | .mk tag ns pre attrs ch tx tl, t, depth, h, hs => by
    cases h with
    | @mk _ _ _ _ _ _ _ tag' ns' pre' attrs' ch' tx' tl' ht hn hp ha hc hx hl =>
    rw [render_eq] at hs ⊢
    have hlen := nodesRepr_length hc
    generalize hchT : joinWith (if pretty then [10] else []) (renders pretty (depth + 1) ch') = chT at hs ⊢
    have b1 : (enc (renderAttrs (ns'.map nsAttr))).length < 2^31 ∧ (enc (renderAttrs attrs')).length < 2^31 ∧
        (if pretty then 2 * depth else 0) < 2^31 := by
      have hs' := hs
      unfold assemble at hs'
      simp only [encL_app] at hs'
      rw [enc_spaces, List.length_replicate] at hs'
      refine ⟨by omega, by omega, by omega⟩
    have b2 : ch' ≠ [] → (enc chT).length < 2^31 := by
      intro hne
      have hemp : ch'.isEmpty = false := by cases ch' with | nil => exact absurd rfl hne | cons _ _ => rfl
      rw [hemp] at hs
      unfold assemble at hs
      simp only [Bool.and_false, Bool.not_false, if_true, Bool.false_eq_true, if_false, encL_app, List.cons_append,
        encL_cons _ _ (show (62 : Nat) < 128 by omega)] at hs
      omega
    have b3 : (enc chT).length < 2^31 := by
      by_cases hne : ch' = []
      · rw [← hchT, hne]
        show (enc (joinWith _ [])).length < 2^31
        simp [joinWith]
      · exact b2 hne
    obtain ⟨nsS, e1, r1⟩ := encodeNsdefs_repr hn b1.1
    obtain ⟨atS, e2, r2⟩ := encodeAttrs_repr ha b1.2.1
    obtain ⟨chL, e3, r3⟩ := nodes_repr pretty ch ch' (depth + 1) hc (by
      intro t ht
      have := joinWith_mem (p := if pretty then [10] else []) ht
      rw [hchT] at this
      omega)
    obtain ⟨chS, e4, r4⟩ : ∃ r, joinChildren pretty chL = .ok r ∧ Repr r chT := by
      have hl2 := reprs_length r3
      unfold joinChildren
      by_cases h0 : chL.length > 0
      · rw [if_pos h0]
        rw [← hchT] at b3 ⊢
        cases pretty with
        | true => exact C10_join (sep := newline) (p := [10]) ⟨by intro c hc; simp at hc; unfold CodePoint; omega, rfl, rfl, rfl, by decide⟩ r3 b3
        | false => exact C10_join (sep := nullStr) null_repr r3 b3
      · rw [if_neg h0]
        have : renders pretty (depth + 1) ch' = [] := List.length_eq_zero_iff.1 (by omega)
        rw [this] at hchT
        refine ⟨nullStr, rfl, ?_⟩
        rw [← hchT]
        exact null_repr
    have hemp : (tx.isNone && ch.length == 0) = (tx'.isNone && ch'.isEmpty) := by
      have a1 : tx.isNone = tx'.isNone := by
        cases tx <;> cases tx' <;> first | rfl | exact absurd hx id
      have a2 : (ch.length == 0) = ch'.isEmpty := by
        rw [hlen]
        cases ch' <;> rfl
      rw [a1, a2]
    have hhas : decide (ch.length > 0) = !ch'.isEmpty := by
      rw [hlen]
      cases ch' <;> simp
    have hind : (if pretty then wrap32 (2 * (depth : Int)) else 0) = ((if pretty then 2 * depth else 0 : Nat) : Int) := by
      cases pretty with
      | false => rfl
      | true =>
        have := b1.2.2
        simp only [if_true] at this ⊢
        rw [wrap32_of_in (by unfold InI32; omega)]
        omega
    have he : (tx'.isNone && ch'.isEmpty) = true → tx' = none := by
      intro h
      cases tx' with
      | none => rfl
      | some _ => simp at h
    have hh : (!ch'.isEmpty) = false → chT = [] ∧ (pretty = false → (if pretty then 2 * depth else 0) = 0) := by
      intro h
      refine ⟨?_, by intro hp; rw [hp]; rfl⟩
      cases ch' with
      | nil => rw [← hchT]; rfl
      | cons _ _ => simp at h
    have hk : pretty = false → (if pretty then 2 * depth else 0) = 0 := by intro hp; rw [hp]; rfl
    have s1 := nodeSize_eq meas_chars ht hp r1 r2 hx hl r4 (pretty := pretty) he hh hk hs
    have s2 := nodeSize_eq meas_bytes ht hp r1 r2 hx hl r4 (pretty := pretty) he hh hk hs
    have s3 := nodeBytes_eq (empty := tx'.isNone && ch'.isEmpty) (has := !ch'.isEmpty) ht hp r1 r2 hx hl r4 hk
    simp only [node2str]
    rw [e1, Res.ok_bind, e2, Res.ok_bind, e3, Res.ok_bind, e4, Res.ok_bind]
    rw [hemp, hhas, hind, s1, s2, Int.toNat_natCast, s3]
    exact mkStr_repr (assemble_cp ht hp r1 r2 hx hl r4 _ _ _ _) hs rfl rfl
theorem nodes_repr (pretty : Bool) : ∀ (l : List Node) (m : List Tree) (depth : Nat), NodesRepr l m →
    (∀ t ∈ renders pretty depth m, (enc t).length < 2^31) → ∃ r, nodes2str pretty depth l = .ok r ∧ Reprs r (renders pretty depth m)
  | [], m, depth, h, hs => by
    cases h
    exact ⟨[], by simp [nodes2str], by simp only [renders]; exact .nil⟩
  | n :: l, m, depth, h, hs => by
    cases h with
    | @cons _ t _ m hn hl =>
    simp only [renders] at hs ⊢
    obtain ⟨s, e, r⟩ := node_repr pretty n t depth hn (hs _ (by simp))
    obtain ⟨ss, e2, r2⟩ := nodes_repr pretty l m depth hl (fun t ht => hs t (by simp [ht]))
    refine ⟨s :: ss, ?_, .cons r r2⟩
    simp only [nodes2str]
    rw [e, Res.ok_bind, e2, Res.ok_bind]
    rfl
end

/-- C77: encoding a tree writes exactly the bytes for which it has allocated memory, and the string that it returns holds the
text of the tree, with its number of bytes and characters, if that text fits in a string. -/
theorem C77_encode {n : Node} {t : Tree} (h : NodeRepr n t) (pretty : Bool) (hs : (enc (render pretty 0 t)).length < 2^31) :
    ∃ r, encode n pretty = .ok r ∧ Repr r (render pretty 0 t) := node_repr pretty n t 0 h hs

end Verif.Xml
