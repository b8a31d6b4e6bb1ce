import Verif.Http.Lemmas
/-!
# C65: a complete message is parsed, whatever follows it; an incomplete one waits
-/
namespace Verif.Http
open Verif Verif.Bytes Verif.Str Verif.Search Verif.Http.Spec Verif.Big.TextSpec

/-! ## Headers -/

theorem hget_hset (h : Headers) (k v k' : Text) : hget (hset h k v) k' = if k = k' then some v else hget h k' := by
  induction h with
  | nil => rfl
  | cons p t ih =>
    obtain ⟨a, b⟩ := p
    simp only [hset]
    by_cases h1 : a = k
    · rw [if_pos h1]
      subst h1
      simp only [hget]
      by_cases h2 : a = k'
      · rw [if_pos h2, if_pos h2]
      · rw [if_neg h2, if_neg h2, if_neg h2]
    · rw [if_neg h1]
      simp only [hget]
      by_cases h2 : a = k'
      · rw [if_pos h2, if_pos h2, if_neg (fun he => h1 (h2.trans he.symm))]
      · rw [if_neg h2, if_neg h2, ih]

/-- What the loop over the header lines builds. -/
def collect (lower : Text → Text) : Headers → List (Text × Text) → Headers
  | h, [] => h
  | h, f :: fs => collect lower (hset h (lower f.1) f.2) fs

theorem collect_get (lower : Text → Text) (k : Text) : ∀ (fs : List (Text × Text)) (h : Headers),
    hget (collect lower h fs) k = (valueOf lower fs k).or (hget h k)
  | [], h => by simp [collect, valueOf]
  | f :: fs, h => by
    simp only [collect]
    rw [collect_get lower k fs, hget_hset]
    unfold valueOf
    by_cases hk : lower f.1 = k
    · rw [if_pos hk, List.filter_cons_of_pos (by simpa using hk), List.getLast?_cons]
      cases hg : (List.filter (fun f => decide (lower f.1 = k)) fs).getLast? <;> simp
    · rw [if_neg hk, List.filter_cons_of_neg (by simpa using hk)]

theorem collect_gives (lower : Text → Text) (fs : List (Text × Text)) : Gives lower fs (hget (collect lower [] fs)) := by
  intro k
  rw [collect_get]
  simp [hget]

theorem enc_rep (n : Nat) : enc (List.replicate n 32) = List.replicate n 32 :=
  enc_ascii (fun c hc => by rw [List.eq_of_mem_replicate hc]; omega)

theorem headerLine_field (lower : Text → Text) (h : Headers) {line : Bytes} {f : Text × Text} (hf : Field line f)
    (hmax : line.length + 1 < 2^31) : headerLine lower h line = .ok (some (hset h (lower f.1) f.2)) := by
  obtain ⟨a, b, rfl, hn, hv, tn, tv⟩ := hf
  have e : enc f.1 ++ [58] ++ List.replicate a 32 ++ enc f.2 ++ List.replicate b 32 =
      enc f.1 ++ [58] ++ enc (List.replicate a 32 ++ f.2 ++ List.replicate b 32) := by
    rw [enc_append, enc_append, enc_rep, enc_rep]; simp
  rw [e] at hmax ⊢
  unfold headerLine
  rw [split_two (by simp) hmax, Res.ok_bind]
  · simp only
    unfold headerField
    rw [decode_enc (fun c hc => scalar_of_plain (hn c hc).1), Res.ok_bind, decode_enc, Res.ok_bind]
    · rw [stripSp_self tn, stripSp_trim tv]; rfl
    · intro c hc
      simp only [List.mem_append, List.mem_replicate] at hc
      rcases hc with (⟨-, rfl⟩ | hc) | ⟨-, rfl⟩
      · exact ⟨by decide, by decide⟩
      · exact scalar_of_plain (hv c hc)
      · exact ⟨by decide, by decide⟩
  · rw [List.append_assoc]
    exact noOcc (fun hc => (hn 58 (mem_enc (by omega) hc)).2 rfl)

theorem headerLines_fields (lower : Text → Text) : ∀ {lines : List Bytes} {fs : List (Text × Text)} (h : Headers),
    List.Forall₂ Field lines fs → (∀ l ∈ lines, l.length + 1 < 2^31) →
    headerLines lower h lines = .ok (some (collect lower h fs))
  | _, _, h, .nil, _ => rfl
  | l :: ls, f :: fs, h, .cons hf hr, hmax => by
    simp only [headerLines]
    rw [headerLine_field lower h hf (hmax l (by simp)), Res.ok_bind]
    simp only
    rw [headerLines_fields lower _ hr (fun x hx => hmax x (List.mem_cons_of_mem _ hx))]
    rfl

theorem field_line {line : Bytes} {f : Text × Text} (hf : Field line f) : line ≠ [] ∧ 13 ∉ line := by
  obtain ⟨a, b, rfl, hn, hv, tn, tv⟩ := hf
  refine ⟨by simp, ?_⟩
  intro h
  simp only [List.mem_append, List.mem_replicate, List.mem_singleton] at h
  rcases h with (((h | h) | h) | h) | h
  · exact (hn 13 (mem_enc (by omega) h)).1.2.2.1 rfl
  · omega
  · omega
  · exact (hv 13 (mem_enc (by omega) h)).2.2.1 rfl
  · omega

theorem fields_lines : ∀ {lines : List Bytes} {fs : List (Text × Text)}, List.Forall₂ Field lines fs →
    ∀ l ∈ lines, l ≠ [] ∧ 13 ∉ l
  | _, _, .nil => by simp
  | _, _, .cons hf hr => by
    intro l hl
    rcases List.mem_cons.1 hl with rfl | hl
    · exact field_line hf
    · exact fields_lines hr l hl

/-! ## Chunks -/

theorem number_chars {base : Nat} {t : Text} {n : Nat} (h : Number base t n) : t ≠ [] ∧ ∀ c ∈ t, 48 ≤ c ∧ c < 128 := by
  obtain ⟨ds, h1, -, h3, -⟩ := h
  constructor
  · rintro rfl
    cases h3
    exact h1 rfl
  · clear h1
    intro c hc
    induction h3 with
    | nil => simp at hc
    | cons h _ ih =>
      rcases List.mem_cons.1 hc with rfl | hc
      · unfold IsDigit at h; omega
      · exact ih hc

theorem strip_none {s : Bytes} (h13 : 13 ∉ s) (h10 : 10 ∉ s) : strip s (some crlf) = .ok s := by
  obtain ⟨a, r, b, h1, h2, h3, h4⟩ := C62_strip s (some crlf)
  have key : ∀ c ∈ a ++ b, False := by
    intro c hc
    have h5 := h3 c hc
    have h6 : c ∈ s := by
      rw [h2]
      simp only [List.mem_append] at hc ⊢
      rcases hc with hc | hc
      · exact .inl (.inl hc)
      · exact .inr hc
    simp only [crlf, Option.getD_some, List.mem_cons, List.not_mem_nil, or_false] at h5
    rcases h5 with rfl | rfl
    · exact h13 h6
    · exact h10 h6
  have ea : a = [] := List.eq_nil_iff_forall_not_mem.2 (fun c hc => key c (by simp [hc]))
  have eb : b = [] := List.eq_nil_iff_forall_not_mem.2 (fun c hc => key c (by simp [hc]))
  rw [ea, eb, List.nil_append, List.append_nil] at h2
  rw [h1, h2]

theorem rstrip_none {s : Bytes} (h13 : 13 ∉ s) (h10 : 10 ∉ s) : rstrip s (some crlf) = .ok s := by
  obtain ⟨r, h1, b, h2, h3, -⟩ := C62_rstrip s (some crlf)
  have eb : b = [] := by
    rw [List.eq_nil_iff_forall_not_mem]
    intro c hc
    have h5 := h3 c hc
    have h6 : c ∈ s := by rw [h2]; simp [hc]
    simp only [crlf, Option.getD_some, List.mem_cons, List.not_mem_nil, or_false] at h5
    rcases h5 with rfl | rfl
    · exact h13 h6
    · exact h10 h6
  rw [eb, List.append_nil] at h2
  rw [h1, h2]

/-- The head of a chunk has arrived. -/
theorem chunkStep_size {sz : Bytes} {n : Nat} (hs : Size sz n) (q body : Bytes)
    (hmax : (sz ++ [13, 10] ++ q).length + 2 < 2^31) (hn : n < 2 ^ 63) :
    chunkStep (sz ++ [13, 10] ++ q) body = .ok (chunkData q body n) := by
  obtain ⟨hne, hc⟩ := number_chars hs.1
  have h13 : 13 ∉ sz := fun h => by have := hc 13 h; omega
  have h10 : 10 ∉ sz := fun h => by have := hc 10 h; omega
  unfold chunkStep
  rw [show crlf = [13, 10] from rfl, split_two (by simp) hmax (by rw [List.append_assoc]; exact noOcc h13), Res.ok_bind]
  simp only
  unfold chunkHeader
  rw [strip_none h13 h10, Res.ok_bind, if_neg hne]
  have hd : decode sz = .ok sz := by
    have := decode_enc (t := sz) (fun c h => by
      have := hc c h
      exact ⟨decide_eq_true (by omega), by omega⟩)
    rwa [enc_ascii (fun c h => (hc c h).2)] at this
  rw [hd]
  show (Res.ok (some sz) >>= _) = _
  rw [Res.ok_bind]
  simp only
  unfold chunkSize
  have ht : toInt sz (some 16) = .ok n := toInt_number (.inr rfl) hs.1 hs.2 (.inl rfl) hn
  rw [ht]
  rfl

theorem chunkStep_nohead {q body : Bytes} (h : Free crlf q) (hmax : q.length + 2 < 2^31) : chunkStep q body = .ok .stop := by
  unfold chunkStep
  rw [split_one (by decide) (by decide) hmax h]
  rfl

theorem chunkData_full (data q body : Bytes) :
    chunkData (data ++ [13, 10] ++ q) body data.length =
      if data = [] then .done q body else .next q (body ++ data) := by
  unfold chunkData
  rw [if_pos (by simp only [List.length_append]; omega)]
  have e1 : from_ (data ++ [13, 10] ++ q) data.length = [13, 10] ++ q := by
    unfold from_
    rw [if_neg (by omega), Int.toNat_natCast, List.append_assoc, List.drop_left]
  have e2 : upTo (data ++ [13, 10] ++ q) data.length = data := by
    unfold upTo
    rw [if_neg (by omega), Int.toNat_natCast, List.append_assoc, List.take_left]
  simp only [e1, e2]
  rw [if_neg (by simp)]
  show (if (data.length : Int) = 0 then Step.done q (body ++ data) else Step.next q (body ++ data)) = _
  cases data with
  | nil => simp
  | cons a t => rw [if_neg (by simp only [List.length_cons]; omega), if_neg (by simp)]

theorem chunkLoop_full {w b : Bytes} (h : Chunked w b) (d : Bytes) : ∀ (n : Nat) (body : Bytes), w.length ≤ n →
    (w ++ d).length + 2 < 2^31 → chunkLoop n (w ++ d) body = .ok (some (body ++ b, d)) := by
  induction h with
  | last sz hs =>
    intro n body hn hmax
    cases n with
    | zero => simp at hn
    | succ n =>
      simp only [chunkLoop]
      have e : sz ++ [13, 10] ++ [13, 10] ++ d = sz ++ [13, 10] ++ (([] ++ [13, 10]) ++ d) := by simp
      rw [e] at hmax ⊢
      rw [chunkStep_size hs _ _ hmax (by omega), Res.ok_bind]
      have := chunkData_full [] d body
      simp only [List.length_nil] at this
      rw [this, if_pos trivial]
      simp only [List.append_nil]
      rfl
  | chunk sz data wire b hs hne hw ih =>
    intro n body hn hmax
    cases n with
    | zero => simp at hn
    | succ n =>
      simp only [chunkLoop]
      have e : sz ++ [13, 10] ++ (data ++ [13, 10] ++ wire) ++ d = sz ++ [13, 10] ++ (data ++ [13, 10] ++ (wire ++ d)) := by simp
      rw [e] at hmax ⊢
      have hl : data.length < 2 ^ 63 := by simp only [List.length_append] at hmax; omega
      rw [chunkStep_size hs _ _ hmax hl, Res.ok_bind, chunkData_full, if_neg hne]
      simp only
      rw [ih n (body ++ data) (by simp only [List.length_append, List.length_cons] at hn; omega)
        (by simp only [List.length_append] at hmax ⊢; omega), List.append_assoc]

theorem prefix_cases {p a b : List Nat} (h : p <+: a ++ b) : (p <+: a ∧ p ≠ a) ∨ ∃ q, p = a ++ q ∧ q <+: b := by
  rcases List.prefix_or_prefix_of_prefix h (List.prefix_append a b) with h1 | ⟨q, rfl⟩
  · by_cases e : p = a
    · exact .inr ⟨[], by simpa using e, List.nil_prefix⟩
    · exact .inl ⟨h1, e⟩
  · exact .inr ⟨q, rfl, (List.prefix_append_right_inj a).1 h⟩

/-- A proper beginning of `a ++ crlf` does not contain the line end. -/
theorem free_before {a p : List Nat} (h13 : 13 ∉ a) (hp : p <+: a ++ [13, 10]) (hne : p ≠ a ++ [13, 10]) : Free crlf p := by
  intro j ho
  have hl : p.length < a.length + 2 := by
    have h1 := hp.length_le
    simp only [List.length_append, List.length_cons, List.length_nil] at h1
    have : p.length ≠ a.length + 2 := fun he => hne (hp.eq_of_length (by simpa using he))
    omega
  have h2 := ho.1
  simp only [crlf, List.length_cons, List.length_nil] at h2
  obtain ⟨r, hr⟩ := hp
  have := occurs_left (b := r) ho
  rw [hr] at this
  exact noOcc h13 j (by omega) this

theorem chunkData_short {q data : Bytes} (body : Bytes) (h : q <+: data ++ [13, 10]) (hne : q ≠ data ++ [13, 10]) :
    chunkData q body data.length = .stop := by
  have hl : q.length < data.length + 2 := by
    have h1 := h.length_le
    simp only [List.length_append, List.length_cons, List.length_nil] at h1
    have : q.length ≠ data.length + 2 := fun he => hne (h.eq_of_length (by simpa using he))
    omega
  unfold chunkData
  by_cases h1 : (q.length : Int) ≥ data.length
  · rw [if_pos h1]
    have e : (from_ q data.length).length < 2 := by
      unfold from_
      rw [if_neg (by omega), Int.toNat_natCast, List.length_drop]; omega
    simp only
    rw [if_pos]
    refine ⟨e, fun he => ?_⟩
    have := congrArg List.length he
    simp only [crlf, List.length_take, List.length_cons, List.length_nil] at this
    omega
  · rw [if_neg h1]

theorem chunkLoop_prefix {w b : Bytes} (h : Chunked w b) : ∀ (n : Nat) (p body : Bytes), p <+: w → p ≠ w → p.length < n →
    w.length + 2 < 2^31 → chunkLoop n p body = .ok none := by
  induction h with
  | last sz hs =>
    intro n p body hp hne hn hmax'
    have hmax : p.length + 2 < 2^31 := Nat.lt_of_le_of_lt (Nat.add_le_add_right hp.length_le 2) hmax'
    have h13 : 13 ∉ sz := fun h => by have := (number_chars hs.1).2 13 h; omega
    cases n with
    | zero => omega
    | succ n =>
      simp only [chunkLoop]
      rcases prefix_cases hp with ⟨h1, h2⟩ | ⟨q, rfl, hq⟩
      · rw [chunkStep_nohead (free_before h13 h1 h2) hmax]; rfl
      · rw [chunkStep_size hs _ _ hmax (by omega), Res.ok_bind]
        have := chunkData_short (q := q) (data := []) body hq (fun he => hne (by rw [he]; simp))
        simp only [List.length_nil] at this
        rw [this]; rfl
  | chunk sz data wire b hs hdne hw ih =>
    intro n p body hp hne hn hmax'
    have hmax : p.length + 2 < 2^31 := Nat.lt_of_le_of_lt (Nat.add_le_add_right hp.length_le 2) hmax'
    have h13 : 13 ∉ sz := fun h => by have := (number_chars hs.1).2 13 h; omega
    cases n with
    | zero => omega
    | succ n =>
      simp only [chunkLoop]
      rcases prefix_cases hp with ⟨h1, h2⟩ | ⟨q, rfl, hq⟩
      · rw [chunkStep_nohead (free_before h13 h1 h2) hmax]; rfl
      have hl : data.length < 2 ^ 63 := by simp only [List.length_append] at hmax'; omega
      rcases prefix_cases hq with ⟨h1, h2⟩ | ⟨r, rfl, hr⟩
      · rw [chunkStep_size hs _ _ hmax hl, Res.ok_bind, chunkData_short body h1 h2]; rfl
      · rw [chunkStep_size hs _ _ hmax hl, Res.ok_bind, chunkData_full, if_neg hdne]
        simp only
        refine ih n r _ hr (fun he => hne (by rw [he])) ?_ ?_
        · simp only [List.length_append, List.length_cons] at hn; omega
        · simp only [List.length_append] at hmax'; omega

/-! ## Bodies -/

theorem valueOf_mem {lower : Text → Text} {fs : List (Text × Text)} {k v : Text} (h : valueOf lower fs k = some v) :
    ∃ f ∈ fs, f.2 = v := by
  unfold valueOf at h
  rw [Option.map_eq_some_iff] at h
  obtain ⟨f, h1, h2⟩ := h
  exact ⟨f, (List.mem_filter.1 (List.mem_of_getLast? h1)).1, h2⟩

theorem fields_mem : ∀ {lines : List Bytes} {fs : List (Text × Text)}, List.Forall₂ Field lines fs → ∀ f ∈ fs,
    ∃ l ∈ lines, Field l f
  | _, _, .nil => by simp
  | _, _, .cons (a := a) hf hr => by
    intro f hfs
    rcases List.mem_cons.1 hfs with rfl | hfs
    · exact ⟨a, by simp, hf⟩
    · obtain ⟨l, h1, h2⟩ := fields_mem hr f hfs
      exact ⟨l, List.mem_cons_of_mem _ h1, h2⟩

theorem field_value {l : Bytes} {f : Text × Text} (h : Field l f) : Trimmed f.2 ∧ f.2.length ≤ l.length := by
  obtain ⟨a, b, rfl, -, -, -, t⟩ := h
  refine ⟨t, ?_⟩
  have := length_le_enc f.2
  simp only [List.length_append]
  omega

theorem number_trimmed {t : Text} {n base : Nat} (h : Number base t n) : Trimmed t := by
  obtain ⟨-, hc⟩ := number_chars h
  constructor
  · intro he
    have := hc 32 (List.mem_of_head? he)
    omega
  · intro he
    have := hc 32 (List.mem_of_getLast? he)
    omega

theorem number_ten {t : Text} {n : Nat} (h : Number 10 t n) (hn : n < 2 ^ 63) : toInt t none = .ok n := by
  refine toInt_number (.inl rfl) h ?_ (.inr ⟨rfl, rfl⟩) hn
  obtain ⟨ds, -, h2, h3, -⟩ := h
  intro r
  have key : ∀ {u : Nat}, u = 98 ∨ u = 66 → t ≠ 48 :: u :: r := by
    intro u hu he
    subst he
    match ds, h3 with
    | _ :: d :: _, .cons _ (.cons hd _) =>
      have := h2 d (by simp)
      unfold IsDigit at hd
      omega
  exact ⟨key (.inl rfl), key (.inr rfl)⟩

theorem sizedBody_full {v : Text} (body d : Bytes) (h : Number 10 v body.length) (hmax : body.length < 2 ^ 31) :
    sizedBody v (body ++ d) = .ok (some (body, d)) := by
  unfold sizedBody
  rw [stripSp_self (number_trimmed h), number_ten h (by omega), Res.ok_bind,
    if_pos (show ((body ++ d).length : Int) ≥ body.length by rw [List.length_append]; omega)]
  unfold upTo from_
  rw [if_neg (by omega), if_neg (by omega), Int.toNat_natCast, List.take_left, List.drop_left]
  rfl

theorem sizedBody_short {v : Text} {n : Nat} (q : Bytes) (h : Number 10 v n) (hmax : n < 2 ^ 31) (hq : q.length < n) :
    sizedBody v q = .ok none := by
  unfold sizedBody
  rw [stripSp_self (number_trimmed h), number_ten h (by omega), Res.ok_bind, if_neg (by omega)]
  rfl

theorem codedBody_chunked {cs : List Text} (r : Bytes) (hm : Spec.chunked ∈ cs) (hc : ∀ c ∈ cs, 44 ∉ c)
    (ht : Trimmed (joinWith [44] cs)) (hl : (joinWith [44] cs).length + 1 < 2 ^ 31) :
    codedBody (joinWith [44] cs) r = chunkLoop (r.length + 1) r [] := by
  unfold codedBody
  rw [stripSp_self ht, split_all cs (List.ne_nil_of_mem hm) hc hl, Res.ok_bind, if_pos (show sChunked ∈ cs from hm)]

theorem messageBody_full {lower : Text → Text} {lines : List Bytes} {fs : List (Text × Text)} {bw body : Bytes} {h : Headers}
    (hf : List.Forall₂ Field lines fs) (hl : ∀ l ∈ lines, l.length + 1 < 2^31) (hg : Gives lower fs (hget h))
    (hb : Body lower fs bw body) (d : Bytes) (hmax : (bw ++ d).length + 2 < 2 ^ 31) :
    messageBody h (bw ++ d) = .ok (some (body, d)) := by
  unfold messageBody
  rw [hg, hg]
  cases hb with
  | empty h1 h2 =>
    rw [show valueOf lower fs sContentLength = none from h1, show valueOf lower fs sTransferEncoding = none from h2]
    rfl
  | sized v _ h1 h2 =>
    rw [show valueOf lower fs sContentLength = some v from h1]
    exact sizedBody_full _ _ h2 (by simp only [List.length_append] at hmax; omega)
  | chunked cs _ _ h1 h2 h3 h4 h5 =>
    rw [show valueOf lower fs sContentLength = none from h1,
      show valueOf lower fs sTransferEncoding = some (joinWith [44] cs) from h2]
    obtain ⟨f, hfm, hfv⟩ := valueOf_mem h2
    obtain ⟨l, hlm, hlf⟩ := fields_mem hf f hfm
    obtain ⟨t1, t2⟩ := field_value hlf
    have t3 := hl l hlm
    rw [hfv] at t1 t2
    show codedBody (joinWith [44] cs) (bw ++ d) = _
    rw [codedBody_chunked _ h3 h4 t1 (by omega), chunkLoop_full h5 d _ _ (by rw [List.length_append]; omega) hmax]
    rfl

theorem messageBody_short {lower : Text → Text} {lines : List Bytes} {fs : List (Text × Text)} {bw body q : Bytes} {h : Headers}
    (hf : List.Forall₂ Field lines fs) (hl : ∀ l ∈ lines, l.length + 1 < 2^31) (hg : Gives lower fs (hget h))
    (hb : Body lower fs bw body) (hq : q <+: bw) (hne : q ≠ bw) (hmax : bw.length + 2 < 2 ^ 31) :
    messageBody h q = .ok none := by
  have hlen : q.length < bw.length := by
    have h1 := hq.length_le
    have h2 : q.length ≠ bw.length := fun he => hne (hq.eq_of_length he)
    omega
  unfold messageBody
  rw [hg, hg]
  cases hb with
  | empty h1 h2 => simp at hlen
  | sized v _ h1 h2 =>
    rw [show valueOf lower fs sContentLength = some v from h1]
    exact sizedBody_short _ h2 (by omega) hlen
  | chunked cs _ _ h1 h2 h3 h4 h5 =>
    rw [show valueOf lower fs sContentLength = none from h1,
      show valueOf lower fs sTransferEncoding = some (joinWith [44] cs) from h2]
    obtain ⟨f, hfm, hfv⟩ := valueOf_mem h2
    obtain ⟨l, hlm, hlf⟩ := fields_mem hf f hfm
    obtain ⟨t1, t2⟩ := field_value hlf
    have t3 := hl l hlm
    rw [hfv] at t1 t2
    show codedBody (joinWith [44] cs) q = _
    rw [codedBody_chunked _ h3 h4 t1 (by omega), chunkLoop_prefix h5 _ _ _ hq hne (by omega) hmax]

/-! ## Messages -/

theorem joinWith_mem (sep : List Nat) : ∀ (l : List Nat) (ls : List (List Nat)), ∀ x ∈ l :: ls,
    x.length ≤ (joinWith sep (l :: ls)).length
  | l, [], x, hx => by simp at hx; simp [joinWith, hx]
  | l, l' :: ls, x, hx => by
    rcases List.mem_cons.1 hx with rfl | hx
    · simp only [joinWith, List.length_append]; omega
    · have := joinWith_mem sep l' ls x hx
      simp only [joinWith, List.length_append] at *
      omega

theorem messageFrom_spec {lower : Text → Text} {start : Bytes} {lines : List Bytes} {fs : List (Text × Text)} (i r : Bytes)
    (h13 : 13 ∉ start) (h10 : 10 ∉ start) (hf : List.Forall₂ Field lines fs)
    (hmax : (joinWith crlf (start :: lines)).length + 2 < 2^31) :
    messageFrom lower i (joinWith crlf (start :: lines)) r = (do
      match ← messageBody (collect lower [] fs) r with
      | none => return (none, i)
      | some (b, rest) => return (some ⟨start, collect lower [] fs, b⟩, rest)) := by
  have hl := joinWith_mem crlf start lines
  have hf2 := fields_lines hf
  unfold messageFrom
  rw [show crlf = 13 :: [10] from rfl] at hmax hl ⊢
  rw [split_all (start :: lines) (by simp) _ hmax, Res.ok_bind]
  · rw [show (13 :: [10] : Bytes) = crlf from rfl, show (start :: lines).headD [] = start from rfl, rstrip_none h13 h10,
      Res.ok_bind, show (start :: lines).tail = lines from rfl, headerLines_fields lower [] hf, Res.ok_bind]
    · rfl
    intro l hlm
    have := hl l (List.mem_cons_of_mem _ hlm)
    omega
  · intro x hx
    rcases List.mem_cons.1 hx with rfl | hx
    · exact h13
    · exact (hf2 x hx).2

/-- C65: a complete message is parsed, and what follows it is left. Covered: names, values and start lines without CR, LF and
zero, values surrounded by spaces only, bodies without length, with `Content-Length` or in chunks, up to 2 GiB. Missing: chunk
sizes beginning with "0b", chunk extensions, trailers, and spaces in the list of transfer encodings, see below. -/
theorem C65_complete_partial {lower : Text → Text} {w start : Bytes} {fs : List (Text × Text)} {body : Bytes}
    (h : Wire lower w start fs body) (hw : w.length + 4 < 2 ^ 31) :
    ∃ hs, Gives lower fs (hget hs) ∧ ∀ d, (w ++ d).length + 4 < 2 ^ 31 →
      parseMessage lower (w ++ d) = .ok (some ⟨start, hs, body⟩, d) := by
  refine ⟨collect lower [] fs, collect_gives lower fs, ?_⟩
  intro d hmax
  obtain ⟨lines, bw, rfl, hne, h13, h10, hf, hb⟩ := h
  have e : joinWith [13, 10] (start :: lines) ++ [13, 10, 13, 10] ++ bw ++ d =
      joinWith crlf (start :: lines) ++ crlf2 ++ (bw ++ d) := by
    rw [List.append_assoc]; rfl
  rw [e] at hmax ⊢
  have hf2 := fields_lines hf
  unfold parseMessage
  rw [split_two (by decide) hmax, Res.ok_bind]
  · simp only
    have hjl : (joinWith crlf (start :: lines)).length + 2 < 2^31 := by simp only [List.length_append] at hmax; omega
    have hl := joinWith_mem crlf start lines
    rw [messageFrom_spec _ _ h13 h10 hf hjl, messageBody_full hf _ (collect_gives lower fs) hb d, Res.ok_bind]
    · rfl
    · simp only [List.length_append, crlf2, List.length_cons] at hmax ⊢; omega
    · intro l hlm
      have := hl l (List.mem_cons_of_mem _ hlm)
      omega
  · rw [List.append_assoc]
    refine head_end _ start lines ?_
    intro x hx
    rcases List.mem_cons.1 hx with rfl | hx
    · exact ⟨hne, h13⟩
    · exact hf2 x hx

/-- C65: as long as the message is incomplete, nothing is taken from the input. -/
theorem C65_incomplete_partial {lower : Text → Text} {w start : Bytes} {fs : List (Text × Text)} {body : Bytes}
    (h : Wire lower w start fs body) (hw : w.length + 4 < 2 ^ 31) {p : Bytes} (hp : p <+: w) (hne : p ≠ w) :
    parseMessage lower p = .ok (none, p) := by
  obtain ⟨lines, bw, rfl, hsne, h13, h10, hf, hb⟩ := h
  have hf2 := fields_lines hf
  have hpl := hp.length_le
  have hlines : ∀ x ∈ start :: lines, x ≠ [] ∧ 13 ∉ x := by
    intro x hx
    rcases List.mem_cons.1 hx with rfl | hx
    · exact ⟨hsne, h13⟩
    · exact hf2 x hx
  unfold parseMessage
  rcases prefix_cases hp with ⟨h1, h2⟩ | ⟨q, rfl, hq⟩
  · rw [split_one (by decide) (by decide) (by simp only [crlf2, List.length_cons, List.length_nil]; omega), Res.ok_bind]
    · rfl
    · intro j ho
      have hl : p.length < (joinWith [13, 10] (start :: lines)).length + 4 := by
        have h3 := h1.length_le
        simp only [List.length_append, List.length_cons, List.length_nil] at h3
        have : p.length ≠ (joinWith [13, 10] (start :: lines)).length + 4 := fun he => h2 (h1.eq_of_length (by simpa using he))
        omega
      have h4 := ho.1
      simp only [crlf2, List.length_cons, List.length_nil] at h4
      obtain ⟨r, hr⟩ := h1
      have := occurs_left (b := r) ho
      rw [hr] at this
      exact head_end _ start lines hlines j (by simp only [crlf]; omega) this
  · have e : joinWith [13, 10] (start :: lines) ++ [13, 10, 13, 10] ++ q = joinWith crlf (start :: lines) ++ crlf2 ++ q := rfl
    have e2 : joinWith [13, 10] (start :: lines) ++ [13, 10, 13, 10] ++ bw = joinWith crlf (start :: lines) ++ crlf2 ++ bw := rfl
    rw [e] at hpl ⊢
    rw [e2] at hpl hw
    rw [split_two (by decide) (by simp only [crlf2, List.length_cons, List.length_nil] at *; omega), Res.ok_bind]
    · simp only
      have hjl : (joinWith crlf (start :: lines)).length + 2 < 2^31 := by simp only [List.length_append] at hw; omega
      have hl := joinWith_mem crlf start lines
      rw [messageFrom_spec _ _ h13 h10 hf hjl,
        messageBody_short hf _ (collect_gives lower fs) hb hq (fun he => hne (by rw [he])), Res.ok_bind]
      · rfl
      · simp only [List.length_append, crlf2, List.length_cons] at hw ⊢; omega
      · intro l hlm
        have := hl l (List.mem_cons_of_mem _ hlm)
        omega
    · rw [List.append_assoc]
      exact head_end _ start lines hlines
end Verif.Http
