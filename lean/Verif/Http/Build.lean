import Verif.Http.Serve
/-!
# C70: `parse_request` reads what `build_request` writes
-/
namespace Verif.Http
open Verif Verif.Bytes Verif.Str Verif.Search Verif.Http.Spec Verif.Big.TextSpec

/-- Lower-casing of ASCII texts. -/
def LowersAscii (lower : Text → Text) : Prop :=
  ∀ t, (∀ c ∈ t, c < 128) → lower t = t.map (fun c => if 65 ≤ c ∧ c ≤ 90 then c + 32 else c)

/-- A header that can be sent. -/
def Sendable (f : Text × Text) : Prop :=
  (∀ c ∈ f.1, Plain c ∧ c ≠ 58) ∧ (∀ c ∈ f.2, Plain c) ∧ Trimmed f.1 ∧ Trimmed f.2

theorem headerText_field {f : Text × Text} (h : Sendable f) : Field (headerText f) f := by
  refine ⟨1, 0, ?_, h.1, h.2.1, h.2.2.1, h.2.2.2⟩
  unfold headerText
  simp

theorem headers_fields : ∀ {h : Headers}, (∀ f ∈ h, Sendable f) → List.Forall₂ Field (h.map headerText) h
  | [], _ => .nil
  | f :: h, hs => .cons (headerText_field (hs f (by simp))) (headers_fields (fun x hx => hs x (List.mem_cons_of_mem _ hx)))

theorem hset_new {h : Headers} {k : Text} (v : Text) (hk : ∀ f ∈ h, f.1 ≠ k) : hset h k v = h ++ [(k, v)] := by
  induction h with
  | nil => rfl
  | cons p t ih =>
    obtain ⟨a, b⟩ := p
    simp only [hset, List.cons_append]
    rw [if_neg (hk (a, b) (by simp)), ih (fun f hf => hk f (List.mem_cons_of_mem _ hf))]

/-- A default header is appended if no header with this lower-case name was given. -/
def opt (ls : List Text) (l k v : Text) : Headers := if l ∈ ls then [] else [(k, v)]

theorem default_spec {lower : Text → Text} {ls : List Text} {l k v : Text} {h : Headers} (hl : lower k = l)
    (hls : ∀ f ∈ h, lower f.1 ∈ ls ∨ lower f.1 ≠ l) : default_ ls l k v h = h ++ opt ls l k v := by
  unfold default_ opt
  by_cases h1 : l ∈ ls
  · rw [if_pos h1, if_pos h1, List.append_nil]
  · rw [if_neg h1, if_neg h1]
    refine hset_new v ?_
    intro f hf he
    rcases hls f hf with h2 | h2
    · rw [he, hl] at h2; exact h1 h2
    · rw [he] at h2; exact h2 hl

theorem mem_opt {ls : List Text} {l k v : Text} {f : Text × Text} (h : f ∈ opt ls l k v) : f = (k, v) ∧ l ∉ ls := by
  unfold opt at h
  split at h
  · simp at h
  · next hn => simp at h; exact ⟨h, hn⟩

theorem lower_host {lower} (hl : LowersAscii lower) : lower hHost = sHost := by rw [hl _ (by decide)]; decide
theorem lower_agent {lower} (hl : LowersAscii lower) : lower hUserAgent = sUserAgent := by rw [hl _ (by decide)]; decide
theorem lower_accept {lower} (hl : LowersAscii lower) : lower hAccept = sAccept := by rw [hl _ (by decide)]; decide
theorem lower_conn {lower} (hl : LowersAscii lower) : lower hConnection = sConnection := by rw [hl _ (by decide)]; decide
theorem lower_length {lower} (hl : LowersAscii lower) : lower hContentLength = sContentLength := by rw [hl _ (by decide)]; decide

/-- The headers that are sent: those given, followed by the defaults for names that were not given. -/
theorem withDefaults_spec {lower : Text → Text} (hl : LowersAscii lower) (host : Text) (h : Headers) (body : Bytes) :
    withDefaults lower host h body = h ++ opt (h.map fun p => lower p.1) sHost hHost host ++
      opt (h.map fun p => lower p.1) sUserAgent hUserAgent vUserAgent ++ opt (h.map fun p => lower p.1) sAccept hAccept vAccept ++
      opt (h.map fun p => lower p.1) sConnection hConnection vConnection ++
      opt (h.map fun p => lower p.1) sContentLength hContentLength (decText body.length) := by
  have h0 : ∀ f ∈ h, lower f.1 ∈ h.map (fun p => lower p.1) := fun f hf => List.mem_map.2 ⟨f, hf, rfl⟩
  unfold withDefaults
  simp only
  generalize h.map (fun p => lower p.1) = ls at *
  have key : ∀ {l k v : Text} {f : Text × Text} {l' : Text}, lower k = l → l ≠ l' → f ∈ opt ls l k v →
      lower f.1 ∈ ls ∨ lower f.1 ≠ l' := by
    intro l k v f l' h1 h2 h3
    obtain ⟨rfl, -⟩ := mem_opt h3
    exact .inr (by rw [h1]; exact h2)
  rw [default_spec (lower_host hl) (fun f hf => .inl (h0 f hf)), default_spec (lower_agent hl), default_spec (lower_accept hl),
    default_spec (lower_conn hl), default_spec (lower_length hl)]
  · intro f hf
    simp only [List.mem_append] at hf
    rcases hf with (((hf | hf) | hf) | hf) | hf
    · exact .inl (h0 f hf)
    · exact key (lower_host hl) (by decide) hf
    · exact key (lower_agent hl) (by decide) hf
    · exact key (lower_accept hl) (by decide) hf
    · exact key (lower_conn hl) (by decide) hf
  · intro f hf
    simp only [List.mem_append] at hf
    rcases hf with ((hf | hf) | hf) | hf
    · exact .inl (h0 f hf)
    · exact key (lower_host hl) (by decide) hf
    · exact key (lower_agent hl) (by decide) hf
    · exact key (lower_accept hl) (by decide) hf
  · intro f hf
    simp only [List.mem_append] at hf
    rcases hf with (hf | hf) | hf
    · exact .inl (h0 f hf)
    · exact key (lower_host hl) (by decide) hf
    · exact key (lower_agent hl) (by decide) hf
  · intro f hf
    simp only [List.mem_append] at hf
    rcases hf with hf | hf
    · exact .inl (h0 f hf)
    · exact key (lower_host hl) (by decide) hf

theorem number_dec (n : Nat) : Number 10 (decText n) n := by
  obtain ⟨ds, h1, h2, -, h4, h5⟩ := Big.dec_spec n
  refine ⟨ds, h1, h2, ?_, h5⟩
  unfold decText
  rw [h4]
  clear h1 h4 h5
  induction ds with
  | nil => exact .nil
  | cons d ds ih =>
    exact .cons (.inl ⟨h2 d (by simp), rfl⟩) (ih (fun x hx => h2 x (List.mem_cons_of_mem _ hx)))

theorem sendable_ascii {k v : Text} (h1 : ∀ c ∈ k, 33 ≤ c ∧ c < 127 ∧ c ≠ 58) (h2 : ∀ c ∈ v, 32 ≤ c ∧ c < 127) (h3 : Trimmed v) :
    Sendable (k, v) := by
  refine ⟨?_, ?_, ?_, h3⟩
  · intro c hc
    have := h1 c hc
    exact ⟨⟨.inl (by omega), by omega, by omega, by omega⟩, by omega⟩
  · intro c hc
    have := h2 c hc
    exact ⟨.inl (by omega), by omega, by omega, by omega⟩
  · constructor
    · intro he
      have := h1 32 (List.mem_of_head? he); omega
    · intro he
      have := h1 32 (List.mem_of_getLast? he); omega

theorem sendable_defaults {lower : Text → Text} (hl : LowersAscii lower) {host : Text} {h : Headers} (body : Bytes)
    (hh : ∀ f ∈ h, Sendable f) (hhost : (∀ c ∈ host, Plain c) ∧ Trimmed host) :
    ∀ f ∈ withDefaults lower host h body, Sendable f := by
  rw [withDefaults_spec hl]
  intro f hf
  simp only [List.mem_append] at hf
  rcases hf with ((((hf | hf) | hf) | hf) | hf) | hf
  · exact hh f hf
  · obtain ⟨rfl, -⟩ := mem_opt hf
    have : Sendable (hHost, []) := sendable_ascii (by decide) (by decide) (by constructor <;> decide)
    exact ⟨this.1, hhost.1, this.2.2.1, hhost.2⟩
  · obtain ⟨rfl, -⟩ := mem_opt hf
    exact sendable_ascii (by decide) (by decide) (by constructor <;> decide)
  · obtain ⟨rfl, -⟩ := mem_opt hf
    exact sendable_ascii (by decide) (by decide) (by constructor <;> decide)
  · obtain ⟨rfl, -⟩ := mem_opt hf
    exact sendable_ascii (by decide) (by decide) (by constructor <;> decide)
  · obtain ⟨rfl, -⟩ := mem_opt hf
    have hn := number_dec body.length
    refine sendable_ascii (by decide) ?_ (number_trimmed hn)
    obtain ⟨ds, -, h2, h3, -⟩ := hn
    generalize decText body.length = t at h3
    intro c hc
    induction h3 with
    | nil => simp at hc
    | @cons a b _ _ hd _ ih =>
      rcases List.mem_cons.1 hc with rfl | hc
      · have := h2 b (by simp)
        unfold IsDigit at hd
        omega
      · exact ih (fun d hd => h2 d (List.mem_cons_of_mem _ hd)) hc

theorem joinWith_end (sep x : List Nat) : ∀ (l : List Nat) (ls : List (List Nat)),
    joinWith sep (l :: ls ++ [x]) = joinWith sep (l :: ls) ++ sep ++ x
  | l, [] => rfl
  | l, l' :: ls => by
    have := joinWith_end sep x l' ls
    show l ++ sep ++ joinWith sep (l' :: ls ++ [x]) = l ++ sep ++ joinWith sep (l' :: ls) ++ sep ++ x
    rw [this]; simp

theorem opt_filter {lower : Text → Text} {h : Headers} {f : Text × Text} (hf : f ∈ h) {l k v : Text} (hlk : lower k = l) :
    (opt (h.map fun p => lower p.1) l k v).filter (fun g => decide (lower g.1 = lower f.1)) = [] := by
  rw [List.filter_eq_nil_iff]
  intro g hg
  obtain ⟨rfl, hn⟩ := mem_opt hg
  simp only [decide_eq_true_eq]
  intro he
  exact hn (List.mem_map.2 ⟨f, hf, by rw [← he, hlk]⟩)

theorem filter_unique {lower : Text → Text} {f : Text × Text} : ∀ (l : Headers), (l.map fun g => lower g.1).Nodup → f ∈ l →
    l.filter (fun g => decide (lower g.1 = lower f.1)) = [f]
  | [], _, hf => by simp at hf
  | a :: l, hnd, hf => by
    rw [List.map_cons, List.nodup_cons] at hnd
    rcases List.mem_cons.1 hf with rfl | hf
    · rw [List.filter_cons_of_pos (by simp), List.filter_eq_nil_iff.2]
      intro g hg
      simp only [decide_eq_true_eq]
      intro he
      exact hnd.1 (List.mem_map.2 ⟨g, hg, he⟩)
    · rw [List.filter_cons_of_neg, filter_unique l hnd.2 hf]
      simp only [decide_eq_true_eq]
      intro he
      exact hnd.1 (List.mem_map.2 ⟨f, hf, he.symm⟩)

/-- The size of what is sent. -/
def requestSize (lower : Text → Text) (host m p : Text) (v : Bytes) (h : Headers) (body : Bytes) : Nat :=
  (joinWith crlf ((enc m ++ [32] ++ enc p ++ [32, 72, 84, 84, 80, 47] ++ v) ::
    (withDefaults lower host h body).map headerText)).length + 4 + body.length

/-- C70: the request that `build_request` writes is the one that `parse_request` reads: method, path, version, body and, if the
lower-case names of the given headers differ, the given headers. Missing: names, values, methods and paths with CR or LF, and
headers that contain `Content-Length` or `Transfer-Encoding`, see below. -/
theorem C70_request_partial {lower : Text → Text} (hl : LowersAscii lower) {host m p : Text} {v : Bytes} {h : Headers} {body : Bytes}
    (hv : Version v) (hm : ∀ c ∈ m, Plain c ∧ c ≠ 32) (hp : ∀ c ∈ p, Plain c ∧ c ≠ 32) (hh : ∀ f ∈ h, Sendable f)
    (hhost : (∀ c ∈ host, Plain c) ∧ Trimmed host) (hcl : ∀ f ∈ h, lower f.1 ≠ sContentLength)
    (hmax : requestSize lower host m p v h body + 4 < 2 ^ 31) :
    ∃ w h' r, buildRequest lower host (enc m) (enc p) v h body = .ok (w, h') ∧ r.method = m ∧ r.path = p ∧ r.version = v ∧
      r.body = body ∧ ((h.map fun f => lower f.1).Nodup → ∀ f ∈ h, hget r.headers (lower f.1) = some f.2) ∧
      Parses (parseRequest lower) w r := by
  let start := enc m ++ [32] ++ enc p ++ [32, 72, 84, 84, 80, 47] ++ v
  let h' := withDefaults lower host h body
  let w := joinWith [13, 10] (start :: h'.map headerText) ++ [13, 10, 13, 10] ++ body
  have hsend := sendable_defaults hl body hh hhost
  have hspec := withDefaults_spec hl host h body
  have hline : RequestLine start m p v := ⟨rfl, hv, hm, hp⟩
  have hnone : sContentLength ∉ h.map (fun p => lower p.1) := by
    intro hmem
    obtain ⟨f, h1, h2⟩ := List.mem_map.1 hmem
    exact hcl f h1 h2
  have hval : valueOf lower h' contentLength = some (decText body.length) := by
    show valueOf lower (withDefaults lower host h body) contentLength = _
    rw [hspec]
    unfold valueOf
    rw [List.filter_append, show opt (h.map fun p => lower p.1) sContentLength hContentLength (decText body.length) =
      [(hContentLength, decText body.length)] by unfold opt; rw [if_neg hnone],
      List.filter_cons_of_pos (by simp only [decide_eq_true_eq]; exact lower_length hl), List.filter_nil, List.getLast?_append]
    rfl
  have hwire : Wire lower w start h' body := by
    have hnc : ∀ c, c = 13 ∨ c = 10 → c ∉ start := by
      intro c hc hmem
      simp only [start, List.mem_append] at hmem
      have hc128 : c < 128 := by omega
      rcases hmem with (((hmem | hmem) | hmem) | hmem) | hmem
      · obtain ⟨h1, h2⟩ := hm c (mem_enc hc128 hmem)
        rcases hc with rfl | rfl
        · exact h1.2.2.1 rfl
        · exact h1.2.2.2 rfl
      · simp at hmem; omega
      · obtain ⟨h1, h2⟩ := hp c (mem_enc hc128 hmem)
        rcases hc with rfl | rfl
        · exact h1.2.2.1 rfl
        · exact h1.2.2.2 rfl
      · simp at hmem; omega
      · have := version_chars hv c hmem; omega
    exact ⟨h'.map headerText, body, rfl, by simp [start], hnc 13 (.inl rfl), hnc 10 (.inr rfl), headers_fields hsend,
      .sized _ _ hval (number_dec _)⟩
  have hw4 : w.length + 4 < 2 ^ 31 := by
    unfold requestSize at hmax
    simp only [w, List.length_append, List.length_cons, List.length_nil]
    exact hmax
  obtain ⟨r, -, g1, g2, g3, g4, g5, g6⟩ := C65_request_partial hwire hline hw4
  refine ⟨w, h', r, ?_, g1, g2, g3, g4, ?_, g6⟩
  · unfold buildRequest
    simp only
    have hj : joinWith crlf (start :: h'.map headerText ++ [crlf]) = joinWith [13, 10] (start :: h'.map headerText) ++ [13, 10, 13, 10] := by
      rw [joinWith_end, List.append_assoc]; rfl
    have hjl : (joinWith crlf (start :: h'.map headerText ++ [crlf])).length < 2 ^ 31 := by
      rw [hj]
      simp only [w, List.length_append, List.length_cons, List.length_nil] at hw4 ⊢
      omega
    show (join crlf (start :: h'.map headerText ++ [crlf]) >>= _) = _
    rw [C61_join _ _ hjl, Res.ok_bind, hj]
    by_cases hb : body.length > 0
    · rw [if_pos hb]; rfl
    · rw [if_neg hb]
      have : body = [] := List.length_eq_zero_iff.1 (by omega)
      have hwb : joinWith [13, 10] (start :: h'.map headerText) ++ [13, 10, 13, 10] = w := by
        simp only [w, this, List.append_nil]
      rw [hwb]
      rfl
  · intro hnd f hf
    rw [g5]
    show valueOf lower (withDefaults lower host h body) (lower f.1) = _
    rw [hspec]
    unfold valueOf
    simp only [List.filter_append, opt_filter hf (lower_host hl), opt_filter hf (lower_agent hl), opt_filter hf (lower_accept hl),
      opt_filter hf (lower_conn hl), opt_filter hf (lower_length hl), List.append_nil]
    rw [filter_unique h hnd hf]
    rfl

/-! ## Responses -/

theorem lower_server {lower} (hl : LowersAscii lower) : lower hServer = sServer := by rw [hl _ (by decide)]; decide
theorem lower_type {lower} (hl : LowersAscii lower) : lower hContentType = sContentType := by rw [hl _ (by decide)]; decide
theorem lower_date {lower} (hl : LowersAscii lower) : lower hDate = sDate := by rw [hl _ (by decide)]; decide

theorem responseDefaults_spec {lower : Text → Text} (hl : LowersAscii lower) (date : Text) (h : Headers) :
    responseDefaults lower date h = h ++ opt (h.map fun p => lower p.1) sServer hServer vServer ++
      opt (h.map fun p => lower p.1) sContentType hContentType vContentType ++
      opt (h.map fun p => lower p.1) sDate hDate date := by
  have h0 : ∀ f ∈ h, lower f.1 ∈ h.map (fun p => lower p.1) := fun f hf => List.mem_map.2 ⟨f, hf, rfl⟩
  unfold responseDefaults
  simp only
  generalize h.map (fun p => lower p.1) = ls at *
  have key : ∀ {l k v : Text} {f : Text × Text} {l' : Text}, lower k = l → l ≠ l' → f ∈ opt ls l k v →
      lower f.1 ∈ ls ∨ lower f.1 ≠ l' := by
    intro l k v f l' h1 h2 h3
    obtain ⟨rfl, -⟩ := mem_opt h3
    exact .inr (by rw [h1]; exact h2)
  rw [default_spec (lower_server hl) (fun f hf => .inl (h0 f hf)), default_spec (lower_type hl), default_spec (lower_date hl)]
  · intro f hf
    simp only [List.mem_append] at hf
    rcases hf with (hf | hf) | hf
    · exact .inl (h0 f hf)
    · exact key (lower_server hl) (by decide) hf
    · exact key (lower_type hl) (by decide) hf
  · intro f hf
    simp only [List.mem_append] at hf
    rcases hf with hf | hf
    · exact .inl (h0 f hf)
    · exact key (lower_server hl) (by decide) hf

theorem sendable_length (n : Nat) : Sendable (hContentLength, decText n) := by
  have hn := number_dec n
  refine sendable_ascii (by decide) ?_ (number_trimmed hn)
  obtain ⟨ds, -, h2, h3, -⟩ := hn
  generalize decText n = t at h3
  intro c hc
  induction h3 with
  | nil => simp at hc
  | @cons a b _ _ hd _ ih =>
    rcases List.mem_cons.1 hc with rfl | hc
    · have := h2 b (by simp)
      unfold IsDigit at hd
      omega
    · exact ih (fun d hd => h2 d (List.mem_cons_of_mem _ hd)) hc

theorem sendable_response {lower : Text → Text} (hl : LowersAscii lower) {date : Text} {h : Headers}
    (hh : ∀ f ∈ h, Sendable f) (hdate : (∀ c ∈ date, Plain c) ∧ Trimmed date) :
    ∀ f ∈ responseDefaults lower date h, Sendable f := by
  rw [responseDefaults_spec hl]
  intro f hf
  simp only [List.mem_append] at hf
  rcases hf with ((hf | hf) | hf) | hf
  · exact hh f hf
  · obtain ⟨rfl, -⟩ := mem_opt hf
    exact sendable_ascii (by decide) (by decide) (by constructor <;> decide)
  · obtain ⟨rfl, -⟩ := mem_opt hf
    exact sendable_ascii (by decide) (by decide) (by constructor <;> decide)
  · obtain ⟨rfl, -⟩ := mem_opt hf
    have : Sendable (hDate, []) := sendable_ascii (by decide) (by decide) (by constructor <;> decide)
    exact ⟨this.1, hdate.1, this.2.2.1, hdate.2⟩

/-- The size of what is sent. -/
def responseSize (lower : Text → Text) (v : Bytes) (n : Nat) (reason : Option Bytes) (date : Text) (h : Headers) (b : Bytes) : Nat :=
  (joinWith crlf (([72, 84, 84, 80, 47] ++ v ++ [32] ++ decText n ++ reasonText reason) ::
    ((responseDefaults lower date h).filter (fun p => lower p.1 ≠ sContentLength) ++
      [(hContentLength, decText b.length)]).map headerText)).length + 4 + b.length

/-- C70: the response that `build_response` writes is the one that `parse_response` reads: version, status, body and, if the
lower-case names of the given headers differ, the given headers other than `Content-Length`. Missing: names and values with CR
or LF, and negative statuses. -/
theorem C70_response_partial {lower : Text → Text} (hl : LowersAscii lower) {date : Text} {v : Bytes} {n : Nat}
    {reason : Option Bytes} {h : Headers} {b : Bytes} (hv : Version v) (hn : n < 2 ^ 63)
    (hr : ∀ r, reason = some r → 13 ∉ r ∧ 10 ∉ r) (hh : ∀ f ∈ h, Sendable f)
    (hdate : (∀ c ∈ date, Plain c) ∧ Trimmed date) (hmax : responseSize lower v n reason date h b + 4 < 2 ^ 31) :
    ∃ (w : Bytes) (h' : Headers) (r : Response), buildResponse lower v n reason date h b = .ok (w, h') ∧ r.version = v ∧ r.status = (n : Int) ∧ r.body = b ∧
      ((h.map fun f => lower f.1).Nodup → ∀ f ∈ h, lower f.1 ≠ sContentLength → hget r.headers (lower f.1) = some f.2) ∧
      Parses (parseResponse lower) w r := by
  let start := [72, 84, 84, 80, 47] ++ v ++ [32] ++ decText n ++ reasonText reason
  let h' := responseDefaults lower date h
  let sent := h'.filter (fun p => lower p.1 ≠ sContentLength) ++ [(hContentLength, decText b.length)]
  let w := joinWith [13, 10] (start :: sent.map headerText) ++ [13, 10, 13, 10] ++ b
  have hsend : ∀ f ∈ sent, Sendable f := by
    intro f hf
    simp only [sent, List.mem_append, List.mem_singleton] at hf
    rcases hf with hf | rfl
    · exact sendable_response hl hh hdate f (List.mem_filter.1 hf).1
    · exact sendable_length _
  have hspec := responseDefaults_spec hl date h
  have hreason : ∀ c, c = 13 ∨ c = 10 → c ∉ reasonText reason := by
    intro c hc hmem
    simp only [reasonText] at hmem
    cases reason with
    | none => simp at hmem
    | some r =>
      have := hr r rfl
      rcases List.mem_cons.1 hmem with h1 | h1
      · omega
      · rcases hc with rfl | rfl
        · exact this.1 h1
        · exact this.2 h1
  have hline : StatusLine start v n := by
    refine ⟨decText n, reasonText reason, rfl, hv, number_dec n, hn, ?_, hreason 13 (.inl rfl), hreason 10 (.inr rfl)⟩
    simp only [reasonText]
    cases reason with
    | none => exact .inl rfl
    | some r => exact .inr ⟨r, rfl⟩
  have hval : valueOf lower sent contentLength = some (decText b.length) := by
    unfold valueOf
    simp only [sent]
    rw [List.filter_append, List.filter_cons_of_pos (by simp only [decide_eq_true_eq]; exact lower_length hl), List.filter_nil,
      List.getLast?_append]
    rfl
  have hwire : Wire lower w start sent b := by
    have hnc : ∀ c, c = 13 ∨ c = 10 → c ∉ start := by
      intro c hc hmem
      simp only [start, List.mem_append] at hmem
      rcases hmem with (((hmem | hmem) | hmem) | hmem) | hmem
      · simp at hmem; omega
      · have := version_chars hv c hmem; omega
      · simp at hmem; omega
      · have := (number_chars (number_dec n)).2 c hmem; omega
      · exact hreason c hc hmem
    exact ⟨sent.map headerText, b, rfl, by simp [start], hnc 13 (.inl rfl), hnc 10 (.inr rfl), headers_fields hsend,
      .sized _ _ hval (number_dec _)⟩
  have hw4 : w.length + 4 < 2 ^ 31 := by
    unfold responseSize at hmax
    simp only [w, List.length_append, List.length_cons, List.length_nil]
    exact hmax
  obtain ⟨r, -, g1, g2, g3, g5, g6⟩ := C65_response_partial hwire hline hw4
  refine ⟨w, h', r, ?_, g1, g2, g3, ?_, g6⟩
  · unfold buildResponse
    simp only
    have hj : joinWith crlf (start :: sent.map headerText ++ [crlf]) = joinWith [13, 10] (start :: sent.map headerText) ++ [13, 10, 13, 10] := by
      rw [joinWith_end, List.append_assoc]; rfl
    have hjl : (joinWith crlf (start :: sent.map headerText ++ [crlf])).length < 2 ^ 31 := by
      rw [hj]
      simp only [w, List.length_append, List.length_cons, List.length_nil] at hw4 ⊢
      omega
    show (join crlf (start :: sent.map headerText ++ [crlf]) >>= _) = _
    rw [C61_join _ _ hjl, Res.ok_bind, hj]
    by_cases hb : b.length > 0
    · rw [if_pos hb]; rfl
    · rw [if_neg hb]
      have : b = [] := List.length_eq_zero_iff.1 (by omega)
      have hwb : joinWith [13, 10] (start :: sent.map headerText) ++ [13, 10, 13, 10] = w := by
        simp only [w, this, List.append_nil]
      rw [hwb]
      rfl
  · intro hnd f hf hfl
    rw [g5]
    unfold valueOf
    simp only [sent]
    rw [List.filter_append, List.filter_cons_of_neg (by
        simp only [decide_eq_true_eq]
        rw [lower_length hl]
        exact fun he => hfl he.symm), List.filter_nil, List.append_nil, List.filter_filter]
    show ((List.filter _ (responseDefaults lower date h)).getLast?).map Prod.snd = _
    rw [hspec]
    have e : (fun g : Text × Text => decide (lower g.1 = lower f.1) && decide (lower g.1 ≠ sContentLength)) =
        fun g => decide (lower g.1 = lower f.1) := by
      funext g
      by_cases hg : lower g.1 = lower f.1
      · simp [hg, hfl]
      · simp [hg]
    rw [e]
    simp only [List.filter_append, opt_filter hf (lower_server hl), opt_filter hf (lower_type hl), opt_filter hf (lower_date hl),
      List.append_nil]
    rw [filter_unique h hnd hf]
    rfl

end Verif.Http
