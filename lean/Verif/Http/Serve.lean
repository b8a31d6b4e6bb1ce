import Verif.Http.Stream
/-!
# C67: the server hands over every request; C68: every response is sent; C69: when the connection is closed
-/
namespace Verif.Http
open Verif Verif.Bytes Verif.Str Verif.Search Verif.Http.Spec Verif.Big.TextSpec

/-- What happens to a server: the callback is installed, data arrive, the application responds. -/
inductive Event where
  | install
  | data (d : Bytes)
  | answer (i : Nat)

def serverStep (lower : Text → Text) (s : Server) : Event → Res Server
  | .install => install lower s
  | .data d => serverReceive lower s d
  | .answer i => .ok (respond s i)

def serverRun (lower : Text → Text) : Server → List Event → Res Server
  | s, [] => .ok s
  | s, e :: es => do
    let s ← serverStep lower s e
    serverRun lower s es

theorem serverRun_append (lower : Text → Text) : ∀ (es fs : List Event) (s s' : Server), serverRun lower s es = .ok s' →
    serverRun lower s (es ++ fs) = serverRun lower s' fs
  | [], fs, s, s', h => by cases h; rfl
  | e :: es, fs, s, s', h => by
    simp only [serverRun, List.cons_append] at h ⊢
    cases hs : serverStep lower s e with
    | ok s1 =>
      rw [hs, Res.ok_bind] at h
      rw [Res.ok_bind]
      exact serverRun_append lower es fs s1 s' h
    | raise e => rw [hs] at h; exact absurd h (by intro h; cases h)
    | ub => rw [hs] at h; exact absurd h (by intro h; cases h)
    | diverge => rw [hs] at h; exact absurd h (by intro h; cases h)

/-! ## Requests -/

/-- The pieces of one request arrive one after the other. -/
theorem pieces_run {lower : Text → Text} {w : Bytes} {r : Request} (hw : Parses (parseRequest lower) w r)
    (hmax : w.length + 4 < 2 ^ 31) : ∀ (ps : List Bytes) (s : Server), s.cb = true → s.buf ++ ps.flatten = w →
    s.buf.length < w.length →
    ∃ s', serverRun lower s (ps.map .data) = .ok s' ∧ s' = accept { s with buf := [] } r
  | [], s, hcb, h, hlt => by
    rw [List.flatten_nil, List.append_nil] at h
    rw [h] at hlt; omega
  | p :: ps, s, hcb, h, hlt => by
    simp only [List.map_cons, serverRun, serverStep]
    rw [List.flatten_cons, ← List.append_assoc] at h
    unfold serverReceive
    rw [if_neg (by rw [hcb]; decide)]
    by_cases hall : s.buf ++ p = w
    · have hrest : ps.flatten = [] := by
        rw [hall] at h
        simpa using h
      have h1 := hw.2.1 [] (by simpa using hmax)
      rw [List.append_nil] at h1
      rw [hall, h1, Res.ok_bind]
      simp only [Res.pure_eq, Res.ok_bind]
      -- the remaining pieces are empty
      have hempty : ∀ (qs : List Bytes) (t : Server), t.cb = true → t.buf = [] → qs.flatten = [] →
          serverRun lower t (qs.map .data) = .ok t := by
        intro qs
        induction qs with
        | nil => intros; rfl
        | cons q qs ih =>
          intro t ht hb hq
          rw [List.flatten_cons, List.append_eq_nil_iff] at hq
          simp only [List.map_cons, serverRun, serverStep]
          unfold serverReceive
          rw [if_neg (by rw [ht]; decide), hq.1, hb, List.append_nil, parse_nil hw, Res.ok_bind]
          simp only [Res.pure_eq, Res.ok_bind]
          rw [show ({ t with buf := [] } : Server) = t by rw [← hb]]
          exact ih t ht hb hq.2
      exact ⟨_, hempty ps _ hcb rfl hrest, rfl⟩
    · have hp : s.buf ++ p <+: w := ⟨ps.flatten, h⟩
      rw [hw.2.2 _ hp hall, Res.ok_bind]
      simp only [Res.pure_eq, Res.ok_bind]
      have hl := hp.length_le
      have hl2 : (s.buf ++ p).length ≠ w.length := fun he => hall (hp.eq_of_length he)
      obtain ⟨s', g1, g2⟩ := pieces_run hw hmax ps { s with buf := s.buf ++ p } hcb h (by show (s.buf ++ p).length < _; omega)
      exact ⟨s', g1, g2⟩

/-- `w` is a request as in `C65_request_partial`. -/
def RequestWire (lower : Text → Text) (w : Bytes) : Prop :=
  ∃ start fs body m p v, Wire lower w start fs body ∧ RequestLine start m p v

theorem requests_run (lower : Text → Text) : ∀ (pss : List (List Bytes)) (s : Server),
    (∀ ps ∈ pss, RequestWire lower ps.flatten ∧ ps.flatten.length + 4 < 2 ^ 31) → s.cb = true → s.buf = [] →
    ∃ rs s', List.Forall₂ (fun ps r => IsRequest lower (List.flatten ps) r) pss rs ∧
      serverRun lower s (pss.flatten.map .data) = .ok s' ∧ s'.handed = s.handed ++ rs ∧ s'.buf = [] ∧
      s'.queries = s.queries + pss.length
  | [], s, _, _, hb => ⟨[], s, .nil, rfl, by simp, hb, rfl⟩
  | ps :: pss, s, h, hcb, hb => by
    obtain ⟨⟨start, fs, body, m, p, v, h1, h2⟩, hmax⟩ := h ps (by simp)
    obtain ⟨r, g1, -, -, -, -, -, g2⟩ := C65_request_partial h1 h2 hmax
    obtain ⟨s1, j1, j2⟩ := pieces_run g2 hmax ps s hcb (by rw [hb]; rfl)
      (by rw [hb]; exact List.length_pos_iff.2 g2.1)
    obtain ⟨rs, s2, k1, k2, k3, k4, k5⟩ := requests_run lower pss s1 (fun x hx => h x (List.mem_cons_of_mem _ hx))
      (by rw [j2]; exact hcb) (by rw [j2]; rfl)
    refine ⟨r :: rs, s2, .cons g1 k1, ?_, ?_, k4, ?_⟩
    · rw [List.flatten_cons, List.map_append, serverRun_append lower _ _ _ _ j1, k2]
    · rw [k3, j2]; simp [accept]
    · rw [k5, j2]; simp [accept]; omega

/-- C67: the server hands the requests to the callback in order, whatever segments they arrive in. Missing: segments with parts
of two requests, and data that arrive before the callback is installed, see below. -/
theorem C67_server_partial (lower : Text → Text) (pss : List (List Bytes))
    (h : ∀ ps ∈ pss, RequestWire lower ps.flatten ∧ ps.flatten.length + 4 < 2 ^ 31) :
    ∃ rs s', List.Forall₂ (fun ps r => IsRequest lower (List.flatten ps) r) pss rs ∧
      serverRun lower Server.init (.install :: pss.flatten.map .data) = .ok s' ∧ s'.handed = rs ∧ s'.buf = [] := by
  have hi : serverStep lower Server.init .install = .ok { Server.init with cb := true } := rfl
  obtain ⟨rs, s', k1, k2, k3, k4, -⟩ := requests_run lower pss { Server.init with cb := true } h rfl rfl
  refine ⟨rs, s', k1, ?_, by simpa [Server.init] using k3, k4⟩
  simp only [serverRun]
  rw [hi, Res.ok_bind, k2]

/-- C67 does not hold for requests that arrive together: the second one is not handed over, however long the server waits. -/
theorem C67_refuted_pipelined {lower : Text → Text} {w1 w2 : Bytes} (h1 : RequestWire lower w1) (_h2 : RequestWire lower w2)
    (hmax : (w1 ++ w2).length + 4 < 2 ^ 31) : ∃ r s', IsRequest lower w1 r ∧
      serverRun lower Server.init [.install, .data (w1 ++ w2)] = .ok s' ∧ s'.handed = [r] ∧ s'.buf = w2 := by
  obtain ⟨start, fs, body, m, p, v, h1, h2⟩ := h1
  obtain ⟨r, g1, -, -, -, -, -, g2⟩ := C65_request_partial h1 h2 (by rw [List.length_append] at hmax; omega)
  have hi : serverStep lower Server.init .install = .ok { Server.init with cb := true } := rfl
  refine ⟨r, accept { Server.init with cb := true, buf := w2 } r, g1, ?_, rfl, rfl⟩
  simp only [serverRun]
  rw [hi, Res.ok_bind]
  have hd : serverStep lower { Server.init with cb := true } (.data (w1 ++ w2)) =
      .ok (accept { Server.init with cb := true, buf := w2 } r) := by
    show serverReceive lower _ _ = _
    unfold serverReceive
    rw [if_neg (by decide)]
    show (parseRequest lower ([] ++ (w1 ++ w2)) >>= _) = _
    rw [List.nil_append, g2.2.1 w2 hmax]
    rfl
  rw [hd]; rfl

/-- C67 does not hold for a request that arrives before the callback is installed: it is parsed and dropped. -/
theorem C67_refuted_early {lower : Text → Text} {w : Bytes} (h : RequestWire lower w) (hmax : w.length + 4 < 2 ^ 31) :
    ∃ s', serverRun lower Server.init [.data w, .install] = .ok s' ∧ s'.handed = [] ∧ s'.buf = [] ∧ s'.cb = true := by
  obtain ⟨start, fs, body, m, p, v, h1, h2⟩ := h
  obtain ⟨r, g1, -, -, -, -, -, g2⟩ := C65_request_partial h1 h2 hmax
  refine ⟨{ Server.init with cb := true }, ?_, rfl, rfl, rfl⟩
  have h3 := g2.2.1 [] (by simpa using hmax)
  rw [List.append_nil] at h3
  have hd : serverStep lower Server.init (.data w) = .ok { Server.init with buf := w } := rfl
  have hi : serverStep lower { Server.init with buf := w } .install = .ok { Server.init with cb := true } := by
    show install lower _ = _
    unfold install
    rw [if_pos (show w ≠ [] from g2.1)]
    show (parseRequest lower w >>= _) = _
    rw [h3]
    rfl
  simp only [serverRun]
  rw [hd, Res.ok_bind, hi]
  rfl

/-! ## Responses -/

theorem closeAfter_frame (s : Server) (r : Request) : (accept s r).sent = s.sent ∧ (accept s r).responses = s.responses ∧
    (accept s r).queries = s.queries + 1 ∧ (accept s r).cb = s.cb ∧ (accept s r).buf = s.buf ∧ (accept s r).version.isSome :=
  ⟨rfl, rfl, rfl, rfl, rfl, rfl⟩

/-- An event other than a response changes neither what was sent nor the number of responses, and the number of requests does
not decrease. -/
theorem step_frame {lower : Text → Text} {s s' : Server} {e : Event} (h : serverStep lower s e = .ok s')
    (he : ∀ i, e ≠ .answer i) : s'.sent = s.sent ∧ s'.responses = s.responses ∧ s.queries ≤ s'.queries := by
  cases e with
  | answer i => exact absurd rfl (he i)
  | install =>
    simp only [serverStep, install] at h
    split at h
    · cases hp : parseRequest lower s.buf with
      | ok p => rw [hp, Res.ok_bind] at h; cases h; exact ⟨rfl, rfl, Nat.le_refl _⟩
      | raise e => rw [hp] at h; cases h
      | ub => rw [hp] at h; cases h
      | diverge => rw [hp] at h; cases h
    · cases h; exact ⟨rfl, rfl, Nat.le_refl _⟩
  | data d =>
    simp only [serverStep, serverReceive] at h
    split at h
    · cases h; exact ⟨rfl, rfl, Nat.le_refl _⟩
    · cases hp : parseRequest lower (s.buf ++ d) with
      | ok p =>
        obtain ⟨o, b⟩ := p
        rw [hp, Res.ok_bind] at h
        cases o with
        | none => cases h; exact ⟨rfl, rfl, Nat.le_refl _⟩
        | some r => cases h; exact ⟨rfl, rfl, Nat.le_succ _⟩
      | raise e => rw [hp] at h; cases h
      | ub => rw [hp] at h; cases h
      | diverge => rw [hp] at h; cases h

/-- C68 does not hold once two requests wait for their responses: whatever happens afterwards, no response is sent. -/
theorem C68_refuted_stuck (lower : Text → Text) : ∀ (es : List Event) (s s' : Server), s.responses + 2 ≤ s.queries →
    serverRun lower s es = .ok s' → s'.sent = s.sent ∧ s'.responses + 2 ≤ s'.queries
  | [], s, s', h, hr => by cases hr; exact ⟨rfl, h⟩
  | e :: es, s, s', h, hr => by
    simp only [serverRun] at hr
    cases hs : serverStep lower s e with
    | ok s1 =>
      rw [hs, Res.ok_bind] at hr
      have key : s1.sent = s.sent ∧ s1.responses + 2 ≤ s1.queries := by
        by_cases he : ∃ i, e = .answer i
        · obtain ⟨i, rfl⟩ := he
          have : respond s i = s := by unfold respond; rw [if_neg (by omega)]
          simp only [serverStep, this] at hs
          cases hs
          exact ⟨rfl, h⟩
        · obtain ⟨k1, k2, k3⟩ := step_frame hs (fun i hi => he ⟨i, hi⟩)
          exact ⟨k1, by omega⟩
      obtain ⟨g1, g2⟩ := C68_refuted_stuck lower es s1 s' key.2 hr
      exact ⟨g1.trans key.1, g2⟩
    | raise e => rw [hs] at hr; cases hr
    | ub => rw [hs] at hr; cases hr
    | diverge => rw [hs] at hr; cases hr

/-- The state in which two requests wait is reached by two requests one after the other. -/
theorem C68_refuted_reachable {lower : Text → Text} {w1 w2 : Bytes} (h1 : RequestWire lower w1) (h2 : RequestWire lower w2)
    (hm1 : w1.length + 4 < 2 ^ 31) (hm2 : w2.length + 4 < 2 ^ 31) :
    ∃ s', serverRun lower Server.init [.install, .data w1, .data w2] = .ok s' ∧ s'.handed.length = 2 ∧ s'.responses + 2 ≤ s'.queries ∧
      ∀ es s'', serverRun lower s' es = .ok s'' → s''.sent = [] := by
  obtain ⟨rs, s', k1, k2, k3, k4, k5⟩ := requests_run lower [[w1], [w2]] { Server.init with cb := true } (by
    intro ps hps
    simp only [List.mem_cons, List.not_mem_nil, or_false] at hps
    rcases hps with rfl | rfl
    · simpa using ⟨h1, hm1⟩
    · simpa using ⟨h2, hm2⟩) rfl rfl
  have hi : serverStep lower Server.init .install = .ok { Server.init with cb := true } := rfl
  have hsent : s'.sent = [] ∧ s'.responses = 0 := by
    simp only [List.flatten_cons, List.flatten_nil, List.append_nil, List.cons_append, List.nil_append, List.map_cons, List.map_nil,
      serverRun] at k2
    cases ha : serverStep lower { Server.init with cb := true } (.data w1) with
    | ok a =>
      rw [ha, Res.ok_bind] at k2
      obtain ⟨f1, f2, -⟩ := step_frame ha (by intro i hi; cases hi)
      cases hb : serverStep lower a (.data w2) with
      | ok b =>
        rw [hb, Res.ok_bind] at k2
        cases k2
        obtain ⟨g1, g2, -⟩ := step_frame hb (by intro i hi; cases hi)
        exact ⟨g1.trans f1, g2.trans f2⟩
      | raise e => rw [hb] at k2; cases k2
      | ub => rw [hb] at k2; cases k2
      | diverge => rw [hb] at k2; cases k2
    | raise e => rw [ha] at k2; cases k2
    | ub => rw [ha] at k2; cases k2
    | diverge => rw [ha] at k2; cases k2
  have hq : s'.responses + 2 ≤ s'.queries := by
    rw [k5, hsent.2]; simp
  refine ⟨s', ?_, ?_, hq, ?_⟩
  · simp only [serverRun]
    rw [hi, Res.ok_bind]
    exact k2
  · rw [k3]
    have := k1.length_eq
    simp only [List.length_cons, List.length_nil] at this
    simp [Server.init]
    omega
  · intro es s'' hr
    rw [(C68_refuted_stuck lower es s' s'' hq hr).1, hsent.1]

/-- C68: if every request is answered before the next one arrives, the answers are sent, in order. -/
theorem answered_run (lower : Text → Text) : ∀ (l : List (List Bytes × Nat)) (s : Server),
    (∀ x ∈ l, RequestWire lower x.1.flatten ∧ x.1.flatten.length + 4 < 2 ^ 31) → s.cb = true → s.buf = [] →
    s.queries = s.responses →
    ∃ s', serverRun lower s (l.flatMap (fun x => x.1.map .data ++ [.answer x.2])) = .ok s' ∧
      s'.sent = s.sent ++ l.map Prod.snd ∧ s'.queries = s'.responses
  | [], s, _, _, _, hq => ⟨s, rfl, by simp, hq⟩
  | x :: l, s, h, hcb, hb, hq => by
    obtain ⟨⟨start, fs, body, m, p, v, h1, h2⟩, hmax⟩ := h x (by simp)
    obtain ⟨r, g1, -, -, -, -, -, g2⟩ := C65_request_partial h1 h2 hmax
    obtain ⟨s1, j1, j2⟩ := pieces_run g2 hmax x.1 s hcb (by rw [hb]; rfl)
      (by rw [hb]; exact List.length_pos_iff.2 g2.1)
    have hs1 : s1.queries = s1.responses + 1 := by rw [j2]; show s.queries + 1 = s.responses + 1; omega
    have hr : serverRun lower s1 [.answer x.2] = .ok (respond s1 x.2) := rfl
    have hresp : respond s1 x.2 = { s1 with
        sent := s1.sent ++ [x.2], closed := if s1.close then s1.closed + 1 else s1.closed, responses := s1.responses + 1 } := by
      unfold respond
      rw [if_pos hs1, if_pos (show s1.version.isSome = true by rw [j2]; rfl)]
    obtain ⟨s', k1, k2, k3⟩ := answered_run lower l (respond s1 x.2) (fun y hy => h y (List.mem_cons_of_mem _ hy))
      (by rw [hresp]; show s1.cb = true; rw [j2]; exact hcb) (by rw [hresp]; show s1.buf = []; rw [j2]; rfl)
      (by rw [hresp]; exact hs1)
    refine ⟨s', ?_, ?_, k3⟩
    · rw [List.flatMap_cons, List.append_assoc, serverRun_append lower _ _ _ _ j1, serverRun_append lower _ _ _ _ hr, k1]
    · rw [k2, hresp]
      show s1.sent ++ [x.2] ++ l.map Prod.snd = _
      rw [j2]
      show s.sent ++ [x.2] ++ l.map Prod.snd = _
      simp

/-- C68: if every request is answered before the next one arrives, the answers are sent, in order. Missing: all other cases,
see `C68_refuted_stuck`. -/
theorem C68_server_partial (lower : Text → Text) (l : List (List Bytes × Nat))
    (h : ∀ x ∈ l, RequestWire lower x.1.flatten ∧ x.1.flatten.length + 4 < 2 ^ 31) :
    ∃ s', serverRun lower Server.init (.install :: l.flatMap (fun x => x.1.map .data ++ [.answer x.2])) = .ok s' ∧
      s'.sent = l.map Prod.snd := by
  have hi : serverStep lower Server.init .install = .ok { Server.init with cb := true } := rfl
  obtain ⟨s', k1, k2, -⟩ := answered_run lower l { Server.init with cb := true } h rfl rfl rfl
  refine ⟨s', ?_, by simpa [Server.init] using k2⟩
  simp only [serverRun]
  rw [hi, Res.ok_bind, k1]

/-- C68: in no execution are more responses sent than requests were handed over. -/
theorem C68_no_more (lower : Text → Text) : ∀ (es : List Event) (s s' : Server), s.sent.length ≤ s.responses →
    s.responses ≤ s.queries → s.queries = s.handed.length → serverRun lower s es = .ok s' →
    s'.sent.length ≤ s'.handed.length
  | [], s, s', h1, h2, h3, hr => by cases hr; omega
  | e :: es, s, s', h1, h2, h3, hr => by
    simp only [serverRun] at hr
    cases hs : serverStep lower s e with
    | ok s1 =>
      rw [hs, Res.ok_bind] at hr
      have key : s1.sent.length ≤ s1.responses ∧ s1.responses ≤ s1.queries ∧ s1.queries = s1.handed.length := by
        cases e with
        | answer i =>
          simp only [serverStep] at hs
          cases hs
          unfold respond
          by_cases hc : s.queries = s.responses + 1
          · rw [if_pos hc]
            refine ⟨?_, ?_, h3⟩
            · show (if s.version.isSome = true then s.sent ++ [i] else s.sent).length ≤ s.responses + 1
              split
              · rw [List.length_append]; simp only [List.length_cons, List.length_nil]; omega
              · omega
            · show s.responses + 1 ≤ s.queries
              omega
          · rw [if_neg hc]; exact ⟨h1, h2, h3⟩
        | install =>
          simp only [serverStep, install] at hs
          split at hs
          · cases hp : parseRequest lower s.buf with
            | ok p => rw [hp, Res.ok_bind] at hs; cases hs; exact ⟨h1, h2, h3⟩
            | raise e => rw [hp] at hs; cases hs
            | ub => rw [hp] at hs; cases hs
            | diverge => rw [hp] at hs; cases hs
          · cases hs; exact ⟨h1, h2, h3⟩
        | data d =>
          simp only [serverStep, serverReceive] at hs
          split at hs
          · cases hs; exact ⟨h1, h2, h3⟩
          · cases hp : parseRequest lower (s.buf ++ d) with
            | ok p =>
              obtain ⟨o, b⟩ := p
              rw [hp, Res.ok_bind] at hs
              cases o with
              | none => cases hs; exact ⟨h1, h2, h3⟩
              | some r =>
                cases hs
                refine ⟨h1, Nat.le_succ_of_le h2, ?_⟩
                show s.queries + 1 = (s.handed ++ [r]).length
                rw [List.length_append, h3]; rfl
            | raise e => rw [hp] at hs; cases hs
            | ub => rw [hp] at hs; cases hs
            | diverge => rw [hp] at hs; cases hs
      exact C68_no_more lower es s1 s' key.1 key.2.1 key.2.2 hr
    | raise e => rw [hs] at hr; cases hr
    | ub => rw [hs] at hr; cases hr
    | diverge => rw [hs] at hr; cases hr

/-! ## Closing -/

/-- Whether the connection persists after a response (RFC 9112, 9.3), `opt` being the value of the header `connection` with a
single option in lower case: with 1.1 unless it is "close", with 1.0 only if it is "keep-alive". -/
def Persists (v : Bytes) (opt : Option Text) : Prop :=
  v = [49, 46, 49] ∧ opt ≠ some [99, 108, 111, 115, 101] ∨
    v = [49, 46, 48] ∧ opt = some [107, 101, 101, 112, 45, 97, 108, 105, 118, 101]

/-- C69: a response to the first request closes the connection exactly if HTTP says so. Missing: version 1.0 with "keep-alive". -/
theorem C69_close_partial (s : Server) (r : Request) (i : Nat) (hv : Version r.version)
    (h0 : s.version = none ∨ s.version = some r.version) (hq : s.queries = s.responses)
    (hk : r.version = [49, 46, 49] ∨ hget r.headers sConnection = none ∨ hget r.headers sConnection = some sClose) :
    (respond (accept s r) i).closed = s.closed ↔ Persists r.version (hget r.headers sConnection) := by
  have hver : s.version.getD r.version = r.version := by rcases h0 with h | h <;> rw [h] <;> rfl
  have hcl : (accept s r).closed = s.closed := by
    show (if s.version.isSome ∧ s.version.getD r.version ≠ r.version then s.closed + 1 else s.closed) = _
    rw [if_neg (by rw [hver]; simp)]
  have hc : (accept s r).close = closeAfter r.version r.headers s.close := by
    show closeAfter (s.version.getD r.version) r.headers s.close = _
    rw [hver]
  unfold respond
  rw [if_pos (show (accept s r).queries = (accept s r).responses + 1 from congrArg (· + 1) hq)]
  show (if (accept s r).close then (accept s r).closed + 1 else (accept s r).closed) = s.closed ↔ _
  rw [hcl, hc]
  unfold Persists closeAfter
  rcases hv with hv | hv
  · have n1 : ¬ ([49, 46, 49] : Bytes) = v10 := by decide
    have n2 : ([49, 46, 49] : Bytes) = v11 := by decide
    rw [hv, if_neg n1, if_pos n2]
    by_cases hg : hget r.headers sConnection = some sClose
    · rw [if_pos hg, if_pos rfl]
      simp [hg, sClose]
    · rw [if_neg hg, if_neg (by simp)]
      refine ⟨fun _ => .inl ⟨rfl, hg⟩, fun _ => rfl⟩
  · have n1 : ([49, 46, 48] : Bytes) = v10 := by decide
    rw [hv, if_pos n1]
    rcases hk with hk | hk | hk
    · rw [hv] at hk; exact absurd hk (by decide)
    · rw [hk]; simp
    · rw [hk]; simp [sClose]

/-- C69 does not hold for version 1.0 with "keep-alive": the first response closes the connection. -/
theorem C69_refuted_keepalive (r : Request) (i : Nat) (hv : r.version = [49, 46, 48])
    (hk : hget r.headers sConnection = some [107, 101, 101, 112, 45, 97, 108, 105, 118, 101]) :
    (respond (accept { Server.init with cb := true } r) i).closed = 1 ∧ Persists r.version (hget r.headers sConnection) := by
  refine ⟨?_, .inr ⟨hv, hk⟩⟩
  have hc : (accept { Server.init with cb := true } r).close = true := by
    show closeAfter r.version r.headers true = true
    unfold closeAfter
    have n1 : ([49, 46, 48] : Bytes) = v10 := by decide
    rw [hv, if_pos n1, hk]
    decide
  unfold respond
  rw [if_pos (show (accept { Server.init with cb := true } r).queries =
    (accept { Server.init with cb := true } r).responses + 1 from rfl)]
  show (if (accept { Server.init with cb := true } r).close then 0 + 1 else 0) = 1
  rw [if_pos hc]

end Verif.Http
