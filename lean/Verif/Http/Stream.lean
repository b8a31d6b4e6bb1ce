import Verif.Http.Parse
import Mathlib.Tactic.ByContra
/-!
# C66: the client delivers the responses in order, however the stream is cut into segments
-/
namespace Verif.Http
open Verif Verif.Bytes Verif.Str Verif.Search Verif.Http.Spec Verif.Big.TextSpec

/-! ## Start lines -/

theorem versionOf_spec {v : Bytes} (h : Version v) : versionOf ([72, 84, 84, 80, 47] ++ v) = .ok (some v) := by
  rcases h with rfl | rfl <;> decide +kernel

theorem version_chars {v : Bytes} (h : Version v) : ∀ c ∈ v, c = 49 ∨ c = 46 ∨ c = 48 := by
  rcases h with rfl | rfl <;> decide

theorem requestOf_spec {start v : Bytes} {m p : Text} (h : RequestLine start m p v) (hs : Headers) (b : Bytes)
    (hmax : start.length + 1 < 2 ^ 31) : requestOf ⟨start, hs, b⟩ = .ok (some ⟨m, p, v, hs, b⟩) := by
  obtain ⟨rfl, hv, hm, hp⟩ := h
  have e : enc m ++ [32] ++ enc p ++ [32, 72, 84, 84, 80, 47] ++ v =
      joinWith [32] [enc m, enc p, [72, 84, 84, 80, 47] ++ v] := by simp [joinWith]
  unfold requestOf
  simp only
  rw [e] at hmax ⊢
  rw [split_all _ (by simp) _ hmax, Res.ok_bind]
  · simp only
    rw [decode_enc (fun c hc => scalar_of_plain (hm c hc).1), Res.ok_bind, decode_enc (fun c hc => scalar_of_plain (hp c hc).1),
      Res.ok_bind]
    show (Res.ok (some (m, p)) >>= _) = _
    rw [Res.ok_bind]
    simp only
    rw [versionOf_spec hv]
    rfl
  · intro x hx h32
    simp only [List.mem_cons, List.not_mem_nil, or_false] at hx
    rcases hx with rfl | rfl | rfl
    · exact (hm 32 (mem_enc (by omega) h32)).2 rfl
    · exact (hp 32 (mem_enc (by omega) h32)).2 rfl
    · rw [List.mem_append] at h32
      rcases h32 with h32 | h32
      · simp at h32
      · have := version_chars hv 32 h32; omega

theorem responseOf_spec {start v : Bytes} {n : Nat} (h : StatusLine start v n) (hs : Headers) (b : Bytes)
    (hmax : start.length + 1 < 2 ^ 31) : responseOf ⟨start, hs, b⟩ = .ok (some ⟨v, n, hs, b⟩) := by
  obtain ⟨st, reason, rfl, hv, hn, hn63, hr, -, -⟩ := h
  obtain ⟨hne, hc⟩ := number_chars hn
  have hA : 32 ∉ [72, 84, 84, 80, 47] ++ v := by
    intro h32
    rw [List.mem_append] at h32
    rcases h32 with h32 | h32
    · simp at h32
    · have := version_chars hv 32 h32; omega
  have hS : 32 ∉ st := fun h32 => by have := hc 32 h32; omega
  obtain ⟨ps, hps⟩ : ∃ ps, split ([72, 84, 84, 80, 47] ++ v ++ [32] ++ st ++ reason) [32] none =
      .ok (([72, 84, 84, 80, 47] ++ v) :: st :: ps) := by
    obtain ⟨qs, hq, hs⟩ := C61_split_partial _ [32] hmax (by simp) none (by decide)
    rw [limit_none] at hs
    rcases hr with rfl | ⟨r, rfl⟩
    · refine ⟨[], ?_⟩
      rw [hq]
      have := splitsTo_join (c := 32) (s := []) ([72, 84, 84, 80, 47] ++ v) [st] (by
        intro x hx
        simp only [List.mem_cons, List.not_mem_nil, or_false] at hx
        rcases hx with rfl | rfl
        exacts [hA, hS])
      have e : joinWith [32] [[72, 84, 84, 80, 47] ++ v, st] = [72, 84, 84, 80, 47] ++ v ++ [32] ++ st ++ [] := by
        simp [joinWith]
      rw [e] at this
      rw [hs.unique this]
    · have hrl : r.length + [32].length < 2 ^ 31 := by
        simp only [List.length_append, List.length_cons, List.length_nil] at hmax ⊢; omega
      obtain ⟨ps, -, hs2⟩ := C61_split_partial r [32] hrl (by simp) none (by decide)
      rw [limit_none] at hs2
      refine ⟨ps, ?_⟩
      rw [hq]
      have e : [72, 84, 84, 80, 47] ++ v ++ [32] ++ st ++ 32 :: r = ([72, 84, 84, 80, 47] ++ v) ++ [32] ++ (st ++ [32] ++ r) := by
        simp
      rw [e] at hs
      have t : SplitsTo [32] none (([72, 84, 84, 80, 47] ++ v) ++ [32] ++ (st ++ [32] ++ r))
          (([72, 84, 84, 80, 47] ++ v) :: st :: ps) := by
        refine .more _ _ _ _ _ rfl ?_ (.more _ _ _ _ _ rfl ?_ hs2 (by decide)) (by decide)
        · rw [List.append_assoc]; exact noOcc hA
        · rw [List.append_assoc]; exact noOcc hS
      rw [hs.unique t]
  unfold responseOf
  simp only
  rw [hps, Res.ok_bind]
  simp only
  rw [versionOf_spec hv, Res.ok_bind]
  simp only
  have hd : decode st = .ok st := by
    have := decode_enc (t := st) (fun c h => by
      have := hc c h
      exact ⟨decide_eq_true (by omega), by omega⟩)
    rwa [enc_ascii (fun c h => (hc c h).2)] at this
  rw [hd, Res.ok_bind, number_ten hn hn63]
  rfl

/-! ## Complete and incomplete requests and responses -/

/-- `w` is a request (response) that means `r`. -/
def IsRequest (lower : Text → Text) (w : Bytes) (r : Request) : Prop :=
  ∃ start fs, Wire lower w start fs r.body ∧ RequestLine start r.method r.path r.version ∧ Gives lower fs (hget r.headers)

def IsResponse (lower : Text → Text) (w : Bytes) (r : Response) : Prop :=
  ∃ start fs n, Wire lower w start fs r.body ∧ StatusLine start r.version n ∧ r.status = n ∧ Gives lower fs (hget r.headers)

/-- `w` is parsed as `a`, and no proper beginning of it is. -/
def Parses {α} (parse : Bytes → Res (Option α × Bytes)) (w : Bytes) (a : α) : Prop :=
  w ≠ [] ∧ (∀ d, (w ++ d).length + 4 < 2 ^ 31 → parse (w ++ d) = .ok (some a, d)) ∧
    ∀ p, p <+: w → p ≠ w → parse p = .ok (none, p)

theorem wire_ne {lower : Text → Text} {w start : Bytes} {fs : List (Text × Text)} {body : Bytes}
    (h : Wire lower w start fs body) : w ≠ [] := by
  obtain ⟨lines, bw, rfl, -⟩ := h
  simp

theorem wire_start {lower : Text → Text} {w start : Bytes} {fs : List (Text × Text)} {body : Bytes}
    (h : Wire lower w start fs body) : start.length + 4 ≤ w.length := by
  obtain ⟨lines, bw, rfl, -⟩ := h
  have := joinWith_mem [13, 10] start lines start (by simp)
  simp only [List.length_append, List.length_cons, List.length_nil]
  omega

/-- C65: complete requests are parsed, incomplete ones wait. -/
theorem C65_request_partial {lower : Text → Text} {w start v : Bytes} {fs : List (Text × Text)} {body : Bytes} {m p : Text}
    (h : Wire lower w start fs body) (hr : RequestLine start m p v) (hw : w.length + 4 < 2 ^ 31) :
    ∃ r, IsRequest lower w r ∧ r.method = m ∧ r.path = p ∧ r.version = v ∧ r.body = body ∧
      Gives lower fs (hget r.headers) ∧ Parses (parseRequest lower) w r := by
  obtain ⟨hs, hg, hc⟩ := C65_complete_partial h hw
  refine ⟨⟨m, p, v, hs, body⟩, ⟨start, fs, h, hr, hg⟩, rfl, rfl, rfl, rfl, hg, wire_ne h, ?_, ?_⟩
  · intro d hmax
    unfold parseRequest
    rw [hc d hmax, Res.ok_bind]
    simp only
    rw [requestOf_spec hr _ _ (by have := wire_start h; omega)]
    rfl
  · intro q hq hne
    unfold parseRequest
    rw [C65_incomplete_partial h hw hq hne]
    rfl

/-- C65: complete responses are parsed, incomplete ones wait. -/
theorem C65_response_partial {lower : Text → Text} {w start v : Bytes} {fs : List (Text × Text)} {body : Bytes} {n : Nat}
    (h : Wire lower w start fs body) (hr : StatusLine start v n) (hw : w.length + 4 < 2 ^ 31) :
    ∃ r, IsResponse lower w r ∧ r.version = v ∧ r.status = n ∧ r.body = body ∧
      Gives lower fs (hget r.headers) ∧ Parses (parseResponse lower) w r := by
  obtain ⟨hs, hg, hc⟩ := C65_complete_partial h hw
  refine ⟨⟨v, n, hs, body⟩, ⟨start, fs, n, h, hr, rfl, hg⟩, rfl, rfl, rfl, hg, wire_ne h, ?_, ?_⟩
  · intro d hmax
    unfold parseResponse
    rw [hc d hmax, Res.ok_bind]
    simp only
    rw [responseOf_spec hr _ _ (by have := wire_start h; omega)]
    rfl
  · intro q hq hne
    unfold parseResponse
    rw [C65_incomplete_partial h hw hq hne]
    rfl

theorem parse_nil {α} {parse : Bytes → Res (Option α × Bytes)} {w : Bytes} {a : α} (h : Parses parse w a) :
    parse [] = .ok (none, []) := h.2.2 [] List.nil_prefix (fun he => h.1 he.symm)

/-! ## The client -/

/-- The segments in order. -/
def clientRun (lower : Text → Text) : Client → List Bytes → Res Client
  | c, [] => .ok c
  | c, d :: ds => do
    let c ← clientReceive lower c d
    clientRun lower c ds

/-- `b` does not hold all of the first of `ws`. -/
def Idle (b : Bytes) (ws : List Bytes) : Prop := ∀ w, ws.head? = some w → b.length < w.length

theorem parseResponse_nil (lower : Text → Text) : parseResponse lower [] = .ok (none, []) := rfl

theorem clientLoop_spec (lower : Text → Text) : ∀ (n : Nat) (ws : List Bytes) (rs : List Response) (c : Client),
    List.Forall₂ (Parses (parseResponse lower)) ws rs → c.buf <+: ws.flatten → ws.length ≤ c.waiting.length →
    c.buf.length < n → c.buf.length + 4 < 2 ^ 31 →
    ∃ k c', k ≤ ws.length ∧ clientLoop lower n c = .ok c' ∧ c.buf = (ws.take k).flatten ++ c'.buf ∧
      Idle c'.buf (ws.drop k) ∧ c'.delivered = c.delivered ++ (c.waiting.take k).zip (rs.take k) ∧
      c'.waiting = c.waiting.drop k
  | 0, _, _, c, _, _, _, hn, _ => by omega
  | n + 1, [], [], c, .nil, hp, _, _, _ => by
    have hb : c.buf = [] := List.prefix_nil.1 hp
    refine ⟨0, c, Nat.le_refl _, ?_, by simp [hb], by intro w hw; simp at hw, by simp, by simp⟩
    simp only [clientLoop]
    rw [hb, parseResponse_nil, Res.ok_bind]
    show Res.ok { c with buf := [] } = Res.ok c
    rw [← hb]
  | n + 1, w :: ws, r :: rs, c, .cons hw hws, hp, hlen, hn, hmax => by
    rw [List.flatten_cons] at hp
    simp only [clientLoop]
    rcases prefix_cases hp with ⟨h1, h2⟩ | ⟨q, hq, hqp⟩
    · refine ⟨0, c, Nat.zero_le _, ?_, by simp, ?_, by simp, by simp⟩
      · rw [hw.2.2 _ h1 h2, Res.ok_bind]
        rfl
      · intro x hx
        simp only [List.drop_zero, List.head?_cons, Option.some.injEq] at hx
        subst hx
        have h3 := h1.length_le
        have : c.buf.length ≠ w.length := fun he => h2 (h1.eq_of_length he)
        omega
    · obtain ⟨b, wt, dl, rc⟩ := c
      simp only at hq hn hmax hlen
      subst hq
      cases wt with
      | nil => simp at hlen
      | cons i is =>
        rw [hw.2.1 q hmax, Res.ok_bind]
        simp only
        have hwl : 0 < w.length := List.length_pos_iff.2 hw.1
        obtain ⟨k, c', g1, g2, g3, g4, g5, g6⟩ := clientLoop_spec lower n ws rs
          ⟨q, is, dl ++ [(i, r)], if closes r.headers then rc + 1 else rc⟩ hws hqp (by simpa using hlen)
          (by simp only [List.length_append] at hn ⊢; omega) (by simp only [List.length_append] at hmax ⊢; omega)
        refine ⟨k + 1, c', by simpa using g1, g2, ?_, g4, ?_, g6⟩
        · simp only at g3 ⊢
          rw [g3]; simp
        · rw [g5]; simp

theorem clientRun_spec (lower : Text → Text) : ∀ (segs ws : List Bytes) (rs : List Response) (c : Client),
    List.Forall₂ (Parses (parseResponse lower)) ws rs → c.buf ++ segs.flatten <+: ws.flatten → Idle c.buf ws →
    ws.length ≤ c.waiting.length → ws.flatten.length + 4 < 2 ^ 31 →
    ∃ k c', k ≤ ws.length ∧ clientRun lower c segs = .ok c' ∧ c.buf ++ segs.flatten = (ws.take k).flatten ++ c'.buf ∧
      Idle c'.buf (ws.drop k) ∧ c'.delivered = c.delivered ++ (c.waiting.take k).zip (rs.take k) ∧
      c'.waiting = c.waiting.drop k
  | [], ws, rs, c, _, hp, hi, _, _ => ⟨0, c, Nat.zero_le _, rfl, by simp, hi, by simp, by simp⟩
  | d :: ds, ws, rs, c, hw, hp, hi, hlen, hmax => by
    rw [List.flatten_cons, ← List.append_assoc] at hp
    have hp1 : c.buf ++ d <+: ws.flatten := (List.prefix_append _ _).trans hp
    have hl1 := hp1.length_le
    obtain ⟨k, c1, g1, g2, g3, g4, g5, g6⟩ := clientLoop_spec lower ((c.buf ++ d).length + 1) ws rs { c with buf := c.buf ++ d }
      hw hp1 hlen (by simp) (by show (c.buf ++ d).length + 4 < 2 ^ 31; omega)
    simp only at g3 g5 g6
    have hsplit : ws.flatten = (ws.take k).flatten ++ (ws.drop k).flatten := by
      rw [← List.flatten_append, List.take_append_drop]
    have hrl : rs.length = ws.length := hw.length_eq.symm
    obtain ⟨k2, c2, j1, j2, j3, j4, j5, j6⟩ := clientRun_spec lower ds (ws.drop k) (rs.drop k) c1 (List.forall₂_drop k hw)
      (by
        rw [hsplit, g3, List.append_assoc] at hp
        exact (List.prefix_append_right_inj _).1 hp) g4
      (by rw [g6, List.length_drop, List.length_drop]; omega)
      (by rw [hsplit, List.length_append] at hmax; omega)
    refine ⟨k + k2, c2, ?_, ?_, ?_, ?_, ?_, ?_⟩
    · rw [List.length_drop] at j1; omega
    · simp only [clientRun]
      unfold clientReceive
      rw [g2, Res.ok_bind, j2]
    · rw [List.flatten_cons, ← List.append_assoc, g3, List.append_assoc, j3, ← List.append_assoc, ← List.flatten_append,
        List.take_add]
    · rw [← List.drop_drop]; exact j4
    · rw [j5, g5, g6, List.append_assoc, List.take_add, List.take_add]
      congr 1
      rw [List.zip_append]
      rw [List.length_take, List.length_take]; omega
    · rw [j6, g6, List.drop_drop]

/-- `w` is a response as in `C65_response_partial`. -/
def ResponseWire (lower : Text → Text) (w : Bytes) : Prop :=
  ∃ start fs body v n, Wire lower w start fs body ∧ StatusLine start v n

theorem responses_of (lower : Text → Text) : ∀ (ws : List Bytes), (∀ w ∈ ws, ResponseWire lower w) →
    ws.flatten.length + 4 < 2 ^ 31 →
    ∃ rs, List.Forall₂ (IsResponse lower) ws rs ∧ List.Forall₂ (Parses (parseResponse lower)) ws rs
  | [], _, _ => ⟨[], .nil, .nil⟩
  | w :: ws, h, hmax => by
    rw [List.flatten_cons, List.length_append] at hmax
    obtain ⟨start, fs, body, v, n, h1, h2⟩ := h w (by simp)
    obtain ⟨r, g1, -, -, -, -, g2⟩ := C65_response_partial h1 h2 (by omega)
    obtain ⟨rs, g3, g4⟩ := responses_of lower ws (fun x hx => h x (List.mem_cons_of_mem _ hx)) (by omega)
    exact ⟨r :: rs, .cons g1 g3, .cons g2 g4⟩

/-- C66: whatever has been received of a sequence of responses, cut into whatever segments, the client has handed the complete
ones, in order, to the callbacks of the first outstanding requests, and keeps the rest. Covered: the responses of
`C65_response_partial`, at least as many outstanding requests as responses, at most 2 GiB. -/
theorem C66_client_partial (lower : Text → Text) (segs ws : List Bytes) (ids : List Nat)
    (hw : ∀ w ∈ ws, ResponseWire lower w) (hs : segs.flatten <+: ws.flatten) (hl : ws.length ≤ ids.length)
    (hmax : ws.flatten.length + 4 < 2 ^ 31) :
    ∃ rs k c', List.Forall₂ (IsResponse lower) ws rs ∧ clientRun lower ⟨[], ids, [], 0⟩ segs = .ok c' ∧ k ≤ ws.length ∧
      segs.flatten = (ws.take k).flatten ++ c'.buf ∧ (∀ w, ws[k]? = some w → c'.buf.length < w.length) ∧
      c'.delivered = (ids.take k).zip (rs.take k) ∧ c'.waiting = ids.drop k := by
  obtain ⟨rs, h1, h2⟩ := responses_of lower ws hw hmax
  obtain ⟨k, c', g1, g2, g3, g4, g5, g6⟩ := clientRun_spec lower segs ws rs ⟨[], ids, [], 0⟩ h2 (by simpa using hs) (by
    intro w hh
    cases h2 with
    | nil => simp at hh
    | cons hx _ =>
      simp only [List.head?_cons, Option.some.injEq] at hh
      subst hh
      exact List.length_pos_iff.2 hx.1) hl hmax
  refine ⟨rs, k, c', h1, g2, g1, by simpa using g3, ?_, by simpa using g5, g6⟩
  intro w hwk
  exact g4 w (by rw [List.head?_drop]; exact hwk)

/-- C66: once all has arrived, all is delivered. -/
theorem C66_client_all_partial (lower : Text → Text) (segs ws : List Bytes) (ids : List Nat)
    (hw : ∀ w ∈ ws, ResponseWire lower w) (hs : segs.flatten = ws.flatten) (hl : ids.length = ws.length)
    (hmax : ws.flatten.length + 4 < 2 ^ 31) :
    ∃ rs c', List.Forall₂ (IsResponse lower) ws rs ∧ clientRun lower ⟨[], ids, [], 0⟩ segs = .ok c' ∧
      c'.delivered = ids.zip rs ∧ c'.waiting = [] ∧ c'.buf = [] := by
  obtain ⟨rs, k, c', h1, g2, g1, g3, g4, g5, g6⟩ :=
    C66_client_partial lower segs ws ids hw (by rw [hs]) (by omega) hmax
  have hrl : rs.length = ws.length := h1.length_eq.symm
  have hsplit : ws.flatten = (ws.take k).flatten ++ (ws.drop k).flatten := by
    rw [← List.flatten_append, List.take_append_drop]
  rw [hs, hsplit] at g3
  have hb := List.append_cancel_left g3
  have hk : ws.drop k = [] := by
    by_contra hne
    obtain ⟨w, t, hwt⟩ := List.exists_cons_of_ne_nil hne
    have h1 := g4 w (by rw [← List.head?_drop, hwt]; rfl)
    rw [← hb, hwt, List.flatten_cons, List.length_append] at h1
    omega
  have hkl : ws.length ≤ k := List.drop_eq_nil_iff.1 hk
  refine ⟨rs, c', h1, g2, ?_, ?_, ?_⟩
  · rw [g5, List.take_of_length_le (by omega), List.take_of_length_le (by omega)]
  · rw [g6]; exact List.drop_eq_nil_iff.2 (by omega)
  · rw [← hb, hk]; rfl

end Verif.Http
