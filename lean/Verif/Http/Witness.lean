import Verif.Http.Build
/-!
# Examples for the theorems of this directory, and inputs for which the claims do not hold

`lowerA` is `str.lower` for ASCII.
-/
namespace Verif.Http
open Verif Verif.Bytes Verif.Str Verif.Search Verif.Http.Spec Verif.Big.TextSpec

def lowerA (t : Text) : Text := t.map (fun c => if 65 ≤ c ∧ c ≤ 90 then c + 32 else c)

theorem lowerA_ok : LowersAscii lowerA := fun _ _ => rfl

/-! ## Examples -/

/-- "HTTP/1.1 200 OK", "Content-Length: 2", "hi" -/
def okStart : Bytes := [72, 84, 84, 80, 47, 49, 46, 49, 32, 50, 48, 48, 32, 79, 75]
def okWire : Bytes := [72, 84, 84, 80, 47, 49, 46, 49, 32, 50, 48, 48, 32, 79, 75, 13, 10, 67, 111, 110, 116, 101, 110, 116, 45, 76, 101, 110, 103, 116, 104, 58, 32, 50, 13, 10, 13, 10, 104, 105]
/-- "HTTP/1.1 200 OK", "transfer-encoding: chunked", one chunk "hi". -/
def chunkWire : Bytes := [72, 84, 84, 80, 47, 49, 46, 49, 32, 50, 48, 48, 32, 79, 75, 13, 10, 116, 114, 97, 110, 115, 102, 101, 114, 45, 101, 110, 99, 111, 100, 105, 110, 103, 58, 32, 99, 104, 117, 110, 107, 101, 100, 13, 10, 13, 10, 50, 13, 10, 104, 105, 13, 10, 48, 13, 10, 13, 10]
/-- "GET /x HTTP/1.1", "Host: a" -/
def getWire : Bytes := [71, 69, 84, 32, 47, 120, 32, 72, 84, 84, 80, 47, 49, 46, 49, 13, 10, 72, 111, 115, 116, 58, 32, 97, 13, 10, 13, 10]

theorem ascii_plain {l : List Nat} (h : ∀ c ∈ l, 32 ≤ c ∧ c < 127) : ∀ c ∈ l, Plain c := fun c hc => by
  have := h c hc
  exact ⟨.inl (by omega), by omega, by omega, by omega⟩

theorem ascii_name {l : List Nat} {x : Nat} (h : ∀ c ∈ l, 32 ≤ c ∧ c < 127 ∧ c ≠ x) : ∀ c ∈ l, Plain c ∧ c ≠ x := fun c hc => by
  have := h c hc
  exact ⟨⟨.inl (by omega), by omega, by omega, by omega⟩, by omega⟩

theorem okLine : StatusLine okStart [49, 46, 49] 200 :=
  ⟨[50, 48, 48], [32, 79, 75], by decide, .inl rfl,
    ⟨[2, 0, 0], by decide, by decide, .cons (.inl (by decide)) (.cons (.inl (by decide)) (.cons (.inl (by decide)) .nil)), by decide⟩,
    by decide, .inr ⟨[79, 75], rfl⟩, by decide, by decide⟩

theorem okWire_wire : Wire lowerA okWire okStart [(hContentLength, [50])] [104, 105] := by
  refine ⟨[[67, 111, 110, 116, 101, 110, 116, 45, 76, 101, 110, 103, 116, 104, 58, 32, 50]], [104, 105], by decide, by decide, by decide, by decide,
    .cons ⟨1, 0, by decide, ascii_name (by decide), ascii_plain (by decide), by constructor <;> decide, by constructor <;> decide⟩ .nil,
    .sized [50] _ (by decide) ⟨[2], by decide, by decide, .cons (.inl (by decide)) .nil, by decide⟩⟩

theorem okWire_response : ResponseWire lowerA okWire := ⟨_, _, _, _, _, okWire_wire, okLine⟩

theorem chunkWire_wire : Wire lowerA chunkWire okStart [(sTransferEncoding, sChunked)] [104, 105] := by
  refine ⟨[[116, 114, 97, 110, 115, 102, 101, 114, 45, 101, 110, 99, 111, 100, 105, 110, 103, 58, 32, 99, 104, 117, 110, 107, 101, 100]], [50, 13, 10, 104, 105, 13, 10, 48, 13, 10, 13, 10],
    by decide, by decide, by decide, by decide,
    .cons ⟨1, 0, by decide, ascii_name (by decide), ascii_plain (by decide), by constructor <;> decide, by constructor <;> decide⟩ .nil,
    .chunked [sChunked] _ _ (by decide) (by decide) (by decide) (by decide) ?_⟩
  exact .chunk [50] [104, 105] _ []
    ⟨⟨[2], by decide, by decide, .cons (.inl (by decide)) .nil, by decide⟩, fun r => ⟨by simp, by simp⟩⟩ (by decide)
    (.last [48] ⟨⟨[0], by decide, by decide, .cons (.inl (by decide)) .nil, by decide⟩, fun r => ⟨by simp, by simp⟩⟩)

theorem chunkWire_response : ResponseWire lowerA chunkWire := ⟨_, _, _, _, _, chunkWire_wire, okLine⟩

theorem getWire_request : RequestWire lowerA getWire := by
  refine ⟨[71, 69, 84, 32, 47, 120, 32, 72, 84, 84, 80, 47, 49, 46, 49], [(hHost, [97])], [], [71, 69, 84], [47, 120], [49, 46, 49], ?_, ?_⟩
  · exact ⟨[[72, 111, 115, 116, 58, 32, 97]], [], by decide, by decide, by decide, by decide,
      .cons ⟨1, 0, by decide, ascii_name (by decide), ascii_plain (by decide), by constructor <;> decide, by constructor <;> decide⟩ .nil,
      .empty (by decide) (by decide)⟩
  · exact ⟨by decide, .inl rfl, ascii_name (by decide), ascii_name (by decide)⟩

/-- C65: both responses are parsed with what follows left over, and wait for their last byte. -/
example : ∃ hs hs', parseMessage lowerA (okWire ++ [33]) = .ok (some ⟨okStart, hs, [104, 105]⟩, [33]) ∧
    parseMessage lowerA (chunkWire ++ [33]) = .ok (some ⟨okStart, hs', [104, 105]⟩, [33]) ∧
    parseMessage lowerA (okWire.take 37) = .ok (none, okWire.take 37) := by
  obtain ⟨hs, -, h1⟩ := C65_complete_partial okWire_wire (by decide)
  obtain ⟨hs', -, h2⟩ := C65_complete_partial chunkWire_wire (by decide)
  exact ⟨hs, hs', h1 [33] (by decide), h2 [33] (by decide),
    C65_incomplete_partial okWire_wire (by decide) (List.take_prefix _ _) (by decide)⟩

/-- C66: three segments that are cut within the responses. -/
example : ∃ rs c', List.Forall₂ (IsResponse lowerA) [okWire, chunkWire] rs ∧
    clientRun lowerA ⟨[], [7, 8], [], 0⟩ [okWire.take 5, okWire.drop 5 ++ chunkWire.take 20, chunkWire.drop 20] = .ok c' ∧
    c'.delivered = [7, 8].zip rs ∧ c'.waiting = [] ∧ c'.buf = [] := by
  refine C66_client_all_partial lowerA _ [okWire, chunkWire] [7, 8] ?_ (by decide) rfl (by decide)
  intro w hw
  simp only [List.mem_cons, List.not_mem_nil, or_false] at hw
  rcases hw with rfl | rfl
  · exact okWire_response
  · exact chunkWire_response

/-- C67, C68: two requests, the first in two pieces. -/
example : ∃ rs s', List.Forall₂ (fun ps r => IsRequest lowerA (List.flatten ps) r) [[getWire.take 5, getWire.drop 5], [getWire]] rs ∧
    serverRun lowerA Server.init (.install :: [[getWire.take 5, getWire.drop 5], [getWire]].flatten.map .data) = .ok s' ∧
    s'.handed = rs ∧ s'.buf = [] := by
  refine C67_server_partial lowerA _ ?_
  intro ps hps
  simp only [List.mem_cons, List.not_mem_nil, or_false] at hps
  rcases hps with rfl | rfl
  · exact ⟨(show [getWire.take 5, getWire.drop 5].flatten = getWire by decide) ▸ getWire_request, by decide⟩
  · exact ⟨(show [getWire].flatten = getWire by decide) ▸ getWire_request, by decide⟩

example : ∃ s', serverRun lowerA Server.init (.install :: [([getWire], 3), ([getWire], 4)].flatMap
    (fun x => x.1.map .data ++ [.answer x.2])) = .ok s' ∧ s'.sent = [3, 4] := by
  refine C68_server_partial lowerA [([getWire], 3), ([getWire], 4)] ?_
  intro x hx
  simp only [List.mem_cons, List.not_mem_nil, or_false] at hx
  rcases hx with rfl | rfl
  · exact ⟨(show [getWire].flatten = getWire by decide) ▸ getWire_request, by decide⟩
  · exact ⟨(show [getWire].flatten = getWire by decide) ▸ getWire_request, by decide⟩

/-- C69 -/
example : (respond (accept { Server.init with cb := true } ⟨[], [], [49, 46, 49], [], []⟩) 0).closed = 0 ∧
    (respond (accept { Server.init with cb := true } ⟨[], [], [49, 46, 49], [(sConnection, sClose)], []⟩) 0).closed = 1 ∧
    (respond (accept { Server.init with cb := true } ⟨[], [], [49, 46, 48], [], []⟩) 0).closed = 1 := by decide

/-- C70: a request and a response with one header. -/
example : ∃ w h' r, buildRequest lowerA [97] (enc [71, 69, 84]) (enc [47, 120]) [49, 46, 49] [([88], [121, 32, 122])] [1, 2] = .ok (w, h') ∧
    r.method = [71, 69, 84] ∧ r.path = [47, 120] ∧ r.version = [49, 46, 49] ∧ r.body = [1, 2] ∧
    (([([88], [121, 32, 122])].map fun f => lowerA f.1).Nodup → ∀ f ∈ [([88], [121, 32, 122])], hget r.headers (lowerA f.1) = some f.2) ∧
    Parses (parseRequest lowerA) w r :=
  C70_request_partial lowerA_ok (.inl rfl) (ascii_name (by decide)) (ascii_name (by decide))
    (by
      intro f hf
      simp only [List.mem_singleton] at hf
      subst hf
      exact sendable_ascii (by decide) (by decide) (by constructor <;> decide))
    ⟨ascii_plain (by decide), by constructor <;> decide⟩ (by decide) (by decide +kernel)

example : ∃ (w : Bytes) (h' : Headers) (r : Response),
    buildResponse lowerA [49, 46, 49] 200 (some [79, 75]) [100] [([88], [121, 32, 122])] [1, 2] = .ok (w, h') ∧
    r.version = [49, 46, 49] ∧ r.status = (200 : Nat) ∧ r.body = [1, 2] ∧
    (([([88], [121, 32, 122])].map fun f => lowerA f.1).Nodup → ∀ f ∈ [([88], [121, 32, 122])], lowerA f.1 ≠ sContentLength →
      hget r.headers (lowerA f.1) = some f.2) ∧ Parses (parseResponse lowerA) w r :=
  C70_response_partial lowerA_ok (.inl rfl) (by decide) (by intro r hr; cases hr; decide)
    (by
      intro f hf
      simp only [List.mem_singleton] at hf
      subst hf
      exact sendable_ascii (by decide) (by decide) (by constructor <;> decide))
    ⟨ascii_plain (by decide), by constructor <;> decide⟩ (by decide +kernel)

/-! ## C65 does not hold -/

/-- … for a list of transfer encodings with a space: the response "HTTP/1.1 200 OK", "transfer-encoding: gzip, chunked" with an empty
chunked body is complete, and is never taken out. -/
theorem C65_refuted_list : parseMessage lowerA [72, 84, 84, 80, 47, 49, 46, 49, 32, 50, 48, 48, 32, 79, 75, 13, 10, 116, 114, 97, 110, 115, 102, 101, 114, 45, 101, 110, 99, 111, 100, 105, 110, 103, 58, 32, 103, 122, 105, 112, 44, 32, 99, 104, 117, 110, 107, 101, 100, 13, 10, 13, 10, 48, 13, 10, 13, 10] =
    .ok (none, [72, 84, 84, 80, 47, 49, 46, 49, 32, 50, 48, 48, 32, 79, 75, 13, 10, 116, 114, 97, 110, 115, 102, 101, 114, 45, 101, 110, 99, 111, 100, 105, 110, 103, 58, 32, 103, 122, 105, 112, 44, 32, 99, 104, 117, 110, 107, 101, 100, 13, 10, 13, 10, 48, 13, 10, 13, 10]) := by decide +kernel

/-- … for a chunk size with leading zero that begins with "0b": the chunk of eleven bytes "0b", "hello world" is skipped, the body
is empty. -/
theorem C65_refuted_mark : parseMessage lowerA [72, 84, 84, 80, 47, 49, 46, 49, 32, 50, 48, 48, 32, 79, 75, 13, 10, 116, 114, 97, 110, 115, 102, 101, 114, 45, 101, 110, 99, 111, 100, 105, 110, 103, 58, 32, 99, 104, 117, 110, 107, 101, 100, 13, 10, 13, 10, 48, 98, 13, 10, 104, 101, 108, 108, 111, 32, 119, 111, 114, 108, 100, 13, 10, 48, 13, 10, 13, 10] =
    .ok (some ⟨okStart, [(sTransferEncoding, sChunked)], []⟩, []) := by decide +kernel

/-- … for chunk extensions: of the chunk "2;x", "hi" nothing is in the body. -/
theorem C65_refuted_extension : parseMessage lowerA [72, 84, 84, 80, 47, 49, 46, 49, 32, 50, 48, 48, 32, 79, 75, 13, 10, 116, 114, 97, 110, 115, 102, 101, 114, 45, 101, 110, 99, 111, 100, 105, 110, 103, 58, 32, 99, 104, 117, 110, 107, 101, 100, 13, 10, 13, 10, 50, 59, 120, 13, 10, 104, 105, 13, 10, 48, 13, 10, 13, 10] =
    .ok (some ⟨okStart, [(sTransferEncoding, sChunked)], []⟩, []) := by decide +kernel

/-- … for trailers: of "a: b" after the last chunk " b" and two line ends are left, as the beginning of the next message. -/
theorem C65_refuted_trailer : parseMessage lowerA [72, 84, 84, 80, 47, 49, 46, 49, 32, 50, 48, 48, 32, 79, 75, 13, 10, 116, 114, 97, 110, 115, 102, 101, 114, 45, 101, 110, 99, 111, 100, 105, 110, 103, 58, 32, 99, 104, 117, 110, 107, 101, 100, 13, 10, 13, 10, 48, 13, 10, 97, 58, 32, 98, 13, 10, 13, 10] =
    .ok (some ⟨okStart, [(sTransferEncoding, sChunked)], []⟩, [32, 98, 13, 10, 13, 10]) := by decide +kernel

/-- … for a negative `Content-Length`: the message is taken to be complete, and its body depends on what has arrived. -/
theorem C65_refuted_negative :
    parseMessage lowerA [72, 84, 84, 80, 47, 49, 46, 49, 32, 50, 48, 48, 32, 79, 75, 13, 10, 67, 111, 110, 116, 101, 110, 116, 45, 76, 101, 110, 103, 116, 104, 58, 32, 45, 49, 13, 10, 13, 10, 97, 98] =
      .ok (some ⟨okStart, [(sContentLength, [45, 49])], [97]⟩, [98]) ∧
    parseMessage lowerA [72, 84, 84, 80, 47, 49, 46, 49, 32, 50, 48, 48, 32, 79, 75, 13, 10, 67, 111, 110, 116, 101, 110, 116, 45, 76, 101, 110, 103, 116, 104, 58, 32, 45, 49, 13, 10, 13, 10, 97, 98, 99] =
      .ok (some ⟨okStart, [(sContentLength, [45, 49])], [97, 98]⟩, [99]) := by decide +kernel

/-! ## C66 does not hold -/

theorem raise_invalid {lower : Text → Text} {start : Bytes} {lines : List Bytes} {fs : List (Text × Text)} {v : Text}
    (hne : start ≠ []) (h13 : 13 ∉ start) (h10 : 10 ∉ start) (hf : List.Forall₂ Field lines fs)
    (hv : valueOf lower fs contentLength = some v) (hi : toInt (stripSp v) none = .raise .valueError) (d : Bytes)
    (hmax : (joinWith [13, 10] (start :: lines) ++ [13, 10, 13, 10] ++ d).length + 4 < 2 ^ 31) :
    parseMessage lower (joinWith [13, 10] (start :: lines) ++ [13, 10, 13, 10] ++ d) = .raise .valueError := by
  have hlines : ∀ x ∈ start :: lines, x ≠ [] ∧ 13 ∉ x := by
    intro x hx
    rcases List.mem_cons.1 hx with rfl | hx
    · exact ⟨hne, h13⟩
    · exact fields_lines hf x hx
  have e : joinWith [13, 10] (start :: lines) ++ [13, 10, 13, 10] ++ d = joinWith crlf (start :: lines) ++ crlf2 ++ d := rfl
  rw [e] at hmax ⊢
  unfold parseMessage
  rw [split_two (by decide) hmax (by rw [List.append_assoc]; exact head_end _ start lines hlines), Res.ok_bind]
  simp only
  rw [messageFrom_spec _ _ h13 h10 hf (by simp only [List.length_append] at hmax; omega)]
  have hb : messageBody (collect lower [] fs) d = .raise .valueError := by
    unfold messageBody
    rw [collect_gives lower fs, collect_gives lower fs, show valueOf lower fs sContentLength = some v from hv]
    show sizedBody v d = _
    unfold sizedBody
    rw [hi]; rfl
  rw [hb]; rfl

/-- … after a response whose `Content-Length` is no number: it is not removed from the buffer, and `_on_con_receive` raises an
exception whatever else arrives. -/
theorem C66_refuted_invalid_length (ids : List Nat) (d : Bytes) (hmax : d.length < 2 ^ 30) :
    clientReceive lowerA ⟨[], ids, [], 0⟩ ([72, 84, 84, 80, 47, 49, 46, 49, 32, 50, 48, 48, 32, 79, 75, 13, 10, 67, 111, 110, 116, 101, 110, 116, 45, 76, 101, 110, 103, 116, 104, 58, 32, 120, 13, 10, 13, 10] ++ d) = .raise .valueError := by
  have h := raise_invalid (lower := lowerA) (start := okStart) (lines := [[67, 111, 110, 116, 101, 110, 116, 45, 76, 101, 110, 103, 116, 104, 58, 32, 120]]) (fs := [(hContentLength, [120])])
    (v := [120]) (by decide) (by decide) (by decide)
    (.cons ⟨1, 0, by decide, ascii_name (by decide), ascii_plain (by decide), by constructor <;> decide, by constructor <;> decide⟩ .nil)
    (by decide) (by decide +kernel) d (by
      rw [List.length_append]
      have : (joinWith [13, 10] [okStart, [67, 111, 110, 116, 101, 110, 116, 45, 76, 101, 110, 103, 116, 104, 58, 32, 120]] ++ [13, 10, 13, 10]).length = 38 := by decide
      omega)
  rw [show joinWith [13, 10] [okStart, [67, 111, 110, 116, 101, 110, 116, 45, 76, 101, 110, 103, 116, 104, 58, 32, 120]] ++ [13, 10, 13, 10] =
    [72, 84, 84, 80, 47, 49, 46, 49, 32, 50, 48, 48, 32, 79, 75, 13, 10, 67, 111, 110, 116, 101, 110, 116, 45, 76, 101, 110, 103, 116, 104, 58, 32, 120, 13, 10, 13, 10] by decide] at h
  unfold clientReceive
  simp only [List.nil_append, clientLoop]
  unfold parseResponse
  rw [h]; rfl

/-- … after a response with another version: if the next one is in the same segment it is lost, otherwise it is delivered. -/
theorem C66_refuted_version :
    (∃ c, clientRun lowerA ⟨[], [7], [], 0⟩ [[72, 84, 84, 80, 47, 50, 32, 50, 48, 48, 13, 10, 13, 10] ++ okWire] = .ok c ∧ c.delivered = [] ∧ c.buf = []) ∧
    ∃ c, clientRun lowerA ⟨[], [7], [], 0⟩ [[72, 84, 84, 80, 47, 50, 32, 50, 48, 48, 13, 10, 13, 10], okWire] = .ok c ∧ c.delivered.length = 1 := by
  exact ⟨⟨⟨[], [7], [], 0⟩, by decide +kernel, rfl, rfl⟩,
    ⟨⟨[], [], [(7, ⟨[49, 46, 49], 200, [(sContentLength, [50])], [104, 105]⟩)], 0⟩, by decide +kernel, rfl⟩⟩

/-- … for the connection: what is left of a response when the server has closed the connection stays in the buffer, in front of what
arrives on the next connection. -/
theorem C66_refuted_reconnect :
    ∃ c, clientRun lowerA ⟨[], [7, 8], [], 0⟩ [[72, 84, 84, 80, 47, 49, 46, 49, 32, 50, 48, 48, 32, 79, 75, 13, 10, 99, 111, 110, 110, 101, 99, 116, 105, 111, 110, 58, 32, 99, 108, 111, 115, 101, 13, 10, 13, 10, 72, 84, 84, 80, 47, 49, 46]] = .ok c ∧
      c.reconnects = 1 ∧ c.buf = [72, 84, 84, 80, 47, 49, 46] :=
  ⟨⟨[72, 84, 84, 80, 47, 49, 46], [8], [(7, ⟨[49, 46, 49], 200, [(sConnection, sClose)], []⟩)], 1⟩, by decide +kernel, rfl, rfl⟩

/-! ## C70 does not hold -/

/-- … for a value with a line end: the request has a header that was not given. -/
theorem C70_refuted_injection :
    ((buildRequest lowerA [97] [71, 69, 84] [47] [49, 46, 49] [([88], [49, 13, 10, 121, 58, 50])] []).bind
      fun p => (parseRequest lowerA p.1).bind fun r => .ok (r.1.map fun m => (hget m.headers [120], hget m.headers [121]), r.2)) =
    .ok (some (some [49], some [50]), []) := by decide +kernel

/-- … for a second request with the same dictionary: it still has the `Content-Length` of the first, here 1 instead of 3, and two
bytes of its body are left as the beginning of the next request. -/
theorem C70_refuted_reuse :
    ((buildRequest lowerA [97] [80, 85, 84] [47] [49, 46, 49] [] [1]).bind fun p =>
      (buildRequest lowerA [97] [80, 85, 84] [47] [49, 46, 49] p.2 [1, 2, 3]).bind fun q =>
      (parseRequest lowerA q.1).bind fun r => .ok (r.1.map fun m => m.body, r.2)) = .ok (some [1], [2, 3]) := by decide +kernel

end Verif.Http
