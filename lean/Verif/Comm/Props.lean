import Verif.Comm.Model
import Verif.Skiplist.Props
import Mathlib.Order.Basic
/-!
# C46: packets are read as they were sent; C47: peers are found by their address
-/
namespace Verif.Comm
open Verif

/-- The four bytes of a length. -/
def lenBytes (n : Nat) : List Nat := [n % 256, n / 256 % 256, n / 65536 % 256, n / 16777216 % 256]

/-- What is sent for a packet. -/
def frame (p : List Nat) : List Nat := lenBytes p.length ++ p

theorem headerVal_lenBytes {n : Nat} (h : n < 2 ^ 31) : headerVal (lenBytes n) = n := by
  unfold headerVal lenBytes
  simp only [List.getD_cons_zero, List.getD_cons_succ]
  rw [wrap32_of_in (by unfold InI32; omega)]
  omega

/-- The calls of `read` are fine: each gives what is asked for, and they fail only when a length is asked for. -/
inductive Fine : List (Option Nat) → Prop
  | nil : Fine []
  | fail {o} : Fine o → Fine (none :: o)
  | last {a} : 3 ≤ a → Fine [some a]
  | packet {a b o} : 3 ≤ a → 2 ^ 31 ≤ b → Fine o → Fine (some a :: some b :: o)

/-- A packet of a length that fits the buffer. -/
def Fits (size : Nat) (p : List Nat) : Prop := 0 < p.length ∧ 4 + p.length ≤ size ∧ p.length < 2 ^ 31

theorem rd_some {bytes : List Nat} {k n : Nat} {o : List (Option Nat)} (h : n ≤ k + 1) :
    rd ⟨bytes, some k :: o⟩ n = (some (bytes.take n), ⟨bytes.drop n, o⟩) := by
  have : Nat.min n (k + 1) = n := Nat.min_eq_left h
  simp only [rd, this]

/-- The rest of the packet, once the length is known. -/
theorem readBody_spec {size : Nat} {p rest : List Nat} (hp : Fits size p) {orc o : List (Option Nat)}
    (h : rd ⟨p ++ rest, orc⟩ p.length = (some p, ⟨rest, o⟩)) :
    readBody size ⟨p.length, []⟩ ⟨p ++ rest, orc⟩ = .inl (.ok (.packet p, ⟨p.length, []⟩, ⟨rest, o⟩)) := by
  obtain ⟨h1, h2, h3⟩ := hp
  obtain ⟨a, q, rfl⟩ : ∃ a q, p = a :: q := by
    cases p with
    | nil => simp at h1
    | cons a q => exact ⟨a, q, rfl⟩
  unfold readBody
  rw [if_neg (by simp only [not_le]; omega)]
  simp only [Int.toNat_natCast, List.length_nil, Nat.sub_zero]
  rw [h]
  simp only
  rw [if_neg (by omega), if_neg (by simp), if_pos (by simp)]
  rfl

theorem round_header {size : Nat} {a : Int} {p rest : List Nat} (hp : Fits size p) {orc o : List (Option Nat)}
    (h : rd ⟨frame p ++ rest, orc⟩ 4 = (some (lenBytes p.length), ⟨p ++ rest, o⟩)) :
    round size ⟨a, []⟩ ⟨frame p ++ rest, orc⟩ = readBody size ⟨p.length, []⟩ ⟨p ++ rest, o⟩ := by
  obtain ⟨h1, h2, h3⟩ := hp
  unfold round
  rw [if_neg (by simp only [List.length_nil]; omega), if_pos (by simp), h]
  rw [← headerVal_lenBytes h3]
  rfl

theorem take_frame (p rest : List Nat) : (frame p ++ rest).take 4 = lenBytes p.length ∧ (frame p ++ rest).drop 4 = p ++ rest := by
  unfold frame lenBytes
  exact ⟨rfl, rfl⟩

theorem loop_spec {size : Nat} {p rest : List Nat} (hp : Fits size p) {orc : List (Option Nat)} (ho : Fine orc) :
    ∀ {fuel : Nat} (a : Int), orc.length < fuel → ∃ o, Fine o ∧ o.length ≤ orc.length ∧
      loop size fuel ⟨a, []⟩ ⟨frame p ++ rest, orc⟩ = .ok (.packet p, ⟨p.length, []⟩, ⟨rest, o⟩) := by
  obtain ⟨t1, t2⟩ := take_frame p rest
  have b1 : (p ++ rest).take p.length = p := List.take_left' rfl
  have b2 : (p ++ rest).drop p.length = rest := List.drop_left' rfl
  induction ho with
  | nil =>
    intro fuel a hf
    obtain ⟨fuel, rfl⟩ : ∃ f, fuel = f + 1 := ⟨fuel - 1, by omega⟩
    refine ⟨[], .nil, by simp, ?_⟩
    have e : rd ⟨frame p ++ rest, []⟩ 4 = (some (lenBytes p.length), ⟨p ++ rest, []⟩) := by simp only [rd, t1, t2]
    have e' : rd ⟨p ++ rest, []⟩ p.length = (some p, ⟨rest, []⟩) := by simp only [rd, b1, b2]
    simp only [loop]
    rw [round_header hp e, readBody_spec hp e']
  | @fail o ho ih =>
    intro fuel a hf
    simp only [List.length_cons] at hf
    obtain ⟨fuel, rfl⟩ : ∃ f, fuel = f + 1 := ⟨fuel - 1, by omega⟩
    obtain ⟨o', h1, h2, h3⟩ := ih (fuel := fuel) a (by omega)
    refine ⟨o', h1, by simp; omega, ?_⟩
    have e : round size ⟨a, []⟩ ⟨frame p ++ rest, none :: o⟩ = .inr (⟨a, []⟩, ⟨frame p ++ rest, o⟩) := by
      obtain ⟨h1, h2, h3⟩ := hp
      unfold round
      rw [if_neg (by simp only [List.length_nil]; omega), if_pos (by simp)]
      rfl
    simp only [loop]
    rw [e]
    exact h3
  | @last b hb =>
    intro fuel a hf
    obtain ⟨fuel, rfl⟩ : ∃ f, fuel = f + 1 := ⟨fuel - 1, by omega⟩
    refine ⟨[], .nil, by simp, ?_⟩
    have e : rd ⟨frame p ++ rest, [some b]⟩ 4 = (some (lenBytes p.length), ⟨p ++ rest, []⟩) := by
      rw [rd_some (by omega), t1, t2]
    have e' : rd ⟨p ++ rest, []⟩ p.length = (some p, ⟨rest, []⟩) := by simp only [rd, b1, b2]
    simp only [loop]
    rw [round_header hp e, readBody_spec hp e']
  | @packet b c o hb hc ho _ =>
    intro fuel a hf
    obtain ⟨fuel, rfl⟩ : ∃ f, fuel = f + 1 := ⟨fuel - 1, by omega⟩
    refine ⟨o, ho, by simp; omega, ?_⟩
    have e : rd ⟨frame p ++ rest, some b :: some c :: o⟩ 4 = (some (lenBytes p.length), ⟨p ++ rest, some c :: o⟩) := by
      rw [rd_some (by omega), t1, t2]
    have e' : rd ⟨p ++ rest, some c :: o⟩ p.length = (some p, ⟨rest, o⟩) := by
      have := hp.2.2
      rw [rd_some (by omega), b1, b2]
    simp only [loop]
    rw [round_header hp e, readBody_spec hp e']

theorem loop_closed {size : Nat} (hs : 4 < size) {orc : List (Option Nat)} : ∀ {fuel : Nat} (a : Int), orc.length < fuel →
    ∃ o, loop size fuel ⟨a, []⟩ ⟨[], orc⟩ = .ok (.closed, ⟨a, []⟩, ⟨[], o⟩) := by
  induction orc with
  | nil =>
    intro fuel a hf
    obtain ⟨fuel, rfl⟩ : ∃ f, fuel = f + 1 := ⟨fuel - 1, by omega⟩
    refine ⟨[], ?_⟩
    simp only [loop, round, List.length_nil]
    rw [if_neg (by omega), if_pos (by simp)]
    rfl
  | cons x o ih =>
    intro fuel a hf
    simp only [List.length_cons] at hf
    obtain ⟨fuel, rfl⟩ : ∃ f, fuel = f + 1 := ⟨fuel - 1, by omega⟩
    cases x with
    | none =>
      obtain ⟨o', h⟩ := ih (fuel := fuel) a (by omega)
      refine ⟨o', ?_⟩
      simp only [loop, round, List.length_nil]
      rw [if_neg (by omega), if_pos (by simp)]
      exact h
    | some k =>
      refine ⟨o, ?_⟩
      simp only [loop, round, List.length_nil]
      rw [if_neg (by omega), if_pos (by simp)]
      simp [rd]

/-- The packets of a connection until it is closed, each read by `read_full_packet`. -/
def packets (size fuel : Nat) : Nat → Src → Res (List (List Nat))
  | 0, _ => .diverge
  | n + 1, src => do
    match ← readFullPacket size fuel src with
    | (.closed, _) => return []
    | (.packet b, src) => do
      let r ← packets size fuel n src
      return b :: r

/-- C46: if `read` gives the lengths and the packets whole, the packets are read in the order and with the content in
which they were sent, up to the end of the connection; `read` may fail before each packet. Missing for the whole
claim: every other behaviour of `read`, and packets that do not fit the buffer: see the refutations. -/
theorem C46_packets_partial {size : Nat} (hs : 4 < size) : ∀ (ps : List (List Nat)) {orc : List (Option Nat)} {fuel n : Nat},
    (∀ p ∈ ps, Fits size p) → Fine orc → orc.length < fuel → ps.length < n →
    packets size fuel n ⟨(ps.map frame).flatten, orc⟩ = .ok ps
  | [], orc, fuel, n + 1, _, _, hf, _ => by
    obtain ⟨o, h⟩ := loop_closed hs (fuel := fuel) (-1) hf
    simp [packets, readFullPacket, h]
  | p :: ps, orc, fuel, n + 1, hp, ho, hf, hn => by
    obtain ⟨o, h1, h2, h3⟩ := loop_spec (rest := (ps.map frame).flatten) (hp p (by simp)) ho (fuel := fuel) (-1) hf
    have ih := C46_packets_partial hs ps (fuel := fuel) (n := n) (fun q hq => hp q (by simp [hq])) h1 (by omega) (by simpa using hn)
    simp [packets, readFullPacket, h3, ih]
  | _, _, _, 0, _, _, _, h => by omega

/-- C46 for the client, which keeps its variables between the packets of all its connections. -/
theorem C46_client_partial {size : Nat} {p rest : List Nat} (hp : Fits size p) {orc : List (Option Nat)} (ho : Fine orc)
    {fuel : Nat} (a : Int) (hf : orc.length < fuel) : ∃ o, Fine o ∧
      clientRead size fuel ⟨a, []⟩ ⟨frame p ++ rest, orc⟩ = .ok (.packet p, ⟨p.length, []⟩, ⟨rest, o⟩) := by
  obtain ⟨o, h1, h2, h3⟩ := loop_spec (rest := rest) hp ho a hf
  exact ⟨o, h1, by simp [clientRead, h3]⟩

example : Fits 131072 [1, 2, 3] ∧ Fine [none, some 3, some (2 ^ 31), none, none, some 7] ∧
    packets 131072 9 9 ⟨frame [1, 2, 3] ++ frame [4], [none, some 3, some (2 ^ 31), none]⟩ = .ok [[1, 2, 3], [4]] :=
  ⟨by unfold Fits; decide, .fail (.packet (by decide) (by decide) (.fail (.fail (.last (by decide))))), by decide +kernel⟩

/-- C46 is false for every packet that arrives in two pieces: the process aborts, whatever the packet and wherever it
is split (comm.c:430 compares the length of the packet with that of the last piece). -/
theorem C46_refuted_split {size : Nat} {p rest : List Nat} (hp : Fits size p) {k : Nat} (hk : k + 1 < p.length) {fuel : Nat} :
    readFullPacket size (fuel + 2) ⟨frame p ++ rest, [some 3, some k]⟩ = .raise .assertFail := by
  obtain ⟨t1, t2⟩ := take_frame p rest
  have e : rd ⟨frame p ++ rest, [some 3, some k]⟩ 4 = (some (lenBytes p.length), ⟨p ++ rest, [some k]⟩) := by
    rw [rd_some (by omega), t1, t2]
  have hmin : Nat.min p.length (k + 1) = k + 1 := Nat.min_eq_right (by omega)
  have h0 : (p ++ rest).take (k + 1) = p.take (k + 1) := List.take_append_of_le_length (by omega)
  have h0' : (p ++ rest).drop (k + 1) = p.drop (k + 1) ++ rest := List.drop_append_of_le_length (by omega)
  have hlen : (p.take (k + 1)).length = k + 1 := by simp; omega
  obtain ⟨x, q, hx⟩ : ∃ x q, p.take (k + 1) = x :: q := by
    cases h : p.take (k + 1) with
    | nil => rw [h] at hlen; simp at hlen
    | cons x q => exact ⟨x, q, rfl⟩
  obtain ⟨h1, h2, h3⟩ := hp
  have e1 : round size ⟨-1, []⟩ ⟨frame p ++ rest, [some 3, some k]⟩ =
      .inr (⟨p.length, p.take (k + 1)⟩, ⟨p.drop (k + 1) ++ rest, []⟩) := by
    rw [round_header ⟨h1, h2, h3⟩ e]
    unfold readBody
    rw [if_neg (by simp only [not_le]; omega)]
    simp only [Int.toNat_natCast, List.length_nil, Nat.sub_zero, rd, hmin, h0, h0']
    rw [hx]
    simp only
    rw [← hx, hlen, if_neg (by omega), if_pos (by omega)]
    rfl
  have e2 : round size ⟨p.length, p.take (k + 1)⟩ ⟨p.drop (k + 1) ++ rest, []⟩ = .inl (.raise .assertFail) := by
    unfold round
    rw [if_neg (by simp only [hlen]; omega), if_neg (by simp only [hlen]; omega)]
    unfold readBody
    rw [if_neg (by simp only [not_le]; omega)]
    simp only [Int.toNat_natCast, hlen]
    have hd : (p.drop (k + 1)).length = p.length - (k + 1) := List.length_drop
    have e3 : rd ⟨p.drop (k + 1) ++ rest, []⟩ (p.length - (k + 1)) = (some (p.drop (k + 1)), ⟨rest, []⟩) := by
      simp only [rd]
      rw [← hd, List.take_left' rfl, List.drop_left' rfl]
    rw [e3]
    cases h : p.drop (k + 1) with
    | nil => rw [h] at hd; simp at hd; omega
    | cons y r =>
      simp only
      rw [← h, hd, if_neg (by omega), if_neg (by omega), if_neg (by omega)]
  unfold readFullPacket
  simp only [loop]
  rw [e1]
  simp only
  rw [e2]
  rfl

/-- C46 is false when the length arrives in two pieces, or when `read` fails between the length and the packet: other
packets are read than were sent. -/
theorem C46_refuted_header :
    packets 131072 9 9 ⟨frame [7, 8, 9], [some 0]⟩ = .ok [[0, 0, 0]] ∧
    packets 131072 9 9 ⟨frame [1, 0, 0, 0, 7], [some 3, none]⟩ = .ok [[7]] := by decide +kernel

/-- C46 is false for a packet that is longer than the buffer: the bytes are written behind its end. -/
theorem C46_refuted_overflow {size : Nat} (hs : 4 < size) {p rest : List Nat} (h : size < 4 + p.length) (hl : p.length < 2 ^ 31)
    {fuel : Nat} : readFullPacket size (fuel + 1) ⟨frame p ++ rest, []⟩ = .ub := by
  obtain ⟨t1, t2⟩ := take_frame p rest
  obtain ⟨a, q, rfl⟩ : ∃ a q, p = a :: q := by
    cases p with
    | nil => simp at h; omega
    | cons a q => exact ⟨a, q, rfl⟩
  have e : round size ⟨-1, []⟩ ⟨frame (a :: q) ++ rest, []⟩ = .inl .ub := by
    unfold round
    rw [if_neg (by simp only [List.length_nil]; omega), if_pos (by simp)]
    simp only [rd, t1, t2]
    have : readBody size ⟨headerVal (lenBytes (a :: q).length), []⟩ ⟨a :: q ++ rest, []⟩ = .inl .ub := by
      rw [headerVal_lenBytes hl]
      unfold readBody
      rw [if_neg (by simp only [not_le, List.length_cons]; omega)]
      simp only [Int.toNat_natCast, List.length_nil, Nat.sub_zero]
      have e3 : rd ⟨a :: q ++ rest, []⟩ (a :: q).length = (some (a :: q), ⟨rest, []⟩) := by
        simp only [rd]
        rw [List.take_left' rfl, List.drop_left' rfl]
      rw [e3]
      simp only
      rw [if_pos (by omega)]
    exact this
  unfold readFullPacket
  simp only [loop]
  rw [e]
  rfl

/-- C46 is false for a client after one of its servers has closed the connection within a packet: the next packet of
another server is taken for the rest of it, and the client aborts. -/
theorem C46_refuted_close :
    (∃ st src, clientRead 131072 9 ⟨-1, []⟩ ⟨lenBytes 5 ++ [1, 2], []⟩ = .ok (.closed, st, src) ∧
      clientRead 131072 9 st ⟨frame [3, 4, 5], []⟩ = .raise .assertFail) := by
  refine ⟨⟨5, [1, 2]⟩, ⟨[], []⟩, ?_, ?_⟩
  · rfl
  · rfl

/-! ### C47 -/

/-- The order of addresses: by address, then by port. -/
def rank (a : Addr) : Int := a.addr * 65536 + a.port

/-- The addresses of a part of the address space. -/
def Near (b : Nat) (a : Addr) : Prop := b ≤ a.addr ∧ a.addr < b + 2 ^ 31 ∧ a.addr < 2 ^ 32 ∧ a.port < 65536

/-- C47: on addresses that are less than `2^31` apart the comparison is a total order with which the lists of peers work
(`Skiplist.C22_skiplist`), and equal means the same address and port. Missing: other addresses. -/
theorem C47_order_partial (b : Nat) : Skiplist.CmpOn sockaddrCmp rank (Near b) ∧
    ∀ x y, Near b x → Near b y → (rank x = rank y ↔ x = y) := by
  have hr : ∀ x y, Near b x → Near b y → (rank x = rank y ↔ x = y) := by
    intro x y hx hy
    unfold Near at hx hy
    unfold rank
    constructor
    · intro h
      have h1 : x.addr = y.addr := by omega
      have h2 : x.port = y.port := by omega
      cases x; cases y
      simp_all
    · rintro rfl; rfl
  refine ⟨fun x y hx hy => ?_, hr⟩
  unfold Near at hx hy
  unfold sockaddrCmp rank
  by_cases h1 : x.addr = y.addr
  · rw [if_neg (by simpa using h1)]
    by_cases h2 : x.port = y.port
    · rw [if_neg (by simpa using h2)]
      omega
    · rw [if_pos h2]
      omega
  · rw [if_pos h1, wrap32_of_in (by unfold InI32; omega)]
    omega

/-- 10.0.0.1, 192.168.0.2 and 100.64.0.3, with a port. -/
def addr1 : Addr := ⟨167772161, 32000⟩
def addr2 : Addr := ⟨3232235522, 32000⟩
def addr3 : Addr := ⟨1681915907, 32000⟩

example : Near 167772161 addr1 ∧ Near 167772161 addr3 := by unfold Near; decide

/-- Insertion of three peers, and a search for the one with address `a`. -/
def findPeer (a : Addr) : Res Bool := do
  let s ← Skiplist.insert sockaddrCmp (Skiplist.init ⟨0, 0⟩ : Skiplist.SL Addr Nat) addr1 1 0
  let s ← Skiplist.insert sockaddrCmp s addr3 3 0
  let s ← Skiplist.insert sockaddrCmp s addr2 2 0
  let r ← Skiplist.search sockaddrCmp (fun k => decide (k = ⟨0, 0⟩)) s a
  return r.isSome

/-- C47 is false for addresses that are further apart: 10.0.0.1 < 100.64.0.3 < 192.168.0.2 < 10.0.0.1, and a peer that
was added is not found. -/
theorem C47_refuted : sockaddrCmp addr1 addr3 < 0 ∧ sockaddrCmp addr3 addr2 < 0 ∧ sockaddrCmp addr2 addr1 < 0 ∧
    findPeer addr1 = .ok true ∧ findPeer addr2 = .ok true ∧ findPeer addr3 = .ok false := by decide +kernel

end Verif.Comm
