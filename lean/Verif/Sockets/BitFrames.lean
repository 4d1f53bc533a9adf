import Verif.Sockets.Props
import Verif.BitVector.PropsPack

/-
Property C158: bit vectors sent as datagrams (`BitVector.cpp:365-406`, `Sockets.cpp:152-217`).
-/

namespace Verif.Sockets.Frames
open Verif Verif.Sockets Verif.BitVector Verif.BitVector.Spec

/-! ### Model -/

/-- `v.pack(targ)` and `write((char*)targ, length)` with the length of the packed vector (`BitVector.cpp:365-376`, `Sockets.cpp:152-159`). -/
def send (s : Sock) (v : Bits) : Outcome (Option Packet) := do
  let bytes ← pack v
  write s bytes

/-- `write(v.packToString().c_str())` (`BitVector.cpp:378-392`, `Sockets.cpp:172-176`). -/
def sendText (s : Sock) (v : Bits) : Outcome (Option Packet) := do
  let bytes ← packToString v
  writeText s bytes

/-- The buffer given to `read` (`Sockets.cpp:206-217`) after a message: the bytes not written stay. -/
def receive (buffer msg : Str) : Str := msg.take maxUdp ++ buffer.drop (msg.take maxUdp).length

/-- The buffer after messages in the order of their arrival. -/
def buffer (old : Str) (arrived : List Packet) : Str := arrived.foldl (fun b p => receive b p.bytes) old

/-! ### Lemmas -/

theorem send_bytes {s : Sock} {v : Bits} {p : Packet} (h : send s v = .ok (some p)) : pack v = .ok p.bytes := by
  unfold send at h
  obtain ⟨bytes, hb, -, -⟩ := C04_pack_layout v
  rw [hb, Outcome.bind_ok] at h
  unfold write at h
  split at h
  · exact absurd h (by simp)
  · simp only [Outcome.ok.injEq] at h
    unfold sendto at h
    split at h
    · split at h
      · injection h with h; rw [← h, hb]
      · exact absurd h (by simp)
    · split at h
      · injection h with h; rw [← h, hb]
      · exact absurd h (by simp)

theorem buffer_snoc (old : Str) (l : List Packet) (p : Packet) : buffer old (l ++ [p]) = receive (buffer old l) p.bytes := by simp [buffer]

/-- Where the bits are in the packed bytes. -/
theorem pack_bit {v : Bits} {bytes : Str} (hb : pack v = .ok bytes) : bytes.length = (v.length + 7) / 8 ∧
    ∀ j, j < v.length → (bytes[j / 8]?).map (fun c => c.getLsbD (7 - j % 8)) = (bits v)[j]? := by
  obtain ⟨bytes', h1, h2, h3⟩ := C04_pack_layout v
  rw [hb, Outcome.ok.injEq] at h1
  subst h1
  refine ⟨h3, fun j hj => ?_⟩
  have hk : j / 8 < bytes.length := by omega
  have hb : bytes[j / 8].toNat = packedByte (bits v) (j / 8) := by
    have h4 : (bytes.map (·.toNat))[j / 8]? = (packedBytes (bits v))[j / 8]? := by rw [h2]
    rw [List.getElem?_map, List.getElem?_eq_getElem hk, packedBytes, List.getElem?_map, List.getElem?_range (by rw [bits_length]; omega)] at h4
    simpa using h4
  have hjb : j < (bits v).length := by rw [bits_length]; omega
  rw [List.getElem?_eq_getElem hk, Option.map_some, BitVec.getLsbD, hb, packedByte, testBit_msbValue _ _ (by simp; omega)]
  simp only [List.length_map, List.length_range, List.getElem_map, List.getElem_range]
  have he : 8 * (j / 8) + (8 - 1 - (7 - j % 8)) = j := by omega
  rw [he, List.getD_eq_getElem?_getD, List.getElem?_eq_getElem hjb]
  rfl

/-- What is unpacked of the beginning of a packed vector. -/
theorem unpack_bits (t v : Bits) (bytes src : Str) (hb : pack v = .ok bytes) (hl : t.length ≤ v.length) (hs : ∀ k, k < (t.length + 7) / 8 → src[k]? = bytes[k]?) :
    ∃ t', unpack t src = .ok t' ∧ bits t' = (bits v).take t.length := by
  obtain ⟨h1, h2⟩ := pack_bit hb
  have hlen : (t.length + 7) / 8 ≤ src.length := by
    by_contra hc
    have := hs src.length (by omega)
    rw [List.getElem?_eq_none (le_refl _), List.getElem?_eq_getElem (by omega)] at this
    cases this
  obtain ⟨t', g1, g2, g3⟩ := C04_unpack_layout t src hlen
  refine ⟨t', g1, ?_⟩
  apply List.ext_getElem?
  intro j
  rcases Nat.lt_or_ge j t.length with hj | hj
  · have := g3 (j / 8) (j % 8) (by omega) (by omega)
    rw [show 8 * (j / 8) + j % 8 = j by omega] at this
    rw [this, hs _ (by omega), h2 j (by omega), List.getElem?_take_of_lt hj]
  · rw [List.getElem?_eq_none (by rw [bits_length]; omega), List.getElem?_eq_none (by rw [List.length_take]; omega)]

/-! ### C158 -/

/-- C158, partial (missing: a vector longer than the one sent, C158_mixed_refuted, or than 12000 bits, C158_long_refuted): whatever has arrived before, in whatever order, lost or repeated, the receiver
unpacks the beginning of the vector that arrived last. -/
theorem C158_frame_partial (s : Sock) (old : Str) (before : List Packet) (v t : Bits) (p : Packet) (hs : send s v = .ok (some p)) (hl : t.length ≤ v.length) (hmax : t.length ≤ 12000) :
    ∃ t', unpack t (buffer old (before ++ [p])) = .ok t' ∧ bits t' = (bits v).take t.length := by
  have hb := send_bytes hs
  have h1 := (pack_bit hb).1
  refine unpack_bits t v p.bytes _ hb hl fun k hk => ?_
  rw [buffer_snoc, receive, List.getElem?_append_left (by simp [maxUdp]; omega), List.getElem?_take_of_lt (by simp [maxUdp]; omega)]

/-- C158, partial (vectors of one size, at most 12000 bits): every vector the receiver unpacks is one of those sent, whole, for every choice and order of the packets that arrive. -/
theorem C158_whole_partial (s : Sock) (n : Nat) (hn : n ≤ 12000) (sent : List Bits) (hsize : ∀ v ∈ sent, v.length = n) (arrived : List Packet) (hne : arrived ≠ [])
    (hnet : ∀ p ∈ arrived, ∃ v ∈ sent, send s v = .ok (some p)) (old : Str) (t : Bits) (ht : t.length = n) :
    ∃ t' v, unpack t (buffer old arrived) = .ok t' ∧ v ∈ sent ∧ bits t' = bits v ∧ send s v = .ok (some (arrived.getLast hne)) := by
  obtain ⟨l, p, rfl⟩ : ∃ l p, arrived = l ++ [p] := ⟨_, _, (List.dropLast_concat_getLast hne).symm⟩
  obtain ⟨v, hv, hs⟩ := hnet p (by simp)
  have hvl := hsize v hv
  obtain ⟨t', h1, h2⟩ := C158_frame_partial s old l v t p hs (by omega) (by omega)
  refine ⟨t', v, h1, hv, ?_, by simp [hs]⟩
  rw [h2, List.take_of_length_le (by rw [bits_length]; omega)]

/-- C158, refuted for longer vectors: what arrives does not depend on the bits after the first 12000. -/
theorem C158_long_refuted (s : Sock) (v w : Bits) (p q : Packet) (hv : send s v = .ok (some p)) (hw : send s w = .ok (some q)) (hlv : 12000 ≤ v.length) (hlw : 12000 ≤ w.length)
    (h : (bits v).take 12000 = (bits w).take 12000) (old : Str) (before : List Packet) : buffer old (before ++ [p]) = buffer old (before ++ [q]) := by
  have hbv := send_bytes hv
  have hbw := send_bytes hw
  obtain ⟨lv, bv⟩ := pack_bit hbv
  obtain ⟨lw, bw⟩ := pack_bit hbw
  have key : p.bytes.take maxUdp = q.bytes.take maxUdp := by
    apply List.ext_getElem?
    intro k
    rcases Nat.lt_or_ge k maxUdp with hk | hk
    · have hk' : k < 1500 := hk
      rw [List.getElem?_take_of_lt hk, List.getElem?_take_of_lt hk, List.getElem?_eq_getElem (by omega), List.getElem?_eq_getElem (by omega)]
      congr 1
      apply BitVec.eq_of_getLsbD_eq
      intro i hi
      have a := bv (8 * k + (7 - i)) (by omega)
      have b := bw (8 * k + (7 - i)) (by omega)
      have e1 : (8 * k + (7 - i)) / 8 = k := by omega
      have e2 : 7 - (8 * k + (7 - i)) % 8 = i := by omega
      have e3 := congrArg (fun l => l[8 * k + (7 - i)]?) h
      rw [List.getElem?_take_of_lt (by omega), List.getElem?_take_of_lt (by omega)] at e3
      rw [e3, ← b, e1, e2, List.getElem?_eq_getElem (by omega), List.getElem?_eq_getElem (by omega)] at a
      simpa using a
    · rw [List.getElem?_eq_none (by rw [List.length_take]; omega), List.getElem?_eq_none (by rw [List.length_take]; omega)]
  rw [buffer_snoc, buffer_snoc, receive, receive, key]

/-- A socket with a destination. -/
def sender : Sock := { family := 2, fd := some 5, dest := { family := 2, ip := 1, port := 80 } }

/-- C158, refuted for vectors of different sizes: a receiver that unpacks 16 bits after 16 ones and then 8 zeros have arrived gets 8 zeros and 8 ones, which nobody sent. -/
theorem C158_mixed_refuted : ∃ p q, send sender (List.replicate 16 1) = .ok (some p) ∧ send sender (List.replicate 8 0) = .ok (some q) ∧
    unpack (List.replicate 16 0) (buffer (List.replicate 1500 0) [p, q]) = .ok (List.replicate 8 0 ++ List.replicate 8 1) :=
  ⟨⟨sender.dest, [255, 255]⟩, ⟨sender.dest, [0]⟩, by decide +kernel, by decide +kernel, by decide +kernel⟩

/-- C158, refuted for `packToString` with `write(const char*)`: what follows a packed byte of zeros is not sent. -/
theorem C158_text_refuted (s : Sock) (v w : Bits) (h8 : v.length = 8) (h : bits v = List.replicate 8 false) : sendText s (v ++ w) = writeText s [] := by
  unfold sendText
  rw [C04_packToString_eq_pack]
  obtain ⟨bytes, hb, -, -⟩ := C04_pack_layout (v ++ w)
  rw [hb, Outcome.bind_ok]
  obtain ⟨l, b⟩ := pack_bit hb
  rw [List.length_append] at l b
  have hbits : bits (v ++ w) = bits v ++ bits w := by simp [bits]
  match bytes, l, b with
  | [], l, _ => simp at l; omega
  | c :: r, _, b =>
    have hc : c = 0 := by
      apply BitVec.eq_of_getLsbD_eq
      intro i hi
      have := b (7 - i) (by omega)
      rw [show (7 - i) / 8 = 0 by omega, show 7 - (7 - i) % 8 = i by omega, hbits, h, List.getElem?_append_left (by simp; omega), List.getElem?_replicate, if_pos (by omega)] at this
      simpa using this
    subst hc
    unfold writeText
    rfl

/-- C158: thirteen bits. -/
example : ∃ p, send sender [1, 0, 1, 1, 0, 0, 0, 1, 1, 0, 1, 1, 1] = .ok (some p) ∧ p.bytes = [0xB1, 0xB8] ∧
    unpack (List.replicate 13 0) (buffer (List.replicate 1500 7) [p]) = .ok [1, 0, 1, 1, 0, 0, 0, 1, 1, 0, 1, 1, 1] :=
  ⟨⟨sender.dest, [0xB1, 0xB8]⟩, by decide +kernel, rfl, by decide +kernel⟩

/-- C158: vectors that differ in bit 12000 only. -/
example (l : Bits) (h : l.length = 12000) : (bits (l ++ [1])).take 12000 = (bits (l ++ [0])).take 12000 ∧ bits (l ++ [1]) ≠ bits (l ++ [0]) := by
  have e : ∀ x, bits (l ++ [x]) = bits l ++ bits [x] := fun x => by simp [bits]
  rw [e, e, List.take_append_of_le_length (by rw [bits_length, h]), List.take_append_of_le_length (by rw [bits_length, h])]
  exact ⟨rfl, fun h => absurd (List.append_cancel_left h) (by decide)⟩

end Verif.Sockets.Frames
