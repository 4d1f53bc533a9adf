import Verif.Sockets.Model
import Verif.Config.SqlProps
import Verif.Core.NumberLemmas

/-
Properties of the sockets: C73 (resolving host:port), C74 (time limit), C88 (destinations), C89 (texts arrive whole), C90 (timed reads), C91 (closing).
-/

namespace Verif.Sockets

open Verif.Config

/-! ### C73 -/

theorem split_colon {host rest : Str} (h : chr ':' ∉ host) :
    (host ++ chr ':' :: rest).dropWhile (· ≠ chr ':') = chr ':' :: rest ∧ (host ++ chr ':' :: rest).takeWhile (· ≠ chr ':') = host := by
  induction host with
  | nil => simp
  | cons c host ih =>
    have hc : c ≠ chr ':' := fun e => h (by simp [e])
    have := ih (fun e => h (List.mem_cons_of_mem _ e))
    simp only [List.cons_append, List.dropWhile_cons, List.takeWhile_cons, ne_eq, hc, not_false_eq_true, decide_true, if_true]
    exact ⟨this.1, by rw [this.2]⟩

theorem atol_natText (n : Nat) (h : n < 2 ^ 63) : atol (natText 10 n) = n := by
  obtain ⟨c, t, e, h1, h2, h3, -⟩ := natText_plain (b := 10) (by omega) (by omega) n
  unfold atol
  rw [e, dropWhile_cons h1, signed_plain h2 h3, ← e, scanNat_natText (by omega) (by omega), clamp_of_mem (by omega) (by omega)]

/-- C73: what is resolved, for every text with a colon: the host before the first colon, and the number after it modulo 2^16. -/
theorem C73_exact (resolver : Str → Option Host) (host rest : Str) (h : chr ':' ∉ host) :
    resolveAddress resolver (host ++ chr ':' :: rest) = resolveHost resolver host (atol rest % 2 ^ 16).toNat := by
  unfold resolveAddress
  rw [(split_colon h).1]
  simp only
  rw [(split_colon h).2]
  congr 1
  omega

/-- C73, partial: text `host:port` with a port up to 65535 leads to that port of the host's first address; it is refused exactly if the host has no IPv4 address.
Missing: other texts after the colon, see the refutations. -/
theorem C73_host_port_partial (resolver : Str → Option Host) (host : Str) (port : Nat) (h : chr ':' ∉ host) (hp : port < 65536) :
    resolveAddress resolver (host ++ chr ':' :: natText 10 port) = match resolver host with
      | some a => if a.family = 2 then some { family := 2, ip := a.addr, port := port } else none
      | none => none := by
  rw [C73_exact _ _ _ h, atol_natText _ (by omega)]
  have : ((port : Int) % 2 ^ 16).toNat = port := by omega
  rw [this]
  unfold resolveHost
  cases resolver host with
  | none => rfl
  | some a =>
    by_cases ha : a.family = 2
    · simp [ha, AF_INET]
    · simp [ha, AF_INET]

/-- C73: text without a colon is refused, whatever the resolver; but the copy of the text is not freed. -/
theorem C73_no_colon (resolver : Str → Option Host) (s : Str) (h : chr ':' ∉ s) : resolveAddress resolver s = none ∧ resolveLeak s = 1 := by
  constructor
  · unfold resolveAddress
    have : s.dropWhile (· ≠ chr ':') = [] := by
      induction s with
      | nil => rfl
      | cons c s ih =>
        have hc : c ≠ chr ':' := fun e => h (by simp [e])
        rw [List.dropWhile_cons, if_pos (by simpa using hc)]
        exact ih (fun e => h (List.mem_cons_of_mem _ e))
    rw [this]
  · exact if_neg h

/-- C73 (negation): every port number beyond 65535 is accepted and means another port. -/
theorem C73_wrap_refuted (resolver : Str → Option Host) (host : Str) (port : Nat) (h : chr ':' ∉ host) (hp : port < 2 ^ 63) :
    resolveAddress resolver (host ++ chr ':' :: natText 10 port) = resolveAddress resolver (host ++ chr ':' :: natText 10 (port % 65536)) := by
  rw [C73_exact _ _ _ h, C73_exact _ _ _ h, atol_natText _ hp, atol_natText _ (by omega)]
  congr 1
  omega

/-- C73 (negation): a service name, an empty port, a negative port and text behind the port are accepted. -/
theorem C73_garbage_refuted : let r : Str → Option Host := fun _ => some ⟨2, 1⟩
    resolveAddress r (lit "h:http") = some { family := 2, ip := 1, port := 0 } ∧ resolveAddress r (lit "h:") = some { family := 2, ip := 1, port := 0 } ∧
    resolveAddress r (lit "h:-1") = some { family := 2, ip := 1, port := 65535 } ∧ resolveAddress r (lit "h:80x") = some { family := 2, ip := 1, port := 80 } := by decide +kernel

/-- C73: a usual address. -/
example : chr ':' ∉ lit "127.0.0.1" ∧ lit "127.0.0.1:5060" = lit "127.0.0.1" ++ chr ':' :: natText 10 5060 := by decide +kernel

/-! ### C74 -/

/-- C74: the limit is normalised and exactly `timeout` milliseconds, for every `unsigned` timeout. -/
theorem C74_limit (timeout : Nat) : (timeLimit timeout).2 < 1000000 ∧ (timeLimit timeout).1 * 1000000 + (timeLimit timeout).2 = timeout * 1000 := by
  unfold timeLimit
  have h : timeout % 1000 * 1000 < 2 ^ 32 := by
    have := Nat.mod_lt timeout (show 1000 > 0 by omega)
    omega
  simp only [Nat.mod_eq_of_lt h]
  omega

example : timeLimit 2500 = (2, 500000) := by decide

/-! ### C90 -/

/-- C90, partial: on a descriptor below 1024 a timed read returns the message exactly if it comes within the time limit.  Missing: larger descriptors, see C90_descriptor_refuted. -/
theorem C90_timed_partial (s : Sock) (fd : Nat) (hs : s.fd = some fd) (hfd : fd < 1024) (timeout delay : Nat) (a : Addr) (msg : Str) :
    readTimed s timeout a msg delay = .ok (if delay ≤ timeout * 1000 then read s a msg else (-1, [], s)) := by
  unfold readTimed
  rw [hs]
  simp only [if_neg (show ¬ 1024 ≤ fd by omega), (C74_limit timeout).2]
  split <;> rfl

/-- C90 (negation): from descriptor 1024 on the set of descriptors is overrun. -/
theorem C90_descriptor_refuted (s : Sock) (fd : Nat) (hs : s.fd = some fd) (hfd : 1024 ≤ fd) (timeout delay : Nat) (a : Addr) (msg : Str) : readTimed s timeout a msg delay = .ub := by
  unfold readTimed
  rw [hs]
  simp only [if_pos hfd]

example : readTimed { family := 2, fd := some 5 } 100 {} (lit "x") 100000 = .ok (1, lit "x", { family := 2, fd := some 5, src := some {} }) := by decide +kernel

/-! ### C88 -/

/-- C88, partial: after `destination(port, host)` packets go to that port of the host, if the host's name can be resolved and the port is not 0.  Missing: names that cannot be resolved, and Unix sockets. -/
theorem C88_udp_partial (resolver : Str → Option Host) (s : Sock) (fd : Nat) (hf : s.family = 2) (hs : s.fd = some fd) (port : Nat) (hp : port ≠ 0) (host : Str) (ip : Nat) (hr : resolver host = some ⟨2, ip⟩) (bytes : Str) :
    write (udpDestination resolver s port host) bytes = .ok (some ⟨{ family := 2, ip := ip, port := port }, bytes⟩) := by
  unfold udpDestination resolveHost write sendto
  simp [hr, AF_INET, hs, hf, hp]

/-- C88 (negation): if the name cannot be resolved, packets silently go on to the destination before. -/
theorem C88_silent_refuted (resolver : Str → Option Host) (s : Sock) (port : Nat) (host : Str) (hr : resolver host = none) (bytes : Str) : write (udpDestination resolver s port host) bytes = write s bytes := by
  unfold udpDestination resolveHost
  rw [hr]

/-- C88 (negation): whatever path is given to a new Unix socket, no packet is ever sent to it, because the family of the destination is never set. -/
theorem C88_unix_refuted (s s1 s2 : Sock) (hd : s.dest.family = 0) (hf : s.family = 1) (fd : Nat) (here there bound : Str) (h1 : uddOpen s fd here = .ok (s1, bound)) (h2 : uddDestination s1 there = .ok s2) (bytes : Str) :
    write s2 bytes = .ok none := by
  unfold uddOpen at h1
  split at h1
  · simp only [Outcome.ok.injEq, Prod.mk.injEq] at h1
    obtain ⟨rfl, -⟩ := h1
    unfold uddDestination at h2
    split at h2
    · injection h2 with h2
      subst h2
      unfold write sendto
      simp [hf, hd, AF_INET]
    · exact absurd h2 (by simp)
  · exact absurd h1 (by simp)

/-- C88: a reply goes to where the last message came from, for both kinds of sockets. -/
theorem C88_reply (s : Sock) (fd : Nat) (hs : s.fd = some fd) (a : Addr) (ha : a.family = s.family) (hp : s.family = 2 → a.port ≠ 0) (msg bytes : Str) :
    writeBack (read s a msg).2.2 bytes = .ok (some ⟨a, bytes⟩) := by
  unfold writeBack read sendto
  simp only [hs]
  by_cases h : s.family = AF_INET
  · have := hp h
    simp [h, ha, this]
  · simp [h, ha]

/-- C88: a text without NUL is sent, or sent back, with one NUL after it: the receiver reads it as a C string. -/
theorem C88_text (s : Sock) (text : Str) (h0 : (0 : Byte) ∉ text) : writeText s text = write s (text ++ [0]) ∧ writeBackText s text = writeBack s (text ++ [0]) ∧ Config.cText (text ++ [0]) = text := by
  refine ⟨?_, ?_, ?_⟩
  · rw [writeText, Config.cText_self h0]
  · rw [writeBackText, Config.cText_self h0]
  · rw [Config.cText, List.takeWhile_append_of_pos (by intro x hx; simp; rintro rfl; exact h0 hx)]
    simp

/-- C88: of a text with a NUL in it only the part before is sent. -/
theorem C88_text_cut (s : Sock) (a b : Str) (h0 : (0 : Byte) ∉ a) : writeText s (a ++ 0 :: b) = writeText s a ∧ writeBackText s (a ++ 0 :: b) = writeBackText s a := by
  have e : Config.cText (a ++ 0 :: b) = a := by
    rw [Config.cText, List.takeWhile_append_of_pos (by intro x hx; simp; rintro rfl; exact h0 hx)]
    simp
  constructor
  · rw [writeText, e, writeText, Config.cText_self h0]
  · rw [writeBackText, e, writeBackText, Config.cText_self h0]

example : writeText { family := 2, fd := some 3, dest := { family := 2, ip := 5, port := 6 } } (lit "CMD" ++ 0 :: lit "x") = .ok (some ⟨{ family := 2, ip := 5, port := 6 }, lit "CMD" ++ [0]⟩) := by decide +kernel

/-- C88 (negation): a reply before anything was received reads an address that was never written. -/
theorem C88_reply_refuted (s : Sock) (hs : s.src = none) (bytes : Str) : writeBack s bytes = .ub := by
  unfold writeBack
  rw [hs]
  split
  · next h => simp at h
  · rfl

example : (∃ r, uddOpen { family := 1 } 7 (lit "/tmp/a") = .ok r ∧ uddDestination r.1 (lit "/tmp/b") = .ok { family := 1, fd := some 7, dest := { path := lit "/tmp/b" } }) := ⟨_, rfl, rfl⟩

/-! ### C89 -/

/-- C89, partial: a text of at most 1499 characters (without NUL) that is sent is received whole: the reader finds it as C string, and the length includes the NUL.
Missing: longer texts, see C89_long_refuted. -/
theorem C89_text_partial (s r : Sock) (text : Str) (h0 : (0 : Byte) ∉ text) (hl : text.length ≤ 1499) (p : Packet) (hw : writeText s text = .ok (some p)) (a : Addr) :
    cString (read r a p.bytes).2.1 = .ok text ∧ (read r a p.bytes).1 = text.length + 1 := by
  have hp : p.bytes = text ++ [0] := by
    unfold writeText write at hw
    split at hw
    · exact absurd hw (by simp)
    · simp only [Outcome.ok.injEq] at hw
      unfold sendto at hw
      split at hw
      · split at hw
        · injection hw with hw; rw [← hw, cText_self h0]
        · exact absurd hw (by simp)
      · split at hw
        · injection hw with hw; rw [← hw, cText_self h0]
        · exact absurd hw (by simp)
  have hlen : (text ++ [0]).length ≤ maxUdp := by simp [maxUdp]; omega
  unfold read cString
  simp only [hp, List.take_of_length_le hlen]
  constructor
  · rw [if_pos (by simp)]
    congr 1
    unfold cText
    rw [takeWhile_stop (by simp)]
    exact cText_self h0
  · simp

/-- C89 (negation): every longer text arrives without its NUL, so that reading it as a C string overruns the buffer. -/
theorem C89_long_refuted (s r : Sock) (text : Str) (h0 : (0 : Byte) ∉ text) (hl : 1500 ≤ text.length) (p : Packet) (hw : writeText s text = .ok (some p)) (a : Addr) :
    cString (read r a p.bytes).2.1 = .ub := by
  have hp : p.bytes = text ++ [0] := by
    unfold writeText write at hw
    split at hw
    · exact absurd hw (by simp)
    · simp only [Outcome.ok.injEq] at hw
      unfold sendto at hw
      split at hw
      · split at hw
        · injection hw with hw; rw [← hw, cText_self h0]
        · exact absurd hw (by simp)
      · split at hw
        · injection hw with hw; rw [← hw, cText_self h0]
        · exact absurd hw (by simp)
  unfold read cString
  simp only [hp]
  rw [if_neg]
  rw [List.take_append_of_le_length (by simp [maxUdp]; omega)]
  exact fun h => h0 (List.mem_of_mem_take h)

example : ∃ p, writeText { family := 2, fd := some 5, dest := { family := 2, ip := 1, port := 80 } } (lit "hello") = .ok (some p) := ⟨_, rfl⟩

/-! ### C91 -/

/-- A socket closes the descriptor opened last, and one never opened an unknown number; programs with many sockets are in `Sockets/Descriptors.lean`. -/
example : destroy (udpOpen (udpOpen { family := 2 } 3) 4) = .ok 4 ∧ destroy { family := 1 } = .ub := ⟨rfl, rfl⟩

/-- C88 (negation): the destination of a Unix socket is kept whole up to 253 characters, though an address has room for 107 only; longer ones overrun the 256 bytes of `mDestination`. -/
theorem C88_path_refuted (s : Sock) (path : Str) : (path.length ≤ 253 → ∃ s', uddDestination s path = .ok s' ∧ s'.dest.path = path) ∧ (253 < path.length → uddDestination s path = .ub) := by
  unfold uddDestination destRoom
  constructor
  · intro h
    rw [if_pos (by omega)]
    exact ⟨_, rfl, rfl⟩
  · intro h
    rw [if_neg (by omega)]

/-- C91 (negation): a path of 108 characters or more overruns the address. -/
theorem C91_path_refuted (s : Sock) (fd : Nat) (path : Str) : (∃ r, uddOpen s fd path = .ok r) ↔ path.length < 108 := by
  unfold uddOpen pathRoom
  split
  · simp; omega
  · simp; omega

end Verif.Sockets
