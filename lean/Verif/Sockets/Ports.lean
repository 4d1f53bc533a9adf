import Verif.Core.Str
import Mathlib.Logic.Basic

/-
Property C124: the ports of UDP sockets.

`UDPSocket::open` (`Sockets.cpp:267-296`) sets `SO_REUSEADDR` and binds to the port on all interfaces; `UDPSocket::port` (`Sockets.cpp:300-310`) asks the system for it.  The kernel is that of Linux:
a port can be bound when every socket that has it, and the new one, have `SO_REUSEADDR` (socket(7); there are no listening UDP sockets); a port below 1024 needs a privilege; for port 0 the
kernel takes one of 32768 to 60999 that can be bound by the same rule, if there is one.  Sockets of other programs are there too.  The machine is little-endian.  Left out: a failing `socket` or `setsockopt`.
-/

namespace Verif.Sockets.Ports

open Verif

/-- Two bytes in memory, lowest address first. -/
abbrev Bytes := Nat × Nat

/-- `htons` and `ntohs` on a little-endian machine (`Sockets.cpp:288, 309`): the bytes of a 16-bit number exchanged. -/
def swap (x : Nat) : Nat := x % 256 * 256 + x / 256 % 256

/-- A 16-bit number in memory. -/
def memory (x : Nat) : Bytes := (x % 256, x / 256 % 256)

/-- The 16-bit number in memory. -/
def load (b : Bytes) : Nat := b.2 * 256 + b.1

/-- A bound socket: its number, its port in the bytes of `sin_port`, whether `SO_REUSEADDR` is set. -/
structure Bound where
  id : Nat
  port : Bytes
  reuse : Bool
deriving DecidableEq

/-- The port the network knows: two bytes in network order. -/
def number (b : Bytes) : Nat := b.1 * 256 + b.2

/-- Can a socket with or without `SO_REUSEADDR` be bound? -/
def free (l : List Bound) (reuse : Bool) (b : Bytes) : Bool := l.all fun x => x.port ≠ b || (x.reuse && reuse)

/-- `bind` (called at `Sockets.cpp:289`); `choice` is what the kernel would take for port 0. -/
def bind (privileged : Bool) (l : List Bound) (id : Nat) (reuse : Bool) (choice b : Bytes) : Option (List Bound) :=
  if number b = 0 then
    if 32768 ≤ number choice ∧ number choice ≤ 60999 ∧ free l reuse choice then some (l ++ [⟨id, choice, reuse⟩]) else none
  else if (number b < 1024 → privileged) ∧ free l reuse b then some (l ++ [⟨id, b, reuse⟩]) else none

/-- What happens. -/
inductive Ev
  /-- `UDPSocket(port)` of this program; a failure throws `SocketError`. -/
  | construct (id : Nat) (port : Nat) (choice : Bytes)
  /-- Another program binds a socket, with or without `SO_REUSEADDR`. -/
  | foreign (id : Nat) (reuse : Bool) (choice b : Bytes)
  /-- A socket is closed. -/
  | close (id : Nat)

/-- The sockets of the machine, and the constructors that threw. -/
structure St where
  bound : List Bound
  thrown : List Nat

/-- One event; `UDPSocket::open` (`Sockets.cpp:267-296`): `SO_REUSEADDR`, `htons`, `bind`. -/
def happen (privileged : Bool) (s : St) : Ev → St
  | .construct id port choice =>
    match bind privileged s.bound id true choice (memory (swap port)) with
    | some l => { s with bound := l }
    | none => { s with thrown := s.thrown ++ [id] }
  | .foreign id reuse choice b => { s with bound := (bind true s.bound id reuse choice b).getD s.bound }
  | .close id => { s with bound := s.bound.filter (·.id ≠ id) }

/-- A program among others. -/
def run (privileged : Bool) (s : St) (es : List Ev) : St := es.foldl (happen privileged) s

/-- `UDPSocket::port` (`Sockets.cpp:300-310`). -/
def port (s : St) (id : Nat) : Option Nat := (s.bound.find? (·.id = id)).map fun x => swap (load x.port)

/-- The start: nothing bound. -/
def start : St := ⟨[], []⟩

/-! ### Specification -/

/-- The number of the socket an event makes. -/
def Ev.id : Ev → Option Nat
  | .construct id _ _ => some id
  | .foreign id _ _ _ => some id
  | .close _ => none

/-- Every socket gets its own number. -/
def Fresh (es : List Ev) : Prop := (es.filterMap Ev.id).Nodup

/-- The sockets a packet for a port may be given to. -/
def receivers (s : St) (p : Nat) : List Nat := (s.bound.filter fun x => number x.port = p).map (·.id)

/-! ### Lemmas -/

theorem number_memory {x : Nat} (h : x < 65536) : number (memory (swap x)) = x := by
  simp only [number, memory, swap]
  have h1 : x / 256 < 256 := by omega
  generalize hb : x / 256 = b at *
  generalize ha : x % 256 = a at *
  have h2 : a < 256 := by omega
  have h3 : x = b * 256 + a := by omega
  rw [Nat.mod_eq_of_lt h1]
  have h4 : (a * 256 + b) / 256 = a := by omega
  have h5 : (a * 256 + b) % 256 = b := by omega
  rw [h4, h5, Nat.mod_eq_of_lt h2, h3]

theorem swap_load {b : Bytes} (h1 : b.1 < 256) (h2 : b.2 < 256) : swap (load b) = number b := by
  simp only [swap, load, number]
  omega

theorem bind_cases {pr : Bool} {l l' : List Bound} {id : Nat} {reuse : Bool} {c b : Bytes} (h : bind pr l id reuse c b = some l') :
    ∃ x : Bytes, l' = l ++ [⟨id, x, reuse⟩] ∧ free l reuse x = true ∧ (number b ≠ 0 → x = b) ∧ (number b = 0 → x = c ∧ 32768 ≤ number c ∧ number c ≤ 60999) := by
  unfold bind at h
  split at h
  · next h0 =>
    split at h
    · next hc =>
      cases h
      exact ⟨c, rfl, hc.2.2, fun x => absurd h0 x, fun _ => ⟨rfl, hc.1, hc.2.1⟩⟩
    · cases h
  · next h0 =>
    split at h
    · next hb =>
      cases h
      exact ⟨b, rfl, hb.2, fun _ => rfl, fun x => absurd x h0⟩
    · cases h

/-- Sockets that share a port both allow it. -/
def Apart (l : List Bound) : Prop := l.Pairwise fun x y => x.port = y.port → x.reuse = true ∧ y.reuse = true

theorem apart_bind {pr : Bool} {l l' : List Bound} {id : Nat} {reuse : Bool} {c b : Bytes} (ha : Apart l) (h : bind pr l id reuse c b = some l') : Apart l' := by
  obtain ⟨x, rfl, hf, -, -⟩ := bind_cases h
  refine List.pairwise_append.2 ⟨ha, List.pairwise_singleton _ _, fun y hy z hz hp => ?_⟩
  rw [List.mem_singleton] at hz
  subst hz
  have := List.all_eq_true.1 hf y hy
  simp only [Bool.or_eq_true, decide_eq_true_eq, Bool.and_eq_true] at this
  exact this.resolve_left fun hn => hn hp

theorem apart_happen (pr : Bool) (s : St) (e : Ev) (h : Apart s.bound) : Apart (happen pr s e).bound := by
  cases e with
  | construct id p c =>
    simp only [happen]
    split
    · next l hl => exact apart_bind h hl
    · exact h
  | foreign id reuse c b =>
    simp only [happen]
    cases hb : bind true s.bound id reuse c b with
    | none => exact h
    | some l => exact apart_bind h hb
  | close id => exact h.filter _

theorem apart_run (pr : Bool) (es : List Ev) (s : St) (h : Apart s.bound) : Apart (run pr s es).bound := by
  induction es generalizing s with
  | nil => exact h
  | cons e es ih => exact ih _ (apart_happen pr s e h)

/-- A socket stays as it is until it is closed. -/
theorem stays (pr : Bool) (es : List Ev) (s : St) (x : Bound) (hx : x ∈ s.bound) (hu : ∀ y ∈ s.bound, y.id = x.id → y = x) (hf : ∀ e ∈ es, e.id ≠ some x.id) (hc : Ev.close x.id ∉ es) :
    x ∈ (run pr s es).bound ∧ ∀ y ∈ (run pr s es).bound, y.id = x.id → y = x := by
  induction es generalizing s with
  | nil => exact ⟨hx, hu⟩
  | cons e es ih =>
    have add : ∀ (l' : List Bound) (id : Nat) (reuse : Bool) (c b : Bytes) (p : Bool), id ≠ x.id → bind p s.bound id reuse c b = some l' → x ∈ l' ∧ ∀ y ∈ l', y.id = x.id → y = x := by
      intro l' id reuse c b p hid hb
      obtain ⟨z, rfl, -⟩ := bind_cases hb
      refine ⟨by simp [hx], fun y hy hyx => ?_⟩
      rcases List.mem_append.1 hy with h | h
      · exact hu y h hyx
      · rw [List.mem_singleton] at h
        subst h
        exact absurd hyx hid
    have hstep : x ∈ (happen pr s e).bound ∧ ∀ y ∈ (happen pr s e).bound, y.id = x.id → y = x := by
      have he := hf e (by simp)
      cases e with
      | construct id p c =>
        simp only [happen]
        split
        · next l hl => exact add l id _ _ _ _ (fun h => he (by simp [Ev.id, h])) hl
        · exact ⟨hx, hu⟩
      | foreign id reuse c b =>
        simp only [happen]
        cases hb : bind true s.bound id reuse c b with
        | none => exact ⟨hx, hu⟩
        | some l => exact add l id _ _ _ _ (fun h => he (by simp [Ev.id, h])) hb
      | close id =>
        have hid : x.id ≠ id := fun h => hc (by simp [h])
        simp only [happen, List.mem_filter]
        exact ⟨⟨hx, by simpa using hid⟩, fun y hy => hu y hy.1⟩
    exact ih _ hstep.1 hstep.2 (fun e he => hf e (by simp [he])) fun h => hc (by simp [h])

/-- Only numbers used so far are there. -/
theorem used (pr : Bool) (es : List Ev) (s : St) (x : Bound) (h : x ∈ (run pr s es).bound) : x ∈ s.bound ∨ ∃ e ∈ es, e.id = some x.id := by
  induction es generalizing s with
  | nil => exact .inl h
  | cons e es ih =>
    rcases ih _ h with h | ⟨e', h1, h2⟩
    · have add : ∀ (l' : List Bound) (id : Nat) (reuse : Bool) (c b : Bytes) (p : Bool), bind p s.bound id reuse c b = some l' → x ∈ l' → x ∈ s.bound ∨ id = x.id := by
        intro l' id reuse c b p hb hx
        obtain ⟨z, rfl, -⟩ := bind_cases hb
        rcases List.mem_append.1 hx with h | h
        · exact .inl h
        · rw [List.mem_singleton] at h
          subst h
          exact .inr rfl
      cases e with
      | construct id p c =>
        simp only [happen] at h
        split at h
        · next l hl => exact (add l id _ _ _ _ hl h).imp (fun h => h) fun e => ⟨.construct id p c, by simp, by simp [Ev.id, e]⟩
        · exact .inl h
      | foreign id reuse c b =>
        simp only [happen] at h
        cases hb : bind true s.bound id reuse c b with
        | none => rw [hb] at h; exact .inl h
        | some l => rw [hb] at h; exact (add l id _ _ _ _ hb h).imp (fun h => h) fun e => ⟨.foreign id reuse c b, by simp, by simp [Ev.id, e]⟩
      | close id => exact .inl (List.mem_filter.1 h).1
    · exact .inr ⟨e', by simp [h1], h2⟩

theorem thrown_run (pr : Bool) (es : List Ev) (s : St) : s.thrown ⊆ (run pr s es).thrown := by
  induction es generalizing s with
  | nil => exact fun _ h => h
  | cons e es ih =>
    refine fun x hx => ih _ ?_
    cases e with
    | construct id p c =>
      simp only [happen]
      split
      · exact hx
      · simp [hx]
    | foreign => exact hx
    | close => exact hx

/-! ### C124 -/

/-- C124: a `UDPSocket` whose constructor did not throw is bound to the port it was made for, or for 0 to one the system chose, from then on until it is closed; that is the port `port` reports, and the port the
packets for the socket are addressed to.  Whatever other sockets, of this program or others, come and go. -/
theorem C124_port (pr : Bool) (es1 es2 : List Ev) (id p : Nat) (c : Bytes) (hp : p < 65536) (hc : c.1 < 256 ∧ c.2 < 256) (hf : Fresh (es1 ++ .construct id p c :: es2))
    (hn : Ev.close id ∉ es2) (ht : id ∉ (run pr start (es1 ++ .construct id p c :: es2)).thrown) :
    ∃ q, port (run pr start (es1 ++ .construct id p c :: es2)) id = some q ∧ id ∈ receivers (run pr start (es1 ++ .construct id p c :: es2)) q ∧
      (p ≠ 0 → q = p) ∧ (p = 0 → 32768 ≤ q ∧ q ≤ 60999) := by
  have hrun : run pr start (es1 ++ .construct id p c :: es2) = run pr (happen pr (run pr start es1) (.construct id p c)) es2 := by
    simp [run, List.foldl_append]
  rw [hrun] at ht ⊢
  generalize hs1 : run pr start es1 = s1 at *
  unfold Fresh at hf
  rw [List.filterMap_append, List.filterMap_cons_some (by rfl : Ev.id (.construct id p c) = some id), List.nodup_append] at hf
  obtain ⟨-, h2, h3⟩ := hf
  have hf2 : ∀ e ∈ es2, e.id ≠ some id := fun e he h => (List.nodup_cons.1 h2).1 (List.mem_filterMap.2 ⟨e, he, h⟩)
  have hnew : ∀ y ∈ s1.bound, y.id ≠ id := by
    intro y hy e
    rw [← hs1] at hy
    rcases used pr es1 start y hy with h | ⟨e', h, h'⟩
    · cases h
    · exact h3 id (List.mem_filterMap.2 ⟨e', h, by rw [h', e]⟩) id (by simp) rfl
  have hb : ∃ l, bind pr s1.bound id true c (memory (swap p)) = some l := by
    cases hb : bind pr s1.bound id true c (memory (swap p)) with
    | some l => exact ⟨l, rfl⟩
    | none =>
      refine absurd (thrown_run pr es2 _ ?_) ht
      simp [happen, hb]
  obtain ⟨l, hb⟩ := hb
  have hh : happen pr s1 (.construct id p c) = { s1 with bound := l } := by simp [happen, hb]
  rw [hh] at ht ⊢
  obtain ⟨x, rfl, hfree, h4, h5⟩ := bind_cases hb
  rw [number_memory hp] at h4 h5
  obtain ⟨h6, h7⟩ := stays pr es2 ⟨s1.bound ++ [⟨id, x, true⟩], s1.thrown⟩ ⟨id, x, true⟩ (by simp)
    (fun y hy e => by
      rcases List.mem_append.1 hy with h | h
      · exact absurd e (hnew y h)
      · simpa using h) hf2 hn
  have hbytes : x.1 < 256 ∧ x.2 < 256 := by
    by_cases e : p = 0
    · rw [(h5 e).1]; exact hc
    · rw [h4 e]; simp only [memory, swap]; omega
  refine ⟨number x, ?_, ?_, fun e => ?_, fun e => ?_⟩
  · unfold port
    cases hfi : (run pr ⟨s1.bound ++ [⟨id, x, true⟩], s1.thrown⟩ es2).bound.find? (·.id = id) with
    | none =>
      have := List.find?_eq_none.1 hfi _ h6
      simp at this
    | some y =>
      have hy := List.mem_of_find?_eq_some hfi
      have hid := List.find?_some hfi
      have := h7 y hy (by simpa using hid)
      subst this
      simp only [Option.map_some]
      rw [swap_load hbytes.1 hbytes.2]
  · exact List.mem_map.2 ⟨_, List.mem_filter.2 ⟨h6, by simp⟩, rfl⟩
  · rw [h4 e, number_memory hp]
  · rw [(h5 e).1]; exact (h5 e).2

/-- C124: the constructor for a given port throws exactly if the port needs a privilege the program has not, or some socket has it without `SO_REUSEADDR`. -/
theorem C124_throws (pr : Bool) (s : St) (id p : Nat) (c : Bytes) (hp : p < 65536) (h0 : p ≠ 0) (hw : ∀ x ∈ s.bound, x.port.1 < 256 ∧ x.port.2 < 256) (ht : id ∉ s.thrown) :
    id ∈ (happen pr s (.construct id p c)).thrown ↔ (p < 1024 ∧ pr = false) ∨ ∃ x ∈ s.bound, number x.port = p ∧ x.reuse = false := by
  have hm := number_memory hp
  have hport : ∀ x ∈ s.bound, x.port = memory (swap p) ↔ number x.port = p := by
    intro x hx
    refine ⟨fun e => by rw [e, hm], fun e => ?_⟩
    obtain ⟨h1, h2⟩ := hw x hx
    refine Prod.ext ?_ ?_ <;> simp only [memory, swap, number] at * <;> omega
  have hfree : free s.bound true (memory (swap p)) = true ↔ ¬ ∃ x ∈ s.bound, number x.port = p ∧ x.reuse = false := by
    unfold free
    rw [List.all_eq_true]
    constructor
    · rintro h ⟨x, hx, h1, h2⟩
      have := h x hx
      simp [(hport x hx).2 h1, h2] at this
    · intro h x hx
      by_cases e : x.port = memory (swap p)
      · have : x.reuse = true := by
          cases hr : x.reuse with
          | true => rfl
          | false => exact absurd ⟨x, hx, (hport x hx).1 e, hr⟩ h
        simp [this]
      · simp [e]
  have hb : (bind pr s.bound id true c (memory (swap p))).isSome ↔ (p < 1024 → pr = true) ∧ ¬ ∃ x ∈ s.bound, number x.port = p ∧ x.reuse = false := by
    unfold bind
    rw [hm, if_neg h0, ← hfree]
    split
    · next h => simp only [Option.isSome_some, true_iff]; exact h
    · next h => simp only [Option.isSome_none, Bool.false_eq_true, false_iff]; exact h
  simp only [happen]
  split
  · next l hl =>
    rw [hl] at hb
    simp only [Option.isSome_some, true_iff] at hb
    refine ⟨fun h => absurd h ht, fun h => ?_⟩
    rcases h with ⟨h1, h2⟩ | h
    · rw [hb.1 h1] at h2; cases h2
    · exact absurd h hb.2
  · next hl =>
    rw [hl] at hb
    simp only [Option.isSome_none, Bool.false_eq_true, false_iff] at hb
    refine ⟨fun _ => ?_, fun _ => by simp⟩
    by_cases h : ∃ x ∈ s.bound, number x.port = p ∧ x.reuse = false
    · exact .inr h
    · left
      have : ¬ (p < 1024 → pr = true) := fun h' => hb ⟨h', h⟩
      cases pr <;> simp_all

/-- C124, partial: a port is never shared with a socket without `SO_REUSEADDR`, of whatever program.  Missing: sockets that all have it, as every `UDPSocket` does, see `C124_shared_refuted`. -/
theorem C124_exclusive_partial (pr : Bool) (es : List Ev) :
    (run pr start es).bound.Pairwise fun x y => x.port = y.port → x.reuse = true ∧ y.reuse = true := apart_run pr es start .nil

/-- C124 is false for two `UDPSocket`s: the second gets the port of the first, no exception is thrown, and packets for that port may go to either; also when the system chooses the port. -/
theorem C124_shared_refuted : (∃ es, Fresh es ∧ (run false start es).thrown = [] ∧ receivers (run false start es) 5000 = [0, 1]) ∧
    ∃ es, Fresh es ∧ (run false start es).thrown = [] ∧ port (run false start es) 0 = some 40000 ∧ port (run false start es) 1 = some 40000 := by
  refine ⟨⟨[.construct 0 5000 (0, 0), .construct 1 5000 (0, 0)], ?_, ?_, ?_⟩, ⟨[.construct 0 0 (156, 64), .construct 1 0 (156, 64)], ?_, ?_, ?_, ?_⟩⟩
  · unfold Fresh; decide
  · decide +kernel
  · decide +kernel
  · unfold Fresh; decide
  · decide +kernel
  · decide +kernel
  · decide +kernel

/-- A port another program holds without `SO_REUSEADDR` is refused; the others are reported as asked for. -/
example : let s := run false start [.foreign 7 false (0, 0) (19, 136), .construct 0 5000 (0, 0), .construct 1 5060 (0, 0), .construct 2 0 (128, 1), .construct 3 80 (0, 0), .close 7, .construct 4 5000 (0, 0)]
    s.thrown = [0, 3] ∧ port s 1 = some 5060 ∧ port s 2 = some 32769 ∧ port s 4 = some 5000 ∧ receivers s 5000 = [4] := by decide +kernel

end Verif.Sockets.Ports
