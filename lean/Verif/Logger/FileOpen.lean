import Verif.Logger.Record

/-
Property C143: the log file when `gLogInit` is called while other threads log (`Logger.cpp:208-238, 266-319`); `C108` takes the file as open from the start.

`gLogInit` looks at `gLogToFile`, opens the file, assigns the pointer and writes the first line, all without `gLogToLock`; a record looks at `gLogToFile` before it takes the lock.  Every stream has
its own position in the file.  Each call of an output function is atomic and reaches the file at once (in the code it does at the `fflush` that follows).  `gLogToConsole` is false.  Reading the
pointer while it is assigned (a race in C++) gives the old or the new value.
-/

namespace Verif.Logger.FileOpen
open Verif Verif.Logger.Record

/-- Where a thread is: nowhere; in `Log::~Log` (`Logger.cpp:221-237`) before the lock, before `fputs`, before `fputc`, before the unlock; in `gLogInit` before `fopen`, before the assignment, before
`fprintf`. -/
inductive Pc where
  | idle
  | want (r : Rec)
  | text (r : Rec)
  | nl (r : Rec)
  | out (r : Rec)
  | opening (line : Str)
  | got (k : Option Nat) (line : Str)
  | say (line : Str)
  deriving DecidableEq

/-- What is written by one call. -/
inductive Chunk (n : Nat) where
  | text (t : Fin n) (r : Rec)
  | nl (t : Fin n) (r : Rec)
  deriving DecidableEq

/-- The state.  `cur`: `gLogToFile`; `next`: the streams opened so far; `off`: their positions.  For the specification: the records begun while `gLogToFile` was not set, after that before `gLogInit`
returned, and after it returned; what was written to the file before and after the first line; whether a `gLogInit` that opened the file has returned. -/
structure St (n : Nat) where
  cur : Option Nat
  next : Nat
  off : Nat → Nat
  file : Str
  owner : Option (Fin n)
  pc : Fin n → Pc
  before : Fin n → List Rec
  during : Fin n → List Rec
  after : Fin n → List Rec
  pre : List (Chunk n)
  first : Option Str
  post : List (Chunk n)

/-- The start; the file may be there from the last time. -/
def start (n : Nat) (old : Str) : St n := ⟨none, 0, fun _ => 0, old, none, fun _ => .idle, fun _ => [], fun _ => [], fun _ => [], [], none, []⟩

/-- Point update. -/
def put {n : Nat} {α : Type} (f : Fin n → α) (t : Fin n) (x : α) : Fin n → α := fun u => if u = t then x else f u

/-- Writing at a position of a file. -/
def writeAt (f : Str) (o : Nat) (x : Str) : Str := f.take o ++ List.replicate (o - f.length) 0 ++ x ++ f.drop (o + x.length)

/-- Writing to a stream. -/
def St.write {n : Nat} (s : St n) (k : Nat) (x : Str) : St n := { s with file := writeAt s.file (s.off k) x, off := fun j => if j = k then s.off k + x.length else s.off j }

/-- Notes what a record wrote. -/
def St.note {n : Nat} (s : St n) (c : Chunk n) : St n := if s.first = none then { s with pre := s.pre ++ [c] } else { s with post := s.post ++ [c] }

/-- What can happen: a record is destroyed, `gLogInit` is called (with the text of the first line), a thread goes on, `fopen` fails. -/
inductive Ev (n : Nat) where
  | record (t : Fin n) (r : Rec)
  | init (t : Fin n) (line : Str)
  | step (t : Fin n)
  | fail (t : Fin n)

/-- One event; none if it cannot happen now. -/
def happen {n : Nat} (s : St n) : Ev n → Option (St n)
  /- Logger.cpp:221 -/
  | .record t r =>
    if s.pc t ≠ .idle then none
    else if s.cur = none then some { s with before := put s.before t (s.before t ++ [r]) }
    else if s.first = none then some { s with pc := put s.pc t (.want r), during := put s.during t (s.during t ++ [r]) }
    else some { s with pc := put s.pc t (.want r), after := put s.after t (s.after t ++ [r]) }
  /- Logger.cpp:303 (`273` with a file name) -/
  | .init t line => if s.pc t ≠ .idle then none else if s.cur = none then some { s with pc := put s.pc t (.opening line) } else some s
  | .step t =>
    match s.pc t with
    | .idle => none
    /- Logger.cpp:224 -/
    | .want r => if s.owner = none then some { s with owner := some t, pc := put s.pc t (.text r) } else none
    /- Logger.cpp:231-234 -/
    | .text r =>
      match s.cur with
      | none => some { s with pc := put s.pc t (.out r) }
      | some k => some { (s.write k (cstr r.text)).note (.text t r) with pc := put s.pc t (if neednl r.text then .nl r else .out r) }
    | .nl r =>
      match s.cur with
      | none => some { s with pc := put s.pc t (.out r) }
      | some k => some { (s.write k (lit "\n")).note (.nl t r) with pc := put s.pc t (.out r) }
    /- Logger.cpp:236 -/
    | .out _ => some { s with owner := none, pc := put s.pc t .idle }
    /- Logger.cpp:306: `fopen` with "w" empties the file -/
    | .opening line => some { s with file := [], off := fun j => if j = s.next then 0 else s.off j, next := s.next + 1, pc := put s.pc t (.got (some s.next) line) }
    | .got k line => some { s with cur := k, pc := put s.pc t (.say line) }
    /- Logger.cpp:307-310 -/
    | .say line =>
      match s.cur with
      | none => some { s with pc := put s.pc t .idle }
      | some k => some { s.write k line with pc := put s.pc t .idle, first := some line }
  | .fail t =>
    match s.pc t with
    | .opening line => some { s with pc := put s.pc t (.got none line) }
    | _ => none

/-! ### Specification -/

/-- The bytes of a call. -/
def Chunk.bytes {n : Nat} : Chunk n → Str
  | .text _ r => cstr r.text
  | .nl _ _ => lit "\n"

/-- The calls for a record. -/
def chunks {n : Nat} (x : Fin n × Rec) : List (Chunk n) := .text x.1 x.2 :: if neednl x.2.text then [.nl x.1 x.2] else []

/-- The thread is in `gLogInit`. -/
def Pc.inits : Pc → Bool
  | .opening _ => true
  | .got _ _ => true
  | .say _ => true
  | _ => false

/-- No two calls of `gLogInit` at the same time. -/
def OneInit {n : Nat} (s : St n) : Ev n → Prop
  | .init _ _ => ∀ t, (s.pc t).inits = false
  | _ => True

/-- Nor is a record destroyed during the call. -/
def Apart {n : Nat} (s : St n) : Ev n → Prop
  | .init _ _ => ∀ t, (s.pc t).inits = false
  | .record _ _ => ∀ t, (s.pc t).inits = false
  | _ => True

/-- The states that executions with the rule reach. -/
inductive Reach {n : Nat} (rule : St n → Ev n → Prop) (old : Str) : St n → Prop
  | start : Reach rule old (start n old)
  | step {s s' : St n} {e : Ev n} : Reach rule old s → rule s e → happen s e = some s' → Reach rule old s'

/-- The records, each with its thread, are those of every thread in their order and nothing else. -/
def Merges {n : Nat} (l : List (Fin n × Rec)) (prog : Fin n → List Rec) : Prop := ∀ t, (l.filter fun p => p.1 = t).map (·.2) = prog t

/-! ### Lemmas -/

variable {n : Nat}

theorem put_same {α : Type} (f : Fin n → α) (t : Fin n) (x : α) : put f t x t = x := by simp [put]
theorem put_ne {α : Type} (f : Fin n → α) {t u : Fin n} (x : α) (h : u ≠ t) : put f t x u = f u := by simp [put, h]

theorem writeAt_end (f x : Str) : writeAt f f.length x = f ++ x := by
  unfold writeAt
  rw [List.take_length, Nat.sub_self, List.drop_eq_nil_of_le (by omega)]
  simp

/-- The record a thread is about to finish. -/
def Pc.pending : Pc → List Rec
  | .want r => [r]
  | .text r => [r]
  | .nl r => [r]
  | .out r => [r]
  | _ => []

/-- What the owner of the lock has written of its record. -/
def part (t : Fin n) : Pc → List (Chunk n)
  | .nl r => [.text t r]
  | .out r => chunks (t, r)
  | _ => []

def Pc.inside : Pc → Bool
  | .text _ => true
  | .nl _ => true
  | .out _ => true
  | _ => false

/-- What the owner has written. -/
def St.partly (s : St n) : List (Chunk n) := match s.owner with
  | none => []
  | some t => part t (s.pc t)

/-- What holds for a thread in `gLogInit`, or about to write a line end. -/
def Fine (s : St n) : Pc → Prop
  | .opening _ => s.cur = none ∧ s.next = 0
  | .got k _ => s.cur = none ∧ (k = none ∧ s.next = 0 ∨ k = some 0 ∧ s.next = 1 ∧ s.file = [] ∧ s.off 0 = 0)
  | .say _ => s.first = none ∧ (s.cur = none → s.next = 0)
  | .nl r => neednl r.text = true
  | _ => True

/-- The invariant of executions without calls of `gLogInit` at the same time; `l` are the records finished. -/
structure Inv (s : St n) (l : List (Fin n × Rec)) : Prop where
  inits : ∀ t u, (s.pc t).inits = true → (s.pc u).inits = true → t = u
  owner : ∀ t, s.owner = some t ↔ (s.pc t).inside = true
  none : s.cur = none → s.first = none ∧ s.pre = [] ∧ s.post = [] ∧ l = [] ∧ (∀ t, (s.pc t).pending = []) ∧ ∀ t, s.during t = [] ∧ s.after t = []
  fine : ∀ t, Fine s (s.pc t)
  zero : s.cur = .none → s.next = 0 ∨ ∃ t, (s.pc t).inits = true
  cur : ∀ k, s.cur = some k → k = 0 ∧ s.next = 1 ∧ s.off 0 = s.file.length ∧ s.file = s.pre.flatMap Chunk.bytes ++ s.first.getD [] ++ s.post.flatMap Chunk.bytes
  body : s.pre ++ s.post = l.flatMap chunks ++ s.partly
  post : s.first = .none → s.post = []
  due : ∀ t, (l.filter fun p => p.1 = t).map (·.2) ++ (s.pc t).pending = s.during t ++ s.after t
  late : ∀ t, s.first = .none → s.after t = []

theorem inv_start (old : Str) : Inv (start n old) [] where
  inits := fun _ _ h => (nomatch h)
  owner := fun _ => ⟨fun h => (nomatch h), fun h => (nomatch h)⟩
  none := fun _ => ⟨rfl, rfl, rfl, rfl, fun _ => rfl, fun _ => ⟨rfl, rfl⟩⟩
  fine := fun _ => trivial
  zero := fun _ => .inl rfl
  cur := fun _ h => (nomatch h)
  body := rfl
  post := fun _ => rfl
  due := fun _ => rfl
  late := fun _ _ => rfl

/-- Outside `gLogInit` it does not depend on the state. -/
theorem fine_of_not {s s' : St n} {p : Pc} (h : p.inits = false) (hf : Fine s p) : Fine s' p := by cases p <;> first | exact hf | cases h

/-- With the file open, only the call about to write the first line is left. -/
theorem fine_open {s s' : St n} {p : Pc} (h : Fine s p) (hc : s.cur ≠ none) (hf : s'.first = s.first) (hcur : s'.cur = s.cur) : Fine s' p := by
  cases p <;> first | trivial | exact ⟨hf.trans h.1, fun e => absurd (hcur.symm.trans e) hc⟩ | exact absurd h.1 hc | exact h

/-- A record goes on; `gLogToFile` is set. -/
theorem inv_rec {s s' : St n} {l l' : List (Fin n × Rec)} (h : Inv s l) {t : Fin n} {p : Pc} (hp : s'.pc = put s.pc t p) (hcur : s'.cur = s.cur) (hnx : s'.next = s.next) (hc : s.cur ≠ none)
    (h1 : p.inits = false) (h2 : Fine s' p) (ho : ∀ u, s'.owner = some u ↔ (put s.pc t p u).inside = true) (hfi : s'.first = s.first)
    (hfile : s'.off 0 = s'.file.length ∧ s'.file = s'.pre.flatMap Chunk.bytes ++ s'.first.getD [] ++ s'.post.flatMap Chunk.bytes)
    (hb : s'.pre ++ s'.post = l'.flatMap chunks ++ s'.partly) (hpo : s'.first = none → s'.post = [])
    (hd : ∀ u, (l'.filter fun p => p.1 = u).map (·.2) ++ (put s.pc t p u).pending = s'.during u ++ s'.after u) (hl : ∀ u, s'.first = none → s'.after u = []) : Inv s' l' where
  inits := by
    rw [hp]
    intro u v hu hv
    have key : ∀ w, (put s.pc t p w).inits = true → (s.pc w).inits = true := by
      intro w hw
      by_cases e : w = t
      · subst e; rw [put_same, h1] at hw; cases hw
      · rwa [put_ne _ _ e] at hw
    exact h.inits u v (key u hu) (key v hv)
  owner := by rw [hp]; exact ho
  none := fun hn => absurd (hcur.symm.trans hn) hc
  fine := by
    rw [hp]
    intro u
    by_cases e : u = t
    · subst e; rw [put_same]; exact h2
    · rw [put_ne _ _ e]; exact fine_open (h.fine u) hc hfi hcur
  zero := fun hn => absurd (hcur.symm.trans hn) hc
  cur := by
    intro k hk
    rw [hcur] at hk
    obtain ⟨e1, e2, -⟩ := h.cur k hk
    exact ⟨e1, hnx.trans e2, hfile⟩
  body := hb
  post := hpo
  due := by rw [hp]; exact hd
  late := hl

/-- A step of `gLogInit`, or a call that ends at once. -/
theorem inv_init {s s' : St n} {l : List (Fin n × Rec)} (h : Inv s l) {t : Fin n} {p : Pc} (hp : s'.pc = put s.pc t p) (hown : s'.owner = s.owner)
    (ho : ∀ u, (s.pc u).inits = true → u = t) (hi : (s.pc t).inside = false) (hi' : p.inside = false) (hq : (s.pc t).pending = []) (hq' : p.pending = [])
    (hn : s'.cur = none → s.cur = none ∧ s'.first = s.first) (hf : Fine s' p) (hz : s'.cur = none → s'.next = 0 ∨ p.inits = true)
    (hc : ∀ k, s'.cur = some k → k = 0 ∧ s'.next = 1 ∧ s'.off 0 = s'.file.length ∧ s'.file = s'.pre.flatMap Chunk.bytes ++ s'.first.getD [] ++ s'.post.flatMap Chunk.bytes)
    (hpre : s'.pre = s.pre) (hpost : s'.post = s.post) (hfi : s'.first = none → s.first = none) (hdu : s'.during = s.during) (haf : s'.after = s.after) : Inv s' l where
  inits := by
    rw [hp]
    have key : ∀ w, (put s.pc t p w).inits = true → w = t := by
      intro w hw
      by_cases e : w = t
      · exact e
      · rw [put_ne _ _ e] at hw; exact ho w hw
    intro u v hu hv
    rw [key u hu, key v hv]
  owner := by
    rw [hp, hown]
    intro u
    by_cases e : u = t
    · subst e; rw [put_same, hi', h.owner, hi]
    · rw [put_ne _ _ e]; exact h.owner u
  none := by
    intro hc'
    obtain ⟨e1, e2⟩ := hn hc'
    obtain ⟨i1, i2, i3, i4, i5, i6⟩ := h.none e1
    refine ⟨e2.trans i1, hpre.trans i2, hpost.trans i3, i4, ?_, fun u => by rw [hdu, haf]; exact i6 u⟩
    rw [hp]
    intro u
    by_cases e : u = t
    · subst e; rw [put_same]; exact hq'
    · rw [put_ne _ _ e]; exact i5 u
  fine := by
    rw [hp]
    intro u
    by_cases e : u = t
    · subst e; rw [put_same]; exact hf
    · rw [put_ne _ _ e]
      cases hb : (s.pc u).inits with
      | true => exact absurd (ho u hb) e
      | false => exact fine_of_not hb (h.fine u)
  zero := by
    intro hc'
    rcases hz hc' with hz | hz
    · exact .inl hz
    · exact .inr ⟨t, by rw [hp, put_same]; exact hz⟩
  cur := hc
  body := by
    have : s'.partly = s.partly := by
      unfold St.partly
      rw [hown, hp]
      cases e : s.owner with
      | none => rfl
      | some u =>
        have hu := (h.owner u).1 e
        have : u ≠ t := by rintro rfl; rw [hi] at hu; cases hu
        simp only [put_ne _ _ this]
    rw [hpre, hpost, this]; exact h.body
  post := by rw [hpost]; exact fun e => h.post (hfi e)
  due := by
    rw [hp, hdu, haf]
    intro u
    by_cases e : u = t
    · subst e; rw [put_same, hq', ← hq]; exact h.due u
    · rw [put_ne _ _ e]; exact h.due u
  late := by rw [haf]; exact fun u e => h.late u (hfi e)

theorem filter_snoc {l : List (Fin n × Rec)} (t u : Fin n) (r : Rec) :
    ((l ++ [(t, r)]).filter fun p : Fin n × Rec => p.1 = u).map Prod.snd = (l.filter fun p : Fin n × Rec => p.1 = u).map Prod.snd ++ if t = u then [r] else [] := by
  rw [List.filter_append, List.map_append]
  by_cases e : t = u <;> simp [e]

theorem pending_cur {s : St n} {l : List (Fin n × Rec)} (h : Inv s l) {t : Fin n} (hp : (s.pc t).pending ≠ []) : ∃ k, s.cur = some k := by
  cases e : s.cur with
  | none => exact absurd ((h.none e).2.2.2.2.1 t) hp
  | some k => exact ⟨k, rfl⟩

theorem partly_owner {s : St n} {l : List (Fin n × Rec)} (h : Inv s l) {t : Fin n} (hp : (s.pc t).inside = true) : s.partly = part t (s.pc t) := by
  unfold St.partly
  rw [(h.owner t).2 hp]

theorem write_cur {s : St n} {l : List (Fin n × Rec)} (h : Inv s l) (hc : s.cur = some 0) (x : Str) : (s.write 0 x).file = s.file ++ x ∧ (s.write 0 x).off 0 = (s.file ++ x).length := by
  have := (h.cur 0 hc).2.2.1
  unfold St.write
  simp only [this, writeAt_end, if_true, List.length_append, and_self]

/-- A record writes. -/
theorem note_write {s : St n} {l : List (Fin n × Rec)} (h : Inv s l) (hc : s.cur = some 0) (c : Chunk n) :
    ∃ s1, (s.write 0 c.bytes).note c = s1 ∧ (s1.off 0 = s1.file.length ∧ s1.file = s1.pre.flatMap Chunk.bytes ++ s1.first.getD [] ++ s1.post.flatMap Chunk.bytes) ∧
      s1.pre ++ s1.post = s.pre ++ s.post ++ [c] ∧ (s1.first = none → s1.post = []) ∧ s1.first = s.first ∧ s1.cur = s.cur ∧ s1.next = s.next ∧ s1.during = s.during ∧ s1.after = s.after ∧
      s1.owner = s.owner ∧ s1.pc = s.pc := by
  obtain ⟨w1, w2⟩ := write_cur h hc c.bytes
  obtain ⟨-, -, -, hf⟩ := h.cur 0 hc
  refine ⟨_, rfl, ?_⟩
  unfold St.note
  by_cases e : s.first = none
  · have e' : (s.write 0 c.bytes).first = none := e
    rw [if_pos e']
    have hp := h.post e
    refine ⟨⟨w2.trans (by rw [w1]), ?_⟩, ?_, fun _ => hp, rfl, rfl, rfl, rfl, rfl, rfl, rfl⟩
    · show (s.write 0 c.bytes).file = (s.pre ++ [c]).flatMap Chunk.bytes ++ s.first.getD [] ++ s.post.flatMap Chunk.bytes
      rw [w1, hf, e, hp]
      simp
    · show s.pre ++ [c] ++ s.post = _
      rw [hp]; simp
  · have e' : ¬ (s.write 0 c.bytes).first = none := e
    rw [if_neg e']
    refine ⟨⟨w2.trans (by rw [w1]), ?_⟩, ?_, fun hn => absurd hn e, rfl, rfl, rfl, rfl, rfl, rfl, rfl⟩
    · show (s.write 0 c.bytes).file = s.pre.flatMap Chunk.bytes ++ s.first.getD [] ++ (s.post ++ [c]).flatMap Chunk.bytes
      rw [w1, hf]
      simp
    · show s.pre ++ (s.post ++ [c]) = _
      simp

/-- A thread inside the lock stays inside: the owner stays. -/
theorem owner_stays {s : St n} {l : List (Fin n × Rec)} (h : Inv s l) {t : Fin n} {p : Pc} (h0 : (s.pc t).inside = true) (h1 : p.inside = true) (u : Fin n) :
    s.owner = some u ↔ (put s.pc t p u).inside = true := by
  by_cases e : u = t
  · subst e; rw [put_same, h1, h.owner, h0]
  · rw [put_ne _ _ e]; exact h.owner u

theorem due_stays {s : St n} {l : List (Fin n × Rec)} (h : Inv s l) {t : Fin n} {p : Pc} (hp : p.pending = (s.pc t).pending) (u : Fin n) :
    (l.filter fun p => p.1 = u).map (·.2) ++ (put s.pc t p u).pending = s.during u ++ s.after u := by
  by_cases e : u = t
  · subst e; rw [put_same, hp]; exact h.due u
  · rw [put_ne _ _ e]; exact h.due u

theorem inv_happen {s s' : St n} {l : List (Fin n × Rec)} {e : Ev n} (h : Inv s l) (hr : OneInit s e) (hs : happen s e = some s') : ∃ l', Inv s' l' := by
  cases e with
  | record t r =>
    simp only [happen] at hs
    split at hs
    · cases hs
    rename_i hi
    have hi : s.pc t = .idle := by simpa using hi
    split at hs
    · cases hs
      exact ⟨l, ⟨h.inits, h.owner, h.none, h.fine, h.zero, h.cur, h.body, h.post, h.due, h.late⟩⟩
    · rename_i hc
      obtain ⟨k, hk⟩ := Option.ne_none_iff_exists'.1 hc
      obtain ⟨rfl, -, hoff, hfile⟩ := h.cur k hk
      have ho : ∀ u, s.owner = some u ↔ (put s.pc t (.want r) u).inside = true := by
        intro u
        by_cases e : u = t
        · subst e; rw [put_same, h.owner, hi]; rfl
        · rw [put_ne _ _ e]; exact h.owner u
      have hpart : ∀ s1 : St n, s1.owner = s.owner → s1.pc = put s.pc t (.want r) → s1.partly = s.partly := by
        intro s1 e1 e2
        unfold St.partly
        rw [e1, e2]
        cases e : s.owner with
        | none => rfl
        | some u =>
          have hu := (h.owner u).1 e
          have : u ≠ t := by rintro rfl; rw [hi] at hu; cases hu
          simp only [put_ne _ _ this]
      split at hs
      · rename_i hf
        cases hs
        refine ⟨l, inv_rec h (t := t) (p := .want r) rfl rfl rfl hc rfl trivial ho rfl ⟨hoff, hfile⟩ ?_ h.post ?_ h.late⟩
        · rw [hpart]
          · exact h.body
          · rfl
          · rfl
        · intro u
          have := h.due u
          by_cases e : u = t
          · subst e
            rw [hi] at this
            simp only [put_same]
            rw [h.late u hf] at this ⊢
            simpa [Pc.pending] using this
          · simp only [put_ne _ _ e]; exact this
      · rename_i hf
        cases hs
        refine ⟨l, inv_rec h (t := t) (p := .want r) rfl rfl rfl hc rfl trivial ho rfl ⟨hoff, hfile⟩ ?_ h.post ?_ fun u hu => absurd hu hf⟩
        · rw [hpart]
          · exact h.body
          · rfl
          · rfl
        · intro u
          have := h.due u
          by_cases e : u = t
          · subst e
            rw [hi] at this
            simp only [put_same, ← List.append_assoc, ← this]
            simp [Pc.pending]
          · simp only [put_ne _ _ e]; exact this
  | init t line =>
    simp only [happen] at hs
    split at hs
    · cases hs
    rename_i hi
    have hi : s.pc t = .idle := by simpa using hi
    split at hs
    · rename_i hc
      cases hs
      have hz : s.next = 0 := by
        rcases h.zero hc with hz | ⟨u, hu⟩
        · exact hz
        · rw [hr u] at hu; cases hu
      exact ⟨l, inv_init h (t := t) (p := .opening line) rfl rfl (fun u hu => by rw [hr u] at hu; cases hu) (by rw [hi]; rfl) rfl (by rw [hi]; rfl) rfl
        (fun _ => ⟨hc, rfl⟩) ⟨hc, hz⟩ (fun _ => .inl hz) (fun k hk => by rw [show s.cur = some k from hk] at hc; cases hc) rfl rfl id rfl rfl⟩
    · cases hs
      exact ⟨l, h⟩
  | fail t =>
    simp only [happen] at hs
    split at hs
    · rename_i line hp
      cases hs
      have hf := h.fine t
      rw [hp] at hf
      have ht : (s.pc t).inits = true := by rw [hp]; rfl
      exact ⟨l, inv_init h (t := t) (p := .got none line) rfl rfl (fun u hu => h.inits u t hu ht) (by rw [hp]; rfl) rfl (by rw [hp]; rfl) rfl
        (fun _ => ⟨hf.1, rfl⟩) ⟨hf.1, .inl ⟨rfl, hf.2⟩⟩ (fun _ => .inl hf.2) (fun k hk => nomatch hf.1.symm.trans hk) rfl rfl id rfl rfl⟩
    · cases hs
  | step t =>
    simp only [happen] at hs
    split at hs
    · cases hs
    · rename_i r hp
      split at hs
      · rename_i ho
        cases hs
        obtain ⟨k, hk⟩ := pending_cur h (t := t) (by rw [hp]; simp [Pc.pending])
        obtain ⟨rfl, -, hoff, hfile⟩ := h.cur k hk
        refine ⟨l, inv_rec h (t := t) (p := .text r) rfl rfl rfl (by rw [hk]; simp) rfl trivial ?_ rfl ⟨hoff, hfile⟩ ?_ h.post (due_stays h (by rw [hp]; rfl)) h.late⟩
        · intro u
          by_cases e : u = t
          · subst e; rw [put_same]; simp [Pc.inside]
          · rw [put_ne _ _ e]
            have := h.owner u
            rw [ho] at this
            constructor
            · intro x; cases x; exact absurd rfl e
            · intro x; rw [x] at this; exact absurd (this.2 rfl) (by simp)
        · have hb := h.body
          unfold St.partly at hb ⊢
          rw [ho] at hb
          simp only [put_same, part]
          exact hb
      · cases hs
    · rename_i r hp
      obtain ⟨k, hk⟩ := pending_cur h (t := t) (by rw [hp]; simp [Pc.pending])
      obtain ⟨rfl, -, -⟩ := h.cur k hk
      rw [hk] at hs
      simp only at hs
      obtain ⟨s1, e0, e1, e2, e3, e4, e5, e6, e7, e8, e9, e10⟩ := note_write h hk (.text t r)
      rw [show cstr r.text = (Chunk.text t r : Chunk n).bytes from rfl, e0] at hs
      cases hs
      have hin : (s.pc t).inside = true := by rw [hp]; rfl
      have hb := h.body
      rw [partly_owner h hin, hp] at hb
      have hin' : (if neednl r.text then Pc.nl r else .out r).inside = true := by split <;> rfl
      refine ⟨l, inv_rec h (t := t) (p := if neednl r.text then .nl r else .out r) rfl e5 e6 (by rw [hk]; simp) (by split <;> rfl) (by split <;> first | assumption | trivial) ?_ e4 e1 ?_ e3 ?_ ?_⟩
      · show ∀ u, s1.owner = some u ↔ _
        rw [e9]
        exact owner_stays h hin hin'
      · show s1.pre ++ s1.post = _
        rw [e2, hb]
        unfold St.partly
        simp only [e9, (h.owner t).2 hin, put_same]
        split
        · simp [part]
        · rename_i hn; simp [part, chunks, hn]
      · show ∀ u, _ = s1.during u ++ s1.after u
        rw [e7, e8]
        exact due_stays h (by rw [hp]; split <;> rfl)
      · show ∀ u, s1.first = none → s1.after u = []
        rw [e4, e8]; exact h.late
    · rename_i r hp
      obtain ⟨k, hk⟩ := pending_cur h (t := t) (by rw [hp]; simp [Pc.pending])
      obtain ⟨rfl, -, -⟩ := h.cur k hk
      rw [hk] at hs
      simp only at hs
      obtain ⟨s1, e0, e1, e2, e3, e4, e5, e6, e7, e8, e9, e10⟩ := note_write h hk (.nl t r)
      rw [show lit "\n" = (Chunk.nl t r : Chunk n).bytes from rfl, e0] at hs
      cases hs
      have hin : (s.pc t).inside = true := by rw [hp]; rfl
      have hb := h.body
      have hnl : neednl r.text = true := by have := h.fine t; rw [hp] at this; exact this
      rw [partly_owner h hin, hp] at hb
      refine ⟨l, inv_rec h (t := t) (p := .out r) rfl e5 e6 (by rw [hk]; simp) rfl trivial ?_ e4 e1 ?_ e3 ?_ ?_⟩
      · show ∀ u, s1.owner = some u ↔ _
        rw [e9]
        exact owner_stays h hin rfl
      · show s1.pre ++ s1.post = _
        rw [e2, hb]
        unfold St.partly
        simp only [e9, (h.owner t).2 hin, put_same]
        simp [part, chunks, hnl]
      · show ∀ u, _ = s1.during u ++ s1.after u
        rw [e7, e8]
        exact due_stays h (by rw [hp]; rfl)
      · show ∀ u, s1.first = none → s1.after u = []
        rw [e4, e8]; exact h.late
    · rename_i r hp
      cases hs
      obtain ⟨k, hk⟩ := pending_cur h (t := t) (by rw [hp]; simp [Pc.pending])
      obtain ⟨rfl, -, hoff, hfile⟩ := h.cur k hk
      have hin : (s.pc t).inside = true := by rw [hp]; rfl
      have hb := h.body
      rw [partly_owner h hin, hp] at hb
      refine ⟨l ++ [(t, r)], inv_rec h (t := t) (p := .idle) rfl rfl rfl (by rw [hk]; simp) rfl trivial ?_ rfl ⟨hoff, hfile⟩ ?_ h.post ?_ h.late⟩
      · intro u
        by_cases e : u = t
        · subst e; rw [put_same]; simp [Pc.inside]
        · rw [put_ne _ _ e, ← h.owner u, (h.owner t).2 hin]
          constructor
          · intro x; cases x
          · intro x; cases x; exact absurd rfl e
      · show s.pre ++ s.post = _
        rw [hb]
        unfold St.partly
        simp [part]
      · intro u
        rw [filter_snoc]
        have := h.due u
        by_cases e : u = t
        · subst e
          rw [hp] at this
          simpa [put_same, Pc.pending] using this
        · rw [if_neg (fun x => e x.symm), put_ne _ _ e]
          simpa using this
    · rename_i line hp
      cases hs
      have hf := h.fine t
      rw [hp] at hf
      have ht : (s.pc t).inits = true := by rw [hp]; rfl
      refine ⟨l, inv_init h (t := t) (p := .got (some s.next) line) rfl rfl (fun u hu => h.inits u t hu ht) (by rw [hp]; rfl) rfl (by rw [hp]; rfl) rfl
        (fun _ => ⟨hf.1, rfl⟩) ⟨hf.1, .inr ⟨by rw [hf.2], by show s.next + 1 = 1; rw [hf.2], rfl, ?_⟩⟩ (fun _ => .inr rfl) (fun k hk => nomatch hf.1.symm.trans hk) rfl rfl id rfl rfl⟩
      show (if 0 = s.next then 0 else s.off 0) = 0
      rw [hf.2]; rfl
    · rename_i k line hp
      cases hs
      have hf := h.fine t
      rw [hp] at hf
      have ht : (s.pc t).inits = true := by rw [hp]; rfl
      obtain ⟨i1, i2, i3, i4, i5, i6⟩ := h.none hf.1
      refine ⟨l, inv_init h (t := t) (p := .say line) rfl rfl (fun u hu => h.inits u t hu ht) (by rw [hp]; rfl) rfl (by rw [hp]; rfl) rfl
        (fun _ => ⟨hf.1, rfl⟩) ⟨i1, ?_⟩ (fun _ => .inr rfl) (fun j hj => ?_) rfl rfl id rfl rfl⟩
      · intro e
        rcases hf.2 with ⟨-, e1⟩ | ⟨e1, -⟩
        · exact e1
        · rw [e1] at e; cases e
      have hj : k = some j := hj
      rcases hf.2 with ⟨e, -⟩ | ⟨e, e1, e2, e3⟩
      · rw [e] at hj; cases hj
      · rw [e] at hj
        cases hj
        refine ⟨rfl, e1, by show s.off 0 = s.file.length; rw [e2, e3]; rfl, ?_⟩
        show s.file = s.pre.flatMap Chunk.bytes ++ s.first.getD [] ++ s.post.flatMap Chunk.bytes
        rw [e2, i1, i2, i3]; rfl
    · rename_i line hp
      have hf := h.fine t
      rw [hp] at hf
      have ht : (s.pc t).inits = true := by rw [hp]; rfl
      split at hs
      · rename_i hc
        cases hs
        have hz : s.next = 0 := hf.2 hc
        exact ⟨l, inv_init h (t := t) (p := .idle) rfl rfl (fun u hu => h.inits u t hu ht) (by rw [hp]; rfl) rfl (by rw [hp]; rfl) rfl
          (fun _ => ⟨hc, rfl⟩) trivial (fun _ => .inl hz) (fun j hj => by rw [show s.cur = some j from hj] at hc; cases hc) rfl rfl id rfl rfl⟩
      · rename_i k hc
        cases hs
        obtain ⟨rfl, c1, c2, c3⟩ := h.cur k hc
        obtain ⟨w1, w2⟩ := write_cur h hc line
        have hf := hf.1
        have hpo := h.post hf
        refine ⟨l, inv_init h (t := t) (p := .idle) rfl rfl (fun u hu => h.inits u t hu ht) (by rw [hp]; rfl) rfl (by rw [hp]; rfl) rfl
          (fun e => by rw [show s.cur = none from e] at hc; cases hc) trivial (fun e => by rw [show s.cur = none from e] at hc; cases hc) (fun j hj => ?_) rfl rfl (fun e => (nomatch e)) rfl rfl⟩
        have hj : s.cur = some j := hj
        rw [hc] at hj
        cases hj
        refine ⟨rfl, c1, w2.trans (by rw [← w1]), ?_⟩
        show (s.write 0 line).file = s.pre.flatMap Chunk.bytes ++ line ++ s.post.flatMap Chunk.bytes
        rw [w1, c3, hf, hpo]
        simp

theorem reach_inv {old : Str} {s : St n} (h : Reach OneInit old s) : ∃ l, Inv s l := by
  induction h with
  | start => exact ⟨[], inv_start old⟩
  | step _ hr hs ih =>
    obtain ⟨l, hl⟩ := ih
    exact inv_happen hl hr hs

/-- Without records during `gLogInit`. -/
structure Quiet (s : St n) : Prop where
  some : s.cur ≠ none → s.first = none → ∃ t, (s.pc t).inits = true
  pending : s.first = none → ∀ t, (s.pc t).pending = []
  during : ∀ t, s.during t = []
  pre : s.pre = []

theorem quiet_happen {s s' : St n} {e : Ev n} (h : Quiet s) (hr : Apart s e) (hs : happen s e = .some s') : Quiet s' := by
  have keep : ∀ (t : Fin n) (p : Pc), p.pending = [] → s.first = none → ∀ u, (put s.pc t p u).pending = [] := by
    intro t p hp hf u
    by_cases e : u = t
    · subst e; rw [put_same]; exact hp
    · rw [put_ne _ _ e]; exact h.pending hf u
  have stay : ∀ (t : Fin n) (p : Pc), (s.pc t).inits = p.inits → s.cur ≠ none → s.first = none → ∃ u, (put s.pc t p u).inits = true := by
    intro t p hp hc hf
    obtain ⟨u, hu⟩ := h.some hc hf
    refine ⟨u, ?_⟩
    by_cases e : u = t
    · subst e; rw [put_same, ← hp]; exact hu
    · rw [put_ne _ _ e]; exact hu
  cases e with
  | record t r =>
    simp only [happen] at hs
    split at hs
    · cases hs
    split at hs
    · cases hs; exact ⟨h.some, h.pending, h.during, h.pre⟩
    rename_i hc
    have hf : s.first ≠ none := by
      intro hf
      obtain ⟨u, hu⟩ := h.some hc hf
      rw [hr u] at hu; cases hu
    rw [if_neg hf] at hs
    cases hs
    exact ⟨fun _ e => absurd e hf, fun e => absurd e hf, h.during, h.pre⟩
  | init t line =>
    simp only [happen] at hs
    split at hs
    · cases hs
    split at hs
    · rename_i hc
      cases hs
      exact ⟨fun e => absurd hc e, keep t _ rfl, h.during, h.pre⟩
    · cases hs; exact h
  | fail t =>
    simp only [happen] at hs
    split at hs
    · rename_i line hp
      cases hs
      exact ⟨stay t _ (by rw [hp]; rfl), keep t _ rfl, h.during, h.pre⟩
    · cases hs
  | step t =>
    simp only [happen] at hs
    have nope : (s.pc t).pending ≠ [] → s.first ≠ none := fun hp hf => hp (h.pending hf t)
    split at hs
    · cases hs
    · rename_i r hp
      have hf := nope (by rw [hp]; simp [Pc.pending])
      split at hs
      · cases hs
        exact ⟨fun _ e => absurd e hf, fun e => absurd e hf, h.during, h.pre⟩
      · cases hs
    · rename_i r hp
      have hf := nope (by rw [hp]; simp [Pc.pending])
      split at hs
      · cases hs
        exact ⟨fun _ e => absurd e hf, fun e => absurd e hf, h.during, h.pre⟩
      · unfold St.note at hs
        rw [if_neg (show ¬ (s.write _ _).first = none from hf)] at hs
        cases hs
        exact ⟨fun _ e => absurd e hf, fun e => absurd e hf, h.during, h.pre⟩
    · rename_i r hp
      have hf := nope (by rw [hp]; simp [Pc.pending])
      split at hs
      · cases hs
        exact ⟨fun _ e => absurd e hf, fun e => absurd e hf, h.during, h.pre⟩
      · unfold St.note at hs
        rw [if_neg (show ¬ (s.write _ _).first = none from hf)] at hs
        cases hs
        exact ⟨fun _ e => absurd e hf, fun e => absurd e hf, h.during, h.pre⟩
    · rename_i r hp
      have hf := nope (by rw [hp]; simp [Pc.pending])
      cases hs
      exact ⟨fun _ e => absurd e hf, fun e => absurd e hf, h.during, h.pre⟩
    · rename_i line hp
      cases hs
      exact ⟨stay t _ (by rw [hp]; rfl), keep t _ rfl, h.during, h.pre⟩
    · rename_i k line hp
      cases hs
      exact ⟨fun _ _ => ⟨t, by show (put s.pc t (.say line) t).inits = true; rw [put_same]; rfl⟩, keep t _ rfl, h.during, h.pre⟩
    · rename_i line hp
      split at hs
      · rename_i hc
        cases hs
        exact ⟨fun e => absurd hc e, keep t _ rfl, h.during, h.pre⟩
      · cases hs
        exact ⟨fun _ e => (nomatch e), fun e => (nomatch e), h.during, h.pre⟩

theorem reach_quiet {old : Str} {s : St n} (h : Reach Apart old s) : Quiet s ∧ Reach OneInit old s := by
  induction h with
  | start => exact ⟨⟨fun e => absurd rfl e, fun _ _ => rfl, fun _ => rfl, rfl⟩, .start⟩
  | @step s s' e _ hr hs ih => exact ⟨quiet_happen ih.1 hr hs, ih.2.step (by cases e <;> first | exact hr | trivial) hs⟩

theorem bytes_lines (l : List (Fin n × Rec)) : (l.flatMap chunks).flatMap Chunk.bytes = (l.map (·.2)).flatMap lineOf := by
  induction l with
  | nil => rfl
  | cons x l ih =>
    rw [List.flatMap_cons, List.flatMap_append, ih, List.map_cons, List.flatMap_cons]
    congr 1
    unfold chunks lineOf
    cases neednl x.2.text <;> simp [Chunk.bytes]

theorem idle_partly {s : St n} {l : List (Fin n × Rec)} (h : Inv s l) (hd : ∀ t, s.pc t = .idle) : s.partly = [] := by
  unfold St.partly
  cases e : s.owner with
  | none => rfl
  | some t => have := (h.owner t).1 e; rw [hd t] at this; cases this

/-! ### Theorems -/

/-- C143 (missing: calls of `gLogInit` at the same time, for which it is false): whatever is logged while `gLogInit` runs, the file has in the end the first line and the lines of all records begun
since `gLogToFile` was set, those of each thread in its order; the first line may be anywhere, but at most between the text of a record and its line end. -/
theorem C143_file_partial {old : Str} {s : St n} (h : Reach OneInit old s) (hd : ∀ t, s.pc t = .idle) {line : Str} (hl : s.first = some line) :
    ∃ (l : List (Fin n × Rec)) (A B : List (Chunk n)), Merges l (fun t => s.during t ++ s.after t) ∧ A ++ B = l.flatMap chunks ∧ s.file = A.flatMap Chunk.bytes ++ line ++ B.flatMap Chunk.bytes := by
  obtain ⟨l, hi⟩ := reach_inv h
  refine ⟨l, s.pre, s.post, fun t => ?_, ?_, ?_⟩
  · have := hi.due t
    rw [hd t] at this
    simpa [Pc.pending] using this
  · have := hi.body
    rw [idle_partly hi hd, List.append_nil] at this
    exact this
  · cases hc : s.cur with
    | none => have := (hi.none hc).1; rw [hl] at this; cases this
    | some k =>
      have := (hi.cur k hc).2.2.2
      rw [hl] at this
      exact this

/-- C143 (missing as above): if moreover no record is destroyed during the call, the file begins with the first line; the lines of the records follow, each in one piece. -/
theorem C143_apart_partial {old : Str} {s : St n} (h : Reach Apart old s) (hd : ∀ t, s.pc t = .idle) {line : Str} (hl : s.first = some line) :
    ∃ l : List (Fin n × Rec), Merges l s.after ∧ s.file = line ++ (l.map (·.2)).flatMap lineOf := by
  obtain ⟨hq, h⟩ := reach_quiet h
  obtain ⟨l, hi⟩ := reach_inv h
  refine ⟨l, fun t => ?_, ?_⟩
  · have := hi.due t
    rw [hd t, hq.during t] at this
    simpa [Pc.pending] using this
  · have hb := hi.body
    rw [idle_partly hi hd, List.append_nil, hq.pre, List.nil_append] at hb
    cases hc : s.cur with
    | none => have := (hi.none hc).1; rw [hl] at this; cases this
    | some k =>
      have := (hi.cur k hc).2.2.2
      rw [hl, hq.pre, hb, bytes_lines] at this
      simpa using this

/-- C143: until the file is opened nothing is written to it, and it keeps what it had. -/
theorem C143_untouched {old : Str} {s : St n} (h : Reach OneInit old s) (hn : s.next = 0) : s.file = old := by
  induction h with
  | start => rfl
  | @step s s' e h hr hs ih =>
    obtain ⟨l, hi⟩ := reach_inv h
    have hc : s.cur ≠ none → s.next ≠ 0 := by
      intro hc
      obtain ⟨k, hk⟩ := Option.ne_none_iff_exists'.1 hc
      rw [(hi.cur k hk).2.1]; omega
    cases e with
    | record t r => 
      simp only [happen] at hs
      split at hs
      · cases hs
      split at hs
      · cases hs; exact ih hn
      split at hs <;> (cases hs; exact ih hn)
    | init t line =>
      simp only [happen] at hs
      split at hs
      · cases hs
      split at hs <;> (cases hs; exact ih hn)
    | fail t =>
      simp only [happen] at hs
      split at hs
      · cases hs; exact ih hn
      · cases hs
    | step t =>
      simp only [happen] at hs
      split at hs
      · cases hs
      · split at hs
        · cases hs; exact ih hn
        · cases hs
      · split at hs
        · cases hs; exact ih hn
        · rename_i k hk
          unfold St.note at hs
          split at hs <;> (cases hs; exact absurd hn (hc (by rw [hk]; simp)))
      · split at hs
        · cases hs; exact ih hn
        · rename_i k hk
          unfold St.note at hs
          split at hs <;> (cases hs; exact absurd hn (hc (by rw [hk]; simp)))
      · cases hs; exact ih hn
      · cases hs; exact absurd hn (Nat.succ_ne_zero _)
      · cases hs; exact ih hn
      · split at hs
        · cases hs; exact ih hn
        · rename_i k hk
          cases hs; exact absurd hn (hc (by rw [hk]; simp))

/-- A sequence of events. -/
def run (s : St n) : List (Ev n) → Option (St n)
  | [] => some s
  | e :: es => (happen s e).bind fun s => run s es

theorem run_reach {rule : St n → Ev n → Prop} {old : Str} {s s' : St n} {es : List (Ev n)} (h : Reach rule old s) (hr : ∀ s e, e ∈ es → rule s e) (hs : run s es = some s') : Reach rule old s' := by
  induction es generalizing s with
  | nil => cases hs; exact h
  | cons e es ih =>
    simp only [run] at hs
    cases hh : happen s e with
    | none => rw [hh] at hs; cases hs
    | some u => rw [hh] at hs; exact ih (h.step (hr s e (by simp)) hh) (fun s' e' h' => hr s' e' (List.mem_cons_of_mem _ h')) hs

/-- No call of `gLogInit` begins: no rule to keep. -/
theorem one_init {es : List (Ev n)} (h : ∀ e ∈ es, ∀ t line, e ≠ .init t line) (s : St n) (e : Ev n) (he : e ∈ es) : OneInit s e := by
  cases e with
  | init t line => exact absurd rfl (h _ he t line)
  | _ => trivial

/-- Thread 0 calls `gLogInit`, thread 1 destroys records before, during and after it. -/
example : ∃ s : St 2, Reach OneInit (lit "old") s ∧ (∀ t, s.pc t = .idle) ∧ s.first = some (lit "Starting\n") ∧ s.before 1 = [⟨6, lit "INFO a"⟩] ∧ s.during 1 = [⟨6, lit "INFO b"⟩] ∧
    s.after 1 = [⟨6, lit "INFO c\n"⟩] ∧ s.file = lit "INFO b\nStarting\nINFO c\n" := by
  refine ⟨_, run_reach (es := [.record 1 ⟨6, lit "INFO a"⟩]) .start (one_init (by simp)) rfl |>.step (e := .init 0 (lit "Starting\n")) ?_ rfl |> fun h =>
    run_reach (es := [.step 0, .step 0, .record 1 ⟨6, lit "INFO b"⟩, .step 1, .step 1, .step 1, .step 1, .step 0, .record 1 ⟨6, lit "INFO c\n"⟩, .step 1, .step 1, .step 1]) h (one_init (by simp)) rfl, ?_⟩
  · intro t; rfl
  · refine ⟨fun t => ?_, by decide +kernel⟩
    revert t
    decide +kernel

/-- C143 (negation): the first line can come between a record and its line end, so that neither is a line of the file. -/
theorem C143_split_refuted : ∃ s : St 2, Reach OneInit [] s ∧ (∀ t, s.pc t = .idle) ∧ s.first = some (lit "Starting\n") ∧ s.during 1 = [⟨6, lit "INFO b"⟩] ∧ s.file = lit "INFO bStarting\n\n" := by
  refine ⟨_, Reach.start.step (e := .init 0 (lit "Starting\n")) ?_ rfl |> fun h =>
    run_reach (es := [.step 0, .step 0, .record 1 ⟨6, lit "INFO b"⟩, .step 1, .step 1, .step 0, .step 1, .step 1]) h (one_init (by simp)) rfl, ?_⟩
  · intro t; rfl
  · refine ⟨fun t => ?_, by decide +kernel⟩
    revert t
    decide +kernel

/-- C143 (negation): with two calls of `gLogInit` at the same time, a record that was written and flushed after one of them had returned is lost: the other one empties the file. -/
theorem C143_twice_refuted : ∃ s : St 3, Reach (fun _ _ => True) [] s ∧ (∀ t, s.pc t = .idle) ∧ s.after 2 = [⟨6, lit "INFO a"⟩] ∧ s.file = lit "Starting\n" := by
  refine ⟨_, run_reach (es := [.init 0 (lit "Starting\n"), .init 1 (lit "Starting\n"), .step 0, .step 0, .step 0, .record 2 ⟨6, lit "INFO a"⟩, .step 2, .step 2, .step 2, .step 2, .step 1, .step 1, .step 1])
    .start (fun _ _ _ => trivial) rfl, ?_⟩
  refine ⟨fun t => ?_, by decide +kernel⟩
  revert t
  decide +kernel

/-- C143 (negation): and when both have opened the file, each stream writes at its own position: the first lines are written over a record. -/
theorem C143_overwritten_refuted : ∃ s : St 3, Reach (fun _ _ => True) [] s ∧ (∀ t, s.pc t = .idle) ∧ s.during 2 = [⟨6, lit "INFO the cell has a new neighbour"⟩] ∧
    s.file = lit "Starting\nStarting\na new neighbour\n" := by
  refine ⟨_, run_reach (es := [.init 0 (lit "Starting\n"), .init 1 (lit "Starting\n"), .step 0, .step 1, .step 0, .record 2 ⟨6, lit "INFO the cell has a new neighbour"⟩, .step 2, .step 2, .step 2, .step 2,
    .step 1, .step 0, .step 1]) .start (fun _ _ _ => trivial) rfl, ?_⟩
  refine ⟨fun t => ?_, by decide +kernel⟩
  revert t
  decide +kernel

/-- Before that the record was in the file. -/
example : ((run (start 3 []) [.init 0 (lit "Starting\n"), .init 1 (lit "Starting\n"), .step 0, .step 0, .step 0, .record 2 ⟨6, lit "INFO a"⟩, .step 2, .step 2, .step 2, .step 2]).map St.file) =
    some (lit "Starting\nINFO a\n") := by decide +kernel

end Verif.Logger.FileOpen
