import Mathlib.Data.List.Basic
import Mathlib.Tactic.Common
import Verif.Core.NumberLemmas
import Verif.Utils.LineProps

/-
Property C129: the report of a blocked mutex.

`Mutex::lock`, `Mutex::trylock`, `Mutex::unlock` and `Mutex::mutext` (`Threads.cpp:89-189`, `Threads.h:78-88`) for one mutex and any number of threads.  Each access to what is shared
(`mLockCnt`, `mLockerFile`, `mLockerLine`, the recursive pthread mutex) is one step; memory is sequentially consistent.  `mLockerLine` is not set by the constructor: its first values are given.
Calls of `mutext` are numbered; they are not bound to threads, which only allows more executions.  Left out: `LOCKLOG` and the message about blocking, which contain the text of `mutext`.
-/

namespace Verif.Threads.Report

open Verif

/-- What `lock` and `trylock` are called with: `file` (`none` for NULL) and `line`. -/
structure Place where
  file : Option Str
  line : Nat
deriving DecidableEq

/-- What `mutext` shows for one lock: `?`, or a name (NULL if it changed meanwhile) and a line (`Threads.cpp:140-146`). -/
inductive Piece
  | unknown
  | place (file : Option Str) (line : Nat)
deriving DecidableEq

/-- Where a thread is: what is next. -/
inductive Pc
  | idle
  /-- `timedlock` or `_lock` (`Threads.cpp:165-173`). -/
  | wait (p : Place)
  /-- `mLockerFile[mLockCnt] = file` (`Threads.cpp:114, 176`). -/
  | file (p : Place)
  /-- `mLockerLine[mLockCnt] = line` (`Threads.cpp:114, 176`). -/
  | line (p : Place)
  /-- `mLockCnt++` (`Threads.cpp:116, 178`). -/
  | count (p : Place)
  /-- `mLockCnt--` (`Threads.cpp:187`). -/
  | uncount
  /-- `pthread_mutex_unlock` (`Threads.cpp:188`). -/
  | release
deriving DecidableEq

/-- Where a call of `mutext` is, with the number it has read first and the pieces it has. -/
inductive Rd
  | none
  /-- The test of the loop and of `mLockerFile[i]` (`Threads.cpp:140-141`). -/
  | test (i : Nat) (n : Int) (acc : List Piece)
  /-- Reading `mLockerFile[i]` for the text (`Threads.cpp:142`). -/
  | name (i : Nat) (n : Int) (acc : List Piece)
  /-- Reading `mLockerLine[i]` for the text (`Threads.cpp:142`). -/
  | number (i : Nat) (file : Option Str) (n : Int) (acc : List Piece)
deriving DecidableEq

/-- `maxLocks` (`Threads.h:84`). -/
def maxLocks : Nat := 5

/-- The mutex: owner and depth of the pthread mutex, `mLockCnt`, `mLockerFile`, `mLockerLine` (`Threads.h:78-86`); the threads and the calls of `mutext`. -/
structure St where
  owner : Option Nat
  depth : Nat
  cnt : Int
  files : Nat → Option Str
  lines : Nat → Nat
  pc : Nat → Pc
  rd : Nat → Rd

/-- What can be seen. -/
inductive Obs
  /-- A thread calls `lock` or `trylock`. -/
  | asked (t : Nat) (p : Place)
  /-- The call is over and the thread has the lock. -/
  | locked (t : Nat) (p : Place)
  /-- `unlock` is over. -/
  | unlocked (t : Nat)
  /-- `mutext` is over: the number and the pieces. -/
  | reported (r : Nat) (n : Int) (l : List Piece)
deriving DecidableEq

/-- What happens. -/
inductive Ev
  | lock (t : Nat) (p : Place)
  | trylock (t : Nat) (p : Place)
  /-- A call of `timedlock` by the program that gets the mutex. -/
  | timedlock (t : Nat)
  /-- `unlock` by a thread that has the mutex. -/
  | unlock (t : Nat)
  | step (t : Nat)
  | mutext (r : Nat)
  | read (r : Nat)
deriving DecidableEq

/-- A thread elsewhere. -/
def St.at (s : St) (t : Nat) (p : Pc) : St := { s with pc := fun u => if u = t then p else s.pc u }

/-- A call of `mutext` elsewhere. -/
def St.reading (s : St) (r : Nat) (d : Rd) : St := { s with rd := fun u => if u = r then d else s.rd u }

/-- The recursive pthread mutex (`Threads.cpp:96`). -/
def acquire (s : St) (t : Nat) : Option St :=
  if s.owner = none then some { s with owner := some t, depth := 1 }
  else if s.owner = some t then some { s with depth := s.depth + 1 }
  else none

/-- Giving it back. -/
def release (s : St) : St := if s.depth ≤ 1 then { s with owner := none, depth := 0 } else { s with depth := s.depth - 1 }

/-- Is the entry at `mLockCnt` there (`Threads.cpp:113, 175`)? -/
def room (s : St) : Prop := 0 ≤ s.cnt ∧ s.cnt < maxLocks

instance (s : St) : Decidable (room s) := inferInstanceAs (Decidable (_ ∧ _))

/-- One step of a thread in `lock`, `trylock` or `unlock` (`Threads.cpp:110-121, 159-189`). -/
def next (s : St) (t : Nat) : Option (St × List Obs) :=
  match s.pc t with
  | .idle => none
  | .wait p => (acquire s t).map fun s => (s.at t (.file p), [])
  | .file p => some ({ s with files := if room s then fun i => if i = s.cnt.toNat then p.file else s.files i else s.files }.at t (.line p), [])
  | .line p => some ({ s with lines := if room s then fun i => if i = s.cnt.toNat then p.line else s.lines i else s.lines }.at t (.count p), [])
  | .count p => some ({ s with cnt := s.cnt + 1 }.at t .idle, [.locked t p])
  | .uncount => some ({ s with cnt := s.cnt - 1 }.at t .release, [])
  | .release => some ((release s).at t .idle, [.unlocked t])

/-- One step of a call of `mutext` (`Threads.cpp:140-147`). -/
def nextRead (s : St) (r : Nat) : Option (St × List Obs) :=
  match s.rd r with
  | .none => none
  | .test i n acc =>
    if (i : Int) < s.cnt ∧ i < maxLocks then
      some (s.reading r (if (s.files i).isSome then .name i n acc else .test (i + 1) n (acc ++ [.unknown])), [])
    else some (s.reading r .none, [.reported r n acc])
  | .name i n acc => some (s.reading r (.number i (s.files i) n acc), [])
  | .number i f n acc => some (s.reading r (.test (i + 1) n (acc ++ [.place f (s.lines i)])), [])

/-- One event.  `trylock` returns at once if another thread has the mutex (`Threads.cpp:110-121`); `timedlock` only takes the mutex (`Threads.cpp:124-129`); `mutext` begins with reading
`mLockCnt` (`Threads.cpp:139`). -/
def happen (s : St) : Ev → Option (St × List Obs)
  | .lock t p => if s.pc t = .idle then some (s.at t (.wait p), [.asked t p]) else none
  | .trylock t p => if s.pc t = .idle then some (((acquire s t).map fun s => s.at t (.file p)).getD s, [.asked t p]) else none
  | .timedlock t => if s.pc t = .idle then (acquire s t).map fun s => (s, []) else none
  | .unlock t => if s.pc t = .idle ∧ s.owner = some t then some (s.at t .uncount, []) else none
  | .step t => next s t
  | .mutext r => if s.rd r = .none then some (s.reading r (.test 0 s.cnt []), []) else none
  | .read r => nextRead s r

/-- An execution, with what is seen. -/
def exec (s : St) : List Ev → Option (St × List Obs)
  | [] => some (s, [])
  | e :: es =>
    match happen s e with
    | none => none
    | some (s1, o1) =>
      match exec s1 es with
      | none => none
      | some (s2, o2) => some (s2, o1 ++ o2)

/-- After the constructor (`Threads.cpp:89-100`). -/
def start (lines : Nat → Nat) : St := ⟨none, 0, 0, fun _ => none, lines, fun _ => .idle, fun _ => .none⟩

/-- `format(" %s:%u",...)` and `" ?"` (`Threads.cpp:142-144`); `printf` of the C library shows NULL as `(null)`. -/
def Piece.text : Piece → Str
  | .unknown => lit " ?"
  | .place f l => Utils.format (lit " " ++ f.getD (lit "(null)") ++ lit ":" ++ natText 10 l)

/-- The result of `mutext` (`Threads.cpp:134-148`); the number is short, so that `format` leaves it as it is. -/
def text (n : Int) (l : List Piece) : Str := lit "lockcnt=" ++ intText n ++ (l.map Piece.text).flatten

/-! Specification. -/

/-- The locks held, oldest first: those that are over and were not undone. -/
def held (o : List Obs) : List Place :=
  o.foldl (fun l => fun
    | .locked _ p => l ++ [p]
    | .unlocked _ => l.dropLast
    | _ => l) []

/-- The report a reader wants: how many locks are held, and where the first five were made. -/
def wanted (h : List Place) : Str :=
  lit "lockcnt=" ++ intText h.length ++ ((h.take 5).map fun p =>
    match p.file with
    | none => lit " ?"
    | some f => lit " " ++ f ++ lit ":" ++ natText 10 p.line).flatten

/-- The program does not call `timedlock` itself. -/
def NoTimed (es : List Ev) : Prop := ∀ t, Ev.timedlock t ∉ es

/-- No thread is in the middle of `lock`, `trylock` or `unlock`, except for waiting. -/
def Quiet (s : St) : Prop := ∀ t, s.pc t = .idle ∨ ∃ p, s.pc t = .wait p

/-! Proofs. -/

theorem exec_inv {P : St → List Obs → Prop} (hP : ∀ s o e s' o', P s o → (∀ t, e ≠ .timedlock t) → happen s e = some (s', o') → P s' (o ++ o')) :
    ∀ (es : List Ev) (s : St) (o : List Obs) (s' : St) (o' : List Obs), P s o → NoTimed es → exec s es = some (s', o') → P s' (o ++ o') := by
  intro es
  induction es with
  | nil => intro s o s' o' h _ he; simp only [exec, Option.some.injEq, Prod.mk.injEq] at he; obtain ⟨rfl, rfl⟩ := he; simpa using h
  | cons e es ih =>
    intro s o s' o' h hn he
    unfold exec at he
    split at he
    · cases he
    · rename_i s1 o1 h1
      split at he
      · cases he
      · rename_i s2 o2 h2
        simp only [Option.some.injEq, Prod.mk.injEq] at he
        obtain ⟨rfl, rfl⟩ := he
        rw [← List.append_assoc]
        exact ih s1 (o ++ o1) s2 o2 (hP s o e s1 o1 h (fun t ht => hn t (by simp [ht])) h1) (fun t ht => hn t (List.mem_cons_of_mem _ ht)) h2

@[simp] theorem at_pc_same (s : St) (t : Nat) (p : Pc) : (s.at t p).pc t = p := if_pos rfl
theorem at_pc_other (s : St) (t u : Nat) (p : Pc) (h : u ≠ t) : (s.at t p).pc u = s.pc u := if_neg h

theorem held_append (o o' : List Obs) : held (o ++ o') = o'.foldl (fun l => fun
    | .locked _ p => l ++ [p]
    | .unlocked _ => l.dropLast
    | _ => l) (held o) := by simp [held, List.foldl_append]

/-- A thread between the calls or waiting. -/
def Pc.out : Pc → Prop
  | .idle | .wait _ => True
  | _ => False

/-- The entries are those of the locks held. -/
def Match (s : St) (h : List Place) : Prop := ∀ i p, h[i]? = some p → i < maxLocks → s.files i = p.file ∧ s.lines i = p.line

/-- What is known about the thread that has the mutex. -/
def Own (s : St) (h : List Place) : Pc → Prop
  | .idle | .wait _ | .uncount => s.depth = h.length ∧ s.cnt = h.length ∧ 1 ≤ h.length
  | .file _ => s.depth = h.length + 1 ∧ s.cnt = h.length
  | .line p => s.depth = h.length + 1 ∧ s.cnt = h.length ∧ (h.length < maxLocks → s.files h.length = p.file)
  | .count p => s.depth = h.length + 1 ∧ s.cnt = h.length ∧ (h.length < maxLocks → s.files h.length = p.file ∧ s.lines h.length = p.line)
  | .release => s.depth = h.length ∧ s.cnt = h.length - 1 ∧ 1 ≤ h.length

/-- The invariant. -/
structure Inv (s : St) (h : List Place) : Prop where
  others : ∀ t, s.owner ≠ some t → (s.pc t).out
  free : s.owner = none → h = [] ∧ s.cnt = 0
  own : ∀ t, s.owner = some t → Own s h (s.pc t)
  entries : Match s h

theorem own_at (s : St) (t : Nat) (q : Pc) (h : List Place) (p : Pc) : Own (s.at t q) h p ↔ Own s h p := by cases p <;> rfl

theorem inv_at {s s1 : St} {h h' : List Place} {t : Nat} {p : Pc} (ho : s.owner = some t ∨ s.owner = none) (hI : Inv s h) (e1 : s1.owner = some t) (e2 : s1.pc = s.pc)
    (hown : Own s1 h' p) (hm : Match s1 h') : Inv (s1.at t p) h' := by
  refine ⟨?_, ?_, ?_, hm⟩
  · intro u hu
    have hu : u ≠ t := by rintro rfl; exact hu e1
    rw [at_pc_other _ _ _ _ hu, e2]
    refine hI.others u ?_
    rcases ho with ho | ho
    · rw [ho]; simpa using Ne.symm hu
    · rw [ho]; simp
  · intro hn; exact absurd (e1.symm.trans hn) (by simp)
  · intro u hu
    have hu : t = u := by simpa using e1.symm.trans hu
    subst hu
    rw [at_pc_same, own_at]
    exact hown

theorem inv_acquire {s s1 : St} {h : List Place} {t : Nat} {p : Place} (hI : Inv s h) (hp : (s.pc t).out) (ha : acquire s t = some s1) : Inv (s1.at t (.file p)) h := by
  unfold acquire at ha
  split at ha
  · rename_i ho
    simp only [Option.some.injEq] at ha
    subst ha
    obtain ⟨rfl, hc⟩ := hI.free ho
    exact inv_at (.inr ho) hI rfl rfl ⟨rfl, hc⟩ hI.entries
  · split at ha
    · rename_i ho
      simp only [Option.some.injEq] at ha
      subst ha
      have := hI.own t ho
      refine inv_at (.inl ho) hI ho rfl ?_ hI.entries
      cases hpc : s.pc t <;> rw [hpc] at this hp <;> simp only [Pc.out] at hp <;> exact ⟨congrArg (· + 1) this.1, this.2.1⟩
    · cases ha

theorem inv_free {s : St} {h : List Place} {t : Nat} {p : Pc} (hI : Inv s h) (hp : (s.pc t).out) (hq : p.out) : Inv (s.at t p) h := by
  refine ⟨?_, hI.free, ?_, hI.entries⟩
  · intro u hu
    by_cases e : u = t
    · subst e; rwa [at_pc_same]
    · rw [at_pc_other _ _ _ _ e]; exact hI.others u hu
  · intro u hu
    by_cases e : u = t
    · subst e
      rw [at_pc_same, own_at]
      have := hI.own u hu
      cases hpc : s.pc u <;> rw [hpc] at this hp <;> cases p <;> simp only [Pc.out] at hp hq <;> exact this
    · rw [at_pc_other _ _ _ _ e, own_at]; exact hI.own u hu

theorem inv_reading {s : St} {h : List Place} {r : Nat} {d : Rd} (hI : Inv s h) : Inv (s.reading r d) h :=
  ⟨hI.others, hI.free, fun t ht => by have := hI.own t ht; change Own _ _ (s.pc t); cases hpc : s.pc t <;> rw [hpc] at this <;> exact this, hI.entries⟩

theorem inv_next {s s' : St} {o o' : List Obs} {t : Nat} (hI : Inv s (held o)) (hn : next s t = some (s', o')) : Inv s' (held (o ++ o')) := by
  unfold next at hn
  have owner (hp : ¬ (s.pc t).out) : s.owner = some t := by
    by_contra hc
    exact hp (hI.others t hc)
  split at hn <;> rename_i hpc
  · cases hn
  · rename_i p
    cases ha : acquire s t with
    | none => rw [ha] at hn; cases hn
    | some s1 =>
      rw [ha] at hn
      simp only [Option.map_some, Option.some.injEq, Prod.mk.injEq] at hn
      obtain ⟨rfl, rfl⟩ := hn
      rw [List.append_nil]
      exact inv_acquire hI (by rw [hpc]; trivial) ha
  · rename_i p
    simp only [Option.some.injEq, Prod.mk.injEq] at hn
    obtain ⟨rfl, rfl⟩ := hn
    have ho := owner (by rw [hpc]; exact id)
    have hw := hI.own t ho
    rw [hpc] at hw
    obtain ⟨hd, hc⟩ := hw
    rw [List.append_nil]
    refine inv_at (.inl ho) hI ho rfl ⟨hd, hc, ?_⟩ ?_
    · intro hl
      have : room s := ⟨by omega, by omega⟩
      simp [this, hc]
    · intro i q hi hm
      refine ⟨?_, (hI.entries i q hi hm).2⟩
      have hlt : i < (held o).length := (List.getElem?_eq_some_iff.1 hi).1
      have : i ≠ s.cnt.toNat := by omega
      show (if room s then fun i => if i = s.cnt.toNat then p.file else s.files i else s.files) i = _
      split
      · simp only [this, if_false]; exact (hI.entries i q hi hm).1
      · exact (hI.entries i q hi hm).1
  · rename_i p
    simp only [Option.some.injEq, Prod.mk.injEq] at hn
    obtain ⟨rfl, rfl⟩ := hn
    have ho := owner (by rw [hpc]; exact id)
    have hw := hI.own t ho
    rw [hpc] at hw
    obtain ⟨hd, hc, hf⟩ := hw
    rw [List.append_nil]
    refine inv_at (.inl ho) hI ho rfl ⟨hd, hc, ?_⟩ ?_
    · intro hl
      have : room s := ⟨by omega, by omega⟩
      exact ⟨hf hl, by simp [this, hc]⟩
    · intro i q hi hm
      refine ⟨(hI.entries i q hi hm).1, ?_⟩
      have hlt : i < (held o).length := (List.getElem?_eq_some_iff.1 hi).1
      have : i ≠ s.cnt.toNat := by omega
      show (if room s then fun i => if i = s.cnt.toNat then p.line else s.lines i else s.lines) i = _
      split
      · simp only [this, if_false]; exact (hI.entries i q hi hm).2
      · exact (hI.entries i q hi hm).2
  · rename_i p
    simp only [Option.some.injEq, Prod.mk.injEq] at hn
    obtain ⟨rfl, rfl⟩ := hn
    have ho := owner (by rw [hpc]; exact id)
    have hw := hI.own t ho
    rw [hpc] at hw
    obtain ⟨hd, hc, hf⟩ := hw
    rw [held_append]
    show Inv _ (held o ++ [p])
    refine inv_at (.inl ho) hI ho rfl ⟨?_, ?_, ?_⟩ ?_
    · simpa using hd
    · simp [hc]
    · simp
    · intro i q hi hm
      by_cases hlt : i < (held o).length
      · rw [List.getElem?_append_left hlt] at hi
        exact hI.entries i q hi hm
      · have : i < (held o ++ [p]).length := (List.getElem?_eq_some_iff.1 hi).1
        have : i = (held o).length := by simp at this; omega
        subst this
        simp only [List.getElem?_append_right (Nat.le_refl _), Nat.sub_self, List.getElem?_cons_zero, Option.some.injEq] at hi
        subst hi
        exact hf hm
  · simp only [Option.some.injEq, Prod.mk.injEq] at hn
    obtain ⟨rfl, rfl⟩ := hn
    have ho := owner (by rw [hpc]; exact id)
    have hw := hI.own t ho
    rw [hpc] at hw
    obtain ⟨hd, hc, hf⟩ := hw
    rw [List.append_nil]
    exact inv_at (.inl ho) hI ho rfl ⟨hd, by show s.cnt - 1 = _; omega, hf⟩ hI.entries
  · simp only [Option.some.injEq, Prod.mk.injEq] at hn
    obtain ⟨rfl, rfl⟩ := hn
    have ho := owner (by rw [hpc]; exact id)
    have hw := hI.own t ho
    rw [hpc] at hw
    obtain ⟨hd, hc, hf⟩ := hw
    rw [held_append]
    show Inv _ (held o).dropLast
    have hlen : (held o).dropLast.length = (held o).length - 1 := List.length_dropLast
    have hm : ∀ i p, (held o).dropLast[i]? = some p → i < maxLocks → s.files i = p.file ∧ s.lines i = p.line := by
      intro i q hi hm
      have hlt : i < (held o).dropLast.length := (List.getElem?_eq_some_iff.1 hi).1
      refine hI.entries i q ?_ hm
      rw [List.getElem?_dropLast] at hi
      rwa [if_pos (by omega)] at hi
    unfold release
    split
    · rename_i h1
      have h0 : (held o).dropLast = [] := List.length_eq_zero_iff.1 (by omega)
      refine ⟨?_, ?_, ?_, hm⟩
      · intro u _
        by_cases e : u = t
        · subst e; rw [at_pc_same]; trivial
        · rw [at_pc_other _ _ _ _ e]; exact hI.others u (by rw [ho]; simpa using Ne.symm e)
      · intro _; exact ⟨h0, by show s.cnt = 0; omega⟩
      · intro u hu; cases hu
    · rename_i h1
      exact inv_at (.inl ho) hI ho rfl ⟨by show s.depth - 1 = _; omega, by show s.cnt = _; omega, by omega⟩ hm

theorem held_asked (o : List Obs) (t : Nat) (p : Place) : held (o ++ [.asked t p]) = held o := by rw [held_append]; rfl

theorem held_reported (o : List Obs) (r : Nat) (n : Int) (l : List Piece) : held (o ++ [.reported r n l]) = held o := by rw [held_append]; rfl

theorem inv_happen (s : St) (o : List Obs) (e : Ev) (s' : St) (o' : List Obs) (hI : Inv s (held o)) (ht : ∀ t, e ≠ .timedlock t) (hh : happen s e = some (s', o')) :
    Inv s' (held (o ++ o')) := by
  cases e with
  | lock t p =>
    simp only [happen] at hh
    split at hh
    · rename_i hp
      simp only [Option.some.injEq, Prod.mk.injEq] at hh
      obtain ⟨rfl, rfl⟩ := hh
      rw [held_asked]
      exact inv_free hI (by rw [hp]; trivial) trivial
    · cases hh
  | trylock t p =>
    simp only [happen] at hh
    split at hh
    · rename_i hp
      simp only [Option.some.injEq, Prod.mk.injEq] at hh
      obtain ⟨rfl, rfl⟩ := hh
      rw [held_asked]
      cases ha : acquire s t with
      | none => exact hI
      | some s1 => exact inv_acquire hI (by rw [hp]; trivial) ha
    · cases hh
  | timedlock t => exact absurd rfl (ht t)
  | unlock t =>
    simp only [happen] at hh
    split at hh
    · rename_i hp
      simp only [Option.some.injEq, Prod.mk.injEq] at hh
      obtain ⟨rfl, rfl⟩ := hh
      rw [List.append_nil]
      have := hI.own t hp.2
      rw [hp.1] at this
      exact inv_at (.inl hp.2) hI hp.2 rfl this hI.entries
    · cases hh
  | step t => exact inv_next hI hh
  | mutext r =>
    simp only [happen] at hh
    split at hh
    · simp only [Option.some.injEq, Prod.mk.injEq] at hh
      obtain ⟨rfl, rfl⟩ := hh
      rw [List.append_nil]
      exact inv_reading hI
    · cases hh
  | read r =>
    simp only [happen, nextRead] at hh
    split at hh
    · cases hh
    · split at hh <;> simp only [Option.some.injEq, Prod.mk.injEq] at hh <;> obtain ⟨rfl, rfl⟩ := hh
      · rw [List.append_nil]; exact inv_reading hI
      · rw [held_reported]; exact inv_reading hI
    · simp only [Option.some.injEq, Prod.mk.injEq] at hh
      obtain ⟨rfl, rfl⟩ := hh
      rw [List.append_nil]; exact inv_reading hI
    · simp only [Option.some.injEq, Prod.mk.injEq] at hh
      obtain ⟨rfl, rfl⟩ := hh
      rw [List.append_nil]; exact inv_reading hI

theorem inv_start (lines : Nat → Nat) : Inv (start lines) (held []) :=
  ⟨fun _ _ => trivial, fun _ => ⟨rfl, rfl⟩, fun _ h => absurd h (by simp [start]), fun i p h => (by simp [held] at h)⟩

theorem exec_held {lines : Nat → Nat} {es : List Ev} {s : St} {o : List Obs} (hn : NoTimed es) (h : exec (start lines) es = some (s, o)) : Inv s (held o) := by
  have := exec_inv (P := fun s o => Inv s (held o)) inv_happen es (start lines) [] s o (inv_start lines) hn h
  simpa using this

/-- What is to be shown for a lock. -/
def piece (p : Place) : Piece :=
  match p.file with
  | none => .unknown
  | some f => .place (some f) p.line

theorem reading_reading (s : St) (r : Nat) (d e : Rd) : (s.reading r d).reading r e = s.reading r e := by
  unfold St.reading
  congr 1
  funext u
  by_cases h : u = r <;> simp [h]

theorem reading_rd (s : St) (r : Nat) (d : Rd) : (s.reading r d).rd r = d := if_pos rfl

theorem read_loop (s : St) (h : List Place) (hc : s.cnt = h.length) (hm : Match s h) (r : Nat) (n : Int) : ∀ (m i : Nat) (acc : List Piece), i + m = min h.length 5 →
    ∃ k s', exec (s.reading r (.test i n acc)) (List.replicate k (.read r)) = some (s', [.reported r n (acc ++ ((h.take 5).drop i).map piece)]) := by
  intro m
  induction m with
  | zero =>
    intro i acc hi
    refine ⟨1, s.reading r .none, ?_⟩
    have hcond : ¬ ((i : Int) < s.cnt ∧ i < maxLocks) := by unfold maxLocks; omega
    have hd : (h.take 5).drop i = [] := by rw [List.drop_eq_nil_iff, List.length_take]; omega
    rw [hd]
    simp only [List.replicate_one, exec, happen, nextRead, reading_rd]
    rw [if_neg (show ¬ ((i : Int) < (s.reading r (.test i n acc)).cnt ∧ i < maxLocks) from hcond)]
    simp [reading_reading]
  | succ m ih =>
    intro i acc hi
    have hcond : (i : Int) < s.cnt ∧ i < maxLocks := by unfold maxLocks; omega
    have hlt : i < h.length := by omega
    have hget : h[i]? = some h[i] := List.getElem?_eq_getElem hlt
    obtain ⟨hf, hl⟩ := hm i h[i] hget hcond.2
    have hd : (h.take 5).drop i = h[i] :: (h.take 5).drop (i + 1) := by
      rw [List.drop_eq_getElem_cons (by rw [List.length_take]; omega)]
      simp
    obtain ⟨k, s', hk⟩ := ih (i + 1) (acc ++ [piece h[i]]) (by omega)
    rw [hd, List.map_cons]
    rw [List.append_assoc] at hk
    cases hfile : h[i].file with
    | none =>
      have hp : piece h[i] = .unknown := by simp [piece, hfile]
      refine ⟨k + 1, s', ?_⟩
      rw [List.replicate_succ]
      simp only [exec, happen, nextRead, reading_rd]
      rw [if_pos (show (i : Int) < (s.reading r (.test i n acc)).cnt ∧ i < maxLocks from hcond)]
      have : ((s.reading r (.test i n acc)).files i).isSome = false := by show (s.files i).isSome = false; rw [hf, hfile]; rfl
      simp only [this, reading_reading]
      rw [hp] at hk ⊢
      simp [hk]
    | some f =>
      have hp : piece h[i] = .place (some f) h[i].line := by simp [piece, hfile]
      refine ⟨k + 3, s', ?_⟩
      rw [List.replicate_succ, List.replicate_succ, List.replicate_succ]
      simp only [exec, happen, nextRead, reading_rd]
      rw [if_pos (show (i : Int) < (s.reading r (.test i n acc)).cnt ∧ i < maxLocks from hcond)]
      have : ((s.reading r (.test i n acc)).files i).isSome = true := by show (s.files i).isSome = true; rw [hf, hfile]; rfl
      simp only [this, if_true, reading_reading, reading_rd]
      have e1 : (s.reading r (.name i n acc)).files i = some f := hf.trans hfile
      rw [e1]
      have e2 : (s.reading r (.number i (some f) n acc)).lines i = h[i].line := hl
      rw [e2]
      rw [hp] at hk ⊢
      simp [hk]

/-- Names and lines as the compiler gives them (`__FILE__`, `__LINE__`), the names not too long. -/
def Usual (p : Place) : Prop := ∀ f, p.file = some f → (∀ c ∈ f, c ≠ 0) ∧ f.length ≤ 180 ∧ p.line < 2 ^ 32

theorem natText_nonzero (n : Nat) : ∀ c ∈ natText 10 n, c ≠ 0 := by
  rintro c hc rfl
  exact absurd (natText_isDig (by omega) (by omega) n 0 hc) (by decide)

theorem piece_text (p : Place) (h : Usual p) : (piece p).text = match p.file with | none => lit " ?" | some f => lit " " ++ f ++ lit ":" ++ natText 10 p.line := by
  unfold piece
  cases hf : p.file with
  | none => rfl
  | some f =>
    obtain ⟨h1, h2, h3⟩ := h f hf
    have hl : (natText 10 p.line).length ≤ 10 := (natText_length _ 10 (by omega)).2 (by omega)
    have hlen : (lit " " ++ f ++ lit ":" ++ natText 10 p.line).length ≤ 192 := by
      simp only [List.length_append]
      have e1 : (lit " ").length = 1 := rfl
      have e2 : (lit ":").length = 1 := rfl
      omega
    show Utils.format (lit " " ++ f ++ lit ":" ++ natText 10 p.line) = _
    rw [Utils.C45_format_partial _ ?_ (by omega), List.take_of_length_le (by omega)]
    intro c hc
    simp only [List.mem_append] at hc
    rcases hc with ((hc | hc) | hc) | hc
    · revert c; decide
    · exact h1 c hc
    · revert c; decide
    · exact natText_nonzero _ c hc

/-- Read while no thread is in the middle of `lock`, `trylock` or `unlock`, the report is the one wanted: the number of locks held and the places of the first five, oldest first.  Missing:
reports read meanwhile, programs that call `timedlock`, and very long names of files. -/
theorem C129_report_partial (lines : Nat → Nat) (es : List Ev) (s : St) (o : List Obs) (hn : NoTimed es) (h : exec (start lines) es = some (s, o)) (hq : Quiet s) (r : Nat)
    (hr : s.rd r = .none) (hu : ∀ p ∈ held o, Usual p) : ∃ k s' n l, exec s (.mutext r :: List.replicate k (.read r)) = some (s', [.reported r n l]) ∧ text n l = wanted (held o) := by
  have hI := exec_held hn h
  have hc : s.cnt = (held o).length := by
    cases ho : s.owner with
    | none => obtain ⟨h0, h1⟩ := hI.free ho; rw [h0, h1]; rfl
    | some t =>
      have := hI.own t ho
      rcases hq t with hp | ⟨p, hp⟩ <;> rw [hp] at this <;> exact this.2.1
  obtain ⟨k, s', hk⟩ := read_loop s (held o) hc hI.entries r s.cnt (min (held o).length 5) 0 [] (by omega)
  refine ⟨k, s', s.cnt, [] ++ ((List.take 5 (held o)).drop 0).map piece, ?_, ?_⟩
  · simp only [exec, happen, hr, if_true]
    rw [hk]
    rfl
  · unfold text wanted
    rw [hc, List.nil_append, List.drop_zero, List.map_map]
    congr 2
    exact List.map_congr_left fun p hp => piece_text p (hu p (List.mem_of_mem_take hp))

/-- A call of `lock` or `trylock` with this place was made. -/
def Asked (o : List Obs) (p : Place) : Prop := ∃ t, Obs.asked t p ∈ o

/-- Name and line of a piece come from calls, maybe from different ones. -/
def Known (o : List Obs) : Piece → Prop
  | .unknown => True
  | .place f l => (∀ g, f = some g → ∃ p, Asked o p ∧ p.file = some g) ∧ ∃ p, Asked o p ∧ p.line = l

/-- What a call of `mutext` has so far. -/
def RdOk (s : St) (o : List Obs) : Rd → Prop
  | .none => True
  | .test i _ acc => acc.length = i ∧ i ≤ maxLocks ∧ ∀ x ∈ acc, Known o x
  | .name i _ acc => acc.length = i ∧ i < maxLocks ∧ (∀ x ∈ acc, Known o x) ∧ ∃ p, Asked o p ∧ p.line = s.lines i
  | .number i f _ acc => acc.length = i ∧ i < maxLocks ∧ (∀ x ∈ acc, Known o x) ∧ (∀ g, f = some g → ∃ p, Asked o p ∧ p.file = some g) ∧ ∃ p, Asked o p ∧ p.line = s.lines i

/-- The place a thread in `lock` or `trylock` was called with. -/
def Pc.place : Pc → Option Place
  | .wait p | .file p | .line p | .count p => some p
  | _ => none

/-- What is known at any moment. -/
structure Any (s : St) (o : List Obs) : Prop where
  inv : Inv s (held o)
  asked : ∀ t p, (s.pc t).place = some p → Asked o p
  files : ∀ i f, s.files i = some f → ∃ p, Asked o p ∧ p.file = some f
  lines : ∀ i, i < maxLocks → (i : Int) < s.cnt → ∃ p, Asked o p ∧ p.line = s.lines i
  reads : ∀ r, RdOk s o (s.rd r)
  reported : ∀ r n l, Obs.reported r n l ∈ o → l.length ≤ maxLocks ∧ ∀ x ∈ l, Known o x

theorem Asked.mono {o o' : List Obs} {p : Place} (h : Asked o p) : Asked (o ++ o') p := h.imp fun _ => List.mem_append_left _

theorem Known.mono {o o' : List Obs} {x : Piece} (h : Known o x) : Known (o ++ o') x := by
  cases x with
  | unknown => trivial
  | place f l => exact ⟨fun g hg => (h.1 g hg).imp fun _ hp => ⟨hp.1.mono, hp.2⟩, h.2.imp fun _ hp => ⟨hp.1.mono, hp.2⟩⟩

/-- What has been read stays good while lines are only overwritten by lines of calls. -/
theorem RdOk.mono {s s' : St} {o o' : List Obs} {d : Rd} (h : RdOk s o d) (hl : ∀ i, s'.lines i = s.lines i ∨ ∃ p, Asked (o ++ o') p ∧ p.line = s'.lines i) : RdOk s' (o ++ o') d := by
  have line {i : Nat} (h : ∃ p, Asked o p ∧ p.line = s.lines i) : ∃ p, Asked (o ++ o') p ∧ p.line = s'.lines i := by
    rcases hl i with e | e
    · rw [e]; exact h.imp fun _ hp => ⟨hp.1.mono, hp.2⟩
    · exact e
  cases d with
  | none => trivial
  | test i n acc => exact ⟨h.1, h.2.1, fun x hx => (h.2.2 x hx).mono⟩
  | name i n acc => exact ⟨h.1, h.2.1, fun x hx => (h.2.2.1 x hx).mono, line h.2.2.2⟩
  | number i f n acc => exact ⟨h.1, h.2.1, fun x hx => (h.2.2.1 x hx).mono, fun g hg => (h.2.2.2.1 g hg).imp fun _ hp => ⟨hp.1.mono, hp.2⟩, line h.2.2.2.2⟩

/-- Steps that report nothing. -/
theorem any_step {s s' : St} {o o' : List Obs} (hA : Any s o) (hI : Inv s' (held (o ++ o'))) (ho : ∀ r n l, Obs.reported r n l ∉ o')
    (hp : ∀ t p, (s'.pc t).place = some p → (s.pc t).place = some p ∨ Asked (o ++ o') p)
    (hf : ∀ i f, s'.files i = some f → s.files i = some f ∨ ∃ p, Asked (o ++ o') p ∧ p.file = some f)
    (hl : ∀ i, s'.lines i = s.lines i ∨ ∃ p, Asked (o ++ o') p ∧ p.line = s'.lines i)
    (hc : ∀ i, i < maxLocks → (i : Int) < s'.cnt → (i : Int) < s.cnt ∨ ∃ p, Asked (o ++ o') p ∧ p.line = s'.lines i) (hr : s'.rd = s.rd) : Any s' (o ++ o') := by
  refine ⟨hI, ?_, ?_, ?_, ?_, ?_⟩
  · intro t p h
    rcases hp t p h with h | h
    · exact (hA.asked t p h).mono
    · exact h
  · intro i f h
    rcases hf i f h with h | h
    · exact (hA.files i f h).imp fun _ hp => ⟨hp.1.mono, hp.2⟩
    · exact h
  · intro i hi h
    rcases hc i hi h with h | h
    · rcases hl i with e | e
      · rw [e]; exact (hA.lines i hi h).imp fun _ hp => ⟨hp.1.mono, hp.2⟩
      · exact e
    · exact h
  · intro r
    rw [hr]
    exact (hA.reads r).mono hl
  · intro r n l h
    rcases List.mem_append.1 h with h | h
    · exact ⟨(hA.reported r n l h).1, fun x hx => ((hA.reported r n l h).2 x hx).mono⟩
    · exact absurd h (ho r n l)

theorem place_at {s : St} {t u : Nat} {q : Pc} {p : Place} (h : ((s.at t q).pc u).place = some p) : (s.pc u).place = some p ∨ q.place = some p := by
  by_cases e : u = t
  · subst e; rw [at_pc_same] at h; exact .inr h
  · rw [at_pc_other _ _ _ _ e] at h; exact .inl h

theorem acquire_same {s s1 : St} {t : Nat} (h : acquire s t = some s1) : s1.cnt = s.cnt ∧ s1.files = s.files ∧ s1.lines = s.lines ∧ s1.pc = s.pc ∧ s1.rd = s.rd := by
  unfold acquire at h
  split at h
  · cases h; exact ⟨rfl, rfl, rfl, rfl, rfl⟩
  · split at h
    · cases h; exact ⟨rfl, rfl, rfl, rfl, rfl⟩
    · cases h

theorem release_same (s : St) : (release s).cnt = s.cnt ∧ (release s).files = s.files ∧ (release s).lines = s.lines ∧ (release s).pc = s.pc ∧ (release s).rd = s.rd := by
  unfold release
  split <;> exact ⟨rfl, rfl, rfl, rfl, rfl⟩

theorem any_next {s s' : St} {o o' : List Obs} {t : Nat} (hA : Any s o) (hn : next s t = some (s', o')) : Any s' (o ++ o') := by
  have hI := inv_next hA.inv hn
  have mem {p : Place} (h : (s.pc t).place = some p) : Asked (o ++ o') p := (hA.asked t p h).mono
  unfold next at hn
  split at hn <;> rename_i hpc
  · cases hn
  · rename_i p
    cases ha : acquire s t with
    | none => rw [ha] at hn; cases hn
    | some s1 =>
      rw [ha] at hn
      simp only [Option.map_some, Option.some.injEq, Prod.mk.injEq] at hn
      obtain ⟨rfl, rfl⟩ := hn
      obtain ⟨e1, e2, e3, e4, e5⟩ := acquire_same ha
      refine any_step hA hI (by simp) ?_ (fun i f h => .inl (by rw [← e2]; exact h)) (fun i => .inl (congrFun e3 i)) (fun i _ h => .inl (by rw [← e1]; exact h)) e5
      intro u q h
      rcases place_at h with h | h
      · rw [e4] at h; exact .inl h
      · cases h; exact .inr (mem (by rw [hpc]; rfl))
  · rename_i p
    simp only [Option.some.injEq, Prod.mk.injEq] at hn
    obtain ⟨rfl, rfl⟩ := hn
    have hm := mem (p := p) (by rw [hpc]; rfl)
    refine any_step hA hI (by simp) ?_ ?_ (fun i => .inl rfl) (fun i _ h => .inl h) rfl
    · intro u q h
      rcases place_at h with h | h
      · exact .inl h
      · cases h; exact .inr hm
    · intro i f h
      change (if room s then fun i => if i = s.cnt.toNat then p.file else s.files i else s.files) i = some f at h
      split at h
      · by_cases e : i = s.cnt.toNat
        · simp only [e, if_true] at h; exact .inr ⟨p, hm, h⟩
        · simp only [e, if_false] at h; exact .inl h
      · exact .inl h
  · rename_i p
    simp only [Option.some.injEq, Prod.mk.injEq] at hn
    obtain ⟨rfl, rfl⟩ := hn
    have hm := mem (p := p) (by rw [hpc]; rfl)
    refine any_step hA hI (by simp) ?_ (fun i f h => .inl h) ?_ (fun i _ h => .inl h) rfl
    · intro u q h
      rcases place_at h with h | h
      · exact .inl h
      · cases h; exact .inr hm
    · intro i
      change (if room s then fun i => if i = s.cnt.toNat then p.line else s.lines i else s.lines) i = _ ∨ ∃ q, _ ∧ _ = (if room s then fun i => if i = s.cnt.toNat then p.line else s.lines i else s.lines) i
      split
      · by_cases e : i = s.cnt.toNat
        · simp only [e, if_true]; exact .inr ⟨p, hm, rfl⟩
        · simp only [e, if_false]; exact .inl trivial
      · exact .inl rfl
  · rename_i p
    simp only [Option.some.injEq, Prod.mk.injEq] at hn
    obtain ⟨rfl, rfl⟩ := hn
    have hm := mem (p := p) (by rw [hpc]; rfl)
    have ho : s.owner = some t := by
      by_contra hc
      have := hA.inv.others t hc
      rw [hpc] at this
      exact this
    have hw := hA.inv.own t ho
    rw [hpc] at hw
    refine any_step hA hI (by simp) ?_ (fun i f h => .inl h) (fun i => .inl rfl) ?_ rfl
    · intro u q h
      rcases place_at h with h | h
      · exact .inl h
      · cases h
    · intro i hi h
      change (i : Int) < s.cnt + 1 at h
      by_cases e : (i : Int) < s.cnt
      · exact .inl e
      · have e : i = (held o).length := by have := hw.2.1; omega
        subst e
        exact .inr ⟨p, hm, (hw.2.2 hi).2.symm⟩
  · simp only [Option.some.injEq, Prod.mk.injEq] at hn
    obtain ⟨rfl, rfl⟩ := hn
    refine any_step hA hI (by simp) ?_ (fun i f h => .inl h) (fun i => .inl rfl) (fun i _ h => .inl (by change (i : Int) < s.cnt - 1 at h; omega)) rfl
    intro u q h
    rcases place_at h with h | h
    · exact .inl h
    · cases h
  · simp only [Option.some.injEq, Prod.mk.injEq] at hn
    obtain ⟨rfl, rfl⟩ := hn
    obtain ⟨e1, e2, e3, e4, e5⟩ := release_same s
    refine any_step hA hI (by simp) ?_ (fun i f h => .inl (by rw [← e2]; exact h)) (fun i => .inl (congrFun e3 i)) (fun i _ h => .inl (by rw [← e1]; exact h)) e5
    intro u q h
    rcases place_at h with h | h
    · rw [e4] at h; exact .inl h
    · cases h

theorem reads_at {s : St} {o : List Obs} {r : Nat} {d : Rd} (h : ∀ u, RdOk s o (s.rd u)) (hd : RdOk s o d) (u : Nat) : RdOk (s.reading r d) o ((s.reading r d).rd u) := by
  have e : RdOk s o ((s.reading r d).rd u) := by
    by_cases e : u = r
    · subst e; rw [reading_rd]; exact hd
    · rw [show (s.reading r d).rd u = s.rd u from if_neg e]; exact h u
  generalize (s.reading r d).rd u = x at e
  cases x <;> exact e

theorem any_reading {s : St} {o : List Obs} {r : Nat} {d : Rd} (hA : Any s o) (hd : RdOk s o d) : Any (s.reading r d) o :=
  ⟨inv_reading hA.inv, hA.asked, hA.files, hA.lines, reads_at hA.reads hd, hA.reported⟩

theorem any_happen (s : St) (o : List Obs) (e : Ev) (s' : St) (o' : List Obs) (hA : Any s o) (ht : ∀ t, e ≠ .timedlock t) (hh : happen s e = some (s', o')) : Any s' (o ++ o') := by
  have hI := inv_happen s o e s' o' hA.inv ht hh
  cases e with
  | lock t p =>
    simp only [happen] at hh
    split at hh
    · simp only [Option.some.injEq, Prod.mk.injEq] at hh
      obtain ⟨rfl, rfl⟩ := hh
      refine any_step hA hI (by simp) ?_ (fun i f h => .inl h) (fun i => .inl rfl) (fun i _ h => .inl h) rfl
      intro u q h
      rcases place_at h with h | h
      · exact .inl h
      · cases h; exact .inr ⟨t, by simp⟩
    · cases hh
  | trylock t p =>
    simp only [happen] at hh
    split at hh
    · simp only [Option.some.injEq, Prod.mk.injEq] at hh
      obtain ⟨rfl, rfl⟩ := hh
      cases ha : acquire s t with
      | none =>
        rw [ha] at hI
        exact any_step hA hI (by simp) (fun _ _ h => .inl h) (fun i f h => .inl h) (fun i => .inl rfl) (fun i _ h => .inl h) rfl
      | some s1 =>
        rw [ha] at hI
        obtain ⟨e1, e2, e3, e4, e5⟩ := acquire_same ha
        refine any_step hA hI (by simp) ?_ (fun i f h => .inl (by rw [← e2]; exact h)) (fun i => .inl (congrFun e3 i)) (fun i _ h => .inl (by rw [← e1]; exact h)) e5
        intro u q h
        rcases place_at h with h | h
        · rw [e4] at h; exact .inl h
        · cases h; exact .inr ⟨t, by simp⟩
    · cases hh
  | timedlock t => exact absurd rfl (ht t)
  | unlock t =>
    simp only [happen] at hh
    split at hh
    · simp only [Option.some.injEq, Prod.mk.injEq] at hh
      obtain ⟨rfl, rfl⟩ := hh
      refine any_step hA hI (by simp) ?_ (fun i f h => .inl h) (fun i => .inl rfl) (fun i _ h => .inl h) rfl
      intro u q h
      rcases place_at h with h | h
      · exact .inl h
      · cases h
    · cases hh
  | step t => exact any_next hA hh
  | mutext r =>
    simp only [happen] at hh
    split at hh
    · simp only [Option.some.injEq, Prod.mk.injEq] at hh
      obtain ⟨rfl, rfl⟩ := hh
      rw [List.append_nil]
      exact any_reading hA ⟨rfl, Nat.zero_le _, by simp⟩
    · cases hh
  | read r =>
    have hr := hA.reads r
    simp only [happen, nextRead] at hh
    split at hh <;> rename_i hd <;> rw [hd] at hr
    · cases hh
    · rename_i i n acc
      split at hh <;> simp only [Option.some.injEq, Prod.mk.injEq] at hh <;> obtain ⟨rfl, rfl⟩ := hh
      · rename_i hlt
        rw [List.append_nil]
        refine any_reading hA ?_
        split
        · exact ⟨hr.1, hlt.2, hr.2.2, hA.lines i hlt.2 hlt.1⟩
        · refine ⟨by simp [hr.1], hlt.2, ?_⟩
          intro x hx
          rcases List.mem_append.1 hx with hx | hx
          · exact hr.2.2 x hx
          · simp only [List.mem_singleton] at hx; subst hx; trivial
      · have := any_reading (r := r) (d := .none) hA trivial
        refine ⟨hI, fun t p h => (this.asked t p h).mono, fun i f h => (this.files i f h).imp fun _ hp => ⟨hp.1.mono, hp.2⟩,
          fun i h1 h2 => (this.lines i h1 h2).imp fun _ hp => ⟨hp.1.mono, hp.2⟩, fun u => (this.reads u).mono fun _ => .inl rfl, ?_⟩
        intro u m l h
        rcases List.mem_append.1 h with h | h
        · exact ⟨(hA.reported u m l h).1, fun x hx => ((hA.reported u m l h).2 x hx).mono⟩
        · simp only [List.mem_singleton, Obs.reported.injEq] at h
          obtain ⟨rfl, rfl, rfl⟩ := h
          exact ⟨by have := hr.1; have := hr.2.1; omega, fun x hx => (hr.2.2 x hx).mono⟩
    · rename_i i n acc
      simp only [Option.some.injEq, Prod.mk.injEq] at hh
      obtain ⟨rfl, rfl⟩ := hh
      rw [List.append_nil]
      exact any_reading hA ⟨hr.1, hr.2.1, hr.2.2.1, fun g hg => hA.files i g hg, hr.2.2.2⟩
    · rename_i i f n acc
      simp only [Option.some.injEq, Prod.mk.injEq] at hh
      obtain ⟨rfl, rfl⟩ := hh
      rw [List.append_nil]
      refine any_reading hA ⟨by simp [hr.1], hr.2.1, ?_⟩
      intro x hx
      rcases List.mem_append.1 hx with hx | hx
      · exact hr.2.2.1 x hx
      · simp only [List.mem_singleton] at hx; subst hx; exact ⟨hr.2.2.2.1, hr.2.2.2.2⟩

theorem any_start (lines : Nat → Nat) : Any (start lines) [] :=
  ⟨inv_start lines, fun _ _ h => absurd h (by simp [start, Pc.place]), fun _ _ h => absurd h (by simp [start]), fun i _ h => absurd h (by simp [start]), fun _ => trivial, by simp⟩

/-- Read at any moment, with threads locking and unlocking meanwhile, the report has at most five entries, every name in it is one a call of `lock` or `trylock` was made with, and so is every
line: never one of the values `mLockerLine` had before. -/
theorem C129_any_partial (lines : Nat → Nat) (es : List Ev) (s : St) (o : List Obs) (hn : NoTimed es) (h : exec (start lines) es = some (s, o)) (r : Nat) (n : Int) (l : List Piece)
    (hr : Obs.reported r n l ∈ o) : l.length ≤ 5 ∧ ∀ f m, Piece.place f m ∈ l →
      (∀ g, f = some g → ∃ t p, Obs.asked t p ∈ o ∧ p.file = some g) ∧ ∃ t p, Obs.asked t p ∈ o ∧ p.line = m := by
  have hA : Any s o := by simpa using exec_inv (P := Any) any_happen es (start lines) [] s o (any_start lines) hn h
  obtain ⟨h1, h2⟩ := hA.reported r n l hr
  refine ⟨h1, fun f m hf => ?_⟩
  obtain ⟨ha, p, ⟨t, ht⟩, hp⟩ := h2 _ hf
  refine ⟨fun g hg => ?_, t, p, ht, hp⟩
  obtain ⟨q, ⟨u, hu⟩, hq⟩ := ha g hg
  exact ⟨u, q, hu, hq⟩

/-- A thread locks in `a.cpp`, line 1; after the name was read, it unlocks and locks again in `b.cpp`, line 2. -/
def torn : List Ev :=
  [.lock 0 ⟨some (lit "a.cpp"), 1⟩, .step 0, .step 0, .step 0, .step 0, .mutext 0, .read 0, .read 0, .unlock 0, .step 0, .step 0,
    .lock 0 ⟨some (lit "b.cpp"), 2⟩, .step 0, .step 0, .step 0, .step 0, .read 0, .read 0]

/-- A report read while threads lock and unlock can name a place where nobody ever locked. -/
theorem C129_torn_refuted : ∃ es s o, NoTimed es ∧ exec (start fun _ => 0) es = some (s, o) ∧ ∃ r n l f m, Obs.reported r n l ∈ o ∧ Piece.place (some f) m ∈ l ∧
    ∀ t p, Obs.asked t p ∈ o → ¬ (p.file = some f ∧ p.line = m) := by
  cases h : exec (start fun _ => 0) torn with
  | none => exact absurd (congrArg Option.isSome h) (by decide +kernel)
  | some q =>
    have ho : (exec (start fun _ => 0) torn).map (·.2) = some [.asked 0 ⟨some (lit "a.cpp"), 1⟩, .locked 0 ⟨some (lit "a.cpp"), 1⟩, .unlocked 0, .asked 0 ⟨some (lit "b.cpp"), 2⟩,
      .locked 0 ⟨some (lit "b.cpp"), 2⟩, .reported 0 1 [.place (some (lit "a.cpp")) 2]] := by decide +kernel
    rw [h] at ho
    simp only [Option.map_some, Option.some.injEq] at ho
    refine ⟨torn, q.1, q.2, fun t ht => ?_, h, 0, 1, [.place (some (lit "a.cpp")) 2], lit "a.cpp", 2, by rw [ho]; simp only [List.mem_cons, true_or, or_true], by simp, ?_⟩
    · revert ht; simp [torn]
    · intro t p hp
      rw [ho] at hp
      simp only [List.mem_cons, Obs.asked.injEq, reduceCtorEq, List.not_mem_nil, or_false, false_or] at hp
      rcases hp with ⟨_, rfl⟩ | ⟨_, rfl⟩
      · simp
      · intro e
        exact absurd e.1 (by decide +kernel)

/-- A thread takes the mutex with `timedlock` and gives it back; then it locks. -/
def afterTimed (p : Place) : List Ev := [.timedlock 0, .unlock 0, .step 0, .step 0, .lock 0 p, .step 0, .step 0, .step 0, .step 0]

/-- After one use of `timedlock` the report is wrong for good: the count is one too low, and a lock that is held is not shown, wherever it was made. -/
theorem C129_timedlock_refuted (p : Place) : ∃ s o, exec (start fun _ => 0) (afterTimed p) = some (s, o) ∧ Quiet s ∧ held o = [p] ∧
    ∃ s', exec s [.mutext 0, .read 0] = some (s', [.reported 0 0 []]) ∧ text 0 [] ≠ wanted (held o) := by
  refine ⟨_, _, rfl, ?_, rfl, _, rfl, ?_⟩
  · intro t
    by_cases h : t = 0
    · subst h; exact .inl rfl
    · exact .inl (by simp [St.at, release, start, h])
  · intro h
    have := congrArg (fun l => l[8]?) h
    have e0 : intText 0 = [48] := by decide +kernel
    have e1 : intText 1 = [49] := by decide +kernel
    simp [text, wanted, held, lit, e0, e1] at this

/-- With a name of 195 characters the last digit of the line is lost: line 12 is reported as line 1. -/
theorem C129_long_refuted (f : Str) (hf : ∀ c ∈ f, c ≠ 0) (hl : f.length = 195) : (piece ⟨some f, 12⟩).text = (piece ⟨some f, 1⟩).text ∧ wanted [⟨some f, 12⟩] ≠ wanted [⟨some f, 1⟩] := by
  have e1 : natText 10 1 = [49] := by decide +kernel
  have e12 : natText 10 12 = [49, 50] := by decide +kernel
  have nz (l : Str) (h : ∀ c ∈ l, c ≠ 0) : ∀ c ∈ lit " " ++ f ++ lit ":" ++ l, c ≠ 0 := by
    intro c hc
    simp only [List.mem_append] at hc
    rcases hc with ((hc | hc) | hc) | hc
    · revert c; decide
    · exact hf c hc
    · revert c; decide
    · exact h c hc
  have es : (lit " ").length = 1 := rfl
  have ec : (lit ":").length = 1 := rfl
  constructor
  · show Utils.format (lit " " ++ f ++ lit ":" ++ natText 10 12) = Utils.format (lit " " ++ f ++ lit ":" ++ natText 10 1)
    rw [e1, e12, (Utils.C45_refuted _ (nz _ (by decide)) (by simp [hl, es, ec])).1, Utils.C45_format_partial _ (nz _ (by decide)) (by simp [hl, es, ec])]
    rw [List.take_of_length_le (by simp [hl, es, ec]), show ([49, 50] : Str) = [49] ++ [50] from rfl, ← List.append_assoc, List.dropLast_concat]
  · intro h
    have := congrArg List.length h
    simp [wanted, e1, e12] at this

/-- Six locks of one thread, the second without a place; the last one is counted, not shown. -/
def six : List Ev :=
  ([⟨some (lit "a"), 1⟩, ⟨none, 0⟩, ⟨some (lit "c"), 3⟩, ⟨some (lit "d"), 4⟩, ⟨some (lit "e"), 5⟩, ⟨some (lit "f"), 6⟩] : List Place).flatMap fun p => [.lock 7 p, .step 7, .step 7, .step 7, .step 7]

example : (exec (start fun _ => 99) (six ++ .trylock 8 ⟨some (lit "x"), 1⟩ :: .mutext 0 :: List.replicate 14 (.read 0))).map (fun q => q.2.filterMap fun | .reported _ n l => some (text n l) | _ => none)
    = some [lit "lockcnt=6 a:1 ? c:3 d:4 e:5"] := by decide +kernel

example : wanted [⟨some (lit "a"), 1⟩, ⟨none, 0⟩] = lit "lockcnt=2 a:1 ?" := by decide +kernel

end Verif.Threads.Report
