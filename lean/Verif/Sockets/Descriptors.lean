import Verif.Core.Str
import Mathlib.Logic.Basic

/-
Property C91: the descriptors of a program with sockets.

The program has any number of sockets and uses descriptors for other things too.  `socket` gives out any number that is not in use (`Sockets.cpp:270, 328`); `close` and the destructor
(`Sockets.cpp:137-146`) close the number kept in `mSocketFD` (`Sockets.h:63`), whatever it stands for by then.  A copy of a socket (the copy constructor the compiler writes) keeps the same number.  When a
constructor throws (`Sockets.cpp:271-275, 289-295, 329-333, 342-348`), the part of `DatagramSocket` is destroyed, which closes the number as well.  Left out: `devassert`, which ends the process at log level DEBUG
(`Defines.h:46`), and the addresses (C91_path_refuted).
-/

namespace Verif.Sockets.Descriptors

open Verif

/-- Who opened a descriptor: some other part of the program, or the socket with that number. -/
inductive Owner
  | file
  | sock (i : Nat)
deriving DecidableEq

/-- The open descriptors, and the sockets in the order of their construction: `mSocketFD`, or `none` when destroyed. -/
structure St where
  fds : Int → Option Owner
  objs : List (Option Int)

/-- What the program does. -/
inductive Ev
  /-- `UDPSocket(port)` or `UDDSocket(path)` (`Sockets.cpp:244-256, 267-296, 316-349`): the number `socket` gave, or none, and whether `bind` succeeded. -/
  | construct (fd : Option Int) (bound : Bool)
  /-- `UDDSocket()` without a path (`Sockets.cpp:316-321`): `mSocketFD` is not set and holds anything. -/
  | unopened (garbage : Int)
  /-- `open` for a socket there is (`Sockets.cpp:267-296, 325-349`). -/
  | reopen (i : Nat) (fd : Int)
  /-- `close` (`Sockets.cpp:137-140`). -/
  | close (i : Nat)
  /-- The destructor (`Sockets.cpp:143-146`). -/
  | destroy (i : Nat)
  /-- The copy constructor. -/
  | copy (i : Nat)
  /-- Another part of the program opens a descriptor. -/
  | fileOpen (fd : Int)
  /-- Another part of the program closes a descriptor it opened. -/
  | fileClose (fd : Int)
deriving DecidableEq

/-- A descriptor for somebody, or for nobody. -/
def put (fds : Int → Option Owner) (n : Int) (o : Option Owner) : Int → Option Owner := fun m => if m = n then o else fds m

/-- One event (`Sockets.cpp:137-146, 244-256, 267-296, 316-349`). -/
def happen (s : St) : Ev → Option St
  | .construct none _ => some ⟨put s.fds (-1) none, s.objs ++ [none]⟩
  | .construct (some n) bound =>
    if 0 ≤ n ∧ s.fds n = none then
      let fds := put s.fds n (some (.sock s.objs.length))
      some (if bound then ⟨fds, s.objs ++ [some n]⟩ else ⟨put fds n none, s.objs ++ [none]⟩)
    else none
  | .unopened g => some ⟨s.fds, s.objs ++ [some g]⟩
  | .reopen i n =>
    if 0 ≤ n ∧ s.fds n = none then
      match s.objs[i]? with
      | some (some _) => some ⟨put s.fds n (some (.sock i)), s.objs.set i (some n)⟩
      | _ => none
    else none
  | .close i =>
    match s.objs[i]? with
    | some (some n) => some ⟨put s.fds n none, s.objs⟩
    | _ => none
  | .destroy i =>
    match s.objs[i]? with
    | some (some n) => some ⟨put s.fds n none, s.objs.set i none⟩
    | _ => none
  | .copy i =>
    match s.objs[i]? with
    | some (some n) => some ⟨s.fds, s.objs ++ [some n]⟩
    | _ => none
  | .fileOpen n => if 0 ≤ n ∧ s.fds n = none then some ⟨put s.fds n (some .file), s.objs⟩ else none
  | .fileClose n => if s.fds n = some .file then some ⟨put s.fds n none, s.objs⟩ else none

/-- A program. -/
def run (s : St) : List Ev → Option St
  | [] => some s
  | e :: es => (happen s e).bind fun s' => run s' es

/-- The start: nothing open. -/
def start : St := ⟨fun _ => none, []⟩

/-! ### Specification -/

/-- What the rest of the program has open after it did something itself. -/
def filesStep (l : List Int) : Ev → List Int
  | .fileOpen n => n :: l
  | .fileClose n => l.filter (· ≠ n)
  | _ => l

/-- The descriptors the rest of the program has open, by what it did itself. -/
def files (es : List Ev) : List Int := es.foldl filesStep []

/-- Sockets are constructed with an address, and then used and destroyed: not opened again, not closed by hand, not copied. -/
def Plain : Ev → Prop
  | .unopened _ | .reopen _ _ | .close _ | .copy _ => False
  | _ => True

/-! ### Lemmas -/

structure Inv (s : St) (l : List Int) : Prop where
  neg : ∀ n, s.fds n ≠ none → 0 ≤ n
  file : ∀ n, s.fds n = some .file ↔ n ∈ l
  own : ∀ i n, s.objs[i]? = some (some n) ↔ s.fds n = some (.sock i)

theorem put_same (fds : Int → Option Owner) (n : Int) (o : Option Owner) : put fds n o n = o := if_pos rfl

theorem put_other (fds : Int → Option Owner) (n m : Int) (o : Option Owner) (h : m ≠ n) : put fds n o m = fds m := if_neg h

theorem getElem?_concat (l : List (Option Int)) (x : Option Int) (i : Nat) : (l ++ [x])[i]? = if i = l.length then some x else l[i]? := by
  split
  · next h => subst h; simp
  · next h =>
    rcases Nat.lt_or_ge i l.length with h' | h'
    · rw [List.getElem?_append_left h']
    · rw [List.getElem?_append_right h', List.getElem?_eq_none (by simp; omega), List.getElem?_eq_none h']

theorem getElem?_set' (l : List (Option Int)) (x y : Option Int) (i j : Nat) (h : l[i]? = some y) : (l.set i x)[j]? = if j = i then some x else l[j]? := by
  have hi : i < l.length := (List.getElem?_eq_some_iff.1 h).1
  rw [List.getElem?_set]
  by_cases e : i = j
  · subst e; simp [hi]
  · simp [e, Ne.symm e]

theorem put_put (fds : Int → Option Owner) (n : Int) (o : Option Owner) (h : fds n = none) : put (put fds n o) n none = fds := by
  funext m
  unfold put
  split
  · next e => rw [e, h]
  · rfl

theorem put_none (fds : Int → Option Owner) (n : Int) (h : fds n = none) : put fds n none = fds := by
  funext m
  unfold put
  split
  · next e => rw [e, h]
  · rfl

theorem inv_happen {s s' : St} {l : List Int} {e : Ev} (hp : Plain e) (h : Inv s l) (hs : happen s e = some s') :
    Inv s' (filesStep l e) := by
  have fresh : ∀ n, s.fds n = some (.sock s.objs.length) → False := fun n hn => by
    have := (h.own _ _).2 hn
    rw [List.getElem?_eq_none (Nat.le_refl _)] at this
    cases this
  have dead : Inv ⟨s.fds, s.objs ++ [none]⟩ l := by
    refine ⟨h.neg, h.file, fun i n => ?_⟩
    show (s.objs ++ [none])[i]? = _ ↔ _
    rw [getElem?_concat]
    split
    · next e =>
      subst e
      exact ⟨fun x => (by cases x), fun x => (fresh n x).elim⟩
    · exact h.own i n
  cases e with
  | construct fd bound =>
    cases fd with
    | none =>
      simp only [happen, Option.some.injEq] at hs
      subst hs
      rw [put_none _ _ (Classical.byContradiction fun hx => absurd (h.neg _ hx) (by omega))]
      exact dead
    | some n =>
      simp only [happen] at hs
      split at hs
      · next hn =>
        simp only [Option.some.injEq] at hs
        subst hs
        cases bound with
        | false =>
          simp only [Bool.false_eq_true, if_false]
          rw [put_put _ _ _ hn.2]
          exact dead
        | true =>
          simp only [if_true]
          refine ⟨fun m hm => ?_, fun m => ?_, fun i m => ?_⟩
          · by_cases e : m = n
            · rw [e]; exact hn.1
            · simp only [put_other _ _ _ _ e] at hm
              exact h.neg m hm
          · by_cases e : m = n
            · subst e
              simp only [put_same]
              refine ⟨fun x => (by cases x), fun x => ?_⟩
              have := (h.file m).2 x
              rw [hn.2] at this
              cases this
            · simp only [put_other _ _ _ _ e]
              exact h.file m
          · simp only [getElem?_concat]
            split
            · next e =>
              subst e
              by_cases e : m = n
              · subst e; simp [put_same]
              · simp only [put_other _ _ _ _ e]
                exact ⟨fun x => (by simp only [Option.some.injEq] at x; exact absurd x.symm e), fun x => (fresh m x).elim⟩
            · next hi =>
              by_cases e : m = n
              · subst e
                simp only [put_same, Option.some.injEq, Owner.sock.injEq]
                refine ⟨fun x => ?_, fun x => absurd x.symm hi⟩
                have := (h.own i m).1 x
                rw [hn.2] at this
                cases this
              · simp only [put_other _ _ _ _ e]
                exact h.own i m
      · cases hs
  | unopened g => exact hp.elim
  | reopen i n => exact hp.elim
  | close i => exact hp.elim
  | copy i => exact hp.elim
  | destroy i =>
    simp only [happen] at hs
    split at hs
    · next n hi =>
      simp only [Option.some.injEq] at hs
      subst hs
      have ho := (h.own i n).1 hi
      refine ⟨fun m hm => ?_, fun m => ?_, fun j m => ?_⟩
      · by_cases e : m = n
        · subst e; exact absurd (put_same _ _ _) hm
        · simp only [put_other _ _ _ _ e] at hm
          exact h.neg m hm
      · by_cases e : m = n
        · subst e
          simp only [put_same]
          refine ⟨fun x => (by cases x), fun x => ?_⟩
          have := (h.file m).2 x
          rw [ho] at this
          cases this
        · simp only [put_other _ _ _ _ e]
          exact h.file m
      · simp only [getElem?_set' _ _ _ _ _ hi]
        by_cases e : m = n
        · subst e
          simp only [put_same]
          refine ⟨fun x => ?_, fun x => by cases x⟩
          split at x
          · cases x
          · next hj =>
            have := (h.own j m).1 x
            rw [ho] at this
            simp only [Option.some.injEq, Owner.sock.injEq] at this
            exact absurd this.symm hj
        · simp only [put_other _ _ _ _ e]
          split
          · next hj =>
            subst hj
            refine ⟨fun x => (by cases x), fun x => ?_⟩
            have := (h.own j m).2 x
            rw [hi] at this
            simp only [Option.some.injEq] at this
            exact absurd this.symm e
          · exact h.own j m
    · cases hs
  | fileOpen n =>
    simp only [happen] at hs
    split at hs
    · next hn =>
      simp only [Option.some.injEq] at hs
      subst hs
      refine ⟨fun m hm => ?_, fun m => ?_, fun i m => ?_⟩
      · by_cases e : m = n
        · rw [e]; exact hn.1
        · simp only [put_other _ _ _ _ e] at hm
          exact h.neg m hm
      · by_cases e : m = n
        · subst e; simp [put_same, filesStep]
        · simp only [filesStep, put_other _ _ _ _ e, List.mem_cons, e, false_or]
          exact h.file m
      · by_cases e : m = n
        · subst e
          simp only [put_same]
          refine ⟨fun x => ?_, fun x => by cases x⟩
          have := (h.own i m).1 x
          rw [hn.2] at this
          cases this
        · simp only [put_other _ _ _ _ e]
          exact h.own i m
    · cases hs
  | fileClose n =>
    simp only [happen] at hs
    split at hs
    · next hn =>
      simp only [Option.some.injEq] at hs
      subst hs
      refine ⟨fun m hm => ?_, fun m => ?_, fun i m => ?_⟩
      · by_cases e : m = n
        · subst e; exact absurd (put_same _ _ _) hm
        · simp only [put_other _ _ _ _ e] at hm
          exact h.neg m hm
      · by_cases e : m = n
        · subst e; simp [put_same, filesStep]
        · simp only [filesStep, put_other _ _ _ _ e, List.mem_filter, h.file m]
          simp [e]
      · by_cases e : m = n
        · subst e
          simp only [put_same]
          refine ⟨fun x => ?_, fun x => by cases x⟩
          have := (h.own i m).1 x
          rw [hn] at this
          cases this
        · simp only [put_other _ _ _ _ e]
          exact h.own i m
    · cases hs

theorem inv_run {es : List Ev} {s s' : St} {l : List Int} (hp : ∀ e ∈ es, Plain e) (h : Inv s l) (hs : run s es = some s') :
    Inv s' (es.foldl filesStep l) := by
  induction es generalizing s l with
  | nil =>
    simp only [run, Option.some.injEq] at hs
    subst hs
    exact h
  | cons e es ih =>
    simp only [run, Option.bind_eq_some_iff] at hs
    obtain ⟨s1, h1, h2⟩ := hs
    exact ih (fun e he => hp e (by simp [he])) (inv_happen (hp e (by simp)) h h1) h2

/-! ### C91 -/

/-- C91, partial: if sockets are constructed with an address and later destroyed, also with constructors that fail in between, then at any time the descriptors open are exactly those the
rest of the program opened and did not close, and one for each living socket, the one it keeps.  Missing: sockets without address, opened again, closed by hand or copied, see
`C91_unopened_closes_refuted`, `C91_leak_refuted`, `C91_close_refuted` and `C91_copy_refuted`. -/
theorem C91_descriptors_partial (es : List Ev) (s : St) (hp : ∀ e ∈ es, Plain e) (h : run start es = some s) :
    (∀ n, s.fds n = some .file ↔ n ∈ files es) ∧ ∀ i n, s.fds n = some (.sock i) ↔ s.objs[i]? = some (some n) := by
  have := inv_run (l := []) hp ⟨fun n hn => absurd rfl hn, fun n => ⟨fun x => (by cases x), fun x => (by cases x)⟩, fun i n => ⟨fun x => (by cases x), fun x => (by cases x)⟩⟩ h
  exact ⟨this.file, fun i n => (this.own i n).symm⟩

/-- C91, partial: in particular, when all sockets are destroyed, nothing is left open and nothing is missing. -/
theorem C91_no_leak_partial (es : List Ev) (s : St) (hp : ∀ e ∈ es, Plain e) (h : run start es = some s) (hd : ∀ x ∈ s.objs, x = none) (n : Int) :
    (s.fds n).isSome ↔ n ∈ files es := by
  obtain ⟨h1, h2⟩ := C91_descriptors_partial es s hp h
  rw [← h1 n]
  cases hn : s.fds n with
  | none => simp
  | some o =>
    cases o with
    | file => simp
    | sock i =>
      have := (h2 i n).1 hn
      exact absurd (hd _ (List.mem_of_getElem? this)) (by simp)

/-- C91 is false for `close` by hand: the destructor closes the number again, which may be a file by then. -/
theorem C91_close_refuted : ∃ es s, run start es = some s ∧ (3 : Int) ∈ files es ∧ s.fds 3 = none := by
  refine ⟨[.construct (some 3) true, .close 0, .fileOpen 3, .destroy 0], _, rfl, ?_, rfl⟩
  decide

/-- C91 is false for copies: the destructor of the first closes the descriptor of the second, and the second closes what is not its own. -/
theorem C91_copy_refuted : ∃ es s, run start es = some s ∧ (3 : Int) ∈ files es ∧ s.fds 3 = none := by
  refine ⟨[.construct (some 3) true, .copy 0, .destroy 1, .fileOpen 3, .destroy 0], _, rfl, ?_, rfl⟩
  decide

/-- C91 is false for a socket that never got an address: its destructor closes anything. -/
theorem C91_unopened_closes_refuted : ∃ es s, run start es = some s ∧ (3 : Int) ∈ files es ∧ s.fds 3 = none := by
  refine ⟨[.fileOpen 3, .unopened 3, .destroy 0], _, rfl, ?_, rfl⟩
  decide

/-- C91 is false for a socket opened again: with all sockets destroyed a descriptor is left. -/
theorem C91_leak_refuted : ∃ es s, run start es = some s ∧ (∀ x ∈ s.objs, x = none) ∧ files es = [] ∧ s.fds 3 ≠ none := by
  refine ⟨[.construct (some 3) true, .reopen 0 4, .destroy 0], _, rfl, ?_, rfl, by decide⟩
  decide

/-- Two sockets, a file, and a constructor that fails to bind; numbers are used again. -/
example : let es : List Ev := [.construct (some 3) true, .fileOpen 4, .construct (some 5) false, .construct (some 5) true, .destroy 0, .fileOpen 3, .construct none false]
    (∀ e ∈ es, Plain e) ∧ (run start es).map (fun s => [s.fds 3, s.fds 4, s.fds 5]) = some [some .file, some .file, some (.sock 2)] ∧ files es = [3, 4] := by
  refine ⟨?_, by decide +kernel, by decide +kernel⟩
  intro e he
  simp only [List.mem_cons, List.not_mem_nil, or_false] at he
  rcases he with rfl | rfl | rfl | rfl | rfl | rfl | rfl <;> trivial

end Verif.Sockets.Descriptors
