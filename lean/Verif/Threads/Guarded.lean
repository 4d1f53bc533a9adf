import Verif.Threads.MutexProps
import Verif.Threads.RwLock

/-
Property C174: data that threads use only while they have a certain `Mutex` or `RWLock` (`/repo/Threads.h:74-138`), and the memory model of C++: uses that conflict are ordered by the lock.
-/

namespace Verif.Threads
open Verif

variable {I J X : Type} {n : Nat}

/-- What guards a variable. -/
inductive Guard (I J : Type) where
  | mutex (i : I)
  | rw (j : J)

/-- What counts for the order of uses: a thread gets mutex `i` or gives it up (the outermost lock and unlock; the ones between do not count), a thread gets RWLock `j` for writing (true) or
reading (false) or gives it up, a thread writes (true) or reads (false) a variable. -/
inductive GEv (n : Nat) (I J X : Type) where
  | acq (t : Fin n) (i : I)
  | rel (t : Fin n) (i : I)
  | rwAcq (t : Fin n) (j : J) (w : Bool)
  | rwRel (t : Fin n) (j : J) (w : Bool)
  | use (t : Fin n) (x : X) (w : Bool)
deriving DecidableEq

def GEv.thread : GEv n I J X → Fin n
  | .acq t _ => t
  | .rel t _ => t
  | .rwAcq t _ _ => t
  | .rwRel t _ _ => t
  | .use t _ _ => t

/-- Happens before, as in C++ (6.9.2.1) and POSIX: the order within a thread; from a release of a mutex to each later acquisition; from a release of an RWLock to each later acquisition, unless both
are for reading; and what follows from these. -/
inductive GHB (tr : List (GEv n I J X)) : Nat → Nat → Prop where
  | order {j k e e'} : j < k → tr[j]? = some e → tr[k]? = some e' → e.thread = e'.thread → GHB tr j k
  | mutex {j k t u i} : j < k → tr[j]? = some (.rel t i) → tr[k]? = some (.acq u i) → GHB tr j k
  | rw {j k t u i w w'} : j < k → tr[j]? = some (.rwRel t i w) → tr[k]? = some (.rwAcq u i w') → (w = true ∨ w' = true) → GHB tr j k
  | trans {j k l} : GHB tr j k → GHB tr k l → GHB tr j l

/-- The locks, the calls made on the RWLocks, and what has happened. -/
structure GState (n : Nat) (I J X : Type) where
  mtx : I → MSt n
  lock : J → Rw
  calls : J → List RwEv
  tr : List (GEv n I J X)

/-- What a step of mutex `i` (`Threads.cpp:106-189`, `Threads.h:98`) is for the order of uses: it changes hands only when it is locked for the first time and unlocked for the last time. -/
def mtxEvent (i : I) : Option (Fin n) → Option (Fin n) → List (GEv n I J X)
  | none, some t => [.acq t i]
  | some t, none => [.rel t i]
  | _, _ => []

/-- What a call by thread `t` on RWLock `j` (`Threads.h:131-137`) is for the order of uses. -/
def rwEvent (j : J) (t : Fin n) (s s' : Rw) : List (GEv n I J X) :=
  if s.writer = none ∧ s'.writer ≠ none then [.rwAcq t j true]
  else if s.writer ≠ none ∧ s'.writer = none then [.rwRel t j true]
  else if s.readers.length < s'.readers.length then [.rwAcq t j false]
  else if s'.readers.length < s.readers.length then [.rwRel t j false]
  else []

/-- May thread `t` write (true) or read (false) a variable with this guard?  It must have been told that it got the mutex, or be in a section of the RWLock. -/
def Entitled (g : GState n I J X) (t : Fin n) (w : Bool) : Guard I J → Prop
  | .mutex i => 0 < (g.mtx i).held t
  | .rw j => (t.val, true) ∈ openSections (g.calls j) ∨ w = false ∧ (t.val, false) ∈ openSections (g.calls j)

/-- Steps of programs that use each variable under its guard only: a step of a mutex, a call on an RWLock, a use. -/
inductive GStep [DecidableEq I] [DecidableEq J] (max : Nat) (guard : X → Guard I J) (okM : ML n → Prop) : GState n I J X → GState n I J X → Prop where
  | mtx (g i l s') : okM l → mstep (g.mtx i) l = some s' →
      GStep max guard okM g { g with mtx := Function.update g.mtx i s', tr := g.tr ++ mtxEvent i (g.mtx i).owner s'.owner }
  | rw (g j) (t : Fin n) (c s' r) : OrderlyCall max (openSections (g.calls j)) t c → rwStep max (g.lock j) t c = some (.ok (s', r)) →
      GStep max guard okM g { g with lock := Function.update g.lock j s', calls := Function.update g.calls j ((t.val, c, r) :: g.calls j), tr := g.tr ++ rwEvent j t (g.lock j) s' }
  | use (g t x w) : Entitled g t w (guard x) → GStep max guard okM g { g with tr := g.tr ++ [.use t x w] }

/-- All locks are free. -/
def ginit : GState n I J X := ⟨fun _ => minit n, fun _ => {}, fun _ => [], []⟩

inductive GReach [DecidableEq I] [DecidableEq J] (max : Nat) (guard : X → Guard I J) (okM : ML n → Prop) : GState n I J X → Prop where
  | init : GReach max guard okM ginit
  | step {g g'} : GReach max guard okM g → GStep max guard okM g g' → GReach max guard okM g'

/-- No data race: of two uses of one variable, at least one of them writing, the first happens before the second. -/
def RaceFree (tr : List (GEv n I J X)) : Prop :=
  ∀ j k t u x w w', j < k → tr[j]? = some (.use t x w) → tr[k]? = some (.use u x w') → (w = true ∨ w' = true) → GHB tr j k

/-! ### Proof -/

theorem get_app {tr : List (GEv n I J X)} {j : Nat} {e} (more) (h : tr[j]? = some e) : (tr ++ more)[j]? = some e := by
  rw [List.getElem?_append_left (List.getElem?_eq_some_iff.mp h).1, h]

theorem get_lt {tr : List (GEv n I J X)} {j : Nat} {e} (h : tr[j]? = some e) : j < tr.length := (List.getElem?_eq_some_iff.mp h).1

theorem get_last {tr : List (GEv n I J X)} (e) : (tr ++ [e])[tr.length]? = some e := by simp

theorem GHB.app {tr : List (GEv n I J X)} {j k} (more) (h : GHB tr j k) : GHB (tr ++ more) j k := by
  induction h with
  | order h1 h2 h3 h4 => exact .order h1 (get_app more h2) (get_app more h3) h4
  | mutex h1 h2 h3 => exact .mutex h1 (get_app more h2) (get_app more h3)
  | rw h1 h2 h3 h4 => exact .rw h1 (get_app more h2) (get_app more h3) h4
  | trans _ _ h1 h2 => exact .trans h1 h2

/-- Whatever thread `u` does next happens after event `j`. -/
def Past (tr : List (GEv n I J X)) (j : Nat) (u : Fin n) : Prop := ∃ k e, tr[k]? = some e ∧ e.thread = u ∧ (j = k ∨ GHB tr j k)

/-- Event `j` happens before an event for which `p` holds. -/
def Then (tr : List (GEv n I J X)) (j : Nat) (p : GEv n I J X → Prop) : Prop := ∃ k e, tr[k]? = some e ∧ p e ∧ GHB tr j k

theorem Past.app {tr : List (GEv n I J X)} {j u} (more) (h : Past tr j u) : Past (tr ++ more) j u := by
  obtain ⟨k, e, h1, h2, h3⟩ := h
  exact ⟨k, e, get_app more h1, h2, h3.imp_right (.app more)⟩

theorem Then.app {tr : List (GEv n I J X)} {j p} (more) (h : Then tr j p) : Then (tr ++ more) j p := by
  obtain ⟨k, e, h1, h2, h3⟩ := h
  exact ⟨k, e, get_app more h1, h2, h3.app more⟩

/-- The next event of the thread. -/
theorem Past.next {tr : List (GEv n I J X)} {j u} (h : Past tr j u) {e : GEv n I J X} (he : e.thread = u) : GHB (tr ++ [e]) j tr.length := by
  obtain ⟨k, e', h1, h2, h3⟩ := h
  have := GHB.order (get_lt h1) (get_app [e] h1) (get_last e) (h2.trans he.symm)
  rcases h3 with rfl | h3
  · exact this
  · exact (h3.app [e]).trans this

theorem past_last (tr : List (GEv n I J X)) (e : GEv n I J X) : Past (tr ++ [e]) tr.length e.thread := ⟨_, _, get_last e, rfl, .inl rfl⟩

/-- The locks and the uses. -/
structure GuardInv (max : Nat) (guard : X → Guard I J) (g : GState n I J X) : Prop where
  mtx : ∀ i, MInv (g.mtx i)
  rw : ∀ j, RwInv (g.lock j) (openSections (g.calls j))
  held : ∀ k t x w i, g.tr[k]? = some (.use t x w) → guard x = .mutex i → ∀ u, (g.mtx i).owner = some u → Past g.tr k u
  free : ∀ k t x w i, g.tr[k]? = some (.use t x w) → guard x = .mutex i → (g.mtx i).owner = none → Then g.tr k (fun e => ∃ u, e = .rel u i)
  writer : ∀ k t x w j, g.tr[k]? = some (.use t x w) → guard x = .rw j → ∀ u : Fin n, (g.lock j).writer = some u.val → Past g.tr k u
  reader : ∀ k t x j, g.tr[k]? = some (.use t x true) → guard x = .rw j → ∀ u : Fin n, u.val ∈ (g.lock j).readers → Past g.tr k u
  wrote : ∀ k t x j, g.tr[k]? = some (.use t x true) → guard x = .rw j → (g.lock j).writer = none → Then g.tr k (fun e => ∃ u, e = .rwRel u j true)
  read : ∀ k t x w j, g.tr[k]? = some (.use t x w) → guard x = .rw j → (g.lock j).writer = none → t.val ∈ (g.lock j).readers ∨ Then g.tr k (fun e => ∃ u b, e = .rwRel u j b)
  race : RaceFree g.tr

/-- An old or the new event. -/
theorem get_snoc {tr : List (GEv n I J X)} {e e'} {k : Nat} (h : (tr ++ [e])[k]? = some e') : tr[k]? = some e' ∨ k = tr.length ∧ e = e' := by
  rcases Nat.lt_trichotomy k tr.length with h1 | h1 | h1
  · rw [List.getElem?_append_left h1] at h
    exact .inl h
  · subst h1
    rw [get_last] at h
    exact .inr ⟨rfl, Option.some.inj h⟩
  · rw [List.getElem?_eq_none (by simp; omega)] at h
    cases h

/-- Events that are not uses do not make races. -/
theorem race_app {tr : List (GEv n I J X)} (h : RaceFree tr) (e : GEv n I J X) (he : ∀ t x w, e ≠ .use t x w) : RaceFree (tr ++ [e]) := by
  intro j k t u x w w' hjk h1 h2 h3
  rcases get_snoc h1 with h1 | ⟨-, h1⟩
  · rcases get_snoc h2 with h2 | ⟨-, h2⟩
    · exact (h j k t u x w w' hjk h1 h2 h3).app _
    · exact absurd h2 (he _ _ _)
  · exact absurd h1 (he _ _ _)

/-- A mutex goes from thread to thread by way of being free. -/
theorem mstep_owner {s s' : MSt n} {l : ML n} (h : mstep s l = some s') :
    s'.owner = s.owner ∨ (s.owner = none ∧ ∃ t, s'.owner = some t) ∨ ((∃ t, s.owner = some t) ∧ s'.owner = none) := by
  have tk : ∀ t, s.free t = true → (s.take t).owner = s.owner ∨ (s.owner = none ∧ ∃ t', (s.take t).owner = some t') := by
    intro t hf
    rcases of_decide_eq_true hf with e | e
    · exact .inr ⟨e, t, rfl⟩
    · exact .inl e.symm
  cases l with
  | lock t => simp only [mstep] at h; split at h <;> cases h; exact .inl rfl
  | lockFile t now => simp only [mstep] at h; split at h <;> cases h; exact .inl rfl
  | timedlock t ms now => simp only [mstep] at h; split at h <;> cases h; exact .inl rfl
  | unlock t => simp only [mstep] at h; split at h <;> cases h; exact .inl rfl
  | trylock t =>
    simp only [mstep] at h
    split at h
    · split at h
      · next hf => cases h; exact (tk t hf).imp_right .inl
      · cases h; exact .inl rfl
    · cases h
  | timeout t =>
    simp only [mstep] at h
    split at h
    · split at h <;> cases h; exact .inl rfl
    · split at h <;> cases h; exact .inl rfl
    · cases h
  | go t =>
    simp only [mstep] at h
    split at h
    · cases h
    · split at h
      · next hf => cases h; exact (tk t hf).imp_right .inl
      · split at h <;> cases h; exact .inl rfl
    · split at h
      · next hf => cases h; exact (tk t hf).imp_right .inl
      · cases h
    · cases h; exact .inl rfl
    · split at h
      · next hf => cases h; exact (tk t hf).imp_right .inl
      · split at h <;> cases h; exact .inl rfl
    · cases h
      show (s.release t).owner = _ ∨ _ ∧ (∃ t', (s.release t).owner = _) ∨ _ ∧ (s.release t).owner = _
      unfold MSt.release
      split
      · next ho =>
        dsimp only
        split
        · exact .inr (.inr ⟨⟨t, ho⟩, rfl⟩)
        · exact .inl ho.symm
      · exact .inl rfl

theorem rw_change {max : Nat} {s s' : Rw} {o : List (Nat × Bool)} (hi : RwInv s o) {t : Nat} {c : RCall} (ho : OrderlyCall max o t c) {r : RRes} (h : rwStep max s t c = some (.ok (s', r))) :
    s' = s ∨ (s.writer = none ∧ s.readers = [] ∧ s' = ⟨some t, []⟩) ∨ (s.writer = some t ∧ s.readers = [] ∧ s' = ⟨none, []⟩) ∨ (s.writer = none ∧ s' = ⟨none, t :: s.readers⟩) ∨
      (s.writer = none ∧ t ∈ s.readers ∧ s' = ⟨none, s.readers.erase t⟩) := by
  cases c with
  | wlock =>
    simp only [rwStep] at h
    split at h
    · cases h; exact .inl rfl
    · split at h
      · next h1 => cases h; exact .inr (.inl ⟨h1.1, h1.2, by rw [h1.2]⟩)
      · cases h
  | rlock =>
    simp only [rwStep] at h
    split at h
    · cases h; exact .inl rfl
    · split at h
      · cases h
      · next h1 =>
        rw [not_not] at h1
        split at h
        · cases h; exact .inl rfl
        · cases h; exact .inr (.inr (.inr (.inl ⟨h1, by rw [h1]⟩)))
  | trywlock =>
    simp only [rwStep] at h
    split at h
    · next h1 => cases h; exact .inr (.inl ⟨h1.1, h1.2, by rw [h1.2]⟩)
    · cases h; exact .inl rfl
  | tryrlock =>
    simp only [rwStep] at h
    split at h
    · next h1 => cases h; exact .inr (.inr (.inr (.inl ⟨h1.1, by rw [h1.1]⟩)))
    · cases h; exact .inl rfl
  | unlock =>
    simp only [rwStep] at h
    split at h
    · next h1 =>
      cases h
      rcases hi with ⟨u, -, -, h2⟩ | ⟨-, h2, -⟩
      · exact .inr (.inr (.inl ⟨h1, h2, by rw [h2]⟩))
      · rw [h2] at h1; cases h1
    · next h0 =>
      split at h
      · next h1 =>
        cases h
        rcases hi with ⟨u, -, -, h2⟩ | ⟨-, h2, -⟩
        · rw [h2] at h1; cases h1
        · exact .inr (.inr (.inr (.inr ⟨h2, h1, by rw [h2]⟩)))
      · cases h

/-- A thread that may use a variable has its mutex. -/
theorem entitled_owner {s : MSt n} (h : MInv s) {t : Fin n} (ht : 0 < s.held t) : s.owner = some t := by
  by_contra hn
  have := h.1 t
  rw [if_neg hn] at this
  omega

theorem ginv_init (max : Nat) (guard : X → Guard I J) : GuardInv max guard (ginit : GState n I J X) where
  mtx i := ⟨fun t => rfl, fun h => absurd rfl h, fun _ => rfl, fun _ => trivial⟩
  rw j := Or.inr ⟨by simp [ginit, openSections], rfl, rfl⟩
  held k t x w i h := by simp [ginit] at h
  free k t x w i h := by simp [ginit] at h
  writer k t x w i h := by simp [ginit] at h
  reader k t x i h := by simp [ginit] at h
  wrote k t x i h := by simp [ginit] at h
  read k t x w i h := by simp [ginit] at h
  race j k t u x w w' _ h := by simp [ginit] at h

theorem then_of_past {tr : List (GEv n I J X)} {k : Nat} {u : Fin n} {e : GEv n I J X} (he : e.thread = u) {p : GEv n I J X → Prop} (hp : p e) (h : Past tr k u) : Then (tr ++ [e]) k p :=
  ⟨_, _, get_last e, hp, h.next he⟩

theorem ginv_mtx [DecidableEq I] {max : Nat} {guard : X → Guard I J} {g : GState n I J X} (h : GuardInv max guard g) (i : I) {l : ML n} {s' : MSt n} (hl : Valid l)
    (hs : mstep (g.mtx i) l = some s') : GuardInv max guard { g with mtx := Function.update g.mtx i s', tr := g.tr ++ mtxEvent i (g.mtx i).owner s'.owner } := by
  have hm : ∀ i', MInv (Function.update g.mtx i s' i') := by
    intro i'
    by_cases e : i' = i
    · subst e; rw [Function.update_self]; exact minv_step (h.mtx i') hl hs
    · rw [Function.update_of_ne e]; exact h.mtx i'
  have old : ∀ {o o' : Option (Fin n)} {k : Nat} {t x w}, (g.tr ++ mtxEvent i o o')[k]? = some (GEv.use t x w) → g.tr[k]? = some (.use t x w) := by
    intro o o' k t x w hk
    rcases o with - | o <;> rcases o' with - | o' <;> simp only [mtxEvent, List.append_nil] at hk
    · exact hk
    · exact (get_snoc hk).elim id fun h => nomatch h.2
    · exact (get_snoc hk).elim id fun h => nomatch h.2
    · exact hk
  refine ⟨hm, h.rw, ?_, ?_, fun k t x w j hk hg u hu => (h.writer k t x w j (old hk) hg u hu).app _, fun k t x j hk hg u hu => (h.reader k t x j (old hk) hg u hu).app _,
    fun k t x j hk hg hw => (h.wrote k t x j (old hk) hg hw).app _, fun k t x w j hk hg hw => (h.read k t x w j (old hk) hg hw).imp_right (.app _), ?_⟩
  · intro k t x w i' hk hg u hu
    have hk' := old hk
    dsimp only at hu ⊢
    by_cases e : i' = i
    · subst e
      rw [Function.update_self] at hu
      rcases mstep_owner hs with e | ⟨e, t', e'⟩ | ⟨-, e⟩
      · exact (h.held k t x w i' hk' hg u (e ▸ hu)).app _
      · rw [hu] at e'
        cases e'
        obtain ⟨m, ev, h1, ⟨v, rfl⟩, h3⟩ := h.free k t x w i' hk' hg e
        rw [e, hu]
        exact ⟨_, _, get_last _, rfl, .inr ((h3.app _).trans (.mutex (get_lt h1) (get_app _ h1) (get_last _)))⟩
      · rw [hu] at e; cases e
    · rw [Function.update_of_ne e] at hu
      exact (h.held k t x w i' hk' hg u hu).app _
  · intro k t x w i' hk hg hu
    have hk' := old hk
    dsimp only at hu ⊢
    by_cases e : i' = i
    · subst e
      rw [Function.update_self] at hu
      rcases mstep_owner hs with e | ⟨-, t', e'⟩ | ⟨⟨t', e⟩, -⟩
      · exact (h.free k t x w i' hk' hg (e ▸ hu)).app _
      · rw [hu] at e'; cases e'
      · rw [e, hu]
        exact then_of_past rfl ⟨t', rfl⟩ (h.held k t x w i' hk' hg t' e)
    · rw [Function.update_of_ne e] at hu
      exact (h.free k t x w i' hk' hg hu).app _
  · show RaceFree (g.tr ++ mtxEvent i (g.mtx i).owner s'.owner)
    rcases (g.mtx i).owner with - | o <;> rcases s'.owner with - | o' <;> simp only [mtxEvent, List.append_nil]
    · exact h.race
    · exact race_app h.race _ fun _ _ _ h => nomatch h
    · exact race_app h.race _ fun _ _ _ h => nomatch h
    · exact h.race

theorem ginv_rw [DecidableEq J] {max : Nat} {guard : X → Guard I J} {g : GState n I J X} (h : GuardInv max guard g) (j : J) {t : Fin n} {c : RCall} {s' : Rw} {r : RRes}
    (ho : OrderlyCall max (openSections (g.calls j)) t c) (hs : rwStep max (g.lock j) t c = some (.ok (s', r))) :
    GuardInv max guard { g with lock := Function.update g.lock j s', calls := Function.update g.calls j ((t.val, c, r) :: g.calls j), tr := g.tr ++ rwEvent j t (g.lock j) s' } := by
  have hrw : ∀ j', RwInv (Function.update g.lock j s' j') (openSections (Function.update g.calls j ((t.val, c, r) :: g.calls j) j')) := by
    intro j'
    by_cases e : j' = j
    · subst e; rw [Function.update_self, Function.update_self]; exact rw_step (h.rw j') ho rfl hs
    · rw [Function.update_of_ne e, Function.update_of_ne e]; exact h.rw j'
  have one : rwEvent j t (g.lock j) s' = ([] : List (GEv n I J X)) ∨ ∃ e : GEv n I J X, (∀ t x w, e ≠ .use t x w) ∧ rwEvent j t (g.lock j) s' = [e] := by
    unfold rwEvent
    split
    · refine .inr ⟨_, ?_, rfl⟩; intro _ _ _ h; cases h
    split
    · refine .inr ⟨_, ?_, rfl⟩; intro _ _ _ h; cases h
    split
    · refine .inr ⟨_, ?_, rfl⟩; intro _ _ _ h; cases h
    split
    · refine .inr ⟨_, ?_, rfl⟩; intro _ _ _ h; cases h
    exact .inl rfl
  have old : ∀ {k : Nat} {t' x w}, (g.tr ++ rwEvent j t (g.lock j) s')[k]? = some (GEv.use t' x w) → g.tr[k]? = some (.use t' x w) := by
    intro k t' x w hk
    rcases one with e | ⟨e, he, e'⟩
    · rw [e, List.append_nil] at hk; exact hk
    · rw [e'] at hk; exact (get_snoc hk).elim id fun h => absurd h.2 (he _ _ _)
  have hc := rw_change (h.rw j) ho hs
  refine ⟨h.mtx, hrw, fun k t x w i hk hg u hu => (h.held k t x w i (old hk) hg u hu).app _, fun k t x w i hk hg hu => (h.free k t x w i (old hk) hg hu).app _, ?_, ?_, ?_, ?_, ?_⟩
  · intro k t' x w j' hk hg u hu
    have hk' := old hk
    dsimp only at hu ⊢
    by_cases e : j' = j
    · subst e
      rw [Function.update_self] at hu
      rcases hc with rfl | ⟨h1, h2, rfl⟩ | ⟨h1, h2, rfl⟩ | ⟨h1, rfl⟩ | ⟨h1, h2, rfl⟩
      · exact (h.writer k t' x w j' hk' hg u hu).app _
      · have : t = u := Fin.ext (Option.some.inj hu)
        subst this
        have ev : rwEvent j' t (g.lock j') ⟨some t.val, []⟩ = ([.rwAcq t j' true] : List (GEv n I J X)) := by simp [rwEvent, h1]
        rw [ev]
        rcases h.read k t' x w j' hk' hg h1 with h3 | ⟨m, e, h3, ⟨v, b, rfl⟩, h4⟩
        · rw [h2] at h3; cases h3
        · exact ⟨_, _, get_last _, rfl, .inr ((h4.app _).trans (.rw (get_lt h3) (get_app _ h3) (get_last _) (.inr rfl)))⟩
      · cases hu
      · cases hu
      · cases hu
    · rw [Function.update_of_ne e] at hu
      exact (h.writer k t' x w j' hk' hg u hu).app _
  · intro k t' x j' hk hg u hu
    have hk' := old hk
    dsimp only at hu ⊢
    by_cases e : j' = j
    · subst e
      rw [Function.update_self] at hu
      rcases hc with rfl | ⟨h1, h2, rfl⟩ | ⟨h1, h2, rfl⟩ | ⟨h1, rfl⟩ | ⟨h1, h2, rfl⟩
      · exact (h.reader k t' x j' hk' hg u hu).app _
      · cases hu
      · cases hu
      · rcases List.mem_cons.mp hu with e | hu
        · have : u = t := Fin.ext e
          subst this
          have ev : rwEvent j' u (g.lock j') ⟨none, u.val :: (g.lock j').readers⟩ = ([.rwAcq u j' false] : List (GEv n I J X)) := by simp [rwEvent, h1]
          rw [ev]
          obtain ⟨m, e, h3, ⟨v, rfl⟩, h4⟩ := h.wrote k t' x j' hk' hg h1
          exact ⟨_, _, get_last _, rfl, .inr ((h4.app _).trans (.rw (get_lt h3) (get_app _ h3) (get_last _) (.inl rfl)))⟩
        · exact (h.reader k t' x j' hk' hg u hu).app _
      · exact (h.reader k t' x j' hk' hg u (List.mem_of_mem_erase hu)).app _
    · rw [Function.update_of_ne e] at hu
      exact (h.reader k t' x j' hk' hg u hu).app _
  · intro k t' x j' hk hg hu
    have hk' := old hk
    dsimp only at hu ⊢
    by_cases e : j' = j
    · subst e
      rw [Function.update_self] at hu
      rcases hc with rfl | ⟨h1, h2, rfl⟩ | ⟨h1, h2, rfl⟩ | ⟨h1, rfl⟩ | ⟨h1, h2, rfl⟩
      · exact (h.wrote k t' x j' hk' hg hu).app _
      · cases hu
      · have ev : rwEvent j' t (g.lock j') ⟨none, []⟩ = ([.rwRel t j' true] : List (GEv n I J X)) := by simp [rwEvent, h1]
        rw [ev]
        exact then_of_past rfl ⟨t, rfl⟩ (h.writer k t' x true j' hk' hg t h1)
      · exact (h.wrote k t' x j' hk' hg h1).app _
      · exact (h.wrote k t' x j' hk' hg h1).app _
    · rw [Function.update_of_ne e] at hu
      exact (h.wrote k t' x j' hk' hg hu).app _
  · intro k t' x w j' hk hg hu
    have hk' := old hk
    dsimp only at hu ⊢
    by_cases e : j' = j
    · subst e
      rw [Function.update_self] at hu ⊢
      rcases hc with rfl | ⟨h1, h2, rfl⟩ | ⟨h1, h2, rfl⟩ | ⟨h1, rfl⟩ | ⟨h1, h2, rfl⟩
      · exact (h.read k t' x w j' hk' hg hu).imp_right (.app _)
      · cases hu
      · have ev : rwEvent j' t (g.lock j') ⟨none, []⟩ = ([.rwRel t j' true] : List (GEv n I J X)) := by simp [rwEvent, h1]
        rw [ev]
        exact .inr (then_of_past rfl ⟨t, true, rfl⟩ (h.writer k t' x w j' hk' hg t h1))
      · exact (h.read k t' x w j' hk' hg h1).imp (List.mem_cons_of_mem _) (.app _)
      · have ev : rwEvent j' t (g.lock j') ⟨none, (g.lock j').readers.erase t⟩ = ([.rwRel t j' false] : List (GEv n I J X)) := by
          have : 0 < (g.lock j').readers.length := List.length_pos_of_mem h2
          have l := List.length_erase_of_mem h2
          simp only [rwEvent, h1]
          rw [if_neg (by simp), if_neg (by simp), if_neg (by omega), if_pos (by omega)]
        rcases h.read k t' x w j' hk' hg h1 with h3 | h3
        · by_cases e : t' = t
          · subst e
            rw [ev]
            exact .inr (then_of_past rfl ⟨t', false, rfl⟩ ⟨k, _, hk', rfl, .inl rfl⟩)
          · exact .inl ((List.mem_erase_of_ne (fun e' => e (Fin.ext e'))).mpr h3)
        · exact .inr (h3.app _)
    · rw [Function.update_of_ne e] at hu ⊢
      exact (h.read k t' x w j' hk' hg hu).imp_right (.app _)
  · show RaceFree (g.tr ++ rwEvent j t (g.lock j) s')
    rcases one with e | ⟨e, he, e'⟩
    · rw [e, List.append_nil]; exact h.race
    · rw [e']; exact race_app h.race e he

/-- What an RWLock tells about sections. -/
theorem rw_sections {s : Rw} {o : List (Nat × Bool)} (hi : RwInv s o) (t : Nat) : ((t, true) ∈ o → s.writer = some t ∧ s.readers = []) ∧ ((t, false) ∈ o → s.writer = none ∧ t ∈ s.readers) := by
  rcases hi with ⟨u, rfl, h1, h2⟩ | ⟨h1, h2, h3⟩
  · refine ⟨fun h => ?_, fun h => ?_⟩
    · simp at h; subst h; exact ⟨h1, h2⟩
    · simp at h
  · refine ⟨fun h => ?_, fun h => ⟨h2, h3 ▸ List.mem_map.mpr ⟨_, h, rfl⟩⟩⟩
    simpa using h1 _ h

theorem ginv_use {max : Nat} {guard : X → Guard I J} {g : GState n I J X} (h : GuardInv max guard g) {t : Fin n} {x : X} {w : Bool} (he : Entitled g t w (guard x)) :
    GuardInv max guard { g with tr := g.tr ++ [.use t x w] } := by
  have cs : ∀ {k : Nat} {t' x' w'}, (g.tr ++ [GEv.use t x w])[k]? = some (GEv.use t' x' w') → g.tr[k]? = some (.use t' x' w') ∨ k = g.tr.length ∧ t' = t ∧ x' = x ∧ w' = w := by
    intro k t' x' w' hk
    rcases get_snoc hk with hk | ⟨rfl, e⟩
    · exact .inl hk
    · cases e; exact .inr ⟨rfl, rfl, rfl, rfl⟩
  have self : Past (g.tr ++ [GEv.use t x w]) g.tr.length t := past_last _ _
  refine ⟨h.mtx, h.rw, ?_, ?_, ?_, ?_, ?_, ?_, ?_⟩
  · intro k t' x' w' i hk hg u hu
    rcases cs hk with hk | ⟨rfl, rfl, rfl, rfl⟩
    · exact (h.held k t' x' w' i hk hg u hu).app _
    · rw [hg] at he
      have := (entitled_owner (h.mtx i) he).symm.trans hu
      cases this
      exact self
  · intro k t' x' w' i hk hg hu
    rcases cs hk with hk | ⟨rfl, rfl, rfl, rfl⟩
    · exact (h.free k t' x' w' i hk hg hu).app _
    · rw [hg] at he
      have := (entitled_owner (h.mtx i) he).symm.trans hu
      cases this
  · intro k t' x' w' j hk hg u hu
    rcases cs hk with hk | ⟨rfl, rfl, rfl, rfl⟩
    · exact (h.writer k t' x' w' j hk hg u hu).app _
    · rw [hg] at he
      rcases he with he | ⟨-, he⟩
      · have := ((rw_sections (h.rw j) _).1 he).1.symm.trans hu
        have : t' = u := Fin.ext (Option.some.inj this)
        subst this
        exact self
      · have := ((rw_sections (h.rw j) _).2 he).1.symm.trans hu
        cases this
  · intro k t' x' j hk hg u hu
    rcases cs hk with hk | ⟨rfl, rfl, rfl, rfl⟩
    · exact (h.reader k t' x' j hk hg u hu).app _
    · rw [hg] at he
      rcases he with he | ⟨e, -⟩
      · have hu : u.val ∈ (g.lock j).readers := hu
        rw [((rw_sections (h.rw j) _).1 he).2] at hu
        cases hu
      · cases e
  · intro k t' x' j hk hg hu
    rcases cs hk with hk | ⟨rfl, rfl, rfl, rfl⟩
    · exact (h.wrote k t' x' j hk hg hu).app _
    · rw [hg] at he
      rcases he with he | ⟨e, -⟩
      · have := ((rw_sections (h.rw j) _).1 he).1.symm.trans hu
        cases this
      · cases e
  · intro k t' x' w' j hk hg hu
    rcases cs hk with hk | ⟨rfl, rfl, rfl, rfl⟩
    · exact (h.read k t' x' w' j hk hg hu).imp_right (.app _)
    · rw [hg] at he
      rcases he with he | ⟨-, he⟩
      · have := ((rw_sections (h.rw j) _).1 he).1.symm.trans hu
        cases this
      · exact .inl ((rw_sections (h.rw j) _).2 he).2
  · intro j k t1 t2 x' w1 w2 hjk h1 h2 hw
    rcases cs h2 with h2 | ⟨rfl, rfl, rfl, rfl⟩
    · rcases cs h1 with h1 | ⟨rfl, -⟩
      · exact (h.race j k t1 t2 x' w1 w2 hjk h1 h2 hw).app _
      · have := get_lt h2; omega
    · have h3 : g.tr[j]? = some (.use t1 x' w1) := (cs h1).elim id fun h => absurd h.1 (by omega)
      suffices Past g.tr j t2 from this.next rfl
      cases hg : guard x' with
      | mutex i =>
        rw [hg] at he
        exact h.held j t1 x' w1 i h3 hg t2 (entitled_owner (h.mtx i) he)
      | rw i =>
        rw [hg] at he
        rcases he with he | ⟨rfl, he⟩
        · exact h.writer j t1 x' w1 i h3 hg t2 ((rw_sections (h.rw i) _).1 he).1
        · rcases hw with e | hw
          · exact h.reader j t1 x' i (e ▸ h3) hg t2 ((rw_sections (h.rw i) _).2 he).2
          · cases hw

theorem ginv_step [DecidableEq I] [DecidableEq J] {max : Nat} {guard : X → Guard I J} {g g' : GState n I J X} (h : GuardInv max guard g) (hs : GStep max guard Valid g g') : GuardInv max guard g' := by
  cases hs with
  | mtx i l s' hl hs => exact ginv_mtx h i hl hs
  | rw j t c s' r ho hs => exact ginv_rw h j ho hs
  | use t x w he => exact ginv_use h he

/-- C174: any number of threads, mutexes, RWLocks and variables; every variable is used only by threads that have been told that they got its mutex, or are in a section of its RWLock (a writing one
if they write).  Then there are no data races: of two uses of one variable by whatever threads, at least one of them writing, the earlier happens before the later.
The calls: any interleaving of `lock` with and without the place, `trylock`, `timedlock` unless its deadline is a full second (`C30_timedlock_refuted`), `unlock`, nested as deep as one likes; orderly calls
of RWLocks (see `C101_nested_refuted`). -/
theorem C174_no_race [DecidableEq I] [DecidableEq J] {max : Nat} {guard : X → Guard I J} {g : GState n I J X} (h : GReach max guard Valid g) : RaceFree g.tr := by
  have : GuardInv max guard g := by
    induction h with
    | init => exact ginv_init max guard
    | step _ hs ih => exact ginv_step ih hs
  exact this.race

/-! ### Examples, and what happens without a lock -/

/-- If no lock has been given up, only uses by one thread are ordered. -/
theorem unordered {tr : List (GEv n I J X)} (h : ∀ e ∈ tr, (∀ t i, e ≠ .rel t i) ∧ ∀ t j w, e ≠ .rwRel t j w) {j k : Nat} (hb : GHB tr j k) :
    ∃ e e', tr[j]? = some e ∧ tr[k]? = some e' ∧ e.thread = e'.thread := by
  induction hb with
  | order _ h2 h3 h4 => exact ⟨_, _, h2, h3, h4⟩
  | mutex _ h2 _ => exact absurd rfl ((h _ (List.mem_of_getElem? h2)).1 _ _)
  | rw _ h2 _ _ => exact absurd rfl ((h _ (List.mem_of_getElem? h2)).2 _ _ _)
  | trans _ _ h1 h2 =>
    obtain ⟨e, e', a, b, c⟩ := h1
    obtain ⟨f, f', a', b', c'⟩ := h2
    rw [b] at a'
    cases a'
    exact ⟨e, f', a, b', c.trans c'⟩

/-- What a step of mutex 0 leads to, for the examples. -/
def after (g : GState 2 Unit Unit Bool) (l : ML 2) : GState 2 Unit Unit Bool :=
  match mstep (g.mtx ()) l with
  | some s' => { g with mtx := Function.update g.mtx () s', tr := g.tr ++ mtxEvent () (g.mtx ()).owner s'.owner }
  | none => g

theorem after_reach {max : Nat} {guard : Bool → Guard Unit Unit} {okM : ML 2 → Prop} {g : GState 2 Unit Unit Bool} (h : GReach max guard okM g) {l : ML 2} (hl : okM l)
    (hs : (mstep (g.mtx ()) l).isSome = true) : GReach max guard okM (after g l) := by
  obtain ⟨s', e⟩ := Option.isSome_iff_exists.mp hs
  unfold after
  rw [e]
  exact h.step (.mtx g () l s' hl e)

def possible (g : GState 2 Unit Unit Bool) : List (ML 2) → Bool
  | [] => true
  | l :: ls => (mstep (g.mtx ()) l).isSome && possible (after g l) ls

theorem afters_reach {max : Nat} {guard : Bool → Guard Unit Unit} {okM : ML 2 → Prop} : ∀ (ls : List (ML 2)) {g : GState 2 Unit Unit Bool}, GReach max guard okM g → (∀ l ∈ ls, okM l) →
    possible g ls = true → GReach max guard okM (ls.foldl after g)
  | [], _, h, _, _ => h
  | l :: ls, _, h, hl, hp => by
    obtain ⟨h1, h2⟩ := Bool.and_eq_true_iff.mp hp
    exact afters_reach ls (after_reach h (hl l (by simp)) h1) (fun l' h' => hl l' (List.mem_cons_of_mem _ h')) h2

/-- A use, for the examples. -/
def used (g : GState 2 Unit Unit Bool) (t : Fin 2) (x w : Bool) : GState 2 Unit Unit Bool := { g with tr := g.tr ++ [.use t x w] }

/-- A call on RWLock 0, for the examples. -/
def called (max : Nat) (g : GState 2 Unit Unit Bool) (t : Fin 2) (c : RCall) : GState 2 Unit Unit Bool :=
  match rwStep max (g.lock ()) t c with
  | some (.ok (s', r)) => { g with lock := Function.update g.lock () s', calls := Function.update g.calls () ((t.val, c, r) :: g.calls ()), tr := g.tr ++ rwEvent () t (g.lock ()) s' }
  | _ => g

theorem called_reach {max : Nat} {guard : Bool → Guard Unit Unit} {okM : ML 2 → Prop} {g : GState 2 Unit Unit Bool} (h : GReach max guard okM g) {t : Fin 2} {c : RCall}
    (ho : OrderlyCall max (openSections (g.calls ())) t c) {s' : Rw} {r : RRes} (hs : rwStep max (g.lock ()) t c = some (.ok (s', r))) : GReach max guard okM (called max g t c) := by
  unfold called
  rw [hs]
  exact h.step (.rw g () t c s' r ho hs)

/-- Variable `true` is guarded by the mutex, `false` by the RWLock. -/
def someGuard : Bool → Guard Unit Unit := fun x => if x then .mutex () else .rw ()

/-- The mutex: thread 0 locks it twice, writes, unlocks both; thread 1 locks it, reporting the place, and writes. -/
def run1 : GState 2 Unit Unit Bool :=
  let g := [ML.lock 0, .go 0, .go 0, .lock 0, .go 0, .go 0].foldl after ginit
  let g := used g 0 true true
  let g := [ML.unlock 0, .go 0, .unlock 0, .go 0, .lockFile 1 ⟨1, 500000⟩, .go 1, .go 1].foldl after g
  used g 1 true true

example : GReach 10 someGuard Valid run1 ∧ run1.tr = [.acq 0 (), .use 0 true true, .rel 0 (), .acq 1 (), .use 1 true true] := by
  constructor
  · unfold run1
    have h1 : GReach 10 someGuard Valid ([ML.lock 0, .go 0, .go 0, .lock 0, .go 0, .go 0].foldl after ginit) :=
      afters_reach _ .init (by simp [Valid]) (by decide)
    have h2 := GReach.step h1 (.use _ 0 true true (show 0 < MSt.held _ _ by decide))
    have h3 : GReach 10 someGuard Valid ([ML.unlock 0, .go 0, .unlock 0, .go 0, .lockFile 1 ⟨1, 500000⟩, .go 1, .go 1].foldl after
        (used ([ML.lock 0, .go 0, .go 0, .lock 0, .go 0, .go 0].foldl after ginit) 0 true true)) :=
      afters_reach _ h2 (by simp [Valid, Timeval.Normal]) (by decide)
    exact h3.step (.use _ 1 true true (show 0 < MSt.held _ _ by decide))
  · decide

/-- The RWLock: thread 0 writes, both read side by side, thread 1 writes. -/
def run2 : GState 2 Unit Unit Bool :=
  let g := used (called 10 ginit 0 .wlock) 0 false true
  let g := called 10 (called 10 (called 10 g 0 .unlock) 1 .rlock) 0 .tryrlock
  let g := used (used g 0 false false) 1 false false
  used (called 10 (called 10 (called 10 g 1 .unlock) 0 .unlock) 1 .trywlock) 1 false true

theorem run2_reach : GReach 10 someGuard Valid run2 ∧ run2.tr = [.rwAcq 0 () true, .use 0 false true, .rwRel 0 () true, .rwAcq 1 () false, .rwAcq 0 () false, .use 0 false false, .use 1 false false,
    .rwRel 1 () false, .rwRel 0 () false, .rwAcq 1 () true, .use 1 false true] := by
  constructor
  · unfold run2
    refine GReach.step ?_ (.use _ 1 false true (.inl (by decide)))
    refine called_reach (c := .trywlock) ?_ ⟨by decide, by decide, by decide⟩ rfl
    refine called_reach (c := .unlock) ?_ ⟨by decide, by decide, fun _ => ⟨false, by decide⟩⟩ rfl
    refine called_reach (c := .unlock) ?_ ⟨by decide, by decide, fun _ => ⟨false, by decide⟩⟩ rfl
    refine GReach.step ?_ (.use _ 1 false false (.inr ⟨rfl, by decide⟩))
    refine GReach.step ?_ (.use _ 0 false false (.inr ⟨rfl, by decide⟩))
    refine called_reach (c := .tryrlock) ?_ ⟨by decide, by decide, by decide⟩ rfl
    refine called_reach (c := .rlock) ?_ ⟨by decide, by decide, by decide⟩ rfl
    refine called_reach (c := .unlock) ?_ ⟨by decide, by decide, fun _ => ⟨true, by decide⟩⟩ rfl
    refine GReach.step ?_ (.use _ 0 false true (.inl (by decide)))
    exact called_reach (c := .wlock) .init ⟨by decide, by decide, by decide⟩ rfl
  · decide

/-- C174 (the exception): with a direct `timedlock` whose deadline is a full second, there is a data race: two threads have been told that they got the mutex, both write, nothing orders the writes. -/
theorem C174_timedlock_race : ∃ g : GState 2 Unit Unit Bool, GReach 10 someGuard (fun _ => True) g ∧ ¬ RaceFree g.tr := by
  let g1 := [ML.lock 0, .go 0, .go 0].foldl after ginit
  let g2 := [ML.timedlock 1 500 ⟨1, 500000⟩, .go 1].foldl after (used g1 0 true true)
  have h1 : GReach 10 someGuard (fun _ => True) g1 := afters_reach _ .init (fun _ _ => trivial) (by decide)
  have h2 : GReach 10 someGuard (fun _ => True) g2 :=
    afters_reach _ (h1.step (.use _ 0 true true (show 0 < MSt.held _ _ by decide))) (fun _ _ => trivial) (by decide)
  refine ⟨used g2 1 true true, h2.step (.use _ 1 true true (show 0 < MSt.held _ _ by decide)), fun hr => ?_⟩
  have e : (used g2 1 true true).tr = [.acq 0 (), .use 0 true true, .use 1 true true] := by decide
  rw [e] at hr
  obtain ⟨a, b, ha, hb, hc⟩ := unordered (by simp) (hr 1 2 0 1 true true true (by omega) rfl rfl (.inl rfl))
  cases ha
  cases hb
  cases hc

end Verif.Threads
