import Verif.Sockets.Model

/-
Property C117: several threads looking up host names at once.

`resolveAddress(address,host,port)` (`Sockets.cpp:72-114`) in both forms: with `gethostbyname2_r`, which fills a structure of the caller, and with `gethostbyname`, which returns
a pointer to one structure of the library.  The answers fit into the buffer of 2048 bytes (`Sockets.cpp:81`).  The call of `gethostbyname` is inside `sGethostbynameMutex`, the use of what it returned is not.
-/

namespace Verif.Sockets.Resolve

open Verif

/-- Where a thread is in `resolveAddress`; `got` is whether `hp` is not NULL, `own` its own structure (only with `gethostbyname2_r`). -/
inductive Pc
  /-- Outside. -/
  | idle
  /-- `Sockets.cpp:96`: the lock is next; with `gethostbyname2_r` line 85. -/
  | enter (host : Str) (port : Nat)
  /-- `Sockets.cpp:97`: `gethostbyname` is next. -/
  | call (host : Str) (port : Nat)
  /-- `Sockets.cpp:99`: the unlock is next. -/
  | unlock (host : Str) (port : Nat) (got : Bool)
  /-- `Sockets.cpp:101-108`: the two tests are next. -/
  | test (host : Str) (port : Nat) (got : Bool) (own : Option Host)
  /-- `Sockets.cpp:109-113`: copying the address is next. -/
  | copy (host : Str) (port : Nat) (own : Option Host)
deriving DecidableEq

/-- The threads, the structure of the library, and who has `sGethostbynameMutex` (`Sockets.cpp:91-99`). -/
structure St where
  lib : Host
  owner : Option Nat
  pc : Nat → Pc

/-- A return: who, what was asked, and the address, or `none` for failure. -/
structure Ret where
  thread : Nat
  host : Str
  port : Nat
  result : Option Addr
deriving DecidableEq

/-- What happens. -/
inductive Ev
  | call (t : Nat) (host : Str) (port : Nat)
  | step (t : Nat)
deriving DecidableEq

/-- A thread elsewhere. -/
def St.at (s : St) (t : Nat) (p : Pc) : St := { s with pc := fun u => if u = t then p else s.pc u }

/-- One step of a thread (`Sockets.cpp:72-114`); `reentrant` is `HAVE_GETHOSTBYNAME2_R`.  The library leaves its structure alone when there is no such host.  `none`: it waits. -/
def next (reentrant : Bool) (resolver : Str → Option Host) (s : St) (t : Nat) : Option (St × List Ret) :=
  match s.pc t with
  | .idle => none
  | .enter host port =>
    if reentrant then some (s.at t (.test host port (resolver host).isSome (resolver host)), [])
    else if s.owner = none then some ({ s with owner := some t }.at t (.call host port), []) else none
  | .call host port => some ({ s with lib := (resolver host).getD s.lib }.at t (.unlock host port (resolver host).isSome), [])
  | .unlock host port got => some ({ s with owner := none }.at t (.test host port got none), [])
  | .test host port got own =>
    if got && (own.getD s.lib).family = AF_INET then some (s.at t (.copy host port own), []) else some (s.at t .idle, [⟨t, host, port, none⟩])
  | .copy host port own => some (s.at t .idle, [⟨t, host, port, some { family := (own.getD s.lib).family, ip := (own.getD s.lib).addr, port := port }⟩])

/-- One event. -/
def happen (reentrant : Bool) (resolver : Str → Option Host) (s : St) : Ev → Option (St × List Ret)
  | .call t host port => if s.pc t = .idle then some (s.at t (.enter host port), []) else none
  | .step t => next reentrant resolver s t

/-- An execution and its returns. -/
def exec (reentrant : Bool) (resolver : Str → Option Host) (s : St) : List Ev → Option (St × List Ret)
  | [] => some (s, [])
  | e :: es => (happen reentrant resolver s e).bind fun p => (exec reentrant resolver p.1 es).map fun q => (q.1, p.2 ++ q.2)

/-- The start. -/
def start (lib : Host) : St := ⟨lib, none, fun _ => .idle⟩

/-! ### Specification -/

/-- The address of a host: that of the first IPv4 entry, with the port asked for; nothing if the name is unknown or belongs to something else. -/
def right (resolver : Str → Option Host) (host : Str) (port : Nat) : Option Addr :=
  (resolver host).bind fun h => if h.family = AF_INET then some { family := AF_INET, ip := h.addr, port := port } else none

/-- The calls of an execution do not overlap: when one is made, all threads are outside. -/
def Apart (reentrant : Bool) (resolver : Str → Option Host) (s : St) : List Ev → Prop
  | [] => True
  | e :: es => (∀ t host port, e = .call t host port → ∀ u, s.pc u = .idle) ∧ ∀ s' rs, happen reentrant resolver s e = some (s', rs) → Apart reentrant resolver s' es

/-! ### Lemmas -/

/-- A thread with its own structure has the right one. -/
def Own (resolver : Str → Option Host) : Pc → Prop
  | .idle => True
  | .enter _ _ => True
  | .test host _ got own => own = resolver host ∧ got = (resolver host).isSome
  | .copy host _ own => own = resolver host ∧ ∃ h, resolver host = some h ∧ h.family = AF_INET
  | _ => False

theorem at_same (s : St) (t : Nat) (p : Pc) : (s.at t p).pc t = p := if_pos rfl

theorem at_other (s : St) (t u : Nat) (p : Pc) (h : u ≠ t) : (s.at t p).pc u = s.pc u := if_neg h

theorem at_all {P : Pc → Prop} {s : St} {t : Nat} {p : Pc} (h : ∀ u, P (s.pc u)) (hp : P p) (u : Nat) : P ((s.at t p).pc u) := by
  by_cases e : u = t
  · subst e; rw [at_same]; exact hp
  · rw [at_other _ _ _ _ e]; exact h u

theorem own_next {resolver : Str → Option Host} {s s' : St} {t : Nat} {rs : List Ret} (h : ∀ u, Own resolver (s.pc u)) (hn : next true resolver s t = some (s', rs)) :
    (∀ u, Own resolver (s'.pc u)) ∧ ∀ r ∈ rs, r.result = right resolver r.host r.port := by
  have ht := h t
  unfold next at hn
  generalize s.pc t = p at hn ht
  cases p with
  | idle => cases hn
  | enter host port =>
    simp only [if_true, Option.some.injEq, Prod.mk.injEq] at hn
    obtain ⟨rfl, rfl⟩ := hn
    exact ⟨at_all h ⟨rfl, rfl⟩, by simp⟩
  | call host port => exact ht.elim
  | unlock host port got => exact ht.elim
  | test host port got own =>
    obtain ⟨rfl, rfl⟩ := ht
    simp only at hn
    cases hr : resolver host with
    | none =>
      rw [hr] at hn
      simp only [Option.isSome_none, Bool.false_and] at hn
      simp only [Bool.false_eq_true, if_false, Option.some.injEq, Prod.mk.injEq] at hn
      obtain ⟨rfl, rfl⟩ := hn
      refine ⟨at_all h trivial, ?_⟩
      intro r hm
      rw [List.mem_singleton.1 hm]
      simp [right, hr]
    | some x =>
      rw [hr] at hn
      simp only [Option.isSome_some, Bool.true_and, Option.getD_some] at hn
      by_cases hf : x.family = AF_INET
      · simp only [hf, decide_true, if_true, Option.some.injEq, Prod.mk.injEq] at hn
        obtain ⟨rfl, rfl⟩ := hn
        exact ⟨at_all h ⟨hr.symm, x, hr, hf⟩, by simp⟩
      · simp only [hf, decide_false, Bool.false_eq_true, if_false, Option.some.injEq, Prod.mk.injEq] at hn
        obtain ⟨rfl, rfl⟩ := hn
        refine ⟨at_all h trivial, ?_⟩
        intro r hm
        rw [List.mem_singleton.1 hm]
        simp [right, hr, hf]
  | copy host port own =>
    obtain ⟨rfl, x, hr, hf⟩ := ht
    simp only [Option.some.injEq, Prod.mk.injEq] at hn
    obtain ⟨rfl, rfl⟩ := hn
    refine ⟨at_all h trivial, ?_⟩
    intro r hm
    rw [List.mem_singleton.1 hm]
    simp [right, hr, hf]

/-- A thread alone with the structure of the library. -/
def Alone (resolver : Str → Option Host) (s : St) (t : Nat) : Prop :=
  match s.pc t with
  | .idle => s.owner = none
  | .enter _ _ => s.owner = none
  | .call _ _ => s.owner = some t
  | .unlock host _ got => s.owner = some t ∧ got = (resolver host).isSome ∧ ∀ h, resolver host = some h → s.lib = h
  | .test host _ got own => s.owner = none ∧ own = none ∧ got = (resolver host).isSome ∧ ∀ h, resolver host = some h → s.lib = h
  | .copy host _ own => s.owner = none ∧ own = none ∧ resolver host = some s.lib ∧ s.lib.family = AF_INET

theorem alone_next {resolver : Str → Option Host} {s s' : St} {t : Nat} {rs : List Ret} (h : Alone resolver s t) (hn : next false resolver s t = some (s', rs)) :
    Alone resolver s' t ∧ (∀ u, u ≠ t → s'.pc u = s.pc u) ∧ ∀ r ∈ rs, r.result = right resolver r.host r.port := by
  unfold next at hn
  unfold Alone at h
  generalize hpc : s.pc t = p at hn h
  cases p with
  | idle => cases hn
  | enter host port =>
    have h : s.owner = none := h
    simp only [Bool.false_eq_true, if_false, h, if_true, Option.some.injEq, Prod.mk.injEq] at hn
    obtain ⟨rfl, rfl⟩ := hn
    refine ⟨?_, fun u hu => at_other _ _ _ _ hu, by simp⟩
    unfold Alone
    rw [at_same]
    rfl
  | call host port =>
    have h : s.owner = some t := h
    simp only [Option.some.injEq, Prod.mk.injEq] at hn
    obtain ⟨rfl, rfl⟩ := hn
    refine ⟨?_, fun u hu => at_other _ _ _ _ hu, by simp⟩
    unfold Alone
    rw [at_same]
    refine ⟨h, rfl, ?_⟩
    intro x hx
    show (resolver host).getD s.lib = x
    rw [hx]; rfl
  | unlock host port got =>
    obtain ⟨h1, h2, h3⟩ := h
    simp only [Option.some.injEq, Prod.mk.injEq] at hn
    obtain ⟨rfl, rfl⟩ := hn
    refine ⟨?_, fun u hu => at_other _ _ _ _ hu, by simp⟩
    unfold Alone
    rw [at_same]
    exact ⟨rfl, rfl, h2, h3⟩
  | test host port got own =>
    obtain ⟨h1, rfl, rfl, h3⟩ := h
    simp only [Option.getD_none] at hn
    cases hr : resolver host with
    | none =>
      simp only [hr, Option.isSome_none, Bool.false_and, Bool.false_eq_true, if_false, Option.some.injEq, Prod.mk.injEq] at hn
      obtain ⟨rfl, rfl⟩ := hn
      refine ⟨?_, fun u hu => at_other _ _ _ _ hu, ?_⟩
      · unfold Alone; rw [at_same]; exact h1
      · intro r hm
        rw [List.mem_singleton.1 hm]
        simp [right, hr]
    | some x =>
      have hl := h3 x hr
      by_cases hf : s.lib.family = AF_INET
      · simp only [hr, Option.isSome_some, Bool.true_and, hf, decide_true, if_true, Option.some.injEq, Prod.mk.injEq] at hn
        obtain ⟨rfl, rfl⟩ := hn
        refine ⟨?_, fun u hu => at_other _ _ _ _ hu, by simp⟩
        unfold Alone
        rw [at_same]
        refine ⟨h1, rfl, ?_, hf⟩
        rw [hr, ← hl]; rfl
      · simp only [hr, Option.isSome_some, Bool.true_and, hf, decide_false, Bool.false_eq_true, if_false, Option.some.injEq, Prod.mk.injEq] at hn
        obtain ⟨rfl, rfl⟩ := hn
        refine ⟨?_, fun u hu => at_other _ _ _ _ hu, ?_⟩
        · unfold Alone; rw [at_same]; exact h1
        · intro r hm
          rw [List.mem_singleton.1 hm]
          rw [hl] at hf
          simp [right, hr, hf]
  | copy host port own =>
    obtain ⟨h1, rfl, h2, h3⟩ := h
    simp only [Option.getD_none, Option.some.injEq, Prod.mk.injEq] at hn
    obtain ⟨rfl, rfl⟩ := hn
    refine ⟨?_, fun u hu => at_other _ _ _ _ hu, ?_⟩
    · unfold Alone; rw [at_same]; exact h1
    · intro r hm
      rw [List.mem_singleton.1 hm]
      simp [right, h2, h3]

/-- Exactly the owner of the mutex is between lock and unlock. -/
def Inside : Pc → Prop
  | .call _ _ => True
  | .unlock _ _ _ => True
  | _ => False

theorem inside_next {reentrant : Bool} {resolver : Str → Option Host} {s s' : St} {t : Nat} {rs : List Ret} (h : ∀ u, Inside (s.pc u) ↔ s.owner = some u)
    (hn : next reentrant resolver s t = some (s', rs)) : ∀ u, Inside (s'.pc u) ↔ s'.owner = some u := by
  have ht := h t
  have keep : ∀ (lib : Host) (p : Pc), (Inside p ↔ Inside (s.pc t)) → ∀ u, Inside (({ s with lib := lib }.at t p).pc u) ↔ s.owner = some u := by
    intro lib p hp u
    by_cases e : u = t
    · subst e; rw [at_same, hp]; exact ht
    · rw [at_other _ _ _ _ e]; exact h u
  unfold next at hn
  generalize hpc : s.pc t = p at hn ht keep
  cases p with
  | idle => cases hn
  | enter host port =>
    simp only at hn
    split at hn
    · simp only [Option.some.injEq, Prod.mk.injEq] at hn
      obtain ⟨rfl, rfl⟩ := hn
      exact keep s.lib _ Iff.rfl
    · split at hn
      · next ho =>
        simp only [Option.some.injEq, Prod.mk.injEq] at hn
        obtain ⟨rfl, rfl⟩ := hn
        intro u
        show Inside (({ s with owner := some t }.at t (.call host port)).pc u) ↔ some t = some u
        by_cases e : u = t
        · subst e; rw [at_same]; exact ⟨fun _ => rfl, fun _ => trivial⟩
        · rw [at_other _ _ _ _ e, show ({ s with owner := some t } : St).pc u = s.pc u from rfl, h u, ho]
          exact ⟨fun x => (by cases x), fun x => absurd (Option.some.inj x).symm e⟩
      · cases hn
  | call host port =>
    simp only [Option.some.injEq, Prod.mk.injEq] at hn
    obtain ⟨rfl, rfl⟩ := hn
    exact keep _ _ Iff.rfl
  | unlock host port got =>
    simp only [Option.some.injEq, Prod.mk.injEq] at hn
    obtain ⟨rfl, rfl⟩ := hn
    have ho := ht.1 trivial
    intro u
    show Inside (({ s with owner := none }.at t (.test host port got none)).pc u) ↔ none = some u
    by_cases e : u = t
    · subst e; rw [at_same]; exact ⟨fun x => x.elim, fun x => (by cases x)⟩
    · rw [at_other _ _ _ _ e, show ({ s with owner := none } : St).pc u = s.pc u from rfl, h u, ho]
      exact ⟨fun x => absurd (Option.some.inj x).symm e, fun x => (by cases x)⟩
  | test host port got own =>
    simp only at hn
    split at hn
    all_goals
      simp only [Option.some.injEq, Prod.mk.injEq] at hn
      obtain ⟨rfl, rfl⟩ := hn
      exact keep s.lib _ Iff.rfl
  | copy host port own =>
    simp only [Option.some.injEq, Prod.mk.injEq] at hn
    obtain ⟨rfl, rfl⟩ := hn
    exact keep s.lib _ Iff.rfl

/-! ### C117 -/

/-- C117, partial: with `gethostbyname2_r`, any number of threads at once, every call returns the address of the host it was asked for, or fails exactly if it has none.
Missing: the other form, see `C117_threads_refuted`. -/
theorem C117_reentrant_partial (resolver : Str → Option Host) (lib : Host) (es : List Ev) (s : St) (rs : List Ret) (h : exec true resolver (start lib) es = some (s, rs)) :
    ∀ r ∈ rs, r.result = right resolver r.host r.port := by
  have key : ∀ (es : List Ev) (s s' : St) (rs : List Ret), (∀ u, Own resolver (s.pc u)) → exec true resolver s es = some (s', rs) → ∀ r ∈ rs, r.result = right resolver r.host r.port := by
    intro es
    induction es with
    | nil =>
      intro s s' rs _ h
      simp only [exec, Option.some.injEq, Prod.mk.injEq] at h
      obtain ⟨-, rfl⟩ := h
      simp
    | cons e es ih =>
      intro s s' rs ho h
      simp only [exec, Option.bind_eq_some_iff, Option.map_eq_some_iff] at h
      obtain ⟨⟨s1, r1⟩, h1, ⟨s2, r2⟩, h2, h3⟩ := h
      simp only [Prod.mk.injEq] at h3
      obtain ⟨-, rfl⟩ := h3
      intro r hr
      cases e with
      | call t host port =>
        simp only [happen] at h1
        split at h1
        · simp only [Option.some.injEq, Prod.mk.injEq] at h1
          obtain ⟨rfl, rfl⟩ := h1
          exact ih _ _ _ (at_all (P := Own resolver) (p := .enter host port) ho trivial) h2 r (by simpa using hr)
        · cases h1
      | step t =>
        obtain ⟨a, b⟩ := own_next ho h1
        rcases List.mem_append.1 hr with hr | hr
        · exact b r hr
        · exact ih _ _ _ a h2 r hr
  exact key es (start lib) s rs (fun _ => trivial) h

/-- C117, partial: without `gethostbyname2_r` the same holds if the calls do not overlap. -/
theorem C117_apart_partial (resolver : Str → Option Host) (lib : Host) (es : List Ev) (s : St) (rs : List Ret) (ha : Apart false resolver (start lib) es)
    (h : exec false resolver (start lib) es = some (s, rs)) : ∀ r ∈ rs, r.result = right resolver r.host r.port := by
  have key : ∀ (es : List Ev) (s s' : St) (rs : List Ret) (t : Nat), Alone resolver s t → (∀ u, u ≠ t → s.pc u = .idle) → Apart false resolver s es →
      exec false resolver s es = some (s', rs) → ∀ r ∈ rs, r.result = right resolver r.host r.port := by
    intro es
    induction es with
    | nil =>
      intro s s' rs t _ _ _ h
      simp only [exec, Option.some.injEq, Prod.mk.injEq] at h
      obtain ⟨-, rfl⟩ := h
      simp
    | cons e es ih =>
      intro s s' rs t hal hid hap h
      simp only [exec, Option.bind_eq_some_iff, Option.map_eq_some_iff] at h
      obtain ⟨⟨s1, r1⟩, h1, ⟨s2, r2⟩, h2, h3⟩ := h
      simp only [Prod.mk.injEq] at h3
      obtain ⟨-, rfl⟩ := h3
      obtain ⟨hq, hrest⟩ := hap
      have hap1 : Apart false resolver s1 es := hrest s1 r1 h1
      intro r hr
      cases e with
      | call v host port =>
        have hall := hq v host port rfl
        have ho : s.owner = none := by
          have := hal
          unfold Alone at this
          rw [hall t] at this
          exact this
        simp only [happen] at h1
        split at h1
        · simp only [Option.some.injEq, Prod.mk.injEq] at h1
          obtain ⟨rfl, rfl⟩ := h1
          refine ih _ _ _ v ?_ (fun u hu => by rw [at_other _ _ _ _ hu]; exact hall u) hap1 h2 r (by simpa using hr)
          unfold Alone
          rw [at_same]
          exact ho
        · cases h1
      | step v =>
        by_cases e : v = t
        · subst e
          obtain ⟨a, b, c⟩ := alone_next hal h1
          rcases List.mem_append.1 hr with hr | hr
          · exact c r hr
          · exact ih _ _ _ v a (fun u hu => by rw [b u hu]; exact hid u hu) hap1 h2 r hr
        · have : next false resolver s v = some (s1, r1) := h1
          unfold next at this
          rw [hid v e] at this
          cases this
  exact key es (start lib) s rs 0 rfl (fun _ _ => rfl) ha h

/-- C117 (what the mutex does): two threads are never in `gethostbyname` at the same time. -/
theorem C117_one_at_a_time (reentrant : Bool) (resolver : Str → Option Host) (lib : Host) (es : List Ev) (s : St) (rs : List Ret) (h : exec reentrant resolver (start lib) es = some (s, rs))
    (t u : Nat) (a b : Str) (p q : Nat) (ht : s.pc t = .call a p) (hu : s.pc u = .call b q) : t = u := by
  have key : ∀ (es : List Ev) (s s' : St) (rs : List Ret), (∀ u, Inside (s.pc u) ↔ s.owner = some u) → exec reentrant resolver s es = some (s', rs) →
      ∀ u, Inside (s'.pc u) ↔ s'.owner = some u := by
    intro es
    induction es with
    | nil =>
      intro s s' rs hi h
      simp only [exec, Option.some.injEq, Prod.mk.injEq] at h
      obtain ⟨rfl, -⟩ := h
      exact hi
    | cons e es ih =>
      intro s s' rs hi h
      simp only [exec, Option.bind_eq_some_iff, Option.map_eq_some_iff] at h
      obtain ⟨⟨s1, r1⟩, h1, ⟨s2, r2⟩, h2, h3⟩ := h
      simp only [Prod.mk.injEq] at h3
      obtain ⟨rfl, -⟩ := h3
      refine ih _ _ _ ?_ h2
      cases e with
      | step v => exact inside_next hi h1
      | call v host port =>
        simp only [happen] at h1
        split at h1
        · next hv =>
          simp only [Option.some.injEq, Prod.mk.injEq] at h1
          obtain ⟨rfl, rfl⟩ := h1
          intro w
          by_cases e : w = v
          · subst e
            rw [at_same]
            have := hi w
            rw [hv] at this
            exact this
          · rw [at_other _ _ _ _ e]; exact hi w
        · cases h1
  have hi := key es (start lib) s rs (fun _ => ⟨fun x => x.elim, fun x => (by cases x)⟩) h
  have h1 := (hi t).1 (by rw [ht]; trivial)
  have h2 := (hi u).1 (by rw [hu]; trivial)
  rw [h1] at h2
  exact Option.some.inj h2

/-- Two hosts. -/
def twoHosts (name : Str) : Option Host := if name = lit "a" then some ⟨AF_INET, 1⟩ else if name = lit "b" then some ⟨AF_INET, 2⟩ else none

/-- Thread 0 asks for `a`, thread 1 for `b`; thread 1 comes between the unlock and the copying of thread 0. -/
def between : List Ev :=
  [.call 0 (lit "a") 80, .call 1 (lit "b") 81, .step 0, .step 0, .step 0, .step 1, .step 1, .step 0, .step 0, .step 1, .step 1, .step 1]

/-- C117 is false without `gethostbyname2_r`: thread 0 gets the address of the host thread 1 asked for. -/
theorem C117_threads_refuted : ∃ es s rs r, exec false twoHosts (start ⟨0, 0⟩) es = some (s, rs) ∧ r ∈ rs ∧ r.host = lit "a" ∧ r.result = right twoHosts (lit "b") r.port := by
  refine ⟨between, _, _, ⟨0, lit "a", 80, some { family := AF_INET, ip := 2, port := 80 }⟩, rfl, ?_, rfl, by decide +kernel⟩
  decide +kernel

/-- With `gethostbyname2_r`, overlapping calls each get their own. -/
example : (exec true twoHosts (start ⟨0, 0⟩) [.call 0 (lit "a") 80, .call 1 (lit "b") 81, .step 0, .step 1, .step 1, .step 1, .step 0, .step 0]).map (·.2) =
    some [⟨1, lit "b", 81, some { family := AF_INET, ip := 2, port := 81 }⟩, ⟨0, lit "a", 80, some { family := AF_INET, ip := 1, port := 80 }⟩] := by decide +kernel

/-- Calls one after the other get theirs too, and an unknown name fails. -/
example : (exec false twoHosts (start ⟨0, 0⟩) [.call 0 (lit "a") 80, .step 0, .step 0, .step 0, .step 0, .step 0, .call 1 (lit "c") 81, .step 1, .step 1, .step 1, .step 1]).map (·.2) =
    some [⟨0, lit "a", 80, some { family := AF_INET, ip := 1, port := 80 }⟩, ⟨1, lit "c", 81, none⟩] := by decide +kernel

/-- Thread 1 waits while thread 0 is in `gethostbyname`. -/
example : exec false twoHosts (start ⟨0, 0⟩) [.call 0 (lit "a") 80, .call 1 (lit "b") 81, .step 0, .step 1] = none := rfl

end Verif.Sockets.Resolve
