import Verif.Logger.Props

/-
C65 with threads: how old the level of a file can be when several threads log at once (`Logger.cpp:141-178`).

`gGetLoggingLevel` releases its lock while it asks the configuration, so that a thread may store an answer of any age (`C65_threads_refuted`).  Here is what holds with any number of threads: the
age is bounded by 1000 checks plus the number of checks that can come between a thread's asking and its storing the answer.
-/

namespace Verif.Logger.LevelThreads
open Verif Verif.Config Verif.Logger

/-- Where a thread is: outside; after the first critical section, without a level (Logger.cpp:172); with the answer of the configuration, before the second critical section (Logger.cpp:174), and how
many checks had been made when it was given. -/
inductive Pc where
  | idle
  | looking (f : Str)
  | asked (f : Str) (level : Int) (a : Nat)

/-- The static variables, the threads, the number of checks made so far, and the answers the configuration gave: after how many checks, for which file, and what. -/
structure St where
  c : LevelCache := {}
  pc : Nat → Pc := fun _ => .idle
  n : Nat := 0
  answers : List (Nat × Str × Int) := []

/-- What a thread does: it begins a check; it asks the configuration, which then is `cfg` (`none`: an exception); it stores the answer. -/
inductive Ev where
  | enter (t : Nat) (f : Str)
  | ask (t : Nat) (cfg : Str → Option Int)
  | store (t : Nat)

def set (pc : Nat → Pc) (t : Nat) (x : Pc) : Nat → Pc := fun u => if u = t then x else pc u

/-- One event with the level it returns, if it ends a check (Logger.cpp:152-172, 173, 174-177).  At most `L` checks come between asking and storing: every execution is one for some `L`. -/
def ev (L : Nat) (s : St) : Ev → Option (St × Option Int)
  | .enter t f => match s.pc t with
    | .idle => match beginCheck s.c f with
      | (c, some l) => some ({ s with c := c, n := s.n + 1 }, some l)
      | (c, none) => some ({ s with c := c, n := s.n + 1, pc := set s.pc t (.looking f) }, none)
    | _ => none
  | .ask t cfg => match s.pc t with
    | .looking f => match cfg f with
      | some l => some ({ s with pc := set s.pc t (.asked f l s.n), answers := s.answers ++ [(s.n, f, l)] }, none)
      | none => some ({ s with pc := set s.pc t .idle }, none)
    | _ => none
  | .store t => match s.pc t with
    | .asked f l a => if s.n ≤ a + L then some ({ s with c := endCheck s.c f l, pc := set s.pc t .idle }, some l) else none
    | _ => none

/-- An execution. -/
def exec (L : Nat) (s : St) : List Ev → Option St
  | [] => some s
  | e :: es => match ev L s e with
    | some (s', _) => exec L s' es
    | none => none

/-- The file whose level a thread is after. -/
def fileOf (s : St) : Ev → Option Str
  | .enter _ f => some f
  | .ask .. => none
  | .store t => match s.pc t with
    | .asked f _ _ => some f
    | _ => none

/-- What is in the cache or about to be put there was answered not too long ago. -/
structure Inv (L : Nat) (s : St) : Prop where
  count : s.c.count ≤ 1001
  cache : ∀ k l, s.c.cache k = some l → ∃ a g, (a, g, l) ∈ s.answers ∧ Config.hash g = k ∧ a ≤ s.n ∧ s.n ≤ a + L + s.c.count
  asked : ∀ t f l a, s.pc t = .asked f l a → (a, f, l) ∈ s.answers ∧ a ≤ s.n
  past : ∀ x ∈ s.answers, x.1 ≤ s.n

theorem inv_init (L : Nat) : Inv L {} := ⟨by simp, by simp, by simp, by simp⟩

/-- The state after a possible flush. -/
theorem begin_eq {L : Nat} {s : St} (h : Inv L s) (f : Str) : ∃ c1 : LevelCache, c1.count ≤ 1000 ∧ Inv L { s with c := c1 } ∧ beginCheck s.c f = ({ c1 with count := c1.count + 1 }, c1.cache (Config.hash f)) := by
  unfold beginCheck
  by_cases hf : s.c.count > 1000
  · exact ⟨{}, by simp, ⟨by simp, by simp, h.asked, h.past⟩, by simp only; rw [if_pos hf]⟩
  · exact ⟨s.c, by omega, h, by simp only; rw [if_neg hf]⟩

theorem set_asked {pc : Nat → Pc} {t u : Nat} {x : Pc} {f : Str} {l : Int} {a : Nat} (h : set pc t x u = .asked f l a) : (u = t ∧ x = .asked f l a) ∨ pc u = .asked f l a := by
  unfold set at h
  split at h
  · exact .inl ⟨‹_›, h⟩
  · exact .inr h

theorem ev_inv {L : Nat} {s s' : St} {e : Ev} {r : Option Int} (h : Inv L s) (he : ev L s e = some (s', r)) : Inv L s' ∧
    ∀ l, r = some l → ∃ f a g, fileOf s e = some f ∧ (a, g, l) ∈ s.answers ∧ Config.hash g = Config.hash f ∧ a ≤ s.n ∧ s.n ≤ a + L + 1000 := by
  cases e with
  | enter t f =>
    obtain ⟨c1, h1, h2, h3⟩ := begin_eq h f
    simp only [ev] at he
    split at he
    · rw [h3] at he
      have old : ∀ k l, c1.cache k = some l → ∃ a g, (a, g, l) ∈ s.answers ∧ Config.hash g = k ∧ a ≤ s.n + 1 ∧ s.n + 1 ≤ a + L + (c1.count + 1) := by
        intro k l hk
        obtain ⟨a, g, h4, h5, h6, h7⟩ := h2.cache k l hk
        dsimp only at h6 h7
        exact ⟨a, g, h4, h5, by omega, by omega⟩
      cases hk : c1.cache (Config.hash f) with
      | some l =>
        rw [hk] at he
        simp only [Option.some.injEq, Prod.mk.injEq] at he
        obtain ⟨rfl, rfl⟩ := he
        refine ⟨⟨by dsimp only; omega, old, fun u f l a hu => ?_, fun x hx => ?_⟩, fun l' hl => ?_⟩
        · obtain ⟨h4, h5⟩ := h.asked u f l a hu
          exact ⟨h4, by dsimp only; omega⟩
        · have := h.past x hx; dsimp only; omega
        · cases hl
          obtain ⟨a, g, h4, h5, h6, h7⟩ := h2.cache _ l hk
          dsimp only at h6 h7
          exact ⟨f, a, g, rfl, h4, h5, h6, by omega⟩
      | none =>
        rw [hk] at he
        simp only [Option.some.injEq, Prod.mk.injEq] at he
        obtain ⟨rfl, rfl⟩ := he
        refine ⟨⟨by dsimp only; omega, old, fun u f l a hu => ?_, fun x hx => ?_⟩, fun l' hl => nomatch hl⟩
        · rcases set_asked hu with ⟨-, hx⟩ | hu
          · cases hx
          · obtain ⟨h4, h5⟩ := h.asked u f l a hu
            exact ⟨h4, by dsimp only; omega⟩
        · have := h.past x hx; dsimp only; omega
    · cases he
  | ask t cfg =>
    simp only [ev] at he
    split at he
    · next f hp =>
      split at he
      · next l hl =>
        simp only [Option.some.injEq, Prod.mk.injEq] at he
        obtain ⟨rfl, rfl⟩ := he
        refine ⟨⟨h.count, fun k l' hk => ?_, fun u f' l' a hu => ?_, fun x hx => ?_⟩, fun l' hl => nomatch hl⟩
        · obtain ⟨a, g, h4, h5⟩ := h.cache k l' hk
          exact ⟨a, g, List.mem_append_left _ h4, h5⟩
        · rcases set_asked hu with ⟨-, hx⟩ | hu
          · cases hx
            exact ⟨List.mem_append_right _ (List.mem_singleton.2 rfl), Nat.le_refl _⟩
          · obtain ⟨h4, h5⟩ := h.asked u f' l' a hu
            exact ⟨List.mem_append_left _ h4, h5⟩
        · rcases List.mem_append.1 hx with hx | hx
          · exact h.past x hx
          · rw [List.mem_singleton.1 hx]; exact Nat.le_refl _
      · simp only [Option.some.injEq, Prod.mk.injEq] at he
        obtain ⟨rfl, rfl⟩ := he
        refine ⟨⟨h.count, h.cache, fun u f' l' a hu => ?_, h.past⟩, fun l' hl => nomatch hl⟩
        rcases set_asked hu with ⟨-, hx⟩ | hu
        · cases hx
        · exact h.asked u f' l' a hu
    · cases he
  | store t =>
    simp only [ev] at he
    split at he
    · next f l a hp =>
      split at he
      · next hL =>
        simp only [Option.some.injEq, Prod.mk.injEq] at he
        obtain ⟨rfl, rfl⟩ := he
        obtain ⟨h1, h2⟩ := h.asked t f l a hp
        refine ⟨⟨h.count, fun k l' hk => ?_, fun u f' l' a' hu => ?_, h.past⟩, fun l' hl => ?_⟩
        · simp only [endCheck] at hk ⊢
          by_cases e : k = Config.hash f
          · rw [if_pos e] at hk
            cases hc : s.c.cache k with
            | some x =>
              rw [hc] at hk
              cases hk
              exact h.cache k l' hc
            | none =>
              rw [hc] at hk
              cases hk
              exact ⟨a, f, h1, e.symm, h2, by omega⟩
          · rw [if_neg e] at hk
            exact h.cache k l' hk
        · rcases set_asked hu with ⟨-, hx⟩ | hu
          · cases hx
          · exact h.asked u f' l' a' hu
        · cases hl
          refine ⟨f, a, f, ?_, h1, rfl, h2, by omega⟩
          simp only [fileOf, hp]
      · cases he
    · cases he

theorem exec_inv {L : Nat} {es : List Ev} {s s' : St} (h : Inv L s) (he : exec L s es = some s') : Inv L s' := by
  induction es generalizing s with
  | nil => cases he; exact h
  | cons e es ih =>
    simp only [exec] at he
    split at he
    · next h1 => exact ih (ev_inv h h1).1 he
    · cases he

/-- **C65, with threads (partial: missing are threads that take any time between asking and storing, see C65_threads_refuted).** If no more than `L` checks come between a thread's asking the
configuration and its storing the answer, then in every execution of any number of threads, every level a check returns is one that the configuration gave no more than `L + 1000` checks ago, for a
file whose name has the same hash. -/
theorem C65_threads_partial {L : Nat} {es : List Ev} {s s' : St} {e : Ev} {l : Int} (h : exec L {} es = some s) (he : ev L s e = some (s', some l)) :
    ∃ f a g, fileOf s e = some f ∧ (a, g, l) ∈ s.answers ∧ Config.hash g = Config.hash f ∧ a ≤ s.n ∧ s.n ≤ a + L + 1000 := (ev_inv (exec_inv (inv_init L) h) he).2 l rfl

/-- **C65, with threads, after a change (partial, as before).** If from some moment on the configuration gives the level `lv g` for each file `g`, then after `L + 1001` more checks every check returns
that of its file (or one with the same hash). -/
theorem C65_change_partial {L : Nat} {es : List Ev} {s s' : St} {e : Ev} {l : Int} {n0 : Nat} {lv : Str → Int} (h : exec L {} es = some s) (hlv : ∀ a g x, (a, g, x) ∈ s.answers → n0 ≤ a → x = lv g)
    (hn : n0 + L + 1001 ≤ s.n) (he : ev L s e = some (s', some l)) : ∃ f g, fileOf s e = some f ∧ Config.hash g = Config.hash f ∧ l = lv g := by
  obtain ⟨f, a, g, h1, h2, h3, -, h5⟩ := C65_threads_partial h he
  exact ⟨f, g, h1, h3, hlv a g l h2 (by omega)⟩

/-- Thread 0 asks while the level is 7; thread 1 checks the same file twice under the new level 3 before thread 0 stores its answer. -/
def overtaken : List Ev :=
  [.enter 0 (lit "a.cpp"), .ask 0 (fun _ => some 7), .enter 1 (lit "a.cpp"), .ask 1 (fun _ => some 3), .store 1, .enter 1 (lit "a.cpp"), .store 0]

-- with `L = 2` this is an execution; the answer 3 stays in the cache, since `insert` leaves it alone
example : ((exec 2 {} overtaken).bind fun s => (ev 2 s (.enter 1 (lit "a.cpp"))).map fun r => (s.n, s.answers.map fun x => (x.1, x.2.2), r.2)) = some (3, [(1, 7), (2, 3)], some 3) := by decide +kernel
-- the other way round the old answer is used: it was given one check ago
example : ((exec 1 {} [.enter 0 (lit "a.cpp"), .ask 0 (fun _ => some 7), .enter 1 (lit "a.cpp"), .ask 1 (fun _ => some 3), .store 0, .store 1]).bind fun s =>
    (ev 1 s (.enter 1 (lit "a.cpp"))).map fun r => (s.n, r.2)) = some (2, some 7) := by decide +kernel
-- with `L = 0` the first one is not
example : (exec 0 {} overtaken).isNone := by decide +kernel

end Verif.Logger.LevelThreads
