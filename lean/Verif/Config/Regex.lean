import Verif.Core.Outcome
import Verif.Config.Find

/-
Property C119: regular expressions.

Keys of the types REGEX and STRING (`Configuration.cpp:573-614`) and the class `Regexp` (`Regexp.h:36-60`).  `regcomp` and `regexec` are any functions: which texts are expressions
and what they match is the business of the library.  What is modelled is who compiles, uses and frees what.  A `regex_t` holds a pointer to the compiled expression; copying the
`regex_t` copies the pointer.
-/

namespace Verif.Config.Regex

open Verif

/-- The regular expressions of the library: `regcomp` with a pattern and flags, and `regexec`; texts end at the first NUL. -/
structure Lib where
  /-- Compiled expressions. -/
  Re : Type
  compile : Str → Nat → Option Re
  match' : Re → Str → Nat → Bool

/-- REG_EXTENDED, `/usr/include/regex.h`. -/
def extended : Nat := 1

/-- What a `regex_t` points to. -/
inductive Block (L : Lib)
  | live (re : L.Re)
  /-- After `regcomp` failed. -/
  | failed
  | freed

/-- All compiled expressions so far. -/
abbrev Heap (L : Lib) := List (Block L)

/-- `regcomp`: the `regex_t` and whether it was successful. -/
def regcomp (L : Lib) (h : Heap L) (pattern : Str) (flags : Nat) : Heap L × Nat × Bool :=
  match L.compile (cText pattern) flags with
  | some re => (h ++ [.live re], h.length, true)
  | none => (h ++ [.failed], h.length, false)

/-- `regexec` without positions; undefined on anything but a compiled expression. -/
def regexec (L : Lib) (h : Heap L) (r : Nat) (text : Str) (flags : Nat) : Outcome Bool :=
  match h[r]? with
  | some (.live re) => .ok (L.match' re (cText text) flags)
  | _ => .ub

/-- `regfree`.  After a failed `regcomp` POSIX leaves the contents of the `regex_t` undefined (`strict`); glibc clears it. -/
def regfree (strict : Bool) (L : Lib) (h : Heap L) (r : Nat) : Outcome (Heap L) :=
  match h[r]? with
  | some (.live _) => .ok (h.set r .freed)
  | some .failed => if strict then .ub else .ok (h.set r .freed)
  | _ => .ub

/-- `isValidValue` for REGEX (`Configuration.cpp:579-591`). -/
def validRegex (strict : Bool) (L : Lib) (h : Heap L) (val : Str) : Outcome (Heap L × Bool) := do
  let (h, r, good) := regcomp L h val extended
  let h ← regfree strict L h r
  pure (h, good)

/-- `isValidValue` for REGEX_OPT (`Configuration.cpp:573-591`). -/
def validRegexOpt (strict : Bool) (L : Lib) (h : Heap L) (val : Str) : Outcome (Heap L × Bool) :=
  if val.length = 0 then .ok (h, true) else validRegex strict L h val

/-- `isValidValue` for STRING with the expression `valid` of the key (`Configuration.cpp:599-614`). -/
def validString (strict : Bool) (L : Lib) (h : Heap L) (valid val : Str) : Outcome (Heap L × Bool) := do
  let (h, r, good) := regcomp L h valid extended
  if good then
    let m ← regexec L h r val 0
    let h ← regfree strict L h r
    pure (h, m)
  else
    pure (h, false)

/-- `isValidValue` for STRING_OPT (`Configuration.cpp:593-614`). -/
def validStringOpt (strict : Bool) (L : Lib) (h : Heap L) (valid val : Str) : Outcome (Heap L × Bool) :=
  if val.length = 0 then .ok (h, true) else validString strict L h valid val

/-! ### Regexp -/

/-- What a program does with objects of the class; variables are numbered in the order of their construction. -/
inductive Op
  | construct (pattern : Str) (flags : Nat)
  | copy (i : Nat)
  | destroy (i : Nat)
  | match' (i : Nat) (text : Str) (flags : Nat)
deriving DecidableEq

/-- The objects (`none`: destroyed), the heap and the answers so far. -/
structure St (L : Lib) where
  heap : Heap L
  objs : List (Option Nat)
  answers : List Bool

/-- One operation: constructor (`Regexp.h:45-54`, `abort()` if the expression is not valid, as a failed assertion), the copy constructor the compiler provides, destructor
(`Regexp.h:56-57`), `match` (`Regexp.h:59-60`). -/
def step (strict : Bool) (L : Lib) (s : St L) : Op → Outcome (St L)
  | .construct p flags =>
    let (h, r, good) := regcomp L s.heap p flags
    if good then .ok ⟨h, s.objs ++ [some r], s.answers⟩ else .assertFail
  | .copy i =>
    match s.objs[i]? with
    | some (some r) => .ok { s with objs := s.objs ++ [some r] }
    | _ => .ub
  | .destroy i =>
    match s.objs[i]? with
    | some (some r) => do
      let h ← regfree strict L s.heap r
      pure { s with heap := h, objs := s.objs.set i none }
    | _ => .ub
  | .match' i text flags =>
    match s.objs[i]? with
    | some (some r) => do
      let m ← regexec L s.heap r text flags
      pure { s with answers := s.answers ++ [m] }
    | _ => .ub

/-- A program. -/
def run (strict : Bool) (L : Lib) (s : St L) : List Op → Outcome (St L)
  | [] => .ok s
  | o :: os => do
    let s ← step strict L s o
    run strict L s os

/-! ### Specification -/

/-- The text is an expression for the library. -/
def Valid (L : Lib) (pattern : Str) (flags : Nat) : Prop := ∃ re, L.compile pattern flags = some re

/-- The text is an (extended: flag 1, `REG_EXTENDED`) expression and the other one matches it. -/
def Matches (L : Lib) (pattern : Str) (text : Str) : Prop := ∃ re, L.compile pattern 1 = some re ∧ L.match' re text 0 = true

/-- Nothing is held. -/
def Clean (L : Lib) (h : Heap L) : Prop := ∀ re, Block.live re ∉ h

/-- What a program with objects `o` (pattern and flags, `none`: destroyed) means: which objects there are afterwards, and what `match` answers.  Every object behaves as if it had its own
expression, also a copy. -/
inductive Means (L : Lib) : List (Option (Str × Nat)) → List Op → List (Option (Str × Nat)) → List Bool → Prop
  | done {o} : Means L o [] o []
  | construct {o os o' as p f} : Valid L (cText p) f → Means L (o ++ [some (p, f)]) os o' as → Means L o (.construct p f :: os) o' as
  | copy {o os o' as i p} : o[i]? = some (some p) → Means L (o ++ [some p]) os o' as → Means L o (.copy i :: os) o' as
  | destroy {o os o' as i p} : o[i]? = some (some p) → Means L (o.set i none) os o' as → Means L o (.destroy i :: os) o' as
  | match' {o os o' as i p f re t fl b} : o[i]? = some (some (p, f)) → L.compile (cText p) f = some re → L.match' re (cText t) fl = b → Means L o os o' as →
      Means L o (.match' i t fl :: os) o' (b :: as)

/-- Nothing at the start. -/
def start (L : Lib) : St L := ⟨[], [], []⟩

/-! ### Lemmas -/

/-- Objects and compiled expressions correspond, one to one. -/
structure Rel (L : Lib) (o : List (Option (Str × Nat))) (s : St L) : Prop where
  length : o.length = s.objs.length
  object : ∀ (i : Nat) (p : Str) (f : Nat), o[i]? = some (some (p, f)) → ∃ (r : Nat) (re : L.Re), s.objs[i]? = some (some r) ∧ s.heap[r]? = some (Block.live re) ∧ L.compile (cText p) f = some re
  back : ∀ i r : Nat, s.objs[i]? = some (some r) → ∃ p, o[i]? = some (some p)
  inj : ∀ i j r : Nat, s.objs[i]? = some (some r) → s.objs[j]? = some (some r) → i = j
  owned : ∀ (r : Nat) (re : L.Re), s.heap[r]? = some (Block.live re) → ∃ i : Nat, s.objs[i]? = some (some r)
  bound : ∀ i r : Nat, s.objs[i]? = some (some r) → r < s.heap.length

theorem rel_run (strict : Bool) (L : Lib) {ops : List Op} {o o' : List (Option (Str × Nat))} {as : List Bool} (h : Means L o ops o' as) (hc : ∀ i, Op.copy i ∉ ops) (s : St L) (hr : Rel L o s) :
    ∃ s', run strict L s ops = .ok s' ∧ Rel L o' s' ∧ s'.answers = s.answers ++ as := by
  induction h generalizing s with
  | done => exact ⟨s, rfl, hr, by simp⟩
  | @construct o os o' as p f hv _ ih =>
    obtain ⟨re, hre⟩ := hv
    have hnew : Rel L (o ++ [some (p, f)]) ⟨s.heap ++ [.live re], s.objs ++ [some s.heap.length], s.answers⟩ := by
      refine ⟨by simp [hr.length], ?_, ?_, ?_, ?_, ?_⟩
      · intro i q g hi
        rw [List.getElem?_append] at hi
        split at hi
        · next hlt =>
          obtain ⟨r, re', h1, h2, h3⟩ := hr.object i q g hi
          refine ⟨r, re', ?_, ?_, h3⟩
          · rw [List.getElem?_append_left (by rw [← hr.length]; exact hlt)]; exact h1
          · rw [List.getElem?_append_left (hr.bound i r h1)]; exact h2
        · next hge =>
          have : i = o.length := by
            have := (List.getElem?_eq_some_iff.1 hi).1
            simp at this; omega
          subst this
          simp at hi
          obtain ⟨rfl, rfl⟩ := hi
          exact ⟨s.heap.length, re, by simp [hr.length], by simp, hre⟩
      · intro i r hi
        rw [List.getElem?_append] at hi
        split at hi
        · next hlt =>
          obtain ⟨q, hq⟩ := hr.back i r hi
          exact ⟨q, by rw [List.getElem?_append_left (by rw [hr.length]; exact hlt)]; exact hq⟩
        · next hge =>
          have := (List.getElem?_eq_some_iff.1 hi).1
          simp at this
          have : i = o.length := by rw [hr.length]; omega
          subst this
          exact ⟨(p, f), by simp⟩
      · intro i j r hi hj
        simp only [List.getElem?_append] at hi hj
        split at hi <;> split at hj
        · exact hr.inj i j r hi hj
        · have h1 := hr.bound i r hi
          have := (List.getElem?_eq_some_iff.1 hj).1
          simp at this
          simp [this] at hj
          omega
        · have h1 := hr.bound j r hj
          have := (List.getElem?_eq_some_iff.1 hi).1
          simp at this
          simp [this] at hi
          omega
        · have h1 := (List.getElem?_eq_some_iff.1 hi).1
          have h2 := (List.getElem?_eq_some_iff.1 hj).1
          simp at h1 h2; omega
      · intro r re' hre'
        simp only [List.getElem?_append] at hre'
        split at hre'
        · obtain ⟨i, hi⟩ := hr.owned r re' hre'
          exact ⟨i, by rw [List.getElem?_append_left ((List.getElem?_eq_some_iff.1 hi).1)]; exact hi⟩
        · have := (List.getElem?_eq_some_iff.1 hre').1
          simp at this
          have : r = s.heap.length := by omega
          subst this
          exact ⟨s.objs.length, by simp⟩
      · intro i r hi
        simp only [List.getElem?_append] at hi
        split at hi
        · have := hr.bound i r hi
          simp; omega
        · have := (List.getElem?_eq_some_iff.1 hi).1
          simp at this
          simp [this] at hi
          simp; omega
    obtain ⟨s', h1, h2, h3⟩ := ih (fun i hi => hc i (by simp [hi])) _ hnew
    refine ⟨s', ?_, h2, h3⟩
    simp only [run, step, regcomp, hre, if_true, Outcome.bind_ok]
    exact h1
  | copy => exact absurd List.mem_cons_self (hc _)
  | @destroy o os o' as i p hp _ ih =>
    obtain ⟨p, f⟩ := p
    obtain ⟨r, re, h1, h2, h3⟩ := hr.object i p f hp
    have hil := (List.getElem?_eq_some_iff.1 h1).1
    have hrl := (List.getElem?_eq_some_iff.1 h2).1
    have hnew : Rel L (o.set i none) ⟨s.heap.set r .freed, s.objs.set i none, s.answers⟩ := by
      refine ⟨by simp [hr.length], ?_, ?_, ?_, ?_, ?_⟩
      · intro j q g hj
        have hij : i ≠ j := by
          intro e; subst e
          rw [List.getElem?_set_self (by rw [hr.length]; exact hil)] at hj; cases hj
        rw [List.getElem?_set_ne hij] at hj
        obtain ⟨r', re', a, b, c⟩ := hr.object j q g hj
        have hrr : r ≠ r' := fun e => hij (hr.inj i j r h1 (by rw [a, e]))
        exact ⟨r', re', by rw [List.getElem?_set_ne hij]; exact a, by rw [List.getElem?_set_ne hrr]; exact b, c⟩
      · intro j r' hj
        have hij : i ≠ j := by
          intro e; subst e
          rw [List.getElem?_set_self hil] at hj; cases hj
        rw [List.getElem?_set_ne hij] at hj
        obtain ⟨q, hq⟩ := hr.back j r' hj
        exact ⟨q, by rw [List.getElem?_set_ne hij]; exact hq⟩
      · intro j k r' hj hk
        have hij : i ≠ j := by
          intro e; subst e
          rw [List.getElem?_set_self hil] at hj; cases hj
        have hik : i ≠ k := by
          intro e; subst e
          rw [List.getElem?_set_self hil] at hk; cases hk
        rw [List.getElem?_set_ne hij] at hj
        rw [List.getElem?_set_ne hik] at hk
        exact hr.inj j k r' hj hk
      · intro r' re' h'
        have hrr : r ≠ r' := by
          intro e; subst e
          rw [List.getElem?_set_self hrl] at h'; cases h'
        rw [List.getElem?_set_ne hrr] at h'
        obtain ⟨j, hj⟩ := hr.owned r' re' h'
        have hij : i ≠ j := by
          intro e; subst e
          rw [h1] at hj; cases hj; exact hrr rfl
        exact ⟨j, by rw [List.getElem?_set_ne hij]; exact hj⟩
      · intro j r' hj
        have hij : i ≠ j := by
          intro e; subst e
          rw [List.getElem?_set_self hil] at hj; cases hj
        rw [List.getElem?_set_ne hij] at hj
        simpa using hr.bound j r' hj
    obtain ⟨s', e1, e2, e3⟩ := ih (fun i hi => hc i (by simp [hi])) _ hnew
    refine ⟨s', ?_, e2, e3⟩
    simp only [run, step, h1, regfree, h2, Outcome.bind_ok, Outcome.pure_eq]
    exact e1
  | @match' o os o' as i p f re t fl b hp hre hb _ ih =>
    subst hb
    obtain ⟨r, re', h1, h2, h3⟩ := hr.object i p f hp
    rw [hre] at h3; cases h3
    obtain ⟨s', e1, e2, e3⟩ := ih (fun i hi => hc i (by simp [hi])) ⟨s.heap, s.objs, s.answers ++ [L.match' re (cText t) fl]⟩
      ⟨hr.length, hr.object, hr.back, hr.inj, hr.owned, hr.bound⟩
    refine ⟨s', ?_, e2, by rw [e3]; simp⟩
    simp only [run, step, h1, regexec, h2, Outcome.bind_ok, Outcome.pure_eq]
    exact e1

/-! ### C119 -/

/-- C119: a key of type REGEX accepts exactly the texts that are expressions, and nothing stays allocated (on glibc; on others see `C119_regfree_refuted`). -/
theorem C119_regex_partial (L : Lib) (h : Heap L) (val : Str) : ∃ b, validRegex false L h val = .ok (h ++ [.freed], b) ∧ (b = true ↔ Valid L (cText val) 1) := by
  rw [show 1 = extended from rfl]
  unfold validRegex regcomp regfree Valid
  cases hc : L.compile (cText val) extended <;> simp

/-- C119: a key of type REGEX_OPT accepts the empty text too. -/
theorem C119_regex_opt_partial (L : Lib) (h : Heap L) (val : Str) :
    ∃ h' b, validRegexOpt false L h val = .ok (h', b) ∧ (∀ re, Block.live re ∈ h' ↔ Block.live re ∈ h) ∧ (b = true ↔ val = [] ∨ Valid L (cText val) 1) := by
  unfold validRegexOpt
  cases val with
  | nil => exact ⟨h, true, rfl, fun _ => Iff.rfl, by simp⟩
  | cons c cs =>
    obtain ⟨b, h1, h2⟩ := C119_regex_partial L h (c :: cs)
    exact ⟨_, b, by rw [if_neg (by simp)]; exact h1, by simp, by simpa using h2⟩

/-- C119: a key of type STRING or STRING_OPT accepts exactly the texts matching its expression (and the empty one), on all platforms, and nothing stays allocated. -/
theorem C119_string (strict : Bool) (L : Lib) (h : Heap L) (valid val : Str) :
    (∃ h' b, validString strict L h valid val = .ok (h', b) ∧ (∀ re, Block.live re ∈ h' ↔ Block.live re ∈ h) ∧ (b = true ↔ Matches L (cText valid) (cText val))) ∧
    (∃ h' b, validStringOpt strict L h valid val = .ok (h', b) ∧ (∀ re, Block.live re ∈ h' ↔ Block.live re ∈ h) ∧ (b = true ↔ val = [] ∨ Matches L (cText valid) (cText val))) := by
  have key : ∃ h' b, validString strict L h valid val = .ok (h', b) ∧ (∀ re, Block.live re ∈ h' ↔ Block.live re ∈ h) ∧ (b = true ↔ Matches L (cText valid) (cText val)) := by
    unfold validString regcomp regexec regfree Matches
    rw [show 1 = extended from rfl]
    cases hc : L.compile (cText valid) extended with
    | none => exact ⟨h ++ [.failed], false, by simp, by simp, by simp⟩
    | some re => exact ⟨h ++ [.freed], L.match' re (cText val) 0, by simp, by simp, by simp⟩
  refine ⟨key, ?_⟩
  unfold validStringOpt
  by_cases e : val = []
  · subst e
    exact ⟨h, true, rfl, fun _ => Iff.rfl, by simp⟩
  · obtain ⟨h', b, h1, h2, h3⟩ := key
    exact ⟨h', b, by rw [if_neg (by simpa using e)]; exact h1, h2, by rw [h3]; simp [e]⟩

/-- C119: a value accepted for a key of type REGEX can be given to `Regexp` (with the default flags) without ending the program. -/
theorem C119_use (strict : Bool) (L : Lib) (h h' : Heap L) (val : Str) (hv : validRegex strict L h val = .ok (h', true)) (s : St L) :
    ∃ s', step strict L s (.construct val 1) = .ok s' := by
  rw [show 1 = extended from rfl]
  unfold validRegex regcomp at hv
  cases hc : L.compile (cText val) extended with
  | none =>
    rw [hc] at hv
    unfold regfree at hv
    cases strict <;> simp at hv
  | some re =>
    have e : regcomp L s.heap val extended = (s.heap ++ [.live re], s.heap.length, true) := by rw [regcomp, hc]
    exact ⟨_, by rw [step, e]; exact if_pos rfl⟩

/-- C119, partial: objects of class `Regexp` that are never copied: a program using existing objects with valid expressions runs, `match` says what it should, and when all objects
are destroyed all is freed, each expression once.  Missing: copies, see `C119_copy_refuted`. -/
theorem C119_objects_partial (strict : Bool) (L : Lib) (ops : List Op) (o : List (Option (Str × Nat))) (as : List Bool) (h : Means L [] ops o as) (hc : ∀ i, Op.copy i ∉ ops) :
    ∃ s, run strict L (start L) ops = .ok s ∧ s.answers = as ∧ ((∀ x ∈ o, x = none) → Clean L s.heap) := by
  obtain ⟨s, h1, h2, h3⟩ := rel_run strict L h hc (start L) ⟨rfl, by simp, by simp [start], by simp [start], by simp [start], by simp [start]⟩
  refine ⟨s, h1, h3, fun hn re hre => ?_⟩
  obtain ⟨r, hr⟩ := List.getElem?_of_mem hre
  obtain ⟨i, hi⟩ := h2.owned r re hr
  obtain ⟨p, hp⟩ := h2.back i r hi
  cases hn _ (List.mem_of_getElem? hp)

/-- A library for examples: an expression is a text without parentheses and not empty, matching texts that contain its first character. -/
def sample : Lib := ⟨Byte, fun p _ => if p.any fun c => c = 40 then none else p.head?, fun re t _ => t.contains re⟩

/-- C119 is false for copies: destroying an object and its copy frees the expression twice, and `match` of the copy uses what was freed. -/
theorem C119_copy_refuted : Means sample [] [.construct (lit "a") 1, .copy 0, .destroy 0, .destroy 1] [none, none] [] ∧
    run false sample (start sample) [.construct (lit "a") 1, .copy 0, .destroy 0, .destroy 1] = .ub ∧
    Means sample [] [.construct (lit "a") 1, .copy 0, .destroy 0, .match' 1 (lit "ba") 0] [none, some (lit "a", 1)] [true] ∧
    run false sample (start sample) [.construct (lit "a") 1, .copy 0, .destroy 0, .match' 1 (lit "ba") 0] = .ub := by
  refine ⟨?_, rfl, ?_, rfl⟩
  · exact .construct ⟨(97 : Byte), rfl⟩ (.copy rfl (.destroy rfl (.destroy rfl .done)))
  · exact .construct ⟨(97 : Byte), rfl⟩ (.copy rfl (.destroy rfl (.match' (re := (97 : Byte)) rfl rfl rfl .done)))

/-- C119 is false where `regfree` may not be called after `regcomp` failed: checking a value that is not an expression. -/
theorem C119_regfree_refuted : validRegex true sample [] (lit "a(") = .ub := rfl

/-- C119 is false for REGEX_OPT where the empty text is not an expression (POSIX leaves this open): the value is accepted, and `Regexp` ends the program. -/
theorem C119_empty_refuted : validRegexOpt false sample [] [] = .ok ([], true) ∧ step false sample (start sample) (.construct [] 1) = .assertFail := ⟨rfl, rfl⟩

/-- What is accepted. -/
example : (∃ h, validRegex false sample [] (lit "ab") = .ok (h, true)) ∧ (∃ h, validRegex false sample [] (lit "a(") = .ok (h, false)) ∧
    (∃ h, validString false sample [] (lit "x") (lit "yx") = .ok (h, true)) ∧ (∃ h, validString false sample [] (lit "x") (lit "y") = .ok (h, false)) ∧
    ∃ h, validStringOpt false sample [] (lit "(") [] = .ok (h, true) := ⟨⟨_, rfl⟩, ⟨_, rfl⟩, ⟨_, rfl⟩, ⟨_, rfl⟩, ⟨_, rfl⟩⟩

/-- Two objects, used and destroyed. -/
example : Means sample [] [.construct (lit "a") 1, .construct (lit "b") 1, .match' 0 (lit "cab") 0, .destroy 0, .match' 1 (lit "x") 0, .destroy 1] [none, none] [true, false] :=
  .construct ⟨(97 : Byte), rfl⟩ (.construct ⟨(98 : Byte), rfl⟩ (.match' (re := (97 : Byte)) rfl rfl rfl (.destroy rfl (.match' (re := (98 : Byte)) rfl rfl rfl (.destroy rfl .done)))))

end Verif.Config.Regex
