import Verif.Config.Hash

/-
Property C121: objects of class `HashString` (`Configuration.h:119-179`).

An object is a `std::string` with the hash beside it.  The class derives publicly from `std::string`, so all its operations that change the text can be used as well; they leave the
hash alone.
-/

namespace Verif.Config.HashObject

open Verif

/-- An object: the text and `mHash` (`Configuration.h:124`). -/
structure Obj where
  text : Str
  mHash : BitVec 64
deriving DecidableEq

/-- `HashString::computeHash` (`Configuration.cpp:970-979`). -/
def computeHash (o : Obj) : Obj := { o with mHash := hash o.text }

/-- What a program does with objects, numbered in the order of their construction. -/
inductive Op
  /-- `HashString()` (`Configuration.h:143-146`). -/
  | default
  /-- `HashString(const char*)`, `HashString(const std::string&)` (`Configuration.h:131-141`). -/
  | construct (text : Str)
  /-- The copy constructor the compiler provides. -/
  | copy (j : Nat)
  /-- `operator=(std::string&)`, `operator=(const char*)` (`Configuration.h:148-160`). -/
  | assign (i : Nat) (text : Str)
  /-- The assignment from another object the compiler provides; also used for `const std::string` and temporaries, which are converted first. -/
  | assignObj (i j : Nat)
  /-- An operation inherited from `std::string` (`+=`, `append`, `clear`, `erase`, `replace`, ...) that changes the text. -/
  | inherited (i : Nat) (f : Str → Str)

/-- One operation; operations on objects that do not exist have no effect. -/
def step (s : List Obj) : Op → List Obj
  | .default => s ++ [⟨[], 0⟩]
  | .construct t => s ++ [computeHash ⟨t, 0⟩]
  | .copy j => s ++ (s[j]?).toList
  | .assign i t => s.modify i fun o => computeHash { o with text := t }
  | .assignObj i j =>
    match s[j]? with
    | some o => s.set i o
    | none => s
  | .inherited i f => s.modify i fun o => { o with text := f o.text }

/-- A program. -/
def run (ops : List Op) : List Obj := ops.foldl step []

/-- `operator==` (`Configuration.h:162-165`). -/
def eq (a b : Obj) : Bool := a.mHash == b.mHash

/-- The operations of `std::string` are not used. -/
def Own : Op → Prop
  | .inherited _ _ => False
  | _ => True

/-- The texts the objects should have: what the same operations do to plain strings. -/
def texts (s : List Str) : Op → List Str
  | .default => s ++ [[]]
  | .construct t => s ++ [t]
  | .copy j => s ++ (s[j]?).toList
  | .assign i t => s.set i t
  | .assignObj i j => (s[j]?).elim s (s.set i ·)
  | .inherited i f => s.modify i f

/-- The object for a text. -/
def ofText (t : Str) : Obj := ⟨t, hash t⟩

theorem modify_map (l : List Str) (i : Nat) (t : Str) : ((l.map ofText).modify i fun o => computeHash { o with text := t }) = (l.set i t).map ofText := by
  induction l generalizing i with
  | nil => simp
  | cons x l ih =>
    cases i with
    | zero => simp [computeHash, ofText]
    | succ i => simpa using ih i

theorem step_map (l : List Str) (op : Op) (h : Own op) : step (l.map ofText) op = (texts l op).map ofText := by
  cases op with
  | default => simp only [step, texts, List.map_append]; rfl
  | construct t => simp only [step, texts, List.map_append]; rfl
  | copy j =>
    simp only [step, texts, List.map_append, List.getElem?_map]
    cases l[j]? <;> rfl
  | assign i t => exact modify_map l i t
  | assignObj i j =>
    simp only [step, texts, List.getElem?_map]
    cases l[j]? with
    | none => rfl
    | some t => simp [List.map_set]
  | inherited => exact h.elim

/-- C121, partial: as long as only the operations of the class itself are used, every object has the text it should have and the hash of this text.
Missing: the operations inherited from `std::string`, see `C121_inherited_refuted`. -/
theorem C121_hash_partial (ops : List Op) (h : ∀ op ∈ ops, Own op) : run ops = (ops.foldl texts []).map fun t => ⟨t, hash t⟩ := by
  have key : ∀ (ops : List Op) (l : List Str), (∀ op ∈ ops, Own op) → ops.foldl step (l.map ofText) = (ops.foldl texts l).map ofText := by
    intro ops
    induction ops with
    | nil => intro l _; rfl
    | cons op ops ih =>
      intro l ho
      rw [List.foldl_cons, List.foldl_cons, step_map l op (ho op (by simp))]
      exact ih _ fun op h => ho op (by simp [h])
  exact key ops [] h

/-- C121, partial: then objects with the same text are equal, whatever way they came about. -/
theorem C121_equal_partial (ops : List Op) (h : ∀ op ∈ ops, Own op) (a b : Obj) (ha : a ∈ run ops) (hb : b ∈ run ops) (e : a.text = b.text) : eq a b = true := by
  rw [C121_hash_partial ops h, List.mem_map] at ha hb
  obtain ⟨t, -, rfl⟩ := ha
  obtain ⟨u, -, rfl⟩ := hb
  cases (show t = u from e)
  simp [eq]

/-- C121 is false with operations of `std::string`: after `a += "b"` the object is still equal to `"a"` and not to `"ab"`. -/
theorem C121_inherited_refuted : ∃ ops a b c, run ops = [a, b, c] ∧ a.text = lit "ab" ∧ b.text = lit "ab" ∧ c.text = lit "a" ∧ eq a b = false ∧ eq a c = true :=
  ⟨[.construct (lit "a"), .inherited 0 (· ++ lit "b"), .construct (lit "ab"), .construct (lit "a")], _, _, _, rfl, by decide +kernel, by decide +kernel, by decide +kernel, by decide +kernel, by decide +kernel⟩

/-- Objects made in different ways: by default, from text, as copy, by assignment. -/
example : run [.default, .construct (lit "ab"), .copy 1, .assign 0 (lit "x"), .assignObj 2 0] = [⟨lit "x", hash (lit "x")⟩, ⟨lit "ab", hash (lit "ab")⟩, ⟨lit "x", hash (lit "x")⟩] := by decide +kernel

/-- The hash of the default object is that of the empty text. -/
example : run [.default, .construct []] = [⟨[], 0⟩, ⟨[], 0⟩] := by decide +kernel

end Verif.Config.HashObject
