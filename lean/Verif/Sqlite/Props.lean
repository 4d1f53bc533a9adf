import Verif.Sqlite.Model
import Verif.Config.SqlProps
import Verif.Core.NumberLemmas

/-
Properties of the SQLite helpers: C69 (retries), C81 (statements are finalised), C85 (texts fit).
-/

namespace Verif.Sqlite

open Verif.Config

/-! ### C69 -/

/-- Answers after which it is worth trying again. -/
def Transient (code : Int) : Prop := code = 5 ∨ code = 6

instance (code : Int) : Decidable (Transient code) := inferInstanceAs (Decidable (_ ∨ _))

/-- The state after `k` calls. -/
def after {E : Type} (call : E → Int × E) (e : E) : Nat → E
  | 0 => e
  | k + 1 => (call (after call e k)).2

/-- The answer to call number `k` (from 0). -/
def answer {E : Type} (call : E → Int × E) (e : E) (k : Nat) : Int := (call (after call e k)).1

theorem after_succ {E : Type} (call : E → Int × E) (e : E) (k : Nat) : after call e (k + 1) = after call (call e).2 k := by
  induction k with
  | zero => rfl
  | succ k ih => rw [after, ih]; rfl

/-- C69: the loop of the retry functions, for every behaviour of the engine and every bound: either some answer within the bound is decisive, then the first such answer is
returned and no further call is made, or all answers within the bound are busy or locked, then exactly that many calls are made and the last answer is returned (busy if the bound is 0). -/
theorem C69_first {E : Type} (call : E → Int × E) (n : Nat) (e : E) :
    (∃ k, k < n ∧ (∀ i, i < k → Transient (answer call e i)) ∧ ¬ Transient (answer call e k) ∧ attempts call n BUSY e = (answer call e k, after call e (k + 1))) ∨
    ((∀ i, i < n → Transient (answer call e i)) ∧ attempts call n BUSY e = (if n = 0 then 5 else answer call e (n - 1), after call e n)) := by
  suffices h : ∀ src, (∃ k, k < n ∧ (∀ i, i < k → Transient (answer call e i)) ∧ ¬ Transient (answer call e k) ∧ attempts call n src e = (answer call e k, after call e (k + 1))) ∨
    ((∀ i, i < n → Transient (answer call e i)) ∧ attempts call n src e = (if n = 0 then src else answer call e (n - 1), after call e n)) from h BUSY
  induction n generalizing e with
  | zero => intro src; right; exact ⟨fun i h => absurd h (by omega), rfl⟩
  | succ n ih =>
    intro src
    have hz : answer call e 0 = (call e).1 := rfl
    have hs : ∀ i, answer call e (i + 1) = answer call (call e).2 i := fun i => by rw [answer, after_succ]; rfl
    rw [attempts]
    by_cases ht : Transient (call e).1
    · have hc : ¬ ((call e).1 ≠ BUSY ∧ (call e).1 ≠ LOCKED) := by
        rintro ⟨a, b⟩; rcases ht with h | h
        · exact a h
        · exact b h
      rw [if_neg hc]
      rcases ih (call e).2 (call e).1 with ⟨k, hk, h1, h2, h3⟩ | ⟨h1, h2⟩
      · left
        refine ⟨k + 1, by omega, ?_, by rw [hs]; exact h2, by rw [h3, hs, after_succ call e (k + 1)]⟩
        intro i hi
        cases i with
        | zero => exact ht
        | succ i => rw [hs]; exact h1 i (by omega)
      · right
        refine ⟨?_, ?_⟩
        · intro i hi
          cases i with
          | zero => exact ht
          | succ i => rw [hs]; exact h1 i (by omega)
        · rw [h2, after_succ]
          cases n with
          | zero => rfl
          | succ n => simp [hs]
    · left
      have hc : (call e).1 ≠ BUSY ∧ (call e).1 ≠ LOCKED := ⟨fun h => ht (Or.inl h), fun h => ht (Or.inr h)⟩
      rw [if_pos hc]
      exact ⟨0, by omega, fun i h => absurd h (by omega), ht, rfl⟩

/-- C69: `sqlite3_run_query` reports busy or locked only if every one of its `retries` attempts was refused. -/
theorem C69_run (p : Ptr) (retries : Nat) (c : Conn) (h : Transient (runQuery p retries c).1) :
    ∀ i, i < retries → Transient (answer (fun e : Ptr × Conn => step e.1 e.2) (p, c) i) := by
  rcases C69_first (fun e : Ptr × Conn => step e.1 e.2) retries (p, c) with ⟨k, hk, h1, h2, h3⟩ | ⟨h1, -⟩
  · rw [runQuery, h3] at h; exact absurd h h2
  · exact h1

/-- C69: the same for `sqlite3_prepare_statement`. -/
theorem C69_prepare (sql : Str) (retries : Nat) (c : Conn) (code : Int) (p : Ptr) (c' : Conn) (hr : prepareStatement sql retries c = .ok (code, p, c')) (h : Transient code) :
    ∀ i, i < retries → Transient (answer (fun e : Ptr × Conn => prepareV2 e.2 sql) (.unset, c) i) := by
  rcases C69_first (fun e : Ptr × Conn => prepareV2 e.2 sql) retries (.unset, c) with ⟨k, hk, h1, h2, h3⟩ | ⟨h1, -⟩
  · exfalso
    unfold prepareStatement at hr
    simp only [h3] at hr
    split at hr
    · generalize finalize _ _ = o at hr
      cases o with
      | ok x => simp only [Outcome.bind, Outcome.ok.injEq, Prod.mk.injEq] at hr; rw [hr.1] at h2; exact h2 h
      | _ => simp [Outcome.bind] at hr
    · simp only [Outcome.ok.injEq, Prod.mk.injEq] at hr; rw [hr.1] at h2; exact h2 h
  · exact h1

/-- C69: four refusals are survived with the default bound of 5, the statement then does what it would have done; five are not. -/
example : runQuery (.fresh (.create (lit "T") [lit "A"])) 5 ⟨[], [some .busy, some .locked, some .busy, some .busy], 1⟩ = (DONE, .running (.create (lit "T") [lit "A"]) none [], ⟨[(lit "T", ⟨[lit "A"], [], true⟩)], [], 1⟩) ∧
    Transient (runQuery (.fresh (.create (lit "T") [lit "A"])) 5 ⟨[], List.replicate 5 (some .busy), 1⟩).1 := by decide +kernel

/-! ### C81 -/

/-- A pointer that holds a statement. -/
def Ptr.isStmt : Ptr → Bool
  | .fresh _ => true
  | .running _ _ _ => true
  | _ => false

theorem prepareV2_live (c : Conn) (sql : Str) : (prepareV2 c sql).2.1 ≠ .unset ∧
    (prepareV2 c sql).2.2.live = c.live + (if (prepareV2 c sql).2.1.isStmt then 1 else 0) ∧ ((prepareV2 c sql).1 ≠ 0 → (prepareV2 c sql).2.1 = .null) ∧
    (prepareV2 c sql).2.2.tables = c.tables := by
  unfold prepareV2
  split
  · simp [Ptr.isStmt]
  · simp only
    split <;> simp [Ptr.isStmt, OK]

theorem prepareLoop_live (sql : Str) : ∀ (n : Nat) (src : Int) (p : Ptr) (c : Conn), ((p = .unset ∧ 0 < n) ∨ p = .null) →
    (n = 0 → src ≠ 0) → let r := attempts (fun e : Ptr × Conn => prepareV2 e.2 sql) n src (p, c)
    r.2.1 ≠ .unset ∧ r.2.2.live = c.live + (if r.2.1.isStmt then 1 else 0) ∧ (r.1 ≠ 0 → r.2.1 = .null) ∧ r.2.2.tables = c.tables := by
  intro n
  induction n with
  | zero =>
    intro src p c hp hs
    rcases hp with ⟨-, h⟩ | rfl
    · omega
    · simp [attempts, Ptr.isStmt]
  | succ n ih =>
    intro src p c hp _
    obtain ⟨h1, h2, h3, h4⟩ := prepareV2_live c sql
    simp only [attempts]
    by_cases hc : (prepareV2 c sql).1 ≠ BUSY ∧ (prepareV2 c sql).1 ≠ LOCKED
    · rw [if_pos hc]; exact ⟨h1, h2, h3, h4⟩
    · rw [if_neg hc]
      have h0 : (prepareV2 c sql).1 ≠ 0 := by
        intro h; rw [h] at hc; exact hc (by decide)
      have hn := h3 h0
      have := ih (prepareV2 c sql).1 (prepareV2 c sql).2.1 (prepareV2 c sql).2.2 (Or.inr hn) (fun _ => h0)
      simp only at this
      rw [hn] at h2
      have h2' : (prepareV2 c sql).2.2.live = c.live := by simpa [Ptr.isStmt] using h2
      rw [h2', h4] at this
      exact this

/-- What `prepareStatement` returns when at least one attempt is allowed. -/
theorem prepareStatement_live (sql : Str) (retries : Nat) (hr : 0 < retries) (c : Conn) : ∃ code p c', prepareStatement sql retries c = .ok (code, p, c') ∧ p ≠ .unset ∧
    c'.live = c.live + (if p.isStmt then 1 else 0) ∧ (code ≠ 0 → p = .null) ∧ c'.tables = c.tables := by
  have h := prepareLoop_live sql retries BUSY .unset c (Or.inl ⟨rfl, hr⟩) (fun h => by omega)
  unfold prepareStatement
  generalize attempts (fun e : Ptr × Conn => prepareV2 e.2 sql) retries BUSY (.unset, c) = r at h
  obtain ⟨code, p, c'⟩ := r
  simp only at h
  obtain ⟨h1, h2, h3, h4⟩ := h
  by_cases h0 : code = 0
  · exact ⟨code, p, c', by simp [h0], h1, h2, h3, h4⟩
  · have hp := h3 h0
    subst hp
    exact ⟨code, .null, c', by simp [h0, finalize, Outcome.bind], h1, h2, h3, h4⟩

theorem step_live (p : Ptr) (c : Conn) : (step p c).2.2.live = c.live ∧ (step p c).2.1.isStmt = p.isStmt ∧ ((step p c).2.1 = .unset ↔ p = .unset) := by
  unfold step
  split
  · cases p <;> simp [Ptr.reset, Ptr.isStmt]
  · simp only
    split
    · split <;> simp [Ptr.isStmt]
    · simp [Ptr.isStmt]
    · simp [Ptr.isStmt]
    · simp

theorem runQuery_live (p : Ptr) (retries : Nat) (c : Conn) :
    (runQuery p retries c).2.2.live = c.live ∧ (runQuery p retries c).2.1.isStmt = p.isStmt ∧ ((runQuery p retries c).2.1 = .unset ↔ p = .unset) := by
  unfold runQuery
  generalize BUSY = src
  induction retries generalizing p c src with
  | zero => simp [attempts]
  | succ n ih =>
    obtain ⟨h1, h2, h3⟩ := step_live p c
    simp only [attempts]
    split
    · exact ⟨h1, h2, h3⟩
    · obtain ⟨a, b, d⟩ := ih (step p c).2.1 (step p c).2.2 (step p c).1
      refine ⟨a.trans h1, b.trans h2, d.trans h3⟩

theorem finalize_live (p : Ptr) (c : Conn) (hp : p ≠ .unset) : ∃ c', finalize p c = .ok c' ∧ c'.live = c.live - (if p.isStmt then 1 else 0) ∧ c'.tables = c.tables ∧ c'.noise = c.noise := by
  cases p <;> simp [finalize, Ptr.isStmt] at hp ⊢

/-- C81: `sqlite3_exists` and the `sqlite3_single_lookup` functions, with at least one attempt, always return, and finalise every statement they prepare, whatever the text,
whatever is refused and whatever the answer. -/
theorem C81_lookup {α : Type} (read : Ptr → α) (sql : Str) (retries : Nat) (hr : 0 < retries) (c : Conn) : ∃ x c', lookupWith read sql retries c = .ok (x, c') ∧ c'.live = c.live := by
  obtain ⟨code, p, c1, h, hp, hl, hn, -⟩ := prepareStatement_live sql retries hr c
  unfold lookupWith
  rw [h]
  simp only [Outcome.bind]
  by_cases h0 : code = 0
  · rw [if_neg (by simpa using h0)]
    obtain ⟨a, b, d⟩ := runQuery_live p retries c1
    obtain ⟨c2, e, f, -, -⟩ := finalize_live _ (runQuery p retries c1).2.2 (fun h => hp (d.1 h))
    rw [e]
    refine ⟨_, c2, rfl, ?_⟩
    rw [f, a, b, hl]; omega
  · rw [if_pos h0]
    refine ⟨none, c1, rfl, ?_⟩
    rw [hl, hn h0]; simp [Ptr.isStmt]

/-- C81: the same for `sqlite_command`. -/
theorem C81_command (sql : Str) (retries : Nat) (hr : 0 < retries) (c : Conn) : ∃ b code c', command sql retries c = .ok (b, code, c') ∧ c'.live = c.live := by
  obtain ⟨code, p, c1, h, hp, hl, hn, -⟩ := prepareStatement_live sql retries hr c
  unfold command
  rw [h]
  simp only [Outcome.bind]
  by_cases h0 : code = 0
  · rw [if_neg (by simpa using h0)]
    obtain ⟨a, b, d⟩ := runQuery_live p retries c1
    obtain ⟨c2, e, f, -, -⟩ := finalize_live _ (runQuery p retries c1).2.2 (fun h => hp (d.1 h))
    rw [e]
    refine ⟨_, _, c2, rfl, ?_⟩
    rw [f, a, b, hl]; omega
  · rw [if_pos h0]
    refine ⟨false, -2, c1, rfl, ?_⟩
    rw [hl, hn h0]; simp [Ptr.isStmt]

/-- Any number of `sqlStep` calls, with anything else done on the connection in between that leaves the number of statements alone. -/
def steps (q : Query) (c : Conn) : Nat → Query × Conn
  | 0 => (q, c)
  | k + 1 => let r := (steps q c k).1.step (steps q c k).2; (r.2.1, r.2.2)

/-- C81: an object of class `sqlQuery`, however often it is stepped, has its statement finalised by its destructor. -/
theorem C81_query (table cols cond : Str) (c : Conn) (k : Nat) : ∃ q c1, queryStart table cols cond c = .ok (q, c1) ∧
    ∃ c', (steps q c1 k).1.destroy (steps q c1 k).2 = .ok c' ∧ c'.live = c.live := by
  obtain ⟨code, p, c1, h, hp, hl, hn, -⟩ := prepareStatement_live (Utils.format (selectText table cols cond)) 5 (by omega) c
  unfold queryStart
  rw [h]
  simp only [Outcome.bind]
  -- the invariant
  have key : ∀ (q : Query) (c1 : Conn), q.stmt ≠ .unset → c1.live = c.live + (if q.stmt.isStmt then 1 else 0) →
      ∃ c', (steps q c1 k).1.destroy (steps q c1 k).2 = .ok c' ∧ c'.live = c.live := by
    intro q c1 hu hv
    have inv : (steps q c1 k).1.stmt ≠ .unset ∧ (steps q c1 k).2.live = c.live + (if (steps q c1 k).1.stmt.isStmt then 1 else 0) := by
      induction k with
      | zero => exact ⟨hu, hv⟩
      | succ k ih =>
        simp only [steps, Query.step]
        split
        · obtain ⟨a, b, d⟩ := runQuery_live (steps q c1 k).1.stmt 5 (steps q c1 k).2
          refine ⟨fun h => ih.1 (d.1 h), ?_⟩
          simp only [a, b]; exact ih.2
        · exact ih
    obtain ⟨i1, i2⟩ := inv
    unfold Query.destroy
    split
    · obtain ⟨c', e, f, -, -⟩ := finalize_live _ (steps q c1 k).2 i1
      exact ⟨c', e, by rw [f, i2]; omega⟩
    · rename_i hnull
      simp only [ne_eq, not_not] at hnull
      exact ⟨_, rfl, by rw [i2, hnull]; simp [Ptr.isStmt]⟩
  by_cases h0 : code = 0
  · rw [if_neg (by simpa using h0)]
    obtain ⟨a, b, d⟩ := runQuery_live p 5 c1
    exact ⟨_, _, rfl, key _ _ (fun h => hp (d.1 h)) (by simp only [a, b]; exact hl)⟩
  · rw [if_pos h0]
    exact ⟨_, _, rfl, key _ _ (by simp) (by rw [hl, hn h0])⟩

/-- C81 (negation): with a bound of 0 attempts the functions finalise a pointer that was never written. -/
theorem C81_zero_refuted {α : Type} (read : Ptr → α) (sql : Str) (c : Conn) : lookupWith read sql 0 c = .ub ∧ command sql 0 c = .ub := by
  simp [lookupWith, command, prepareStatement, attempts, finalize, Outcome.bind, BUSY]

/-- C81: a command on a table that exists and a text that is no statement. -/
example : (command createText 5 ⟨[], [some .busy], 3⟩) = .ok (true, DONE, ⟨[(lit "ATTR_TABLE", attrTbl)], [], 3⟩) ∧ (command (lit "nonsense") 5 ⟨[], [], 3⟩) = .ok (false, -2, ⟨[], [], 3⟩) ∧
    (command (lit "") 5 ⟨[], [], 3⟩) = .ok (false, MISUSE, ⟨[], [], 3⟩) := by decide +kernel

/-! ### C85 -/

theorem sprintfTo_ok {size : Nat} {t : Str} (h : t.length + 1 ≤ size) : sprintfTo size t = .ok t := if_pos h

/-- C85: every text built with `sprintf` by the existence check and the lookups fits its buffer and is complete, for all names and keys. -/
theorem C85_texts (table keyName keyData valueName : Str) (n : Nat) (hn : n < 2 ^ 32) :
    existsText table keyName keyData = .ok (lit "SELECT * FROM " ++ table ++ lit " WHERE " ++ keyName ++ lit " == \"" ++ keyData ++ lit "\"") ∧
    lookupText table keyName keyData valueName = .ok (lit "SELECT " ++ valueName ++ lit " FROM " ++ table ++ lit " WHERE " ++ keyName ++ lit " == \"" ++ keyData ++ lit "\"") ∧
    lookupNumText table keyName n valueName = .ok (lit "SELECT " ++ valueName ++ lit " FROM " ++ table ++ lit " WHERE " ++ keyName ++ lit " == " ++ natText 10 n) := by
  have e1 : (lit "SELECT * FROM ").length = 14 := by decide
  have e2 : (lit " WHERE ").length = 7 := by decide
  have e3 : (lit " == \"").length = 5 := by decide
  have e4 : (lit "\"").length = 1 := by decide
  have e5 : (lit "SELECT ").length = 7 := by decide
  have e6 : (lit " FROM ").length = 6 := by decide
  have e7 : (lit " == ").length = 4 := by decide
  have e8 := (natText_length n 10 (by omega)).2 (by omega)
  refine ⟨sprintfTo_ok ?_, sprintfTo_ok ?_, sprintfTo_ok ?_⟩ <;> simp only [List.length_append, e1, e2, e3, e4, e5, e6, e7] <;> omega

/-- C85: a usual lookup. -/
example : lookupText (lit "SIP_BUDDIES") (lit "username") (lit "IMSI001010000000001") (lit "ipaddr") = .ok (lit "SELECT ipaddr FROM SIP_BUDDIES WHERE username == \"IMSI001010000000001\"") := by decide +kernel

end Verif.Sqlite
