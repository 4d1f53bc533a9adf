import Verif.Config.TableProps

/-
Property C161: a table whose update hook calls `purge` (`Configuration.h:292-293`, `Configuration.cpp:947-951`), as `ConfigurationTest.cpp:39-49` does.

SQLite calls the function given to `sqlite3_update_hook` during `sqlite3_step`, in the thread that runs the statement, once for each row that a statement of this connection inserts, updates or deletes; rows
deleted to make room for a replacement are not counted, and changes by other connections, in this program or another, are not told.  `purge` locks `mLock` again, which the thread holds already; the mutex is
recursive (`Threads.cpp`, C30), so it goes on.
-/

namespace Verif.Config.Hook
open Verif Verif.Config

/-! ### Model -/

/-- The hook: `gConfig.purge()`, once for each changed row. -/
def told (n : Nat) (s : Table) : Table := match n with | 0 => s | n + 1 => told n (purge s)

/-- `set` (`Configuration.cpp:892-907`) with the hook: the statement inserts one row, the hook empties the cache, then the new value is stored in it. -/
def setStr' (s : Table) (k v : Str) : Table × Bool :=
  match sqlExec s.db (setCmd s k v) with
  | some db' =>
    let s1 := told 1 { s with db := db' }
    ({ s1 with cache := put s1.cache k (some ⟨v, true⟩) }, true)
  | none => (s, false)

/-- `remove` (`Configuration.cpp:827-838`) with the hook: once for each row deleted. -/
def remove' (s : Table) (k : Str) : Table × Bool :=
  let s0 := { s with cache := put s.cache k none }
  match sqlExec s0.db (removeCmd k) with
  | some db' => (told (s0.db.length - db'.length) { s0 with db := db' }, true)
  | none => (s0, false)

/-- One event on a table with the hook. -/
def step' (s : Table) : Op → Table
  | .set k v => (setStr' s k v).1
  | .setNum k n => (setStr' s k (intText n)).1
  | .remove k => (remove' s k).1
  | op => step s op

def run' (s : Table) (ops : List Op) : Table := ops.foldl step' s

/-! ### Lemmas -/

theorem told_eq (n : Nat) (s : Table) : (told n s).db = s.db ∧ (told n s).schema = s.schema ∧ (told n s).last = s.last ∧ (told n s).now = s.now ∧
    (∀ x r, (told n s).cache x = some r → s.cache x = some r) ∧ (n ≠ 0 → (told n s).cache = fun _ => none) := by
  induction n generalizing s with
  | zero => exact ⟨rfl, rfl, rfl, rfl, fun _ _ h => h, fun h => absurd rfl h⟩
  | succ n ih =>
    obtain ⟨h1, h2, h3, h4, h5, h6⟩ := ih (purge s)
    refine ⟨h1, h2, h3, h4, fun x r h => ?_, fun _ => ?_⟩
    · have : (none : Option Rec) = some r := h5 x r h
      cases this
    by_cases hn : n = 0
    · subst hn; rfl
    · exact h6 hn

/-- With the hook everything is as without it, only the cache may hold less. -/
theorem step_less (s : Table) (op : Op) : (step' s op).db = (step s op).db ∧ (step' s op).schema = (step s op).schema ∧ (step' s op).last = (step s op).last ∧ (step' s op).now = (step s op).now ∧
    ∀ x r, (step' s op).cache x = some r → (step s op).cache x = some r := by
  have set : ∀ k v, (setStr' s k v).1.db = (setStr s k v).1.db ∧ (setStr' s k v).1.schema = (setStr s k v).1.schema ∧ (setStr' s k v).1.last = (setStr s k v).1.last ∧
      (setStr' s k v).1.now = (setStr s k v).1.now ∧ ∀ x r, (setStr' s k v).1.cache x = some r → (setStr s k v).1.cache x = some r := by
    intro k v
    unfold setStr' setStr
    cases sqlExec s.db (setCmd s k v) with
    | some db' =>
      refine ⟨rfl, rfl, rfl, rfl, fun x r h => ?_⟩
      simp only [put, told, purge] at h ⊢
      split at h
      · next e => rw [if_pos e]; exact h
      · cases h
    | none => exact ⟨rfl, rfl, rfl, rfl, fun _ _ h => h⟩
  cases op with
  | set k v => exact set k v
  | setNum k n => exact set k (intText n)
  | remove k =>
    simp only [step', step, remove', remove]
    cases sqlExec s.db (removeCmd k) with
    | some db' =>
      obtain ⟨h1, h2, h3, h4, h5, -⟩ := told_eq (s.db.length - db'.length) { s with db := db', cache := put s.cache k none }
      exact ⟨h1, h2, h3, h4, h5⟩
    | none => exact ⟨rfl, rfl, rfl, rfl, fun _ _ h => h⟩
  | _ => exact ⟨rfl, rfl, rfl, rfl, fun _ _ h => h⟩

theorem run_ok' {m : Str → Option Str} {s : Table} {ops : List Op} (hs : CleanSchema s.schema) (hc : ∀ op ∈ ops, CleanOp s.schema op) (hd : DbOk m s) (h : CacheOk m s) :
    DbOk (idealRun m ops) (run' s ops) ∧ CacheOk (idealRun m ops) (run' s ops) ∧ (run' s ops).schema = s.schema := by
  induction ops generalizing m s with
  | nil => exact ⟨hd, h, rfl⟩
  | cons op ops ih =>
    have hop := hc op (by simp)
    obtain ⟨h1, h2⟩ := step_dbOk hs hop hd
    have h3 := step_cacheOk hs hop hd h
    obtain ⟨e1, e2, -, -, e5⟩ := step_less s op
    have e2' : (step' s op).schema = s.schema := e2.trans h2
    have h1' : DbOk (ideal m op) (step' s op) := fun k hk => by rw [e1]; exact h1 k hk
    have h3' : CacheOk (ideal m op) (step' s op) := fun k r hk hr => by rw [e2]; exact h3 k r hk (e5 k r hr)
    have := ih (m := ideal m op) (s := step' s op) (by rw [e2']; exact hs) (by intro o ho; rw [e2']; exact hc o (by simp [ho])) h1' h3'
    rw [e2'] at this
    exact this

/-- A table that holds nothing, or only what was just stored, is in order. -/
theorem from_ok {s : Table} (hs : CleanSchema s.schema) (h : CacheOk (contents s.db) s) (after : List Op) (hc : ∀ op ∈ after, CleanOp s.schema op) (x : Str) (hx : CleanKey x) :
    (getStr (run' s after) x).2 = answer s.schema (idealRun (contents s.db) after) x := by
  obtain ⟨h1, h2, h3⟩ := run_ok' (m := contents s.db) hs hc (fun _ _ => rfl) h
  have := (lookup_of_cacheOk hx h1 (cacheOk_age h2)).1
  rw [h3] at this
  exact this

/-- A row of the key is in the database. -/
def Has (db : Db) (k : Str) : Prop := ∃ r ∈ db, r.1 = k

theorem filter_shorter {db : Db} {k : Str} : db.length - (db.filter fun r => r.1 ≠ k).length ≠ 0 ↔ Has db k := by
  have hle := List.length_filter_le (fun r : Str × Option Str => decide (r.1 ≠ k)) db
  have hiff := List.length_filter_eq_length_iff (p := fun r : Str × Option Str => decide (r.1 ≠ k)) (l := db)
  unfold Has
  constructor
  · intro h
    have hn : ¬ (db.filter fun r => decide (r.1 ≠ k)).length = db.length := by omega
    rw [hiff] at hn
    simpa using hn
  · rintro ⟨r, hr, e⟩ h
    have := hiff.1 (by omega) r hr
    simp [e] at this

/-! ### C161 -/

/-- C161, partial: with the hook, a `set` by this program makes everything other programs have written before visible at once, in every key, whatever was read, and cached, before and whatever the clock says: each read
afterwards returns the contents of the database at that moment with the changes made since by this program.  Missing: changes by others that come later (`C161_other_refuted`), quotes as in C53. -/
theorem C161_set_partial (s : Table) (before after : List Op) (k v x : Str) (hk : CleanKey k) (hv : CleanValue v) (hs : CleanSchema (run' s before).schema)
    (hc : ∀ op ∈ after, CleanOp (run' s before).schema op) (hx : CleanKey x) :
    (getStr (run' s (before ++ .set k v :: after)) x).2 = answer (run' s before).schema (idealRun (fun y => if y = k then some v else contents (run' s before).db y) after) x := by
  have e : run' s (before ++ .set k v :: after) = run' (setStr' (run' s before) k v).1 after := by simp [run', List.foldl_append, step']
  have e2 : setStr' (run' s before) k v = ({ run' s before with db := stored (run' s before).db k v, cache := put (fun _ => none) k (some ⟨v, true⟩) }, true) := by
    unfold setStr'
    rw [C61_set_partial (run' s before) (run' s before).db k v ⟨hk.1, hk.2.2.1⟩ hv hs]
    rfl
  rw [e, e2]
  have hcon : contents (stored (run' s before).db k v) = fun y => if y = k then some v else contents (run' s before).db y := funext fun y => contents_stored _ _ _ _ hv.2
  have := from_ok (s := { run' s before with db := stored (run' s before).db k v, cache := put (fun _ => none) k (some ⟨v, true⟩) }) hs (fun y r hy hr => by
    simp only [put] at hr
    split at hr
    · next e => subst e; cases hr; dsimp only; rw [hcon]; simp [answer, recOf]
    · cases hr) after hc x hx
  dsimp only at this
  rw [hcon] at this
  exact this

/-- C161, partial: likewise a `remove` of a key that is in the database.  Missing: a `remove` that finds nothing (`C161_nothing_refuted`). -/
theorem C161_remove_partial (s : Table) (before after : List Op) (k x : Str) (hk : CleanKey k) (hh : Has (run' s before).db k) (hs : CleanSchema (run' s before).schema)
    (hc : ∀ op ∈ after, CleanOp (run' s before).schema op) (hx : CleanKey x) :
    (getStr (run' s (before ++ .remove k :: after)) x).2 = answer (run' s before).schema (idealRun (fun y => if y = k then none else contents (run' s before).db y) after) x := by
  have e : run' s (before ++ .remove k :: after) = run' (remove' (run' s before) k).1 after := by simp [run', List.foldl_append, step']
  obtain ⟨n, hn⟩ : ∃ n, n = (run' s before).db.length - ((run' s before).db.filter fun r => r.1 ≠ k).length := ⟨_, rfl⟩
  have hn0 : n ≠ 0 := by rw [hn]; exact filter_shorter.2 hh
  have e2 : (remove' (run' s before) k).1 = told n { run' s before with db := (run' s before).db.filter (fun r => r.1 ≠ k), cache := put (run' s before).cache k none } := by
    unfold remove'
    dsimp only
    rw [C61_remove_partial (run' s before).db k ⟨hk.2.1, hk.2.2.1⟩]
    dsimp only
    rw [← hn]
  rw [e, e2]
  obtain ⟨h1, h2, -, -, -, h6⟩ := told_eq n { run' s before with db := (run' s before).db.filter (fun r => r.1 ≠ k), cache := put (run' s before).cache k none }
  have hcon : contents ((run' s before).db.filter fun r => r.1 ≠ k) = fun y => if y = k then none else contents (run' s before).db y := funext fun y => contents_filter _ _ _
  have := from_ok (s := told n { run' s before with db := (run' s before).db.filter (fun r => r.1 ≠ k), cache := put (run' s before).cache k none }) (by rw [h2]; exact hs)
    (fun y r hy hr => by rw [h6 hn0] at hr; cases hr) after (by rw [h2]; exact hc) x hx
  rw [h1, h2] at this
  dsimp only at this
  rw [hcon] at this
  exact this

/-- C161: the hook changes nothing about what a program sees of its own changes: while no other program writes, all reads return the same with it and without it. -/
theorem C161_same_partial (db : Db) (schema : Str → Option Key) (last now : Int) (ops : List Op) (k : Str) (hs : CleanSchema schema) (hc : ∀ op ∈ ops, CleanOp schema op) (hk : CleanKey k) :
    (getStr (run' (fresh db schema last now) ops) k).2 = (getStr (run (fresh db schema last now) ops) k).2 := by
  rw [C53_getStr_partial db schema last now ops k hs hc hk]
  exact from_ok (s := fresh db schema last now) hs (fun _ _ _ hr => by cases hr) ops hc k hk

/-- C161 (negation): the hook is not called when another program changes the database: whatever the values, the old one is read until three seconds have passed. -/
theorem C161_other_refuted (db : Db) (schema : Str → Option Key) (last now : Int) (k v : Str) (hk : CleanKey k) (hv : contents db k = some v) (d : Int) (hd : 0 ≤ d) (hl : last ≤ now)
    (h3 : now + d < last + 3 ∨ (last + 3 ≤ now ∧ d < 3)) (db' : Db) :
    (getStr (run' (fresh db schema last now) [.read k, .ext db', .tick (now + d)]) k).2 = some v := by
  have hf : ∀ t : Table, t.db = db → fetch t k = ⟨v, true⟩ := by
    intro t ht
    unfold fetch
    rw [singleLookup_clean _ k hk, ht, hv]
  simp only [run', List.foldl_cons, List.foldl_nil, step', step, getStr]
  have key : ∀ (l : Int), lookup (fresh db schema last now) k = ({ fresh db schema last now with last := l, cache := put (fun _ => none) k (some ⟨v, true⟩) }, some v) → now + d - l < 3 →
      (lookup { (lookup (fresh db schema last now) k).1 with db := db', now := now + d } k).2 = some v := by
    intro l hlook hlt
    rw [hlook]
    unfold lookup checkCacheAge
    simp only [hlt, if_true, put]
  by_cases hold : now - last < 3
  · refine key last ?_ (by omega)
    unfold lookup checkCacheAge
    simp only [fresh, hold, if_true]
    rw [hf _ rfl]
    rfl
  · refine key now ?_ (by omega)
    unfold lookup checkCacheAge
    simp only [fresh, hold, if_false]
    rw [hf _ rfl]
    rfl

/-- C161 (negation): a `remove` that finds no row does not empty the cache, so a change by another program before it stays unseen. -/
theorem C161_nothing_refuted : (getStr (run' (fresh [(lit "K", some (lit "1"))] (fun _ => none) 100 100) [.read (lit "K"), .ext [(lit "K", some (lit "2"))], .remove (lit "L")]) (lit "K")).2 = some (lit "1") ∧
    (getStr (run' (fresh [(lit "K", some (lit "1"))] (fun _ => none) 100 100) [.read (lit "K"), .ext [(lit "K", some (lit "2"))], .set (lit "L") (lit "5"), .remove (lit "L")]) (lit "K")).2 = some (lit "2") := by
  decide +kernel

/-- What the hook is good for: without it, a `set` of another key leaves the old value in the cache. -/
example : (getStr (run (fresh [(lit "K", some (lit "1"))] (fun _ => none) 100 100) [.read (lit "K"), .ext [(lit "K", some (lit "2"))], .set (lit "L") (lit "5")]) (lit "K")).2 = some (lit "1") ∧
    (getStr (run' (fresh [(lit "K", some (lit "1"))] (fun _ => none) 100 100) [.read (lit "K"), .ext [(lit "K", some (lit "2"))], .set (lit "L") (lit "5")]) (lit "K")).2 = some (lit "2") := by decide +kernel

/-- Removing the key that is there. -/
example : Has [(lit "K", some (lit "1")), (lit "L", none)] (lit "L") ∧
    (getStr (run' (fresh [(lit "K", some (lit "1")), (lit "L", none)] (fun _ => none) 100 100) [.read (lit "K"), .ext [(lit "K", some (lit "2")), (lit "L", none)], .remove (lit "L")]) (lit "K")).2 = some (lit "2") :=
  ⟨⟨(lit "L", none), by simp, rfl⟩, by decide +kernel⟩

end Verif.Config.Hook
