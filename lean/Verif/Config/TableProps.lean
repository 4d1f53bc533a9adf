import Verif.Config.SqlProps

/-
Properties C53 and C54: what reads of the configuration table return.
-/

namespace Verif.Config

/-! ### Histories -/

/-- What can happen to a table. -/
inductive Op
  | set (k v : Str)
  | setNum (k : Str) (n : Int)
  | remove (k : Str)
  | purge
  | read (k : Str)
  | validate (k : Str)
  | tick (now : Int)
  | other (last : Int)
  | ext (db : Db)

/-- One event.  `other` is a lookup in another table of the same program (the time of the last purge is shared by all tables), `ext` another process changing the database. -/
def step (s : Table) : Op → Table
  | .set k v => (setStr s k v).1
  | .setNum k n => (setNum s k n).1
  | .remove k => (remove s k).1
  | .purge => purge s
  | .read k => (getStr s k).1
  | .validate k => touchSchema s k
  | .tick now => { s with now := now }
  | .other last => { s with last := last }
  | .ext db => { s with db := db }

/-- A history. -/
def run (s : Table) (ops : List Op) : Table := ops.foldl step s

/-- Events with clean texts (see C61) and known keys for `isValidValue`; another process does not write. -/
def CleanOp (schema : Str → Option Key) : Op → Prop
  | .set k v => CleanKey k ∧ CleanValue v
  | .setNum k _ => CleanKey k
  | .remove k => CleanKey k
  | .read k => CleanKey k
  | .validate k => (schema k).isSome
  | .ext _ => False
  | _ => True

/-! ### The specification -/

/-- The ideal contents: a map from keys to the values most recently set and not removed. -/
def ideal (m : Str → Option Str) : Op → (Str → Option Str)
  | .set k v => fun x => if x = k then some v else m x
  | .setNum k n => fun x => if x = k then some (intText n) else m x
  | .remove k => fun x => if x = k then none else m x
  | _ => m

/-- The ideal contents after a history. -/
def idealRun (m : Str → Option Str) (ops : List Op) : Str → Option Str := ops.foldl ideal m

/-- The ideal answer: the value, else the default, else "not found". -/
def answer (schema : Str → Option Key) (m : Str → Option Str) (k : Str) : Option Str := (m k).or ((schema k).map Key.dflt)

/-- The values in a database. -/
def contents (db : Db) (k : Str) : Option Str := ((db.find? fun r => r.1 = k).bind (·.2)).map cText

/-! ### Lemmas -/

theorem find_filter (db : Db) (k x : Str) : (db.filter fun r => decide (r.1 ≠ k)).find? (fun r => decide (r.1 = x)) = if x = k then none else db.find? fun r => decide (r.1 = x) := by
  induction db with
  | nil => simp
  | cons r db ih =>
    by_cases h : r.1 = k
    · rw [List.filter_cons_of_neg (by simpa using h), ih]
      split
      · rfl
      · next hx =>
        rw [List.find?_cons_of_neg]
        simp only [decide_eq_true_eq]
        intro e; exact hx (e.symm.trans h)
    · rw [List.filter_cons_of_pos (by simpa using h)]
      by_cases hx : r.1 = x
      · rw [List.find?_cons_of_pos (by simpa using hx), List.find?_cons_of_pos (by simpa using hx), if_neg (fun e => h (hx.trans e))]
      · rw [List.find?_cons_of_neg (by simpa using hx), List.find?_cons_of_neg (by simpa using hx), ih]

theorem contents_filter (db : Db) (k x : Str) : contents (db.filter fun r => r.1 ≠ k) x = if x = k then none else contents db x := by
  unfold contents
  rw [find_filter]
  split <;> rfl

theorem contents_stored (db : Db) (k v x : Str) (hv : (0 : Byte) ∉ v) : contents (stored db k v) x = if x = k then some v else contents db x := by
  unfold contents stored
  rw [List.find?_append, find_filter]
  by_cases h : x = k
  · subst h; simp [cText_self hv]
  · rw [if_neg h, if_neg h]
    have : List.find? (fun r => decide (r.1 = x)) [(k, some v)] = none := by simp [Ne.symm h]
    rw [this, Option.or_none]

theorem singleLookup_clean (db : Db) (k : Str) (hk : CleanKey k) : singleLookup db k = contents db k := by
  unfold singleLookup contents
  rw [C61_lookup_partial db k hk]
  cases h : db.find? (fun r => decide (r.1 = k)) with
  | none => rfl
  | some r => cases h2 : r.2 <;> simp [h2]

/-- The record belonging to an answer. -/
def recOf : Option Str → Rec
  | some v => ⟨v, true⟩
  | none => ⟨[], false⟩

theorem recOf_result (a : Option Str) : (if (recOf a).defined then some (recOf a).value else none) = a := by cases a <;> rfl

theorem fetch_clean (s : Table) (m : Str → Option Str) (k : Str) (hk : CleanKey k) (h : contents s.db k = m k) : fetch s k = recOf (answer s.schema m k) := by
  unfold fetch answer
  rw [singleLookup_clean s.db k hk, h]
  cases h1 : m k with
  | some v => rfl
  | none => cases h2 : s.schema k <;> rfl

/-- The database agrees with the ideal contents. -/
def DbOk (m : Str → Option Str) (s : Table) : Prop := ∀ k, CleanKey k → contents s.db k = m k

/-- The cache agrees with the ideal contents. -/
def CacheOk (m : Str → Option Str) (s : Table) : Prop := ∀ k r, CleanKey k → s.cache k = some r → r = recOf (answer s.schema m k)

theorem lookup_db (s : Table) (k : Str) : (lookup s k).1.db = s.db ∧ (lookup s k).1.schema = s.schema ∧ (lookup s k).1.now = s.now := by
  have h : (checkCacheAge s).db = s.db ∧ (checkCacheAge s).schema = s.schema ∧ (checkCacheAge s).now = s.now := by unfold checkCacheAge; split <;> exact ⟨rfl, rfl, rfl⟩
  unfold lookup
  simp only
  split <;> exact h

theorem lookup_of_cacheOk {m : Str → Option Str} {s : Table} {k : Str} (hk : CleanKey k) (hd : DbOk m s) (hc : CacheOk m (checkCacheAge s)) :
    (lookup s k).2 = answer s.schema m k ∧ CacheOk m (lookup s k).1 := by
  have hsch : (checkCacheAge s).schema = s.schema := by unfold checkCacheAge; split <;> rfl
  have hdb : (checkCacheAge s).db = s.db := by unfold checkCacheAge; split <;> rfl
  have hf : fetch (checkCacheAge s) k = recOf (answer (checkCacheAge s).schema m k) := fetch_clean _ m k hk (by rw [hdb]; exact hd k hk)
  unfold lookup
  simp only
  split
  · next r hr =>
    have := hc k r hk hr
    subst this
    rw [← hsch]
    exact ⟨recOf_result _, hc⟩
  · next hr =>
    refine ⟨by rw [hf, ← hsch]; exact recOf_result _, ?_⟩
    intro x r hx hxr
    simp only [put] at hxr
    split at hxr
    · next e => subst e; cases hxr; exact hf
    · exact hc x r hx hxr

theorem cacheOk_age {m : Str → Option Str} {s : Table} (hc : CacheOk m s) : CacheOk m (checkCacheAge s) := by
  unfold checkCacheAge
  split
  · exact hc
  · intro k r _ h; cases h

theorem intText_clean (n : Int) : CleanValue (intText n) := by
  have key : ∀ d, d < 10 → digitChar d ≠ chr '"' ∧ digitChar d ≠ 0 := by decide
  have nat : ∀ n : Nat, CleanValue (natText 10 n) := by
    intro n
    induction n using Nat.strongRecOn with
    | _ n ih =>
      unfold natText
      split
      · next h =>
        obtain ⟨h1, h2⟩ := ih (n / 10) (Nat.div_lt_self (by omega) (by omega))
        obtain ⟨h3, h4⟩ := key (n % 10) (by omega)
        refine ⟨?_, ?_⟩
        · simp only [List.mem_append, List.mem_singleton, not_or]; exact ⟨h1, Ne.symm h3⟩
        · simp only [List.mem_append, List.mem_singleton, not_or]; exact ⟨h2, Ne.symm h4⟩
      · next h =>
        obtain ⟨h3, h4⟩ := key n (by omega)
        exact ⟨by simpa using Ne.symm h3, by simpa using Ne.symm h4⟩
  unfold intText
  obtain ⟨h1, h2⟩ := nat n.natAbs
  split
  · refine ⟨?_, ?_⟩
    · simp only [List.mem_cons, not_or]; exact ⟨by decide, h1⟩
    · simp only [List.mem_cons, not_or]; exact ⟨by decide, h2⟩
  · exact ⟨h1, h2⟩

theorem setStr_clean (s : Table) (k v : Str) (hk : CleanKey k) (hv : CleanValue v) (hs : CleanSchema s.schema) :
    setStr s k v = ({ s with db := stored s.db k v, cache := put s.cache k (some ⟨v, true⟩) }, true) := by
  unfold setStr
  rw [C61_set_partial s s.db k v ⟨hk.1, hk.2.2.1⟩ hv hs]

theorem remove_clean (s : Table) (k : Str) (hk : CleanKey k) :
    remove s k = ({ s with db := s.db.filter (fun r => r.1 ≠ k), cache := put s.cache k none }, true) := by
  unfold remove
  rw [C61_remove_partial s.db k ⟨hk.2.1, hk.2.2.1⟩]

/-- One clean event keeps the agreement of the database. -/
theorem step_dbOk {m : Str → Option Str} {s : Table} {op : Op} (hs : CleanSchema s.schema) (hc : CleanOp s.schema op) (h : DbOk m s) :
    DbOk (ideal m op) (step s op) ∧ (step s op).schema = s.schema := by
  have set : ∀ k v, CleanKey k → CleanValue v → DbOk (ideal m (.set k v)) (setStr s k v).1 ∧ (setStr s k v).1.schema = s.schema := by
    intro k v hk hv
    rw [setStr_clean s k v hk hv hs]
    refine ⟨?_, rfl⟩
    intro x hx
    show contents (stored s.db k v) x = if x = k then some v else m x
    rw [contents_stored _ _ _ _ hv.2, h x hx]
  cases op with
  | set k v => exact set k v hc.1 hc.2
  | setNum k n => exact set k (intText n) hc (intText_clean n)
  | remove k =>
    show DbOk _ (remove s k).1 ∧ (remove s k).1.schema = s.schema
    rw [remove_clean s k hc]
    refine ⟨?_, rfl⟩
    intro x hx
    show contents (s.db.filter fun r => r.1 ≠ k) x = if x = k then none else m x
    rw [contents_filter, h x hx]
  | purge => exact ⟨h, rfl⟩
  | read k =>
    obtain ⟨h1, h2, -⟩ := lookup_db s k
    refine ⟨?_, h2⟩
    intro x hx
    show contents (lookup s k).1.db x = m x
    rw [h1]; exact h x hx
  | validate k =>
    have : touchSchema s k = s := by
      unfold touchSchema
      have hc : (s.schema k).isSome := hc
      cases h : s.schema k with
      | none => rw [h] at hc; cases hc
      | some _ => rfl
    show DbOk m (touchSchema s k) ∧ (touchSchema s k).schema = s.schema
    rw [this]; exact ⟨h, rfl⟩
  | tick t => exact ⟨h, rfl⟩
  | other t => exact ⟨h, rfl⟩
  | ext db => cases hc

/-- One clean event keeps the agreement of the cache. -/
theorem step_cacheOk {m : Str → Option Str} {s : Table} {op : Op} (hs : CleanSchema s.schema) (hc : CleanOp s.schema op) (hd : DbOk m s) (h : CacheOk m s) :
    CacheOk (ideal m op) (step s op) := by
  have set : ∀ k v, CleanKey k → CleanValue v → CacheOk (ideal m (.set k v)) (setStr s k v).1 := by
    intro k v hk hv
    rw [setStr_clean s k v hk hv hs]
    intro x r hx hr
    show r = recOf (answer s.schema (fun x => if x = k then some v else m x) x)
    simp only [put] at hr
    unfold answer
    simp only
    split at hr
    · next e => subst e; cases hr; simp [recOf]
    · next e => simp only [if_neg e]; exact h x r hx hr
  cases op with
  | set k v => exact set k v hc.1 hc.2
  | setNum k n => exact set k (intText n) hc (intText_clean n)
  | remove k =>
    show CacheOk _ (remove s k).1
    rw [remove_clean s k hc]
    intro x r hx hr
    show r = recOf (answer s.schema (fun x => if x = k then none else m x) x)
    simp only [put] at hr
    unfold answer
    simp only
    split at hr
    · cases hr
    · next e => simp only [if_neg e]; exact h x r hx hr
  | purge => intro x r _ hr; cases hr
  | read k => exact (lookup_of_cacheOk hc hd (cacheOk_age h)).2
  | validate k =>
    have : touchSchema s k = s := by
      unfold touchSchema
      have hc : (s.schema k).isSome := hc
      cases h : s.schema k with
      | none => rw [h] at hc; cases hc
      | some _ => rfl
    show CacheOk m (touchSchema s k)
    rw [this]; exact h
  | tick t => exact h
  | other t => exact h
  | ext db => cases hc

theorem run_ok {m : Str → Option Str} {s : Table} {ops : List Op} (hs : CleanSchema s.schema) (hc : ∀ op ∈ ops, CleanOp s.schema op) (hd : DbOk m s) (h : CacheOk m s) :
    DbOk (idealRun m ops) (run s ops) ∧ CacheOk (idealRun m ops) (run s ops) ∧ (run s ops).schema = s.schema := by
  induction ops generalizing m s with
  | nil => exact ⟨hd, h, rfl⟩
  | cons op ops ih =>
    have hop := hc op (by simp)
    obtain ⟨h1, h2⟩ := step_dbOk hs hop hd
    have h3 := step_cacheOk hs hop hd h
    have := ih (m := ideal m op) (s := step s op) (by rw [h2]; exact hs) (by intro o ho; rw [h2]; exact hc o (by simp [ho])) h1 h3
    rw [h2] at this
    exact this

/-! ### C53 -/

/-- A table as constructed: any database, any schema, nothing cached; the shared time of the last purge is arbitrary. -/
def fresh (db : Db) (schema : Str → Option Key) (last now : Int) : Table := ⟨db, fun _ => none, schema, last, now⟩

/-- C53, partial: after any history of clean events (set, remove, purge, reads, passing time, lookups in other tables) a read returns the value most recently set and not
removed, else the default of the schema, else "not found".  Missing: keys or values with quotes (`C53_quotes_refuted`), keys that are column names (`C53_column_refuted`) and
validation of unknown keys (`C53_validation_refuted`). -/
theorem C53_getStr_partial (db : Db) (schema : Str → Option Key) (last now : Int) (ops : List Op) (k : Str) (hs : CleanSchema schema) (hc : ∀ op ∈ ops, CleanOp schema op)
    (hk : CleanKey k) : (getStr (run (fresh db schema last now) ops) k).2 = answer schema (idealRun (contents db) ops) k := by
  obtain ⟨h1, h2, h3⟩ := run_ok (m := contents db) (s := fresh db schema last now) hs hc (fun _ _ => rfl) (by intro x r _ hr; cases hr)
  have := (lookup_of_cacheOk hk h1 (cacheOk_age h2)).1
  rw [h3] at this
  exact this

/-- C53, partial: `defines` tells whether there is a value or a default. -/
theorem C53_defines_partial (db : Db) (schema : Str → Option Key) (last now : Int) (ops : List Op) (k : Str) (hs : CleanSchema schema) (hc : ∀ op ∈ ops, CleanOp schema op)
    (hk : CleanKey k) : (defines (run (fresh db schema last now) ops) k).2 = (answer schema (idealRun (contents db) ops) k).isSome := by
  have h := C53_getStr_partial db schema last now ops k hs hc hk
  show (lookup _ k).2.isSome = _
  unfold getStr at h
  rw [h]

/-- C53, partial: the cache never changes an answer: emptying it first gives the same. -/
theorem C53_cache_invisible_partial (db : Db) (schema : Str → Option Key) (last now : Int) (ops : List Op) (k : Str) (hs : CleanSchema schema)
    (hc : ∀ op ∈ ops, CleanOp schema op) (hk : CleanKey k) :
    (getStr (run (fresh db schema last now) ops) k).2 = (getStr (purge (run (fresh db schema last now) ops)) k).2 := by
  rw [C53_getStr_partial db schema last now ops k hs hc hk]
  have := C53_getStr_partial db schema last now (ops ++ [.purge]) k hs (by
    intro op h
    rcases List.mem_append.1 h with h | h
    · exact hc op h
    · rw [List.mem_singleton.1 h]; trivial) hk
  unfold run idealRun at this ⊢
  rw [List.foldl_append, List.foldl_append] at this
  exact this.symm

/-- C53, partial: `set` and `remove` report success. -/
theorem C53_reports_partial (s : Table) (k v : Str) (hs : CleanSchema s.schema) (hk : CleanKey k) (hv : CleanValue v) : (setStr s k v).2 = true ∧ (remove s k).2 = true := by
  rw [setStr_clean s k v hk hv hs, remove_clean s k hk]; exact ⟨rfl, rfl⟩

/-- C53: a `set` that reports failure (an SQL error) changes nothing: no later read of any key differs, with whatever happens in between. -/
theorem C53_failed_set (s : Table) (k v k' : Str) (ops : List Op) (h : (setStr s k v).2 = false) :
    (setStr s k v).1.db = s.db ∧ (getStr (run (setStr s k v).1 ops) k').2 = (getStr (run s ops) k').2 ∧ (defines (run (setStr s k v).1 ops) k').2 = (defines (run s ops) k').2 := by
  have : (setStr s k v).1 = s := by
    unfold setStr at h ⊢
    split at h
    · cases h
    · rfl
  rw [this]
  exact ⟨rfl, rfl, rfl⟩

/-- C53: such a `set`: the value has a quote. -/
example : (setStr (fresh [(lit "K", some (lit "1"))] (fun _ => none) 0 0) (lit "K") (lit "5\" disk")).2 = false ∧
    (getStr (setStr (fresh [(lit "K", some (lit "1"))] (fun _ => none) 0 0) (lit "K") (lit "5\" disk")).1 (lit "K")).2 = some (lit "1") := by decide +kernel

/-- C53: a history meeting the hypotheses: set, time passes, remove, set a number, another table purges. -/
example : ∀ op ∈ [Op.set (lit "A.B") (lit "x"), .read (lit "A.B"), .tick 5, .remove (lit "A.B"), .setNum (lit "C") (-7), .other 9, .purge], CleanOp (fun _ => none) op := by
  intro op h
  simp only [List.mem_cons, List.not_mem_nil, or_false] at h
  rcases h with rfl | rfl | rfl | rfl | rfl | rfl | rfl
  · exact (by decide +kernel : CleanKey (lit "A.B") ∧ CleanValue (lit "x"))
  · exact (by decide +kernel : CleanKey (lit "A.B"))
  · trivial
  · exact (by decide +kernel : CleanKey (lit "A.B"))
  · exact (by decide +kernel : CleanKey (lit "C"))
  · trivial
  · trivial

/-- C53 (negation): a value with doubled quotes reads back as given until the cache expires, then differently. -/
theorem C53_quotes_refuted : (getStr (run (fresh [] (fun _ => none) 0 0) [.set (lit "K") (lit "a\"\"b")]) (lit "K")).2 = some (lit "a\"\"b") ∧
    (getStr (run (fresh [] (fun _ => none) 0 0) [.set (lit "K") (lit "a\"\"b"), .tick 3]) (lit "K")).2 = some (lit "a\"b") := by decide +kernel

/-- C53 (negation): a key that happens to be a column name reads as the value of another key. -/
theorem C53_column_refuted : (getStr (run (fresh [] (fun _ => none) 0 0) [.set (lit "A") (lit "1"), .set (lit "KeyString") (lit "2"), .tick 3]) (lit "KeyString")).2 = some (lit "1") := by decide +kernel

/-- C53 (negation): asking whether a value would be valid for an unknown key makes the key known with an empty default. -/
theorem C53_validation_refuted : (getStr (run (fresh [] (fun _ => none) 0 0) []) (lit "K")).2 = none ∧
    (getStr (run (fresh [] (fun _ => none) 0 0) [.validate (lit "K")]) (lit "K")).2 = some [] := by decide +kernel

/-! ### C54 -/

/-- The clock does not run backwards, and no other table is used. -/
def Steady : Int → List Op → Prop
  | _, [] => True
  | t, .tick t' :: ops => t ≤ t' ∧ Steady t' ops
  | _, .other _ :: _ => False
  | t, _ :: ops => Steady t ops

theorem age_last (s : Table) (h : s.last ≤ s.now) : (checkCacheAge s).last ≤ s.now := by unfold checkCacheAge; split <;> simp_all

theorem lookup_last (s : Table) (k : Str) : (lookup s k).1.last = (checkCacheAge s).last := by
  unfold lookup
  simp only
  split <;> rfl

theorem last_le_now {s : Table} {ops : List Op} (hst : Steady s.now ops) (h : s.last ≤ s.now) : (run s ops).last ≤ (run s ops).now := by
  induction ops generalizing s with
  | nil => exact h
  | cons op ops ih =>
    have setLast : ∀ k v, (setStr s k v).1.last = s.last ∧ (setStr s k v).1.now = s.now := by intro k v; unfold setStr; split <;> exact ⟨rfl, rfl⟩
    refine ih (s := step s op) ?_ ?_
    · cases op with
      | set k v => show Steady (setStr s k v).1.now ops; rw [(setLast k v).2]; exact hst
      | setNum k n => show Steady (setStr s k (intText n)).1.now ops; rw [(setLast k _).2]; exact hst
      | remove k => show Steady (remove s k).1.now ops; unfold remove; split <;> exact hst
      | purge => exact hst
      | read k => show Steady (lookup s k).1.now ops; rw [(lookup_db s k).2.2]; exact hst
      | validate k => show Steady (touchSchema s k).now ops; unfold touchSchema; split <;> exact hst
      | tick t => exact hst.2
      | other t => cases hst
      | ext db => exact hst
    · cases op with
      | set k v => show (setStr s k v).1.last ≤ (setStr s k v).1.now; rw [(setLast k v).1, (setLast k v).2]; exact h
      | setNum k n => show (setStr s k (intText n)).1.last ≤ (setStr s k (intText n)).1.now; rw [(setLast k _).1, (setLast k _).2]; exact h
      | remove k => show (remove s k).1.last ≤ (remove s k).1.now; unfold remove; split <;> exact h
      | purge => exact h
      | read k => show (lookup s k).1.last ≤ (lookup s k).1.now; rw [lookup_last, (lookup_db s k).2.2]; exact age_last s h
      | validate k => show (touchSchema s k).last ≤ (touchSchema s k).now; unfold touchSchema; split <;> exact h
      | tick t => exact Int.le_trans h hst.1
      | other t => cases hst
      | ext db => exact h

/-- From some moment `c` on: either the cache agrees, or it was last purged at `c` or before. -/
theorem run_recovers {m : Str → Option Str} {s : Table} {ops : List Op} {c : Int} (hs : CleanSchema s.schema) (hc : ∀ op ∈ ops, CleanOp s.schema op)
    (hst : Steady s.now ops) (hd : DbOk m s) (h : CacheOk m s ∨ s.last ≤ c) :
    DbOk (idealRun m ops) (run s ops) ∧ (CacheOk (idealRun m ops) (run s ops) ∨ (run s ops).last ≤ c) ∧ (run s ops).schema = s.schema := by
  induction ops generalizing m s with
  | nil => exact ⟨hd, h, rfl⟩
  | cons op ops ih =>
    have hop := hc op (by simp)
    obtain ⟨h1, h2⟩ := step_dbOk hs hop hd
    have setLast : ∀ k v, (setStr s k v).1.last = s.last ∧ (setStr s k v).1.now = s.now := by intro k v; unfold setStr; split <;> exact ⟨rfl, rfl⟩
    have h3 : CacheOk (ideal m op) (step s op) ∨ (step s op).last ≤ c := by
      rcases h with h | h
      · exact .inl (step_cacheOk hs hop hd h)
      · cases op with
        | set k v => right; show (setStr s k v).1.last ≤ c; rw [(setLast k v).1]; exact h
        | setNum k n => right; show (setStr s k (intText n)).1.last ≤ c; rw [(setLast k _).1]; exact h
        | remove k => right; show (remove s k).1.last ≤ c; unfold remove; split <;> exact h
        | purge => right; exact h
        | read k =>
          by_cases hl : s.now - s.last < 3
          · right
            show (lookup s k).1.last ≤ c
            rw [lookup_last]
            unfold checkCacheAge
            rw [if_pos hl]
            exact h
          · left
            refine (lookup_of_cacheOk hop hd ?_).2
            unfold checkCacheAge
            rw [if_neg hl]
            intro x r _ hr; cases hr
        | validate k => right; show (touchSchema s k).last ≤ c; unfold touchSchema; split <;> exact h
        | tick t => right; exact h
        | other t => cases hst
        | ext db => cases hop
    have h4 : Steady (step s op).now ops := by
      cases op with
      | set k v => show Steady (setStr s k v).1.now ops; rw [(setLast k v).2]; exact hst
      | setNum k n => show Steady (setStr s k (intText n)).1.now ops; rw [(setLast k _).2]; exact hst
      | remove k => show Steady (remove s k).1.now ops; unfold remove; split <;> exact hst
      | purge => exact hst
      | read k => show Steady (lookup s k).1.now ops; rw [(lookup_db s k).2.2]; exact hst
      | validate k => show Steady (touchSchema s k).now ops; unfold touchSchema; split <;> exact hst
      | tick t => exact hst.2
      | other t => cases hst
      | ext db => cases hop
    have := ih (m := ideal m op) (s := step s op) (by rw [h2]; exact hs) (by intro o ho; rw [h2]; exact hc o (by simp [ho])) h4 h1 h3
    rw [h2] at this
    exact this

/-- C54, partial: with one table and a clock that does not run backwards, three seconds after the last change made by another process (after whatever happened before, and whatever
this process did meanwhile) every read returns what is in the database.  Missing: several tables (`C54_two_tables_refuted`), clock set back (`C54_clock_refuted`). -/
theorem C54_visible_partial (s0 : Table) (before after : List Op) (k : Str) (hl : s0.last ≤ s0.now) (hb : Steady s0.now before) (hs : CleanSchema (run s0 before).schema)
    (ha : Steady (run s0 before).now after) (hc : ∀ op ∈ after, CleanOp (run s0 before).schema op) (hk : CleanKey k)
    (h3 : (run s0 before).now + 3 ≤ (run (run s0 before) after).now) :
    (getStr (run (run s0 before) after) k).2 = answer (run s0 before).schema (idealRun (contents (run s0 before).db) after) k := by
  have hln := last_le_now hb hl
  obtain ⟨h1, h2, hsch⟩ := run_recovers (m := contents (run s0 before).db) (c := (run s0 before).now) hs hc ha (fun _ _ => rfl) (.inr hln)
  have hok : CacheOk (idealRun (contents (run s0 before).db) after) (checkCacheAge (run (run s0 before) after)) := by
    rcases h2 with h2 | h2
    · exact cacheOk_age h2
    · unfold checkCacheAge
      rw [if_neg (by omega)]
      intro x r _ hr; cases hr
  have := (lookup_of_cacheOk hk h1 hok).1
  rw [hsch] at this
  exact this

/-- C54: a history meeting the hypotheses: a read, then another process changes the value, then reads while the old value is cached. -/
example : let s0 := fresh [(lit "K", some (lit "1"))] (fun _ => none) 0 100
    let before := [Op.read (lit "K"), .tick 101, .ext [(lit "K", some (lit "2"))]]
    let after := [Op.tick 102, .read (lit "K"), .tick 104]
    s0.last ≤ s0.now ∧ Steady s0.now before ∧ Steady (run s0 before).now after ∧ (run s0 before).now + 3 ≤ (run (run s0 before) after).now := by
  refine ⟨by decide, ⟨by decide, trivial⟩, ⟨by decide +kernel, by decide, trivial⟩, by decide +kernel⟩

/-- C54 (negation): the lifetime is kept once for all tables of the program.  If another table is read just before, the cache of this table is not purged; here an old value
is still returned 6 seconds after the change (and so on, for any number of rounds). -/
theorem C54_two_tables_refuted : (getStr (run (fresh [(lit "K", some (lit "1"))] (fun _ => none) 100 101)
    [.read (lit "K"), .ext [(lit "K", some (lit "2"))], .tick 104, .other 104, .read (lit "K"), .tick 107, .other 107]) (lit "K")).2 = some (lit "1") := by decide +kernel

/-- `n` rounds of three seconds: first the other table is read, then this one. -/
def rounds (n : Nat) : List Op := (List.range n).flatMap fun (i : Nat) => [.tick (104 + 3 * i), .other (104 + 3 * i), .read (lit "K")]

/-- C54 (negation): for any number of rounds of three seconds. -/
theorem C54_two_tables_forever_refuted (n : Nat) : (getStr (run (fresh [(lit "K", some (lit "1"))] (fun _ => none) 100 101)
    ([.read (lit "K"), .ext [(lit "K", some (lit "2"))]] ++ rounds n)) (lit "K")).2 = some (lit "1") := by
  have look : ∀ s : Table, s.now - s.last < 3 → s.cache (lit "K") = some ⟨lit "1", true⟩ → (lookup s (lit "K")) = (s, some (lit "1")) := by
    intro s h1 h2
    unfold lookup checkCacheAge
    rw [if_pos h1]
    simp only [h2]
    rfl
  have inv : ∀ (n : Nat) (s : Table), s = run (fresh [(lit "K", some (lit "1"))] (fun _ => none) 100 101) ([.read (lit "K"), .ext [(lit "K", some (lit "2"))]] ++ rounds n) →
      s.now - s.last < 3 ∧ s.cache (lit "K") = some ⟨lit "1", true⟩ := by
    intro n
    induction n with
    | zero => intro s e; subst e; decide +kernel
    | succ n ih =>
      intro s e
      have ih := (ih _ rfl).2
      unfold rounds run at e ih
      rw [List.range_succ, List.flatMap_append, ← List.append_assoc, List.foldl_append] at e
      generalize List.foldl step _ _ = t at ih e
      have e2 : List.foldl step t (List.flatMap (fun i : Nat => [Op.tick (104 + 3 * i), .other (104 + 3 * i), .read (lit "K")]) [n]) =
          { t with now := 104 + 3 * (n : Int), last := 104 + 3 * (n : Int) } := by
        show (lookup { t with now := 104 + 3 * (n : Int), last := 104 + 3 * (n : Int) } (lit "K")).1 = _
        rw [look]
        · show (104 + 3 * (n : Int)) - (104 + 3 * (n : Int)) < 3; omega
        · exact ih
      rw [e2] at e
      subst e
      exact ⟨by show (104 + 3 * (n : Int)) - (104 + 3 * (n : Int)) < 3; omega, ih⟩
  obtain ⟨h1, h2⟩ := inv n _ rfl
  unfold getStr
  rw [look _ h1 h2]

/-- C54 (negation): after the clock has been set back by an hour old values are returned for an hour. -/
theorem C54_clock_refuted : (getStr (run (fresh [(lit "K", some (lit "1"))] (fun _ => none) 0 5000)
    [.read (lit "K"), .ext [(lit "K", some (lit "2"))], .tick 1400, .tick 5002]) (lit "K")).2 = some (lit "1") := by decide +kernel

end Verif.Config
