import Verif.Config.Find

/-
Property C131: the list of changed parameters that is logged when a configuration table is made (`Configuration.cpp:186-209`, `Logger.h:92`).

The table is new: nothing is cached.  Every log statement looks up levels in the configuration, time passes, and other tables are read; `env` gives what
happens before the lookup of each key.  A record is the number of its level (6 is INFO, 1 is ALERT) with its text; whether it is written is decided by the
level (C66).
-/

namespace Verif.Config

/-- The record with the name of the program (`Configuration.cpp:190-191`). -/
def dumpHead (cmd : Str) : Nat × Str := (6, cmd ++ lit ":" ++ lit " List of non-default config parameters:")

/-- The record for a parameter (`Configuration.cpp:203`, `Logger.h:92`). -/
def dumpLine (name value dflt : Str) : Nat × Str := (6, lit "Config Variable" ++ lit " name=" ++ name ++ lit " value=" ++ value ++ lit " defaultValue=" ++ dflt)

/-- The record for a key with another name than its place in the schema (`Configuration.cpp:198`). -/
def dumpCorrupt (name own : Str) : Nat × Str := (1, lit "SQL database is corrupt at name:" ++ name ++ lit " !=  key:" ++ own)

/-- The record after an exception (`Configuration.cpp:207`). -/
def dumpCaught (cmd : Str) : Nat × Str := (6, cmd ++ lit ":" ++ lit " EXCEPTION CAUGHT")

/-- The loop (`Configuration.cpp:194-208`); `own` gives `getName()` of the key at a place in the schema. -/
def dumpGo (cmd : Str) (own : Str → Str) (env : Str → List Op) : Table → List (Str × Key) → List (Nat × Str)
  | _, [] => []
  | s, (name, key) :: view =>
    (if name ≠ own name then [dumpCorrupt name (own name)] else []) ++
      match getStr (run s (env name)) name with
      | (_, none) => [dumpCaught cmd]
      | (s', some value) => (if value ≠ key.dflt then [dumpLine name value key.dflt] else []) ++ dumpGo cmd own env s' view

/-- The schema as a map. -/
def asMap (schema : List (Str × Key)) (k : Str) : Option Key := (schema.find? fun e => e.1 = k).map (·.2)

/-- What the constructor logs in the end (`Configuration.cpp:189-208`). -/
def dump (cmd : Str) (own : Str → Str) (env : Str → List Op) (db : Db) (schema : List (Str × Key)) (last now : Int) : List (Nat × Str) :=
  dumpHead cmd :: dumpGo cmd own env (fresh db (asMap schema) last now) (getSimilarKeys schema [])

/-! ### Specification -/

/-- What log statements and the rest of the program do meanwhile: they read, and time passes. -/
def Reads : Op → Prop
  | .read k => CleanKey k
  | .tick _ => True
  | .other _ => True
  | .purge => True
  | _ => False

/-- The value in force: the one in the database, else the default. -/
def inForce (db : Db) (e : Str × Key) : Str := (contents db e.1).getD e.2.dflt

/-! ### Lemmas -/

theorem reads_clean {schema : Str → Option Key} {op : Op} (h : Reads op) : CleanOp schema op := by
  cases op <;> first | exact h | trivial | cases h

theorem reads_ideal {m : Str → Option Str} {ops : List Op} (h : ∀ op ∈ ops, Reads op) : idealRun m ops = m := by
  induction ops generalizing m with
  | nil => rfl
  | cons op ops ih =>
    have : ideal m op = m := by
      have := h op (by simp)
      cases op <;> first | rfl | cases this
    show idealRun (ideal m op) ops = m
    rw [this]
    exact ih fun o ho => h o (by simp [ho])

theorem asMap_mem {schema : List (Str × Key)} (hn : (schema.map (·.1)).Nodup) {e : Str × Key} (he : e ∈ schema) : asMap schema e.1 = some e.2 := by
  induction schema with
  | nil => cases he
  | cons x l ih =>
    simp only [List.map_cons, List.nodup_cons] at hn
    unfold asMap
    rcases List.mem_cons.1 he with rfl | he
    · rw [List.find?_cons_of_pos (by simp)]; rfl
    · rw [List.find?_cons_of_neg (by
        simp only [decide_eq_true_eq]
        exact fun hx => hn.1 (by rw [hx]; exact List.mem_map_of_mem he))]
      exact ih hn.2 he

theorem dumpGo_clean (cmd : Str) (own : Str → Str) (env : Str → List Op) (db : Db) {schema : List (Str × Key)} (hn : (schema.map (·.1)).Nodup)
    (hs : CleanSchema (asMap schema)) (henv : ∀ k, ∀ op ∈ env k, Reads op) (view : List (Str × Key)) (hv : ∀ e ∈ view, e ∈ schema ∧ CleanKey e.1) (s : Table)
    (h1 : DbOk (contents db) s) (h2 : CacheOk (contents db) s) (h3 : s.schema = asMap schema) :
    dumpGo cmd own env s view = view.flatMap fun e => (if e.1 ≠ own e.1 then [dumpCorrupt e.1 (own e.1)] else []) ++
      if inForce db e ≠ e.2.dflt then [dumpLine e.1 (inForce db e) e.2.dflt] else [] := by
  induction view generalizing s with
  | nil => rfl
  | cons e view ih =>
    obtain ⟨name, key⟩ := e
    obtain ⟨he, hk⟩ := hv _ (by simp : (name, key) ∈ (name, key) :: view)
    obtain ⟨r1, r2, r3⟩ := run_ok (ops := env name) (by rw [h3]; exact hs) (fun op ho => reads_clean (henv name op ho)) h1 h2
    rw [reads_ideal (henv name)] at r1 r2
    obtain ⟨l1, l2⟩ := lookup_of_cacheOk hk r1 (cacheOk_age r2)
    obtain ⟨d1, d2, -⟩ := lookup_db (run s (env name)) name
    have ha : (lookup (run s (env name)) name).2 = some (inForce db (name, key)) := by
      rw [l1, r3, h3]
      unfold answer inForce
      rw [show asMap schema name = some key from asMap_mem hn he]
      cases contents db name <;> rfl
    rw [List.flatMap_cons, ← ih (fun x hx => hv x (by simp [hx])) (lookup (run s (env name)) name).1 (by intro x hx; rw [d1]; exact r1 x hx) l2 (by rw [d2, r3, h3])]
    rw [dumpGo]
    unfold getStr
    rw [List.append_assoc]
    congr 1
    rw [← Prod.eta (lookup (run s (env name)) name), ha]

/-- The parameters of the schema stay there, and none is remembered as unknown. -/
def Known (schema : List (Str × Key)) (s : Table) : Prop := ∀ e ∈ schema, (s.schema e.1).isSome ∧ ∀ r, s.cache e.1 = some r → r.defined = true

/-! ### C131 -/

/-- C131, partial: the constructor logs a head and then, in the order of the schema, each parameter whose value in force is not the default, with name, value and
default, whatever is read meanwhile and however much time passes; no exception is caught.  Missing: names with quotes or equal to column names
(`C131_column_refuted`), and keys with another name than their place in the schema (`C131_corrupt_refuted`). -/
theorem C131_dump_partial (cmd : Str) (own : Str → Str) (env : Str → List Op) (db : Db) (schema : List (Str × Key)) (last now : Int)
    (hn : (schema.map (·.1)).Nodup) (hs : CleanSchema (asMap schema)) (hk : ∀ e ∈ schema, CleanKey e.1 ∧ own e.1 = e.1 ∧ e.1.length < 2 ^ 63)
    (henv : ∀ k, ∀ op ∈ env k, Reads op) :
    dump cmd own env db schema last now = (6, cmd ++ lit ": List of non-default config parameters:") ::
      (schema.filter fun e => inForce db e ≠ e.2.dflt).map fun e =>
        (6, lit "Config Variable name=" ++ e.1 ++ lit " value=" ++ inForce db e ++ lit " defaultValue=" ++ e.2.dflt) := by
  unfold dump
  rw [(C98_similar schema [] fun e he => (hk e he).2.2).2.2,
    dumpGo_clean cmd own env db hn hs henv schema (fun e he => ⟨he, (hk e he).1⟩) _ (fun _ _ => rfl) (by intro x r _ hr; cases hr) rfl]
  congr 1
  · unfold dumpHead
    rw [List.append_assoc, show lit ":" ++ lit " List of non-default config parameters:" = lit ": List of non-default config parameters:" by decide +kernel]
  · have key : ∀ l : List (Str × Key), (∀ e ∈ l, own e.1 = e.1) → (l.flatMap fun e => (if e.1 ≠ own e.1 then [dumpCorrupt e.1 (own e.1)] else []) ++
        if inForce db e ≠ e.2.dflt then [dumpLine e.1 (inForce db e) e.2.dflt] else []) = (l.filter fun e => inForce db e ≠ e.2.dflt).map fun e =>
        (6, lit "Config Variable name=" ++ e.1 ++ lit " value=" ++ inForce db e ++ lit " defaultValue=" ++ e.2.dflt) := by
      intro l hl
      induction l with
      | nil => rfl
      | cons e l ih =>
        rw [List.flatMap_cons, ih fun x hx => hl x (by simp [hx]), if_neg (by rw [hl e (by simp)]; simp), List.nil_append]
        by_cases h : inForce db e ≠ e.2.dflt
        · rw [if_pos h, List.filter_cons_of_pos (by simpa using h), List.map_cons]
          unfold dumpLine
          rw [show lit "Config Variable" ++ lit " name=" = lit "Config Variable name=" by decide +kernel]
          rfl
        · rw [if_neg h, List.filter_cons_of_neg (by simpa using h), List.nil_append]
    exact key schema fun e he => (hk e he).2.1

/-- C131: with the default level (NOTICE, 5) nothing of this is written. -/
theorem C131_default_level (cmd : Str) (own : Str → Str) (env : Str → List Op) (db : Db) (schema : List (Str × Key)) (last now : Int)
    (ho : ∀ e ∈ schema, own e.1 = e.1) : ∀ r ∈ dump cmd own env db schema last now, 5 < r.1 := by
  have key : ∀ (view : List (Str × Key)) (s : Table), (∀ e ∈ view, own e.1 = e.1) → ∀ r ∈ dumpGo cmd own env s view, 5 < r.1 := by
    intro view
    induction view with
    | nil => intro s _ r hr; cases hr
    | cons e view ih =>
      obtain ⟨name, key⟩ := e
      intro s h r hr
      rw [dumpGo, if_neg (by rw [h (name, key) (by simp)]; simp), List.nil_append] at hr
      split at hr
      · rw [List.mem_singleton.1 hr]; show 5 < 6; omega
      · rcases List.mem_append.1 hr with hr | hr
        · split at hr
          · rw [List.mem_singleton.1 hr]; show 5 < 6; omega
          · cases hr
        · exact ih _ (fun x hx => h x (by simp [hx])) r hr
  intro r hr
  rcases List.mem_cons.1 hr with rfl | hr
  · show 5 < 6; omega
  · exact key _ _ (fun e he => ho e (List.mem_filter.1 he).1) r hr

/-- C131 fails for a parameter with the name of a column: its value is not seen. -/
theorem C131_column_refuted : dump (lit "P") id (fun _ => []) [(lit "Static", some (lit "1"))] [(lit "Static", ⟨lit "0", []⟩)] 0 100 =
    [(6, lit "P: List of non-default config parameters:")] := by decide +kernel

/-- C131 fails for a key whose own name is not its place in the schema: with any database, even without rows, the database is called corrupt. -/
theorem C131_corrupt_refuted (db : Db) : (1, lit "SQL database is corrupt at name:A !=  key:B") ∈ dump (lit "P") (fun _ => lit "B") (fun _ => []) db [(lit "A", ⟨lit "0", []⟩)] 0 100 := by
  have e : getSimilarKeys [(lit "A", (⟨lit "0", []⟩ : Key))] [] = [(lit "A", ⟨lit "0", []⟩)] := by decide +kernel
  unfold dump
  rw [e, dumpGo, if_pos (by decide +kernel)]
  refine List.mem_cons_of_mem _ (List.mem_append_left _ ?_)
  rw [show dumpCorrupt (lit "A") (lit "B") = (1, lit "SQL database is corrupt at name:A !=  key:B") by decide +kernel]
  exact List.mem_singleton_self _

/-- The constructor looks at every parameter, even with keys that are not clean, whatever the program and others do with the database meanwhile: the records are, in the order of the schema, those of each
parameter with the value read for it. -/
theorem C131_complete (cmd : Str) (own : Str → Str) (env : Str → List Op) (db : Db) (schema : List (Str × Key)) (last now : Int) (hk : ∀ e ∈ schema, e.1.length < 2 ^ 63) :
    ∃ vals : List Str, vals.length = schema.length ∧ dump cmd own env db schema last now = (6, cmd ++ lit ": List of non-default config parameters:") ::
      (schema.zip vals).flatMap fun e => (if e.1.1 ≠ own e.1.1 then [(1, lit "SQL database is corrupt at name:" ++ e.1.1 ++ lit " !=  key:" ++ own e.1.1)] else []) ++
        if e.2 ≠ e.1.2.dflt then [(6, lit "Config Variable name=" ++ e.1.1 ++ lit " value=" ++ e.2 ++ lit " defaultValue=" ++ e.1.2.dflt)] else [] := by
  have hstep : ∀ (s : Table) (op : Op), Known schema s → Known schema (step s op) := by
    intro s op h
    have hlook : ∀ (s : Table) (k : Str), Known schema s → Known schema (lookup s k).1 := by
      intro s k h e he
      have h0 : Known schema (checkCacheAge s) := by
        intro e he
        unfold checkCacheAge
        split
        · exact h e he
        · exact ⟨(h e he).1, by simp⟩
      unfold lookup
      dsimp only
      split
      · exact h0 e he
      · refine ⟨(h0 e he).1, ?_⟩
        intro r hr
        simp only [put] at hr
        split at hr
        · rename_i hx
          injection hr with hr
          subst hr hx
          unfold fetch
          split
          · rfl
          · have := (h0 e he).1
            cases hc : (checkCacheAge s).schema e.1
            · rw [hc] at this; simp at this
            · rfl
        · exact (h0 e he).2 r hr
    have hset : ∀ k v, Known schema (setStr s k v).1 := by
      intro k v e he
      unfold setStr
      split
      · refine ⟨(h e he).1, ?_⟩
        intro r hr
        simp only [put] at hr
        split at hr
        · injection hr with hr; subst hr; rfl
        · exact (h e he).2 r hr
      · exact h e he
    cases op with
    | set k v => exact hset k v
    | setNum k n => exact hset k (intText n)
    | remove k =>
      intro e he
      have key : ∀ r, put s.cache k none e.1 = some r → r.defined = true := by
        intro r hr
        simp only [put] at hr
        split at hr
        · simp at hr
        · exact (h e he).2 r hr
      simp only [step, remove]
      split
      · exact ⟨(h e he).1, key⟩
      · exact ⟨(h e he).1, key⟩
    | purge => exact fun e he => ⟨(h e he).1, by simp [step, purge]⟩
    | read k => exact hlook s k h
    | validate k =>
      intro e he
      simp only [step, touchSchema]
      split
      · exact h e he
      · refine ⟨?_, (h e he).2⟩
        simp only [put]
        split
        · rfl
        · exact (h e he).1
    | tick now => exact h
    | other last => exact h
    | ext db => exact h
  have hrun : ∀ (ops : List Op) (s : Table), Known schema s → Known schema (run s ops) := by
    intro ops
    induction ops with
    | nil => intro s h; exact h
    | cons op ops ih => intro s h; exact ih _ (hstep s op h)
  have hget : ∀ (s : Table) (k : Str), Known schema s → (∃ e ∈ schema, e.1 = k) → ∃ v, (lookup s k).2 = some v := by
    rintro s k h ⟨e, he, rfl⟩
    have h0 : Known schema (checkCacheAge s) := by
      intro e he
      unfold checkCacheAge
      split
      · exact h e he
      · exact ⟨(h e he).1, by simp⟩
    unfold lookup
    dsimp only
    split
    · rename_i r hr
      exact ⟨r.value, by rw [if_pos ((h0 e he).2 r hr)]⟩
    · have : (fetch (checkCacheAge s) e.1).defined = true := by
        unfold fetch
        split
        · rfl
        · have := (h0 e he).1
          cases hc : (checkCacheAge s).schema e.1
          · rw [hc] at this; simp at this
          · rfl
      exact ⟨_, by rw [if_pos this]⟩
  have hgo : ∀ (view : List (Str × Key)) (s : Table), Known schema s → (∀ e ∈ view, e ∈ schema) → ∃ vals : List Str, vals.length = view.length ∧ dumpGo cmd own env s view =
      (view.zip vals).flatMap fun e => (if e.1.1 ≠ own e.1.1 then [dumpCorrupt e.1.1 (own e.1.1)] else []) ++ if e.2 ≠ e.1.2.dflt then [dumpLine e.1.1 e.2 e.1.2.dflt] else [] := by
    intro view
    induction view with
    | nil => intro s _ _; exact ⟨[], rfl, rfl⟩
    | cons x view ih =>
      obtain ⟨name, key⟩ := x
      intro s h hv
      have h1 := hrun (env name) s h
      obtain ⟨v, hval⟩ := hget _ name h1 ⟨_, hv _ (by simp : (name, key) ∈ (name, key) :: view), rfl⟩
      obtain ⟨vals, h2, h3⟩ := ih (step (run s (env name)) (.read name)) (hstep _ (.read name) h1) fun e he => hv e (by simp [he])
      refine ⟨v :: vals, by simp [h2], ?_⟩
      rw [List.zip_cons_cons, List.flatMap_cons, ← h3, dumpGo]
      unfold getStr
      rw [← Prod.eta (lookup (run s (env name)) name), hval, List.append_assoc]
      rfl
  obtain ⟨vals, h1, h2⟩ := hgo schema (fresh db (asMap schema) last now) (by
    intro e he
    refine ⟨?_, by intro r hr; cases hr⟩
    simp only [fresh, asMap, Option.isSome_map, List.find?_isSome, decide_eq_true_eq]
    exact ⟨e, he, rfl⟩) (fun e he => he)
  refine ⟨vals, h1, ?_⟩
  unfold dump
  rw [(C98_similar schema [] hk).2.2, h2]
  unfold dumpHead dumpCorrupt dumpLine
  rw [List.append_assoc, show lit ":" ++ lit " List of non-default config parameters:" = lit ": List of non-default config parameters:" by decide +kernel,
    show lit "Config Variable" ++ lit " name=" = lit "Config Variable name=" by decide +kernel]

/-- The lines are ambiguous: two different settings give the same line. -/
theorem C131_ambiguous_refuted : dumpLine (lit "K") (lit "a defaultValue=b") (lit "c") = dumpLine (lit "K") (lit "a") (lit "b defaultValue=c") := by decide +kernel

/-- Three parameters: one changed, one set to its default, one not set; the level is looked up in between. -/
example : dump (lit "OpenBTS") id (fun _ => [.read (lit "Log.Level"), .tick 104]) [(lit "B", some (lit "7")), (lit "A", some (lit "0")), (lit "X", some (lit "5"))]
    [(lit "A", ⟨lit "0", []⟩), (lit "B", ⟨lit "1", []⟩), (lit "C", ⟨lit "2", []⟩)] 0 100 =
    [(6, lit "OpenBTS: List of non-default config parameters:"), (6, lit "Config Variable name=B value=7 defaultValue=1")] := by decide +kernel

end Verif.Config
