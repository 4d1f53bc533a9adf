import Verif.Config.TableProps

/-
Property C153: several programs that use one configuration database (`Configuration.cpp:658-700, 827-838, 892-947`).
-/

namespace Verif.Config.Programs
open Verif Verif.Config

/-! ### Model -/

/-- Where a program is in a call.  Other programs can change the database at each of these places; the threads of one program take turns (C116).
`called` is when the age of the cache was checked, `at` which moment of the history below a record comes from. -/
inductive Pc where
  | idle
  /-- `Configuration.cpp:676` is next. -/
  | query (k : Str) (called : Int)
  /-- `Configuration.cpp:682-691` is next. -/
  | fill (k : Str) (called : Int) (r : Rec) (at' : Nat)
  /-- `Configuration.cpp:903` is next. -/
  | exec (k v : Str)
  /-- `Configuration.cpp:905` is next. -/
  | store (k v : Str) (at' : Nat)
  /-- `Configuration.cpp:836` is next. -/
  | delete (k : Str)

/-- A program: its `ConfigurationTable` without the database, and where it is. -/
structure Prog where
  cache : Str → Option Rec := fun _ => none
  schema : Str → Option Key
  last : Int := 0
  pc : Pc := .idle

/-- What was done: a read, a `set` or a `remove` of a program that has returned, with the value that was read or set (after a `remove` the default). -/
structure Done where
  p : Nat
  k : Str
  called : Int
  at' : Nat
  res : Option Str
  deriving DecidableEq

/-- The database, the clock, the programs.  Only for the statements: all states of clock and database so far, where each record in a cache comes from, and what was done. -/
structure St where
  db : Db
  now : Int
  prog : Nat → Prog
  hist : List (Int × Db)
  stamp : Nat → Str → Nat := fun _ _ => 0
  log : List Done := []

/-- The clock goes on; something else changes the database; a program calls `getStr`, `set`, `remove` or `purge`; it goes one step further. -/
inductive Ev where
  | tick (t : Int)
  | ext (db : Db)
  | get (p : Nat) (k : Str)
  | set (p : Nat) (k v : Str)
  | remove (p : Nat) (k : Str)
  | purge (p : Nat)
  | run (p : Nat)
  /-- The database refuses the statement that is next, however often it is tried (`sqlite3util.cpp:53-85`): a `set` or `remove`. -/
  | refuse (p : Nat)
  /-- Likewise, a query. -/
  | miss (p : Nat)

/-- The table of a program. -/
def St.tab (s : St) (p : Nat) : Table := ⟨s.db, (s.prog p).cache, (s.prog p).schema, (s.prog p).last, s.now⟩

def upd (f : Nat → Prog) (p : Nat) (x : Prog) : Nat → Prog := fun q => if q = p then x else f q

def stampPut (f : Nat → Str → Nat) (p : Nat) (k : Str) (n : Nat) : Nat → Str → Nat := fun q x => if q = p ∧ x = k then n else f q x

/-- A new state of the clock or the database. -/
def St.change (s : St) (now : Int) (db : Db) : St := { s with now := now, db := db, hist := s.hist ++ [(now, db)] }

/-- A step within a call: `lookup` after the miss (`Configuration.cpp:672-697`), `set` (`896-906`), `remove` (`835-837`). -/
def St.run (s : St) (p : Nat) : Option St :=
  let x := s.prog p
  match x.pc with
  | .idle => none
  | .query k c => some { s with prog := upd s.prog p { x with pc := .fill k c (fetch (s.tab p) k) (s.hist.length - 1) } }
  | .fill k c r n => some { s with
      prog := upd s.prog p { x with cache := put x.cache k (some r), pc := .idle }
      stamp := stampPut s.stamp p k n
      log := s.log ++ [⟨p, k, c, n, if r.defined then some r.value else none⟩] }
  | .exec k v => match sqlExec s.db (setCmd (s.tab p) k v) with
    | some db' => some { s.change s.now db' with prog := upd s.prog p { x with pc := .store k v s.hist.length } }
    | none => some { s with prog := upd s.prog p { x with pc := .idle } }
  | .store k v n => some { s with
      prog := upd s.prog p { x with cache := put x.cache k (some ⟨v, true⟩), pc := .idle }
      stamp := stampPut s.stamp p k n
      log := s.log ++ [⟨p, k, ((s.hist[n]?).map (·.1)).getD 0, n, some v⟩] }
  | .delete k => match sqlExec s.db (removeCmd k) with
    | some db' => some { s.change s.now db' with
        prog := upd s.prog p { x with pc := .idle }
        log := s.log ++ [⟨p, k, s.now, s.hist.length, (x.schema k).map Key.dflt⟩] }
    | none => some { s with prog := upd s.prog p { x with pc := .idle } }

/-- An event; none if it is not possible.  The clock is not set back (else C54 fails).  When a query is refused, `sqlite3_single_lookup` returns no value (`sqlite3util.cpp:325-335`), and `lookup` does not look at its result (`Configuration.cpp:676-691`). -/
def St.ev (s : St) : Ev → Option St
  | .tick t => if s.now ≤ t then some (s.change t s.db) else none
  | .ext db => some (s.change s.now db)
  | .run p => s.run p
  | .refuse p => match (s.prog p).pc with
    | .exec _ _ => some { s with prog := upd s.prog p { s.prog p with pc := .idle } }
    | .delete _ => some { s with prog := upd s.prog p { s.prog p with pc := .idle } }
    | _ => none
  | .miss p => match (s.prog p).pc with
    | .query k c => some { s with prog := upd s.prog p { s.prog p with pc := .fill k c (fetch { s.tab p with db := [] } k) (s.hist.length - 1) } }
    | _ => none
  | .get p k => match (s.prog p).pc with
    | .idle =>
      let t := checkCacheAge (s.tab p)
      let x := { s.prog p with cache := t.cache, last := t.last }
      match t.cache k with
      | some r => some { s with prog := upd s.prog p x, log := s.log ++ [⟨p, k, s.now, s.stamp p k, if r.defined then some r.value else none⟩] }
      | none => some { s with prog := upd s.prog p { x with pc := .query k s.now } }
    | _ => none
  | .set p k v => match (s.prog p).pc with
    | .idle => some { s with prog := upd s.prog p { s.prog p with pc := .exec k v } }
    | _ => none
  | .remove p k => match (s.prog p).pc with
    | .idle => some { s with prog := upd s.prog p { s.prog p with cache := put (s.prog p).cache k none, pc := .delete k } }
    | _ => none
  | .purge p => match (s.prog p).pc with
    | .idle => some { s with prog := upd s.prog p { s.prog p with cache := fun _ => none } }
    | _ => none

def exec (s : St) : List Ev → Option St
  | [] => some s
  | e :: es => (s.ev e).bind fun s' => exec s' es

/-- The programs start with empty caches. -/
def start (db : Db) (now : Int) (schema : Nat → Str → Option Key) : St := { db := db, now := now, prog := fun p => { schema := schema p }, hist := [(now, db)] }

/-! ### Specification -/

/-- Keys and values that mean themselves in the statements (C61); no query is refused for good. -/
def CleanEv : Ev → Prop
  | .miss _ => False
  | .get _ k => CleanKey k
  | .set _ k v => CleanKey k ∧ CleanValue v
  | .remove _ k => CleanKey k
  | _ => True

/-- An answer is right for a moment of the history. -/
def Right (schema : Str → Option Key) (hist : List (Int × Db)) (n : Nat) (k : Str) (a : Option Str) (c : Int) : Prop :=
  ∃ d, hist[n]? = some (c, d) ∧ a = answer schema (contents d) k

/-! ### Invariant -/

/-- What is known at each place. -/
def At (s : St) (p : Nat) (schema : Str → Option Key) : Pc → Prop
  | .idle => True
  | .query k c => CleanKey k ∧ c ≤ s.now
  | .fill k c r n => CleanKey k ∧ ∃ a t, Right schema s.hist n k a t ∧ r = recOf a ∧ c ≤ t ∧ (s.prog p).last ≤ t ∧ ∀ e ∈ s.log, e.p = p → e.k = k → e.at' ≤ n
  | .exec k v => CleanKey k ∧ CleanValue v
  | .store k v n => CleanKey k ∧ ∃ t, Right schema s.hist n k (some v) t ∧ (s.prog p).last ≤ t ∧ ∀ e ∈ s.log, e.p = p → e.k = k → e.at' ≤ n
  | .delete k => CleanKey k ∧ (s.prog p).cache k = none

structure Inv (schema : Nat → Str → Option Key) (s : St) : Prop where
  sch : ∀ p, (s.prog p).schema = schema p
  cur : s.hist[s.hist.length - 1]? = some (s.now, s.db)
  mono : s.hist.Pairwise fun a b => a.1 ≤ b.1
  last : ∀ p, (s.prog p).last ≤ s.now
  cache : ∀ p k r, CleanKey k → (s.prog p).cache k = some r → ∃ a t, Right (schema p) s.hist (s.stamp p k) k a t ∧ r = recOf a ∧ (s.prog p).last ≤ t ∧ ∀ e ∈ s.log, e.p = p → e.k = k → e.at' ≤ s.stamp p k
  pc : ∀ p, At s p (schema p) (s.prog p).pc
  log : ∀ e ∈ s.log, ∃ t, Right (schema e.p) s.hist e.at' e.k e.res t ∧ e.called < t + 3
  order : s.log.Pairwise fun a b => a.p = b.p → a.k = b.k → a.at' ≤ b.at'

theorem upd_same (f : Nat → Prog) (p : Nat) (x : Prog) : upd f p x p = x := by simp [upd]

theorem upd_ne {f : Nat → Prog} {p q : Nat} {x : Prog} (h : q ≠ p) : upd f p x q = f q := by simp [upd, h]

theorem Right.append {schema : Str → Option Key} {hist : List (Int × Db)} {n : Nat} {k : Str} {a : Option Str} {c : Int} (h : Right schema hist n k a c) (l : List (Int × Db)) : Right schema (hist ++ l) n k a c := by
  obtain ⟨d, h1, h2⟩ := h
  exact ⟨d, by rw [List.getElem?_append_left (List.getElem?_eq_some_iff.1 h1).1]; exact h1, h2⟩

theorem Right.lt {schema : Str → Option Key} {hist : List (Int × Db)} {n : Nat} {k : Str} {a : Option Str} {c : Int} (h : Right schema hist n k a c) : n < hist.length := by
  obtain ⟨d, h1, -⟩ := h
  exact (List.getElem?_eq_some_iff.1 h1).1

theorem At.append {s s' : St} {p : Nat} {schema : Str → Option Key} {pc : Pc} (h : At s p schema pc) (l : List (Int × Db)) (hh : s'.hist = s.hist ++ l) (hn : s.now ≤ s'.now) (hp : s'.prog p = s.prog p)
    (hl : ∀ e ∈ s'.log, e.p = p → e ∈ s.log) : At s' p schema pc := by
  cases pc with
  | idle => trivial
  | query k c => exact ⟨h.1, Int.le_trans h.2 hn⟩
  | fill k c r n =>
    obtain ⟨h0, a, t, h1, h2, h3, h4, h5⟩ := h
    exact ⟨h0, a, t, by rw [hh]; exact h1.append l, h2, h3, by rw [hp]; exact h4, fun e he ep => h5 e (hl e he ep) ep⟩
  | exec k v => exact h
  | store k v n =>
    obtain ⟨h0, t, h1, h2, h3⟩ := h
    exact ⟨h0, t, by rw [hh]; exact h1.append l, by rw [hp]; exact h2, fun e he ep => h3 e (hl e he ep) ep⟩
  | delete k => exact ⟨h.1, by rw [hp]; exact h.2⟩

theorem Inv.pos {schema : Nat → Str → Option Key} {s : St} (h : Inv schema s) : 0 < s.hist.length := by
  have := (List.getElem?_eq_some_iff.1 h.cur).1
  omega

theorem Inv.logLt {schema : Nat → Str → Option Key} {s : St} (h : Inv schema s) {e : Done} (he : e ∈ s.log) : e.at' < s.hist.length := by
  obtain ⟨t, h1, -⟩ := h.log e he
  exact h1.lt

theorem change_inv {schema : Nat → Str → Option Key} {s : St} (h : Inv schema s) (now : Int) (db : Db) (hn : s.now ≤ now) : Inv schema (s.change now db) := by
  refine ⟨h.sch, ?_, ?_, fun p => Int.le_trans (h.last p) hn, ?_, fun p => (h.pc p).append [(now, db)] rfl hn rfl (fun _ he _ => he), ?_, h.order⟩
  · simp [St.change]
  · refine List.pairwise_append.2 ⟨h.mono, by simp, fun a ha b hb => ?_⟩
    rw [List.mem_singleton] at hb
    subst hb
    refine Int.le_trans ?_ hn
    obtain ⟨i, hi, rfl⟩ := List.getElem_of_mem ha
    obtain ⟨hl, hc⟩ := List.getElem?_eq_some_iff.1 h.cur
    by_cases e : i = s.hist.length - 1
    · subst e; rw [hc]; exact Int.le_refl _
    · have := List.pairwise_iff_getElem.1 h.mono i (s.hist.length - 1) hi hl (by omega)
      rw [hc] at this
      exact this
  · intro p k r hk hr
    obtain ⟨a, t, h1, h2, h3, h4⟩ := h.cache p k r hk hr
    exact ⟨a, t, h1.append _, h2, h3, h4⟩
  · intro e he
    obtain ⟨t, h1, h2⟩ := h.log e he
    exact ⟨t, h1.append _, h2⟩

/-- A program forgets records, checks the age of its cache, or goes to another place. -/
theorem local_inv {schema : Nat → Str → Option Key} {s : St} (h : Inv schema s) (p : Nat) (x : Prog) (hs : x.schema = (s.prog p).schema) (hl : x.last ≤ s.now)
    (hc : ∀ k r, x.cache k = some r → (s.prog p).cache k = some r ∧ x.last = (s.prog p).last) (hp : At { s with prog := upd s.prog p x } p (schema p) x.pc) : Inv schema { s with prog := upd s.prog p x } := by
  refine ⟨?_, h.cur, h.mono, ?_, ?_, ?_, h.log, h.order⟩
  · intro q
    by_cases hq : q = p
    · subst hq; simp only [upd_same]; rw [hs]; exact h.sch q
    · simp only [upd_ne hq]; exact h.sch q
  · intro q
    by_cases hq : q = p
    · subst hq; simp only [upd_same]; exact hl
    · simp only [upd_ne hq]; exact h.last q
  · intro q k r hk hr
    by_cases hq : q = p
    · subst hq
      simp only [upd_same] at hr ⊢
      obtain ⟨h1, h2⟩ := hc k r hr
      rw [h2]
      exact h.cache q k r hk h1
    · simp only [upd_ne hq] at hr ⊢
      exact h.cache q k r hk hr
  · intro q
    by_cases hq : q = p
    · subst hq; simp only [upd_same]; exact hp
    · simp only [upd_ne hq]
      exact (h.pc q).append [] (by simp) (Int.le_refl _) (by simp only [upd_ne hq]) (fun _ he _ => he)

/-- Something is done: it comes from a moment after all that this program did with the key before. -/
theorem log_inv {schema : Nat → Str → Option Key} {s : St} (h : Inv schema s) (e : Done) (hi : (s.prog e.p).pc = .idle) (hr : ∃ t, Right (schema e.p) s.hist e.at' e.k e.res t ∧ e.called < t + 3)
    (ho : ∀ d ∈ s.log, d.p = e.p → d.k = e.k → d.at' ≤ e.at') (hc : ∀ r, (s.prog e.p).cache e.k = some r → CleanKey e.k → e.at' ≤ s.stamp e.p e.k) : Inv schema { s with log := s.log ++ [e] } := by
  refine ⟨h.sch, h.cur, h.mono, h.last, ?_, ?_, ?_, ?_⟩
  · intro p k r hk hr
    obtain ⟨a, t, h1, h2, h3, h4⟩ := h.cache p k r hk hr
    refine ⟨a, t, h1, h2, h3, fun d hd hp hkk => ?_⟩
    rcases List.mem_append.1 hd with hd | hd
    · exact h4 d hd hp hkk
    · rw [List.mem_singleton] at hd
      subst hd
      subst hp; subst hkk
      exact hc r hr hk
  · intro p
    by_cases hp : p = e.p
    · subst hp; show At _ _ _ (s.prog e.p).pc; rw [hi]; trivial
    · refine (h.pc p).append [] (by simp) (Int.le_refl _) rfl (fun d hd hdp => ?_)
      rcases List.mem_append.1 hd with hd | hd
      · exact hd
      · rw [List.mem_singleton] at hd; subst hd; exact absurd hdp.symm hp
  · intro d hd
    rcases List.mem_append.1 hd with hd | hd
    · exact h.log d hd
    · rw [List.mem_singleton] at hd; subst hd; exact hr
  · refine List.pairwise_append.2 ⟨h.order, by simp, fun a ha b hb => ?_⟩
    rw [List.mem_singleton] at hb
    subst hb
    exact ho a ha

/-- A record is put in the cache of a program. -/
theorem cache_inv {schema : Nat → Str → Option Key} {s : St} (h : Inv schema s) (p : Nat) (k : Str) (n : Nat) (a : Option Str) (t : Int) (hr : Right (schema p) s.hist n k a t)
    (hl : (s.prog p).last ≤ t) (ho : ∀ e ∈ s.log, e.p = p → e.k = k → e.at' ≤ n) :
    Inv schema { s with prog := upd s.prog p { s.prog p with cache := put (s.prog p).cache k (some (recOf a)), pc := .idle }, stamp := stampPut s.stamp p k n } := by
  refine ⟨?_, h.cur, h.mono, ?_, ?_, ?_, h.log, h.order⟩
  · intro q
    by_cases hq : q = p
    · subst hq; simp only [upd_same]; exact h.sch q
    · simp only [upd_ne hq]; exact h.sch q
  · intro q
    by_cases hq : q = p
    · subst hq; simp only [upd_same]; exact h.last q
    · simp only [upd_ne hq]; exact h.last q
  · intro q k' r hk hr'
    by_cases hq : q = p
    · subst hq
      simp only [upd_same] at hr' ⊢
      by_cases hkk : k' = k
      · subst hkk
        simp only [put, if_true] at hr'
        cases hr'
        simp only [stampPut, and_self, if_true]
        exact ⟨a, t, hr, rfl, hl, ho⟩
      · simp only [put, if_neg hkk] at hr'
        simp only [stampPut, hkk, and_false, if_false]
        exact h.cache q k' r hk hr'
    · simp only [upd_ne hq] at hr' ⊢
      simp only [stampPut, hq, false_and, if_false]
      exact h.cache q k' r hk hr'
  · intro q
    by_cases hq : q = p
    · subst hq; simp only [upd_same]; trivial
    · simp only [upd_ne hq]
      exact (h.pc q).append [] (by simp) (Int.le_refl _) (by simp only [upd_ne hq]) (fun _ he _ => he)

theorem answer_some {schema : Str → Option Key} {m : Str → Option Str} {k v : Str} (h : m k = some v) : answer schema m k = some v := by simp [answer, h]

theorem run_inv {schema : Nat → Str → Option Key} (hsch : ∀ p, CleanSchema (schema p)) {s s' : St} {p : Nat} (h : Inv schema s) (hr : s.run p = some s') : Inv schema s' := by
  unfold St.run at hr
  have hat := h.pc p
  have hpos := h.pos
  have hdb : (s.tab p).schema = schema p := h.sch p
  cases hpc : (s.prog p).pc with
  | idle => simp only [hpc] at hr; cases hr
  | query k c =>
    simp only [hpc] at hr hat
    cases hr
    refine local_inv h p _ rfl (h.last p) (fun _ _ hx => ⟨hx, rfl⟩) ⟨hat.1, answer (schema p) (contents s.db) k, s.now, ⟨s.db, h.cur, rfl⟩, ?_, hat.2, ?_, fun e he _ _ => ?_⟩
    · rw [fetch_clean (s.tab p) (contents s.db) k hat.1 rfl, hdb]
    · simp only [upd_same]; exact h.last p
    · have := h.logLt (e := e) he; show e.at' ≤ s.hist.length - 1; omega
  | fill k c r n =>
    simp only [hpc] at hr hat
    cases hr
    obtain ⟨hk, a, t, h1, rfl, h3, h4, h5⟩ := hat
    have h' := cache_inv h p k n a t h1 h4 h5
    rw [recOf_result]
    refine log_inv h' ⟨p, k, c, n, a⟩ (by simp only [upd_same]) ⟨t, h1, by show c < t + 3; omega⟩ h5 (fun r _ _ => ?_)
    simp [stampPut]
  | exec k v =>
    simp only [hpc] at hr hat
    rw [C61_set_partial (s.tab p) s.db k v ⟨hat.1.1, hat.1.2.2.1⟩ hat.2 (by rw [hdb]; exact hsch p)] at hr
    cases hr
    have h' := change_inv h s.now (stored s.db k v) (Int.le_refl _)
    refine local_inv h' p _ rfl (h.last p) (fun _ _ hx => ⟨hx, rfl⟩) ⟨hat.1, s.now, ⟨stored s.db k v, by simp [St.change], ?_⟩, ?_, fun e he _ _ => ?_⟩
    · rw [answer_some]
      rw [contents_stored s.db k v k hat.2.2]
      simp
    · simp only [upd_same]; exact h.last p
    · have := h.logLt (e := e) he; omega
  | store k v n =>
    simp only [hpc] at hr hat
    cases hr
    obtain ⟨hk, t, h1, h2, h3⟩ := hat
    have h' := cache_inv h p k n (some v) t h1 h2 h3
    have ht : ((s.hist[n]?).map (·.1)).getD 0 = t := by
      obtain ⟨d, hd, -⟩ := h1
      rw [hd]; rfl
    rw [ht]
    refine log_inv h' ⟨p, k, t, n, some v⟩ (by simp only [upd_same]) ⟨t, h1, by show t < t + 3; omega⟩ h3 (fun r _ _ => ?_)
    simp [stampPut]
  | delete k =>
    simp only [hpc] at hr hat
    obtain ⟨hk, hn⟩ := hat
    rw [C61_remove_partial s.db k ⟨hk.2.1, hk.2.2.1⟩] at hr
    cases hr
    have h' := change_inv h s.now (s.db.filter fun r => r.1 ≠ k) (Int.le_refl _)
    have h'' := local_inv (schema := schema) h' p { s.prog p with pc := .idle } rfl (h.last p) (fun _ _ hx => ⟨hx, rfl⟩) trivial
    refine log_inv h'' ⟨p, k, s.now, s.hist.length, ((s.prog p).schema k).map Key.dflt⟩ (by simp only [upd_same]) ⟨s.now, ⟨s.db.filter fun r => r.1 ≠ k, by simp [St.change], ?_⟩, by show s.now < s.now + 3; omega⟩
      (fun d hd _ _ => ?_) (fun r hr' _ => ?_)
    · show ((s.prog p).schema k).map Key.dflt = answer (schema p) _ k
      rw [h.sch p]
      unfold answer
      rw [contents_filter, if_pos rfl]
      rfl
    · have := h.logLt (e := d) hd
      show d.at' ≤ s.hist.length
      omega
    · simp only [upd_same] at hr'
      rw [hn] at hr'
      cases hr'

theorem ev_inv {schema : Nat → Str → Option Key} (hsch : ∀ p, CleanSchema (schema p)) {s s' : St} {e : Ev} (h : Inv schema s) (hc : CleanEv e) (he : s.ev e = some s') : Inv schema s' := by
  cases e with
  | tick t =>
    simp only [St.ev] at he
    split at he
    · cases he; exact change_inv h t s.db ‹_›
    · cases he
  | ext db => cases he; exact change_inv h s.now db (Int.le_refl _)
  | run p => exact run_inv hsch h he
  | miss p => exact hc.elim
  | refuse p =>
    simp only [St.ev] at he
    split at he
    · cases he; exact local_inv h p _ rfl (h.last p) (fun _ _ hx => ⟨hx, rfl⟩) trivial
    · cases he; exact local_inv h p _ rfl (h.last p) (fun _ _ hx => ⟨hx, rfl⟩) trivial
    · cases he
  | set p k v =>
    simp only [St.ev] at he
    split at he
    · cases he
      exact local_inv h p _ rfl (h.last p) (fun _ _ hx => ⟨hx, rfl⟩) hc
    · cases he
  | remove p k =>
    simp only [St.ev] at he
    split at he
    · cases he
      refine local_inv h p _ rfl (h.last p) (fun x r hx => ?_) ⟨hc, by simp [upd, put]⟩
      by_cases hxk : x = k
      · simp [put, hxk] at hx
      · simp only [put, if_neg hxk] at hx; exact ⟨hx, rfl⟩
    · cases he
  | purge p =>
    simp only [St.ev] at he
    split at he
    · rename_i hi
      cases he
      exact local_inv h p _ rfl (h.last p) (fun _ _ hx => by cases hx) (by simp only [hi]; trivial)
    · cases he
  | get p k =>
    simp only [St.ev] at he
    split at he
    · rename_i hi
      have hage : (checkCacheAge (s.tab p)).last ≤ s.now ∧ s.now - (checkCacheAge (s.tab p)).last < 3 ∧
          ∀ x r, (checkCacheAge (s.tab p)).cache x = some r → (s.prog p).cache x = some r ∧ (checkCacheAge (s.tab p)).last = (s.prog p).last := by
        unfold checkCacheAge
        split
        · rename_i hl
          exact ⟨h.last p, hl, fun x r hx => ⟨hx, rfl⟩⟩
        · exact ⟨Int.le_refl _, by show s.now - s.now < 3; omega, fun x r hx => by cases hx⟩
      obtain ⟨g1, g2, g3⟩ := hage
      split at he
      · rename_i r hr
        cases he
        have h' := local_inv h p { s.prog p with cache := (checkCacheAge (s.tab p)).cache, last := (checkCacheAge (s.tab p)).last } rfl g1 (fun x r hx => g3 x r hx) (by simp only [hi]; trivial)
        obtain ⟨a, t, k1, rfl, k3, k4⟩ := h'.cache p k r hc (by simp only [upd_same]; exact hr)
        rw [recOf_result]
        simp only [upd_same] at k3
        exact log_inv h' ⟨p, k, s.now, s.stamp p k, a⟩ (by simp only [upd_same]; exact hi) ⟨t, k1, by show s.now < t + 3; omega⟩ k4 (fun _ _ _ => Nat.le_refl _)
      · cases he
        exact local_inv h p _ rfl g1 (fun x r hx => g3 x r hx) ⟨hc, Int.le_refl _⟩
    · cases he

theorem start_inv (db : Db) (now : Int) (h0 : 0 ≤ now) (schema : Nat → Str → Option Key) : Inv schema (start db now schema) :=
  ⟨fun _ => rfl, rfl, by simp [start], fun _ => h0, fun _ _ _ _ h => (nomatch h), fun _ => trivial, fun e he => (nomatch he), by simp [start]⟩

theorem exec_inv {schema : Nat → Str → Option Key} (hsch : ∀ p, CleanSchema (schema p)) {s s' : St} (es : List Ev) (h : Inv schema s) (hc : ∀ e ∈ es, CleanEv e) (he : exec s es = some s') : Inv schema s' := by
  induction es generalizing s with
  | nil => cases he; exact h
  | cons e es ih =>
    simp only [exec] at he
    cases h1 : s.ev e with
    | none => rw [h1] at he; cases he
    | some s1 => rw [h1] at he; exact ih (ev_inv hsch h (hc e (by simp)) h1) (fun e he => hc e (by simp [he])) he

/-! ### C153 -/

/-- C153, partial (keys and values that mean themselves in the statements, see C61; one table in each program and a clock that is not set back, see C54).
However the programs and other users of the database take turns, everything a program read, set or removed is right for one moment of the history of the database, and that moment is less than three seconds before the call;
and for one program and one key these moments never go back, so that a program sees its own changes and never an older value after a newer one. -/
theorem C153_recent_partial (db : Db) (now : Int) (h0 : 0 ≤ now) (schema : Nat → Str → Option Key) (hsch : ∀ p, CleanSchema (schema p)) (es : List Ev) (hc : ∀ e ∈ es, CleanEv e) (s : St)
    (h : exec (start db now schema) es = some s) :
    (∀ e ∈ s.log, ∃ t d, s.hist[e.at']? = some (t, d) ∧ e.res = answer (schema e.p) (contents d) e.k ∧ e.called < t + 3) ∧
      s.log.Pairwise fun a b => a.p = b.p → a.k = b.k → a.at' ≤ b.at' := by
  have hi := exec_inv hsch es (start_inv db now h0 schema) hc h
  refine ⟨fun e he => ?_, hi.order⟩
  obtain ⟨t, ⟨d, h1, h2⟩, h3⟩ := hi.log e he
  exact ⟨t, d, h1, h2, h3⟩

/-- C153, partial (as above): three seconds after a key was changed last, every program reads its value, and so all that have the same default agree. -/
theorem C153_agree_partial (db : Db) (now : Int) (h0 : 0 ≤ now) (schema : Nat → Str → Option Key) (hsch : ∀ p, CleanSchema (schema p)) (es : List Ev) (hc : ∀ e ∈ es, CleanEv e) (s : St)
    (h : exec (start db now schema) es = some s) (k : Str) (v : Option Str) (i : Nat) (t : Int) (d : Db) (hi : s.hist[i]? = some (t, d)) (hk : ∀ j t' d', i ≤ j → s.hist[j]? = some (t', d') → contents d' k = v) :
    ∀ e ∈ s.log, e.k = k → t + 3 ≤ e.called → e.res = v.or ((schema e.p k).map Key.dflt) := by
  have hinv := exec_inv hsch es (start_inv db now h0 schema) hc h
  intro e he hek ht
  obtain ⟨t', d', h1, h2, h3⟩ := (C153_recent_partial db now h0 schema hsch es hc s h).1 e he
  have hle : i ≤ e.at' := by
    apply Nat.le_of_not_lt
    intro hlt
    obtain ⟨l1, g1⟩ := List.getElem?_eq_some_iff.1 h1
    obtain ⟨l2, g2⟩ := List.getElem?_eq_some_iff.1 hi
    have := List.pairwise_iff_getElem.1 hinv.mono e.at' i l1 l2 hlt
    rw [g1, g2] at this
    simp only at this
    omega
  rw [h2, hek]
  unfold answer
  rw [hk e.at' t' d' hle h1]

/-- C153 (negation): keys read one after the other need not belong to one moment.  One program sets A and then B; another one, which had read A before, now reads the new B and after it the old A, although the database
never held this pair. -/
theorem C153_order_refuted : ∃ (es : List Ev) (s : St), (∀ e ∈ es, CleanEv e) ∧ exec (start [(lit "A", some (lit "0")), (lit "B", some (lit "0"))] 100 (fun _ _ => none)) es = some s ∧
    (s.log.map fun e => (e.p, e.k, e.res)) = [(1, lit "A", some (lit "0")), (0, lit "A", some (lit "1")), (0, lit "B", some (lit "1")), (1, lit "B", some (lit "1")), (1, lit "A", some (lit "0"))] ∧
    ∀ h ∈ s.hist, ¬ (contents h.2 (lit "B") = some (lit "1") ∧ contents h.2 (lit "A") = some (lit "0")) := by
  refine ⟨[.get 1 (lit "A"), .run 1, .run 1, .set 0 (lit "A") (lit "1"), .run 0, .run 0, .set 0 (lit "B") (lit "1"), .run 0, .run 0, .get 1 (lit "B"), .run 1, .run 1, .get 1 (lit "A")], _, ?_, rfl, ?_, ?_⟩
  · intro e he
    simp only [List.mem_cons, List.not_mem_nil, or_false] at he
    rcases he with rfl | rfl | rfl | rfl | rfl | rfl | rfl | rfl | rfl | rfl | rfl | rfl | rfl <;> first | trivial | (simp only [CleanEv]; decide +kernel)
  · decide +kernel
  · decide +kernel

/-- C153 (negation): a query that the database refuses, being busy with another program, reads as if the key had no value; the default, or that there is none, then stays in the cache, and later reads return it too although
the database answers again. -/
theorem C153_busy_refuted (v : Str) (hv : CleanValue v) (dflt : Option Str) : ∃ s, exec (start [(lit "A", some v)] 100 (fun _ _ => dflt.map fun d => { dflt := d })) [.get 1 (lit "A"), .miss 1, .run 1, .tick 102, .get 1 (lit "A")] = some s ∧
    (s.log.map fun e => (e.called, e.res)) = [(100, dflt), (102, dflt)] ∧ ∀ h ∈ s.hist, contents h.2 (lit "A") = some v := by
  have hc : CleanKey (lit "A") := by decide +kernel
  have hf : ∀ t : Table, t.db = [] → t.schema = (fun _ => dflt.map fun d => { dflt := d }) → fetch t (lit "A") = recOf dflt := by
    intro t h1 h2
    rw [fetch_clean t (fun _ => none) (lit "A") hc (by rw [h1]; rfl)]
    unfold answer
    rw [h2]
    cases dflt <;> rfl
  have hfill : exec (start [(lit "A", some v)] 100 (fun _ _ => dflt.map fun d => { dflt := d })) [.get 1 (lit "A"), .miss 1] =
      some { start [(lit "A", some v)] 100 (fun _ _ => dflt.map fun d => { dflt := d }) with
        prog := upd (upd (fun _ => { schema := fun _ => dflt.map fun d => { dflt := d } }) 1 { schema := fun _ => dflt.map fun d => { dflt := d }, last := 100, pc := .query (lit "A") 100 }) 1
          { schema := fun _ => dflt.map fun d => { dflt := d }, last := 100, pc := .fill (lit "A") 100 (recOf dflt) 0 } } := by
    rw [← hf ⟨[], fun _ => none, fun _ => dflt.map fun d => { dflt := d }, 100, 100⟩ rfl rfl]
    rfl
  have happ : ∀ (a b : List Ev) (s0 s1 : St), exec s0 a = some s1 → exec s0 (a ++ b) = exec s1 b := by
    intro a
    induction a with
    | nil => intro b s0 s1 h; cases h; rfl
    | cons e a ih =>
      intro b s0 s1 h
      simp only [exec, List.cons_append] at h ⊢
      cases h1 : s0.ev e with
      | none => rw [h1] at h; cases h
      | some s2 => rw [h1] at h; exact ih b s2 s1 h
  have hcon : ∀ t : Int, (contents [(lit "A", some v)] (lit "A")) = some v := fun _ => by
    have := contents_stored [] (lit "A") v (lit "A") hv.2
    simpa [stored] using this
  rw [show ([.get 1 (lit "A"), .miss 1, .run 1, .tick 102, .get 1 (lit "A")] : List Ev) = [.get 1 (lit "A"), .miss 1] ++ [.run 1, .tick 102, .get 1 (lit "A")] from rfl, happ _ _ _ _ hfill]
  refine ⟨_, rfl, ?_, ?_⟩
  · cases dflt <;> rfl
  · intro h hh
    have : h = (100, [(lit "A", some v)]) ∨ h = (102, [(lit "A", some v)]) := by
      have e : h ∈ [((100 : Int), [(lit "A", some v)]), (102, [(lit "A", some v)])] := hh
      simpa using e
    rcases this with rfl | rfl <;> exact hcon 0

/-! ### Examples -/


/-- Two programs: one reads, the other sets while the first is between query and cache; the first sees the change after three seconds. -/
example : (exec (start [(lit "A", some (lit "0"))] 100 (fun _ _ => none))
      [.get 1 (lit "A"), .run 1, .set 0 (lit "A") (lit "1"), .run 0, .run 0, .run 1, .tick 102, .get 1 (lit "A"), .tick 103, .get 1 (lit "A"), .run 1, .run 1]).map (fun s => s.log) =
    some [⟨0, lit "A", 100, 1, some (lit "1")⟩, ⟨1, lit "A", 100, 0, some (lit "0")⟩, ⟨1, lit "A", 102, 0, some (lit "0")⟩, ⟨1, lit "A", 103, 3, some (lit "1")⟩] := by
  decide +kernel

/-- A program that removes a key reads its own default next, another one the old value a little longer. -/
example : (exec (start [(lit "A", some (lit "0"))] 100 (fun p _ => if p = 0 then some { dflt := lit "7" } else none))
      [.get 1 (lit "A"), .run 1, .run 1, .remove 0 (lit "A"), .run 0, .get 0 (lit "A"), .run 0, .run 0, .get 1 (lit "A"), .tick 105, .get 1 (lit "A"), .run 1, .run 1]).map (fun s => s.log.map fun e => (e.p, e.res)) =
    some [(1, some (lit "0")), (0, some (lit "7")), (0, some (lit "7")), (1, some (lit "0")), (1, none)] := by
  decide +kernel

end Verif.Config.Programs
