import Verif.Config.TableProps

/-
Property C116: one configuration table used by several threads at once.

The calls of `Configuration.cpp` are split into the steps between which other threads, the clock and other processes can act; the table itself and what each step does to it
are those of `Config/Table.lean`.
-/

namespace Verif.Config.Conc

open Verif Config

/-! ### The program -/

/-- The calls.  `get` stands for `getStr`, `getNum`, `getBool`, `getFloat`, `getVector`, `getVectorOfStrings` and `defines` (`Configuration.cpp:344-354, 713-825`): each takes
the lock, looks the key up, copies or converts the value while it has the lock, and does the rest with the copy.  `validate` is `isValidValue`
(`Configuration.cpp:361-365`), of which only the access to the schema is of interest here. -/
inductive Call
  | get (k : Str)
  | set (k v : Str)
  | remove (k : Str)
  | purge
  | validate (k : Str)
deriving DecidableEq

/-- What a call returns: the value or "not found" (an exception), success, or nothing. -/
inductive Res
  | value (v : Option Str)
  | done (ok : Bool)
  | unit
deriving DecidableEq

/-- Where a thread is.  All from `age` to `leave` are inside the lock. -/
inductive Pc
  /-- Outside of all calls. -/
  | idle
  /-- Called, has not got the lock. -/
  | enter (c : Call)
  /-- `Configuration.cpp:661`: `checkCacheAge` is next. -/
  | age (k : Str)
  /-- `Configuration.cpp:667`: the search in the cache is next. -/
  | find (k : Str)
  /-- `Configuration.cpp:676`: the query is next. -/
  | query (k : Str)
  /-- `Configuration.cpp:682-691`: filling the cache is next. -/
  | fill (k : Str) (v : Option Str)
  /-- `Configuration.cpp:896-901`: making the command is next. -/
  | compose (k v : Str)
  /-- `Configuration.cpp:903`: the command is next. -/
  | exec (k v cmd : Str)
  /-- `Configuration.cpp:905`: filling the cache is next. -/
  | store (k v : Str)
  /-- `Configuration.cpp:833-834`: forgetting the cached value is next. -/
  | erase (k : Str)
  /-- `Configuration.cpp:837`: the command is next. -/
  | delete (k : Str)
  /-- `Configuration.cpp:938-943`: emptying the cache is next. -/
  | clear
  /-- The end of the scope of the lock is next, then the return. -/
  | leave (r : Res)
  /-- `Configuration.cpp:364`: `mSchema[name]` is next; without lock. -/
  | touch (k : Str)
  /-- The return is next; without lock. -/
  | back (r : Res)
deriving DecidableEq

/-- A process: the table, who has `mLock` (`Configuration.h:195-204`), the clock, and the threads. -/
structure St where
  table : Table
  owner : Option Nat
  clock : Int
  pc : Nat → Pc

/-- What can be seen from outside. -/
inductive Obs
  | call (t : Nat) (c : Call)
  | ret (t : Nat) (r : Res)
  | tick (now : Int)
  | ext (db : Db)
deriving DecidableEq

/-- What happens: a call, a step of a thread, the clock showing something else, another process writing to the database. -/
inductive Ev
  | call (t : Nat) (c : Call)
  | step (t : Nat)
  | tick (now : Int)
  | ext (db : Db)
deriving DecidableEq

/-- The first statement after taking the lock (`Configuration.cpp:347-348, 661, 831-833, 895-897, 937-938`; `isValidValue` takes none, line 364). -/
def body : Call → Pc
  | .get k => .age k
  | .set k v => .compose k v
  | .remove k => .erase k
  | .purge => .clear
  | .validate k => .touch k

/-- The record made of the answer of the database (`Configuration.cpp:682-691`). -/
def recFor (schema : Str → Option Key) (k : Str) (v : Option Str) : Rec :=
  match v with
  | some v => ⟨v, true⟩
  | none => match schema k with
    | some key => ⟨key.dflt, true⟩
    | none => ⟨[], false⟩

/-- What `lookup` returns for a record, or throws (`Configuration.cpp:668-671, 690, 696`). -/
def valueOf (r : Rec) : Option Str := if r.defined then some r.value else none

/-- The state with thread `t` elsewhere. -/
def St.at (s : St) (t : Nat) (p : Pc) : St := { s with pc := fun u => if u = t then p else s.pc u }

/-- One step of a thread (`Configuration.cpp:344-365, 658-697, 713-725, 827-838, 892-907, 916-945`); the loop that empties the cache is one step.  `none`: it has to wait, or is
outside of all calls. -/
def next (s : St) (t : Nat) : Option (St × List Obs) :=
  match s.pc t with
  | .idle => none
  | .enter (.validate k) => some (s.at t (.touch k), [])
  | .enter c => if s.owner = none then some ({ s with owner := some t }.at t (body c), []) else none
  | .age k => some ({ s with table := checkCacheAge { s.table with now := s.clock } }.at t (.find k), [])
  | .find k =>
    match s.table.cache k with
    | some r => some (s.at t (.leave (.value (valueOf r))), [])
    | none => some (s.at t (.query k), [])
  | .query k => some (s.at t (.fill k (singleLookup s.table.db k)), [])
  | .fill k v =>
    let r := recFor s.table.schema k v
    some ({ s with table := { s.table with cache := put s.table.cache k (some r) } }.at t (.leave (.value (valueOf r))), [])
  | .compose k v => some (s.at t (.exec k v (setCmd s.table k v)), [])
  | .exec k v cmd =>
    match sqlExec s.table.db cmd with
    | some db' => some ({ s with table := { s.table with db := db' } }.at t (.store k v), [])
    | none => some (s.at t (.leave (.done false)), [])
  | .store k v => some ({ s with table := { s.table with cache := put s.table.cache k (some ⟨v, true⟩) } }.at t (.leave (.done true)), [])
  | .erase k => some ({ s with table := { s.table with cache := put s.table.cache k none } }.at t (.delete k), [])
  | .delete k =>
    match sqlExec s.table.db (removeCmd k) with
    | some db' => some ({ s with table := { s.table with db := db' } }.at t (.leave (.done true)), [])
    | none => some (s.at t (.leave (.done false)), [])
  | .clear => some ({ s with table := Config.purge s.table }.at t (.leave .unit), [])
  | .leave r => some ({ s with owner := none }.at t .idle, [.ret t r])
  | .touch k => some ({ s with table := touchSchema s.table k }.at t (.back .unit), [])
  | .back r => some (s.at t .idle, [.ret t r])

/-- One event and what is seen of it. -/
def happen (s : St) : Ev → Option (St × List Obs)
  | .call t c => if s.pc t = .idle then some (s.at t (.enter c), [.call t c]) else none
  | .step t => next s t
  | .tick now => some ({ s with clock := now }, [.tick now])
  | .ext db => some ({ s with table := { s.table with db := db } }, [.ext db])

/-- An execution and its trace. -/
def exec (s : St) : List Ev → Option (St × List Obs)
  | [] => some (s, [])
  | e :: es => (happen s e).bind fun p => (exec p.1 es).map fun q => (q.1, p.2 ++ q.2)

/-- The start: a table nobody uses, with nothing in the cache. -/
def start (db : Db) (schema : Str → Option Key) (last now : Int) : St := ⟨fresh db schema last now, none, now, fun _ => .idle⟩

/-! ### The specification: one call at a time

A machine on which every call happens at a single moment between the call and the return.  It comes in two forms: with the table as it is when used by a single thread
(`Config/Table.lean`), and with the map of the user's view (`answer`, `ideal` of C53). -/

/-- Where a call is in the ideal machine: not called, called and not yet done (with the values the clock has shown since), done but not yet returned. -/
inductive Phase
  | idle
  | called (c : Call) (times : List Int)
  | decided (r : Res)

/-- The ideal machine over any kind of contents. -/
structure Machine (α : Type) where
  content : α
  clock : Int
  phase : Nat → Phase

/-- A thread in another phase. -/
def Machine.at {α : Type} (m : Machine α) (t : Nat) (p : Phase) : Machine α := { m with phase := fun u => if u = t then p else m.phase u }

/-- Times go into the calls under way. -/
def Phase.tick (now : Int) : Phase → Phase
  | .called c ts => .called c (now :: ts)
  | p => p

/-- Runs of the ideal machine, with what is seen: `act` is what a call does to the contents at the given time and what it returns, `ext` what another process does. -/
inductive Runs {α : Type} (act : α → Call → Int → α × Res) (ext : α → Db → α) : Machine α → List Obs → Machine α → Prop
  | nil (m) : Runs act ext m [] m
  | call (m t c tr m') : m.phase t = .idle → Runs act ext (m.at t (.called c [m.clock])) tr m' → Runs act ext m (.call t c :: tr) m'
  | act (m t c ts τ tr m') : m.phase t = .called c ts → τ ∈ ts →
      Runs act ext ({ m with content := (act m.content c τ).1 }.at t (.decided (act m.content c τ).2)) tr m' → Runs act ext m tr m'
  | ret (m t r tr m') : m.phase t = .decided r → Runs act ext (m.at t .idle) tr m' → Runs act ext m (.ret t r :: tr) m'
  | tick (m now tr m') : Runs act ext { m with clock := now, phase := fun t => (m.phase t).tick now } tr m' → Runs act ext m (.tick now :: tr) m'
  | ext (m db tr m') : Runs act ext { m with content := ext m.content db } tr m' → Runs act ext m (.ext db :: tr) m'

/-- The calls on the table as used by a single thread. -/
def tableAct (s : Table) (c : Call) (τ : Int) : Table × Res :=
  match c with
  | .get k => ((getStr { s with now := τ } k).1, .value (getStr { s with now := τ } k).2)
  | .set k v => ((setStr s k v).1, .done (setStr s k v).2)
  | .remove k => ((Config.remove s k).1, .done (Config.remove s k).2)
  | .purge => (Config.purge s, .unit)
  | .validate k => (touchSchema s k, .unit)

/-- Another process changing the database. -/
def tableExt (s : Table) (db : Db) : Table := { s with db := db }

/-- The calls on the user's view: a map from keys to values, and the defaults. -/
def mapAct (schema : Str → Option Key) (m : Str → Option Str) (c : Call) (_ : Int) : (Str → Option Str) × Res :=
  match c with
  | .get k => (m, .value (answer schema m k))
  | .set k v => (fun x => if x = k then some v else m x, .done true)
  | .remove k => (fun x => if x = k then none else m x, .done true)
  | .purge => (m, .unit)
  | .validate _ => (m, .unit)

/-- Another process replacing the database replaces the map. -/
def mapExt (_ : Str → Option Str) (db : Db) : Str → Option Str := contents db

/-- The ideal machine at the start. -/
def Machine.start {α : Type} (a : α) (now : Int) : Machine α := ⟨a, now, fun _ => .idle⟩

/-- The calls of the events validate only keys of the schema. -/
def KnownOnly (schema : Str → Option Key) (es : List Ev) : Prop := ∀ t k, Ev.call t (.validate k) ∈ es → (schema k).isSome

/-- The texts are clean, as for C53, and no other process writes. -/
def CleanEv (schema : Str → Option Key) : Ev → Prop
  | .call _ (.get k) => CleanKey k
  | .call _ (.set k v) => CleanKey k ∧ CleanValue v
  | .call _ (.remove k) => CleanKey k
  | .call _ (.validate k) => (schema k).isSome
  | .ext _ => False
  | _ => True

/-! ### Lemmas -/

/-- Inside the lock. -/
def Pc.inside : Pc → Prop
  | .idle | .enter _ | .touch _ | .back _ => False
  | _ => True

/-- Where the ideal machine is when the thread is at `p`. -/
def PhaseOk (sch : Str → Option Key) (clock : Int) : Pc → Phase → Prop
  | .idle, ph => ph = .idle
  | .enter c, ph => (∃ ts, ph = .called c ts ∧ clock ∈ ts) ∧ ∀ k, c = .validate k → (sch k).isSome
  | .age k, ph => ∃ ts, ph = .called (.get k) ts ∧ clock ∈ ts
  | .find k, ph => ∃ ts, ph = .called (.get k) ts ∧ clock ∈ ts
  | .query k, ph => ∃ ts, ph = .called (.get k) ts ∧ clock ∈ ts
  | .fill k v, ph => ph = .decided (.value (valueOf (recFor sch k v)))
  | .compose k v, ph => ∃ ts, ph = .called (.set k v) ts ∧ clock ∈ ts
  | .exec k v _, ph => ∃ ts, ph = .called (.set k v) ts ∧ clock ∈ ts
  | .store _ _, ph => ph = .decided (.done true)
  | .erase k, ph => ∃ ts, ph = .called (.remove k) ts ∧ clock ∈ ts
  | .delete k, ph => ∃ ts, ph = .called (.remove k) ts ∧ clock ∈ ts
  | .clear, ph => ∃ ts, ph = .called .purge ts ∧ clock ∈ ts
  | .leave r, ph => ph = .decided r
  | .touch k, ph => (∃ ts, ph = .called (.validate k) ts ∧ clock ∈ ts) ∧ (sch k).isSome
  | .back r, ph => ph = .decided r

/-- How the table of the program relates to that of the ideal machine, given what the owner of the lock is about to do. -/
def Rel (p : Pc) (ph : Phase) (s T : Table) : Prop :=
  match p with
  | .find k => ∃ ts τ, ph = .called (.get k) ts ∧ τ ∈ ts ∧ s = checkCacheAge { T with now := τ }
  | .query k => (∃ ts τ, ph = .called (.get k) ts ∧ τ ∈ ts ∧ s = checkCacheAge { T with now := τ }) ∧ s.cache k = none
  | .fill k v => T = { s with cache := put s.cache k (some (recFor s.schema k v)) }
  | .exec k v cmd => s = T ∧ cmd = setCmd s k v
  | .store k v => T = { s with cache := put s.cache k (some ⟨v, true⟩) }
  | .delete k => s = { T with cache := put T.cache k none }
  | _ => s = T

/-- The invariant of the simulation. -/
structure Inv (sch : Str → Option Key) (s : St) (M : Machine Table) : Prop where
  clock : M.clock = s.clock
  schema : s.table.schema = sch
  phase : ∀ t, PhaseOk sch s.clock (s.pc t) (M.phase t)
  owner : ∀ t, (s.pc t).inside ↔ s.owner = some t
  free : s.owner = none → s.table = M.content
  held : ∀ t, s.owner = some t → Rel (s.pc t) (M.phase t) s.table M.content

theorem Runs.append {α : Type} {act : α → Call → Int → α × Res} {ext : α → Db → α} {m m' m'' : Machine α} {a b : List Obs} (h : Runs act ext m a m') (h2 : Runs act ext m' b m'') :
    Runs act ext m (a ++ b) m'' := by
  induction h with
  | nil m => exact h2
  | call m t c tr m' hp _ ih => exact .call m t c _ _ hp (ih h2)
  | act m t c ts τ tr m' hp hτ _ ih => exact .act m t c ts τ _ _ hp hτ (ih h2)
  | ret m t r tr m' hp _ ih => exact .ret m t r _ _ hp (ih h2)
  | tick m now tr m' _ ih => exact .tick m now _ _ (ih h2)
  | ext m db tr m' _ ih => exact .ext m db _ _ (ih h2)

theorem age_db (T : Table) (db : Db) : checkCacheAge { T with db := db } = { checkCacheAge T with db := db } := by
  unfold checkCacheAge; simp only; split <;> rfl

theorem age_schema (T : Table) : (checkCacheAge T).schema = T.schema := by unfold checkCacheAge; split <;> rfl

theorem setCmd_schema (s s' : Table) (k v : Str) (h : s.schema = s'.schema) : setCmd s k v = setCmd s' k v := by unfold setCmd; rw [h]

theorem fetch_recFor (s : Table) (k : Str) : fetch s k = recFor s.schema k (singleLookup s.db k) := rfl

/-- What the steps of one thread do to the invariant for the others, when they do not touch clock and lock. -/
theorem Inv.move {sch : Str → Option Key} {s : St} {M : Machine Table} (h : Inv sch s M) (t : Nat) (p : Pc) (ph : Phase) (s' T : Table) (ho : s.owner = some t)
    (hs : s'.schema = sch) (hp : PhaseOk sch s.clock p ph) (hi : p.inside) (hr : Rel p ph s' T) :
    Inv sch ({ s with table := s' }.at t p) ({ M with content := T }.at t ph) := by
  refine ⟨h.clock, hs, ?_, ?_, ?_, ?_⟩
  · intro u
    show PhaseOk sch s.clock (if u = t then p else s.pc u) (if u = t then ph else M.phase u)
    split
    · exact hp
    · exact h.phase u
  · intro u
    show Pc.inside (if u = t then p else s.pc u) ↔ s.owner = some u
    split
    · next e => subst e; exact ⟨fun _ => ho, fun _ => hi⟩
    · exact h.owner u
  · intro e
    have : s.owner = none := e
    rw [ho] at this; cases this
  · intro u hu
    have : s.owner = some u := hu
    rw [ho] at this; cases this
    show Rel (if t = t then p else s.pc t) (if t = t then ph else M.phase t) s' T
    rw [if_pos rfl, if_pos rfl]; exact hr

/-- The same for a thread outside of the lock. -/
theorem Inv.moveOut {sch : Str → Option Key} {s : St} {M : Machine Table} (h : Inv sch s M) (t : Nat) (p : Pc) (ph : Phase) (ho : ¬ (s.pc t).inside)
    (hp : PhaseOk sch s.clock p ph) (hi : ¬ p.inside) :
    Inv sch (s.at t p) (M.at t ph) := by
  have hne : s.owner ≠ some t := fun e => ho ((h.owner t).2 e)
  refine ⟨h.clock, h.schema, ?_, ?_, h.free, ?_⟩
  · intro u
    show PhaseOk sch s.clock (if u = t then p else s.pc u) (if u = t then ph else M.phase u)
    split
    · exact hp
    · exact h.phase u
  · intro u
    show Pc.inside (if u = t then p else s.pc u) ↔ s.owner = some u
    split
    · next e => subst e; exact ⟨fun x => absurd x hi, fun x => absurd x hne⟩
    · exact h.owner u
  · intro u hu
    have hut : u ≠ t := fun e => hne (e ▸ hu)
    show Rel (if u = t then p else s.pc u) (if u = t then ph else M.phase u) s.table M.content
    rw [if_neg hut, if_neg hut]; exact h.held u hu

theorem at_self {α : Type} (M : Machine α) (t : Nat) : M.at t (M.phase t) = M := by
  unfold Machine.at
  congr 1
  funext u
  split
  · next e => rw [e]
  · rfl

/-- A step inside the lock of which the ideal machine sees nothing. -/
theorem Inv.quiet {sch : Str → Option Key} {s : St} {M : Machine Table} (h : Inv sch s M) (t : Nat) (p : Pc) (s' : Table) (ho : s.owner = some t) (hs : s'.schema = sch)
    (hp : PhaseOk sch s.clock p (M.phase t)) (hi : p.inside) (hr : Rel p (M.phase t) s' M.content) :
    ∃ M', Runs tableAct tableExt M [] M' ∧ Inv sch ({ s with table := s' }.at t p) M' := by
  refine ⟨M, .nil M, ?_⟩
  have := h.move t p (M.phase t) s' M.content ho hs hp hi hr
  rw [at_self] at this
  exact this

/-- A step inside the lock at which the ideal machine acts. -/
theorem Inv.acts {sch : Str → Option Key} {s : St} {M : Machine Table} (h : Inv sch s M) (t : Nat) (p : Pc) (s' : Table) (c : Call) (ts : List Int) (τ : Int)
    (ho : s.owner = some t) (hs : s'.schema = sch) (hph : M.phase t = .called c ts) (hτ : τ ∈ ts)
    (hp : PhaseOk sch s.clock p (.decided (tableAct M.content c τ).2)) (hi : p.inside) (hr : Rel p (.decided (tableAct M.content c τ).2) s' (tableAct M.content c τ).1) :
    ∃ M', Runs tableAct tableExt M [] M' ∧ Inv sch ({ s with table := s' }.at t p) M' :=
  ⟨_, .act M t c ts τ [] _ hph hτ (.nil _), h.move t p _ s' _ ho hs hp hi hr⟩

theorem next_sim {sch : Str → Option Key} {s s' : St} {M : Machine Table} {t : Nat} {tr : List Obs} (h : Inv sch s M) (hn : next s t = some (s', tr)) :
    ∃ M', Runs tableAct tableExt M tr M' ∧ Inv sch s' M' := by
  have hph := h.phase t
  have hin := h.owner t
  have hheld := h.held t
  unfold next at hn
  generalize hpc : s.pc t = p at hn hph hin hheld
  cases p with
  | idle => cases hn
  | enter c =>
    obtain ⟨⟨ts, h1, h2⟩, h3⟩ := hph
    cases c with
    | validate k =>
      simp only [Option.some.injEq, Prod.mk.injEq] at hn
      obtain ⟨rfl, rfl⟩ := hn
      refine ⟨M, .nil M, ?_⟩
      have := h.moveOut t (.touch k) (M.phase t) (by rw [hpc]; exact id) ⟨⟨ts, h1, h2⟩, h3 k rfl⟩ id
      rw [at_self] at this
      exact this
    | get k => ?_
    | set k v => ?_
    | remove k => ?_
    | purge => ?_
    all_goals
      simp only at hn
      split at hn
      · next ho =>
        simp only [Option.some.injEq, Prod.mk.injEq] at hn
        obtain ⟨rfl, rfl⟩ := hn
        refine ⟨M, .nil M, h.clock, h.schema, ?_, ?_, ?_, ?_⟩
        · intro u
          show PhaseOk sch s.clock (if u = t then body _ else s.pc u) (M.phase u)
          split
          · next e => subst e; exact ⟨ts, h1, h2⟩
          · exact h.phase u
        · intro u
          show Pc.inside (if u = t then body _ else s.pc u) ↔ some t = some u
          split
          · next e => subst e; exact ⟨fun _ => rfl, fun _ => trivial⟩
          · next e =>
            rw [h.owner u, ho]
            exact ⟨fun x => (by cases x), fun x => absurd (Option.some.inj x).symm e⟩
        · intro e; cases e
        · intro u hu
          have : some t = some u := hu
          cases this
          show Rel (if t = t then body _ else s.pc t) (M.phase t) s.table M.content
          rw [if_pos rfl]
          exact h.free ho
      · cases hn
  | age k =>
    have ho := hin.1 trivial
    simp only [Option.some.injEq, Prod.mk.injEq] at hn
    obtain ⟨rfl, rfl⟩ := hn
    obtain ⟨ts, h1, h2⟩ := hph
    have heq : s.table = M.content := hheld ho
    exact h.quiet t (.find k) _ ho (by rw [age_schema]; exact h.schema) ⟨ts, h1, h2⟩ trivial ⟨ts, s.clock, h1, h2, by rw [heq]⟩
  | find k =>
    have ho := hin.1 trivial
    obtain ⟨ts, τ, h1, h2, h3⟩ := hheld ho
    simp only at hn
    split at hn
    · next r hr =>
      simp only [Option.some.injEq, Prod.mk.injEq] at hn
      obtain ⟨rfl, rfl⟩ := hn
      have hl : lookup { M.content with now := τ } k = (s.table, valueOf r) := by
        unfold lookup valueOf
        simp only
        rw [← h3, hr]
      refine h.acts t (.leave (.value (valueOf r))) s.table (.get k) ts τ ho h.schema h1 h2 ?_ trivial ?_
      · show Phase.decided (.value (lookup { M.content with now := τ } k).2) = _
        rw [hl]
      · show s.table = (lookup { M.content with now := τ } k).1
        rw [hl]
    · next hr =>
      simp only [Option.some.injEq, Prod.mk.injEq] at hn
      obtain ⟨rfl, rfl⟩ := hn
      exact h.quiet t (.query k) s.table ho h.schema hph trivial ⟨⟨ts, τ, h1, h2, h3⟩, hr⟩
  | query k =>
    have ho := hin.1 trivial
    obtain ⟨⟨ts, τ, h1, h2, h3⟩, hr⟩ := hheld ho
    simp only [Option.some.injEq, Prod.mk.injEq] at hn
    obtain ⟨rfl, rfl⟩ := hn
    have hl : lookup { M.content with now := τ } k =
        ({ s.table with cache := put s.table.cache k (some (recFor s.table.schema k (singleLookup s.table.db k))) }, valueOf (recFor s.table.schema k (singleLookup s.table.db k))) := by
      unfold lookup valueOf
      simp only
      rw [← h3, hr]
      rfl
    refine h.acts t (.fill k (singleLookup s.table.db k)) s.table (.get k) ts τ ho h.schema h1 h2 ?_ trivial ?_
    · show Phase.decided (.value (lookup { M.content with now := τ } k).2) = _
      rw [hl, h.schema]
    · show (lookup { M.content with now := τ } k).1 = _
      rw [hl]
  | fill k v =>
    have ho := hin.1 trivial
    simp only [Option.some.injEq, Prod.mk.injEq] at hn
    obtain ⟨rfl, rfl⟩ := hn
    have hT : M.content = _ := hheld ho
    refine h.quiet t (.leave (.value (valueOf (recFor s.table.schema k v)))) _ ho h.schema ?_ trivial hT.symm
    have : M.phase t = _ := hph
    show M.phase t = _
    rw [this, h.schema]
  | compose k v =>
    have ho := hin.1 trivial
    simp only [Option.some.injEq, Prod.mk.injEq] at hn
    obtain ⟨rfl, rfl⟩ := hn
    exact h.quiet t (.exec k v (setCmd s.table k v)) s.table ho h.schema hph trivial ⟨hheld ho, rfl⟩
  | exec k v cmd =>
    have ho := hin.1 trivial
    obtain ⟨ts, h1, h2⟩ := hph
    obtain ⟨h3, h4⟩ := hheld ho
    subst h4
    simp only at hn
    split at hn
    · next db' hd =>
      simp only [Option.some.injEq, Prod.mk.injEq] at hn
      obtain ⟨rfl, rfl⟩ := hn
      have hl : setStr M.content k v = ({ s.table with db := db', cache := put s.table.cache k (some ⟨v, true⟩) }, true) := by
        unfold setStr; rw [← h3, hd]
      refine h.acts t (.store k v) { s.table with db := db' } (.set k v) ts s.clock ho h.schema h1 h2 ?_ trivial ?_
      · show Phase.decided (.done (setStr M.content k v).2) = _
        rw [hl]
      · show (setStr M.content k v).1 = _
        rw [hl]
    · next hd =>
      simp only [Option.some.injEq, Prod.mk.injEq] at hn
      obtain ⟨rfl, rfl⟩ := hn
      have hl : setStr M.content k v = (s.table, false) := by
        unfold setStr; rw [← h3, hd]
      refine h.acts t (.leave (.done false)) s.table (.set k v) ts s.clock ho h.schema h1 h2 ?_ trivial ?_
      · show Phase.decided (.done (setStr M.content k v).2) = _
        rw [hl]
      · show s.table = (setStr M.content k v).1
        rw [hl]
  | store k v =>
    have ho := hin.1 trivial
    simp only [Option.some.injEq, Prod.mk.injEq] at hn
    obtain ⟨rfl, rfl⟩ := hn
    have hT : M.content = _ := hheld ho
    exact h.quiet t (.leave (.done true)) _ ho h.schema hph trivial hT.symm
  | erase k =>
    have ho := hin.1 trivial
    simp only [Option.some.injEq, Prod.mk.injEq] at hn
    obtain ⟨rfl, rfl⟩ := hn
    have hT : s.table = M.content := hheld ho
    exact h.quiet t (.delete k) _ ho h.schema hph trivial (by show _ = _; rw [hT])
  | delete k =>
    have ho := hin.1 trivial
    obtain ⟨ts, h1, h2⟩ := hph
    have h3 : s.table = { M.content with cache := put M.content.cache k none } := hheld ho
    have hdb : M.content.db = s.table.db := by rw [h3]
    simp only at hn
    split at hn
    · next db' hd =>
      simp only [Option.some.injEq, Prod.mk.injEq] at hn
      obtain ⟨rfl, rfl⟩ := hn
      have hl : Config.remove M.content k = ({ s.table with db := db' }, true) := by
        unfold Config.remove; rw [hdb, hd, h3]
      refine h.acts t (.leave (.done true)) { s.table with db := db' } (.remove k) ts s.clock ho h.schema h1 h2 ?_ trivial ?_
      · show Phase.decided (.done (Config.remove M.content k).2) = _
        rw [hl]
      · show _ = (Config.remove M.content k).1
        rw [hl]
    · next hd =>
      simp only [Option.some.injEq, Prod.mk.injEq] at hn
      obtain ⟨rfl, rfl⟩ := hn
      have hl : Config.remove M.content k = (s.table, false) := by
        unfold Config.remove; rw [hdb, hd, h3]
      refine h.acts t (.leave (.done false)) s.table (.remove k) ts s.clock ho h.schema h1 h2 ?_ trivial ?_
      · show Phase.decided (.done (Config.remove M.content k).2) = _
        rw [hl]
      · show _ = (Config.remove M.content k).1
        rw [hl]
  | clear =>
    have ho := hin.1 trivial
    obtain ⟨ts, h1, h2⟩ := hph
    simp only [Option.some.injEq, Prod.mk.injEq] at hn
    obtain ⟨rfl, rfl⟩ := hn
    have hT : s.table = M.content := hheld ho
    exact h.acts t (.leave .unit) _ .purge ts s.clock ho h.schema h1 h2 rfl trivial (by show _ = Config.purge M.content; rw [hT])
  | leave r =>
    have ho := hin.1 trivial
    simp only [Option.some.injEq, Prod.mk.injEq] at hn
    obtain ⟨rfl, rfl⟩ := hn
    have hT : s.table = M.content := hheld ho
    refine ⟨M.at t .idle, .ret M t r [] _ hph (.nil _), h.clock, h.schema, ?_, ?_, fun _ => hT, ?_⟩
    · intro u
      show PhaseOk sch s.clock (if u = t then .idle else s.pc u) (if u = t then .idle else M.phase u)
      split
      · rfl
      · exact h.phase u
    · intro u
      show Pc.inside (if u = t then .idle else s.pc u) ↔ none = some u
      split
      · exact ⟨fun x => x.elim, fun x => by cases x⟩
      · next e =>
        rw [h.owner u, ho]
        exact ⟨fun x => absurd (Option.some.inj x).symm e, fun x => by cases x⟩
    · intro u hu; cases hu
  | touch k =>
    obtain ⟨⟨ts, h1, h2⟩, h3⟩ := hph
    simp only [Option.some.injEq, Prod.mk.injEq] at hn
    obtain ⟨rfl, rfl⟩ := hn
    have ht : ∀ T : Table, T.schema = sch → touchSchema T k = T := by
      intro T hT
      unfold touchSchema
      rw [hT]
      cases hk : sch k with
      | none => rw [hk] at h3; cases h3
      | some _ => rfl
    have hM : M.content.schema = sch := by
      cases ho : s.owner with
      | none => rw [← h.free ho]; exact h.schema
      | some u =>
        have hr := h.held u ho
        have hs := h.schema
        generalize s.pc u = p at hr
        unfold Rel at hr
        split at hr
        · obtain ⟨_, _, _, _, e⟩ := hr
          rw [e, age_schema] at hs; exact hs
        · obtain ⟨⟨_, _, _, _, e⟩, _⟩ := hr
          rw [e, age_schema] at hs; exact hs
        · rw [hr]; exact hs
        · rw [← hr.1]; exact hs
        · rw [hr]; exact hs
        · rw [hr] at hs; exact hs
        · rw [← hr]; exact hs
    have := h.moveOut t (.back .unit) (.decided .unit) (by rw [hpc]; exact id) rfl id
    refine ⟨{ M with content := (tableAct M.content (.validate k) s.clock).1 }.at t (.decided .unit), .act M t (.validate k) ts s.clock [] _ h1 h2 (.nil _), ?_⟩
    show Inv sch ({ s with table := touchSchema s.table k }.at t (.back .unit)) ({ M with content := touchSchema M.content k }.at t (.decided .unit))
    rw [ht _ h.schema, ht _ hM]
    exact this
  | back r =>
    simp only [Option.some.injEq, Prod.mk.injEq] at hn
    obtain ⟨rfl, rfl⟩ := hn
    exact ⟨M.at t .idle, .ret M t r [] _ hph (.nil _), h.moveOut t .idle .idle (by rw [hpc]; exact id) rfl id⟩

theorem rel_ext {p : Pc} {ph : Phase} {s T : Table} (h : Rel p ph s T) (db : Db) : Rel p ph { s with db := db } { T with db := db } := by
  unfold Rel at h ⊢
  split at h
  · obtain ⟨ts, τ, h1, h2, h3⟩ := h
    exact ⟨ts, τ, h1, h2, by rw [h3]; exact (age_db _ _).symm⟩
  · obtain ⟨⟨ts, τ, h1, h2, h3⟩, h4⟩ := h
    exact ⟨⟨ts, τ, h1, h2, by rw [h3]; exact (age_db _ _).symm⟩, h4⟩
  · rw [h]
  · obtain ⟨h1, h2⟩ := h
    exact ⟨by rw [h1], by rw [h2]; exact setCmd_schema _ _ _ _ rfl⟩
  · rw [h]
  · rw [h]
  · rw [h]

theorem phaseOk_tick {sch : Str → Option Key} {clock : Int} {p : Pc} {ph : Phase} (h : PhaseOk sch clock p ph) (now : Int) : PhaseOk sch now p (ph.tick now) := by
  cases p with
  | enter c =>
    obtain ⟨⟨ts, h1, h2⟩, h3⟩ := h
    subst h1
    exact ⟨⟨now :: ts, rfl, by simp⟩, h3⟩
  | touch k =>
    obtain ⟨⟨ts, h1, h2⟩, h3⟩ := h
    subst h1
    exact ⟨⟨now :: ts, rfl, by simp⟩, h3⟩
  | idle => have : ph = _ := h; subst this; rfl
  | fill k v => have : ph = _ := h; subst this; rfl
  | store k v => have : ph = _ := h; subst this; rfl
  | leave r => have : ph = _ := h; subst this; rfl
  | back r => have : ph = _ := h; subst this; rfl
  | _ =>
    obtain ⟨ts, h1, h2⟩ := h
    subst h1
    exact ⟨now :: ts, rfl, by simp⟩

theorem rel_tick {p : Pc} {ph : Phase} {s T : Table} (h : Rel p ph s T) (now : Int) : Rel p (ph.tick now) s T := by
  unfold Rel at h ⊢
  split at h
  · obtain ⟨ts, τ, h1, h2, h3⟩ := h
    subst h1
    exact ⟨now :: ts, τ, rfl, by simp [h2], h3⟩
  · obtain ⟨⟨ts, τ, h1, h2, h3⟩, h4⟩ := h
    subst h1
    exact ⟨⟨now :: ts, τ, rfl, by simp [h2], h3⟩, h4⟩
  all_goals exact h

theorem happen_sim {sch : Str → Option Key} {s s' : St} {M : Machine Table} {e : Ev} {tr : List Obs} (hk : ∀ t k, e = .call t (.validate k) → (sch k).isSome) (h : Inv sch s M)
    (hn : happen s e = some (s', tr)) : ∃ M', Runs tableAct tableExt M tr M' ∧ Inv sch s' M' := by
  cases e with
  | step t => exact next_sim h hn
  | call t c =>
    simp only [happen] at hn
    split at hn
    · next hi =>
      simp only [Option.some.injEq, Prod.mk.injEq] at hn
      obtain ⟨rfl, rfl⟩ := hn
      have hph := h.phase t
      rw [hi] at hph
      refine ⟨M.at t (.called c [M.clock]), .call M t c [] _ hph (.nil _), ?_⟩
      exact h.moveOut t (.enter c) _ (by rw [hi]; exact id) ⟨⟨_, rfl, by rw [h.clock]; simp⟩, fun k hc => hk t k (by rw [hc])⟩ id
    · cases hn
  | tick now =>
    simp only [happen, Option.some.injEq, Prod.mk.injEq] at hn
    obtain ⟨rfl, rfl⟩ := hn
    exact ⟨_, .tick M now [] _ (.nil _), rfl, h.schema, fun t => phaseOk_tick (h.phase t) now, h.owner, h.free, fun t ht => rel_tick (h.held t ht) now⟩
  | ext db =>
    simp only [happen, Option.some.injEq, Prod.mk.injEq] at hn
    obtain ⟨rfl, rfl⟩ := hn
    exact ⟨_, .ext M db [] _ (.nil _), h.clock, h.schema, h.phase, h.owner, fun ho => by show { s.table with db := db } = { M.content with db := db }; rw [h.free ho],
      fun t ht => rel_ext (h.held t ht) db⟩

theorem exec_sim {sch : Str → Option Key} {es : List Ev} {s s' : St} {M : Machine Table} {tr : List Obs} (hk : KnownOnly sch es) (h : Inv sch s M)
    (hn : exec s es = some (s', tr)) : ∃ M', Runs tableAct tableExt M tr M' ∧ Inv sch s' M' := by
  induction es generalizing s M tr with
  | nil =>
    simp only [exec, Option.some.injEq, Prod.mk.injEq] at hn
    obtain ⟨rfl, rfl⟩ := hn
    exact ⟨M, .nil M, h⟩
  | cons e es ih =>
    simp only [exec, Option.bind_eq_some_iff, Option.map_eq_some_iff] at hn
    obtain ⟨⟨s1, tr1⟩, h1, ⟨s2, tr2⟩, h2, h3⟩ := hn
    simp only [Prod.mk.injEq] at h3
    obtain ⟨rfl, rfl⟩ := h3
    obtain ⟨M1, hr1, hi1⟩ := happen_sim (fun t k he => hk t k (by rw [he]; simp)) h h1
    obtain ⟨M2, hr2, hi2⟩ := ih (fun t k he => hk t k (by simp [he])) hi1 h2
    exact ⟨M2, hr1.append hr2, hi2⟩

theorem inv_start (db : Db) (schema : Str → Option Key) (last now : Int) : Inv schema (start db schema last now) (Machine.start (fresh db schema last now) now) :=
  ⟨rfl, rfl, fun _ => rfl, fun _ => ⟨fun x => x.elim, fun x => by cases x⟩, fun _ => rfl, fun _ x => by cases x⟩

/-- The relation between the two ideal machines. -/
structure Agree (sch : Str → Option Key) (M : Machine Table) (N : Machine (Str → Option Str)) : Prop where
  clock : N.clock = M.clock
  phase : N.phase = M.phase
  schema : M.content.schema = sch
  db : DbOk N.content M.content
  cache : CacheOk N.content M.content
  clean : ∀ t c ts, M.phase t = .called c ts → CleanEv sch (.call t c)

/-- What may be seen when the events are clean. -/
def CleanObs (sch : Str → Option Key) : Obs → Prop
  | .call t c => CleanEv sch (.call t c)
  | .ext _ => False
  | _ => True

theorem agree_act {sch : Str → Option Key} {T : Table} {m : Str → Option Str} {c : Call} (t : Nat) (τ : Int) (hs : CleanSchema sch) (h1 : T.schema = sch) (h2 : DbOk m T) (h3 : CacheOk m T)
    (hc : CleanEv sch (.call t c)) :
    (tableAct T c τ).2 = (mapAct sch m c τ).2 ∧ (tableAct T c τ).1.schema = sch ∧ DbOk (mapAct sch m c τ).1 (tableAct T c τ).1 ∧ CacheOk (mapAct sch m c τ).1 (tableAct T c τ).1 := by
  subst h1
  cases c with
  | get k =>
    have hd : DbOk m { T with now := τ } := h2
    have hcc : CacheOk m { T with now := τ } := h3
    obtain ⟨a, b⟩ := lookup_of_cacheOk (s := { T with now := τ }) hc hd (cacheOk_age hcc)
    obtain ⟨c1, c2, -⟩ := lookup_db { T with now := τ } k
    refine ⟨?_, c2, ?_, b⟩
    · show Res.value (lookup { T with now := τ } k).2 = _
      rw [a]; rfl
    · intro x hx
      show contents (lookup { T with now := τ } k).1.db x = m x
      rw [c1]; exact h2 x hx
  | set k v =>
    have a := step_dbOk (op := .set k v) hs hc h2
    have b := step_cacheOk (op := .set k v) hs hc h2 h3
    refine ⟨?_, a.2, a.1, b⟩
    show Res.done (setStr T k v).2 = _
    rw [setStr_clean T k v hc.1 hc.2 hs]; rfl
  | remove k =>
    have a := step_dbOk (op := .remove k) hs hc h2
    have b := step_cacheOk (op := .remove k) hs hc h2 h3
    refine ⟨?_, a.2, a.1, b⟩
    show Res.done (Config.remove T k).2 = _
    rw [remove_clean T k hc]; rfl
  | purge => exact ⟨rfl, rfl, h2, fun _ _ _ x => by cases x⟩
  | validate k =>
    have a := step_dbOk (op := .validate k) hs hc h2
    have b := step_cacheOk (op := .validate k) hs hc h2 h3
    exact ⟨rfl, a.2, a.1, b⟩

theorem agree_sim {sch : Str → Option Key} (hs : CleanSchema sch) {M M' : Machine Table} {tr : List Obs} (hr : Runs tableAct tableExt M tr M') :
    ∀ N : Machine (Str → Option Str), (∀ o ∈ tr, CleanObs sch o) → Agree sch M N → ∃ N', Runs (mapAct sch) mapExt N tr N' ∧ Agree sch M' N' := by
  induction hr with
  | nil M => intro N _ h; exact ⟨N, .nil N, h⟩
  | call M t c tr M' hp _ ih =>
    intro N ho h
    have hc : CleanEv sch (.call t c) := ho (.call t c) (by simp)
    obtain ⟨N', h1, h2⟩ := ih (N.at t (.called c [N.clock])) (fun o x => ho o (by simp [x]))
      ⟨h.clock, by show (fun u => if u = t then _ else N.phase u) = fun u => if u = t then _ else M.phase u; rw [h.phase, h.clock], h.schema, h.db, h.cache, by
        intro u c' ts hu
        have hu : (if u = t then Phase.called c [M.clock] else M.phase u) = .called c' ts := hu
        split at hu
        · next e => rw [e]; cases hu; exact hc
        · exact h.clean u c' ts hu⟩
    exact ⟨N', .call N t c tr N' (by rw [h.phase]; exact hp) h1, h2⟩
  | act M t c ts τ tr M' hp hτ _ ih =>
    intro N ho h
    obtain ⟨a1, a2, a3, a4⟩ := agree_act t τ hs h.schema h.db h.cache (h.clean t c ts hp)
    obtain ⟨N', h1, h2⟩ := ih ({ N with content := (mapAct sch N.content c τ).1 }.at t (.decided (mapAct sch N.content c τ).2)) ho
      ⟨h.clock, by show (fun u => if u = t then _ else N.phase u) = fun u => if u = t then _ else M.phase u; rw [h.phase, a1], a2, a3, a4, by
        intro u c' ts' hu
        have hu : (if u = t then Phase.decided _ else M.phase u) = .called c' ts' := hu
        split at hu
        · cases hu
        · exact h.clean u c' ts' hu⟩
    exact ⟨N', .act N t c ts τ tr N' (by rw [h.phase]; exact hp) hτ h1, h2⟩
  | ret M t r tr M' hp _ ih =>
    intro N ho h
    obtain ⟨N', h1, h2⟩ := ih (N.at t .idle) (fun o x => ho o (by simp [x]))
      ⟨h.clock, by show (fun u => if u = t then _ else N.phase u) = fun u => if u = t then _ else M.phase u; rw [h.phase], h.schema, h.db, h.cache, by
        intro u c' ts' hu
        have hu : (if u = t then Phase.idle else M.phase u) = .called c' ts' := hu
        split at hu
        · cases hu
        · exact h.clean u c' ts' hu⟩
    exact ⟨N', .ret N t r tr N' (by rw [h.phase]; exact hp) h1, h2⟩
  | tick M now tr M' _ ih =>
    intro N ho h
    obtain ⟨N', h1, h2⟩ := ih { N with clock := now, phase := fun t => (N.phase t).tick now } (fun o x => ho o (by simp [x]))
      ⟨rfl, by show (fun u => (N.phase u).tick now) = fun u => (M.phase u).tick now; rw [h.phase], h.schema, h.db, h.cache, by
        intro u c' ts' hu
        have hu : (M.phase u).tick now = .called c' ts' := hu
        cases hp : M.phase u with
        | idle => rw [hp] at hu; cases hu
        | decided r => rw [hp] at hu; cases hu
        | called c ts =>
          have := h.clean u c ts hp
          rw [hp] at hu
          cases hu
          exact this⟩
    exact ⟨N', .tick N now tr N' h1, h2⟩
  | ext M db tr M' _ _ =>
    intro N ho h
    exact (ho (.ext db) (by simp)).elim

theorem next_obs {s s' : St} {t : Nat} {tr : List Obs} (h : next s t = some (s', tr)) : ∀ o ∈ tr, ∃ r, o = .ret t r := by
  unfold next at h
  repeat' split at h
  all_goals first
    | (cases h; done)
    | (simp only [Option.some.injEq, Prod.mk.injEq] at h
       obtain ⟨-, rfl⟩ := h
       intro o ho
       simp only [List.mem_cons, List.not_mem_nil, or_false] at ho
       try exact ho.elim
       try exact ⟨_, ho⟩)

theorem exec_clean {sch : Str → Option Key} {es : List Ev} {s s' : St} {tr : List Obs} (hc : ∀ e ∈ es, CleanEv sch e) (hn : exec s es = some (s', tr)) : ∀ o ∈ tr, CleanObs sch o := by
  induction es generalizing s tr with
  | nil =>
    simp only [exec, Option.some.injEq, Prod.mk.injEq] at hn
    obtain ⟨-, rfl⟩ := hn
    intro o ho; cases ho
  | cons e es ih =>
    simp only [exec, Option.bind_eq_some_iff, Option.map_eq_some_iff] at hn
    obtain ⟨⟨s1, tr1⟩, h1, ⟨s2, tr2⟩, h2, h3⟩ := hn
    simp only [Prod.mk.injEq] at h3
    obtain ⟨rfl, rfl⟩ := h3
    intro o ho
    rcases List.mem_append.1 ho with ho | ho
    · have he := hc e (by simp)
      cases e with
      | step t => obtain ⟨r, rfl⟩ := next_obs h1 o ho; trivial
      | call t c =>
        simp only [happen] at h1
        split at h1
        · simp only [Option.some.injEq, Prod.mk.injEq] at h1
          obtain ⟨-, rfl⟩ := h1
          rw [List.mem_singleton.1 ho]; exact he
        · cases h1
      | tick now =>
        simp only [happen, Option.some.injEq, Prod.mk.injEq] at h1
        obtain ⟨-, rfl⟩ := h1
        rw [List.mem_singleton.1 ho]; trivial
      | ext db => exact he.elim
    · exact ih (fun e he => hc e (by simp [he])) h2 o ho

/-- How many steps a call has before it at most. -/
def left : Pc → Nat
  | .idle => 0
  | .enter _ => 6
  | .age _ => 5
  | .find _ => 4
  | .query _ => 3
  | .fill _ _ => 2
  | .compose _ _ => 4
  | .exec _ _ _ => 3
  | .store _ _ => 2
  | .erase _ => 3
  | .delete _ => 2
  | .clear => 2
  | .leave _ => 1
  | .touch _ => 2
  | .back _ => 1

theorem at_pc (s : St) (t : Nat) (p : Pc) : (s.at t p).pc t = p := if_pos rfl

theorem at_pc_ne (s : St) (t u : Nat) (p : Pc) (h : u ≠ t) : (s.at t p).pc u = s.pc u := if_neg h

theorem next_left {s s' : St} {t : Nat} {tr : List Obs} (h : next s t = some (s', tr)) : left (s'.pc t) < left (s.pc t) := by
  unfold next at h
  generalize s.pc t = p at h
  cases p with
  | enter c =>
    cases c
    all_goals
      simp only at h
      repeat' split at h
      all_goals first
        | (cases h; done)
        | (simp only [Option.some.injEq, Prod.mk.injEq] at h
           obtain ⟨rfl, -⟩ := h
           rw [at_pc]
           simp [left, body])
  | _ =>
    simp only at h
    repeat' split at h
    all_goals first
      | (cases h; done)
      | (simp only [Option.some.injEq, Prod.mk.injEq] at h
         obtain ⟨rfl, -⟩ := h
         rw [at_pc]
         simp [left])

theorem next_other {s s' : St} {t u : Nat} {tr : List Obs} (hu : u ≠ t) (h : next s t = some (s', tr)) : s'.pc u = s.pc u := by
  unfold next at h
  repeat' split at h
  all_goals first
    | (cases h; done)
    | (simp only [Option.some.injEq, Prod.mk.injEq] at h
       obtain ⟨rfl, -⟩ := h
       rw [at_pc_ne _ _ _ _ hu])

theorem exec_left {s s' : St} {es : List Ev} {tr : List Obs} (t : Nat) (hc : ∀ c, Ev.call t c ∉ es) (h : exec s es = some (s', tr)) : es.count (.step t) + left (s'.pc t) ≤ left (s.pc t) := by
  induction es generalizing s tr with
  | nil =>
    simp only [exec, Option.some.injEq, Prod.mk.injEq] at h
    obtain ⟨rfl, -⟩ := h
    simp
  | cons e es ih =>
    simp only [exec, Option.bind_eq_some_iff, Option.map_eq_some_iff] at h
    obtain ⟨⟨s1, tr1⟩, h1, ⟨s2, tr2⟩, h2, h3⟩ := h
    simp only [Prod.mk.injEq] at h3
    obtain ⟨rfl, -⟩ := h3
    have hih := ih (fun c hm => hc c (by simp [hm])) h2
    rw [List.count_cons]
    cases e with
    | step u =>
      by_cases hu : t = u
      · subst hu
        have hlt : left (s1.pc t) < left (s.pc t) := next_left h1
        have hih : es.count (.step t) + left (s2.pc t) ≤ left (s1.pc t) := hih
        simp only [beq_self_eq_true, if_true]
        omega
      · have e1 : (Ev.step u == Ev.step t) = false := by simp [Ne.symm hu]
        have e2 : s1.pc t = s.pc t := next_other hu h1
        rw [e1]
        rw [e2] at hih
        simpa using hih
    | call u c =>
      have hu : t ≠ u := fun e => hc c (by simp [e])
      simp only [happen] at h1
      split at h1
      · simp only [Option.some.injEq, Prod.mk.injEq] at h1
        obtain ⟨rfl, -⟩ := h1
        rw [at_pc_ne _ _ _ _ hu] at hih
        simpa using hih
      · cases h1
    | tick now =>
      simp only [happen, Option.some.injEq, Prod.mk.injEq] at h1
      obtain ⟨rfl, -⟩ := h1
      simpa using hih
    | ext db =>
      simp only [happen, Option.some.injEq, Prod.mk.injEq] at h1
      obtain ⟨rfl, -⟩ := h1
      simpa using hih

/-- Exactly the owner of the lock is inside. -/
def Locked (s : St) : Prop := ∀ t, (s.pc t).inside ↔ s.owner = some t

theorem locked_at {s s' : St} {t : Nat} {p : Pc} (h : Locked s) (hp : s'.pc = (s.at t p).pc) (ho : s'.owner = s.owner) (hi : p.inside ↔ (s.pc t).inside) : Locked s' := by
  intro u
  rw [hp, ho]
  by_cases hu : u = t
  · subst hu
    rw [at_pc, hi]; exact h u
  · rw [at_pc_ne _ _ _ _ hu]; exact h u

theorem next_locked {s s' : St} {t : Nat} {tr : List Obs} (hl : Locked s) (h : next s t = some (s', tr)) : Locked s' := by
  have hin := hl t
  unfold next at h
  generalize hp : s.pc t = p at h hin
  have take : s.owner = none → ∀ c, (body c).inside → Locked ({ s with owner := some t }.at t (body c)) := by
    intro ho c hb u
    show Pc.inside (({ s with owner := some t }.at t (body c)).pc u) ↔ some t = some u
    by_cases hu : u = t
    · subst hu; rw [at_pc]; exact ⟨fun _ => rfl, fun _ => hb⟩
    · rw [at_pc_ne _ _ _ _ hu, show ({ s with owner := some t } : St).pc u = s.pc u from rfl, hl u, ho]
      exact ⟨fun x => (by cases x), fun x => absurd (Option.some.inj x).symm hu⟩
  cases p with
  | leave r =>
    simp only [Option.some.injEq, Prod.mk.injEq] at h
    obtain ⟨rfl, -⟩ := h
    have ho := hin.1 trivial
    intro u
    show Pc.inside (({ s with owner := none }.at t .idle).pc u) ↔ none = some u
    by_cases hu : u = t
    · subst hu; rw [at_pc]; exact ⟨fun x => x.elim, fun x => (by cases x)⟩
    · rw [at_pc_ne _ _ _ _ hu, show ({ s with owner := none } : St).pc u = s.pc u from rfl, hl u, ho]
      exact ⟨fun x => absurd (Option.some.inj x).symm hu, fun x => (by cases x)⟩
  | enter c =>
    cases c with
    | validate k =>
      simp only [Option.some.injEq, Prod.mk.injEq] at h
      obtain ⟨rfl, -⟩ := h
      exact locked_at (t := t) (p := .touch k) hl rfl rfl (by rw [hp]; exact Iff.rfl)
    | _ =>
      simp only at h
      split at h
      · next ho =>
        simp only [Option.some.injEq, Prod.mk.injEq] at h
        obtain ⟨rfl, -⟩ := h
        exact take ho _ trivial
      · cases h
  | _ =>
    simp only at h
    repeat' split at h
    all_goals first
      | (cases h; done)
      | (simp only [Option.some.injEq, Prod.mk.injEq] at h
         obtain ⟨rfl, -⟩ := h
         exact locked_at (t := t) hl rfl rfl (by rw [hp]; exact Iff.rfl))

theorem exec_locked {s s' : St} {es : List Ev} {tr : List Obs} (hl : Locked s) (h : exec s es = some (s', tr)) : Locked s' := by
  induction es generalizing s tr with
  | nil =>
    simp only [exec, Option.some.injEq, Prod.mk.injEq] at h
    obtain ⟨rfl, -⟩ := h
    exact hl
  | cons e es ih =>
    simp only [exec, Option.bind_eq_some_iff, Option.map_eq_some_iff] at h
    obtain ⟨⟨s1, tr1⟩, h1, ⟨s2, tr2⟩, h2, h3⟩ := h
    simp only [Prod.mk.injEq] at h3
    obtain ⟨rfl, -⟩ := h3
    refine ih ?_ h2
    cases e with
    | step t => exact next_locked hl h1
    | call t c =>
      simp only [happen] at h1
      split at h1
      · next hi =>
        simp only [Option.some.injEq, Prod.mk.injEq] at h1
        obtain ⟨rfl, -⟩ := h1
        exact locked_at (t := t) (p := .enter c) hl rfl rfl (by rw [hi]; exact Iff.rfl)
      · cases h1
    | tick now =>
      simp only [happen, Option.some.injEq, Prod.mk.injEq] at h1
      obtain ⟨rfl, -⟩ := h1
      exact hl
    | ext db =>
      simp only [happen, Option.some.injEq, Prod.mk.injEq] at h1
      obtain ⟨rfl, -⟩ := h1
      exact hl

theorem next_inside {s : St} {t : Nat} (h : (s.pc t).inside) : (next s t).isSome := by
  unfold next
  generalize s.pc t = p at h
  cases p with
  | idle => exact h.elim
  | enter _ => exact h.elim
  | _ =>
    simp only
    repeat' split
    all_goals rfl

theorem next_free {s : St} {t : Nat} (ho : s.owner = none) (h : s.pc t ≠ .idle) : (next s t).isSome := by
  by_cases hi : (s.pc t).inside
  · exact next_inside hi
  · unfold next
    generalize s.pc t = p at h hi
    cases p with
    | idle => exact absurd rfl h
    | enter c => cases c <;> simp [ho]
    | touch k => rfl
    | back r => rfl
    | _ => exact absurd trivial hi

/-! ### C116 -/

/-- C116 (calls act one at a time), partial: whatever is seen of any number of threads using one table at once, with other processes writing to the database and the clock
showing anything, could have been seen if each call had acted at a single moment between its call and its return, and used a time the clock showed in between.
Missing: `isValidValue` for keys not in the schema, see `C116_schema_refuted`; several tables in one program. -/
theorem C116_atomic_partial (db : Db) (schema : Str → Option Key) (last now : Int) (es : List Ev) (s : St) (tr : List Obs) (hk : KnownOnly schema es)
    (h : exec (start db schema last now) es = some (s, tr)) : ∃ M, Runs tableAct tableExt (Machine.start (fresh db schema last now) now) tr M := by
  obtain ⟨M, hr, -⟩ := exec_sim hk (inv_start db schema last now) h
  exact ⟨M, hr⟩

/-- C116 (values), partial: with clean texts (as in C53), and when no other process writes, the table used by any number of threads cannot be told from a map on which each call acts
at a single moment: reads give the value most recently set and not removed, else the default, else "not found"; the cache and the clock cannot be noticed.
Missing: as in C53 and `C116_atomic_partial`. -/
theorem C116_values_partial (db : Db) (schema : Str → Option Key) (last now : Int) (es : List Ev) (s : St) (tr : List Obs) (hs : CleanSchema schema)
    (hc : ∀ e ∈ es, CleanEv schema e) (h : exec (start db schema last now) es = some (s, tr)) :
    ∃ N, Runs (mapAct schema) mapExt (Machine.start (contents db) now) tr N := by
  obtain ⟨M, hr⟩ := C116_atomic_partial db schema last now es s tr (fun t k he => hc _ he) h
  obtain ⟨N, hN, -⟩ := agree_sim hs hr (Machine.start (contents db) now) (exec_clean hc h)
    ⟨rfl, rfl, rfl, fun _ _ => rfl, fun _ _ _ x => (by cases x), fun t c ts x => (by cases x)⟩
  exact ⟨N, hN⟩

/-- A write of thread 0 overlapping a read of thread 1, which comes to the lock in the middle of it. -/
def overlap : List Ev :=
  [.call 0 (.set (lit "A") (lit "1")), .step 0, .step 0, .call 1 (.get (lit "A")), .step 0, .tick 7, .step 0, .step 0, .step 1, .step 1, .step 1, .step 1, .step 1, .step 1]

/-- The premises of the two theorems hold for it, and the read sees the value, although it was called before the write came to the database. -/
example : (exec (start [] (fun _ => none) 0 0) overlap).map (·.2) =
    some [.call 0 (.set (lit "A") (lit "1")), .call 1 (.get (lit "A")), .tick 7, .ret 0 (.done true), .ret 1 (.value (some (lit "1")))] := by decide +kernel

/-- The specification is not trivial: no order explains a read that returns a value nobody has set. -/
example (N : Machine (Str → Option Str)) :
    ¬ Runs (mapAct fun _ => none) mapExt (Machine.start (contents []) 0) [.call 1 (.get (lit "A")), .ret 1 (.value (some (lit "1")))] N := by
  intro h
  cases h with
  | act _ t c ts τ _ _ hp => cases hp
  | call _ _ _ _ _ _ h =>
    cases h with
    | ret _ _ _ _ _ hp => cases hp
    | act _ t c ts τ _ _ hp _ h =>
      have hp : (if t = 1 then Phase.called (.get (lit "A")) [0] else Phase.idle) = .called c ts := hp
      split at hp
      · next e =>
        subst e
        cases hp
        cases h with
        | ret _ _ _ _ _ hp => cases hp
        | act _ u c ts τ _ _ hp _ _ =>
          have hp : (if u = 1 then Phase.decided _ else if u = 1 then Phase.called (.get (lit "A")) [0] else Phase.idle) = .called c ts := hp
          split at hp <;> cases hp
      · cases hp

/-- C116 (no call is kept waiting for ever): a call is over after at most 6 steps of its own thread, whatever the others do in between. -/
theorem C116_steps (s s' : St) (es : List Ev) (tr : List Obs) (t : Nat) (hc : ∀ c, Ev.call t c ∉ es) (h : exec s es = some (s', tr)) : es.count (.step t) ≤ 6 := by
  have := exec_left t hc h
  have h6 : left (s.pc t) ≤ 6 := by cases s.pc t <;> simp [left]
  omega

/-- A read that misses the cache takes all six. -/
example : overlap.count (.step 1) = 6 ∧ ((exec (start [] (fun _ => none) 0 0) overlap).map fun p => p.1.pc 1) = some .idle := by decide +kernel

/-- C116 (no deadlock): at every moment of every execution a thread in a call can go on, or another thread has the lock, and that one can go on. -/
theorem C116_progress (db : Db) (schema : Str → Option Key) (last now : Int) (es : List Ev) (s : St) (tr : List Obs) (h : exec (start db schema last now) es = some (s, tr)) (t : Nat)
    (ht : s.pc t ≠ .idle) : (next s t).isSome ∨ ∃ u, u ≠ t ∧ s.owner = some u ∧ (next s u).isSome := by
  have hl := exec_locked (s := start db schema last now) (fun _ => ⟨fun x => x.elim, fun x => (by cases x)⟩) h
  cases ho : s.owner with
  | none =>
    left
    exact next_free ho ht
  | some u =>
    by_cases hu : u = t
    · subst hu
      exact .inl (next_inside ((hl u).2 ho))
    · exact .inr ⟨u, hu, rfl, next_inside ((hl u).2 ho)⟩

/-- Thread 1 waits for thread 0, which can go on. -/
example : (exec (start [] (fun _ => none) 0 0) [.call 0 .purge, .step 0, .call 1 .purge]).map (fun p => (p.1.owner, (next p.1 1).isSome, (next p.1 0).isSome)) = some (some 0, false, true) := by
  decide +kernel

/-- The places in memory the steps use. -/
inductive Loc
  | cache
  | last
  | schema
deriving DecidableEq

/-- What the next step of a thread reads (`false`) or writes (`true`): the cache, `timeOfLastPurge`, the schema.  `mSchema[name]` makes an entry if there is none
(`Configuration.cpp:364`); for an existing one it is taken for a read. -/
def access (schema : Str → Option Key) : Pc → List (Loc × Bool)
  | .age _ => [(.last, true), (.cache, true)]
  | .find _ => [(.cache, false)]
  | .fill _ _ => [(.schema, false), (.cache, true)]
  | .compose _ _ => [(.schema, false)]
  | .store _ _ => [(.cache, true)]
  | .erase _ => [(.cache, true)]
  | .clear => [(.cache, true)]
  | .touch k => [(.schema, (schema k).isNone)]
  | _ => []

/-- The list of accesses is complete: a step changes only what it is said to write, and what it does depends only on what it is said to use. -/
theorem C116_accesses (s s' : St) (t : Nat) (tr : List Obs) (h : next s t = some (s', tr)) :
    ((.cache, true) ∉ access s.table.schema (s.pc t) → s'.table.cache = s.table.cache) ∧
    ((.last, true) ∉ access s.table.schema (s.pc t) → s'.table.last = s.table.last) ∧
    ((.schema, true) ∉ access s.table.schema (s.pc t) → s'.table.schema = s.table.schema) ∧
    ((∀ b, (.cache, b) ∉ access s.table.schema (s.pc t)) → ∀ c, next { s with table := { s.table with cache := c } } t = some ({ s' with table := { s'.table with cache := c } }, tr)) ∧
    ((∀ b, (.last, b) ∉ access s.table.schema (s.pc t)) → ∀ n, next { s with table := { s.table with last := n } } t = some ({ s' with table := { s'.table with last := n } }, tr)) ∧
    ((∀ b, (.schema, b) ∉ access s.table.schema (s.pc t)) → ∀ f, next { s with table := { s.table with schema := f } } t = some ({ s' with table := { s'.table with schema := f } }, tr)) := by
  unfold next at h ⊢
  cases hp : s.pc t <;> simp only [hp] at h ⊢
  case enter c =>
    cases c <;> simp only at h ⊢ <;> (try split at h) <;> simp_all [access, St.at] <;> (obtain ⟨rfl, rfl⟩ := h; simp)
  case idle => simp at h
  case find k =>
    split at h <;> rename_i hc <;> (injection h with h; injection h with h1 h2; subst h1 h2) <;> simp [access, St.at] <;> simp [hc]
  case exec k v cmd =>
    split at h <;> rename_i hc <;> (injection h with h; injection h with h1 h2; subst h1 h2) <;> simp [access, St.at]
  case delete k =>
    split at h <;> rename_i hc <;> (injection h with h; injection h with h1 h2; subst h1 h2) <;> simp [access, St.at]
  case age k =>
    injection h with h; injection h with h1 h2; subst h1 h2
    by_cases hn : s.clock - s.table.last < 3 <;> simp [access, St.at, checkCacheAge, hn]
  case touch k =>
    injection h with h; injection h with h1 h2; subst h1 h2
    cases hk : s.table.schema k <;> simp [access, St.at, touchSchema, hk]
  all_goals (injection h with h; injection h with h1 h2; subst h1 h2; simp [access, St.at, Config.purge, setCmd])

/-- Two threads are about to use the same place, one of them to write it. -/
def Race (s : St) : Prop :=
  ∃ t u, t ≠ u ∧ ∃ l a b, (l, a) ∈ access s.table.schema (s.pc t) ∧ (l, b) ∈ access s.table.schema (s.pc u) ∧ (a || b) = true

/-- C116 (no data race), partial: two threads never use cache, schema or `timeOfLastPurge` at the same time with one of them writing.  Missing: as in `C116_atomic_partial`. -/
theorem C116_race_partial (db : Db) (schema : Str → Option Key) (last now : Int) (es : List Ev) (s : St) (tr : List Obs) (hk : KnownOnly schema es)
    (h : exec (start db schema last now) es = some (s, tr)) : ¬ Race s := by
  obtain ⟨M, -, hi⟩ := exec_sim hk (inv_start db schema last now) h
  rintro ⟨t, u, hne, l, a, b, h1, h2, h3⟩
  have key : ∀ v c, (l, c) ∈ access s.table.schema (s.pc v) → s.owner = some v ∨ l = .schema := by
    intro v c hv
    by_cases hin : (s.pc v).inside
    · exact .inl ((hi.owner v).1 hin)
    · right
      generalize s.pc v = p at hv hin
      cases p <;> simp_all [access, Pc.inside]
  have key2 : ∀ v c, (Loc.schema, c) ∈ access s.table.schema (s.pc v) → c = false := by
    intro v c hv
    have hph := hi.phase v
    generalize s.pc v = p at hv hph
    cases p <;> simp only [access, List.mem_cons, List.not_mem_nil, or_false, Prod.mk.injEq, reduceCtorEq, false_and, true_and, or_self] at hv
    case touch k =>
      rw [hv, hi.schema]
      cases hk : schema k with
      | none =>
        have := hph.2
        rw [hk] at this
        cases this
      | some _ => rfl
    all_goals exact hv
  rcases key t a h1 with e1 | e1
  · rcases key u b h2 with e2 | e2
    · rw [e1] at e2; exact hne (Option.some.inj e2)
    · subst e2
      rw [key2 t a h1, key2 u b h2] at h3
      cases h3
  · subst e1
    rw [key2 t a h1, key2 u b h2] at h3
    cases h3

/-- In the middle of `overlap`, thread 0 is about to write to the cache and thread 1 waits. -/
example : (exec (start [] (fun _ => none) 0 0) (overlap.take 6)).map (fun p => (access p.1.table.schema (p.1.pc 0), p.1.pc 1)) = some ([(.cache, true)], .enter (.get (lit "A"))) := by
  decide +kernel

/-- C116 is false for `isValidValue` with a key that is not in the schema: it writes to the schema without the lock, while a read of another key uses it. -/
theorem C116_schema_refuted : ∃ es s tr, exec (start [] (fun _ => none) 0 0) es = some (s, tr) ∧ Race s := by
  refine ⟨[.call 0 (.get (lit "A")), .step 0, .step 0, .step 0, .step 0, .call 1 (.validate (lit "B")), .step 1], _, _, rfl, 0, 1, by decide, .schema, false, true, ?_, ?_, rfl⟩
  · exact List.mem_cons_self
  · exact List.mem_cons_self

end Verif.Config.Conc
