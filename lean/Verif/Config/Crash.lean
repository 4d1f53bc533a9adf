import Verif.Config.Threads

/-
Property C148: the configuration after crashes.

A life is what happens between the start of a process and its end, which may come between any two steps of its threads (`Verif.Config.Conc`): the cache, the lock and the calls under way are lost, the database is kept.
Assumption: SQLite does each statement wholly or not at all, and what a statement changed survives the end of the process.
-/

namespace Verif.Config.Conc

open Verif Config

/-- A life: what the constructor finds as the time of the last purge and as the time (`Configuration.cpp:919-920`), and the events until its end. -/
structure Life where
  last : Int
  now : Int
  events : List Ev

/-- Processes one after the other on one database (`Configuration.cpp:94-116`): the database at the end and what was seen of each. -/
def lives (schema : Str → Option Key) (db : Db) : List Life → Option (Db × List (List Obs))
  | [] => some (db, [])
  | l :: ls => (exec (start db schema l.last l.now) l.events).bind fun p => (lives schema p.1.table.db ls).map fun q => (q.1, p.2 :: q.2)

/-- The specification: a map that survives; in each life every call acts on it at a single moment between the call and the return, or, if it had not returned at the end of the life, possibly not at all. -/
inductive Durable (schema : Str → Option Key) : (Str → Option Str) → List (Int × List Obs) → (Str → Option Str) → Prop
  | nil (m) : Durable schema m [] m
  | cons (m now tr N rest m') : Runs (mapAct schema) mapExt (Machine.start m now) tr N → Durable schema N.content rest m' → Durable schema m ((now, tr) :: rest) m'

/-! ### Proof -/

theorem age_db_eq (T : Table) : (checkCacheAge T).db = T.db := by unfold checkCacheAge; split <;> rfl

/-- At every moment the database is that of the ideal machine. -/
theorem Inv.db_eq {sch : Str → Option Key} {s : St} {M : Machine Table} (h : Inv sch s M) : s.table.db = M.content.db := by
  cases ho : s.owner with
  | none => rw [h.free ho]
  | some t =>
    have hr := h.held t ho
    cases hp : s.pc t <;> rw [hp] at hr <;> simp only [Rel] at hr
    case find k =>
      obtain ⟨ts, τ, _, _, he⟩ := hr
      rw [he, age_db_eq]
    case query k =>
      obtain ⟨⟨ts, τ, _, _, he⟩, _⟩ := hr
      rw [he, age_db_eq]
    case exec k v cmd => rw [hr.1]
    case fill k v => rw [hr]
    case store k v => rw [hr]
    all_goals rw [hr]

/-- One life. -/
theorem life_durable {sch : Str → Option Key} (hs : CleanSchema sch) (l : Life) (db : Db) (m : Str → Option Str) (hm : ∀ x, CleanKey x → contents db x = m x) (s : St) (tr : List Obs)
    (hc : ∀ e ∈ l.events, CleanEv sch e) (h : exec (start db sch l.last l.now) l.events = some (s, tr)) :
    ∃ N, Runs (mapAct sch) mapExt (Machine.start m l.now) tr N ∧ ∀ x, CleanKey x → contents s.table.db x = N.content x := by
  obtain ⟨M, hr, hi⟩ := exec_sim (fun t k he => hc _ he) (inv_start db sch l.last l.now) h
  obtain ⟨N, hN, ha⟩ := agree_sim hs hr (Machine.start m l.now) (exec_clean hc h)
    ⟨rfl, rfl, rfl, hm, fun _ _ _ x => (by cases x), fun t c ts x => (by cases x)⟩
  refine ⟨N, hN, fun x hx => ?_⟩
  rw [hi.db_eq]
  exact ha.db x hx

/-! ### C148 -/

/-- C148, partial: whatever is seen of any number of processes one after the other on one database, each with any number of threads and ending at any moment, could have been seen of one map that survives, on which each call acts at a
single moment between its call and its return; a call that had not returned at the end acts wholly or not at all.  The database holds that map at the end.
Missing: texts that are not clean and other processes writing at the same time, as in `C116_values_partial`. -/
theorem C148_durable_partial (schema : Str → Option Key) (hs : CleanSchema schema) (ls : List Life) (db db' : Db) (trs : List (List Obs)) (hc : ∀ l ∈ ls, ∀ e ∈ l.events, CleanEv schema e)
    (h : lives schema db ls = some (db', trs)) :
    ∃ m', Durable schema (contents db) ((ls.map (·.now)).zip trs) m' ∧ trs.length = ls.length ∧ ∀ x, CleanKey x → contents db' x = m' x := by
  suffices H : ∀ (ls : List Life) (db : Db) (m : Str → Option Str) (trs : List (List Obs)), (∀ l ∈ ls, ∀ e ∈ l.events, CleanEv schema e) → (∀ x, CleanKey x → contents db x = m x) →
      lives schema db ls = some (db', trs) → ∃ m', Durable schema m ((ls.map (·.now)).zip trs) m' ∧ trs.length = ls.length ∧ ∀ x, CleanKey x → contents db' x = m' x from
    H ls db (contents db) trs hc (fun _ _ => rfl) h
  intro ls
  induction ls with
  | nil =>
    intro db m trs _ hm h
    simp only [lives, Option.some.injEq, Prod.mk.injEq] at h
    obtain ⟨rfl, rfl⟩ := h
    exact ⟨m, .nil m, rfl, hm⟩
  | cons l ls ih =>
    intro db m trs hc hm h
    simp only [lives] at h
    cases he : exec (start db schema l.last l.now) l.events with
    | none => rw [he] at h; cases h
    | some p =>
      obtain ⟨s, tr⟩ := p
      rw [he] at h
      simp only [Option.bind_some] at h
      cases hl : lives schema s.table.db ls with
      | none => rw [hl] at h; cases h
      | some q =>
        obtain ⟨d, trs'⟩ := q
        rw [hl] at h
        simp only [Option.map_some, Option.some.injEq, Prod.mk.injEq] at h
        obtain ⟨rfl, rfl⟩ := h
        obtain ⟨N, hN, hx⟩ := life_durable hs l db m hm s tr (hc l (by simp)) he
        obtain ⟨m', h1, h2, h3⟩ := ih s.table.db N.content trs' (fun l' hl' => hc l' (List.mem_cons_of_mem _ hl')) hx hl
        exact ⟨m', .cons m l.now tr N _ m' hN h1, by simp [h2], h3⟩

/-! ### What a user can rely on -/

/-- Calls that change the value of `k`. -/
def writes (k : Str) : Call → Bool
  | .set k' _ => decide (k' = k)
  | .remove k' => decide (k' = k)
  | _ => false

/-- A call of thread `t` that had not returned at the end of what was seen. -/
def Pending (tr : List Obs) (t : Nat) (c : Call) : Prop := ∃ a b, tr = a ++ .call t c :: b ∧ ∀ r, Obs.ret t r ∉ b

/-- Nothing in it changes the value of `k` in the database, nor is a call for that. -/
def Silent (k : Str) (tr : List Obs) : Prop := ∀ o ∈ tr, (∀ t c, o = .call t c → writes k c = false) ∧ ∀ db, o ≠ .ext db

theorem Runs.split {α : Type} {act : α → Call → Int → α × Res} {ext : α → Db → α} {m m'' : Machine α} {tr : List Obs} (h : Runs act ext m tr m'') :
    ∀ a b, tr = a ++ b → ∃ m', Runs act ext m a m' ∧ Runs act ext m' b m'' := by
  induction h with
  | nil m =>
    intro a b e
    obtain ⟨rfl, rfl⟩ := List.append_eq_nil_iff.1 e.symm
    exact ⟨m, .nil m, .nil m⟩
  | call m t c tr m' hp hr ih =>
    intro a b e
    cases a with
    | nil => cases e; exact ⟨m, .nil m, .call m t c tr m' hp hr⟩
    | cons o a =>
      simp only [List.cons_append, List.cons.injEq] at e
      obtain ⟨rfl, e⟩ := e
      obtain ⟨x, h1, h2⟩ := ih a b e
      exact ⟨x, .call m t c a x hp h1, h2⟩
  | act m t c ts τ tr m' hp hτ hr ih =>
    intro a b e
    obtain ⟨x, h1, h2⟩ := ih a b e
    exact ⟨x, .act m t c ts τ a x hp hτ h1, h2⟩
  | ret m t r tr m' hp hr ih =>
    intro a b e
    cases a with
    | nil => cases e; exact ⟨m, .nil m, .ret m t r tr m' hp hr⟩
    | cons o a =>
      simp only [List.cons_append, List.cons.injEq] at e
      obtain ⟨rfl, e⟩ := e
      obtain ⟨x, h1, h2⟩ := ih a b e
      exact ⟨x, .ret m t r a x hp h1, h2⟩
  | tick m now tr m' hr ih =>
    intro a b e
    cases a with
    | nil => cases e; exact ⟨m, .nil m, .tick m now tr m' hr⟩
    | cons o a =>
      simp only [List.cons_append, List.cons.injEq] at e
      obtain ⟨rfl, e⟩ := e
      obtain ⟨x, h1, h2⟩ := ih a b e
      exact ⟨x, .tick m now a x h1, h2⟩
  | ext m db tr m' hr ih =>
    intro a b e
    cases a with
    | nil => cases e; exact ⟨m, .nil m, .ext m db tr m' hr⟩
    | cons o a =>
      simp only [List.cons_append, List.cons.injEq] at e
      obtain ⟨rfl, e⟩ := e
      obtain ⟨x, h1, h2⟩ := ih a b e
      exact ⟨x, .ext m db a x h1, h2⟩

theorem Pending.snoc {tr : List Obs} {t : Nat} {c : Call} {o : Obs} (h : Pending tr t c) (ho : ∀ r, o ≠ .ret t r) : Pending (tr ++ [o]) t c := by
  obtain ⟨a, b, rfl, hb⟩ := h
  refine ⟨a, b ++ [o], by simp, fun r hr => ?_⟩
  rcases List.mem_append.1 hr with hr | hr
  · exact hb r hr
  · exact ho r (List.mem_singleton.1 hr).symm

/-- Calls under way in the ideal machine are pending. -/
theorem runs_pending {α : Type} {act : α → Call → Int → α × Res} {ext : α → Db → α} {m m' : Machine α} {tr : List Obs} (h : Runs act ext m tr m') :
    ∀ seen, (∀ t c ts, m.phase t = .called c ts → Pending seen t c) → ∀ t c ts, m'.phase t = .called c ts → Pending (seen ++ tr) t c := by
  induction h with
  | nil m => intro seen h; simpa using h
  | call m t c tr m' hp _ ih =>
    intro seen h
    have := ih (seen ++ [.call t c]) fun u c' ts hu => by
      have hu : (if u = t then Phase.called c [m.clock] else m.phase u) = .called c' ts := hu
      split at hu
      · next e => rw [e]; cases hu; exact ⟨seen, [], rfl, by simp⟩
      · exact (h u c' ts hu).snoc (by simp)
    simpa using this
  | act m t c ts τ tr m' hp hτ _ ih =>
    intro seen h
    refine ih seen fun u c' ts' hu => ?_
    have hu : (if u = t then Phase.decided _ else m.phase u) = .called c' ts' := hu
    split at hu
    · cases hu
    · exact h u c' ts' hu
  | ret m t r tr m' hp _ ih =>
    intro seen h
    have := ih (seen ++ [.ret t r]) fun u c' ts hu => by
      have hu : (if u = t then Phase.idle else m.phase u) = .called c' ts := hu
      split at hu
      · cases hu
      · next e => exact (h u c' ts hu).snoc (fun r' hr => e (by cases hr; rfl))
    simpa using this
  | tick m now tr m' _ ih =>
    intro seen h
    have := ih (seen ++ [.tick now]) fun u c' ts hu => by
      have hu : (m.phase u).tick now = .called c' ts := hu
      cases hp : m.phase u with
      | idle => rw [hp] at hu; cases hu
      | decided r => rw [hp] at hu; cases hu
      | called c ts' =>
        have := h u c ts' hp
        rw [hp] at hu
        cases hu
        exact this.snoc (by simp)
    simpa using this
  | ext m db tr m' _ ih =>
    intro seen h
    have := ih (seen ++ [.ext db]) fun u c' ts hu => (h u c' ts hu).snoc (by simp)
    simpa using this

/-- Nothing under way changes the value of `k`. -/
def Quiet (k : Str) (N : Machine (Str → Option Str)) : Prop := ∀ t c ts, N.phase t = .called c ts → writes k c = false

theorem mapAct_keeps (sch : Str → Option Key) (m : Str → Option Str) (c : Call) (τ : Int) (k : Str) (h : writes k c = false) : (mapAct sch m c τ).1 k = m k := by
  cases c with
  | set k' v => have : k ≠ k' := fun e => by simp [writes, e] at h
                simp [mapAct, this]
  | remove k' => have : k ≠ k' := fun e => by simp [writes, e] at h
                 simp [mapAct, this]
  | get _ => rfl
  | purge => rfl
  | validate _ => rfl

/-- Silence keeps the value, and a read that begins in it and returns gives it. -/
theorem quiet_runs {sch : Str → Option Key} {k : Str} {N N' : Machine (Str → Option Str)} {tr : List Obs} (h : Runs (mapAct sch) mapExt N tr N') (hq : Quiet k N) (hs : Silent k tr) :
    N'.content k = N.content k ∧ Quiet k N' := by
  induction h with
  | nil m => exact ⟨rfl, hq⟩
  | call m t c tr m' hp _ ih =>
    have hs' : Silent k tr := fun o ho => hs o (List.mem_cons_of_mem _ ho)
    refine ih (fun u c' ts hu => ?_) hs'
    have hu : (if u = t then Phase.called c [m.clock] else m.phase u) = .called c' ts := hu
    split at hu
    · cases hu; exact (hs _ (List.mem_cons_self ..)).1 t c rfl
    · exact hq u c' ts hu
  | act m t c ts τ tr m' hp hτ _ ih =>
    have hk := mapAct_keeps sch m.content c τ k (hq t c ts hp)
    obtain ⟨h1, h2⟩ := ih (fun u c' ts' hu => by
      have hu : (if u = t then Phase.decided _ else m.phase u) = .called c' ts' := hu
      split at hu
      · cases hu
      · exact hq u c' ts' hu) hs
    exact ⟨h1.trans hk, h2⟩
  | ret m t r tr m' hp _ ih =>
    exact ih (fun u c' ts hu => by
      have hu : (if u = t then Phase.idle else m.phase u) = .called c' ts := hu
      split at hu
      · cases hu
      · exact hq u c' ts hu) fun o ho => hs o (List.mem_cons_of_mem _ ho)
  | tick m now tr m' _ ih =>
    refine ih (fun u c' ts hu => ?_) fun o ho => hs o (List.mem_cons_of_mem _ ho)
    have hu : (m.phase u).tick now = .called c' ts := hu
    cases hp : m.phase u with
    | idle => rw [hp] at hu; cases hu
    | decided r => rw [hp] at hu; cases hu
    | called c ts' =>
      have := hq u c ts' hp
      rw [hp] at hu
      cases hu
      exact this
  | ext m db tr m' _ _ => exact absurd rfl ((hs _ (List.mem_cons_self ..)).2 db)

/-- A read under way in silence. -/
theorem quiet_get {sch : Str → Option Key} {k v : Str} {t : Nat} {N N' : Machine (Str → Option Str)} {tr : List Obs} (h : Runs (mapAct sch) mapExt N tr N') (hq : Quiet k N) (hs : Silent k tr)
    (hv : N.content k = some v) (hr : ∀ r, Obs.ret t r ∉ tr) (hp : (∃ ts, N.phase t = .called (.get k) ts) ∨ N.phase t = .decided (.value (some v))) :
    (∃ ts, N'.phase t = .called (.get k) ts) ∨ N'.phase t = .decided (.value (some v)) := by
  induction h with
  | nil m => exact hp
  | call m u c tr m' hpu _ ih =>
    have hut : t ≠ u := by
      rintro rfl
      rw [hpu] at hp
      rcases hp with ⟨ts, hp⟩ | hp <;> cases hp
    refine ih (fun u' c' ts hu => ?_) (fun o ho => hs o (List.mem_cons_of_mem _ ho)) hv (fun r hr' => hr r (List.mem_cons_of_mem _ hr')) ?_
    · have hu : (if u' = u then Phase.called c [m.clock] else m.phase u') = .called c' ts := hu
      split at hu
      · cases hu; exact (hs _ (List.mem_cons_self ..)).1 u c rfl
      · exact hq u' c' ts hu
    · show (∃ ts, (if t = u then _ else m.phase t) = _) ∨ (if t = u then _ else m.phase t) = _
      rw [if_neg hut]; exact hp
  | act m u c ts τ tr m' hpu hτ _ ih =>
    have hk := mapAct_keeps sch m.content c τ k (hq u c ts hpu)
    refine ih (fun u' c' ts' hu => ?_) hs (hk.trans hv) hr ?_
    · have hu : (if u' = u then Phase.decided _ else m.phase u') = .called c' ts' := hu
      split at hu
      · cases hu
      · exact hq u' c' ts' hu
    · show (∃ ts, (if t = u then Phase.decided _ else m.phase t) = _) ∨ (if t = u then Phase.decided _ else m.phase t) = _
      by_cases hut : t = u
      · subst hut
        rw [hpu] at hp
        rcases hp with ⟨ts', hp⟩ | hp
        · cases hp
          right
          rw [if_pos rfl]
          simp [mapAct, answer, hv]
        · cases hp
      · rw [if_neg hut]; exact hp
  | ret m u r tr m' hpu _ ih =>
    have hut : t ≠ u := fun e => hr r (by rw [e]; exact List.mem_cons_self ..)
    refine ih (fun u' c' ts hu => ?_) (fun o ho => hs o (List.mem_cons_of_mem _ ho)) hv (fun r hr' => hr r (List.mem_cons_of_mem _ hr')) ?_
    · have hu : (if u' = u then Phase.idle else m.phase u') = .called c' ts := hu
      split at hu
      · cases hu
      · exact hq u' c' ts hu
    · show (∃ ts, (if t = u then _ else m.phase t) = _) ∨ (if t = u then _ else m.phase t) = _
      rw [if_neg hut]; exact hp
  | tick m now tr m' _ ih =>
    refine ih (fun u c' ts hu => ?_) (fun o ho => hs o (List.mem_cons_of_mem _ ho)) hv (fun r hr' => hr r (List.mem_cons_of_mem _ hr')) ?_
    · have hu : (m.phase u).tick now = .called c' ts := hu
      cases hpp : m.phase u with
      | idle => rw [hpp] at hu; cases hu
      | decided r => rw [hpp] at hu; cases hu
      | called c ts' =>
        have := hq u c ts' hpp
        rw [hpp] at hu
        cases hu
        exact this
    · rcases hp with ⟨ts, hp⟩ | hp
      · left; exact ⟨now :: ts, by show (m.phase t).tick now = _; rw [hp]; rfl⟩
      · right; show (m.phase t).tick now = _; rw [hp]; rfl
  | ext m db tr m' _ _ => exact absurd rfl ((hs _ (List.mem_cons_self ..)).2 db)

/-- A write under way in silence: it has acted or not. -/
theorem quiet_set {sch : Str → Option Key} {k v : Str} {t : Nat} {N N' : Machine (Str → Option Str)} {tr : List Obs} (h : Runs (mapAct sch) mapExt N tr N')
    (hq : ∀ u c ts, u ≠ t → N.phase u = .called c ts → writes k c = false) (hs : Silent k tr)
    (hr : ∀ r, Obs.ret t r ∉ tr) (hp : (∃ ts, N.phase t = .called (.set k v) ts) ∨ N.phase t = .decided (.done true) ∧ N.content k = some v) :
    (∀ u c ts, u ≠ t → N'.phase u = .called c ts → writes k c = false) ∧ ((∃ ts, N'.phase t = .called (.set k v) ts) ∨ N'.phase t = .decided (.done true) ∧ N'.content k = some v) := by
  induction h with
  | nil m => exact ⟨hq, hp⟩
  | call m u c tr m' hpu _ ih =>
    have hut : t ≠ u := by
      rintro rfl
      rw [hpu] at hp
      rcases hp with ⟨ts, hp⟩ | ⟨hp, _⟩ <;> cases hp
    refine ih (fun u' c' ts hne hu => ?_) (fun o ho => hs o (List.mem_cons_of_mem _ ho)) (fun r hr' => hr r (List.mem_cons_of_mem _ hr')) ?_
    · have hu : (if u' = u then Phase.called c [m.clock] else m.phase u') = .called c' ts := hu
      split at hu
      · cases hu; exact (hs _ (List.mem_cons_self ..)).1 u c rfl
      · exact hq u' c' ts hne hu
    · show (∃ ts, (if t = u then _ else m.phase t) = _) ∨ (if t = u then _ else m.phase t) = _ ∧ _
      rw [if_neg hut]; exact hp
  | act m u c ts τ tr m' hpu hτ _ ih =>
    refine ih (fun u' c' ts' hne hu => ?_) hs hr ?_
    · have hu : (if u' = u then Phase.decided _ else m.phase u') = .called c' ts' := hu
      split at hu
      · cases hu
      · exact hq u' c' ts' hne hu
    · show (∃ ts, (if t = u then Phase.decided _ else m.phase t) = _) ∨ (if t = u then Phase.decided _ else m.phase t) = _ ∧ (mapAct sch m.content c τ).1 k = some v
      by_cases hut : t = u
      · subst hut
        rw [hpu] at hp
        rcases hp with ⟨ts', hp⟩ | ⟨hp, _⟩
        · cases hp
          right
          rw [if_pos rfl]
          exact ⟨rfl, if_pos rfl⟩
        · cases hp
      · rw [if_neg hut, mapAct_keeps sch m.content c τ k (hq u c ts (Ne.symm hut) hpu)]; exact hp
  | ret m u r tr m' hpu _ ih =>
    have hut : t ≠ u := fun e => hr r (by rw [e]; exact List.mem_cons_self ..)
    refine ih (fun u' c' ts hne hu => ?_) (fun o ho => hs o (List.mem_cons_of_mem _ ho)) (fun r hr' => hr r (List.mem_cons_of_mem _ hr')) ?_
    · have hu : (if u' = u then Phase.idle else m.phase u') = .called c' ts := hu
      split at hu
      · cases hu
      · exact hq u' c' ts hne hu
    · show (∃ ts, (if t = u then _ else m.phase t) = _) ∨ (if t = u then _ else m.phase t) = _ ∧ _
      rw [if_neg hut]; exact hp
  | tick m now tr m' _ ih =>
    refine ih (fun u c' ts hne hu => ?_) (fun o ho => hs o (List.mem_cons_of_mem _ ho)) (fun r hr' => hr r (List.mem_cons_of_mem _ hr')) ?_
    · have hu : (m.phase u).tick now = .called c' ts := hu
      cases hpp : m.phase u with
      | idle => rw [hpp] at hu; cases hu
      | decided r => rw [hpp] at hu; cases hu
      | called c ts' =>
        have := hq u c ts' hne hpp
        rw [hpp] at hu
        cases hu
        exact this
    · rcases hp with ⟨ts, hp⟩ | ⟨hp, hx⟩
      · left; exact ⟨now :: ts, by show (m.phase t).tick now = _; rw [hp]; rfl⟩
      · right; exact ⟨by show (m.phase t).tick now = _; rw [hp]; rfl, hx⟩
  | ext m db tr m' _ _ => exact absurd rfl ((hs _ (List.mem_cons_self ..)).2 db)

/-- The next visible event of a run, after moments at which calls act. -/
theorem runs_head {sch : Str → Option Key} {k : Str} {M M' : Machine (Str → Option Str)} {tr : List Obs} (hr : Runs (mapAct sch) mapExt M tr M') :
    ∀ u c' rest, tr = .call u c' :: rest → Quiet k M →
      ∃ M1, M1.content k = M.content k ∧ Quiet k M1 ∧ Runs (mapAct sch) mapExt (M1.at u (.called c' [M1.clock])) rest M' := by
  induction hr with
  | nil M => intro u c' rest e; cases e
  | call M u c' tr M' hp hr _ => intro u2 c2 rest e hq; cases e; exact ⟨M, rfl, hq, hr⟩
  | act M u c' ts τ tr M' hp hτ hr ih =>
    intro u2 c2 rest e hq
    have hk := mapAct_keeps sch M.content c' τ k (hq u c' ts hp)
    obtain ⟨M1, g1, g2, g3⟩ := ih u2 c2 rest e (fun u' c'' ts' hu => by
      have hu : (if u' = u then Phase.decided _ else M.phase u') = .called c'' ts' := hu
      split at hu
      · cases hu
      · exact hq u' c'' ts' hu)
    exact ⟨M1, g1.trans hk, g2, g3⟩
  | ret M u r tr M' hp hr _ => intro u2 c2 rest e; cases e
  | tick M now tr M' hr _ => intro u2 c2 rest e; cases e
  | ext M db tr M' hr _ => intro u2 c2 rest e; cases e

/-- In the life that wrote. -/
theorem kept_first {sch : Str → Option Key} {k v : Str} {t : Nat} {m : Str → Option Str} {now : Int} {N : Machine (Str → Option Str)} {a b c : List Obs} {r : Res}
    (h : Runs (mapAct sch) mapExt (Machine.start m now) (a ++ .call t (.set k v) :: b ++ .ret t r :: c) N)
    (ha : ∀ u c', Pending a u c' → writes k c' = false) (hb : Silent k b) (hbr : ∀ r', Obs.ret t r' ∉ b) (hc : Silent k c) : N.content k = some v := by
  obtain ⟨N2, h12, h3⟩ := h.split (a ++ .call t (.set k v) :: b) _ rfl
  obtain ⟨N1, h1, h2⟩ := h12.split a _ rfl
  have hp1 := runs_pending h1 [] (fun u c' ts hu => by cases hu)
  rw [List.nil_append] at hp1
  have hq1 : Quiet k N1 := fun u c' ts hu => ha u c' (hp1 u c' ts hu)
  obtain ⟨M1, -, g2, hrest⟩ := runs_head h2 _ _ _ rfl hq1
  have hset := quiet_set (k := k) (v := v) (t := t) hrest (fun u c' ts hne hu => by
      have hu : (if u = t then Phase.called (.set k v) [M1.clock] else M1.phase u) = .called c' ts := hu
      rw [if_neg hne] at hu
      exact g2 u c' ts hu) hb hbr (.inl ⟨[M1.clock], if_pos rfl⟩)
  -- the return
  have retStep : ∀ (M M' : Machine (Str → Option Str)) (tr : List Obs), Runs (mapAct sch) mapExt M tr M' → ∀ r rest, tr = .ret t r :: rest → Silent k rest →
      (∀ u c ts, u ≠ t → M.phase u = .called c ts → writes k c = false) →
      ((∃ ts, M.phase t = .called (.set k v) ts) ∨ M.phase t = .decided (.done true) ∧ M.content k = some v) → M'.content k = some v := by
    intro M M' tr hr
    induction hr with
    | nil M => intro r rest e; cases e
    | call M u c' tr M' hp hr _ => intro r rest e; cases e
    | act M u c' ts τ tr M' hp hτ hr ih =>
      intro r rest e hsil hq hpp
      refine ih r rest e hsil (fun u' c'' ts' hne hu => ?_) ?_
      · have hu : (if u' = u then Phase.decided _ else M.phase u') = .called c'' ts' := hu
        split at hu
        · cases hu
        · exact hq u' c'' ts' hne hu
      · show (∃ ts, (if t = u then Phase.decided _ else M.phase t) = _) ∨ (if t = u then Phase.decided _ else M.phase t) = _ ∧ (mapAct sch M.content c' τ).1 k = some v
        by_cases hut : t = u
        · subst hut
          rw [hp] at hpp
          rcases hpp with ⟨ts', hpp⟩ | ⟨hpp, _⟩
          · cases hpp
            right
            rw [if_pos rfl]
            exact ⟨rfl, if_pos rfl⟩
          · cases hpp
        · rw [if_neg hut, mapAct_keeps sch M.content c' τ k (hq u c' ts (Ne.symm hut) hp)]; exact hpp
    | ret M u r' tr M' hp hr _ =>
      intro r rest e hsil hq hpp
      cases e
      rw [hp] at hpp
      rcases hpp with ⟨ts', hpp⟩ | ⟨_, hv⟩
      · cases hpp
      · have hquiet : Quiet k (M.at t .idle) := by
          intro u' c'' ts' hu
          have hu : (if u' = t then Phase.idle else M.phase u') = .called c'' ts' := hu
          split at hu
          · cases hu
          · next hne => exact hq u' c'' ts' hne hu
        exact (quiet_runs hr hquiet hsil).1.trans hv
    | tick M now tr M' hr _ => intro r rest e; cases e
    | ext M db tr M' hr _ => intro r rest e; cases e
  exact retStep N2 N _ h3 r c rfl hc hset.1 hset.2

theorem runs_ret {sch : Str → Option Key} {k v : Str} {t : Nat} {M M' : Machine (Str → Option Str)} {tr : List Obs} (hr : Runs (mapAct sch) mapExt M tr M') :
    ∀ r rest, tr = .ret t r :: rest → Quiet k M → M.content k = some v → ((∃ ts, M.phase t = .called (.get k) ts) ∨ M.phase t = .decided (.value (some v))) → r = .value (some v) := by
  induction hr with
  | nil M => intro r rest e; cases e
  | call M u c' tr M' hp hr _ => intro r rest e; cases e
  | act M u c' ts τ tr M' hp hτ hr ih =>
    intro r rest e hq hv hpp
    have hk := mapAct_keeps sch M.content c' τ k (hq u c' ts hp)
    refine ih r rest e (fun u' c'' ts' hu => ?_) (hk.trans hv) ?_
    · have hu : (if u' = u then Phase.decided _ else M.phase u') = .called c'' ts' := hu
      split at hu
      · cases hu
      · exact hq u' c'' ts' hu
    · show (∃ ts, (if t = u then Phase.decided _ else M.phase t) = _) ∨ (if t = u then Phase.decided _ else M.phase t) = _
      by_cases hut : t = u
      · subst hut
        rw [hp] at hpp
        rcases hpp with ⟨ts', hpp⟩ | hpp
        · cases hpp
          right
          rw [if_pos rfl]
          simp [mapAct, answer, hv]
        · cases hpp
      · rw [if_neg hut]; exact hpp
  | ret M u r' tr M' hp hr _ =>
    intro r rest e hq hv hpp
    cases e
    rw [hp] at hpp
    rcases hpp with ⟨ts', hpp⟩ | hpp
    · cases hpp
    · exact Phase.decided.inj hpp
  | tick M now tr M' hr _ => intro r rest e; cases e
  | ext M db tr M' hr _ => intro r rest e; cases e

theorem start_quiet (k : Str) (m : Str → Option Str) (now : Int) : Quiet k (Machine.start m now) := fun _ _ _ hu => by cases hu

/-- Lives without a write keep the value. -/
theorem durable_silent {sch : Str → Option Key} {k : Str} {m m' : Str → Option Str} {trs : List (Int × List Obs)} (h : Durable sch m trs m') (hs : ∀ x ∈ trs, Silent k x.2) : m' k = m k := by
  induction h with
  | nil m => rfl
  | cons m now tr N rest m' hr _ ih =>
    rw [ih fun x hx => hs x (List.mem_cons_of_mem _ hx)]
    exact (quiet_runs hr (start_quiet k m now) (hs _ (List.mem_cons_self ..))).1

theorem Durable.split {sch : Str → Option Key} {m m'' : Str → Option Str} : ∀ {a b : List (Int × List Obs)}, Durable sch m (a ++ b) m'' → ∃ m', Durable sch m a m' ∧ Durable sch m' b m'' := by
  intro a
  induction a generalizing m with
  | nil => intro b h; exact ⟨m, .nil m, h⟩
  | cons x a ih =>
    intro b h
    cases h with
    | cons _ now tr N _ _ hr h2 =>
      obtain ⟨m', h3, h4⟩ := ih h2
      exact ⟨m', .cons m now tr N a m' hr h3, h4⟩

/-- C148, a value that was set, partial: in the first life a call of `set` returned; no other call for that key was under way when it began and none was made later, in this life or in those up to a last one.  However each of these lives
ended, a read of the key in the last one gives the value.  Missing: as in `C148_durable_partial`. -/
theorem C148_kept_partial (schema : Str → Option Key) (hs : CleanSchema schema) (l1 l2 : Life) (ls : List Life) (db db' : Db) (tr1 tr2 : List Obs) (trs : List (List Obs))
    (hclean : ∀ l ∈ l1 :: (ls ++ [l2]), ∀ e ∈ l.events, CleanEv schema e) (h : lives schema db (l1 :: (ls ++ [l2])) = some (db', tr1 :: (trs ++ [tr2])))
    (k v : Str) (t u : Nat) (r r2 : Res) (a b c a2 b2 c2 : List Obs)
    (h1 : tr1 = a ++ .call t (.set k v) :: b ++ .ret t r :: c) (hb : ∀ r', Obs.ret t r' ∉ b)
    (hpend : ∀ u c', Pending a u c' → writes k c' = false) (hlater : ∀ u c', .call u c' ∈ b ++ c ++ trs.flatten ++ tr2 → writes k c' = false)
    (h2 : tr2 = a2 ++ .call u (.get k) :: b2 ++ .ret u r2 :: c2) (hb2 : ∀ r', Obs.ret u r' ∉ b2) : r2 = .value (some v) := by
  obtain ⟨m', hd, hlen, -⟩ := C148_durable_partial schema hs (l1 :: (ls ++ [l2])) db db' _ hclean h
  have hlen' : trs.length = ls.length := by simpa using hlen
  have hext : ∀ (ls : List Life) (db db' : Db) (trs : List (List Obs)), (∀ l ∈ ls, ∀ e ∈ l.events, CleanEv schema e) → lives schema db ls = some (db', trs) →
      ∀ tr ∈ trs, ∀ o ∈ tr, ∀ d, o ≠ Obs.ext d := by
    intro ls
    induction ls with
    | nil =>
      intro db db' trs _ h
      simp only [lives, Option.some.injEq, Prod.mk.injEq] at h
      obtain ⟨_, rfl⟩ := h
      simp
    | cons l ls ih =>
      intro db db' trs hc h
      simp only [lives] at h
      cases he : exec (start db schema l.last l.now) l.events with
      | none => rw [he] at h; cases h
      | some p =>
        rw [he] at h
        simp only [Option.bind_some] at h
        cases hl : lives schema p.1.table.db ls with
        | none => rw [hl] at h; cases h
        | some q =>
          rw [hl] at h
          simp only [Option.map_some, Option.some.injEq, Prod.mk.injEq] at h
          obtain ⟨_, rfl⟩ := h
          intro tr htr
          rcases List.mem_cons.1 htr with rfl | htr
          · intro o ho d hod
            have := exec_clean (hc l (by simp)) he o ho
            rw [hod] at this
            exact this
          · exact ih p.1.table.db q.1 q.2 (fun l' hl' => hc l' (List.mem_cons_of_mem _ hl')) hl tr htr
  have hne := hext _ db db' _ hclean h
  have sil : ∀ tr tr' : List Obs, tr' ∈ tr1 :: (trs ++ [tr2]) → tr ⊆ tr' → (∀ o ∈ tr, o ∈ b ++ c ++ trs.flatten ++ tr2) → Silent k tr := by
    intro tr tr' hm hsub hin o ho
    exact ⟨fun u c' e => hlater u c' (by rw [← e]; exact hin o ho), hne tr' hm o (hsub ho)⟩
  have hz : ((l1 :: (ls ++ [l2])).map (·.now)).zip (tr1 :: (trs ++ [tr2])) = (l1.now, tr1) :: ((ls.map (·.now)).zip trs ++ [(l2.now, tr2)]) := by
    simp only [List.map_cons, List.map_append, List.map_nil, List.zip_cons_cons]
    rw [List.zip_append (by simp [hlen'])]
    rfl
  rw [hz] at hd
  cases hd with
  | cons _ _ _ N _ _ hr hrest =>
    have hkeep : N.content k = some v := by
      rw [h1] at hr
      exact kept_first hr hpend (sil b tr1 (by simp) (by rw [h1]; intro o ho; simp [ho]) fun o ho => by simp [ho]) hb
        (sil c tr1 (by simp) (by rw [h1]; intro o ho; simp [ho]) fun o ho => by simp [ho])
    obtain ⟨m2, hmid, hlast⟩ := hrest.split
    have hm2 : m2 k = some v := by
      rw [durable_silent hmid, hkeep]
      intro x hx
      have hx2 : x.2 ∈ trs := (List.of_mem_zip hx).2
      exact sil x.2 x.2 (by simp [hx2]) (fun o ho => ho) fun o ho => by
        have : o ∈ trs.flatten := List.mem_flatten.2 ⟨x.2, hx2, ho⟩
        simp [this]
    cases hlast with
    | cons _ _ _ N2 _ _ hr2 _ =>
      rw [h2] at hr2
      have hs2 : ∀ tr : List Obs, tr ⊆ tr2 → Silent k tr := fun tr hsub => sil tr tr2 (by simp) hsub fun o ho => by simp [hsub ho]
      obtain ⟨K2, h12, h3⟩ := hr2.split (a2 ++ .call u (.get k) :: b2) _ rfl
      obtain ⟨K1, h11, h13⟩ := h12.split a2 _ rfl
      obtain ⟨g1, g2⟩ := quiet_runs h11 (start_quiet k m2 l2.now) (hs2 a2 (by rw [h2]; intro o ho; simp [ho]))
      obtain ⟨M1, f1, f2, f3⟩ := runs_head h13 u (.get k) b2 rfl g2
      have hq : Quiet k (M1.at u (.called (.get k) [M1.clock])) := by
        intro u' c'' ts' hu
        have hu : (if u' = u then Phase.called (.get k) [M1.clock] else M1.phase u') = .called c'' ts' := hu
        split at hu
        · cases hu; rfl
        · exact f2 u' c'' ts' hu
      have hv1 : (M1.at u (.called (.get k) [M1.clock])).content k = some v := by
        show M1.content k = some v
        rw [f1, g1]; exact hm2
      have hsb : Silent k b2 := hs2 b2 (by rw [h2]; intro o ho; simp [ho])
      have hget := quiet_get f3 hq hsb hv1 hb2 (.inl ⟨[M1.clock], if_pos rfl⟩)
      obtain ⟨e1, e2⟩ := quiet_runs f3 hq hsb
      exact runs_ret h3 r2 c2 rfl e2 (e1.trans hv1) hget

/-- A life that ends in the middle of a call of `set`, after `n` of its steps, and one that reads. -/
def interrupted (n : Nat) : List Life :=
  [⟨0, 0, [.call 0 (.set (lit "A") (lit "1")), .step 0, .step 0, .step 0, .step 0, .step 0, .call 0 (.set (lit "A") (lit "2"))] ++ List.replicate n (.step 0)⟩,
   ⟨0, 9, [.call 3 (.get (lit "A")), .step 3, .step 3, .step 3, .step 3, .step 3, .step 3]⟩]

/-- Ended before the statement: the read gives the value that was set before; afterwards: the new one, though the call has not returned. -/
example : (lives (fun _ => none) [] (interrupted 2)).map (·.2) =
    some [[.call 0 (.set (lit "A") (lit "1")), .ret 0 (.done true), .call 0 (.set (lit "A") (lit "2"))], [.call 3 (.get (lit "A")), .ret 3 (.value (some (lit "1")))]] ∧
    (lives (fun _ => none) [] (interrupted 3)).map (·.2) =
    some [[.call 0 (.set (lit "A") (lit "1")), .ret 0 (.done true), .call 0 (.set (lit "A") (lit "2"))], [.call 3 (.get (lit "A")), .ret 3 (.value (some (lit "2")))]] := by decide +kernel

/-- The premises of `C148_kept_partial` for a life that ends right after the return. -/
example (db' : Db) (r2 : Res) (h : lives (fun _ => none) [] [⟨0, 0, [.call 0 (.set (lit "A") (lit "1")), .step 0, .step 0, .step 0, .step 0, .step 0]⟩, ⟨0, 9, [.call 3 (.get (lit "A")), .step 3, .step 3, .step 3, .step 3, .step 3, .step 3]⟩] =
    some (db', [[.call 0 (.set (lit "A") (lit "1")), .ret 0 (.done true)], [.call 3 (.get (lit "A")), .ret 3 r2]])) : r2 = .value (some (lit "1")) :=
  C148_kept_partial (fun _ => none) (fun _ _ h => by cases h) _ _ [] [] db' _ _ [] (by
      intro l hl e he
      simp only [List.nil_append, List.mem_cons, List.not_mem_nil, or_false] at hl
      rcases hl with rfl | rfl <;> simp only [List.mem_cons, List.not_mem_nil, or_false] at he <;> rcases he with rfl | rfl | rfl | rfl | rfl | rfl | rfl
      all_goals first | trivial | exact ⟨by decide +kernel, by decide +kernel⟩ | (show CleanKey _; decide +kernel)) h
    (lit "A") (lit "1") 0 3 (.done true) r2 [] [] [] [] [] [] rfl (by simp) (by rintro u c' ⟨a, b, h, _⟩; simp at h) (by
      intro u c' hm
      simp at hm
      rw [hm.2]; rfl) rfl (by simp)

end Verif.Config.Conc
