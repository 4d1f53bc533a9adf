import Verif.Config.Find
import Mathlib.Data.List.Induction
import Mathlib.Data.List.Infix
import Mathlib.Order.MinMax
import Mathlib.Data.Nat.Basic

/-
Property C140: a listing of the configuration while other threads change it.

`ConfigurationTable::find` (`Configuration.cpp:842-862`) and `getAllPairs` (`865-890`) do not take `mLock`: they fetch one row after the other (`sqlite3_run_query`, `859` and `885`) while other threads may
`set` (`892-907`) and `remove` (`827-838`) values through the same connection.

Assumptions about SQLite: the calls exclude each other (serialized mode, the default); the rows are kept and fetched in the order of their numbers (neither query can use the index of the keys: it does not
hold the values, and the pattern of LIKE begins with a percent sign); the next row fetched is the first one after the last row fetched, as the table is then; a new row gets the number after the largest one;
INSERT OR REPLACE chooses this number and then deletes the old row.  The engine is never busy and the texts hold no quotes (`C79`, `C110`), so all statements succeed.
-/

namespace Verif.Config.Listing
open Verif

/-- A row of the table `CONFIG` (`Configuration.cpp:44-52`): its number, key and value. -/
structure Row where
  id : Nat
  key : Str
  val : Option Str
  deriving DecidableEq

/-- Key and value. -/
def Row.pair (r : Row) : Str × Option Str := (r.key, r.val)

/-- The largest number of a row. -/
def top (t : List Row) : Nat := t.foldl (fun n r => max n r.id) 0

/-- `INSERT OR REPLACE` in `ConfigurationTable::set` (`Configuration.cpp:896-904`). -/
def insert (k : Str) (v : Option Str) (t : List Row) : List Row := (t.filter fun r => r.key ≠ k) ++ [⟨top t + 1, k, v⟩]

/-- `DELETE` in `ConfigurationTable::remove` (`Configuration.cpp:836-837`). -/
def delete (k : Str) (t : List Row) : List Row := t.filter fun r => r.key ≠ k

/-- What can happen during a listing: another thread sets or removes a value, or the listing fetches its next row. -/
inductive Ev where
  | set (k : Str) (v : Option Str)
  | remove (k : Str)
  | fetch

/-- The table; the number of the last row fetched; the rows fetched, in order; has the loop ended? -/
structure St where
  table : List Row
  cursor : Nat
  seen : List Row
  done : Bool
  deriving DecidableEq

/-- One event (`Configuration.cpp:849-859`, `873-885` for `fetch`); `q` is the condition on the keys of the query (`845`; none in `870`). -/
def step (q : Str → Bool) (s : St) : Ev → St
  | .set k v => { s with table := insert k v s.table }
  | .remove k => { s with table := delete k s.table }
  | .fetch =>
    if s.done then s
    else match s.table.find? fun r => s.cursor < r.id && q r.key with
      | some r => { s with cursor := r.id, seen := s.seen ++ [r] }
      | none => { s with done := true }

/-- A listing that begins with this table. -/
def start (t : List Row) : St := ⟨t, 0, [], false⟩

/-- The events of a call, in order. -/
def run (q : Str → Bool) (t : List Row) (es : List Ev) : St := es.foldl (step q) (start t)

/-- The map that `getAllPairs` returns (`Configuration.cpp:873-885`) after fetching these rows. -/
def pairs (seen : List Row) : Str → Option Rec := (seen.map Row.pair).foldl pairStep fun _ => none

/-- What `find` has written (`Configuration.cpp:849-859`) after fetching these rows. -/
def output (seen : List Row) : Str := (seen.map Row.pair).flatMap findLine

/-! ### Specification -/

/-- A table as SQLite keeps it: numbers from 1 in ascending order, no key twice, no NUL in a key. -/
structure Proper (t : List Row) : Prop where
  sorted : t.Pairwise (fun a b => a.id < b.id)
  pos : ∀ r ∈ t, 0 < r.id
  keys : ∀ a ∈ t, ∀ b ∈ t, a.key = b.key → a = b
  noNul : ∀ r ∈ t, (0 : Byte) ∉ r.key

/-- Does the event change the value of this key? -/
def Ev.touches (k : Str) : Ev → Prop
  | .set k' _ => k' = k
  | .remove k' => k' = k
  | .fetch => False

/-- Events with proper keys. -/
def Ev.Ok : Ev → Prop
  | .set k _ => (0 : Byte) ∉ k
  | _ => True

/-- An event that removes no key. -/
def Ev.Keeps : Ev → Prop
  | .remove _ => False
  | _ => True

/-! ### Lemmas -/

theorem mem_filter' {p : Row → Bool} {l : List Row} {r : Row} (h : r ∈ l.filter p) : r ∈ l := (List.mem_filter.1 h).1

theorem foldl_max (t : List Row) (n : Nat) : n ≤ t.foldl (fun n r => max n r.id) n ∧ ∀ r ∈ t, r.id ≤ t.foldl (fun n r => max n r.id) n := by
  induction t generalizing n with
  | nil => exact ⟨le_refl _, fun r h => by cases h⟩
  | cons x t ih =>
    rw [List.foldl_cons]
    obtain ⟨h1, h2⟩ := ih (max n x.id)
    refine ⟨le_trans (le_max_left _ _) h1, fun r hr => ?_⟩
    rcases List.mem_cons.1 hr with rfl | hr
    · exact le_trans (le_max_right _ _) h1
    · exact h2 r hr

theorem le_top {t : List Row} {r : Row} (h : r ∈ t) : r.id ≤ top t := (foldl_max t 0).2 r h

theorem proper_delete {t : List Row} (h : Proper t) (k : Str) : Proper (delete k t) :=
  ⟨h.sorted.sublist List.filter_sublist, fun r hr => h.pos r (mem_filter' hr),
    fun a ha b hb e => h.keys a (mem_filter' ha) b (mem_filter' hb) e, fun r hr => h.noNul r (mem_filter' hr)⟩

theorem proper_insert {t : List Row} (h : Proper t) (k : Str) (v : Option Str) (hk : (0 : Byte) ∉ k) : Proper (insert k v t) := by
  have hd := proper_delete h k
  refine ⟨?_, ?_, ?_, ?_⟩
  · refine List.pairwise_append.2 ⟨hd.sorted, List.pairwise_singleton _ _, fun a ha b hb => ?_⟩
    rw [List.mem_singleton] at hb
    subst hb
    exact Nat.lt_succ_of_le (le_top (mem_filter' ha))
  · intro r hr
    rcases List.mem_append.1 hr with hr | hr
    · exact hd.pos r hr
    · rw [List.mem_singleton] at hr; subst hr; exact Nat.succ_pos _
  · intro a ha b hb e
    rcases List.mem_append.1 ha with ha | ha <;> rcases List.mem_append.1 hb with hb | hb
    · exact hd.keys a ha b hb e
    · rw [List.mem_singleton] at hb; subst hb
      have := (List.mem_filter.1 ha).2
      simp only [ne_eq, decide_not, Bool.not_eq_eq_eq_not, Bool.not_true, decide_eq_false_iff_not] at this
      exact absurd e this
    · rw [List.mem_singleton] at ha; subst ha
      have := (List.mem_filter.1 hb).2
      simp only [ne_eq, decide_not, Bool.not_eq_eq_eq_not, Bool.not_true, decide_eq_false_iff_not] at this
      exact absurd e.symm this
    · rw [List.mem_singleton] at ha hb; rw [ha, hb]
  · intro r hr
    rcases List.mem_append.1 hr with hr | hr
    · exact hd.noNul r hr
    · rw [List.mem_singleton] at hr; subst hr; exact hk

/-- What holds during every listing. -/
structure Inv (q : Str → Bool) (s : St) : Prop where
  proper : Proper s.table
  sorted : s.seen.Pairwise (fun a b => a.id < b.id)
  below : ∀ r ∈ s.seen, r.id ≤ s.cursor
  cond : ∀ r ∈ s.seen, q r.key = true
  noNul : ∀ r ∈ s.seen, (0 : Byte) ∉ r.key

theorem inv_start (q : Str → Bool) {t : List Row} (h : Proper t) : Inv q (start t) :=
  ⟨h, List.Pairwise.nil, nofun, nofun, nofun⟩

theorem fetch_some {q : Str → Bool} {s : St} {r : Row} (hp : Proper s.table) (h : s.table.find? (fun r => s.cursor < r.id && q r.key) = some r) :
    r ∈ s.table ∧ s.cursor < r.id ∧ q r.key = true ∧ ∀ x ∈ s.table, q x.key = true → s.cursor < x.id → r.id ≤ x.id := by
  rw [List.find?_eq_some_iff_append] at h
  obtain ⟨h1, as, bs, h2, h3⟩ := h
  simp only [Bool.and_eq_true, decide_eq_true_eq] at h1
  refine ⟨by rw [h2]; simp, h1.1, h1.2, fun x hx hq hc => ?_⟩
  have hs := hp.sorted
  rw [h2] at hx hs
  rcases List.mem_append.1 hx with hx | hx
  · have := h3 x hx
    simp only [Bool.not_eq_eq_eq_not, Bool.not_true, Bool.and_eq_false_iff, decide_eq_false_iff_not] at this
    rcases this with this | this
    · exact absurd hc this
    · rw [hq] at this; cases this
  · rcases List.mem_cons.1 hx with rfl | hx
    · exact le_refl _
    · exact le_of_lt ((List.pairwise_cons.1 (List.pairwise_append.1 hs).2.1).1 x hx)

theorem inv_step {q : Str → Bool} {s : St} (h : Inv q s) {e : Ev} (he : e.Ok) : Inv q (step q s e) := by
  obtain ⟨h1, h2, h3, h4, h5⟩ := h
  cases e with
  | set k v => exact ⟨proper_insert h1 k v he, h2, h3, h4, h5⟩
  | remove k => exact ⟨proper_delete h1 k, h2, h3, h4, h5⟩
  | fetch =>
    simp only [step]
    split
    · exact ⟨h1, h2, h3, h4, h5⟩
    · split
      · rename_i r hr
        obtain ⟨g1, g2, g3, g4⟩ := fetch_some h1 hr
        refine ⟨h1, ?_, ?_, ?_, ?_⟩
        · refine List.pairwise_append.2 ⟨h2, List.pairwise_singleton _ _, fun a ha b hb => ?_⟩
          rw [List.mem_singleton] at hb
          subst hb
          exact lt_of_le_of_lt (h3 a ha) g2
        · intro x hx
          rcases List.mem_append.1 hx with hx | hx
          · exact le_of_lt (lt_of_le_of_lt (h3 x hx) g2)
          · rw [List.mem_singleton] at hx; subst hx; exact le_refl _
        · intro x hx
          rcases List.mem_append.1 hx with hx | hx
          · exact h4 x hx
          · rw [List.mem_singleton] at hx; subst hx; exact g3
        · intro x hx
          rcases List.mem_append.1 hx with hx | hx
          · exact h5 x hx
          · rw [List.mem_singleton] at hx; subst hx; exact h1.noNul _ g1
      · exact ⟨h1, h2, h3, h4, h5⟩

theorem run_append (q : Str → Bool) (t : List Row) (es : List Ev) (e : Ev) : run q t (es ++ [e]) = step q (run q t es) e := by
  simp [run]

theorem run_inv {q : Str → Bool} {t : List Row} (ht : Proper t) {es : List Ev} (hes : ∀ e ∈ es, e.Ok) : Inv q (run q t es) := by
  induction es using List.reverseRecOn with
  | nil => exact inv_start q ht
  | append_singleton es e ih =>
    rw [run_append]
    exact inv_step (ih fun x hx => hes x (by simp [hx])) (hes e (by simp))

/-- The last row fetched for a key decides what the map holds. -/
theorem pairs_eq (l : List Row) (hn : ∀ r ∈ l, (0 : Byte) ∉ r.key) (k : Str) :
    pairs l k = ((l.filter fun r => r.key = k).getLast?).map fun r => recOf (r.val.map cText) := by
  induction l using List.reverseRecOn with
  | nil => rfl
  | append_singleton l r ih =>
    have hc : cText r.key = r.key := cText_self (hn r (by simp))
    have e : pairs (l ++ [r]) k = pairStep (pairs l) r.pair k := by simp [pairs]
    rw [e, List.filter_append]
    have ih := ih fun x hx => hn x (by simp [hx])
    by_cases hk : r.key = k
    · have : [r].filter (fun r => decide (r.key = k)) = [r] := by simp [hk]
      rw [this, List.getLast?_concat]
      subst hk
      simp only [pairStep, Row.pair, hc, put, if_true, Option.map_some]
      cases r.val <;> rfl
    · have : [r].filter (fun r => decide (r.key = k)) = [] := by simp [hk]
      rw [this, List.append_nil, ← ih]
      simp only [pairStep, Row.pair, hc, put, if_neg (Ne.symm hk)]

/-- The rows of one key. -/
def ofKey (k : Str) (l : List Row) : List Row := l.filter fun r => r.key = k

theorem ofKey_delete {k k' : Str} (h : k' ≠ k) (t : List Row) : ofKey k (delete k' t) = ofKey k t := by
  unfold ofKey delete
  rw [List.filter_filter]
  apply List.filter_congr
  intro r _
  by_cases hr : r.key = k
  · simp [hr, Ne.symm h]
  · simp [hr]

theorem ofKey_insert {k k' : Str} (h : k' ≠ k) (v : Option Str) (t : List Row) : ofKey k (insert k' v t) = ofKey k t := by
  have := ofKey_delete h t
  unfold insert
  unfold ofKey delete at *
  rw [List.filter_append, this]
  simp [h]

/-- A key that nobody changes: its row has been fetched once the cursor is past it, and nothing else. -/
theorem untouched {q : Str → Bool} {t : List Row} (ht : Proper t) {es : List Ev} (hes : ∀ e ∈ es, e.Ok) {k : Str} (hk : ∀ e ∈ es, ¬ e.touches k) :
    ofKey k (run q t es).table = ofKey k t ∧ ofKey k (run q t es).seen = (ofKey k t).filter fun r => r.id ≤ (run q t es).cursor && q k := by
  induction es using List.reverseRecOn with
  | nil =>
    refine ⟨rfl, ?_⟩
    symm
    show List.filter _ (ofKey k t) = []
    rw [List.filter_eq_nil_iff]
    intro r hr
    have := ht.pos r (mem_filter' hr)
    simp only [run, List.foldl_nil, start]
    have e : ¬ r.id ≤ 0 := by omega
    simp [e]
  | append_singleton es e ih =>
    obtain ⟨h1, h2⟩ := ih (fun x hx => hes x (by simp [hx])) (fun x hx => hk x (by simp [hx]))
    have hi : Inv q (run q t es) := run_inv ht fun x hx => hes x (by simp [hx])
    have he := hk e (by simp)
    rw [run_append]
    generalize run q t es = s at *
    cases e with
    | set k' v => exact ⟨(ofKey_insert he v _).trans h1, h2⟩
    | remove k' => exact ⟨(ofKey_delete he _).trans h1, h2⟩
    | fetch =>
      simp only [step]
      split
      · exact ⟨h1, h2⟩
      · split
        · rename_i r hr
          obtain ⟨g1, g2, g3, g4⟩ := fetch_some hi.proper hr
          refine ⟨h1, ?_⟩
          show ofKey k (s.seen ++ [r]) = _
          have h2' : ofKey k (s.seen ++ [r]) = ofKey k s.seen ++ ofKey k [r] := List.filter_append ..
          rw [h2', h2]
          by_cases hrk : r.key = k
          · have hrt : r ∈ ofKey k t := by rw [← h1]; exact List.mem_filter.2 ⟨g1, by simp [hrk]⟩
            have hone : ofKey k t = [r] := by
              have hall : ∀ x ∈ ofKey k t, x = r := fun x hx =>
                ht.keys x (mem_filter' hx) r (mem_filter' hrt) (by
                  have := (List.mem_filter.1 hx).2
                  simp only [decide_eq_true_eq] at this
                  rw [this, hrk])
              have hnd : (ofKey k t).Pairwise (fun a b => a.id < b.id) := ht.sorted.sublist List.filter_sublist
              match hm : ofKey k t with
              | [] => rw [hm] at hrt; cases hrt
              | [x] => rw [hall x (by rw [hm]; simp)]
              | x :: y :: l =>
                rw [hm] at hnd
                have := (List.pairwise_cons.1 hnd).1 y (by simp)
                rw [hall x (by rw [hm]; simp), hall y (by rw [hm]; simp)] at this
                omega
            have hq : q k = true := by rw [← hrk]; exact g3
            rw [hone]
            have e1 : ¬ r.id ≤ s.cursor := by omega
            simp [ofKey, hrk, hq, e1]
          · have : ofKey k [r] = [] := by simp [ofKey, hrk]
            rw [this, List.append_nil]
            apply List.filter_congr
            intro x hx
            have hx' : x ∈ s.table := by rw [← h1] at hx; exact mem_filter' hx
            have hxk : x.key = k := by simpa using (List.mem_filter.1 hx).2
            by_cases hq : q k = true
            · have := g4 x hx' (by rw [hxk]; exact hq)
              have hne : x.id ≠ r.id := by
                intro e
                apply hrk
                have hs := hi.proper.sorted
                rcases List.mem_iff_getElem.1 hx' with ⟨i, hi', rfl⟩
                rcases List.mem_iff_getElem.1 g1 with ⟨j, hj', rfl⟩
                rcases Nat.lt_trichotomy i j with hij | hij | hij
                · have := List.pairwise_iff_getElem.1 hs i j hi' hj' hij; omega
                · subst hij; exact hxk
                · have := List.pairwise_iff_getElem.1 hs j i hj' hi' hij; omega
              simp only [hq, Bool.and_true, decide_eq_decide]
              omega
            · simp [hq]
        · exact ⟨h1, h2⟩

/-- Once the loop has ended, it has passed all the rows there were then. -/
theorem ended {q : Str → Bool} {s : St} (hd : s.done = false) (h : (step q s .fetch).done = true) :
    (step q s .fetch) = { s with done := true } ∧ ∀ r ∈ s.table, q r.key = true → r.id ≤ s.cursor := by
  simp only [step, hd, Bool.false_eq_true, if_false] at h ⊢
  split at h
  · cases h
  · rename_i hn
    rw [List.find?_eq_none] at hn
    refine ⟨rfl, fun r hr hq => ?_⟩
    have := hn r hr
    simp only [hq, Bool.and_true, decide_eq_true_eq] at this
    omega

/-- Without removals: rows are numbered after the cursor, fetched once passed, and a row fetched and then replaced has a later one. -/
structure Kept (q : Str → Bool) (s : St) : Prop where
  top : s.cursor ≤ top s.table
  passed : ∀ r ∈ s.table, q r.key = true → r.id ≤ s.cursor → r ∈ s.seen
  newer : ∀ r ∈ s.seen, r ∈ s.table ∨ ∃ x ∈ s.table, x.key = r.key ∧ r.id < x.id

theorem top_insert (k : Str) (v : Option Str) (t : List Row) : Listing.top t + 1 ≤ Listing.top (insert k v t) :=
  le_top (r := ⟨Listing.top t + 1, k, v⟩) (by simp [insert])

theorem kept_run {q : Str → Bool} {t : List Row} (ht : Proper t) {es : List Ev} (hes : ∀ e ∈ es, e.Ok) (hk : ∀ e ∈ es, e.Keeps) : Kept q (run q t es) := by
  induction es using List.reverseRecOn with
  | nil => exact ⟨Nat.zero_le _, fun r hr _ h => absurd (ht.pos r hr) (by simpa [run, start] using h), nofun⟩
  | append_singleton es e ih =>
    obtain ⟨h1, h2, h3⟩ := ih (fun x hx => hes x (by simp [hx])) (fun x hx => hk x (by simp [hx]))
    have hi : Inv q (run q t es) := run_inv ht fun x hx => hes x (by simp [hx])
    have he := hk e (by simp)
    rw [run_append]
    generalize run q t es = s at *
    cases e with
    | set k v =>
      have ht' := top_insert k v s.table
      refine ⟨by simp only [step]; omega, ?_, ?_⟩
      · intro r hr hq hc
        simp only [step] at hr hc ⊢
        rcases List.mem_append.1 hr with hr | hr
        · exact h2 r (mem_filter' hr) hq hc
        · rw [List.mem_singleton] at hr; subst hr
          simp only at hc
          omega
      · intro r hr
        simp only [step] at hr ⊢
        have hnew : (⟨Listing.top s.table + 1, k, v⟩ : Row) ∈ insert k v s.table := by simp [insert]
        have hle : r.id ≤ Listing.top s.table := le_trans (hi.below r hr) h1
        by_cases hrk : r.key = k
        · exact .inr ⟨_, hnew, hrk.symm, by simp only; omega⟩
        · rcases h3 r hr with h | ⟨x, hx, hxk, hlt⟩
          · exact .inl (List.mem_append.2 (.inl (List.mem_filter.2 ⟨h, by simp [hrk]⟩)))
          · exact .inr ⟨x, List.mem_append.2 (.inl (List.mem_filter.2 ⟨hx, by simp [hxk, hrk]⟩)), hxk, hlt⟩
    | remove k => exact he.elim
    | fetch =>
      simp only [step]
      split
      · exact ⟨h1, h2, h3⟩
      · split
        · rename_i r hr
          obtain ⟨g1, g2, g3, g4⟩ := fetch_some hi.proper hr
          refine ⟨le_top g1, ?_, ?_⟩
          · intro x hx hq hc
            simp only at hx hc ⊢
            by_cases hxc : x.id ≤ s.cursor
            · exact List.mem_append.2 (.inl (h2 x hx hq hxc))
            · have hid : x.id = r.id := by have := g4 x hx hq (by omega); omega
              have : x = r := by
                have hs := hi.proper.sorted
                rcases List.mem_iff_getElem.1 hx with ⟨i, hi', rfl⟩
                rcases List.mem_iff_getElem.1 g1 with ⟨j, hj', rfl⟩
                rcases Nat.lt_trichotomy i j with hij | hij | hij
                · have := List.pairwise_iff_getElem.1 hs i j hi' hj' hij; omega
                · subst hij; rfl
                · have := List.pairwise_iff_getElem.1 hs j i hj' hi' hij; omega
              rw [this]; simp
          · intro x hx
            rcases List.mem_append.1 hx with hx | hx
            · exact h3 x hx
            · rw [List.mem_singleton] at hx; subst hx; exact .inl g1
        · exact ⟨h1, h2, h3⟩

theorem getLast_of_sorted {l : List Row} (hs : l.Pairwise (fun a b => a.id < b.id)) {r : Row} (hr : r ∈ l) (hmax : ∀ x ∈ l, x.id ≤ r.id) : l.getLast? = some r := by
  induction l using List.reverseRecOn with
  | nil => cases hr
  | append_singleton l x _ =>
    rw [List.getLast?_concat]
    rcases List.mem_append.1 hr with hr | hr
    · have := (List.pairwise_append.1 hs).2.2 r hr x (by simp)
      have := hmax x (by simp)
      omega
    · rw [List.mem_singleton] at hr; rw [hr]

/-! ### C140 -/

/-- C140 (undisturbed keys): however the other threads set and remove other keys meanwhile, a completed listing holds the row of a key that nobody changes exactly once if the query asks for it, and nothing
for a key that is not there. -/
theorem C140_untouched (q : Str → Bool) (t : List Row) (ht : Proper t) (es : List Ev) (hes : ∀ e ∈ es, e.Ok) (k : Str) (hk : ∀ e ∈ es, ¬ e.touches k)
    (hopen : (run q t es).done = false) (hend : (run q t (es ++ [.fetch])).done = true) :
    ((run q t (es ++ [.fetch])).seen.filter fun r => r.key = k) = t.filter fun r => r.key = k ∧ q k = true := by
  obtain ⟨h1, h2⟩ := untouched (q := q) ht hes hk
  rw [run_append] at hend ⊢
  obtain ⟨h3, h4⟩ := ended hopen hend
  rw [h3]
  show ofKey k (run q t es).seen = _
  rw [h2]
  unfold ofKey
  rw [List.filter_filter]
  apply List.filter_congr
  intro r hr
  by_cases hrk : r.key = k
  · by_cases hq : q k = true
    · have hrt : r ∈ (run q t es).table := by
        have : r ∈ ofKey k t := List.mem_filter.2 ⟨hr, by simp [hrk]⟩
        rw [← h1] at this
        exact mem_filter' this
      have := h4 r hrt (by rw [hrk]; exact hq)
      simp [hrk, hq, this]
    · simp [hrk, hq]
  · simp [hrk]

/-- C140 (undisturbed keys, `getAllPairs`): its map then holds what it would hold without the other threads. -/
theorem C140_pairs_untouched (t : List Row) (ht : Proper t) (es : List Ev) (hes : ∀ e ∈ es, e.Ok) (k : Str) (hk : ∀ e ∈ es, ¬ e.touches k)
    (hopen : (run (fun _ => true) t es).done = false) (hend : (run (fun _ => true) t (es ++ [.fetch])).done = true) :
    pairs (run (fun _ => true) t (es ++ [.fetch])).seen k = getAllPairs (t.map Row.pair) k := by
  have hi : Inv (fun _ => true) (run (fun _ => true) t (es ++ [.fetch])) := run_inv ht (by
    intro e he
    rcases List.mem_append.1 he with he | he
    · exact hes e he
    · rw [List.mem_singleton] at he; subst he; trivial)
  show _ = pairs t k
  rw [pairs_eq _ hi.noNul, pairs_eq _ ht.noNul, C140_untouched _ t ht es hes k hk hopen hend]
  simp

/-- C140 (origin): every row shown satisfies the condition of the query and was in the table at some moment of the call. -/
theorem C140_origin (q : Str → Bool) (t : List Row) (ht : Proper t) (es : List Ev) (hes : ∀ e ∈ es, e.Ok) (r : Row) (hr : r ∈ (run q t es).seen) :
    q r.key = true ∧ ∃ es', es' <+: es ∧ r ∈ (run q t es').table := by
  refine ⟨(run_inv ht hes).cond r hr, ?_⟩
  induction es using List.reverseRecOn with
  | nil => cases hr
  | append_singleton es e ih =>
    have hi : Inv q (run q t es) := run_inv ht fun x hx => hes x (by simp [hx])
    have hold : r ∈ (run q t es).seen → ∃ es', es' <+: es ++ [e] ∧ r ∈ (run q t es').table := fun h => by
      obtain ⟨es', h1, h2⟩ := ih (fun x hx => hes x (by simp [hx])) h
      exact ⟨es', h1.trans (List.prefix_append _ _), h2⟩
    rw [run_append] at hr
    cases e with
    | set k v => exact hold hr
    | remove k => exact hold hr
    | fetch =>
      simp only [step] at hr
      split at hr
      · exact hold hr
      · split at hr
        · rename_i x hx
          rcases List.mem_append.1 hr with hr | hr
          · exact hold hr
          · rw [List.mem_singleton] at hr; subst hr
            exact ⟨es, List.prefix_append _ _, (fetch_some hi.proper hx).1⟩
        · exact hold hr

/-- C140, the part that holds: as long as no key is removed, `getAllPairs` returns the contents of the table at the moment when it ends, whatever other threads set meanwhile.  Missing: removals, see
`C140_remove_refuted`, and `find`, see `C140_twice_refuted`. -/
theorem C140_sets_partial (t : List Row) (ht : Proper t) (es : List Ev) (hes : ∀ e ∈ es, e.Ok) (hk : ∀ e ∈ es, e.Keeps)
    (hopen : (run (fun _ => true) t es).done = false) (hend : (run (fun _ => true) t (es ++ [.fetch])).done = true) (k : Str) :
    pairs (run (fun _ => true) t (es ++ [.fetch])).seen k = getAllPairs ((run (fun _ => true) t (es ++ [.fetch])).table.map Row.pair) k := by
  have hkept := kept_run (q := fun _ => true) ht hes hk
  have hi : Inv (fun _ => true) (run (fun _ => true) t es) := run_inv ht hes
  rw [run_append] at hend ⊢
  obtain ⟨h3, h4⟩ := ended hopen hend
  rw [h3]
  generalize run (fun _ => true) t es = s at *
  show pairs s.seen k = pairs s.table k
  rw [pairs_eq _ hi.noNul, pairs_eq _ hi.proper.noNul]
  congr 1
  have hin : ∀ r ∈ s.table, r ∈ s.seen := fun r hr => hkept.passed r hr rfl (h4 r hr rfl)
  by_cases hex : ∃ r ∈ s.table, r.key = k
  · obtain ⟨r, hr, hrk⟩ := hex
    have hmax : ∀ x ∈ s.seen, x.key = k → x.id ≤ r.id := fun x hx hxk => by
      rcases hkept.newer x hx with h | ⟨y, hy, hyk, hlt⟩
      · rw [hi.proper.keys x h r hr (hxk.trans hrk.symm)]
      · rw [← hi.proper.keys y hy r hr (hyk.trans (hxk.trans hrk.symm))]; omega
    have key : ∀ l : List Row, ∀ x ∈ l.filter (fun r => decide (r.key = k)), x.key = k := fun l x hx => by simpa using (List.mem_filter.1 hx).2
    rw [getLast_of_sorted (hi.sorted.sublist List.filter_sublist) (List.mem_filter.2 ⟨hin r hr, by simp [hrk]⟩) fun x hx => hmax x (mem_filter' hx) (key _ x hx),
      getLast_of_sorted (hi.proper.sorted.sublist List.filter_sublist) (List.mem_filter.2 ⟨hr, by simp [hrk]⟩)
        fun x hx => hmax x (hin x (mem_filter' hx)) (key _ x hx)]
  · have e1 : s.table.filter (fun r => decide (r.key = k)) = [] := by
      rw [List.filter_eq_nil_iff]
      intro r hr
      simp only [decide_eq_true_eq]
      exact fun h => hex ⟨r, hr, h⟩
    have e2 : s.seen.filter (fun r => decide (r.key = k)) = [] := by
      rw [List.filter_eq_nil_iff]
      intro r hr
      simp only [decide_eq_true_eq]
      intro h
      rcases hkept.newer r hr with h' | ⟨x, hx, hxk, _⟩
      · exact hex ⟨r, h', h⟩
      · exact hex ⟨x, hx, hxk.trans h⟩
    rw [e1, e2]

/-- C140 is false: while `getAllPairs` runs, another thread removes the key `A` and then sets `B`.  The map returned holds the old value of `A` and the new value of `B`, which were never together in
the table. -/
theorem C140_remove_refuted : ∃ (t : List Row) (es : List Ev), Proper t ∧ (∀ e ∈ es, e.Ok) ∧ (run (fun _ => true) t es).done = true ∧
    pairs (run (fun _ => true) t es).seen (lit "A") = some ⟨lit "1", true⟩ ∧ pairs (run (fun _ => true) t es).seen (lit "B") = some ⟨lit "2", true⟩ ∧
    ∀ es', es' <+: es → ¬ (getAllPairs ((run (fun _ => true) t es').table.map Row.pair) (lit "A") = some ⟨lit "1", true⟩ ∧
      getAllPairs ((run (fun _ => true) t es').table.map Row.pair) (lit "B") = some ⟨lit "2", true⟩) := by
  refine ⟨[⟨1, lit "A", some (lit "1")⟩, ⟨2, lit "B", some (lit "1")⟩], [.fetch, .remove (lit "A"), .set (lit "B") (some (lit "2")), .fetch, .fetch], ?_, ?_, by decide +kernel, by decide +kernel,
    by decide +kernel, ?_⟩
  · exact ⟨by decide +kernel, by decide +kernel, by decide +kernel, by decide +kernel⟩
  · intro e he
    simp only [List.mem_cons, List.not_mem_nil, or_false] at he
    rcases he with rfl | rfl | rfl | rfl | rfl <;> simp only [Ev.Ok] <;> decide +kernel
  · intro es' h
    rw [← List.mem_inits] at h
    simp only [List.inits, List.map_cons, List.map_nil, List.mem_cons, List.not_mem_nil, or_false] at h
    rcases h with rfl | rfl | rfl | rfl | rfl | rfl <;> decide +kernel

/-- C140 is false of `find`: a key whose value is set while its table is listed is printed twice, with its old and its new value. -/
theorem C140_twice_refuted : ∃ (t : List Row) (es : List Ev), Proper t ∧ (∀ e ∈ es, e.Ok) ∧ (∀ e ∈ es, e.Keeps) ∧ (run (like (lit "%A%")) t es).done = true ∧
    output (run (like (lit "%A%")) t es).seen = lit "A 1\nA 2\n" := by
  refine ⟨[⟨1, lit "A", some (lit "1")⟩, ⟨2, lit "B", some (lit "1")⟩], [.fetch, .set (lit "A") (some (lit "2")), .fetch, .fetch], ?_, ?_, ?_, by decide +kernel, by decide +kernel⟩
  · exact ⟨by decide +kernel, by decide +kernel, by decide +kernel, by decide +kernel⟩
  · intro e he
    simp only [List.mem_cons, List.not_mem_nil, or_false] at he
    rcases he with rfl | rfl | rfl | rfl <;> simp only [Ev.Ok] <;> decide +kernel
  · intro e he
    simp only [List.mem_cons, List.not_mem_nil, or_false] at he
    rcases he with rfl | rfl | rfl | rfl <;> trivial

/-- Values set during a listing, before and after the cursor: `getAllPairs` returns the latest. -/
example : let t : List Row := [⟨1, lit "A", some (lit "1")⟩, ⟨4, lit "B", none⟩, ⟨5, lit "C", some (lit "3")⟩]
    let s := run (fun _ => true) t [.fetch, .fetch, .set (lit "A") (some (lit "7")), .set (lit "C") none, .fetch, .set (lit "D") (some (lit "9")), .fetch, .fetch]
    s.seen.map Row.id = [1, 4, 6, 7, 8] ∧ s.done = false ∧ (step (fun _ => true) s .fetch).done = true ∧
      [lit "A", lit "B", lit "C", lit "D"].map (pairs s.seen) = [some ⟨lit "7", true⟩, some ⟨[], false⟩, some ⟨[], false⟩, some ⟨lit "9", true⟩] := by
  decide +kernel

/-- A key that is there and is not changed appears once, though others come and go. -/
example : let t : List Row := [⟨1, lit "A", some (lit "1")⟩, ⟨2, lit "B", some (lit "5")⟩]
    let s := run (like (lit "%%")) t [.fetch, .remove (lit "A"), .set (lit "C") (some (lit "1")), .fetch, .remove (lit "C"), .fetch]
    s.done = true ∧ output s.seen = lit "A 1\nB 5\n" := by
  decide +kernel

end Verif.Config.Listing
