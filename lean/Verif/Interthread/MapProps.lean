import Verif.Interthread.Map
import Verif.Interthread.QueueProps

/-
Property C27.
-/

namespace Verif.Interthread
open Verif Verif.Monitor

/-! ### Specification: an ideal map -/

/-- One call on an ideal map (a function from keys to elements): the map afterwards, if the result is the one an ideal map gives. -/
def mapStep (f : Nat → Option Val) : MOp × MRes → Option (Nat → Option Val)
  | (.write k v, .wrote old) => if old = f k then some (Function.update f k (some v)) else none
  | (.getNoBlock k rm, .found v) => if f k = some v then some (if rm then Function.update f k none else f) else none
  | (.getNoBlock k _, .notFound) => if f k = none then some f else none
  | (.getT k _ rm, .found v) => if f k = some v then some (if rm then Function.update f k none else f) else none
  | (.getT k _ _, .notFound) => if f k = none then some f else none
  | (.get k rm, .found v) => if f k = some v then some (if rm then Function.update f k none else f) else none
  | (.remove k, .deleted v) => if f k = some v then some (Function.update f k none) else none
  | (.remove k, .notFound) => if f k = none then some f else none
  | _ => none

def mapRun (f : Nat → Option Val) : List (MOp × MRes) → Option (Nat → Option Val)
  | [] => some f
  | e :: es => match mapStep f e with
    | some f' => mapRun f' es
    | none => none

theorem mapRun_append (f f' : Nat → Option Val) (es : List (MOp × MRes)) (e : MOp × MRes) (h : mapRun f es = some f') : mapRun f (es ++ [e]) = mapStep f' e := by
  induction es generalizing f with
  | nil => cases h; simp only [mapRun, List.nil_append]; split <;> simp_all
  | cons a es ih =>
    simp only [mapRun, List.cons_append] at h ⊢
    cases h1 : mapStep f a with
    | none => rw [h1] at h; cases h
    | some q1 => rw [h1] at h; exact ih q1 h

/-! ### The association list -/

theorem find_erase (m : KV) (k : Nat) : find (erase m k) = Function.update (find m) k none := by
  funext j
  unfold find erase
  induction m with
  | nil => by_cases q : j = k <;> simp [q, Function.update]
  | cons e m ih =>
    by_cases h : e.1 = k
    · rw [List.filter_cons_of_neg (by simp [h]), ih]
      by_cases q : j = k
      · subst q; simp
      · rw [Function.update_of_ne q, Function.update_of_ne q]
        obtain ⟨a, b⟩ := e
        have : (j == a) = false := by simp; intro q'; exact q (q'.trans h)
        simp [List.lookup, this]
    · rw [List.filter_cons_of_pos (by simp [h])]
      obtain ⟨a, b⟩ := e
      by_cases q : j = k
      · subst q
        have : (j == a) = false := by simp; intro q'; exact h q'.symm
        simp only [List.lookup, this, ih]; simp
      · rw [Function.update_of_ne q] at ih ⊢
        simp only [List.lookup, ih]

theorem find_store (m : KV) (k : Nat) (v : Val) : find (store m k v) = Function.update (find m) k (some v) := by
  funext j
  have h := congrFun (find_erase m k) j
  unfold find at h ⊢
  by_cases q : j = k
  · subst q; simp [store]
  · rw [Function.update_of_ne q] at h ⊢
    have : (j == k) = false := by simp [q]
    simp only [store, List.lookup, this]
    exact h

theorem find_take (m : KV) (k : Nat) (rm : Bool) : find (takeM m k rm) = if rm then Function.update (find m) k none else find m := by
  cases rm
  · rfl
  · exact find_erase m k

/-- What a completed pass does. -/
theorem m_done {op : MOp} {t0 : Stamp} {nw : Clock} {m m' : KV} {r : MRes} {i o : List (Sig WS)} (hb : imap.body op t0 nw m (.done m' r i o)) :
    (∃ k v, op = .write k v ∧ m' = store m k v ∧ r = .wrote (find m k) ∧ i = [.all ()] ∧ o = []) ∨
    (∃ k rm v, (op = .getNoBlock k rm ∨ (∃ ms, op = .getT k ms rm) ∨ op = .get k rm) ∧ find m k = some v ∧ m' = takeM m k rm ∧ r = .found v ∧ i = [] ∧ o = []) ∨
    (∃ k v, op = .remove k ∧ find m k = some v ∧ m' = erase m k ∧ r = .deleted v ∧ i = [] ∧ o = []) ∨
    (∃ k, ((∃ rm, op = .getNoBlock k rm) ∨ (∃ ms rm, op = .getT k ms rm) ∨ op = .remove k) ∧ find m k = none ∧ m' = m ∧ r = .notFound ∧ i = [] ∧ o = []) := by
  have hb : mbody op t0 nw m = some (.done m' r i o) := hb
  cases op with
  | write k v => cases hb; exact .inl ⟨k, v, rfl, rfl, rfl, rfl, rfl⟩
  | getNoBlock k rm =>
    simp only [mbody] at hb
    split at hb
    · next h => cases hb; exact .inr (.inr (.inr ⟨k, .inl ⟨rm, rfl⟩, h, rfl, rfl, rfl, rfl⟩))
    · next v h => cases hb; exact .inr (.inl ⟨k, rm, v, .inl rfl, h, rfl, rfl, rfl, rfl⟩)
  | getT k ms rm =>
    simp only [mbody] at hb
    split at hb
    · next v h => cases hb; exact .inr (.inl ⟨k, rm, v, .inr (.inl ⟨ms, rfl⟩), h, rfl, rfl, rfl, rfl⟩)
    · next h =>
      refine .inr (.inr (.inr ⟨k, .inr (.inl ⟨ms, rm, rfl⟩), h, ?_⟩))
      split at hb
      · cases hb; exact ⟨rfl, rfl, rfl, rfl⟩
      · split at hb
        · next r' _ =>
          split at hb
          · cases hb; exact ⟨rfl, rfl, rfl, rfl⟩
          · rcases timedWait_cases (R := MRes) nw r' m () with e | e <;> rw [e] at hb <;> cases hb
        · cases hb
  | get k rm =>
    simp only [mbody] at hb
    split at hb
    · cases hb
    · next v h => cases hb; exact .inr (.inl ⟨k, rm, v, .inr (.inr rfl), h, rfl, rfl, rfl, rfl⟩)
  | remove k =>
    simp only [mbody] at hb
    split at hb
    · next h => cases hb; exact .inr (.inr (.inr ⟨k, .inr (.inr rfl), h, rfl, rfl, rfl, rfl⟩))
    · next v h => cases hb; exact .inr (.inr (.inl ⟨k, v, rfl, h, rfl, rfl, rfl, rfl⟩))

/-- A pass that goes to sleep has not found its key and changes nothing. -/
theorem m_wait {op : MOp} {t0 : Stamp} {nw : Clock} {m m' : KV} {c : WS} (hb : imap.body op t0 nw m (.wait m' c)) :
    m' = m ∧ ∃ k rm, ((∃ ms, op = .getT k ms rm) ∨ op = .get k rm) ∧ find m k = none := by
  have hb : mbody op t0 nw m = some (.wait m' c) := hb
  cases op with
  | write k v => simp [mbody] at hb
  | getNoBlock k rm => simp only [mbody] at hb; split at hb <;> cases hb
  | getT k ms rm =>
    simp only [mbody] at hb
    split at hb
    · cases hb
    · next h =>
      split at hb
      · cases hb
      · split at hb
        · next r' _ =>
          split at hb
          · cases hb
          · rcases timedWait_cases (R := MRes) nw r' m () with e | e <;> rw [e] at hb <;> cases hb
            exact ⟨rfl, k, rm, .inl ⟨ms, rfl⟩, h⟩
        · cases hb
  | get k rm =>
    simp only [mbody] at hb
    split at hb
    · next h => cases hb; exact ⟨rfl, k, rm, .inr rfl, h⟩
    · cases hb
  | remove k => simp only [mbody] at hb; split at hb <;> cases hb

theorem m_spin {op : MOp} {t0 : Stamp} {nw : Clock} {m m' : KV} (hb : imap.body op t0 nw m (.spin m')) : m' = m := by
  have hb : mbody op t0 nw m = some (.spin m') := hb
  cases op with
  | write k v => simp [mbody] at hb
  | getNoBlock k rm => simp only [mbody] at hb; split at hb <;> cases hb
  | getT k ms rm =>
    simp only [mbody] at hb
    split at hb
    · cases hb
    · split at hb
      · cases hb
      · split at hb
        · next r' _ =>
          split at hb
          · cases hb
          · rcases timedWait_cases (R := MRes) nw r' m () with e | e <;> rw [e] at hb <;> cases hb
            rfl
        · cases hb
  | get k rm => simp only [mbody] at hb; split at hb <;> cases hb
  | remove k => simp only [mbody] at hb; split at hb <;> cases hb

/-! ### C27 -/

/-- C27: with any number of threads and any interleaving the calls take effect one after the other exactly as on an ideal map, and the map now holds what the
ideal map holds. -/
theorem C27_linearizable {n : Nat} {now : Clock} {ok : Fin n → MOp → Prop} {s : St n KV WS MOp MRes} (h : Reach imap ok (init n now []) s) :
    mapRun (fun _ => none) (effects s.tr) = some (find s.data) := by
  refine data_invariant (fun m es => mapRun (fun _ => none) es = some (find m)) ?_ ?_ ?_ ?_ h
  · show some _ = some _
    congr 1
  · rintro t op t0 nw m m' r i o es hk hp hb
    rw [mapRun_append _ _ _ _ hp]
    rcases m_done hb with ⟨k, v, rfl, rfl, rfl, -⟩ | ⟨k, rm, v, hop, hf, rfl, rfl, -⟩ | ⟨k, v, rfl, hf, rfl, rfl, -⟩ | ⟨k, hop, hf, rfl, rfl, -⟩
    · simp [mapStep, find_store]
    · rw [find_take]
      rcases hop with rfl | ⟨ms, rfl⟩ | rfl <;> simp [mapStep, hf]
    · simp [mapStep, hf, find_erase]
    · rcases hop with ⟨rm, rfl⟩ | ⟨ms, rm, rfl⟩ | rfl <;> simp [mapStep, hf]
  · rintro t op t0 nw m m' c es hk hp hb
    rw [(m_wait hb).1]; exact hp
  · rintro t op t0 nw m m' es hk hp hb
    rw [m_spin hb]; exact hp

/-- C27: each call takes effect once, between call and return (per thread: call, effect, return, ...). -/
theorem C27_real_time {n : Nat} {now : Clock} {ok : Fin n → MOp → Prop} {s : St n KV WS MOp MRes} (h : Reach imap ok (init n now []) s) (t : Fin n) :
    Seq (s.tr.filter fun e => e.thread = t) (s.th t).phase := reach_lin h t

/-- C27: a blocking `get` returns only an element that is stored for its key at that instant. -/
theorem C27_get_returns_own_key {n : Nat} {now : Clock} {ok : Fin n → MOp → Prop} {s : St n KV WS MOp MRes} (h : Reach imap ok (init n now []) s)
    {t : Fin n} {k : Nat} {rm : Bool} {t0 : Stamp} {nw : Clock} {m : KV} {r : MRes} (he : Ev.lin t (.get k rm) t0 nw m r ∈ s.tr) :
    ∃ v, r = .found v ∧ find m k = some v := by
  refine lin_invariant (fun op t0 nw m r => ∀ k rm, op = .get k rm → ∃ v, r = .found v ∧ find m k = some v) ?_ h he k rm rfl
  rintro s hs op t0 d' r i o hb k rm rfl
  rcases m_done hb with ⟨k', v, e, -⟩ | ⟨k', rm', v, e, hf, -, rfl, -⟩ | ⟨k', v, e, -⟩ | ⟨k', e, -⟩
  · cases e
  · rcases e with e | ⟨ms, e⟩ | e <;> cases e
    exact ⟨v, rfl, hf⟩
  · cases e
  · rcases e with ⟨rm, e⟩ | ⟨ms, rm, e⟩ | e <;> cases e

/-- What a blocked `get` waits for. -/
def MReady : MOp → KV → Prop
  | .get k _, m => find m k ≠ none
  | .getT k _ _, m => find m k ≠ none
  | _, _ => False

/-- C27: no thread is left asleep in `get` while an element is stored for its key and nobody else is active. -/
theorem C27_no_lost_wakeup {n : Nat} {now : Clock} {ok : Fin n → MOp → Prop} {s : St n KV WS MOp MRes} (h : Reach imap ok (init n now []) s) (hs : Settled s)
    {t : Fin n} {k : Nat} {rm : Bool} {t0 : Stamp} (hw : s.th t = .waiting (.get k rm) t0 ()) : find s.data k = none := by
  have hinv : Announced () False MReady s := by
    refine no_lost_broadcast () False MReady (fun _ => True) (fun _ _ => trivial) (fun h => h.elim) ?_ ?_ ?_ h
    · rintro t op t0 nw m m' r i o - - hb
      have er : ∀ k op', MReady op' (erase m k) → MReady op' m := by
        intro k op' hr
        cases op' with
        | get j rm =>
          simp only [MReady, find_erase] at hr ⊢
          by_cases q : j = k
          · subst q; simp at hr
          · rw [Function.update_of_ne q] at hr; exact hr
        | getT j ms rm =>
          simp only [MReady, find_erase] at hr ⊢
          by_cases q : j = k
          · subst q; simp at hr
          · rw [Function.update_of_ne q] at hr; exact hr
        | _ => exact hr
      rcases m_done hb with ⟨k, v, rfl, rfl, rfl, rfl, rfl⟩ | ⟨k, rm, v, hop, hf, rfl, rfl, rfl, rfl⟩ | ⟨k, v, rfl, hf, rfl, rfl, rfl, rfl⟩ | ⟨k, hop, hf, rfl, rfl, rfl, rfl⟩
      · exact .inl ⟨.all (), by simp, rfl⟩
      · right
        cases rm
        · exact fun _ h => h
        · exact er k
      · exact .inr (er k)
      · exact .inr (fun _ h => h)
    · rintro t op t0 nw m m' c - - hb
      obtain ⟨rfl, k, rm, hop, hf⟩ := m_wait hb
      refine ⟨fun _ hr => ?_, fun _ h => h⟩
      rcases hop with ⟨ms, rfl⟩ | rfl <;> exact hr hf
    · rintro t op t0 nw m m' - - hb op' hr
      rw [m_spin hb] at hr; exact hr
  have := settled_announced hinv hs hw
  simpa [MReady] using this

/-! ### Ownership -/

/-- Elements handed to the map. -/
def mWritten : List (MOp × MRes) → List Val
  | [] => []
  | (.write _ v, _) :: es => v :: mWritten es
  | _ :: es => mWritten es

/-- Elements destroyed: replaced by a write, or removed by `remove` (what `vdelete` makes of them, `Interthread.h:475, 552`). -/
def mDestroyed : List (MOp × MRes) → List Val
  | [] => []
  | (.write _ _, .wrote (some v)) :: es => vdeleteDerived v ++ mDestroyed es
  | (.remove _, .deleted v) :: es => vdeleteDerived v ++ mDestroyed es
  | _ :: es => mDestroyed es

/-- Elements handed back: taken out by a `get` with removal. -/
def mHanded : List (MOp × MRes) → List Val
  | [] => []
  | (.getNoBlock _ true, .found v) :: es => v :: mHanded es
  | (.getT _ _ true, .found v) :: es => v :: mHanded es
  | (.get _ true, .found v) :: es => v :: mHanded es
  | _ :: es => mHanded es

theorem mWritten_append (a b : List (MOp × MRes)) : mWritten (a ++ b) = mWritten a ++ mWritten b := by
  induction a with
  | nil => rfl
  | cons e a ih => obtain ⟨op, r⟩ := e; cases op <;> simp [mWritten, ih]

theorem mDestroyed_append (a b : List (MOp × MRes)) : mDestroyed (a ++ b) = mDestroyed a ++ mDestroyed b := by
  induction a with
  | nil => rfl
  | cons e a ih =>
    obtain ⟨op, r⟩ := e
    cases op <;> cases r <;> simp [mDestroyed, vdeleteDerived, ih]
    next old => cases old <;> simp [mDestroyed, vdeleteDerived, ih]

theorem mHanded_append (a b : List (MOp × MRes)) : mHanded (a ++ b) = mHanded a ++ mHanded b := by
  induction a with
  | nil => rfl
  | cons e a ih =>
    obtain ⟨op, r⟩ := e
    cases op <;> cases r <;> simp [mHanded, ih]
    all_goals (rename_i rm v; cases rm <;> simp [mHanded, ih])

/-- Each key at most once. -/
def Keys (m : KV) : Prop := (m.map Prod.fst).Nodup

theorem keys_erase {m : KV} (h : Keys m) (k : Nat) : Keys (erase m k) := by
  unfold Keys erase at *
  exact h.sublist (List.Sublist.map _ List.filter_sublist)

theorem keys_store {m : KV} (h : Keys m) (k : Nat) (v : Val) : Keys (store m k v) := by
  unfold store
  refine List.nodup_cons.mpr ⟨?_, keys_erase h k⟩
  simp [erase]

theorem perm_erase_found {m : KV} (h : Keys m) {k : Nat} {v : Val} (hf : find m k = some v) : (v :: (erase m k).map Prod.snd).Perm (m.map Prod.snd) := by
  unfold find erase Keys at *
  induction m with
  | nil => cases hf
  | cons e m ih =>
    obtain ⟨a, b⟩ := e
    simp only [List.map_cons, List.nodup_cons] at h
    by_cases q : k = a
    · subst q
      simp [List.lookup] at hf
      subst hf
      have : List.filter (fun e : Nat × Val => decide (e.1 ≠ k)) m = m := by
        rw [List.filter_eq_self]
        intro e he
        have : e.1 ≠ k := by rintro rfl; exact h.1 (List.mem_map.mpr ⟨e, he, rfl⟩)
        simpa using this
      rw [List.filter_cons_of_neg (by simp), this]
      exact List.Perm.refl _
    · have hq : (k == a) = false := by simp [q]
      simp only [List.lookup, hq] at hf
      rw [List.filter_cons_of_pos (by simp; intro h; exact q h.symm)]
      simp only [List.map_cons]
      exact (List.Perm.swap _ _ _).trans ((ih h.2 hf).cons b)

theorem erase_not_found {m : KV} {k : Nat} (hf : find m k = none) : erase m k = m := by
  unfold find erase at *
  rw [List.filter_eq_self]
  intro e he
  rw [List.lookup_eq_none_iff] at hf
  have := hf e he
  simp at this ⊢
  exact fun h => this h.symm

/-- The books: everything handed to the map is in the map, was destroyed, or was handed back. -/
def Books (m : KV) (es : List (MOp × MRes)) : Prop := Keys m ∧ (m.map Prod.snd ++ mDestroyed es ++ mHanded es).Perm (mWritten es)

theorem books_step {op : MOp} {t0 : Stamp} {nw : Clock} {m m' : KV} {r : MRes} {i o : List (Sig WS)} {es : List (MOp × MRes)} (h : Books m es)
    (hb : imap.body op t0 nw m (.done m' r i o)) : Books m' (es ++ [(op, r)]) := by
  obtain ⟨hk, hp⟩ := h
  unfold Books
  rw [mDestroyed_append, mHanded_append, mWritten_append]
  have comm : ∀ (v : Val) (a b c w : List Val), (v :: a ++ b ++ c).Perm w → (a ++ (b ++ [v]) ++ c).Perm w := by
    intro v a b c w h
    refine List.Perm.trans ?_ h
    have e : (a ++ (b ++ [v])).Perm (v :: a ++ b) := by
      rw [← List.append_assoc]; exact List.perm_append_comm
    exact e.append_right c
  have comm' : ∀ (v : Val) (a b c w : List Val), (v :: a ++ b ++ c).Perm w → (a ++ b ++ (c ++ [v])).Perm w := by
    intro v a b c w h
    refine List.Perm.trans ?_ h
    rw [← List.append_assoc]
    exact List.perm_append_comm
  have pre : ∀ (v : Val) (a a' b c w : List Val), (v :: a').Perm a → (a ++ b ++ c).Perm w → (v :: a' ++ b ++ c).Perm w := by
    intro v a a' b c w h1 h2
    exact List.Perm.trans ((h1.append_right b).append_right c) h2
  rcases m_done hb with ⟨k, v, rfl, rfl, rfl, -⟩ | ⟨k, rm, v, hop, hf, rfl, rfl, -⟩ | ⟨k, v, rfl, hf, rfl, rfl, -⟩ | ⟨k, hop, hf, rfl, rfl, -⟩
  · refine ⟨keys_store hk k v, ?_⟩
    cases hf : find m k with
    | none =>
      simp only [mDestroyed, mHanded, mWritten, store, erase_not_found hf, List.append_nil, List.map_cons]
      exact (hp.cons v).trans (List.perm_append_comm (l₁ := [v]))
    | some w =>
      simp only [mDestroyed, vdeleteDerived, mHanded, mWritten, store, List.append_nil, List.map_cons]
      have h1 := comm w _ _ _ _ (pre w _ _ _ _ _ (perm_erase_found hk hf) hp)
      exact (h1.cons v).trans (List.perm_append_comm (l₁ := [v]))
  · cases rm
    · refine ⟨hk, ?_⟩
      rcases hop with rfl | ⟨ms, rfl⟩ | rfl <;> simpa [mDestroyed, vdeleteDerived, mHanded, mWritten, takeM] using hp
    · refine ⟨keys_erase hk k, ?_⟩
      have h1 := comm' v _ _ _ _ (pre v _ _ _ _ _ (perm_erase_found hk hf) hp)
      rcases hop with rfl | ⟨ms, rfl⟩ | rfl <;> simpa [mDestroyed, vdeleteDerived, mHanded, mWritten, takeM] using h1
  · refine ⟨keys_erase hk k, ?_⟩
    have h1 := comm v _ _ _ _ (pre v _ _ _ _ _ (perm_erase_found hk hf) hp)
    simpa [mDestroyed, vdeleteDerived, mHanded, mWritten] using h1
  · refine ⟨hk, ?_⟩
    rcases hop with ⟨rm, rfl⟩ | ⟨ms, rm, rfl⟩ | rfl <;> simpa [mDestroyed, vdeleteDerived, mHanded, mWritten] using hp

/-- C27 (ownership), partial: while the map lives, if no pointer is handed to it twice, every element handed to it is in exactly one of three places and there once:
in the map, destroyed, or handed back.  Missing: the destructor, see `C27_destructor_refuted`. -/
theorem C27_ownership_partial {n : Nat} {now : Clock} {ok : Fin n → MOp → Prop} {s : St n KV WS MOp MRes} (h : Reach imap ok (init n now []) s)
    (hn : (mWritten (effects s.tr)).Nodup) :
    (s.data.map Prod.snd ++ mDestroyed (effects s.tr) ++ mHanded (effects s.tr)).Nodup ∧
    ∀ v, v ∈ mWritten (effects s.tr) ↔ v ∈ s.data.map Prod.snd ∨ v ∈ mDestroyed (effects s.tr) ∨ v ∈ mHanded (effects s.tr) := by
  have hb : Books s.data (effects s.tr) := by
    refine data_invariant Books (show Books [] [] from ⟨by simp [Keys], List.Perm.refl _⟩) (fun t op t0 nw d d' r i o es hk hp hb => books_step hp hb) ?_ ?_ h
    · rintro t op t0 nw m m' c es hk hp hb
      rw [(m_wait hb).1]; exact hp
    · rintro t op t0 nw m m' es hk hp hb
      rw [m_spin hb]; exact hp
  refine ⟨hb.2.nodup_iff.mpr hn, fun v => ?_⟩
  rw [← hb.2.mem_iff]
  simp [List.mem_append]

/-- C27 (negation for the destructor): an element still in an `InterthreadMap` when it is destroyed is neither destroyed nor handed back: it is leaked.  Here thread 0
has written one element; the destructor deletes nothing. -/
theorem C27_destructor_refuted : ∃ s : St 1 KV WS MOp MRes, Reach imap (fun _ _ => True) (init 1 ⟨5, 0⟩ []) s ∧ Settled s ∧
    (some 7) ∈ mWritten (effects s.tr) ∧ (some 7) ∉ mDestroyed (effects s.tr) ++ mHanded (effects s.tr) ++ destroyMap s.data := by
  have h : (match exec mbody (init 1 ⟨5, 0⟩ []) ([.start 0 (.write 1 (some 7)), .lock 0, .body 0, .notify 0 none, .unlock 0, .ret 0] : List (Cmd 1 MOp)) with
    | some s => (match s.th 0 with
      | .idle => decide ((some 7) ∈ mWritten (effects s.tr) ∧ (some 7) ∉ mDestroyed (effects s.tr) ++ mHanded (effects s.tr) ++ destroyMap s.data)
      | _ => false)
    | none => false) = true := by decide
  split at h
  · next s hs =>
    split at h
    · next e0 =>
      refine ⟨s, exec_reach hs .refl (fun _ _ _ => trivial), ?_, of_decide_eq_true h⟩
      intro t
      have : t = 0 := by omega
      subst this
      exact .inl e0
    · cases h
  · cases h

/-- C27: a rich execution meeting the hypotheses: an element is replaced (destroyed), one is taken out, a third stays, while thread 1 waits for another key. -/
def mapSchedule : List (Cmd 2 MOp) :=
  [.start 1 (.get 4 true), .lock 1, .body 1,
   .start 0 (.write 1 (some 7)), .lock 0, .body 0, .notify 0 none, .unlock 0, .ret 0,
   .start 0 (.write 1 (some 8)), .lock 0, .body 0, .notify 0 none, .unlock 0, .ret 0,
   .start 0 (.write 2 (some 9)), .lock 0, .body 0, .notify 0 none, .unlock 0, .ret 0,
   .start 0 (.get 2 true), .lock 0, .body 0, .unlock 0, .ret 0, .relock 1, .body 1]

example : ∃ s : St 2 KV WS MOp MRes, Reach imap (fun _ _ => True) (init 2 ⟨5, 0⟩ []) s ∧ Settled s ∧ s.th 1 = .waiting (.get 4 true) ⟨⟨5, 0⟩, ⟨5, 0⟩⟩ () ∧
    (mWritten (effects s.tr)).Nodup ∧ s.data = [(1, some 8)] ∧ mDestroyed (effects s.tr) = [some 7] ∧ mHanded (effects s.tr) = [some 9] := by
  have h : (match exec mbody (init 2 ⟨5, 0⟩ []) mapSchedule with
    | some s => (match s.th 0, s.th 1 with
      | .idle, .waiting (.get k true) t0 () => decide (k = 4 ∧ t0 = ⟨⟨5, 0⟩, ⟨5, 0⟩⟩ ∧
          (mWritten (effects s.tr)).Nodup ∧ s.data = [(1, some 8)] ∧ mDestroyed (effects s.tr) = [some 7] ∧ mHanded (effects s.tr) = [some 9])
      | _, _ => false)
    | none => false) = true := by decide
  split at h
  · next s hs =>
    split at h
    · next e0 e1 =>
      obtain ⟨rfl, rfl, hd⟩ := of_decide_eq_true h
      refine ⟨s, exec_reach hs .refl (fun _ _ _ => trivial), ?_, e1, hd⟩
      intro t
      have : t = 0 ∨ t = 1 := by omega
      rcases this with rfl | rfl
      · exact .inl e0
      · exact .inr ⟨_, _, _, e1⟩
    · cases h
  · cases h

/-- C27: why the condition: writing the same pointer twice under one key destroys the element the map still holds. -/
example : mDestroyed [(.write 1 (some 7), .wrote none), (.write 1 (some 7), .wrote (some (some 7)))] = [some 7] ∧
    find (store (store [] 1 (some 7)) 1 (some 7)) 1 = some (some 7) := by decide

end Verif.Interthread
