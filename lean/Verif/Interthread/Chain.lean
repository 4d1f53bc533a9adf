import Verif.Interthread.QueueProps

/-
Property C163: a chain of `InterthreadQueue`s (`/repo/Interthread.h:113-322`), with one thread between each queue and the next that does
`next.write(this.read())` for ever.
-/

namespace Verif.Interthread.Chain
open Verif Verif.Monitor Verif.Interthread

abbrev S (n : Nat) := St n (List Val) WS QOp QRes

/-! ### The programs -/

/-- Where a worker is in its loop: it reads next (or is inside that call), or it has got `v` and writes it next (or is inside that call). -/
inductive Hand where
  | reading
  | writing (v : Nat)

/-- Queues 0, 1, ..., and the workers; worker `i` goes from queue `i` to queue `i + 1`. -/
structure CS (n : Nat) where
  q : Nat → S n
  hand : Nat → Hand

/-- What the other threads may call on queue `j` of the queues 0, ..., `K`: writes on the first, reads on the last; `front` and `size` on all. -/
def Other (K j : Nat) : QOp → Prop
  | .write (some _) => j = 0
  | .read => j = K
  | .readT _ => j = K
  | .readNoBlock => j = K
  | .front => True
  | .size => True
  | _ => False

/-- Steps of the whole: any step inside a queue (`/repo/Interthread.h:246-255`, 296-311 as in `Verif.Interthread.Queue`); the workers begin and end their calls as
their loop says. Thread `w i` is worker `i`. Simplification: each queue has its own reading of the clock. -/
inductive CStep {n : Nat} (w : Nat → Fin n) (K : Nat) : CS n → CS n → Prop where
  | other (c j l s') : Step queue (c.q j) l s' → (∀ i < K, (∀ op, l ≠ .start (w i) op) ∧ l ≠ .ret (w i)) → (∀ t op, l = .start t op → Other K j op) →
      CStep w K c { c with q := Function.update c.q j s' }
  | readCall (c i s') : i < K → c.hand i = .reading → Step queue (c.q i) (.start (w i) .read) s' → CStep w K c { c with q := Function.update c.q i s' }
  | readRet (c i v s') : i < K → (c.q i).th (w i) = .after .read (.ptr (some v)) [] → Step queue (c.q i) (.ret (w i)) s' →
      CStep w K c { q := Function.update c.q i s', hand := Function.update c.hand i (.writing v) }
  | writeCall (c i v s') : i < K → c.hand i = .writing v → Step queue (c.q (i + 1)) (.start (w i) (.write (some v))) s' →
      CStep w K c { c with q := Function.update c.q (i + 1) s' }
  | writeRet (c i s') : i < K → Step queue (c.q (i + 1)) (.ret (w i)) s' →
      CStep w K c { q := Function.update c.q (i + 1) s', hand := Function.update c.hand i .reading }

/-- All queues empty, all threads outside. -/
def start (n : Nat) (now : Clock) : CS n := ⟨fun _ => init n now [], fun _ => .reading⟩

inductive CReach {n : Nat} (w : Nat → Fin n) (K : Nat) (now : Clock) : CS n → Prop where
  | refl : CReach w K now (start n now)
  | step {c c'} : CReach w K now c → CStep w K c c' → CReach w K now c'

/-! ### Each queue on its own -/

/-- Who calls what on queue `j`. -/
def Ok {n : Nat} (w : Nat → Fin n) (K j : Nat) (t : Fin n) (op : QOp) : Prop :=
  (∀ i < K, t = w i → (j = i ∧ op = .read) ∨ (j = i + 1 ∧ ∃ v, op = .write (some v))) ∧ ((∀ i < K, t ≠ w i) → Other K j op)

theorem Ok.nonNull {n : Nat} {w : Nat → Fin n} {K j : Nat} {t : Fin n} {op : QOp} (h : Ok w K j t op) : NonNull op := by
  by_cases ht : ∀ i < K, t ≠ w i
  · have := h.2 ht
    cases op with
    | write v => cases v with
      | none => exact this.elim
      | some v => exact fun h => nomatch h
    | writeFront v => exact this.elim
    | _ => trivial
  · push Not at ht
    obtain ⟨i, hi, e⟩ := ht
    rcases h.1 i hi e with ⟨-, rfl⟩ | ⟨-, v, rfl⟩
    · trivial
    · exact fun h => nomatch h

theorem each {n : Nat} {w : Nat → Fin n} {K : Nat} (hw : ∀ i < K, ∀ j < K, w i = w j → i = j) {now : Clock} {c : CS n} (h : CReach w K now c) (j : Nat) :
    Reach queue (Ok w K j) (init n now []) (c.q j) := by
  induction h with
  | refl => exact .refl
  | @step c c' h st ih =>
    have upd : ∀ (k : Nat) (l : Lbl n QOp) (s' : S n), Step queue (c.q k) l s' → (∀ t op, l = .start t op → Ok w K k t op) →
        Reach queue (Ok w K j) (init n now []) (Function.update c.q k s' j) := by
      intro k l s' st hl
      by_cases e : j = k
      · subst e; rw [Function.update_self]; exact ih.step st hl
      · rw [Function.update_of_ne e]; exact ih
    cases st with
    | other k l s' st hn ho =>
      refine upd k l s' st (fun t op e => ⟨fun i hi et => ?_, fun _ => ho t op e⟩)
      subst et
      exact absurd e ((hn i hi).1 op)
    | readCall i s' hi hh st =>
      refine upd i _ s' st (fun t op e => ?_)
      cases e
      exact ⟨fun i' hi' et => .inl ⟨hw i hi i' hi' et, rfl⟩, fun ht => absurd rfl (ht i hi)⟩
    | readRet i v s' hi he st => exact upd i _ s' st (fun t op e => by cases e)
    | writeCall i v s' hi hh st =>
      refine upd (i + 1) _ s' st (fun t op e => ?_)
      cases e
      exact ⟨fun i' hi' et => .inr ⟨by rw [hw i hi i' hi' et], v, rfl⟩, fun ht => absurd rfl (ht i hi)⟩
    | writeRet i s' hi st => exact upd (i + 1) _ s' st (fun t op e => by cases e)

/-! ### What a step looks like from outside -/

/-- The call a thread is inside of, and its result once it has taken effect. -/
def view {C Op R : Type} : TS C Op R → Option (Op × Option R)
  | .idle => none
  | .entering op _ => some (op, none)
  | .holding op _ => some (op, none)
  | .waiting op _ _ => some (op, none)
  | .waking op _ => some (op, none)
  | .inLock op r _ _ => some (op, some r)
  | .after op r _ => some (op, some r)

theorem view_wake {C Op R : Type} [DecidableEq C] (c : C) (x : TS C Op R) : view (x.wake c) = view x := by
  cases x with
  | waiting op t0 c' =>
    simp only [TS.wake]
    split <;> rfl
  | _ => rfl

theorem step_view {n : Nat} {s s' : S n} {l : Lbl n QOp} (st : Step queue s l s') :
    (effects s'.tr = effects s.tr ∧ (∀ u, view (s'.th u) = view (s.th u)) ∧ (∀ t op, l ≠ .start t op) ∧ ∀ t, l ≠ .ret t) ∨
    (∃ t op, l = .start t op ∧ effects s'.tr = effects s.tr ∧ view (s.th t) = none ∧ view (s'.th t) = some (op, none) ∧ ∀ u, u ≠ t → view (s'.th u) = view (s.th u)) ∨
    (∃ t op r, l = .body t ∧ effects s'.tr = effects s.tr ++ [(op, r)] ∧ view (s.th t) = some (op, none) ∧ view (s'.th t) = some (op, some r) ∧
      (∀ u, u ≠ t → view (s'.th u) = view (s.th u)) ∧ ∃ t0 nw d d' i o, qbody op t0 nw d = some (.done d' r i o)) ∨
    (∃ t op r, l = .ret t ∧ effects s'.tr = effects s.tr ∧ s.th t = .after op r [] ∧ view (s'.th t) = none ∧ ∀ u, u ≠ t → view (s'.th u) = view (s.th u)) := by
  have one : ∀ (t : Fin n) (x : TS WS QOp QRes), view x = view (s.th t) → ∀ u, view (Function.update s.th t x u) = view (s.th u) := by
    intro t x hx u
    by_cases q : u = t
    · subst q; rw [upd_same]; exact hx
    · rw [upd_ne _ _ _ _ q]
  have ne : ∀ (t : Fin n) (x : TS WS QOp QRes) (u : Fin n), u ≠ t → view (Function.update s.th t x u) = view (s.th u) := by
    intro t x u q
    rw [upd_ne _ _ _ _ q]
  have two : ∀ (t u : Fin n) (x y : TS WS QOp QRes), view x = view (s.th t) → view y = view (s.th u) →
      ∀ v, view (Function.update (Function.update s.th t x) u y v) = view (s.th v) := by
    intro t u x y hx hy v
    by_cases q : v = u
    · subst q; rw [upd_same]; exact hy
    · rw [upd_ne _ _ _ _ q]; exact one t x hx v
  cases st with
  | start t op e => exact .inr (.inl ⟨t, op, rfl, by simp [effects_append, effects], (by rw [e]; rfl), (by dsimp only; rw [upd_same]; rfl), ne t _⟩)
  | lock t op t0 e ho => exact .inl ⟨rfl, one t _ (by rw [e]; rfl), (by intro _ _ h; cases h), (by intro _ h; cases h)⟩
  | bodyDone t op t0 d r i o e ho hb =>
    exact .inr (.inr (.inl ⟨t, op, r, rfl, by simp [effects_append, effects], (by rw [e]; rfl), (by dsimp only; rw [upd_same]; rfl), ne t _, t0, s.now, s.data, d, i, o, hb⟩))
  | bodyWait t op t0 d c e ho hb => exact .inl ⟨rfl, one t _ (by rw [e]; rfl), (by intro _ _ h; cases h), (by intro _ h; cases h)⟩
  | bodySpin t op t0 d e ho hb => exact .inl ⟨rfl, fun _ => rfl, (by intro _ _ h; cases h), (by intro _ h; cases h)⟩
  | spurious t op t0 c e => exact .inl ⟨rfl, one t _ (by rw [e]; rfl), (by intro _ _ h; cases h), (by intro _ h; cases h)⟩
  | relock t op t0 e ho => exact .inl ⟨rfl, one t _ (by rw [e]; rfl), (by intro _ _ h; cases h), (by intro _ h; cases h)⟩
  | signalIn t op r c i o u op' t0 e e' => exact .inl ⟨rfl, two t u _ _ (by rw [e]; rfl) (by rw [e']; rfl), (by intro _ _ h; cases h), (by intro _ h; cases h)⟩
  | signalInNone t op r c i o e hn => exact .inl ⟨rfl, one t _ (by rw [e]; rfl), (by intro _ _ h; cases h), (by intro _ h; cases h)⟩
  | bcastIn t op r c i o e =>
    refine .inl ⟨rfl, fun u => ?_, (by intro _ _ h; cases h), (by intro _ h; cases h)⟩
    dsimp only
    by_cases q : u = t
    · subst q; rw [upd_same, e]; rfl
    · rw [upd_ne _ _ _ _ q, view_wake]
  | unlock t op r o e ho => exact .inl ⟨rfl, one t _ (by rw [e]; rfl), (by intro _ _ h; cases h), (by intro _ h; cases h)⟩
  | signalOut t op r c o u op' t0 e e' => exact .inl ⟨rfl, two t u _ _ (by rw [e]; rfl) (by rw [e']; rfl), (by intro _ _ h; cases h), (by intro _ h; cases h)⟩
  | signalOutNone t op r c o e hn => exact .inl ⟨rfl, one t _ (by rw [e]; rfl), (by intro _ _ h; cases h), (by intro _ h; cases h)⟩
  | bcastOut t op r c o e =>
    refine .inl ⟨rfl, fun u => ?_, (by intro _ _ h; cases h), (by intro _ h; cases h)⟩
    dsimp only
    by_cases q : u = t
    · subst q; rw [upd_same, e]; rfl
    · rw [upd_ne _ _ _ _ q, view_wake]
  | ret t op r e => exact .inr (.inr (.inr ⟨t, op, r, rfl, by simp [effects_append, effects], e, (by dsimp only; rw [upd_same]; rfl), ne t _⟩))
  | tick now => exact .inl ⟨rfl, fun _ => rfl, (by intro _ _ h; cases h), (by intro _ h; cases h)⟩

/-! ### The invariant -/

theorem delivered_append (a b : List (QOp × QRes)) : delivered (a ++ b) = delivered a ++ delivered b := by
  induction a with
  | nil => rfl
  | cons e a ih =>
    obtain ⟨op, r⟩ := e
    cases op <;> (try exact ih) <;> cases r <;> (try exact ih) <;> next v => cases v <;> simp [delivered, ih]

theorem written_append (a b : List (QOp × QRes)) : written (a ++ b) = written a ++ written b := by
  induction a with
  | nil => rfl
  | cons e a ih =>
    obtain ⟨op, r⟩ := e
    cases op <;> (try exact ih) <;> next v => cases v <;> simp [written, ih]

/-- What worker `i` has taken out of its queue and not yet put into the next one. -/
def held {n : Nat} (w : Nat → Fin n) (c : CS n) (i : Nat) : List Nat :=
  match c.hand i, view ((c.q i).th (w i)), view ((c.q (i + 1)).th (w i)) with
  | .reading, some (_, some (.ptr (some v))), _ => [v]
  | .reading, _, _ => []
  | .writing _, _, some (_, some _) => []
  | .writing v, _, _ => [v]

/-- What was taken from queue `i` so far, and what was put into it. -/
def taken {n : Nat} (c : CS n) (i : Nat) : List Nat := delivered (effects (c.q i).tr)
def put {n : Nat} (c : CS n) (i : Nat) : List Nat := written (effects (c.q i).tr)

/-- Where worker `i` can be, and what it has. -/
inductive At : Hand → Option (QOp × Option QRes) → Option (QOp × Option QRes) → List Nat → Prop where
  | toRead : At .reading none none []
  | read0 : At .reading (some (.read, none)) none []
  | read1 (v) : At .reading (some (.read, some (.ptr (some v)))) none [v]
  | toWrite (v) : At (.writing v) none none [v]
  | write0 (v) : At (.writing v) none (some (.write (some v), none)) [v]
  | write1 (v r) : At (.writing v) none (some (.write (some v), some r)) []

def Inv {n : Nat} (w : Nat → Fin n) (c : CS n) (i : Nat) : Prop :=
  ∃ l, At (c.hand i) (view ((c.q i).th (w i))) (view ((c.q (i + 1)).th (w i))) l ∧ taken c i = put c (i + 1) ++ l

theorem At.held {n : Nat} {w : Nat → Fin n} {c : CS n} {i : Nat} {l : List Nat}
    (h : At (c.hand i) (view ((c.q i).th (w i))) (view ((c.q (i + 1)).th (w i))) l) : held w c i = l := by
  unfold Chain.held
  revert h
  generalize c.hand i = a
  generalize view ((c.q i).th (w i)) = b
  generalize view ((c.q (i + 1)).th (w i)) = d
  intro h
  cases h <;> rfl

/-- A read that is not the worker's is not in queue `i`, a write that is not the worker's not in queue `i + 1`. -/
theorem not_read {n : Nat} {w : Nat → Fin n} {K i : Nat} (hi : i < K) {t : Fin n} {op : QOp} {r : QRes} (h : Ok w K i t op) (ht : t ≠ w i) : delivered [(op, r)] = [] := by
  by_cases hn : ∀ i' < K, t ≠ w i'
  · have := h.2 hn
    cases op <;> first | rfl | exact absurd this (by simp only [Other]; omega)
  · push Not at hn
    obtain ⟨i', hi', e⟩ := hn
    rcases h.1 i' hi' e with ⟨rfl, -⟩ | ⟨-, v, rfl⟩
    · exact absurd e ht
    · rfl

theorem not_write {n : Nat} {w : Nat → Fin n} {K i : Nat} {t : Fin n} {op : QOp} {r : QRes} (h : Ok w K (i + 1) t op) (ht : t ≠ w i) : written [(op, r)] = [] := by
  by_cases hn : ∀ i' < K, t ≠ w i'
  · have := h.2 hn
    cases op with
    | write v => cases v with
      | none => rfl
      | some v => exact absurd this (by simp [Other])
    | writeFront v => exact this.elim
    | _ => rfl
  · push Not at hn
    obtain ⟨i', hi', e⟩ := hn
    rcases h.1 i' hi' e with ⟨-, rfl⟩ | ⟨h1, v, rfl⟩
    · rfl
    · have : i = i' := by omega
      subst this
      exact absurd e ht

theorem allOk_view {n : Nat} {ok : Fin n → QOp → Prop} {s : S n} (h : AllOk ok s.th) {t : Fin n} {op : QOp} {r : Option QRes} (e : view (s.th t) = some (op, r)) : ok t op := by
  refine h t op ?_
  revert e
  cases s.th t <;> intro e <;> cases e <;> rfl

theorem read_done {t0 : Stamp} {nw : Clock} {d d' : List Val} {r : QRes} {i o : List (Sig WS)} (h : qbody .read t0 nw d = some (.done d' r i o)) : ∃ v, r = .ptr (some v) := by
  simp only [qbody] at h
  split at h
  · cases h
  · next hne =>
    cases h
    cases e : (getQ d).1 with
    | none => exact absurd e hne
    | some v => exact ⟨v, rfl⟩

theorem inv {n : Nat} {w : Nat → Fin n} {K : Nat} (hw : ∀ i < K, ∀ j < K, w i = w j → i = j) {now : Clock} {c : CS n} (h : CReach w K now c) : ∀ i < K, Inv w c i := by
  induction h with
  | refl => exact fun i hi => ⟨[], .toRead, rfl⟩
  | @step c c' h st ih =>
    intro i hi
    obtain ⟨l, ha, he⟩ := ih i hi
    have ok := fun j => reach_ok (each hw h j)
    -- a step in queue `i` or `i + 1`, or in some other queue
    have q_same : ∀ (j : Nat) (s' : S n), j = i → Function.update c.q j s' i = s' ∧ Function.update c.q j s' (i + 1) = c.q (i + 1) := by
      rintro j s' rfl
      exact ⟨Function.update_self .., Function.update_of_ne (by omega) ..⟩
    have q_next : ∀ (j : Nat) (s' : S n), j = i + 1 → Function.update c.q j s' (i + 1) = s' ∧ Function.update c.q j s' i = c.q i := by
      rintro j s' rfl
      exact ⟨Function.update_self .., Function.update_of_ne (by omega) ..⟩
    -- nothing that concerns worker `i`
    have foreign : ∀ (j : Nat) (s' : S n) (hd : Nat → Hand), effects s'.tr = effects (c.q j).tr → view (s'.th (w i)) = view ((c.q j).th (w i)) → hd i = c.hand i →
        Inv w ⟨Function.update c.q j s', hd⟩ i := by
      intro j s' hd v1 v2 v3
      unfold Inv taken put
      dsimp only
      rw [v3]
      by_cases e1 : j = i
      · obtain ⟨g1, g2⟩ := q_same j s' e1
        subst e1
        rw [g1, g2, v1, v2]
        exact ⟨l, ha, he⟩
      · by_cases e2 : j = i + 1
        · obtain ⟨g1, g2⟩ := q_next j s' e2
          subst e2
          rw [g1, g2, v1, v2]
          exact ⟨l, ha, he⟩
        · rw [Function.update_of_ne (fun h => e1 h.symm), Function.update_of_ne (fun h => e2 h.symm)]
          exact ⟨l, ha, he⟩
    cases st with
    | other j lb s' st hn ho =>
      obtain ⟨hns, hnr⟩ := hn i hi
      by_cases e1 : j = i
      · obtain ⟨g1, g2⟩ := q_same j s' e1
        subst e1
        unfold Inv taken put
        dsimp only
        rw [g1, g2]
        rcases step_view st with ⟨v1, v2, -, -⟩ | ⟨t, op, rfl, v1, -, -, v2⟩ | ⟨t, op, r, rfl, v1, v2, v3, v4, t0, nw, d, d', i', o', hb⟩ | ⟨t, op, r, rfl, v1, -, -, v2⟩
        · rw [v1, v2]; exact ⟨l, ha, he⟩
        · rw [v1, v2 _ (by rintro rfl; exact hns op rfl)]; exact ⟨l, ha, he⟩
        · have hok := allOk_view (ok j) v2
          by_cases q : t = w j
          · subst q
            rcases hok.1 j hi rfl with ⟨-, rfl⟩ | ⟨h, -⟩
            · obtain ⟨v, rfl⟩ := read_done hb
              rw [v1, v3, delivered_append]
              rw [v2] at ha
              revert ha
              generalize c.hand j = a at *
              generalize view ((c.q (j + 1)).th (w j)) = b at *
              intro ha
              cases ha
              exact ⟨[v], .read1 v, by rw [show delivered _ = _ from he]; simp [put, delivered]⟩
            · omega
          · rw [v1, v4 _ (fun h => q h.symm), delivered_append, not_read hi hok q, List.append_nil]; exact ⟨l, ha, he⟩
        · rw [v1, v2 _ (by rintro rfl; exact hnr rfl)]; exact ⟨l, ha, he⟩
      · by_cases e2 : j = i + 1
        · obtain ⟨g1, g2⟩ := q_next j s' e2
          subst e2
          unfold Inv taken put
          dsimp only
          rw [g1, g2]
          rcases step_view st with ⟨v1, v2, -, -⟩ | ⟨t, op, rfl, v1, -, -, v2⟩ | ⟨t, op, r, rfl, v1, v2, v3, v4, t0, nw, d, d', i', o', hb⟩ | ⟨t, op, r, rfl, v1, -, -, v2⟩
          · rw [v1, v2]; exact ⟨l, ha, he⟩
          · rw [v1, v2 _ (by rintro rfl; exact hns op rfl)]; exact ⟨l, ha, he⟩
          · have hok := allOk_view (ok (i + 1)) v2
            by_cases q : t = w i
            · subst q
              rcases hok.1 i hi rfl with ⟨h, -⟩ | ⟨-, v, rfl⟩
              · omega
              · rw [v1, v3, written_append]
                rw [v2] at ha
                revert ha
                generalize c.hand i = a at *
                generalize view ((c.q i).th (w i)) = b at *
                intro ha
                cases ha
                exact ⟨[], .write1 v r, by rw [show delivered _ = _ from he]; simp [put, written]⟩
            · rw [v1, v4 _ (fun h => q h.symm), written_append, not_write hok q, List.append_nil]; exact ⟨l, ha, he⟩
          · rw [v1, v2 _ (by rintro rfl; exact hnr rfl)]; exact ⟨l, ha, he⟩
        · unfold Inv taken put
          dsimp only
          rw [Function.update_of_ne (fun h => e1 h.symm), Function.update_of_ne (fun h => e2 h.symm)]
          exact ⟨l, ha, he⟩
    | readCall k s' hk hh st =>
      rcases step_view st with ⟨-, -, h, -⟩ | ⟨t, op, h, v1, v2, v3, v4⟩ | ⟨t, op, r, h, -⟩ | ⟨t, op, r, h, -⟩
      · exact absurd rfl (h _ _)
      · cases h
        by_cases q : k = i
        · subst q
          obtain ⟨g1, g2⟩ := q_same k s' rfl
          unfold Inv taken put
          dsimp only
          rw [g1, g2, v1, v3, hh]
          rw [v2, hh] at ha
          generalize view ((c.q (k + 1)).th (w k)) = b at *
          cases ha
          exact ⟨[], .read0, he⟩
        · exact foreign k s' c.hand v1 (v4 _ fun h => q (hw k hk i hi h.symm)) rfl
      · cases h
      · cases h
    | readRet k v s' hk hth st =>
      rcases step_view st with ⟨-, -, -, h⟩ | ⟨t, op, h, -⟩ | ⟨t, op, r, h, -⟩ | ⟨t, op, r, h, v1, v2, v3, v4⟩
      · exact absurd rfl (h _)
      · cases h
      · cases h
      · cases h
        by_cases q : k = i
        · subst q
          obtain ⟨g1, g2⟩ := q_same k s' rfl
          unfold Inv taken put
          dsimp only
          rw [g1, g2, v1, v3, Function.update_self]
          rw [hth] at ha
          generalize view ((c.q (k + 1)).th (w k)) = b at *
          simp only [view] at ha
          generalize c.hand k = a at *
          cases ha
          exact ⟨[v], .toWrite v, he⟩
        · exact foreign k s' _ v1 (v4 _ fun h => q (hw k hk i hi h.symm)) (Function.update_of_ne (fun h => q h.symm) ..)
    | writeCall k v s' hk hh st =>
      rcases step_view st with ⟨-, -, h, -⟩ | ⟨t, op, h, v1, v2, v3, v4⟩ | ⟨t, op, r, h, -⟩ | ⟨t, op, r, h, -⟩
      · exact absurd rfl (h _ _)
      · cases h
        by_cases q : k = i
        · subst q
          obtain ⟨g1, g2⟩ := q_next (k + 1) s' rfl
          unfold Inv taken put
          dsimp only
          rw [g1, g2, v1, v3, hh]
          rw [v2, hh] at ha
          generalize view ((c.q k).th (w k)) = b at *
          cases ha
          exact ⟨[v], .write0 v, he⟩
        · exact foreign (k + 1) s' c.hand v1 (v4 _ fun h => q (hw k hk i hi h.symm)) rfl
      · cases h
      · cases h
    | writeRet k s' hk st =>
      rcases step_view st with ⟨-, -, -, h⟩ | ⟨t, op, h, -⟩ | ⟨t, op, r, h, -⟩ | ⟨t, op, r, h, v1, v2, v3, v4⟩
      · exact absurd rfl (h _)
      · cases h
      · cases h
      · cases h
        by_cases q : k = i
        · subst q
          obtain ⟨g1, g2⟩ := q_next (k + 1) s' rfl
          unfold Inv taken put
          dsimp only
          rw [g1, g2, v1, v3, Function.update_self]
          rw [v2] at ha
          generalize view ((c.q k).th (w k)) = b at *
          simp only [view] at ha
          generalize c.hand k = a at *
          cases ha
          exact ⟨[], .toRead, he⟩
        · exact foreign (k + 1) s' _ v1 (v4 _ fun h => q (hw k hk i hi h.symm)) (Function.update_of_ne (fun h => q h.symm) ..)

theorem plain_append (a b : List (QOp × QRes)) : Plain (a ++ b) ↔ Plain a ∧ Plain b := by
  induction a with
  | nil => simp [Plain]
  | cons e a ih =>
    obtain ⟨op, r⟩ := e
    cases op <;> simp [Plain, ih]

theorem plain {n : Nat} {w : Nat → Fin n} {K : Nat} (hw : ∀ i < K, ∀ j < K, w i = w j → i = j) {now : Clock} {c : CS n} (h : CReach w K now c) (j : Nat) :
    Plain (effects (c.q j).tr) := by
  have key := each hw h j
  generalize c.q j = s at key
  refine Reach.induct (s0 := init n now []) (fun s => Plain (effects s.tr)) (show Plain [] from trivial) ?_ key
  intro s l s' hs hp st _
  rcases step_view st with ⟨v1, -⟩ | ⟨t, op, -, v1, -⟩ | ⟨t, op, r, -, v1, v2, -⟩ | ⟨t, op, r, -, v1, -⟩
  · rw [v1]; exact hp
  · rw [v1]; exact hp
  · rw [v1, plain_append]
    refine ⟨hp, ?_⟩
    have hok := allOk_view (reach_ok hs) v2
    by_cases hn : ∀ i' < K, t ≠ w i'
    · have := hok.2 hn
      cases op <;> trivial
    · push Not at hn
      obtain ⟨i', hi', e⟩ := hn
      rcases hok.1 i' hi' e with ⟨-, rfl⟩ | ⟨-, v, rfl⟩ <;> trivial
  · rw [v1]; exact hp

/-- Each queue holds what was put in and not taken. -/
theorem queue_holds {n : Nat} {w : Nat → Fin n} {K : Nat} (hw : ∀ i < K, ∀ j < K, w i = w j → i = j) {now : Clock} {c : CS n} (h : CReach w K now c) (j : Nat) :
    (taken c j).map some ++ (c.q j).data = (put c j).map some :=
  C22_fifo ((each hw h j).mono fun _ _ h => h.nonNull) (plain hw h j)

/-! ### The property -/

/-- What is on its way in the queues `0`, ..., `K` and in the hands of the workers between them, oldest first. -/
def onWay {n : Nat} (w : Nat → Fin n) (c : CS n) : Nat → List Val
  | 0 => (c.q 0).data
  | k + 1 => (c.q (k + 1)).data ++ (held w c k).map some ++ onWay w c k

/-- C163 (order): at every moment, what came out of the last queue, followed by what is on its way, is what was put into the first queue, in that order. -/
theorem C163_order {n : Nat} {w : Nat → Fin n} {K : Nat} (hw : ∀ i < K, ∀ j < K, w i = w j → i = j) {now : Clock} {c : CS n} (h : CReach w K now c) :
    (taken c K).map some ++ onWay w c K = (put c 0).map some := by
  have key : ∀ k ≤ K, (taken c k).map some ++ onWay w c k = (put c 0).map some := by
    intro k
    induction k with
    | zero => exact fun _ => queue_holds hw h 0
    | succ k ih =>
      intro hk
      obtain ⟨l, ha, he⟩ := inv hw h k (by omega)
      rw [onWay, ← ih (by omega), he, ha.held, ← List.append_assoc, ← List.append_assoc, queue_holds hw h (k + 1)]
      simp
  exact key K (Nat.le_refl _)

/-- C163: so what has come out is the beginning of what was put in: nothing lost, doubled or overtaken. -/
theorem C163_prefix {n : Nat} {w : Nat → Fin n} {K : Nat} (hw : ∀ i < K, ∀ j < K, w i = w j → i = j) {now : Clock} {c : CS n} (h : CReach w K now c) :
    taken c K <+: put c 0 := by
  have := C163_order hw h
  obtain ⟨a, b, e1, e2, e3⟩ := List.map_eq_append_iff.1 this.symm
  have : a = taken c K := List.map_injective_iff.2 (Option.some_injective _) e2
  exact ⟨b, by rw [e1, this]⟩

/-- C163: a worker never has more than one item. -/
theorem C163_one {n : Nat} {w : Nat → Fin n} {K : Nat} (hw : ∀ i < K, ∀ j < K, w i = w j → i = j) {now : Clock} {c : CS n} (h : CReach w K now c) {i : Nat} (hi : i < K) :
    (held w c i).length ≤ 1 := by
  obtain ⟨l, ha, -⟩ := inv hw h i hi
  rw [ha.held]
  generalize c.hand i = a at ha
  generalize view ((c.q i).th (w i)) = b at ha
  generalize view ((c.q (i + 1)).th (w i)) = d at ha
  cases ha <;> simp

/-- C163 (complete): when nothing moves any more and no worker has left its loop, everything has reached the last queue. -/
theorem C163_complete {n : Nat} {w : Nat → Fin n} {K : Nat} (hw : ∀ i < K, ∀ j < K, w i = w j → i = j) {now : Clock} {c : CS n} (h : CReach w K now c)
    (hs : ∀ j ≤ K, Settled (c.q j)) (hl : ∀ i < K, (c.q i).th (w i) ≠ .idle ∨ (c.q (i + 1)).th (w i) ≠ .idle) :
    (taken c K).map some ++ (c.q K).data = (put c 0).map some := by
  have rest : ∀ i < K, (c.q i).data = [] ∧ held w c i = [] := by
    intro i hi
    obtain ⟨l, ha, -⟩ := inv hw h i hi
    rw [ha.held]
    have hr := (each hw h i).mono (fun _ _ h => h.nonNull)
    have hr1 := (each hw h (i + 1)).mono (fun _ _ h => h.nonNull)
    -- nobody sleeps in a write
    have h1 : (c.q (i + 1)).th (w i) = .idle := by
      rcases hs (i + 1) (by omega) (w i) with e | ⟨op, t0, cv, e⟩
      · exact e
      · exfalso
        have h2 : op = .read ∨ ∃ ms, ms ≠ 0 ∧ op = .readT ms := by
          refine waiting_invariant () (fun op => op = .read ∨ ∃ ms, ms ≠ 0 ∧ op = .readT ms) ?_ hr1 e
          intro s hs op t0 d' hb
          obtain ⟨q, -, hq⟩ := C22_linearizable hs
          exact (wait_same hq hb).2.2
        rcases (allOk_view (reach_ok (each hw h (i + 1))) (by rw [e]; rfl)).1 i hi rfl with ⟨h3, -⟩ | ⟨-, v, rfl⟩
        · omega
        · rcases h2 with h2 | ⟨ms, -, h2⟩ <;> cases h2
    have h2 : ∃ op t0, (c.q i).th (w i) = .waiting op t0 () := by
      rcases hs i (by omega) (w i) with e | ⟨op, t0, cv, e⟩
      · rcases hl i hi with h3 | h3
        · exact absurd e h3
        · exact absurd h1 h3
      · exact ⟨op, t0, e⟩
    obtain ⟨op, t0, e⟩ := h2
    refine ⟨C23_settled hr (hs i (by omega)) ⟨_, _, _, e⟩, ?_⟩
    rw [e, h1] at ha
    simp only [view] at ha
    generalize c.hand i = a at ha
    cases ha
    rfl
  have key : ∀ k, k < K → onWay w c k = [] := by
    intro k
    induction k with
    | zero => exact fun h0 => (rest 0 h0).1
    | succ k ih =>
      intro hk
      rw [onWay, (rest (k + 1) hk).1, (rest k (by omega)).2, ih (by omega)]
      rfl
  have := C163_order hw h
  cases K with
  | zero => exact this
  | succ k =>
    rw [onWay, (rest k (by omega)).2, key k (by omega)] at this
    simpa using this

/-! ### An execution -/

/-- `Other` as a check. -/
def otherB (K j : Nat) : QOp → Bool
  | .write (some _) => decide (j = 0)
  | .read => decide (j = K)
  | .readT _ => decide (j = K)
  | .readNoBlock => decide (j = K)
  | .front => true
  | .size => true
  | _ => false

theorem other_of_check {K j : Nat} {op : QOp} (h : otherB K j op = true) : Other K j op := by
  cases op with
  | write v => cases v with
    | none => simp [otherB] at h
    | some v => exact of_decide_eq_true (p := j = 0) h
  | read => exact of_decide_eq_true (p := j = K) h
  | readT ms => exact of_decide_eq_true (p := j = K) h
  | readNoBlock => exact of_decide_eq_true (p := j = K) h
  | front => trivial
  | size => trivial
  | _ => simp [otherB] at h

/-- One scheduled step in queue `j`. -/
def cexec1 {n : Nat} (w : Nat → Fin n) (K : Nat) (c : CS n) (j : Nat) (cmd : Cmd n QOp) : Option (CS n) :=
  match exec1 qbody (c.q j) cmd with
  | none => none
  | some s' =>
    match cmd with
    | .start t op =>
      match (List.range K).find? (fun i => decide (w i = t)) with
      | none => if otherB K j op = true then some { c with q := Function.update c.q j s' } else none
      | some i =>
        match c.hand i with
        | .reading => if j = i ∧ op = .read then some { c with q := Function.update c.q j s' } else none
        | .writing v => if j = i + 1 ∧ op = .write (some v) then some { c with q := Function.update c.q j s' } else none
    | .ret t =>
      match (List.range K).find? (fun i => decide (w i = t)) with
      | none => some { c with q := Function.update c.q j s' }
      | some i =>
        if j = i then
          match (c.q j).th t with
          | .after .read (.ptr (some v)) [] => some { q := Function.update c.q j s', hand := Function.update c.hand i (.writing v) }
          | _ => none
        else if j = i + 1 then some { q := Function.update c.q j s', hand := Function.update c.hand i .reading }
        else none
    | _ => some { c with q := Function.update c.q j s' }

theorem find_none {n K : Nat} {w : Nat → Fin n} {t : Fin n} (h : (List.range K).find? (fun i => decide (w i = t)) = none) : ∀ i < K, w i ≠ t := by
  intro i hi e
  have := List.find?_eq_none.1 h i (List.mem_range.2 hi)
  simp [e] at this

theorem find_some {n K : Nat} {w : Nat → Fin n} {t : Fin n} {i : Nat} (h : (List.range K).find? (fun i => decide (w i = t)) = some i) : i < K ∧ w i = t :=
  ⟨List.mem_range.1 (List.mem_of_find?_eq_some h), by simpa using List.find?_some h⟩

theorem cexec1_step {n : Nat} {w : Nat → Fin n} {K : Nat} {c c' : CS n} {j : Nat} {cmd : Cmd n QOp} (h : cexec1 w K c j cmd = some c') : CStep w K c c' := by
  unfold cexec1 at h
  split at h
  · cases h
  · next s' hs =>
    have st : Step queue (c.q j) cmd.lbl s' := exec1_step hs
    have plain : (∀ t op, cmd.lbl ≠ .start t op) → (∀ t, cmd.lbl ≠ .ret t) → some { c with q := Function.update c.q j s' } = some c' → CStep w K c c' := by
      intro h1 h2 e
      cases e
      exact .other c j _ s' st (fun i _ => ⟨fun op => h1 _ op, h2 _⟩) (fun t op e => absurd e (h1 t op))
    cases cmd with
    | start t op =>
      dsimp only at h
      split at h
      · next hf =>
        split at h
        · next ho =>
          cases h
          refine .other c j _ s' st (fun i hi => ⟨fun op' e => ?_, fun e => by cases e⟩) (fun t' op' e => ?_)
          · cases e; exact find_none hf i hi rfl
          · cases e; exact other_of_check ho
        · cases h
      · next i hf =>
        obtain ⟨hi, rfl⟩ := find_some hf
        split at h
        · next hh =>
          split at h
          · next e =>
            obtain ⟨rfl, rfl⟩ := e
            cases h
            exact .readCall c _ s' hi hh st
          · cases h
        · next v hh =>
          split at h
          · next e =>
            obtain ⟨rfl, rfl⟩ := e
            cases h
            exact .writeCall c i v s' hi hh st
          · cases h
    | ret t =>
      dsimp only at h
      split at h
      · next hf =>
        cases h
        refine .other c j _ s' st (fun i hi => ⟨fun op' e => (by cases e), fun e => ?_⟩) (fun t' op' e => by cases e)
        cases e; exact find_none hf i hi rfl
      · next i hf =>
        obtain ⟨hi, rfl⟩ := find_some hf
        split at h
        · next e =>
          subst e
          split at h
          · next v hth =>
            cases h
            exact .readRet c _ v s' hi hth st
          · cases h
        · split at h
          · next e =>
            subst e
            cases h
            exact .writeRet c i s' hi st
          · cases h
    | _ => exact plain (by intro _ _ e; cases e) (by intro _ e; cases e) h

def cexec {n : Nat} (w : Nat → Fin n) (K : Nat) (c : CS n) : List (Nat × Cmd n QOp) → Option (CS n)
  | [] => some c
  | (j, cmd) :: l => match cexec1 w K c j cmd with
    | some c' => cexec w K c' l
    | none => none

theorem cexec_reach {n : Nat} {w : Nat → Fin n} {K : Nat} {now : Clock} {c c' : CS n} {l : List (Nat × Cmd n QOp)} (h : cexec w K c l = some c') (hr : CReach w K now c) :
    CReach w K now c' := by
  induction l generalizing c with
  | nil => cases h; exact hr
  | cons a l ih =>
    obtain ⟨j, cmd⟩ := a
    simp only [cexec] at h
    split at h
    · next c1 h1 => exact ih h (hr.step (cexec1_step h1))
    · cases h

/-- Thread 0 writes 5 and 6; the worker, thread 1, passes 5 on and has taken 6; thread 2 has read 5. -/
def passing : List (Nat × Cmd 3 QOp) :=
  [(0, .start 1 .read), (0, .lock 1), (0, .body 1), (0, .start 0 (.write (some 5))), (0, .lock 0), (0, .body 0), (0, .unlock 0), (0, .notify 0 (some 1)), (0, .ret 0),
   (0, .start 0 (.write (some 6))), (0, .lock 0), (0, .body 0), (0, .unlock 0), (0, .relock 1), (0, .body 1), (0, .unlock 1), (0, .ret 1),
   (1, .start 1 (.write (some 5))), (1, .lock 1), (1, .body 1), (1, .unlock 1), (1, .notify 1 none), (1, .start 2 .read), (1, .lock 2), (1, .body 2), (1, .ret 1),
   (0, .start 1 .read), (0, .lock 1), (0, .body 1)]

/-- C163: the theorems at work on it: 5 has come out, 6 is in the worker's hands. -/
example : ∃ c, CReach (fun _ => 1) 1 ⟨5, 0⟩ c ∧ taken c 1 = [5] ∧ put c 0 = [5, 6] ∧ onWay (fun _ => (1 : Fin 3)) c 1 = [some 6] ∧ (c.q 0).data = [] := by
  have h : (match cexec (fun _ => 1) 1 (start 3 ⟨5, 0⟩) passing with
    | some c => decide (taken c 1 = [5] ∧ put c 0 = [5, 6] ∧ onWay (fun _ => (1 : Fin 3)) c 1 = [some 6] ∧ (c.q 0).data = [])
    | none => false) = true := by decide
  split at h
  · next c hc => exact ⟨c, cexec_reach hc .refl, of_decide_eq_true h⟩
  · cases h

/-- ... and the rest of the way. -/
def arrived : List (Nat × Cmd 3 QOp) :=
  passing ++ [(0, .unlock 1), (0, .ret 1), (1, .unlock 2), (1, .ret 2), (1, .start 1 (.write (some 6))), (1, .lock 1), (1, .body 1), (1, .unlock 1), (1, .notify 1 none), (1, .ret 1),
    (0, .notify 0 none), (0, .ret 0), (0, .start 1 .read), (0, .lock 1), (0, .body 1)]

/-- C163: then it rests, with 6 in the last queue; the conditions of `C163_complete` hold. -/
example : ∃ c, CReach (fun _ => (1 : Fin 3)) 1 ⟨5, 0⟩ c ∧ (∀ j ≤ 1, Settled (c.q j)) ∧ (∀ i < 1, (c.q i).th 1 ≠ .idle ∨ (c.q (i + 1)).th 1 ≠ .idle) ∧ taken c 1 = [5] ∧
    (c.q 1).data = [some 6] := by
  have h : (match cexec (fun _ => 1) 1 (start 3 ⟨5, 0⟩) arrived with
    | some c => (match (c.q 0).th 0, (c.q 0).th 1, (c.q 0).th 2, (c.q 1).th 0, (c.q 1).th 1, (c.q 1).th 2 with
      | .idle, .waiting _ _ _, .idle, .idle, .idle, .idle => decide (taken c 1 = [5] ∧ (c.q 1).data = [some 6])
      | _, _, _, _, _, _ => false)
    | none => false) = true := by decide
  split at h
  · next c hc =>
    split at h
    · next e0 e1 e2 e3 e4 e5 =>
      refine ⟨c, cexec_reach hc .refl, ?_, ?_, of_decide_eq_true h⟩
      · intro j hj t
        have h1 : j = 0 ∨ j = 1 := by omega
        have h2 : t = 0 ∨ t = 1 ∨ t = 2 := by omega
        rcases h1 with rfl | rfl <;> rcases h2 with rfl | rfl | rfl
        · exact .inl e0
        · exact .inr ⟨_, _, _, e1⟩
        · exact .inl e2
        · exact .inl e3
        · exact .inl e4
        · exact .inl e5
      · intro i hi
        have : i = 0 := by omega
        subst this
        exact .inl (by rw [e1]; intro h; cases h)
    · cases h
  · cases h

/-- C163: the worker's loop is kept to: it cannot write what it has not read, or read again before it has written. -/
example : cexec (fun _ => 1) 1 (start 3 ⟨5, 0⟩) [(1, .start 1 (.write (some 5)))] = none ∧
    cexec (fun _ => 1) 1 (start 3 ⟨5, 0⟩) ((passing.take 17) ++ [(0, .start 1 .read)]) = none := ⟨rfl, by rfl⟩

end Verif.Interthread.Chain
