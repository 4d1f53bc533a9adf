import Verif.Interthread.PoolEnds
import Mathlib.Data.Multiset.Filter

/-
C169: requests over an `InterthreadQueue` (`/repo/Interthread.h:113-322`), answers over an `InterthreadMap` (440-623): each client waits for the answers under its own key. By C166 it is enough to
look at indivisible calls.
-/

namespace Verif.Interthread.Answers
open Verif Verif.Monitor Verif.Interthread

/-! ### The program -/

/-- A client with the requests still to be made and the answers it has; waiting for the answer to `r`; a server without or with a request. -/
inductive Loc where
  | ask (rest got : List Nat)
  | await (r : Nat) (rest got : List Nat)
  | idle
  | busy (r : Nat)

/-- The queue of requests (false), the map of answers (true). -/
abbrev kind : Bool → Kind
  | false => .queue
  | true => .map

abbrev O : Bool → Obj := fun i => (kind i).obj

def asQ (op : (O false).Op) : QOp := op
def asM (op : (O true).Op) : MOp := op
def resQ (r : (O false).R) : QRes := r
def resM (r : (O true).R) : MRes := r

/-- Clients `for (r in rest) { requests.write(r); got.push_back(answers.get(key)); }`, which takes the answer out of the map (a NULL, which never comes, as 0); servers `for (;;) { r = requests.read(); answers.write(who(r), f(r)); }`. -/
def prog (f who : Nat → Nat) {n : Nat} (key : Fin n → Nat) : Prog O n Loc where
  tau := fun _ _ _ => False
  call := fun t l i => match i with
    | false => fun op => match l with
      | .ask (r :: _) _ => asQ op = .write (some r)
      | .idle => asQ op = .read
      | _ => False
    | true => fun op => match l with
      | .await _ _ _ => asM op = .get (key t) true
      | .busy r => asM op = .write (who r) (some (f r))
      | _ => False
  cont := fun _ l i => match i with
    | false => fun _ res l' => match l with
      | .ask (r :: rest) got => l' = .await r rest got
      | .idle => ∃ r, resQ res = .ptr (some r) ∧ l' = .busy r
      | _ => False
    | true => fun _ res l' => match l with
      | .await _ rest got => ∃ v, resM res = .found v ∧ l' = .ask rest (got ++ [v.getD 0])
      | .busy _ => l' = .idle
      | _ => False

/-- Threads at their beginning: clients with their requests, which carry their key, and servers. -/
def Fresh (who : Nat → Nat) {n : Nat} (key : Fin n → Nat) (l0 : Fin n → Loc) : Prop := ∀ t, (∃ reqs, l0 t = .ask reqs [] ∧ ∀ r ∈ reqs, who r = key t) ∨ l0 t = .idle

/-- The requests of a client. -/
def requests : Loc → List Nat
  | .ask rest _ => rest
  | _ => []

/-- The answers it has. -/
def answers : Loc → List Nat
  | .ask _ got => got
  | .await _ _ got => got
  | _ => []

/-- Where a thread is in its program. -/
def knows : Pos O Loc → Loc
  | .out l => l
  | .inside l _ _ => l

/-! ### With indivisible calls -/

abbrev G (n : Nat) := GState O n Loc
abbrev GP := GPos O Loc

def loc : GP → Loc
  | .out l => l
  | .asked l _ _ => l
  | .got l _ _ _ => l

def resVal : QRes → Multiset Nat
  | .ptr (some v) => {v}
  | _ => 0

/-- The requests in the hands of a server. -/
def hold : GP → Multiset Nat
  | .out (.busy r) => {r}
  | .asked (.busy r) _ _ => {r}
  | .got .idle false _ res => resVal (resQ res)
  | _ => 0

def theQ (q : (O false).A) : List Nat := q
def theM (m : (O true).A) : Nat → Option Val := m

/-- The requests under way with a key. -/
def under (who : Nat → Nat) {n : Nat} (g : G n) (k : Nat) : Multiset Nat := ((∑ t, hold (g.pos t)) + (theQ (g.obj false) : Multiset Nat)).filter (who · = k)

/-- Nothing is under way for key `k`. -/
def Clear (who : Nat → Nat) {n : Nat} (g : G n) (k : Nat) : Prop := under who g k = 0 ∧ theM (g.obj true) k = none

/-- One request is, or its answer. -/
def Pending (f who : Nat → Nat) {n : Nat} (g : G n) (k r : Nat) : Prop :=
  (under who g k = {r} ∧ theM (g.obj true) k = none) ∨ (under who g k = 0 ∧ theM (g.obj true) k = some (some (f r)))

def Waits (f who : Nat → Nat) {n : Nat} (g : G n) (k : Nat) : GP → Prop
  | .out (.ask _ _) => Clear who g k
  | .asked (.ask _ _) _ _ => Clear who g k
  | .got (.ask rest _) _ _ _ => ∃ r rest', rest = r :: rest' ∧ Pending f who g k r
  | .out (.await r _ _) => Pending f who g k r
  | .asked (.await r _ _) _ _ => Pending f who g k r
  | .got (.await _ _ _) false _ _ => False
  | .got (.await r _ _) true _ res => Clear who g k ∧ resM res = .found (some (f r))
  | _ => True

/-- A client has the answers to the requests it has made, in order. -/
def Hist (f : Nat → Nat) : Loc → Loc → Prop
  | .ask reqs _, .ask rest got => ∃ done, reqs = done ++ rest ∧ got = done.map f
  | .ask reqs _, .await r rest got => ∃ done, reqs = done ++ r :: rest ∧ got = done.map f
  | .idle, .idle => True
  | .idle, .busy _ => True
  | _, _ => False

structure Inv (f who : Nat → Nat) {n : Nat} (key : Fin n → Nat) (l0 : Fin n → Loc) (g : G n) : Prop where
  hist : ∀ t, Hist f (l0 t) (loc (g.pos t))
  waits : ∀ t, Waits f who g (key t) (g.pos t)

theorem read_does {q q' : List Nat} {r : QRes} (h : idealStep q (.read, r) = some q') : ∃ v, r = .ptr (some v) ∧ q = v :: q' := Ask.read_res h

theorem write_does {q q' : List Nat} {v : Nat} {r : QRes} (h : idealStep q (.write (some v), r) = some q') : r = .unit ∧ q' = q ++ [v] := Ask.write_res h

theorem mget_does {m m' : Nat → Option Val} {k : Nat} {r : MRes} (h : mapStep m (.get k true, r) = some m') : ∃ v, r = .found v ∧ m k = some v ∧ m' = Function.update m k none := by
  cases r with
  | found v =>
    simp only [mapStep] at h
    split at h
    · next e => cases h; exact ⟨v, rfl, e, by simp⟩
    · cases h
  | _ => cases h

theorem mwrite_does {m m' : Nat → Option Val} {k : Nat} {v : Val} {r : MRes} (h : mapStep m (.write k v, r) = some m') : m' = Function.update m k (some v) := by
  cases r with
  | wrote old =>
    simp only [mapStep] at h
    split at h
    · cases h; rfl
    · cases h
  | _ => cases h

/-- What is under way, when a thread moves. -/
theorem under_upd {who : Nat → Nat} {n : Nat} {g : G n} {t : Fin n} {p : GP} {q : List Nat} {obj : (i : Bool) → (O i).A} (hq : theQ (obj false) = q)
    {x y : Multiset Nat} (h : (q : Multiset Nat) + hold p + x = (theQ (g.obj false) : Multiset Nat) + hold (g.pos t) + y) (k : Nat) :
    under who (⟨obj, Function.update g.pos t p⟩ : G n) k + x.filter (who · = k) = under who g k + y.filter (who · = k) := by
  simp only [under]
  rw [← Multiset.filter_add, ← Multiset.filter_add, hq]
  congr 1
  have hu := Pool.sum_upd hold g.pos t p
  have e : ((∑ u, hold (Function.update g.pos t p u)) + (q : Multiset Nat) + x) + (hold (g.pos t) + hold p) = ((∑ u, hold (g.pos u)) + (theQ (g.obj false) : Multiset Nat) + y) + (hold (g.pos t) + hold p) := by
    calc _ = ((∑ u, hold (Function.update g.pos t p u)) + hold (g.pos t)) + ((q : Multiset Nat) + hold p + x) := by abel
      _ = _ := by rw [hu, h]; abel
  exact add_right_cancel e

theorem inv_start (f who : Nat → Nat) {n : Nat} {key : Fin n → Nat} {l0 : Fin n → Loc} (h0 : Fresh who key l0) : Inv f who key l0 (GState.start O l0) where
  hist := fun t => by
    show Hist f (l0 t) (l0 t)
    rcases h0 t with ⟨reqs, e, -⟩ | e
    · rw [e]; exact ⟨[], rfl, rfl⟩
    · rw [e]; trivial
  waits := fun t => by
    have hz : ∀ u, hold ((GState.start O l0).pos u) = 0 := by
      intro u
      show hold (.out (l0 u)) = 0
      rcases h0 u with ⟨reqs, e, -⟩ | e <;> (rw [e]; rfl)
    have hc : Clear who (GState.start O l0) (key t) := by
      refine ⟨?_, rfl⟩
      simp only [under]
      rw [Finset.sum_eq_zero fun u _ => hz u, zero_add]
      rfl
    show Waits f who _ (key t) (.out (l0 t))
    rcases h0 t with ⟨reqs, e, -⟩ | e
    · rw [e]; exact hc
    · rw [e]; trivial

/-- The invariant of the others, when nothing changes for their keys. -/
theorem waits_same {f who : Nat → Nat} {n : Nat} {g g' : G n} {k : Nat} (h1 : under who g' k = under who g k) (h2 : theM (g'.obj true) k = theM (g.obj true) k) {p : GP} (h : Waits f who g k p) :
    Waits f who g' k p := by
  have hc : Clear who g k → Clear who g' k := fun h => ⟨h1.trans h.1, h2.trans h.2⟩
  have hp : ∀ {r}, Pending f who g k r → Pending f who g' k r := fun h => by
    rcases h with ⟨e1, e2⟩ | ⟨e1, e2⟩
    · exact .inl ⟨h1.trans e1, h2.trans e2⟩
    · exact .inr ⟨h1.trans e1, h2.trans e2⟩
  cases p with
  | out l => cases l with
    | ask rest got => exact hc h
    | await r rest got => exact hp h
    | _ => trivial
  | asked l i op => cases l with
    | ask rest got => exact hc h
    | await r rest got => exact hp h
    | _ => trivial
  | got l i op res => cases l with
    | ask rest got => obtain ⟨r, rest', e, h⟩ := h; exact ⟨r, rest', e, hp h⟩
    | await r rest got => cases i with
      | false => exact h.elim
      | true => exact ⟨hc h.1, h.2⟩
    | _ => cases i <;> trivial

/-- The invariant of the client a server answers. -/
theorem waits_answered {f who : Nat → Nat} {n : Nat} {g g' : G n} {k r : Nat} (hu : under who g' k + {r} = under who g k) (hm : theM (g'.obj true) k = some (some (f r))) {p : GP} (h : Waits f who g k p) :
    Waits f who g' k p := by
  have hr : r ∈ under who g k := by rw [← hu]; exact Multiset.mem_add.mpr (.inr (Multiset.mem_singleton_self r))
  have hc : ¬ Clear who g k := fun h => by rw [h.1] at hr; exact absurd hr (Multiset.notMem_zero r)
  have hp : ∀ {r'}, Pending f who g k r' → Pending f who g' k r' := fun {r'} h => by
    rcases h with ⟨e1, e2⟩ | ⟨e1, e2⟩
    · rw [e1] at hr hu
      cases Multiset.mem_singleton.mp hr
      refine .inr ⟨?_, hm⟩
      have : under who g' k + {r} = 0 + {r} := by rw [hu, zero_add]
      exact add_right_cancel this
    · rw [e1] at hr; exact absurd hr (Multiset.notMem_zero r)
  cases p with
  | out l => cases l with
    | ask rest got => exact absurd h hc
    | await r rest got => exact hp h
    | _ => trivial
  | asked l i op => cases l with
    | ask rest got => exact absurd h hc
    | await r rest got => exact hp h
    | _ => trivial
  | got l i op res => cases l with
    | ask rest got => obtain ⟨r, rest', e, h⟩ := h; exact ⟨r, rest', e, hp h⟩
    | await r rest got => cases i with
      | false => exact h.elim
      | true => exact absurd h.1 hc
    | _ => cases i <;> trivial

/-- A thread moves without a change for any key. -/
theorem quiet {f who : Nat → Nat} {n : Nat} {key : Fin n → Nat} {l0 : Fin n → Loc} {g : G n} (h : Inv f who key l0 g) {t : Fin n} {p : GP} {obj : (i : Bool) → (O i).A}
    (hq : (theQ (obj false) : Multiset Nat) + hold p = (theQ (g.obj false) : Multiset Nat) + hold (g.pos t)) (hm : theM (obj true) = theM (g.obj true))
    (hh : Hist f (l0 t) (loc p)) (hw : Waits f who g (key t) p) : Inv f who key l0 (⟨obj, Function.update g.pos t p⟩ : G n) := by
  have hu : ∀ k, under who (⟨obj, Function.update g.pos t p⟩ : G n) k = under who g k := by
    intro k
    have := under_upd (who := who) (g := g) (t := t) (p := p) (obj := obj) rfl (x := 0) (y := 0) (by rw [add_zero, add_zero]; exact hq) k
    simpa using this
  refine ⟨fun u => ?_, fun u => waits_same (hu _) (congrFun hm _) ?_⟩
  · dsimp only
    by_cases e : u = t
    · subst e; rw [Function.update_self]; exact hh
    · rw [Function.update_of_ne e]; exact h.hist u
  · dsimp only
    by_cases e : u = t
    · subst e; rw [Function.update_self]; exact hw
    · rw [Function.update_of_ne e]; exact h.waits u

theorem inv_step {f who : Nat → Nat} {n : Nat} {key : Fin n → Nat} (hk : Function.Injective key) {l0 : Fin n → Loc} (h0 : Fresh who key l0) {g g' : G n} (hg : GReach O (prog f who key) l0 g)
    (h : Inv f who key l0 g) (st : GStep O (prog f who key) g g') : Inv f who key l0 g' := by
  have hmade := calls_made hg
  cases st with
  | tau t l l' h1 h2 => exact h2.elim
  | ask t l i op h1 h2 =>
    have hh := h.hist t
    have hw := h.waits t
    rw [h1] at hh hw
    refine quiet h ?_ rfl hh ?_
    · rw [h1]
      cases l <;> cases i <;> rfl
    · cases l <;> exact hw
  | does t l i op res a' h1 h2 =>
    have hc := (hmade t).1 l i op h1
    have hh := h.hist t
    have hw := h.waits t
    rw [h1] at hh hw
    cases i with
    | false =>
      cases l with
      | ask rest got =>
        cases rest with
        | nil => exact hc.elim
        | cons r rest =>
          cases (show op = QOp.write (some r) from hc)
          obtain ⟨-, e⟩ := write_does (q := theQ (g.obj false)) (q' := theQ a') h2
          have hwho : who r = key t := by
            rcases h0 t with ⟨reqs, e0, hr⟩ | e0
            · rw [e0] at hh; obtain ⟨done, e1, -⟩ := hh
              exact hr r (by rw [e1]; simp)
            · rw [e0] at hh; exact hh.elim
          have hu := under_upd (who := who) (g := g) (t := t) (p := .got (.ask (r :: rest) got) false (QOp.write (some r)) res) (q := theQ a')
            (obj := Function.update g.obj false a') (by rw [Function.update_self]) (x := 0) (y := {r}) (by
              rw [h1, e]
              show ((theQ (g.obj false) ++ [r] : List Nat) : Multiset Nat) + 0 + 0 = (theQ (g.obj false) : Multiset Nat) + 0 + {r}
              rw [add_zero, add_zero, add_zero, ← Multiset.coe_add]; rfl)
          refine ⟨fun u => ?_, fun u => ?_⟩
          · dsimp only
            by_cases q : u = t
            · subst q; rw [Function.update_self]; exact hh
            · rw [Function.update_of_ne q]; exact h.hist u
          · by_cases q : u = t
            · subst q
              dsimp only
              rw [Function.update_self]
              refine ⟨r, rest, rfl, .inl ⟨?_, hw.2⟩⟩
              have := hu (key u)
              rw [hw.1, Multiset.filter_singleton, if_pos hwho, Multiset.filter_zero, add_zero, zero_add] at this
              exact this
            · have hne : who r ≠ key u := fun e => q (hk (e.symm.trans hwho))
              have := hu (key u)
              rw [Multiset.filter_singleton, if_neg hne, Multiset.filter_zero, add_zero] at this
              refine waits_same (g := g) (this.trans (add_zero _)) rfl ?_
              dsimp only
              rw [Function.update_of_ne q]; exact h.waits u
      | idle =>
        cases (show op = QOp.read from hc)
        obtain ⟨r, e1, e2⟩ := read_does (q := theQ (g.obj false)) (q' := theQ a') h2
        refine quiet h ?_ rfl hh trivial
        rw [h1, Function.update_self, e2]
        show (theQ a' : Multiset Nat) + resVal (resQ res) = ((r :: theQ a' : List Nat) : Multiset Nat) + 0
        rw [show resQ res = .ptr (some r) from e1, add_zero, ← Multiset.cons_coe, add_comm]
        rfl
      | _ => exact hc.elim
    | true =>
      cases l with
      | await r rest got =>
        cases (show op = MOp.get (key t) true from hc)
        obtain ⟨v, e1, e2, e3⟩ := mget_does (m := theM (g.obj true)) (m' := theM a') h2
        have hu : ∀ k, under who (⟨Function.update g.obj true a', Function.update g.pos t (.got (.await r rest got) true (MOp.get (key t) true) res)⟩ : G n) k = under who g k := by
          intro k
          have := under_upd (who := who) (g := g) (t := t) (p := .got (.await r rest got) true (MOp.get (key t) true) res) (q := theQ (g.obj false))
            (obj := Function.update g.obj true a') rfl (x := 0) (y := 0) (by rw [h1]; rfl) k
          simpa using this
        have hm : ∀ k, theM (Function.update g.obj true a' true) k = if k = key t then none else theM (g.obj true) k := by
          intro k
          rw [Function.update_self, e3]
          by_cases q : k = key t
          · rw [q, Function.update_self, if_pos rfl]
          · rw [Function.update_of_ne q, if_neg q]
        refine ⟨fun u => ?_, fun u => ?_⟩
        · dsimp only
          by_cases q : u = t
          · subst q; rw [Function.update_self]; exact hh
          · rw [Function.update_of_ne q]; exact h.hist u
        · by_cases q : u = t
          · subst q
            rcases hw with ⟨-, w2⟩ | ⟨w1, w2⟩
            · rw [w2] at e2; cases e2
            · rw [w2] at e2
              cases e2
              dsimp only
              rw [Function.update_self]
              exact ⟨⟨(hu _).trans w1, (hm _).trans (if_pos rfl)⟩, e1⟩
          · refine waits_same (g := g) (hu _) ((hm _).trans (if_neg fun e => q (hk e))) ?_
            dsimp only
            rw [Function.update_of_ne q]; exact h.waits u
      | busy r =>
        cases (show op = MOp.write (who r) (some (f r)) from hc)
        have e3 := mwrite_does (m := theM (g.obj true)) (m' := theM a') h2
        have hu : ∀ k, under who (⟨Function.update g.obj true a', Function.update g.pos t (.got (.busy r) true (MOp.write (who r) (some (f r))) res)⟩ : G n) k + Multiset.filter (who · = k) {r} = under who g k := by
          intro k
          have := under_upd (who := who) (g := g) (t := t) (p := .got (.busy r) true (MOp.write (who r) (some (f r))) res) (q := theQ (g.obj false))
            (obj := Function.update g.obj true a') rfl (x := {r}) (y := 0) (by
              rw [h1]
              show (theQ (g.obj false) : Multiset Nat) + 0 + {r} = (theQ (g.obj false) : Multiset Nat) + {r} + 0
              rw [add_zero, add_zero]) k
          simpa using this
        have hm : ∀ k, theM (Function.update g.obj true a' true) k = if k = who r then some (some (f r)) else theM (g.obj true) k := by
          intro k
          rw [Function.update_self, e3]
          by_cases q : k = who r
          · rw [q, Function.update_self, if_pos rfl]
          · rw [Function.update_of_ne q, if_neg q]
        refine ⟨fun u => ?_, fun u => ?_⟩
        · dsimp only
          by_cases q : u = t
          · subst q; rw [Function.update_self]; exact hh
          · rw [Function.update_of_ne q]; exact h.hist u
        · by_cases q : u = t
          · subst q
            dsimp only
            rw [Function.update_self]
            trivial
          · have hw' := h.waits u
            dsimp only
            rw [Function.update_of_ne q]
            by_cases e : key u = who r
            · refine waits_answered (g := g) (r := r) ?_ ((hm _).trans (if_pos e)) hw'
              have := hu (key u)
              rwa [Multiset.filter_singleton, if_pos e.symm] at this
            · refine waits_same (g := g) ?_ ((hm _).trans (if_neg e)) hw'
              have := hu (key u)
              rw [Multiset.filter_singleton, if_neg fun x => e x.symm] at this
              simpa using this
      | _ => exact hc.elim
  | cont t l i op res l' h1 h2 =>
    obtain ⟨hc, a, a', hs⟩ := (hmade t).2 l i op res h1
    have hh := h.hist t
    have hw := h.waits t
    rw [h1] at hh hw
    cases i with
    | false =>
      cases l with
      | ask rest got =>
        cases rest with
        | nil => exact hc.elim
        | cons r rest =>
          cases (show l' = .await r rest got from h2)
          refine quiet h (by rw [h1]; rfl) rfl (by revert hh; cases l0 t <;> exact id) ?_
          obtain ⟨r', rest', e, hp⟩ := hw
          cases e
          exact hp
      | idle =>
        obtain ⟨r, e, rfl⟩ := h2
        refine quiet h ?_ rfl (by revert hh; cases l0 t <;> exact id) trivial
        rw [h1]
        show _ + ({r} : Multiset Nat) = _ + resVal (resQ res)
        rw [e]; rfl
      | _ => exact hc.elim
    | true =>
      cases l with
      | await r rest got =>
        obtain ⟨v, e, rfl⟩ := h2
        obtain ⟨hcl, e2⟩ := hw
        rw [e] at e2
        cases e2
        refine quiet h (by rw [h1]; rfl) rfl ?_ hcl
        revert hh
        cases l0 t with
        | ask reqs x => rintro ⟨done, e1, rfl⟩; exact ⟨done ++ [r], by rw [e1]; simp, by simp⟩
        | _ => exact id
      | busy r =>
        cases (show l' = .idle from h2)
        exact quiet h (by rw [h1]; rfl) rfl (by revert hh; cases l0 t <;> exact id) trivial
      | _ => exact hc.elim

theorem inv {f who : Nat → Nat} {n : Nat} {key : Fin n → Nat} (hk : Function.Injective key) {l0 : Fin n → Loc} (h0 : Fresh who key l0) {g : G n} (h : GReach O (prog f who key) l0 g) :
    Inv f who key l0 g := by
  induction h with
  | refl => exact inv_start f who h0
  | step hg st ih => exact inv_step hk h0 hg ih st

/-! ### The answers so far, and at the end -/

theorem calls_ok (f who : Nat → Nat) {n : Nat} (key : Fin n → Nat) :
    ∀ t l i op, (prog f who key).call t l i op → (kind i).obj.ok op ∧ (kind i).obj.untimed op ∧ (kind i).plain op := by
  intro t l i op h
  cases i with
  | false =>
    cases l with
    | ask rest got => cases rest with
      | nil => exact h.elim
      | cons r rest => cases (show op = QOp.write (some r) from h); exact ⟨(fun h => nomatch h), trivial, trivial⟩
    | idle => cases (show op = QOp.read from h); exact ⟨trivial, trivial, trivial⟩
    | _ => exact h.elim
  | true =>
    cases l with
    | await r rest got => cases (show op = MOp.get (key t) true from h); exact ⟨trivial, trivial, trivial⟩
    | busy r => cases (show op = MOp.write (who r) (some (f r)) from h); exact ⟨trivial, trivial, trivial⟩
    | _ => exact h.elim

theorem loc_gpos {n : Nat} (c : CState O n Loc) (t : Fin n) : loc (gpos c t) = knows (c.pos t) := by
  simp only [gpos]
  cases c.pos t with
  | out l => rfl
  | inside l i op => dsimp only; split <;> rfl

theorem pos_of_gpos {n : Nat} {c : CState O n Loc} {t : Fin n} {l : Loc} (e : gpos c t = .out l) : c.pos t = .out l := by
  cases hp : c.pos t with
  | out l1 => simp only [gpos, hp] at e; cases e; rfl
  | inside l1 i op =>
    simp only [gpos, hp] at e
    split at e <;> cases e

/-- C169: whatever the number of clients and servers and however they are scheduled: at any time what a client has got are the answers to its own first requests, in order. -/
theorem C169_own {f who : Nat → Nat} {n : Nat} {key : Fin n → Nat} (hk : Function.Injective key) {l0 : Fin n → Loc} (h0 : Fresh who key l0) {now : Bool → Clock} {c : CState O n Loc}
    (h : CReach O (prog f who key) now l0 c) (t : Fin n) : answers (knows (c.pos t)) <+: (requests (l0 t)).map f := by
  obtain ⟨a, hg, -⟩ := C166_indivisible kind (fun t l i op h => (calls_ok f who key t l i op h).1) h
  have hh : Hist f (l0 t) (loc (gpos c t)) := (inv hk h0 hg).hist t
  rw [loc_gpos] at hh
  revert hh
  cases l0 t with
  | ask reqs x =>
    cases knows (c.pos t) with
    | ask rest got => rintro ⟨done, rfl, rfl⟩; exact ⟨rest.map f, by simp [answers, requests]⟩
    | await r rest got => rintro ⟨done, rfl, rfl⟩; exact ⟨(r :: rest).map f, by simp [answers, requests]⟩
    | _ => exact fun h => h.elim
  | idle =>
    cases knows (c.pos t) with
    | idle => exact fun _ => List.prefix_refl _
    | busy r => exact fun _ => List.prefix_refl _
    | _ => exact fun h => h.elim
  | _ => exact fun h => h.elim

/-- With indivisible calls, when nothing can go on and there is a server. -/
theorem at_end {f who : Nat → Nat} {n : Nat} {key : Fin n → Nat} {l0 : Fin n → Loc} {g : G n} (hg : GReach O (prog f who key) l0 g) (h : Inv f who key l0 g)
    (hs : ∀ g', ¬ GStep O (prog f who key) g g') (hw : ∃ w, l0 w = .idle) (t : Fin n) : (∃ got, g.pos t = .out (.ask [] got)) ∨ g.pos t = .asked .idle false QOp.read := by
  have hmade := calls_made hg
  -- what a thread can be doing
  have some' : ∀ u, (∃ got, g.pos u = .out (.ask [] got)) ∨ (g.pos u = .asked .idle false QOp.read ∧ theQ (g.obj false) = []) ∨ ∃ r rest got, g.pos u = .asked (.await r rest got) true (MOp.get (key u) true) := by
    intro u
    cases hp : g.pos u with
    | out l =>
      have no : ∀ i op, ¬ (prog f who key).call u l i op := fun i op hc => hs _ (GStep.ask (P := prog f who key) g u l i op hp hc)
      cases l with
      | ask rest got => cases rest with
        | nil => exact .inl ⟨got, rfl⟩
        | cons r rest => exact absurd rfl (no false (QOp.write (some r)))
      | await r rest got => exact absurd rfl (no true (MOp.get (key u) true))
      | idle => exact absurd rfl (no false QOp.read)
      | busy r => exact absurd rfl (no true (MOp.write (who r) (some (f r))))
    | asked l i op =>
      have hc := (hmade u).1 l i op hp
      have no : ∀ res a', ¬ (O i).sp (g.obj i) op res a' := fun res a' h => hs _ (GStep.does (P := prog f who key) g u l i op res a' hp h)
      cases i with
      | false =>
        cases l with
        | ask rest got => cases rest with
          | nil => exact hc.elim
          | cons r rest =>
            cases (show op = QOp.write (some r) from hc)
            exact absurd (show idealStep (theQ (g.obj false)) (.write (some r), .unit) = some (theQ (g.obj false) ++ [r]) from rfl) (no QRes.unit (theQ (g.obj false) ++ [r]))
        | idle =>
          cases (show op = QOp.read from hc)
          refine .inr (.inl ⟨rfl, ?_⟩)
          cases e : theQ (g.obj false) with
          | nil => rfl
          | cons v q =>
            refine absurd ?_ (no (QRes.ptr (some v)) q)
            show idealStep (theQ (g.obj false)) (.read, .ptr (some v)) = some q
            rw [e]; simp [idealStep]
        | _ => exact hc.elim
      | true =>
        cases l with
        | await r rest got =>
          cases (show op = MOp.get (key u) true from hc)
          exact .inr (.inr ⟨r, rest, got, rfl⟩)
        | busy r =>
          cases (show op = MOp.write (who r) (some (f r)) from hc)
          refine absurd ?_ (no (MRes.wrote (theM (g.obj true) (who r))) (Function.update (theM (g.obj true)) (who r) (some (some (f r)))))
          show mapStep (theM (g.obj true)) _ = _
          simp only [mapStep, if_true]
        | _ => exact hc.elim
    | got l i op res =>
      obtain ⟨hc, a, a', hsp⟩ := (hmade u).2 l i op res hp
      have no : ∀ l', ¬ (prog f who key).cont u l i op res l' := fun l' h => hs _ (GStep.cont (P := prog f who key) g u l i op res l' hp h)
      have hwt := h.waits u
      rw [hp] at hwt
      cases i with
      | false =>
        cases l with
        | ask rest got => cases rest with
          | nil => exact hc.elim
          | cons r rest => exact absurd rfl (no (.await r rest got))
        | idle =>
          cases (show op = QOp.read from hc)
          obtain ⟨v, e, -⟩ := read_does (q := theQ a) (q' := theQ a') hsp
          exact absurd ⟨v, e, rfl⟩ (no (.busy v))
        | _ => exact hc.elim
      | true =>
        cases l with
        | await r rest got => exact absurd ⟨some (f r), hwt.2, rfl⟩ (no (.ask rest (got ++ [f r])))
        | busy r => exact absurd rfl (no .idle)
        | _ => exact hc.elim
  -- no requests are under way
  have hq : theQ (g.obj false) = [] := by
    obtain ⟨w, hw⟩ := hw
    have hh := h.hist w
    rw [hw] at hh
    rcases some' w with ⟨got, e⟩ | ⟨-, e⟩ | ⟨r, rest, got, e⟩
    · rw [e] at hh; exact hh.elim
    · exact e
    · rw [e] at hh; exact hh.elim
  have hz : ∀ u, hold (g.pos u) = 0 := by
    intro u
    rcases some' u with ⟨got, e⟩ | ⟨e, -⟩ | ⟨r, rest, got, e⟩ <;> (rw [e]; rfl)
  have hun : ∀ k, under who g k = 0 := by
    intro k
    simp only [under]
    rw [Finset.sum_eq_zero fun u _ => hz u, hq, zero_add]
    rfl
  rcases some' t with e | ⟨e, -⟩ | ⟨r, rest, got, e⟩
  · exact .inl e
  · exact .inr e
  · exfalso
    have hwt := h.waits t
    rw [e] at hwt
    rcases hwt with ⟨e1, -⟩ | ⟨-, e2⟩
    · rw [hun] at e1; exact absurd e1.symm (Multiset.singleton_ne_zero r)
    · refine hs _ (GStep.does (P := prog f who key) g t (.await r rest got) true (MOp.get (key t) true) (MRes.found (some (f r))) (Function.update (theM (g.obj true)) (key t) none) e ?_)
      show mapStep (theM (g.obj true)) _ = _
      simp only [mapStep]
      rw [if_pos e2]; rfl

/-- C169: if there is a server, the threads cannot come to a standstill before every client has the answers to all its requests. -/
theorem C169_complete {f who : Nat → Nat} {n : Nat} {key : Fin n → Nat} (hk : Function.Injective key) {l0 : Fin n → Loc} (h0 : Fresh who key l0) {now : Bool → Clock} {c : CState O n Loc}
    (h : CReach O (prog f who key) now l0 c) (hs : Stuck (prog f who key) c) (hw : ∃ w, l0 w = .idle) (t : Fin n) : c.pos t = .out (.ask [] ((requests (l0 t)).map f)) ∨ l0 t = .idle := by
  obtain ⟨a, hg, -, hst⟩ := C166_no_new_deadlock kind (fun t l i op h => (calls_ok f who key t l i op h).1) h hs
  have hi := inv hk h0 hg
  have hh : Hist f (l0 t) (loc (gpos c t)) := hi.hist t
  rcases h0 t with ⟨reqs, e0, -⟩ | e0
  · left
    rw [e0] at hh ⊢
    rcases at_end hg hi hst hw t with ⟨got, e⟩ | e
    · have e : gpos c t = _ := e
      rw [e] at hh
      obtain ⟨done, e1, e2⟩ := hh
      rw [pos_of_gpos e, e2, requests, e1, List.append_nil]
    · have e : gpos c t = _ := e
      rw [e] at hh
      exact hh.elim
  · exact .inr e0

/-- Calls still to come. -/
def left : GP → Nat
  | .out (.ask rest _) => 4 * rest.length
  | .out (.await _ rest _) => 4 * rest.length + 1
  | .out .idle => 1
  | .out (.busy _) => 2
  | .asked (.ask rest _) _ _ => 4 * rest.length - 1
  | .asked (.await _ rest _) _ _ => 4 * rest.length
  | .asked .idle _ _ => 0
  | .asked (.busy _) _ _ => 1
  | .got (.ask rest _) _ _ _ => 4 * rest.length - 3
  | .got (.await _ rest _) _ _ _ => 4 * rest.length
  | .got .idle _ _ _ => 2
  | .got (.busy _) _ _ _ => 1

def todo {n : Nat} (g : G n) : Nat := (∑ t, left (g.pos t)) + 2 * (theQ (g.obj false)).length

theorem answers_measure (f who : Nat → Nat) {n : Nat} (key : Fin n → Nat) (l0 : Fin n → Loc) : Measure O (prog f who key) l0 todo := by
  have step : ∀ {S S' q q' x y : Nat}, S' + x = S + y → y + 2 * q' ≤ x + 2 * q → S' + 2 * q' ≤ S + 2 * q := fun h1 h2 => by omega
  have less : ∀ {S S' q x y : Nat}, S' + x = S + y → y < x → S' + 2 * q < S + 2 * q := fun h1 h2 => by omega
  have ask : ∀ (g : G n) (t : Fin n) (l : Loc) (i : Bool) (op : (O i).Op), g.pos t = .out l → (prog f who key).call t l i op → todo { g with pos := Function.update g.pos t (.asked l i op) } < todo g := by
    intro g t l i op h1 h2
    have hu := Pool.sum_upd left g.pos t (.asked l i op)
    rw [h1] at hu
    refine less hu ?_
    cases l with
    | ask rest got => cases rest with
      | nil => cases i <;> exact h2.elim
      | cons r rest => simp only [left, List.length_cons]; omega
    | await r rest got => exact Nat.lt_succ_self _
    | idle => exact Nat.one_pos
    | busy r => exact Nat.lt_succ_self _
  refine ⟨fun g g' hg st => ?_, fun _ _ _ _ _ _ h => h.elim, fun g t l i op _ h1 h2 => ask g t l i op h1 h2⟩
  have hmade := calls_made hg
  cases st with
  | tau t l l' h1 h2 => exact h2.elim
  | ask t l i op h1 h2 => exact (ask g t l i op h1 h2).le
  | does t l i op res a' h1 h2 =>
    have hc := (hmade t).1 l i op h1
    have hu := Pool.sum_upd left g.pos t (.got l i op res)
    rw [h1] at hu
    cases i with
    | false =>
      cases l with
      | ask rest got => cases rest with
        | nil => exact hc.elim
        | cons r rest =>
          cases (show op = QOp.write (some r) from hc)
          obtain ⟨-, e⟩ := write_does (q := theQ (g.obj false)) (q' := theQ a') h2
          refine step (q' := (theQ a').length) hu ?_
          rw [e, List.length_append, List.length_singleton]
          simp only [left, List.length_cons]; omega
      | idle =>
        cases (show op = QOp.read from hc)
        obtain ⟨r, -, e⟩ := read_does (q := theQ (g.obj false)) (q' := theQ a') h2
        refine step (q' := (theQ a').length) hu ?_
        rw [e, List.length_cons]
        simp only [left]; omega
      | _ => exact hc.elim
    | true =>
      cases l with
      | await r rest got => exact step hu (Nat.le_refl _)
      | busy r => exact step hu (Nat.le_refl _)
      | _ => exact hc.elim
  | cont t l i op res l' h1 h2 =>
    have hc := ((hmade t).2 l i op res h1).1
    have hu := Pool.sum_upd left g.pos t (.out l')
    rw [h1] at hu
    refine step hu (Nat.add_le_add_right ?_ _)
    cases i with
    | false =>
      cases l with
      | ask rest got => cases rest with
        | nil => exact hc.elim
        | cons r rest => cases (show l' = .await r rest got from h2); simp only [left, List.length_cons]; omega
      | idle => obtain ⟨r, -, rfl⟩ := h2; exact Nat.le_refl _
      | _ => exact hc.elim
    | true =>
      cases l with
      | await r rest got => obtain ⟨v, -, rfl⟩ := h2; exact Nat.le_refl _
      | busy r => cases (show l' = .idle from h2); exact Nat.le_refl _
      | _ => exact hc.elim

theorem ready (f who : Nat → Nat) {n : Nat} (key : Fin n → Nat) : (prog f who key).Ready := by
  intro t l i op res a a' hc h
  cases i with
  | false =>
    cases l with
    | ask rest got => cases rest with
      | nil => exact hc.elim
      | cons r rest => exact ⟨_, rfl⟩
    | idle =>
      cases (show op = QOp.read from hc)
      obtain ⟨v, e, -⟩ := read_does (q := theQ a) (q' := theQ a') h
      exact ⟨_, v, e, rfl⟩
    | _ => exact hc.elim
  | true =>
    cases l with
    | await r rest got =>
      cases (show op = MOp.get (key t) true from hc)
      obtain ⟨v, e, -⟩ := mget_does (m := theM a) (m' := theM a') h
      exact ⟨_, v, e, rfl⟩
    | busy r => exact ⟨_, rfl⟩
    | _ => exact hc.elim

/-- Whether a thread is a server. -/
def serves : Loc → Nat
  | .idle => 1
  | _ => 0

/-- C169: all threads together make at most four calls per request and one per server, and take at most `2n + 7` steps in the queue and the map for each (and two for each wakeup out of turn). -/
theorem C169_bounded {f who : Nat → Nat} {n : Nat} {key : Fin n → Nat} {l0 : Fin n → Loc} (h0 : Fresh who key l0) {now : Bool → Clock} {c : CState O n Loc} {taus made unasked own : Nat}
    (h : CRun O (prog f who key) now l0 c taus made unasked own) : made ≤ ∑ t, (4 * (requests (l0 t)).length + serves (l0 t)) ∧ own ≤ (2 * n + 7) * made + 2 * unasked := by
  have := C166_bounded kind (K := 2 * n + 7) (fun i => by cases i <;> simp only [Kind.cost] <;> omega) (fun t l i op h => (calls_ok f who key t l i op h).1) (answers_measure f who key l0) h
  refine ⟨?_, this.2⟩
  have e : todo (GState.start O l0) = ∑ t, (4 * (requests (l0 t)).length + serves (l0 t)) := by
    show (∑ t, left (.out (l0 t))) + 2 * 0 = ∑ t, _
    rw [Nat.mul_zero, Nat.add_zero]
    refine Finset.sum_congr rfl fun t _ => ?_
    rcases h0 t with ⟨reqs, e, -⟩ | e <;> (rw [e]; rfl)
  exact (Nat.le_add_left _ _).trans (this.1.trans e.le)

/-- C169: from wherever they are the threads do not go on for ever, whichever of those that can go on do so; and when none can, every client has the answers to all its requests, in order (if there
is a server). -/
theorem C169_finishes {f who : Nat → Nat} {n : Nat} {key : Fin n → Nat} (hk : Function.Injective key) {l0 : Fin n → Loc} (h0 : Fresh who key l0) {now : Bool → Clock} {c : CState O n Loc}
    (h : CReach O (prog f who key) now l0 c) (hw : ∃ w, l0 w = .idle) :
    (∃ N, ∀ c' k, Goes O (prog f who key) c c' k → k ≤ N) ∧ (∃ c' k, Goes O (prog f who key) c c' k ∧ Rest (prog f who key) c') ∧
      ∀ c' k, Goes O (prog f who key) c c' k → Rest (prog f who key) c' → ∀ t, c'.pos t = .out (.ask [] ((requests (l0 t)).map f)) ∨ l0 t = .idle := by
  obtain ⟨h1, h2, h3⟩ := C166_comes_to_rest kind (fun i => by cases i <;> trivial) (fun t l i op h => ⟨(calls_ok f who key t l i op h).1, (calls_ok f who key t l i op h).2.1⟩) (ready f who key)
    (answers_measure f who key l0) h
  exact ⟨h1, h2, fun c' k hg hr t => C169_complete hk h0 (hg.reach h) (h3 c' k hg hr).1 hw t⟩

/-! ### Examples -/

/-- Two clients and a server; a request is ten times the key plus a number, the answer adds 100. -/
def three : Fin 3 → Loc := ![.ask [1, 2] [], .ask [11] [], .idle]
def keys : Fin 3 → Nat := ![0, 1, 2]

theorem three_fresh : Fresh (· / 10) keys three := fun t => by
  fin_cases t
  · exact .inl ⟨[1, 2], rfl, by decide⟩
  · exact .inl ⟨[11], rfl, by decide⟩
  · exact .inr rfl

theorem keys_differ : Function.Injective keys := by decide

/-- From wherever they are they can go on until both clients have their answers. -/
example (now : Bool → Clock) (c : CState O 3 Loc) (h : CReach O (prog (· + 100) (· / 10) keys) now three c) :
    ∃ c' k, Goes O (prog (· + 100) (· / 10) keys) c c' k ∧ c'.pos 0 = .out (.ask [] [101, 102]) ∧ c'.pos 1 = .out (.ask [] [111]) := by
  obtain ⟨-, ⟨c', k, hg, hr⟩, h3⟩ := C169_finishes keys_differ three_fresh h ⟨2, rfl⟩
  refine ⟨c', k, hg, ?_, ?_⟩
  · rcases h3 c' k hg hr 0 with e | e
    · exact e
    · cases e
  · rcases h3 c' k hg hr 1 with e | e
    · exact e
    · cases e

example : ∑ t, (4 * (requests (three t)).length + serves (three t)) = 13 := by simp [Fin.sum_univ_three, three, requests, serves]

/-- Two clients with the same key can get each other's answers. -/
example (now : Bool → Clock) : ∃ c, CReach O (prog (· + 100) (fun _ => 0) fun _ => 0) now three c ∧ c.pos 0 = .out (.ask [2] [111]) := by
  have h0 : GReach O (prog (· + 100) (fun _ => 0) fun _ => 0) three (.start O three) := .refl
  have h1 := h0.step (GStep.ask (P := prog (· + 100) (fun _ => 0) fun _ => 0) _ 1 (Loc.ask [11] []) false (QOp.write (some 11)) (by rfl) (by exact rfl))
  have h2 := h1.step (GStep.does (P := prog (· + 100) (fun _ => 0) fun _ => 0) _ 1 (Loc.ask [11] []) false (QOp.write (some 11)) (QRes.unit) ([11] : List Nat) (by rfl) (by rfl))
  have h3 := h2.step (GStep.ask (P := prog (· + 100) (fun _ => 0) fun _ => 0) _ 0 (Loc.ask [1, 2] []) false (QOp.write (some 1)) (by rfl) (by exact rfl))
  have h4 := h3.step (GStep.does (P := prog (· + 100) (fun _ => 0) fun _ => 0) _ 0 (Loc.ask [1, 2] []) false (QOp.write (some 1)) (QRes.unit) ([11, 1] : List Nat) (by rfl) (by rfl))
  have h5 := h4.step (GStep.cont (P := prog (· + 100) (fun _ => 0) fun _ => 0) _ 0 (Loc.ask [1, 2] []) false (QOp.write (some 1)) (QRes.unit) (Loc.await 1 [2] []) (by rfl) (by exact rfl))
  have h6 := h5.step (GStep.ask (P := prog (· + 100) (fun _ => 0) fun _ => 0) _ 2 (Loc.idle) false (QOp.read) (by rfl) (by exact rfl))
  have h7 := h6.step (GStep.does (P := prog (· + 100) (fun _ => 0) fun _ => 0) _ 2 (Loc.idle) false (QOp.read) (QRes.ptr (some 11)) ([1] : List Nat) (by rfl) (by rfl))
  have h8 := h7.step (GStep.cont (P := prog (· + 100) (fun _ => 0) fun _ => 0) _ 2 (Loc.idle) false (QOp.read) (QRes.ptr (some 11)) (Loc.busy 11) (by rfl) (by exact ⟨11, rfl, rfl⟩))
  have h9 := h8.step (GStep.ask (P := prog (· + 100) (fun _ => 0) fun _ => 0) _ 2 (Loc.busy 11) true (MOp.write 0 (some 111)) (by rfl) (by exact rfl))
  have h10 := h9.step (GStep.does (P := prog (· + 100) (fun _ => 0) fun _ => 0) _ 2 (Loc.busy 11) true (MOp.write 0 (some 111)) (MRes.wrote none) (Function.update (fun _ => none) 0 (some (some 111)) : Nat → Option Val) (by rfl) (by rfl))
  have h11 := h10.step (GStep.ask (P := prog (· + 100) (fun _ => 0) fun _ => 0) _ 0 (Loc.await 1 [2] []) true (MOp.get 0 true) (by rfl) (by exact rfl))
  have h12 := h11.step (GStep.does (P := prog (· + 100) (fun _ => 0) fun _ => 0) _ 0 (Loc.await 1 [2] []) true (MOp.get 0 true) (MRes.found (some 111)) (Function.update (Function.update (fun _ => none) 0 (some (some 111))) 0 none : Nat → Option Val) (by rfl) (by rfl))
  have h13 := h12.step (GStep.cont (P := prog (· + 100) (fun _ => 0) fun _ => 0) _ 0 (Loc.await 1 [2] []) true (MOp.get 0 true) (MRes.found (some 111)) (Loc.ask [2] [111]) (by rfl) (by exact ⟨some 111, rfl, rfl⟩))
  obtain ⟨c, hc, hp, -⟩ := C166_exact kind (fun t l i op h => ⟨(calls_ok _ _ _ t l i op h).1, (calls_ok _ _ _ t l i op h).2.2⟩) now h13
  exact ⟨c, hc, pos_of_gpos ((congrFun hp 0).trans rfl)⟩

end Verif.Interthread.Answers
