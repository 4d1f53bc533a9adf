import Verif.Interthread.Containers
import Verif.Interthread.PriorityQueueProps

/-
Property C172, `InterthreadPriorityQueue` (`/repo/Interthread.h:642-732`) in single steps: each call on the `std::priority_queue` inside and each reading of the clock
is a step of its own (see `Verif.Interthread.Containers`).

Of `std::priority_queue` this is assumed: it keeps its elements in some order, and `top` and `pop` refer to the first one; `push` and `pop` put the elements into any
order in which the first one is not below another.
-/

namespace Verif.Interthread.Containers
open Verif Verif.Monitor Verif.Monitor.Tree

variable {gt : Nat → Nat → Prop}

/-- The first element may be on top. -/
def TopFirst (gt : Nat → Nat → Prop) (l : List Nat) : Prop := ∀ x ∈ l.head?, IsTop (pointerCompare gt) l x

/-- Calls on the `std::priority_queue` (Interthread.h:647). -/
inductive HCall where
  | size
  | top
  | pop
  | push (v : Nat)

def HCall.Ans : HCall → Type
  | .size => Nat
  | .top => Nat
  | _ => Unit

/-- What they do; `top` and `pop` of an empty queue are undefined. -/
def HCall.sem (gt : Nat → Nat → Prop) : (p : HCall) → List Nat → p.Ans → List Nat → Prop
  | .size, l, (a : Nat), l' => a = l.length ∧ l' = l
  | .top, l, (a : Nat), l' => l.head? = some a ∧ l' = l
  | .pop, l, _, l' => ∃ x t, l = x :: t ∧ l'.Perm t ∧ TopFirst gt l'
  | .push v, l, _, l' => l'.Perm (v :: l) ∧ TopFirst gt l'

def heap (gt : Nat → Nat → Prop) : Prims (List Nat) := ⟨HCall, HCall.Ans, HCall.sem gt⟩

/-- Code of a priority queue; its only loop is that of `clear`, with the items deleted so far. -/
abbrev HCode (gt : Nat → Nat → Prop) := Tree (heap gt) WS PQRes (List Nat)

def hSize (k : Nat → HCode gt) : HCode gt := .acc (A := heap gt) HCall.size k
def hTop (k : Nat → HCode gt) : HCode gt := .acc (A := heap gt) HCall.top k
def hPop (k : HCode gt) : HCode gt := .acc (A := heap gt) HCall.pop fun _ => k
def hPush (v : Nat) (k : HCode gt) : HCode gt := .acc (A := heap gt) (HCall.push v) fun _ => k

/-- `ipqGet`, Interthread.h:652-657. -/
def hGet (k : Option Nat → HCode gt) : HCode gt := hSize fun m => if ¬ m ≠ 0 then k none else hTop fun x => hPop (k (some x))

/-- The loop of `clear`, Interthread.h:666-670. -/
def hLoop (gone : List Nat) : HCode gt := hSize fun m => if 0 < m then hTop fun x => hPop (.jump (gone ++ [x])) else .ret (.done (.deleted gone) [] [])

/-- One pass through the section of each call (Interthread.h:650-730). -/
def hPass : PQOp → Stamp → HCode gt
  /- Interthread.h:724-730 -/
  | .write v, _ => hPush v (.ret (.done .unit [] [.one ()]))
  /- Interthread.h:694-699 -/
  | .read, _ => hSize fun m => if m = 0 then .ret (.wait ()) else hGet fun r => .ret (.done (.ptr r) [] [])
  /- Interthread.h:701-714 -/
  | .readT ms, t0 => if ms = 0 then hGet fun r => .ret (.done (.ptr r) [] []) else hSize fun m => if m = 0 then
      .time fun now => (match Timeval.remaining (Timeval.future t0.call ms) now with
        | .ok r => if r < 2 then .ret (.done (.ptr none) [] []) else .ret (limited now r ())
        | _ => .undef)
      else hGet fun r => .ret (.done (.ptr r) [] [])
  /- Interthread.h:687-691 -/
  | .readNoBlock, _ => hGet fun r => .ret (.done (.ptr r) [] [])
  /- Interthread.h:717-721 -/
  | .peek, _ => hSize fun m => if m ≠ 0 then hTop fun x => .ret (.done (.ptr (some x)) [] []) else .ret (.done (.ptr none) [] [])
  /- Interthread.h:679-683 -/
  | .size, _ => hSize fun m => .ret (.done (.num m) [] [])
  /- Interthread.h:663-671 -/
  | .clear, _ => hLoop []

/-- The priority queue in single steps. -/
def hSections (gt : Nat → Nat → Prop) : Sections (List Nat) WS PQOp PQRes (HCode gt) := Tree.sections hLoop hPass
def pqueueC (gt : Nat → Nat → Prop) : Mon (List Nat × Option (HCode gt)) WS PQOp PQRes := (hSections gt).fine

/-- The elements in some order, the first being on top, against the same elements in any order. -/
def Same (gt : Nat → Nat → Prop) (l q : List Nat) : Prop := l.Perm q ∧ TopFirst gt l

section
variable {now : Clock} {e : Ending WS PQRes} {l l' q : List Nat}

theorem end_hSize {k : Nat → HCode gt} : End hLoop now (hSize k) l e l' ↔ End hLoop now (k l.length) l e l' := by
  refine end_acc.trans ?_
  constructor
  · rintro ⟨a, d1, ⟨rfl, rfl⟩, h⟩
    exact h
  · exact fun h => ⟨_, _, ⟨rfl, rfl⟩, h⟩

theorem end_hTopPop {k : Nat → HCode gt} (h : End hLoop now (hTop fun x => hPop (k x)) l e l') :
    ∃ x t l1, l = x :: t ∧ l1.Perm t ∧ TopFirst gt l1 ∧ End hLoop now (k x) l1 e l' := by
  obtain ⟨x, _, ⟨h1, rfl⟩, h2⟩ := end_acc.mp h
  obtain ⟨_, l1, ⟨y, t, rfl, h3, h4⟩, h5⟩ := end_acc.mp h2
  cases h1
  exact ⟨x, t, l1, rfl, h3, h4, h5⟩

theorem top_perm {x : Nat} (h : IsTop (pointerCompare gt) l x) (hp : l.Perm q) : IsTop (pointerCompare gt) q x :=
  ⟨hp.mem_iff.mp h.1, fun y hy => h.2 y (hp.mem_iff.mpr hy)⟩

theorem same_pop {x : Nat} {t l1 : List Nat} (h : Same gt (x :: t) q) (hp : l1.Perm t) (ht : TopFirst gt l1) :
    IsTop (pointerCompare gt) q x ∧ Same gt l1 (q.erase x) := by
  refine ⟨top_perm (h.2 x rfl) h.1, hp.trans ?_, ht⟩
  have := h.1.erase x
  rwa [List.erase_cons_head] at this

/-- What `ipqGet` does. -/
theorem end_hGet {k : Option Nat → HCode gt} (hs : Same gt l q) (h : End hLoop now (hGet k) l e l') :
    ∃ r l1 q1, PQGet gt q r q1 ∧ Same gt l1 q1 ∧ End hLoop now (k r) l1 e l' := by
  unfold hGet at h
  rw [end_hSize] at h
  split at h
  · next hl =>
    have : l = [] := List.eq_nil_of_length_eq_zero (by simpa using hl)
    subst this
    have hq : q = [] := hs.1.nil_eq.symm
    exact ⟨none, [], [], .inl ⟨hq, rfl, rfl⟩, ⟨.refl _, fun x hx => nomatch hx⟩, h⟩
  · obtain ⟨x, t, l1, rfl, hp, ht, h1⟩ := end_hTopPop h
    have := same_pop hs hp ht
    exact ⟨some x, l1, q.erase x, .inr ⟨x, this.1, rfl, rfl⟩, this.2, h1⟩

theorem end_hLoop : ∀ {m : Nat} {l q gone : List Nat}, l.length = m → Same gt l q → End hLoop now (hLoop gone : HCode gt) l e l' →
    ∃ out, Drains gt q out ∧ e = .done (.deleted (gone ++ out)) [] [] ∧ l' = []
  | 0, l, q, gone, hm, hs, h => by
    have hl : l = [] := List.eq_nil_of_length_eq_zero hm
    subst hl
    have hq : q = [] := hs.1.nil_eq.symm
    have h : End hLoop now (hSize _ : HCode gt) [] e l' := h
    rw [end_hSize, if_neg (by simp), end_ret] at h
    exact ⟨[], hq, by rw [List.append_nil]; exact h.1, h.2⟩
  | m + 1, l, q, gone, hm, hs, h => by
    have h : End hLoop now (hSize _ : HCode gt) l e l' := h
    rw [end_hSize, if_pos (by omega)] at h
    obtain ⟨x, t, l1, rfl, hp, ht, h1⟩ := end_hTopPop h
    rw [end_jump] at h1
    have := same_pop hs hp ht
    obtain ⟨out, h2, h3, h4⟩ := end_hLoop (m := m) (by have := hp.length_eq; simp only [List.length_cons] at hm; omega) this.2 h1
    exact ⟨x :: out, ⟨this.1, h2⟩, by rw [h3, List.append_assoc]; rfl, h4⟩

theorem same_length (hs : Same gt l q) : l.length = q.length := hs.1.length_eq

/-- Each pass is one of the priority queue with indivisible sections. -/
theorem hPass_body {op : PQOp} {t0 : Stamp} (hs : Same gt l q) (h : End hLoop now (hPass op t0 : HCode gt) l e l') :
    ∃ q', pqbody gt op t0 now q (e.act q') ∧ Same gt l' q' := by
  have get : ∀ {l'}, End hLoop now (hGet fun r => .ret (.done (.ptr r) [] []) : HCode gt) l e l' → ∃ r q', PQGet gt q r q' ∧ e = .done (.ptr r) [] [] ∧ Same gt l' q' := by
    intro l' h
    obtain ⟨r, l1, q1, hg, hs1, h⟩ := end_hGet hs h
    obtain ⟨rfl, rfl⟩ := end_ret.mp h
    exact ⟨r, q1, hg, rfl, hs1⟩
  cases op with
  | write v =>
    obtain ⟨_, l1, ⟨h1, h2⟩, h3⟩ := end_acc.mp h
    obtain ⟨rfl, rfl⟩ := end_ret.mp h3
    exact ⟨v :: q, rfl, h1.trans (hs.1.cons v), h2⟩
  | read =>
    simp only [hPass] at h
    rw [end_hSize] at h
    split at h
    · next hl =>
      obtain ⟨rfl, rfl⟩ := end_ret.mp h
      exact ⟨q, .inl ⟨by rw [← same_length hs]; exact hl, rfl⟩, hs⟩
    · next hl =>
      obtain ⟨r, q', hg, rfl, hs'⟩ := get h
      exact ⟨q', .inr ⟨by rw [← same_length hs]; exact hl, r, q', hg, rfl⟩, hs'⟩
  | readT ms =>
    simp only [hPass] at h
    simp only [pqbody]
    split at h
    · next h0 =>
      obtain ⟨r, q', hg, rfl, hs'⟩ := get h
      exact ⟨q', by rw [if_neg (fun h => h.1 h0)]; exact ⟨r, q', hg, rfl⟩, hs'⟩
    · next h0 =>
      rw [end_hSize] at h
      split at h
      · next hl =>
        rw [end_time] at h
        have hc : ms ≠ 0 ∧ q.length = 0 := ⟨h0, by rw [← same_length hs]; exact hl⟩
        split at h
        · next r hr =>
          split at h
          · next h2 =>
            obtain ⟨rfl, rfl⟩ := end_ret.mp h
            exact ⟨q, by rw [if_pos hc]; exact ⟨r, hr, by rw [if_pos h2]; rfl⟩, hs⟩
          · next h2 =>
            obtain ⟨rfl, rfl⟩ := end_ret.mp h
            exact ⟨q, by rw [if_pos hc]; exact ⟨r, hr, by rw [if_neg h2]; exact limited_act ..⟩, hs⟩
        · exact (end_undef.mp h).elim
      · next hl =>
        obtain ⟨r, q', hg, rfl, hs'⟩ := get h
        exact ⟨q', by rw [if_neg (fun h => hl (by rw [same_length hs]; exact h.2))]; exact ⟨r, q', hg, rfl⟩, hs'⟩
  | readNoBlock =>
    obtain ⟨r, q', hg, rfl, hs'⟩ := get h
    exact ⟨q', ⟨r, q', hg, rfl⟩, hs'⟩
  | peek =>
    simp only [hPass] at h
    rw [end_hSize] at h
    split at h
    · next hl =>
      obtain ⟨x, _, ⟨h1, rfl⟩, h2⟩ := end_acc.mp h
      obtain ⟨rfl, rfl⟩ := end_ret.mp h2
      exact ⟨q, .inr ⟨x, top_perm (hs.2 x h1) hs.1, rfl⟩, hs⟩
    · next hl =>
      obtain ⟨rfl, rfl⟩ := end_ret.mp h
      exact ⟨q, .inl ⟨List.eq_nil_of_length_eq_zero (by rw [← same_length hs]; simpa using hl), rfl⟩, hs⟩
  | size =>
    simp only [hPass] at h
    rw [end_hSize] at h
    obtain ⟨rfl, rfl⟩ := end_ret.mp h
    exact ⟨q, by rw [same_length hs]; rfl, hs⟩
  | clear =>
    obtain ⟨out, h1, h2, rfl⟩ := end_hLoop rfl hs h
    exact ⟨[], ⟨out, h1, by rw [h2]; rfl⟩, .refl _, fun x hx => nomatch hx⟩

end

theorem late_hGet {k : Option Nat → HCode gt} (h : ∀ r, Late (k r)) : Late (hGet k) := by
  intro m
  dsimp only
  split
  · exact h _
  · exact fun _ _ => h _

theorem late_hLoop (gone : List Nat) : Late (hLoop gone : HCode gt) := by
  intro m
  dsimp only
  split
  · exact fun _ _ => trivial
  · trivial

theorem early_hPass (op : PQOp) (t0 : Stamp) : Early (hPass op t0 : HCode gt) := by
  cases op with
  | write v => exact fun _ => trivial
  | read =>
    intro m
    dsimp only
    split
    · trivial
    · exact early_of_late (late_hGet fun _ => trivial)
  | readT ms =>
    simp only [hPass]
    split
    · exact early_of_late (late_hGet fun _ => trivial)
    · intro m
      dsimp only
      split
      · intro c
        dsimp only
        split
        · split <;> trivial
        · trivial
      · exact early_of_late (late_hGet fun _ => trivial)
  | readNoBlock => exact early_of_late (late_hGet (k := fun r => .ret (.done (.ptr r) [] [])) fun _ => trivial)
  | peek =>
    intro m
    dsimp only
    split
    · exact fun _ => trivial
    · trivial
  | size => exact fun _ => trivial
  | clear => exact early_of_late (late_hLoop _)

/-- **C172** `InterthreadPriorityQueue`: however threads are interrupted between the calls on the `std::priority_queue` inside, in particular between `top` and `pop`,
callers see an execution in which all sections are indivisible. -/
theorem C172_priority {n : Nat} {ok : Fin n → PQOp → Prop} {now : Clock} {s : St n (List Nat × Option (HCode gt)) WS PQOp PQRes}
    (h : Reach (pqueueC gt) ok (init n now ([], none)) s) :
    ∃ s' : St n (List Nat) WS PQOp PQRes, Reach (pqueue gt) ok (init n now []) s' ∧ s'.now = s.now ∧ s'.owner = s.owner ∧ s'.th = s.th ∧ visible s'.tr = visible s.tr ∧
      (s.data.2 = none → s.data.1.Perm s'.data) := by
  obtain ⟨s1, h1, m⟩ := C171_indivisible (hSections gt) (once late_hLoop early_hPass) h
  obtain ⟨s', h2, e1, e2, e3, e4, e5⟩ := refine_data (M' := pqueue gt) (ρ := Same gt) (P := fun _ => True) (d0' := []) (fun _ _ _ => trivial)
    ⟨.refl _, fun x hx => nomatch hx⟩ (by
      rintro s s1 - - - - hd op t0 nw a ⟨k, l', e, hr, hk, rfl⟩
      cases (hk : k = .ret e)
      obtain ⟨q', hb, hs⟩ := hPass_body hd (run_end.mp hr)
      refine ⟨_, hb, ?_⟩
      cases e with
      | done r i o => exact .done _ _ _ hs
      | wait c => exact .wait _ hs
      | again => exact .spin hs) h1 trivial
  exact ⟨s', h2, e1.trans m.now, e2.trans m.owner, e3.trans m.th, e4.trans m.tr, fun hn => by rw [← m.rest hn]; exact e5.1⟩

/-- The remaining time of a call overflows at some reading of the clock. -/
def HOverflow : PQOp → Stamp → Prop
  | .readT ms, t0 => ∃ c, ∀ r, Timeval.remaining (Timeval.future t0.call ms) c ≠ .ok r
  | _, _ => False

section
variable {bad : Prop} {l : List Nat}

/-- There is an order with a top element first. -/
theorem exists_order (hirr : ∀ a, ¬ gt a a) (htr : ∀ a b c, gt a b → gt b c → gt a c) (l : List Nat) : ∃ l' : List Nat, l'.Perm l ∧ TopFirst gt l' := by
  by_cases hl : l = []
  · subst hl
    exact ⟨[], .refl _, fun x hx => nomatch hx⟩
  · obtain ⟨x, hx⟩ := C28_top_exists hirr htr l hl
    have hp : (x :: l.erase x).Perm l := (List.perm_cons_erase hx.1).symm
    refine ⟨x :: l.erase x, hp, ?_⟩
    intro y hy
    cases hy
    exact top_perm hx hp.symm

theorem safe_hSize {k : Nat → HCode gt} (h : Safe hLoop bad (k l.length) l) : Safe hLoop bad (hSize k) l :=
  .acc (A := heap gt) ⟨_, _, rfl, rfl⟩ (by rintro a d' ⟨rfl, rfl⟩; exact h)

theorem safe_hTopPop (hirr : ∀ a, ¬ gt a a) (htr : ∀ a b c, gt a b → gt b c → gt a c) {k : Nat → HCode gt} (hl : l ≠ [])
    (h : ∀ x l1, l1.length + 1 = l.length → Safe hLoop bad (k x) l1) : Safe hLoop bad (hTop fun x => hPop (k x)) l := by
  cases l with
  | nil => exact absurd rfl hl
  | cons x t =>
    refine .acc (A := heap gt) ⟨x, _, rfl, rfl⟩ ?_
    rintro a _ ⟨h1, rfl⟩
    cases h1
    obtain ⟨l', h2, h3⟩ := exists_order hirr htr t
    refine .acc (A := heap gt) ⟨(), l', x, t, rfl, h2, h3⟩ ?_
    rintro _ l1 ⟨y, t', h4, h5, _⟩
    cases h4
    exact h _ _ (by rw [h5.length_eq]; rfl)

theorem safe_hGet (hirr : ∀ a, ¬ gt a a) (htr : ∀ a b c, gt a b → gt b c → gt a c) {k : Option Nat → HCode gt} (h : ∀ r l1, Safe hLoop bad (k r) l1) :
    Safe hLoop bad (hGet k) l := by
  refine safe_hSize ?_
  split
  · exact h _ _
  · next hl =>
    refine safe_hTopPop hirr htr (fun e => hl (by rw [e]; simp)) fun x l1 _ => h _ _

theorem safe_hLoop (hirr : ∀ a, ¬ gt a a) (htr : ∀ a b c, gt a b → gt b c → gt a c) : ∀ {m : Nat} {l gone : List Nat}, l.length = m → Safe hLoop bad (hLoop gone : HCode gt) l
  | 0, l, gone, hm => by
    refine safe_hSize ?_
    rw [if_neg (by omega)]
    exact .ret
  | m + 1, l, gone, hm => by
    refine safe_hSize ?_
    rw [if_pos (by omega)]
    exact safe_hTopPop hirr htr (fun e => by rw [e] at hm; cases hm) fun x l1 h1 => .jump (safe_hLoop (m := m) hirr htr (by omega))

end

theorem safe_hPass (hirr : ∀ a, ¬ gt a a) (htr : ∀ a b c, gt a b → gt b c → gt a c) (op : PQOp) (t0 : Stamp) (l : List Nat) :
    Safe hLoop (HOverflow op t0) (hPass op t0 : HCode gt) l := by
  have get : ∀ bad l, Safe hLoop bad (hGet fun r => .ret (.done (.ptr r) [] []) : HCode gt) l := fun _ _ => safe_hGet hirr htr fun _ _ => .ret
  cases op with
  | write v =>
    obtain ⟨l', h⟩ := exists_order hirr htr (v :: l)
    exact .acc (A := heap gt) ⟨(), l', h⟩ fun _ _ _ => .ret
  | read =>
    refine safe_hSize ?_
    split
    · exact .ret
    · exact get _ _
  | readT ms =>
    simp only [hPass]
    split
    · exact get _ _
    · refine safe_hSize ?_
      split
      · refine .time fun c => ?_
        split
        · split <;> exact .ret
        · next h => exact .undef ⟨c, fun r hr => h r hr⟩
      · exact get _ _
  | readNoBlock => exact get _ _
  | peek =>
    refine safe_hSize ?_
    cases l with
    | nil =>
      rw [if_neg (by simp)]
      exact .ret
    | cons x t =>
      rw [if_pos (by simp)]
      exact .acc (A := heap gt) ⟨x, _, rfl, rfl⟩ fun _ _ _ => .ret
  | size => exact safe_hSize .ret
  | clear => exact safe_hLoop hirr htr rfl

/-- **C172** If `>` on the items is irreflexive and transitive: neither `top` nor `pop` is ever called on an empty `std::priority_queue`, and sections come to their end. -/
theorem C172_priority_safe (hirr : ∀ a, ¬ gt a a) (htr : ∀ a b c, gt a b → gt b c → gt a c) {n : Nat} {ok : Fin n → PQOp → Prop} {now : Clock}
    {s : St n (List Nat × Option (HCode gt)) WS PQOp PQRes} (h : Reach (pqueueC gt) ok (init n now ([], none)) s) {k : HCode gt} (hk : s.data.2 = some k) :
    ∃ t op t0, s.owner = some t ∧ s.th t = .holding op t0 ∧ Safe hLoop (HOverflow op t0) k s.data.1 :=
  C172_safe late_hLoop early_hPass (safe_hPass hirr htr) h hk

/- `readNoBlock` takes the smallest of 1, 5 and 3. -/
example : (hSections (· > ·)).whole.body .readNoBlock ⟨⟨5, 0⟩, ⟨5, 0⟩⟩ ⟨5, 0⟩ [1, 5, 3] (.done [3, 5] (.ptr (some 1)) [] []) := by
  refine ⟨.ret (.done (.ptr (some 1)) [] []), [3, 5], _, run_end.mpr ?_, rfl, rfl⟩
  refine end_hSize.mpr ?_
  rw [if_neg (by simp)]
  refine .acc (A := heap (· > ·)) (p := .top) (a := (1 : Nat)) ⟨rfl, rfl⟩ (.acc (A := heap (· > ·)) (p := .pop) (a := ()) ⟨1, [5, 3], rfl, List.Perm.swap .., ?_⟩ .ret)
  intro x hx
  cases hx
  exact ⟨by simp, by simp [pointerCompare]⟩

end Verif.Interthread.Containers
