import Verif.Monitor.Programs

/-
Things that threads hand to each other through the classes of `/repo/Interthread.h`, and the memory model of C++: which uses of a thing are ordered by the locks inside of these classes.
-/

namespace Verif.Monitor

/-- A class as a place where things of type `X` can be kept: what its data holds, what a caller parts with when it makes a call, and what it has got when the call returns. -/
structure Box (X : Type) where
  σ : Type
  C : Type
  Op : Type
  R : Type
  dec : DecidableEq C
  M : Mon σ C Op R
  holds : σ → Multiset X
  gives : Op → Multiset X
  takes : Op → R → Multiset X

attribute [instance] Box.dec

/-- A call does not make a thing twice out of one. -/
structure Box.Fair {X : Type} (B : Box X) : Prop where
  done : ∀ {op t0 now d d' r i o}, B.M.body op t0 now d (.done d' r i o) → B.holds d' + B.takes op r ≤ B.holds d + B.gives op
  wait : ∀ {op t0 now d d' c}, B.M.body op t0 now d (.wait d' c) → B.holds d' ≤ B.holds d
  spin : ∀ {op t0 now d d'}, B.M.body op t0 now d (.spin d') → B.holds d' ≤ B.holds d

/-- A call does not lose anything, as long as the data are as they should be. -/
structure Box.Safe {X : Type} (B : Box X) (good : B.σ → Prop) : Prop where
  done : ∀ {op t0 now d d' r i o}, good d → B.M.body op t0 now d (.done d' r i o) → good d' ∧ ∀ x ∈ B.holds d + B.gives op, x ∈ B.holds d' + B.takes op r
  wait : ∀ {op t0 now d d' c}, good d → B.M.body op t0 now d (.wait d' c) → good d' ∧ ∀ x ∈ B.holds d, x ∈ B.holds d'
  spin : ∀ {op t0 now d d'}, good d → B.M.body op t0 now d (.spin d') → good d' ∧ ∀ x ∈ B.holds d, x ∈ B.holds d'

variable {I X : Type} {n : Nat}

/-- What counts for the order of uses: a thread takes the lock of box `i`, releases it, uses a thing. -/
inductive Mem (n : Nat) (I X : Type) where
  | acq (t : Fin n) (i : I)
  | rel (t : Fin n) (i : I)
  | use (t : Fin n) (x : X)

def Mem.thread : Mem n I X → Fin n
  | .acq t _ => t
  | .rel t _ => t
  | .use t _ => t

/-- Happens before, as in C++ (6.9.2.1) and POSIX: the order within a thread, from each release of a mutex to each later acquisition of it, and what follows from these. -/
inductive HB (tr : List (Mem n I X)) : Nat → Nat → Prop where
  | order {j k e e'} : j < k → tr[j]? = some e → tr[k]? = some e' → e.thread = e'.thread → HB tr j k
  | sync {j k t u i} : j < k → tr[j]? = some (.rel t i) → tr[k]? = some (.acq u i) → HB tr j k
  | trans {j k l} : HB tr j k → HB tr k l → HB tr j l

/-- The boxes, what threads have, and what has happened. -/
structure HState (B : I → Box X) (n : Nat) where
  obj : (i : I) → St n (B i).σ (B i).C (B i).Op (B i).R
  have_ : Fin n → Multiset X
  tr : List (Mem n I X)

/-- What of this a step inside of box `i` is: taking or releasing its lock, or nothing. -/
def lockEvent (i : I) : Option (Fin n) → Option (Fin n) → List (Mem n I X)
  | none, some t => [.acq t i]
  | some t, none => [.rel t i]
  | _, _ => []

/-- The things a thread has brought into a call or got from it. -/
def Box.inside (B : Box X) : Option (B.Op × Option B.R) → Multiset X
  | none => 0
  | some (op, none) => B.gives op
  | some (op, some r) => B.takes op r

/-- Steps: a thread uses something that it has; inside of a call, with the lock, it uses something in the box, or something that it brought or has got; it makes a call on one box, parting with things that
it has; something happens inside of a box; a call returns. -/
inductive HStep [DecidableEq I] (B : I → Box X) : HState B n → HState B n → Prop where
  | use (h t x) : (∀ i, (h.obj i).th t = .idle) → x ∈ h.have_ t → HStep B h { h with tr := h.tr ++ [.use t x] }
  | useIn (h t i x) : (h.obj i).owner = some t → x ∈ (B i).holds (h.obj i).data + (B i).inside (view ((h.obj i).th t)) → HStep B h { h with tr := h.tr ++ [.use t x] }
  | call (h t i op rest s') : (∀ j, (h.obj j).th t = .idle) → h.have_ t = rest + (B i).gives op → Step (B i).M (h.obj i) (.start t op) s' →
      HStep B h { h with obj := Function.update h.obj i s', have_ := Function.update h.have_ t rest }
  | inner (h i lb s') : Step (B i).M (h.obj i) lb s' → (∀ t op, lb ≠ .start t op) → (∀ t, lb ≠ .ret t) →
      HStep B h { h with obj := Function.update h.obj i s', tr := h.tr ++ lockEvent i (h.obj i).owner s'.owner }
  | ret (h t i op r s') : (h.obj i).th t = .after op r [] → Step (B i).M (h.obj i) (.ret t) s' →
      HStep B h { h with obj := Function.update h.obj i s', have_ := Function.update h.have_ t (h.have_ t + (B i).takes op r) }

/-- A place where things can be. -/
inductive Place (n : Nat) (I : Type) where
  | mine (t : Fin n)
  | call (i : I) (t : Fin n)
  | box (i : I)

/-- What is there. -/
def HState.at_ {B : I → Box X} (h : HState B n) : Place n I → Multiset X
  | .mine t => h.have_ t
  | .call i t => (B i).inside (view ((h.obj i).th t))
  | .box i => (B i).holds (h.obj i).data

/-- Nothing is in two places, or twice in one. -/
def Single {P : Type} (f : P → Multiset X) : Prop := (∀ p, (f p).Nodup) ∧ ∀ p q x, x ∈ f p → x ∈ f q → p = q

/-- The beginning: no thread is inside of a call; everything is in one place only. -/
structure HState.Start {B : I → Box X} (h : HState B n) : Prop where
  idle : ∀ i t, (h.obj i).th t = .idle
  free : ∀ i, (h.obj i).owner = none
  single : Single h.at_
  tr : h.tr = []

inductive HReach [DecidableEq I] (B : I → Box X) (h0 : HState B n) : HState B n → Prop where
  | refl : HReach B h0 h0
  | step {h h'} : HReach B h0 h → HStep B h h' → HReach B h0 h'

/-! ### Things move, but are not doubled -/

theorem single_move {P : Type} {f g : P → Multiset X} (hf : Single f) (p q : P) (hpq : p ≠ q) (h : g p + g q ≤ f p + f q) (hr : ∀ r, r ≠ p → r ≠ q → g r = f r) : Single g := by
  have nd : (f p + f q).Nodup := by
    rw [Multiset.nodup_add]
    exact ⟨hf.1 p, hf.1 q, Multiset.disjoint_left.mpr fun {x} h1 h2 => hpq (hf.2 p q x h1 h2)⟩
  have nd' := Multiset.nodup_of_le h nd
  rw [Multiset.nodup_add] at nd'
  obtain ⟨n1, n2, dj⟩ := nd'
  have back : ∀ r x, x ∈ g r → ∃ s, x ∈ f s ∧ (r = p ∨ r = q → s = p ∨ s = q) ∧ (r ≠ p → r ≠ q → s = r) := by
    intro r x hx
    by_cases e : r = p ∨ r = q
    · have : x ∈ f p + f q := by
        refine Multiset.mem_of_le h (Multiset.mem_add.mpr ?_)
        rcases e with rfl | rfl
        · exact .inl hx
        · exact .inr hx
      rcases Multiset.mem_add.mp this with hx | hx
      · exact ⟨p, hx, fun _ => .inl rfl, fun a b => (e.elim a b).elim⟩
      · exact ⟨q, hx, fun _ => .inr rfl, fun a b => (e.elim a b).elim⟩
    · rw [not_or] at e
      rw [hr r e.1 e.2] at hx
      exact ⟨r, hx, fun e' => (e'.elim e.1 e.2).elim, fun _ _ => rfl⟩
  refine ⟨fun r => ?_, fun r s x hx hy => ?_⟩
  · by_cases e : r = p
    · exact e ▸ n1
    by_cases e' : r = q
    · exact e' ▸ n2
    rw [hr r e e']
    exact hf.1 r
  · obtain ⟨r', h1, h2, h3⟩ := back r x hx
    obtain ⟨s', k1, k2, k3⟩ := back s x hy
    have e := hf.2 _ _ _ h1 k1
    subst e
    by_cases er : r = p ∨ r = q
    · by_cases es : s = p ∨ s = q
      · rcases er with rfl | rfl <;> rcases es with rfl | rfl
        · rfl
        · exact (Multiset.disjoint_left.mp dj hx hy).elim
        · exact (Multiset.disjoint_left.mp dj hy hx).elim
        · rfl
      · rw [not_or] at es
        have := k3 es.1 es.2
        subst this
        exact absurd (h2 er) (not_or.mpr es)
    · rw [not_or] at er
      have e1 := h3 er.1 er.2
      subst e1
      by_cases es : s = p ∨ s = q
      · exact absurd (k2 es) (not_or.mpr er)
      · rw [not_or] at es
        exact k3 es.1 es.2

/-! ### What is known to have happened -/

/-- Event `k` comes before whatever thread `t` does next. -/
def Known (tr : List (Mem n I X)) (t : Fin n) (k : Nat) : Prop := ∃ j e, tr[j]? = some e ∧ e.thread = t ∧ (k = j ∨ HB tr k j)

/-- Event `k` comes before whatever is done by the thread that takes the lock of box `i` next. -/
def KnownLock (tr : List (Mem n I X)) (i : I) (k : Nat) : Prop := ∃ j t, tr[j]? = some (.rel t i) ∧ (k = j ∨ HB tr k j)

def KnownAt {B : I → Box X} (h : HState B n) (k : Nat) : Place n I → Prop
  | .mine t => Known h.tr t k
  | .call _ t => Known h.tr t k
  | .box i => match (h.obj i).owner with
    | none => KnownLock h.tr i k
    | some t => Known h.tr t k

theorem get_append {tr l : List (Mem n I X)} {j : Nat} {e : Mem n I X} (h : tr[j]? = some e) : (tr ++ l)[j]? = some e := by
  rw [List.getElem?_append_left (List.getElem?_eq_some_iff.mp h).1, h]

theorem HB.append {tr : List (Mem n I X)} (l : List (Mem n I X)) {j k : Nat} (h : HB tr j k) : HB (tr ++ l) j k := by
  induction h with
  | order a b c d => exact .order a (get_append b) (get_append c) d
  | sync a b c => exact .sync a (get_append b) (get_append c)
  | trans _ _ h1 h2 => exact .trans h1 h2

theorem Known.append {tr : List (Mem n I X)} (l : List (Mem n I X)) {t : Fin n} {k : Nat} (h : Known tr t k) : Known (tr ++ l) t k := by
  obtain ⟨j, e, h1, h2, h3⟩ := h
  exact ⟨j, e, get_append h1, h2, h3.imp id (HB.append l)⟩

theorem KnownLock.append {tr : List (Mem n I X)} (l : List (Mem n I X)) {i : I} {k : Nat} (h : KnownLock tr i k) : KnownLock (tr ++ l) i k := by
  obtain ⟨j, e, h1, h3⟩ := h
  exact ⟨j, e, get_append h1, h3.imp id (HB.append l)⟩

theorem get_last (tr : List (Mem n I X)) (e : Mem n I X) : (tr ++ [e])[tr.length]? = some e := by simp

/-- What a thread knows comes before what it does next. -/
theorem Known.before {tr : List (Mem n I X)} {t : Fin n} {k : Nat} (h : Known tr t k) {e : Mem n I X} (he : e.thread = t) : HB (tr ++ [e]) k tr.length := by
  obtain ⟨j, e', h1, h2, h3⟩ := h
  have o : HB (tr ++ [e]) j tr.length := .order (List.getElem?_eq_some_iff.mp h1).1 (get_append h1) (get_last _ _) (h2.trans he.symm)
  rcases h3 with rfl | h3
  · exact o
  · exact (h3.append _).trans o

theorem Known.now {tr : List (Mem n I X)} {t : Fin n} {e : Mem n I X} (he : e.thread = t) : Known (tr ++ [e]) t tr.length := ⟨_, e, get_last _ _, he, .inl rfl⟩

theorem Known.release {tr : List (Mem n I X)} {t : Fin n} {k : Nat} (h : Known tr t k) (i : I) : KnownLock (tr ++ [.rel t i]) i k :=
  ⟨_, t, get_last _ _, .inr (h.before rfl)⟩

theorem KnownLock.acquire {tr : List (Mem n I X)} {i : I} {k : Nat} (h : KnownLock tr i k) (t : Fin n) : Known (tr ++ [.acq t i]) t k := by
  obtain ⟨j, u, h1, h3⟩ := h
  refine ⟨_, _, get_last _ _, rfl, .inr ?_⟩
  have o : HB (tr ++ [.acq t i]) j tr.length := .sync (List.getElem?_eq_some_iff.mp h1).1 (get_append h1) (get_last _ _)
  rcases h3 with rfl | h3
  · exact o
  · exact (h3.append _).trans o

/-! ### Steps inside of a box -/

theorem step_owner {σ C Op R : Type} [DecidableEq C] {M : Mon σ C Op R} {s s' : St n σ C Op R} {l : Lbl n Op} (st : Step M s l s') :
    s'.owner = s.owner ∨ (∃ t, s.owner = none ∧ s'.owner = some t) ∨ ∃ t, s.owner = some t ∧ s'.owner = none := by
  cases st with
  | lock t op t0 h1 h2 => exact .inr (.inl ⟨t, h2, rfl⟩)
  | relock t op t0 h1 h2 => exact .inr (.inl ⟨t, h2, rfl⟩)
  | bodyWait t op t0 d c h1 h2 => exact .inr (.inr ⟨t, h2, rfl⟩)
  | unlock t op r o h1 h2 => exact .inr (.inr ⟨t, h2, rfl⟩)
  | _ => exact .inl rfl

theorem body_owner {σ C Op R : Type} [DecidableEq C] {M : Mon σ C Op R} {s s' : St n σ C Op R} {t : Fin n} (st : Step M s (.body t) s') : s.owner = some t := by
  cases st <;> assumption

/-- Where the things in a box and in the calls on it come from. -/
theorem box_step {B : Box X} (hB : B.Fair) {s s' : St n B.σ B.C B.Op B.R} {l : Lbl n B.Op} (st : Step B.M s l s') (h1 : ∀ t op, l ≠ .start t op) (h2 : ∀ t, l ≠ .ret t) :
    (B.holds s'.data = B.holds s.data ∧ ∀ u, B.inside (view (s'.th u)) = B.inside (view (s.th u))) ∨
    ∃ t, s.owner = some t ∧ B.holds s'.data + B.inside (view (s'.th t)) ≤ B.holds s.data + B.inside (view (s.th t)) ∧
      ∀ u, u ≠ t → B.inside (view (s'.th u)) = B.inside (view (s.th u)) := by
  rcases step_view st with ⟨e1, e2, -, -⟩ | ⟨t, op, t0, rfl, e1, e2, e3⟩ | ⟨t, op, rfl, -⟩ | ⟨t, op, r, rfl, e1, e2, e3, t0, i, o, e4⟩ | ⟨t, op, r, rfl, -⟩
  · exact .inl ⟨by rw [e1], fun u => by rw [e2]⟩
  · refine .inr ⟨t, body_owner st, ?_, fun u _ => by rw [e2]⟩
    rw [e2]
    refine add_le_add ?_ (le_refl _)
    rcases e3 with ⟨c, e3⟩ | e3
    · exact hB.wait e3
    · exact hB.spin e3
  · exact absurd rfl (h1 t op)
  · refine .inr ⟨t, body_owner st, ?_, fun u hu => by rw [e3 u hu]⟩
    rw [e1, e2]
    exact hB.done e4
  · exact absurd rfl (h2 t)

/-! ### The invariant -/

section
variable {B : I → Box X}

structure HInv (h : HState B n) : Prop where
  single : Single h.at_
  known : ∀ k t x p, h.tr[k]? = some (.use t x) → x ∈ h.at_ p → KnownAt h k p
  ordered : ∀ j k t u x, j < k → h.tr[j]? = some (.use t x) → h.tr[k]? = some (.use u x) → HB h.tr j k

theorem lockEvent_use {i : I} {a b : Option (Fin n)} {t : Fin n} {x : X} : Mem.use t x ∉ (lockEvent i a b : List (Mem n I X)) := by
  cases a <;> cases b <;> simp [lockEvent]

theorem old_use {tr l : List (Mem n I X)} {k : Nat} {t : Fin n} {x : X} (hl : Mem.use t x ∉ l) (h : (tr ++ l)[k]? = some (.use t x)) : tr[k]? = some (.use t x) := by
  rw [List.getElem?_append] at h
  split at h
  · exact h
  · exact absurd (List.mem_of_getElem? h) hl

/-- A use of something by a thread that knows about the earlier uses. -/
theorem HInv.use {h : HState B n} (hi : HInv h) {t : Fin n} {x : X} {p : Place n I} (hx : x ∈ h.at_ p)
    (hp : ∀ (tr : List (Mem n I X)) k, KnownAt { h with tr := tr } k p ↔ Known tr t k) : HInv { h with tr := h.tr ++ [.use t x] } := by
  have kn : ∀ k u, h.tr[k]? = some (.use u x) → HB (h.tr ++ [.use t x]) k h.tr.length := fun k u hk => ((hp _ _).mp (hi.known k u x p hk hx)).before rfl
  refine ⟨hi.single, fun k u y q hk hy => ?_, fun j k u v y hjk hj hk => ?_⟩
  · have hy : y ∈ h.at_ q := hy
    have hk : (h.tr ++ [.use t x])[k]? = some (.use u y) := hk
    rw [List.getElem?_append] at hk
    split at hk
    · have := hi.known k u y q hk hy
      cases q with
      | mine w => exact Known.append _ this
      | call i w => exact Known.append _ this
      | box i =>
        unfold KnownAt at this ⊢
        dsimp only at this ⊢
        cases ho : (h.obj i).owner with
        | none => rw [ho] at this; exact KnownLock.append _ this
        | some w => rw [ho] at this; exact Known.append _ this
    · rename_i hlt
      have hk0 : k - h.tr.length = 0 := by
        by_contra hne
        rw [List.getElem?_eq_none (by simp; omega)] at hk
        cases hk
      rw [hk0] at hk
      cases hk
      have e : k = h.tr.length := by omega
      subst e
      have := hi.single.2 _ _ _ hx hy
      subst this
      exact (hp _ _).mpr (Known.now rfl)
  · have hj : (h.tr ++ [.use t x])[j]? = some (.use u y) := hj
    have hk : (h.tr ++ [.use t x])[k]? = some (.use v y) := hk
    show HB (h.tr ++ [.use t x]) j k
    by_cases hlt : k < h.tr.length
    · rw [List.getElem?_append_left hlt] at hk
      rw [List.getElem?_append_left (by omega)] at hj
      exact (hi.ordered j k u v y hjk hj hk).append _
    · have hkl := (List.getElem?_eq_some_iff.mp hk).1
      simp at hkl
      have e : k = h.tr.length := by omega
      subst e
      rw [get_last] at hk
      cases hk
      rw [List.getElem?_append_left hjk] at hj
      exact kn j u hj

theorem KnownAt.mono {h h' : HState B n} {k : Nat} {p : Place n I} {l : List (Mem n I X)} (htr : h'.tr = h.tr ++ l) (ho : ∀ i, p = .box i → (h'.obj i).owner = (h.obj i).owner)
    (hk : KnownAt h k p) : KnownAt h' k p := by
  cases p with
  | mine t => exact (show Known h'.tr t k from htr ▸ Known.append l hk)
  | call i t => exact (show Known h'.tr t k from htr ▸ Known.append l hk)
  | box i =>
    simp only [KnownAt, ho i rfl] at hk ⊢
    split at hk
    · exact htr ▸ KnownLock.append l hk
    · exact htr ▸ Known.append l hk

/-- A thread begins or ends a call. -/
theorem HInv.pass {h h' : HState B n} (hi : HInv h) (t : Fin n) (i : I) (ho : ∀ j, (h'.obj j).owner = (h.obj j).owner) (htr : h'.tr = h.tr)
    (hm : h'.at_ (.mine t) + h'.at_ (.call i t) ≤ h.at_ (.mine t) + h.at_ (.call i t)) (hr : ∀ r, r ≠ .mine t → r ≠ .call i t → h'.at_ r = h.at_ r) : HInv h' := by
  refine ⟨single_move hi.single (.mine t) (.call i t) (fun e => nomatch e) hm hr, fun k u x p hk hx => ?_, fun j k u v x hjk hj hk => ?_⟩
  · rw [htr] at hk
    have both : x ∈ h.at_ (.mine t) + h.at_ (.call i t) → Known h'.tr t k := by
      intro hx
      rw [htr]
      rcases Multiset.mem_add.mp hx with hx | hx
      · exact hi.known k u x _ hk hx
      · exact hi.known k u x _ hk hx
    by_cases e1 : p = .mine t
    · subst e1
      exact both (Multiset.mem_of_le hm (Multiset.mem_add.mpr (.inl hx)))
    by_cases e2 : p = .call i t
    · subst e2
      exact both (Multiset.mem_of_le hm (Multiset.mem_add.mpr (.inr hx)))
    rw [hr p e1 e2] at hx
    exact KnownAt.mono (l := []) (by rw [htr, List.append_nil]) (fun j _ => ho j) (hi.known k u x p hk hx)
  · rw [htr] at hj hk ⊢
    exact hi.ordered j k u v x hjk hj hk

section
variable [DecidableEq I]

theorem at_call_same (h : HState B n) (i : I) (s' : St n (B i).σ (B i).C (B i).Op (B i).R) (m : Fin n → Multiset X) (tr : List (Mem n I X)) (t : Fin n) :
    (⟨Function.update h.obj i s', m, tr⟩ : HState B n).at_ (.call i t) = (B i).inside (view (s'.th t)) := by
  simp [HState.at_]

theorem at_box_same (h : HState B n) (i : I) (s' : St n (B i).σ (B i).C (B i).Op (B i).R) (m : Fin n → Multiset X) (tr : List (Mem n I X)) :
    (⟨Function.update h.obj i s', m, tr⟩ : HState B n).at_ (.box i) = (B i).holds s'.data := by
  simp [HState.at_]

theorem at_call_ne (h : HState B n) (i : I) (s' : St n (B i).σ (B i).C (B i).Op (B i).R) (m : Fin n → Multiset X) (tr : List (Mem n I X)) (t : Fin n) {j : I} (hj : j ≠ i) :
    (⟨Function.update h.obj i s', m, tr⟩ : HState B n).at_ (.call j t) = h.at_ (.call j t) := by
  simp [HState.at_, Function.update_of_ne hj]

theorem at_box_ne (h : HState B n) (i : I) (s' : St n (B i).σ (B i).C (B i).Op (B i).R) (m : Fin n → Multiset X) (tr : List (Mem n I X)) {j : I} (hj : j ≠ i) :
    (⟨Function.update h.obj i s', m, tr⟩ : HState B n).at_ (.box j) = h.at_ (.box j) := by
  simp [HState.at_, Function.update_of_ne hj]

theorem at_rest (h : HState B n) (i : I) (s' : St n (B i).σ (B i).C (B i).Op (B i).R) (m : Fin n → Multiset X) (tr : List (Mem n I X)) (t : Fin n)
    (hd : s'.data = (h.obj i).data) (hv : ∀ u, u ≠ t → view (s'.th u) = view ((h.obj i).th u)) (hm : ∀ u, u ≠ t → m u = h.have_ u) (r : Place n I) (h1 : r ≠ .mine t) (h2 : r ≠ .call i t) :
    (⟨Function.update h.obj i s', m, tr⟩ : HState B n).at_ r = h.at_ r := by
  cases r with
  | mine u => exact hm u (fun e => h1 (by rw [e]))
  | call j u =>
    by_cases e : j = i
    · subst e
      rw [at_call_same, hv u (fun e => h2 (by rw [e]))]
      rfl
    · exact at_call_ne _ _ _ _ _ _ e
  | box j =>
    by_cases e : j = i
    · subst e
      rw [at_box_same, hd]
      rfl
    · exact at_box_ne _ _ _ _ _ e

theorem owner_update (h : HState B n) (i : I) (s' : St n (B i).σ (B i).C (B i).Op (B i).R) (ho : s'.owner = (h.obj i).owner) (j : I) :
    (Function.update h.obj i s' j).owner = (h.obj j).owner := by
  by_cases e : j = i
  · subst e
    rw [Function.update_self, ho]
  · rw [Function.update_of_ne e]

theorem hinv_step (hB : ∀ i, (B i).Fair) {h h' : HState B n} (hi : HInv h) (st : HStep B h h') : HInv h' := by
  cases st with
  | use t x h1 h2 => exact hi.use (p := .mine t) h2 fun _ _ => Iff.rfl
  | useIn t i x h1 h2 =>
    rcases Multiset.mem_add.mp h2 with h2 | h2
    · refine hi.use (p := .box i) h2 fun _ _ => ?_
      simp only [KnownAt, h1]
    · exact hi.use (p := .call i t) h2 fun _ _ => Iff.rfl
  | call t i op rest s' h1 h2 h3 =>
    cases h3 with
    | start _ _ h4 =>
      refine hi.pass t i (owner_update h i _ rfl) rfl ?_ (at_rest h i _ _ _ t rfl (fun u hu => by dsimp only; rw [Function.update_of_ne hu]) fun u hu => Function.update_of_ne hu _ _)
      rw [at_call_same]
      simp only [HState.at_, Function.update_self, view, Box.inside, h2]
      exact Multiset.le_add_right _ _
  | ret t i op r s' h1 h2 =>
    cases h2 with
    | ret _ op' r' h4 =>
      rw [h1] at h4
      cases h4
      refine hi.pass t i (owner_update h i _ rfl) rfl ?_ (at_rest h i _ _ _ t rfl (fun u hu => by dsimp only; rw [Function.update_of_ne hu]) fun u hu => Function.update_of_ne hu _ _)
      rw [at_call_same]
      simp only [HState.at_, Function.update_self, view, Box.inside, h1]
      rw [add_zero]
  | inner i lb s' h1 h2 h3 =>
    have src := box_step (hB i) h1 h2 h3
    have mine : ∀ t, (⟨Function.update h.obj i s', h.have_, h.tr ++ lockEvent i (h.obj i).owner s'.owner⟩ : HState B n).at_ (.mine t) = h.at_ (.mine t) := fun _ => rfl
    refine ⟨?_, fun k t x p hk hx => ?_, fun j k u v x hjk hj hk => ?_⟩
    · rcases src with ⟨e1, e2⟩ | ⟨t, -, e1, e2⟩
      · have : (⟨Function.update h.obj i s', h.have_, h.tr ++ lockEvent i (h.obj i).owner s'.owner⟩ : HState B n).at_ = h.at_ := by
          funext r
          cases r with
          | mine u => rfl
          | call j u =>
            by_cases e : j = i
            · subst e; rw [at_call_same, e2]; rfl
            · exact at_call_ne _ _ _ _ _ _ e
          | box j =>
            by_cases e : j = i
            · subst e; rw [at_box_same, e1]; rfl
            · exact at_box_ne _ _ _ _ _ e
        rw [this]
        exact hi.single
      · refine single_move hi.single (.box i) (.call i t) (fun e => nomatch e) ?_ fun r r1 r2 => ?_
        · rw [at_box_same, at_call_same]
          exact e1
        · cases r with
          | mine u => rfl
          | call j u =>
            by_cases e : j = i
            · subst e; rw [at_call_same, e2 u (fun e => r2 (by rw [e]))]; rfl
            · exact at_call_ne _ _ _ _ _ _ e
          | box j =>
            by_cases e : j = i
            · subst e; exact absurd rfl r1
            · exact at_box_ne _ _ _ _ _ e
    · replace hk : h.tr[k]? = some (.use t x) := old_use lockEvent_use hk
      have other : ∀ q, q ≠ .box i → x ∈ h.at_ q → KnownAt (⟨Function.update h.obj i s', h.have_, h.tr ++ lockEvent i (h.obj i).owner s'.owner⟩ : HState B n) k q := by
        intro q hq hx
        refine KnownAt.mono rfl (fun j e => ?_) (hi.known k t x q hk hx)
        subst e
        have hj : j ≠ i := fun e => hq (by rw [e])
        show (Function.update h.obj i s' j).owner = _
        rw [Function.update_of_ne hj]
      /- in the box of the step -/
      have here : ∀ w, (h.obj i).owner = some w → x ∈ h.at_ (.box i) + h.at_ (.call i w) → Known h.tr w k := by
        intro w hw hx
        rcases Multiset.mem_add.mp hx with hx | hx
        · have := hi.known k t x _ hk hx
          simpa only [KnownAt, hw] using this
        · exact hi.known k t x _ hk hx
      cases p with
      | mine u => exact other _ (fun e => nomatch e) hx
      | call j u =>
        by_cases e : j = i
        · subst e
          rw [at_call_same] at hx
          rcases src with ⟨-, e2⟩ | ⟨w, hw, e1, e2⟩
          · rw [e2] at hx
            exact other _ (fun e => nomatch e) hx
          · by_cases eu : u = w
            · subst eu
              exact Known.append _ (here _ hw (Multiset.mem_of_le e1 (Multiset.mem_add.mpr (.inr hx))))
            · rw [e2 u eu] at hx
              exact other _ (fun e => nomatch e) hx
        · rw [at_call_ne _ _ _ _ _ _ e] at hx
          exact other _ (fun e => nomatch e) hx
      | box j =>
        by_cases e : j = i
        · subst e
          rw [at_box_same] at hx
          have kn : match (h.obj j).owner with | none => KnownLock h.tr j k | some w => Known h.tr w k := by
            rcases src with ⟨e1, -⟩ | ⟨w, hw, e1, -⟩
            · rw [e1] at hx
              exact hi.known k t x (.box j) hk hx
            · rw [hw]
              exact here w hw (Multiset.mem_of_le e1 (Multiset.mem_add.mpr (.inl hx)))
          simp only [KnownAt, Function.update_self]
          rcases step_owner h1 with ho | ⟨w, ho, ho'⟩ | ⟨w, ho, ho'⟩
          · rw [ho]
            cases hw : (h.obj j).owner with
            | none => rw [hw] at kn; exact KnownLock.append _ kn
            | some w => rw [hw] at kn; exact Known.append _ kn
          · rw [ho] at kn
            rw [ho, ho']
            exact KnownLock.acquire kn w
          · rw [ho] at kn
            rw [ho, ho']
            exact Known.release kn j
        · rw [at_box_ne _ _ _ _ _ e] at hx
          exact other _ (fun e' => by cases e'; exact e rfl) hx
    · exact (hi.ordered j k u v x hjk (old_use lockEvent_use hj) (old_use lockEvent_use hk)).append _

theorem hinv_reach (hB : ∀ i, (B i).Fair) {h0 h : HState B n} (h0s : h0.Start) (hr : HReach B h0 h) : HInv h := by
  induction hr with
  | refl => exact ⟨h0s.single, fun k _ _ _ hk _ => by rw [h0s.tr] at hk; simp at hk, fun j _ _ _ _ _ hj _ => by rw [h0s.tr] at hj; simp at hj⟩
  | step _ st ih => exact hinv_step hB ih st

/-- **C173** Things that are handed over through queues, maps and semaphores need no lock of their own: all uses of a thing are ordered by happens-before, so that there is no data race and each use sees
what the one before it left. -/
theorem C173_no_race (hB : ∀ i, (B i).Fair) {h0 h : HState B n} (h0s : h0.Start) (hr : HReach B h0 h) {j k : Nat} {t u : Fin n} {x : X} (hjk : j < k)
    (hj : h.tr[j]? = some (.use t x)) (hk : h.tr[k]? = some (.use u x)) : HB h.tr j k := (hinv_reach hB h0s hr).ordered j k t u x hjk hj hk

/-- **C173** At each time everything belongs to one thread only, or is in one box only. -/
theorem C173_one_place (hB : ∀ i, (B i).Fair) {h0 h : HState B n} (h0s : h0.Start) (hr : HReach B h0 h) : Single h.at_ := (hinv_reach hB h0s hr).single

/-- Things go from one of two places to the other; the rest stays where it is. -/
theorem stay {P : Type} {f g : P → Multiset X} (p q : P) (h : ∀ x ∈ f p + f q, x ∈ g p + g q) (hr : ∀ r, r ≠ p → r ≠ q → g r = f r) {x : X} (hx : ∃ r, x ∈ f r) : ∃ r, x ∈ g r := by
  obtain ⟨r, hx⟩ := hx
  by_cases e : r = p ∨ r = q
  · have : x ∈ f p + f q := by
      rw [Multiset.mem_add]
      rcases e with rfl | rfl
      · exact .inl hx
      · exact .inr hx
    rcases Multiset.mem_add.mp (h x this) with h | h
    · exact ⟨p, h⟩
    · exact ⟨q, h⟩
  · rw [not_or] at e
    exact ⟨r, by rw [hr r e.1 e.2]; exact hx⟩

theorem safe_step {B : Box X} {good : B.σ → Prop} (hB : B.Safe good) {s s' : St n B.σ B.C B.Op B.R} {l : Lbl n B.Op} (st : Step B.M s l s') (hg : good s.data) (h1 : ∀ t op, l ≠ .start t op)
    (h2 : ∀ t, l ≠ .ret t) : good s'.data ∧ (((∀ x ∈ B.holds s.data, x ∈ B.holds s'.data) ∧ ∀ u, B.inside (view (s'.th u)) = B.inside (view (s.th u))) ∨
    ∃ t, (∀ x ∈ B.holds s.data + B.inside (view (s.th t)), x ∈ B.holds s'.data + B.inside (view (s'.th t))) ∧ ∀ u, u ≠ t → B.inside (view (s'.th u)) = B.inside (view (s.th u))) := by
  rcases step_view st with ⟨e1, e2, -, -⟩ | ⟨t, op, t0, rfl, e1, e2, e3⟩ | ⟨t, op, rfl, -⟩ | ⟨t, op, r, rfl, e1, e2, e3, t0, i, o, e4⟩ | ⟨t, op, r, rfl, -⟩
  · exact ⟨by rw [e1]; exact hg, .inl ⟨fun x hx => by rw [e1]; exact hx, fun u => by rw [e2]⟩⟩
  · have : good s'.data ∧ ∀ x ∈ B.holds s.data, x ∈ B.holds s'.data := by
      rcases e3 with ⟨c, e3⟩ | e3
      · exact hB.wait hg e3
      · exact hB.spin hg e3
    exact ⟨this.1, .inl ⟨this.2, fun u => by rw [e2]⟩⟩
  · exact absurd rfl (h1 t op)
  · have := hB.done hg e4
    refine ⟨this.1, .inr ⟨t, ?_, fun u hu => by rw [e3 u hu]⟩⟩
    rw [e1, e2]
    exact this.2
  · exact absurd rfl (h2 t)

/-- **C173** Nothing is lost: what was somewhere at the beginning is with some thread, in some call or in some box at any later time. -/
theorem C173_not_lost {good : (i : I) → (B i).σ → Prop} (hB : ∀ i, (B i).Safe (good i)) {h0 h : HState B n} (hg : ∀ i, good i (h0.obj i).data) (hr : HReach B h0 h) {x : X}
    (hx : ∃ p, x ∈ h0.at_ p) : (∃ p, x ∈ h.at_ p) ∧ ∀ i, good i (h.obj i).data := by
  induction hr with
  | refl => exact ⟨hx, hg⟩
  | @step h h' _ st ih =>
    obtain ⟨hx, hg⟩ := ih
    have upd : ∀ i (s' : St n (B i).σ (B i).C (B i).Op (B i).R), good i s'.data → ∀ j, good j (Function.update h.obj i s' j).data := by
      intro i s' hs j
      by_cases e : j = i
      · subst e; rw [Function.update_self]; exact hs
      · rw [Function.update_of_ne e]; exact hg j
    cases st with
    | use t x h1 h2 => exact ⟨hx, hg⟩
    | useIn t i x h1 h2 => exact ⟨hx, hg⟩
    | call t i op rest s' h1 h2 h3 =>
      cases h3 with
      | start _ _ h4 =>
        refine ⟨stay (.mine t) (.call i t) (fun y hy => ?_) ?_ hx, upd i _ (hg i)⟩
        rotate_left
        · exact at_rest h i _ _ _ t rfl (fun u hu => by dsimp only; rw [Function.update_of_ne hu]) fun u hu => Function.update_of_ne hu _ _
        rw [at_call_same]
        simp only [HState.at_, Function.update_self, view, Box.inside, h2, h1 i] at hy ⊢
        rwa [add_zero] at hy
    | ret t i op r s' h1 h2 =>
      cases h2 with
      | ret _ op' r' h4 =>
        rw [h1] at h4
        cases h4
        refine ⟨stay (.mine t) (.call i t) (fun y hy => ?_) ?_ hx, upd i _ (hg i)⟩
        rotate_left
        · exact at_rest h i _ _ _ t rfl (fun u hu => by dsimp only; rw [Function.update_of_ne hu]) fun u hu => Function.update_of_ne hu _ _
        rw [at_call_same]
        simp only [HState.at_, Function.update_self, view, Box.inside, h1] at hy ⊢
        rwa [add_zero]
    | inner i lb s' h1 h2 h3 =>
      obtain ⟨g', src⟩ := safe_step (hB i) h1 (hg i) h2 h3
      refine ⟨?_, upd i s' g'⟩
      rcases src with ⟨e1, e2⟩ | ⟨t, e1, e2⟩
      · obtain ⟨r, hx⟩ := hx
        refine ⟨r, ?_⟩
        cases r with
        | mine u => exact hx
        | call j u =>
          by_cases e : j = i
          · subst e; rw [at_call_same, e2]; exact hx
          · rw [at_call_ne _ _ _ _ _ _ e]; exact hx
        | box j =>
          by_cases e : j = i
          · subst e; rw [at_box_same]; exact e1 _ hx
          · rw [at_box_ne _ _ _ _ _ e]; exact hx
      · refine stay (.box i) (.call i t) (fun y hy => ?_) (fun r r1 r2 => ?_) hx
        · rw [at_box_same, at_call_same]
          exact e1 y hy
        · cases r with
          | mine u => rfl
          | call j u =>
            by_cases e : j = i
            · subst e; rw [at_call_same, e2 u (fun e => r2 (by rw [e]))]; rfl
            · exact at_call_ne _ _ _ _ _ _ e
          | box j =>
            by_cases e : j = i
            · subst e; exact absurd rfl r1
            · exact at_box_ne _ _ _ _ _ e

end
end

end Verif.Monitor
