import Verif.Core.Outcome
import Verif.Core.Str

/-
Property C104: the memory statistics (`MemoryLeak.h:24-113`, `Utils.cpp:70-110`).

Model of `MemStats` together with the objects that report to it: a class made with `DEFINE_MEMORY_LEAK_DETECTOR_CLASS` (`MemoryLeak.h:107-113`) reports in its constructor and destructor, and carries the
label set by `RN_MEMLOG` (`MemoryLeak.h:100-104`).  Such a class has a copy constructor and an assignment made by the compiler; they copy the label and report nothing.

Counters are `int`; exceeding their range is undefined.  The calls are made one after the other: the arrays are protected by a mutex (`Utils.cpp:92,100`).  The map of labels is
not; it is modelled for one thread only.
-/

namespace Verif.Memory
open Verif

/-- A living object: identity, class (index into the arrays), label. -/
structure Obj where
  id : Nat
  cls : Nat
  key : Str
deriving DecidableEq, Repr

/-- `MemStats` (`MemoryLeak.h:62-73`) and the objects alive, with the next identity. -/
structure St where
  now : Nat → Int
  total : Nat → Int
  map : Str → Int
  live : List Obj
  next : Nat

/-- `MemStats::MemStats` (`Utils.cpp:74-79`). -/
def init : St := ⟨fun _ => 0, fun _ => 0, fun _ => 0, [], 0⟩

/-- What a program does with such objects. -/
inductive Op
  | create (cls : Nat)
  | copy (id : Nat)
  | assign (dst src : Nat)
  | label (id : Nat) (key : Str)
  | destroy (id : Nat)
deriving DecidableEq, Repr

def upd {α : Type} [DecidableEq α] (f : α → Int) (a : α) (x : Int) : α → Int := fun b => if b = a then x else f b

/-- An `int` holds the value. -/
def fits (x : Int) : Bool := -2147483648 ≤ x ∧ x ≤ 2147483647

/-- `memChkNew` (`Utils.cpp:89-96`). -/
def memChkNew (s : St) (c : Nat) : Outcome St :=
  if fits (s.now c + 1) ∧ fits (s.total c + 1) then .ok { s with now := upd s.now c (s.now c + 1), total := upd s.total c (s.total c + 1) } else .ub

/-- `memChkDel` (`Utils.cpp:98-110`); `debug` is `gMemLeakDebug`. -/
def memChkDel (debug : Bool) (s : St) (c : Nat) : Outcome St :=
  if fits (s.now c - 1) then if debug ∧ s.now c - 1 < 0 then .assertFail else .ok { s with now := upd s.now c (s.now c - 1) } else .ub

/-- One operation.  Operations on objects that do not live have no effect (a program does not make them). -/
def step (debug : Bool) (s : St) : Op → Outcome St
  /- `MemoryLeak.h:109` -/
  | .create c => (memChkNew s c).bind fun s => .ok { s with live := ⟨s.next, c, []⟩ :: s.live, next := s.next + 1 }
  /- the copy constructor of the compiler -/
  | .copy i =>
    match s.live.find? (fun o => o.id = i) with
    | some o => .ok { s with live := { o with id := s.next } :: s.live, next := s.next + 1 }
    | none => .ok s
  /- the assignment of the compiler -/
  | .assign d i =>
    match s.live.find? (fun o => o.id = i) with
    | some o => .ok { s with live := s.live.map fun x => if x.id = d then { x with key := o.key } else x }
    | none => .ok s
  /- `MemoryLeak.h:100-104` -/
  | .label i k =>
    match s.live.find? (fun o => o.id = i) with
    | some _ => if fits (s.map k + 1) then .ok { s with live := s.live.map fun x => if x.id = i then { x with key := k } else x, map := upd s.map k (s.map k + 1) } else .ub
    | none => .ok s
  /- `MemoryLeak.h:110-112`, then `MemoryLeak.h:84-86` -/
  | .destroy i =>
    match s.live.find? (fun o => o.id = i) with
    | some o => (memChkDel debug s o.cls).bind fun s =>
        if fits (s.map o.key - 1) then .ok { s with live := s.live.filter (fun x => x.id ≠ i), map := upd s.map o.key (s.map o.key - 1) } else .ub
    | none => .ok s

/-- A sequence. -/
def run (debug : Bool) : St → List Op → Outcome St
  | s, [] => .ok s
  | s, op :: ops => (step debug s op).bind fun s => run debug s ops

/-! ### Specification -/

/-- The number of objects of the class alive. -/
def alive (s : St) (c : Nat) : Nat := s.live.countP fun o => o.cls = c

/-- The number of objects of the class made without copying. -/
def created (ops : List Op) (c : Nat) : Nat := ops.countP fun op => op = .create c

/-- A history without copies and assignments in which every object is labelled at most once, and not with the empty label. -/
def Clean (debug : Bool) : St → List Op → Prop
  | _, [] => True
  | s, op :: ops => (match op with
      | .copy _ => False
      | .assign _ _ => False
      | .label i k => k ≠ [] ∧ ∀ o ∈ s.live, o.id = i → o.key = []
      | _ => True) ∧ ∀ s', step debug s op = .ok s' → Clean debug s' ops

/-! ### Proof -/

theorem countP_remove (l : List Obj) (hn : l.Pairwise fun a b => a.id ≠ b.id) (o : Obj) (ho : o ∈ l) (p : Obj → Bool) :
    (l.filter fun x => x.id ≠ o.id).countP p + (if p o then 1 else 0) = l.countP p := by
  induction l with
  | nil => simp at ho
  | cons a l ih =>
    rw [List.pairwise_cons] at hn
    by_cases ha : a = o
    · subst ha
      have : (l.filter fun x => x.id ≠ a.id) = l := List.filter_eq_self.2 fun x hx => by simpa using fun e => hn.1 x hx e.symm
      rw [List.filter_cons_of_neg (by simp), this, List.countP_cons]
    · have hol : o ∈ l := by
        rcases List.mem_cons.1 ho with h | h
        · exact absurd h.symm ha
        · exact h
      rw [List.filter_cons_of_pos (by simpa using hn.1 o hol), List.countP_cons, List.countP_cons, ← ih hn.2 hol]
      omega

/-- The invariant for `k` operations done. -/
structure Inv (s : St) (k : Nat) (ops : List Op) : Prop where
  uniq : s.live.Pairwise fun a b => a.id ≠ b.id
  below : ∀ o ∈ s.live, o.id < s.next
  now : ∀ c, s.now c = alive s c
  total : ∀ c, s.total c = created ops c
  map : ∀ key, key ≠ [] → s.map key = (s.live.countP fun o => o.key = key : Nat)
  none' : -(k : Int) ≤ s.map [] ∧ s.map [] ≤ k
  len : s.live.length ≤ k
  tot : ∀ c, created ops c ≤ k

theorem find_mem {l : List Obj} {i : Nat} {o : Obj} (h : l.find? (fun o => o.id = i) = some o) : o ∈ l ∧ o.id = i :=
  ⟨List.mem_of_find?_eq_some h, by simpa using List.find?_some h⟩

theorem created_append (ops : List Op) (op : Op) (c : Nat) : created (ops ++ [op]) c = created ops c + (if op = .create c then 1 else 0) := by
  simp [created, List.countP_append, List.countP_cons]

theorem fits_of {x : Int} {k : Nat} (h1 : -(k : Int) ≤ x) (h2 : x ≤ k) (hk : k < 2147483648) : fits x = true := by
  unfold fits; exact decide_eq_true (by omega)

theorem step_ok {debug : Bool} {s : St} {k : Nat} {ops : List Op} (hi : Inv s k ops) (hk : k + 1 < 2147483648) (op : Op)
    (hc : match op with
      | .copy _ => False
      | .assign _ _ => False
      | .label i key => key ≠ [] ∧ ∀ o ∈ s.live, o.id = i → o.key = []
      | _ => True) : ∃ s', step debug s op = .ok s' ∧ Inv s' (k + 1) (ops ++ [op]) := by
  have same : ∀ op', (∀ c, op' ≠ .create c) → Inv s (k + 1) (ops ++ [op']) := by
    intro op' ho
    have hcr : ∀ c, created (ops ++ [op']) c = created ops c := fun c => by rw [created_append, if_neg (ho c)]; rfl
    exact ⟨hi.uniq, hi.below, hi.now, fun c => by rw [hcr]; exact hi.total c, hi.map, ⟨by have := hi.none'.1; omega, by have := hi.none'.2; omega⟩,
      by have := hi.len; omega, fun c => by rw [hcr]; have := hi.tot c; omega⟩
  cases op with
  | create c =>
    have hal : ∀ c, alive s c ≤ k := fun c => Nat.le_trans List.countP_le_length hi.len
    have f1 : fits (s.now c + 1) = true := fits_of (k := k + 1) (by rw [hi.now]; omega) (by have := hal c; rw [hi.now]; omega) hk
    have f2 : fits (s.total c + 1) = true := fits_of (k := k + 1) (by rw [hi.total]; omega) (by have := hi.tot c; rw [hi.total]; omega) hk
    refine ⟨_, by simp only [step, memChkNew, f1, f2, and_self, if_true, Outcome.bind]; rfl, ?_⟩
    refine ⟨?_, ?_, ?_, ?_, ?_, ⟨by have := hi.none'.1; show _ ≤ s.map []; omega, by have := hi.none'.2; show s.map [] ≤ _; omega⟩, ?_, ?_⟩
    · rw [List.pairwise_cons]
      exact ⟨fun o ho => by have := hi.below o ho; show s.next ≠ o.id; omega, hi.uniq⟩
    · intro o ho
      show o.id < s.next + 1
      rcases List.mem_cons.1 ho with rfl | ho
      · show s.next < s.next + 1; omega
      · have := hi.below o ho; omega
    · intro d
      show upd s.now c (s.now c + 1) d = _
      simp only [upd, alive, List.countP_cons]
      have := hi.now d
      simp only [alive] at this
      by_cases h : d = c
      · subst h; simp [this]
      · have h' : ¬ c = d := fun e => h e.symm
        simp [h, h', this]
    · intro d
      show upd s.total c (s.total c + 1) d = _
      rw [created_append]
      simp only [upd]
      have := hi.total d
      by_cases h : d = c
      · subst h; simp [this]
      · have h' : ¬ c = d := fun e => h e.symm
        simp [h, h', this]
    · intro key hkey
      show s.map key = _
      have := hi.map key hkey
      simp only [List.countP_cons]
      have h' : ¬ ([] : Str) = key := fun e => hkey e.symm
      simp only [h', decide_false, this]
      simp
    · have := hi.len; simp; omega
    · intro d
      rw [created_append]
      have := hi.tot d
      split <;> omega
  | copy i => exact absurd hc id
  | assign d i => exact absurd hc id
  | label i key =>
    obtain ⟨hne, hem⟩ := hc
    simp only [step]
    cases hf : s.live.find? (fun o => o.id = i) with
    | none => exact ⟨s, rfl, same _ (by intro c; simp)⟩
    | some o =>
      obtain ⟨ho, hoi⟩ := find_mem hf
      have hcl : (s.live.countP fun o => o.key = key) ≤ k := Nat.le_trans List.countP_le_length hi.len
      have f1 : fits (s.map key + 1) = true := fits_of (k := k + 1) (by rw [hi.map key hne]; omega) (by rw [hi.map key hne]; omega) hk
      simp only [f1, if_true]
      refine ⟨_, rfl, ?_⟩
      have hcount : ∀ q : Str, q ≠ [] → ∀ l : List Obj, (l.Pairwise fun a b => a.id ≠ b.id) → (∀ o ∈ l, o.id = i → o.key = []) →
          ((l.map fun x => if x.id = i then { x with key := key } else x).countP fun o => o.key = q) =
            (l.countP fun o => o.key = q) + (if q = key ∧ ∃ o ∈ l, o.id = i then 1 else 0) := by
        intro q hq l
        induction l with
        | nil => simp
        | cons a l ih =>
          intro hp he
          rw [List.pairwise_cons] at hp
          have ih := ih hp.2 (fun o ho => he o (List.mem_cons_of_mem _ ho))
          rw [List.map_cons, List.countP_cons, List.countP_cons, ih]
          by_cases hai : a.id = i
          · have hnone : ¬ ∃ o ∈ l, o.id = i := fun ⟨o, h1, h2⟩ => hp.1 o h1 (by rw [hai, h2])
            have hak := he a (by simp) hai
            by_cases hqk : q = key
            · subst hqk
              have c2 : q = q ∧ ∃ o ∈ a :: l, o.id = i := ⟨rfl, a, by simp, hai⟩
              have h2 : ¬ ([] : Str) = q := fun e => hq e.symm
              simp only [c2, hai, hak, h2, if_true, decide_false, decide_true]
              simpa using hnone
            · have h1 : ¬ key = q := fun e => hqk e.symm
              have h2 : ¬ ([] : Str) = q := fun e => hq e.symm
              simp only [hai, hak, h1, h2, hqk, false_and, if_true, if_false, decide_false]
              simp
          · have he : (∃ o ∈ a :: l, o.id = i) ↔ ∃ o ∈ l, o.id = i := by simp [hai]
            simp only [hai, if_false, he]
            omega
      refine ⟨?_, ?_, ?_, ?_, ?_, ?_, by simp; have := hi.len; omega, ?_⟩
      · rw [List.pairwise_map]
        exact hi.uniq.imp fun {a b} h => by split <;> split <;> exact h
      · intro x hx
        obtain ⟨y, hy, rfl⟩ := List.mem_map.1 hx
        have := hi.below y hy
        show (if y.id = i then _ else y : Obj).id < s.next
        split <;> exact this
      · intro c
        show s.now c = _
        rw [hi.now c]
        simp only [alive, List.countP_map]
        congr 1
        apply List.countP_congr
        intro x _
        simp only [Function.comp]
        split <;> simp
      · intro c
        show s.total c = _
        rw [created_append, if_neg (by simp)]
        exact hi.total c
      · intro q hq
        show upd s.map key (s.map key + 1) q = _
        rw [hcount q hq s.live hi.uniq hem]
        have hex : ∃ o ∈ s.live, o.id = i := ⟨o, ho, hoi⟩
        simp only [upd]
        by_cases hqk : q = key
        · subst hqk; rw [if_pos rfl, hi.map q hq, if_pos ⟨rfl, hex⟩]; omega
        · rw [if_neg hqk, hi.map q hq, if_neg (fun h => hqk h.1)]; omega
      · show -((k + 1 : Nat) : Int) ≤ upd s.map key _ [] ∧ upd s.map key _ [] ≤ ((k + 1 : Nat) : Int)
        simp only [upd, if_neg (fun e : [] = key => hne e.symm)]
        have := hi.none'
        omega
      · intro c
        rw [created_append, if_neg (by simp)]
        have := hi.tot c
        omega
  | destroy i =>
    simp only [step]
    cases hf : s.live.find? (fun o => o.id = i) with
    | none => exact ⟨s, rfl, same _ (by intro c; simp)⟩
    | some o =>
      obtain ⟨ho, rfl⟩ := find_mem hf
      have hpos : 1 ≤ alive s o.cls := List.countP_pos_iff.2 ⟨o, ho, by simp⟩
      have hal : alive s o.cls ≤ k := Nat.le_trans List.countP_le_length hi.len
      have f1 : fits (s.now o.cls - 1) = true := fits_of (k := k + 1) (by rw [hi.now]; omega) (by rw [hi.now]; omega) hk
      have f2 : fits (s.map o.key - 1) = true := by
        by_cases he : o.key = []
        · rw [he]; exact fits_of (k := k + 1) (by have := hi.none'; omega) (by have := hi.none'; omega) hk
        · have : (s.live.countP fun x => x.key = o.key) ≤ k := Nat.le_trans List.countP_le_length hi.len
          exact fits_of (k := k + 1) (by rw [hi.map _ he]; omega) (by rw [hi.map _ he]; omega) hk
      have f3 : ¬ (debug = true ∧ s.now o.cls - 1 < 0) := by rw [hi.now]; omega
      simp only [memChkDel, f1, if_true, if_neg f3, Outcome.bind, f2]
      refine ⟨_, rfl, ?_⟩
      have rem := fun p => countP_remove s.live hi.uniq o ho p
      refine ⟨hi.uniq.filter _, fun x hx => hi.below x (List.mem_filter.1 hx).1, ?_, ?_, ?_, ?_, ?_, ?_⟩
      · intro c
        show upd s.now o.cls (s.now o.cls - 1) c = _
        have := rem fun x => x.cls = c
        have hn := hi.now c
        simp only [alive] at hn ⊢
        simp only [upd]
        by_cases h : c = o.cls
        · subst h; simp at this ⊢; rw [hn]; omega
        · have h' : ¬ o.cls = c := fun e => h e.symm
          simp [h'] at this; simp [h]; rw [hn]; omega
      · intro c
        show s.total c = _
        rw [created_append, if_neg (by simp)]
        exact hi.total c
      · intro q hq
        show upd s.map o.key (s.map o.key - 1) q = _
        have := rem fun x => x.key = q
        have hn := hi.map q hq
        simp only [upd]
        by_cases h : q = o.key
        · subst h; simp at this ⊢; rw [hn]; omega
        · have h' : ¬ o.key = q := fun e => h e.symm
          simp [h'] at this; simp [h]; rw [hn]; omega
      · show -((k + 1 : Nat) : Int) ≤ upd s.map o.key _ [] ∧ upd s.map o.key _ [] ≤ ((k + 1 : Nat) : Int)
        have := hi.none'
        simp only [upd]
        split
        · rename_i h; rw [← h]; omega
        · omega
      · have h1 := hi.len
        have h2 : (s.live.filter fun x => x.id ≠ o.id).length ≤ s.live.length := List.length_filter_le ..
        show (s.live.filter fun x => x.id ≠ o.id).length ≤ _
        omega
      · intro c
        rw [created_append, if_neg (by simp)]
        have := hi.tot c
        omega

theorem run_ok {debug : Bool} : ∀ (ops done : List Op) (s : St) (k : Nat), Inv s k done → Clean debug s ops → k + ops.length < 2147483648 →
    ∃ s', run debug s ops = .ok s' ∧ Inv s' (k + ops.length) (done ++ ops)
  | [], done, s, k, hi, _, _ => ⟨s, rfl, by simpa using hi⟩
  | op :: ops, done, s, k, hi, hc, hk => by
    obtain ⟨h1, h2⟩ := hc
    simp only [List.length_cons] at hk
    obtain ⟨s1, e1, i1⟩ := step_ok (debug := debug) hi (by omega) op h1
    obtain ⟨s2, e2, i2⟩ := run_ok ops (done ++ [op]) s1 (k + 1) i1 (h2 s1 e1) (by omega)
    refine ⟨s2, by simp only [run, e1, Outcome.bind]; exact e2, ?_⟩
    have ea : done ++ [op] ++ ops = done ++ op :: ops := by simp
    have eb : k + 1 + ops.length = k + (op :: ops).length := by simp; omega
    rw [← ea, ← eb]
    exact i2

/-- C104, partial: in every clean history of fewer than 2^31 operations nothing goes wrong (no assertion fails, with or without `gMemLeakDebug`), the current number reported for a class is the number
of its objects alive, the total the number ever made, and the number kept for a label that of the objects alive with this label.
Missing: copied objects, labels set twice or assigned, and longer histories, all refuted below. -/
theorem C104_counts_partial (debug : Bool) (ops : List Op) (hc : Clean debug init ops) (hl : ops.length < 2147483648) :
    ∃ s, run debug init ops = .ok s ∧ (∀ c, s.now c = alive s c) ∧ (∀ c, s.total c = created ops c) ∧ ∀ k, k ≠ [] → s.map k = (s.live.countP fun o => o.key = k : Nat) := by
  have h0 : Inv init 0 [] := by constructor <;> simp [init, alive, created]
  obtain ⟨s, e, i⟩ := run_ok ops [] init 0 h0 hc (by omega)
  exact ⟨s, e, i.now, by simpa using i.total, i.map⟩

example : ∃ s, run true init [.create 3, .create 4, .label 0 (lit "a"), .create 3, .label 2 (lit "a"), .destroy 0] = .ok s ∧ s.now 3 = 1 ∧ s.total 3 = 2 ∧ s.map (lit "a") = 1 ∧ alive s 4 = 1 :=
  ⟨_, rfl, by decide, by decide, by decide, by decide⟩

/-- C104 is refuted for copies: the copy is not counted when made but when destroyed; the number goes below zero, and with `gMemLeakDebug` the program ends. -/
theorem C104_copy_refuted : (∃ s, run false init [.create 3, .copy 0, .destroy 0, .destroy 1] = .ok s ∧ s.live = [] ∧ s.now 3 = -1) ∧
    run true init [.create 3, .copy 0, .destroy 0, .destroy 1] = .assertFail := ⟨⟨_, rfl, rfl, rfl⟩, rfl⟩

/-- C104 is refuted for labels set twice: the first label keeps its count for ever. -/
theorem C104_relabel_refuted : ∃ s, run false init [.create 3, .label 0 (lit "a"), .label 0 (lit "b"), .destroy 0] = .ok s ∧ s.live = [] ∧ s.map (lit "a") = 1 := ⟨_, rfl, rfl, by decide⟩

/-- C104 is refuted for objects without label: they are counted down under the empty label. -/
theorem C104_unlabelled_refuted : ∃ s, run false init [.create 3, .destroy 0] = .ok s ∧ s.live = [] ∧ s.map [] = -1 := ⟨_, rfl, rfl, by decide⟩

/-- C104 is refuted for long histories: the 2^31st object of a class overflows the total. -/
theorem C104_overflow_refuted : ∃ ops, run false init ops = .ub := by
  have hone : ∀ s : St, s.live = [] → s.now 3 = 0 → s.total 3 = 2147483647 → run false s [.create 3] = .ub := by
    intro s _ h2 h3
    simp [run, step, memChkNew, h2, h3, fits, Outcome.bind]
  have many : ∀ n : Nat, n ≤ 2147483647 → ∃ ops s, run false init ops = .ok s ∧ s.live = [] ∧ s.now 3 = 0 ∧ s.total 3 = n ∧ s.map [] = -(n : Int) := by
    intro n
    induction n with
    | zero => intro _; exact ⟨[], init, rfl, rfl, rfl, rfl, rfl⟩
    | succ n ih =>
      intro hn
      obtain ⟨ops, s, e, h1, h2, h3, h4⟩ := ih (by omega)
      have app : ∀ (l : List Op) (a : St), run false a (l ++ [.create 3, .destroy s.next]) = (run false a l).bind fun b => run false b [.create 3, .destroy s.next] := by
        intro l
        induction l with
        | nil => intro a; rfl
        | cons op l ihl => intro a; simp only [List.cons_append, run]; cases step false a op <;> first | exact ihl _ | rfl
      have f1 : fits 1 = true := by decide
      have f0 : fits 0 = true := by decide
      have f2 : fits ((n : Int) + 1) = true := by unfold fits; exact decide_eq_true (by omega)
      have f4 : fits (-(n : Int) - 1) = true := by unfold fits; exact decide_eq_true (by omega)
      refine ⟨ops ++ [.create 3, .destroy s.next], _, by
        rw [app, e]
        simp [run, step, memChkNew, memChkDel, h1, h2, h3, h4, f1, f0, f2, f4, Outcome.bind, upd]
        rfl, ?_, ?_, ?_, ?_⟩ <;> simp [upd]
      omega
  obtain ⟨ops, s, e, h1, h2, h3, -⟩ := many 2147483647 (by omega)
  have app : ∀ (l : List Op) (a : St), run false a (l ++ [.create 3]) = (run false a l).bind fun b => run false b [.create 3] := by
    intro l
    induction l with
    | nil => intro a; rfl
    | cons op l ihl => intro a; simp only [List.cons_append, run]; cases step false a op <;> first | exact ihl _ | rfl
  exact ⟨ops ++ [.create 3], by rw [app, e]; exact hone s h1 h2 (by simpa using h3)⟩

end Verif.Memory
