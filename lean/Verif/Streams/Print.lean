import Verif.Utils.StatText
import Verif.Utils.Strings
import Verif.BitVector.Model
import Verif.BitVector.PropsText
import Verif.BitVector.PropsFields
import Mathlib.Data.List.Forall2

/-
Property C150: several values printed one after the other on one stream.  The library's own `operator<<` are in `BitVector.cpp`, `Vector.h`, `Timeval.cpp`, `F16.h` and `Utils.cpp`.
-/

namespace Verif.Streams
open Verif

/-! ### Streams, after the C++ standard -/

inductive Base where
  | dec | oct | hex
  deriving DecidableEq, Repr

inductive FloatField where
  | general | fixed | scientific
  deriving DecidableEq, Repr

/-- The state of a stream that stays: the base, the notation of `double`, and everything else (precision, fill character, side, ...). -/
structure Flags where
  base : Base := .dec
  float : FloatField := .general
  rest : Nat := 0
  deriving DecidableEq, Repr

/-- How numbers look, and how a text is filled up to a width; the theorems hold for every such look. -/
structure Look where
  int : Flags → Int → Str
  real : Flags → Rat → Str
  pad : Flags → Nat → Str → Str
  pad_zero : ∀ f s, pad f 0 s = s

structure Stream where
  flags : Flags := {}
  width : Nat := 0
  out : Str := []
  deriving DecidableEq

/-- A formatted insertion: the text is filled up to the width, which is used up. -/
def Stream.put (k : Look) (s : Stream) (t : Str) : Stream := { s with width := 0, out := s.out ++ k.pad s.flags s.width t }

/-- What the operators of the library do to the stream. -/
inductive Op where
  | str (t : Str)
  | int (x : Int)
  | real (x : Rat)
  | base (b : Base)
  | float (f : FloatField)

def Stream.op (k : Look) (s : Stream) : Op → Stream
  | .str t => s.put k t
  | .int x => s.put k (k.int s.flags x)
  | .real x => s.put k (k.real s.flags x)
  | .base b => { s with flags := { s.flags with base := b } }
  | .float f => { s with flags := { s.flags with float := f } }

def Stream.ops (k : Look) (s : Stream) (l : List Op) : Stream := l.foldl (Stream.op k) s

/-! ### The operators of the library -/

/-- What can be printed. -/
inductive Value where
  | bits (v : BitVector.Bits)
  | soft (v : List Rat)
  /-- `Vector<int>` -/
  | vector (v : List Int)
  | timespec (sec nsec : Int)
  /-- `Timeval`, with `seconds()` -/
  | timeval (sec : Rat)
  /-- `F16`, with `f()` -/
  | f16 (x : Rat)
  | stat (s : Utils.Statistic)
  /-- a pointer to a `Text2Str`, whose `text` may do anything to its stream -/
  | object (o : Option (Stream → Stream))
  /-- an `ostringstream` -/
  | sstream (t : Str)
  /-- `osprintf` -/
  | printf (t : Str)
  /-- `BitVector::hex(os)` -/
  | hex (v : BitVector.Bits)

/-- A macro `LOGVAR2`, `Logger.h:91`. -/
def logvar2 (name : String) (x : Op) : List Op := [.str (lit " "), .str (lit name), .str (lit "="), x]

/-- The numbers that `BitVector::hex` prints, `BitVector.cpp:411-415`. -/
def hexLoop (v : BitVector.Bits) (wp : Nat) : Nat → Outcome (List Op)
  | 0 => .ok []
  | k + 1 => do
    let (w, wp') ← BitVector.readField v wp 4
    let rest ← hexLoop v wp' k
    pure (.int w.toNat :: rest)

/-- `Statistic::text`, `Utils.h:144-160`; the number of samples above 999999 is a text. -/
def statOps (fwd : Bool) (s : Utils.Statistic) : Outcome (List Op) :=
  if s.mMin = s.mMax then .ok [.str (lit "("), .int s.mCurrent, .str (lit ")")]
  else do
    let n ← Utils.StatText.countText fwd s.mCnt
    pure ([.str (lit "("), .int s.mCurrent] ++ logvar2 "min" (.int s.mMin) ++ logvar2 "max" (.int s.mMax) ++ logvar2 "avg" (.real s.getAvg) ++
      logvar2 "N" (if s.mCnt ≤ 999999 then .int s.mCnt else .str n) ++ [.str (lit ")")])

/-- The insertions, in order: `BitVector.cpp:249-256`, `BitVector.cpp:353-361`, `Vector.h:393-397`, `Timeval.cpp:92-96`, `Timeval.cpp:84-89`, `F16.h:204-208`, `Utils.cpp:472`, `Utils.cpp:331-341` (`text` writes to a stream of its own),
`Utils.cpp:112-115`, `Utils.cpp:117-127`, `BitVector.cpp:408-417`. -/
def Value.ops (fwd : Bool) : Value → Outcome (List Op)
  | .bits v => .ok ((BitVector.print v).map fun c => .str [chr c])
  | .soft v => .ok ((BitVector.softPrint v).map fun c => .str [chr c])
  | .vector v => .ok (v.flatMap fun x => [.int x, .str (lit " ")])
  | .timespec a b => .ok [.int a, .str (lit ","), .int b]
  | .timeval x => .ok [.float .fixed, .real x]
  | .f16 x => .ok [.real x]
  | .stat s => statOps fwd s
  | .object none => .ok [.str (lit "(null)")]
  | .object (some text) => .ok [.str (text {}).out]
  | .sstream t => .ok [.str t]
  | .printf t => .ok [.str (Utils.osprintf t)]
  | .hex v => do
    let l ← hexLoop v 0 (v.length / 4)
    pure (.base .hex :: l ++ [.base .dec])

/-- `os << value`. -/
def print (k : Look) (fwd : Bool) (s : Stream) (v : Value) : Outcome Stream := do
  let l ← v.ops fwd
  pure (s.ops k l)

/-- `os << value << value ...` -/
def printAll (k : Look) (fwd : Bool) (s : Stream) : List Value → Outcome Stream
  | [] => .ok s
  | v :: l => do
    let s' ← print k fwd s v
    printAll k fwd s' l

/-! ### Specification -/

/-- What a value looks like by itself on a stream in this state. -/
def alone (k : Look) (fwd : Bool) (f : Flags) (v : Value) : Outcome Str := do
  let s ← print k fwd { flags := f } v
  pure s.out

/-- Values that leave the stream as it is: all but a `Timeval` and `BitVector::hex`. -/
def Quiet : Value → Prop
  | .timeval _ => False
  | .hex _ => False
  | _ => True

/-- Values whose text is the same in all states of the stream. -/
def Fixed : Value → Prop
  | .bits _ => True
  | .soft _ => True
  | .object _ => True
  | .sstream _ => True
  | .printf _ => True
  | _ => False

/-- Values that are one text for the stream. -/
def Whole : Value → Str → Prop
  | .object none, t => t = lit "(null)"
  | .object (some text), t => t = (text {}).out
  | .sstream u, t => t = u
  | .printf u, t => t = Utils.osprintf u
  | _, _ => False

/-! ### Lemmas -/

/-- No manipulators. -/
def Plain : Op → Prop
  | .base _ => False
  | .float _ => False
  | _ => True

theorem op_plain (k : Look) (s : Stream) (o : Op) (h : Plain o) : (s.op k o).flags = s.flags ∧ (s.width = 0 → (s.op k o).width = 0) := by
  cases o <;> first | exact (h : False).elim | exact ⟨rfl, fun _ => rfl⟩

theorem ops_plain (k : Look) (l : List Op) (s : Stream) (h : ∀ o ∈ l, Plain o) : (s.ops k l).flags = s.flags ∧ (s.width = 0 → (s.ops k l).width = 0) := by
  induction l generalizing s with
  | nil => exact ⟨rfl, id⟩
  | cons o l ih =>
    have h1 := op_plain k s o (h o (by simp))
    have h2 := ih (s.op k o) fun o ho => h o (by simp [ho])
    exact ⟨h2.1.trans h1.1, fun hw => h2.2 (h1.2 hw)⟩

theorem logvar2_plain (n : String) (x : Op) (h : Plain x) : ∀ o ∈ logvar2 n x, Plain o := by
  intro o ho
  simp only [logvar2, List.mem_cons, List.not_mem_nil, or_false] at ho
  rcases ho with rfl | rfl | rfl | rfl <;> trivial

theorem statOps_plain {fwd : Bool} {s : Utils.Statistic} {l : List Op} (h : statOps fwd s = .ok l) : ∀ o ∈ l, Plain o := by
  unfold statOps at h
  split at h
  · cases h
    intro o ho
    simp only [List.mem_cons, List.not_mem_nil, or_false] at ho
    rcases ho with rfl | rfl | rfl <;> trivial
  · obtain ⟨n, -, h⟩ := Outcome.bind_eq_ok.1 h
    cases h
    intro o ho
    simp only [List.mem_append, List.mem_cons, List.not_mem_nil, or_false] at ho
    rcases ho with ((((((rfl | rfl) | ho) | ho) | ho) | ho) | rfl)
    · trivial
    · trivial
    · exact logvar2_plain _ _ (by trivial) o ho
    · exact logvar2_plain _ _ (by trivial) o ho
    · exact logvar2_plain _ _ (by trivial) o ho
    · refine logvar2_plain _ _ ?_ o ho
      split <;> trivial
    · trivial

theorem quiet_plain {fwd : Bool} {v : Value} {l : List Op} (hq : Quiet v) (h : v.ops fwd = .ok l) : ∀ o ∈ l, Plain o := by
  cases v with
  | bits v => cases h; intro o ho; obtain ⟨c, -, rfl⟩ := List.mem_map.1 ho; trivial
  | soft v => cases h; intro o ho; obtain ⟨c, -, rfl⟩ := List.mem_map.1 ho; trivial
  | vector v =>
    cases h; intro o ho; obtain ⟨c, -, hc⟩ := List.mem_flatMap.1 ho
    simp only [List.mem_cons, List.not_mem_nil, or_false] at hc
    rcases hc with rfl | rfl <;> trivial
  | timespec a b =>
    cases h; intro o ho
    simp only [List.mem_cons, List.not_mem_nil, or_false] at ho
    rcases ho with rfl | rfl | rfl <;> trivial
  | timeval x => exact (hq : False).elim
  | f16 x => cases h; intro o ho; rw [List.mem_singleton] at ho; subst ho; trivial
  | stat s => exact statOps_plain h
  | object t => cases t <;> (cases h; intro o ho; rw [List.mem_singleton] at ho; subst ho; trivial)
  | sstream t => cases h; intro o ho; rw [List.mem_singleton] at ho; subst ho; trivial
  | printf t => cases h; intro o ho; rw [List.mem_singleton] at ho; subst ho; trivial
  | hex v => exact (hq : False).elim

/-- What is in the stream already stays in front. -/
theorem op_out (k : Look) (f : Flags) (w : Nat) (p : Str) (q : Str) (o : Op) : (Stream.mk f w (p ++ q)).op k o = { (Stream.mk f w q).op k o with out := p ++ ((Stream.mk f w q).op k o).out } := by
  cases o <;> simp [Stream.op, Stream.put]

theorem ops_out (k : Look) (l : List Op) (f : Flags) (w : Nat) (p q : Str) : (Stream.mk f w (p ++ q)).ops k l = { (Stream.mk f w q).ops k l with out := p ++ ((Stream.mk f w q).ops k l).out } := by
  induction l generalizing f w q with
  | nil => rfl
  | cons o l ih =>
    show ((Stream.mk f w (p ++ q)).op k o).ops k l = _
    rw [op_out]
    exact ih _ _ _

theorem hexLoop_plain (v : BitVector.Bits) (n : Nat) : ∀ wp l, hexLoop v wp n = .ok l → ∀ o ∈ l, ∃ x : Nat, o = .int x := by
  induction n with
  | zero => intro wp l h; cases h; intro o ho; cases ho
  | succ n ih =>
    intro wp l h
    rw [hexLoop] at h
    obtain ⟨⟨w, wp'⟩, -, h⟩ := Outcome.bind_eq_ok.1 h
    obtain ⟨r, hr, h⟩ := Outcome.bind_eq_ok.1 h
    cases h
    intro o ho
    rcases List.mem_cons.1 ho with rfl | ho
    · exact ⟨_, rfl⟩
    · exact ih _ _ hr o ho

/-! ### C150 -/

/-- The state of the stream after a value: as before, but a `Timeval` leaves it in fixed notation and `BitVector::hex` in decimal. -/
theorem C150_flags (k : Look) (fwd : Bool) (s s' : Stream) (v : Value) (h : print k fwd s v = .ok s') :
    (Quiet v → s'.flags = s.flags ∧ (s.width = 0 → s'.width = 0)) ∧ ((∃ x, v = .timeval x) → s'.flags = { s.flags with float := .fixed } ∧ s'.width = 0) ∧
    ((∃ b, v = .hex b) → s'.flags = { s.flags with base := .dec }) := by
  obtain ⟨l, hl, h⟩ := Outcome.bind_eq_ok.1 h
  cases h
  refine ⟨fun hq => ops_plain k l s (quiet_plain hq hl), ?_, ?_⟩
  · rintro ⟨x, rfl⟩
    cases hl
    exact ⟨rfl, rfl⟩
  · rintro ⟨b, rfl⟩
    obtain ⟨m, hm, hl⟩ := Outcome.bind_eq_ok.1 hl
    cases hl
    have hp : ∀ o ∈ m, Plain o := fun o ho => by obtain ⟨x, rfl⟩ := hexLoop_plain _ _ _ _ hm o ho; trivial
    have := (ops_plain k m (s.op k (.base .hex)) hp).1
    simp only [Stream.ops, List.cons_append, List.foldl_cons, List.foldl_append, List.foldl_nil] at this ⊢
    rw [Stream.op, this]
    rfl

/-- C150, partial: values printed one after the other look as each of them does by itself on a stream in the same state, which is still in that state afterwards.
Missing: values after a `Timeval` or `BitVector::hex` (`C150_timeval_refuted`, `C150_hex_refuted`), and a width (`C150_width_refuted`). -/
theorem C150_independent_partial (k : Look) (fwd : Bool) (f : Flags) (out : Str) (l : List Value) (ts : List Str) (hq : ∀ v ∈ l, Quiet v) (h : List.Forall₂ (fun v t => alone k fwd f v = .ok t) l ts) :
    printAll k fwd { flags := f, out := out } l = .ok { flags := f, out := out ++ ts.flatten } := by
  induction h generalizing out with
  | nil => simp [printAll]
  | @cons v t l ts hv _ ih =>
    obtain ⟨s, hs, ht⟩ := Outcome.bind_eq_ok.1 hv
    cases ht
    obtain ⟨ol, hol, h2⟩ := Outcome.bind_eq_ok.1 hs
    cases h2
    have hfl := (C150_flags k fwd _ _ v hs).1 (hq v (by simp))
    have e : print k fwd { flags := f, out := out } v = .ok { flags := f, out := out ++ (Stream.ops k { flags := f } ol).out } := by
      unfold print
      rw [hol]
      show Outcome.ok _ = _
      have := ops_out k ol f 0 out []
      rw [List.append_nil] at this
      rw [this]
      have h1 := hfl.1
      have h2 := hfl.2 rfl
      generalize Stream.ops k { flags := f } ol = z at *
      cases z
      simp only at h1 h2 ⊢
      subst h1; subst h2
      rfl
    rw [printAll, e]
    show printAll k fwd _ l = _
    rw [ih _ fun v hv => hq v (by simp [hv])]
    simp [List.append_assoc]

theorem strs_out (k : Look) (l : List Str) (s : Stream) (hw : s.width = 0) : (s.ops k (l.map .str)).out = s.out ++ l.flatten := by
  induction l generalizing s with
  | nil => simp [Stream.ops]
  | cons t l ih =>
    show ((s.op k (.str t)).ops k (l.map .str)).out = _
    rw [ih _ rfl]
    simp [Stream.op, Stream.put, hw, k.pad_zero]

/-- Bit vectors, soft bits, objects and texts look the same in all states of the stream: the bits one character each, an object as on a stream of its own, whatever its `text` does to the state of that stream. -/
theorem C150_fixed (k : Look) (fwd : Bool) (f : Flags) (v : Value) (hv : Fixed v) :
    alone k fwd f v = .ok (match v with
      | .bits v => (BitVector.print v).map chr
      | .soft v => (BitVector.softPrint v).map chr
      | .object none => lit "(null)"
      | .object (some text) => (text {}).out
      | .sstream t => t
      | .printf t => Utils.osprintf t
      | _ => []) := by
  have hs : ∀ l : List Char, l.map (fun c => Op.str [chr c]) = (l.map fun c => [chr c]).map Op.str := fun l => by rw [List.map_map]; rfl
  have hf : ∀ l : List Char, (l.map fun c => [chr c]).flatten = l.map chr := fun l => by induction l with | nil => rfl | cons c l ih => simp [ih]
  cases v with
  | bits v =>
    show Outcome.ok (Stream.ops k { flags := f } _).out = _
    rw [hs, strs_out _ _ _ rfl, hf]; rfl
  | soft v =>
    show Outcome.ok (Stream.ops k { flags := f } _).out = _
    rw [hs, strs_out _ _ _ rfl, hf]; rfl
  | object t => cases t <;> (show Outcome.ok (k.pad f 0 _) = _; rw [k.pad_zero])
  | sstream t => show Outcome.ok (k.pad f 0 _) = _; rw [k.pad_zero]
  | printf t => show Outcome.ok (k.pad f 0 _) = _; rw [k.pad_zero]
  | vector _ => exact (hv : False).elim
  | timespec _ _ => exact (hv : False).elim
  | timeval _ => exact (hv : False).elim
  | f16 _ => exact (hv : False).elim
  | stat _ => exact (hv : False).elim
  | hex _ => exact (hv : False).elim

/-- A width fills up an object or a text as a whole. -/
theorem C150_width_partial (k : Look) (fwd : Bool) (s : Stream) (v : Value) (t : Str) (h : Whole v t) : print k fwd s v = .ok { s with width := 0, out := s.out ++ k.pad s.flags s.width t } := by
  cases v with
  | object o => cases o <;> (cases (h : t = _); rfl)
  | sstream u => cases (h : t = u); rfl
  | printf u => cases (h : t = _); rfl
  | _ => exact (h : False).elim

/-- A width fills up only the first bit of a bit vector, and if there is none, whatever is printed next. -/
theorem C150_width_refuted (k : Look) (fwd : Bool) (s : Stream) (c : Byte) (v : BitVector.Bits) :
    print k fwd s (.bits (c :: v)) = .ok { s with width := 0, out := s.out ++ k.pad s.flags s.width ((BitVector.print [c]).map chr) ++ (BitVector.print v).map chr } ∧ print k fwd s (.bits []) = .ok s := by
  constructor
  · have hs : ∀ l : List Char, l.map (fun c => Op.str [chr c]) = (l.map fun c => [chr c]).map Op.str := fun l => by rw [List.map_map]; rfl
    have hf : ∀ l : List Char, (l.map fun c => [chr c]).flatten = l.map chr := fun l => by induction l with | nil => rfl | cons c l ih => simp [ih]
    show Outcome.ok (Stream.ops k (s.op k (.str _)) ((BitVector.print v).map fun c => Op.str [chr c])) = _
    have h1 := ops_plain k ((BitVector.print v).map fun c => Op.str [chr c]) (s.op k (.str ((BitVector.print [c]).map chr)))
      (by intro o ho; obtain ⟨c, -, rfl⟩ := List.mem_map.1 ho; trivial)
    have h2 := strs_out k ((BitVector.print v).map fun c => [chr c]) (s.op k (.str ((BitVector.print [c]).map chr))) rfl
    rw [hf, ← hs] at h2
    have h3 := h1.2 rfl
    have h4 := h1.1
    change Outcome.ok (Stream.ops k (s.op k (.str ((BitVector.print [c]).map chr))) _) = _
    generalize Stream.ops k (s.op k (.str ((BitVector.print [c]).map chr))) _ = z at *
    cases z
    simp only at h2 h3 h4
    subst h2; subst h3; subst h4
    simp [Stream.op, Stream.put]
  · rfl

/-- A `Timeval` changes every number after it that looks different in fixed notation; here an `F16`. -/
theorem C150_after_timeval (k : Look) (fwd : Bool) (f : Flags) (sec x : Rat) :
    printAll k fwd { flags := f } [.f16 x, .timeval sec, .f16 x] =
      .ok { flags := { f with float := .fixed }, out := k.real f x ++ k.real { f with float := .fixed } sec ++ k.real { f with float := .fixed } x } := by
  simp [printAll, print, Value.ops, Stream.ops, Stream.op, Stream.put, k.pad_zero]

/-! ### A look -/

/-- Six digits after the point. -/
def fixed6 (x : Rat) : Str :=
  let n := (x * 1000000).floor
  let a := n.natAbs
  (if n < 0 then lit "-" else []) ++ natText 10 (a / 1000000) ++ lit "." ++ ((natText 10 (1000000 + a % 1000000)).drop 1)

/-- As an `ostream` writes them: numbers with at most six digits after the point; without zeros at the end unless fixed. -/
def look : Look where
  int f x := match f.base with
    | .hex => natText 16 (x % 2 ^ 32).toNat
    | .oct => natText 8 (x % 2 ^ 32).toNat
    | .dec => intText x
  real f x := if f.float = .general then ((((fixed6 x).reverse.dropWhile (· = chr '0')).dropWhile (· = chr '.')).reverse) else fixed6 x
  pad _ w t := List.replicate (w - t.length) 32 ++ t
  pad_zero _ t := by simp

/-- C150 refuted: the same number looks different before and after a `Timeval`. -/
theorem C150_timeval_refuted : printAll look true {} [.f16 (1 / 2), .sstream (lit " "), .timeval 3, .sstream (lit " "), .f16 (1 / 2)] =
    .ok { flags := { float := .fixed }, out := lit "0.5 3.000000 0.500000" } ∧ alone look true {} (.f16 (1 / 2)) = .ok (lit "0.5") := by
  constructor <;> decide +kernel

/-- C150 refuted: on a stream that was set to hexadecimal, the numbers after `BitVector::hex` are decimal. -/
theorem C150_hex_refuted : printAll look true { flags := { base := .hex } } [.vector [255], .hex [1, 0, 1, 0], .sstream (lit " "), .vector [255]] =
    .ok { flags := {}, out := lit "ff a 255 " } ∧ alone look true { base := .hex } (.vector [255]) = .ok (lit "ff ") := by
  constructor <;> decide +kernel

/-- `BitVector::hex` prints the same digits in all states of a stream that writes the digits below sixteen as usual: one for each four bits; the bits left over are not printed. -/
theorem C150_hex (k : Look) (hk : ∀ f : Flags, ∀ d : Nat, f.base = .hex → d < 16 → k.int f d = [digitChar d]) (fwd : Bool) (f : Flags) (v : BitVector.Bits) :
    alone k fwd f (.hex v) = .ok ((List.range (v.length / 4)).map fun j => digitChar (BitVector.Spec.msbValue (BitVector.Spec.window (BitVector.Spec.bits v) (4 * j) 4))) := by
  have H : ∀ n i, 4 * (i + n) ≤ v.length → ∃ l, hexLoop v (4 * i) n = .ok l ∧ ∀ s : Stream, s.flags.base = .hex → s.width = 0 →
      (s.ops k l).out = s.out ++ (List.range n).map fun j => digitChar (BitVector.Spec.msbValue (BitVector.Spec.window (BitVector.Spec.bits v) (4 * (i + j)) 4)) := by
    intro n
    induction n with
    | zero => intro i _; exact ⟨[], rfl, fun s _ _ => by simp [Stream.ops]⟩
    | succ n ih =>
      intro i h
      obtain ⟨l, hl, hs⟩ := ih (i + 1) (by omega)
      have hlt := BitVector.msbValue_lt (BitVector.Spec.window (BitVector.Spec.bits v) (4 * i) 4)
      rw [BitVector.window_length _ _ _ (by rw [BitVector.bits_length]; omega)] at hlt
      have hr : BitVector.readField v (4 * i) 4 = .ok (BitVec.ofNat 64 (BitVector.Spec.msbValue (BitVector.Spec.window (BitVector.Spec.bits v) (4 * i) 4)), 4 * (i + 1)) := by
        rw [BitVector.readField, BitVector.C01_peekField _ _ _ (by omega)]; rfl
      have hn : (BitVec.ofNat 64 (BitVector.Spec.msbValue (BitVector.Spec.window (BitVector.Spec.bits v) (4 * i) 4))).toNat = BitVector.Spec.msbValue (BitVector.Spec.window (BitVector.Spec.bits v) (4 * i) 4) := by
        rw [BitVec.toNat_ofNat, Nat.mod_eq_of_lt (by omega)]
      refine ⟨.int (BitVector.Spec.msbValue (BitVector.Spec.window (BitVector.Spec.bits v) (4 * i) 4) : Nat) :: l, by rw [hexLoop, hr]; simp [hl, hn], fun s hb hw => ?_⟩
      show ((s.op k (.int _)).ops k l).out = _
      rw [hs (s.op k (.int _)) hb rfl, List.range_succ_eq_map, List.map_cons, List.map_map]
      simp only [Stream.op, Stream.put, hw, k.pad_zero, hk _ _ hb hlt, List.append_assoc, List.singleton_append, Nat.add_zero]
      congr 2
      apply List.map_congr_left
      intro j _
      simp only [Function.comp]
      congr 4; omega
  obtain ⟨l, hl, hs⟩ := H (v.length / 4) 0 (by omega)
  have := hs { flags := { f with base := .hex } } rfl rfl
  unfold alone print
  rw [Nat.mul_zero] at hl
  simp only [Value.ops, hl]
  show Outcome.ok (Stream.ops k _ _).out = _
  simp only [Stream.ops, List.cons_append, List.foldl_cons, List.foldl_append, List.foldl_nil, Stream.op] at this ⊢
  rw [this]
  simp

/-! ### Examples -/

example : printAll look true {} [.bits [1, 0, 1], .sstream (lit " "), .soft [0, 1, 1 / 2], .sstream (lit " "), .vector [3, -4], .timespec 1 5, .object none, .hex [1, 1, 1, 1, 0], .stat (Utils.samples [3, -1, 5])] =
    .ok { out := lit "101 01- 3 -4 1,5(null)f(5 min=-1 max=5 avg=2.333333 N=3)" } := by decide +kernel

/-- An object whose `text` leaves its stream in hexadecimal does not change the one it is printed on; a width of eight. -/
example : printAll look true { width := 8 } [.object (some fun s => s.ops look [.base .hex, .int 255]), .vector [255]] = .ok { out := lit "      ff255 " } ∧
    printAll look true { width := 8 } [.bits [1, 1, 1]] = .ok { out := lit "       111" } := by constructor <;> decide +kernel

/-- The look of the examples writes digits as usual. -/
example : ∀ f : Flags, ∀ d : Nat, f.base = .hex → d < 16 → look.int f d = [digitChar d] := by
  intro f d hf hd
  simp only [look, hf]
  revert d
  decide +kernel

end Verif.Streams
