import Verif.BitVector.PropsPack
import Verif.BitVector.PropsFields

/-
Property C160: a message that is built through a vector and segments of it, in any order (`BitVector.h:160-198`, `BitVector.cpp:107-160`, `Vector.h:242-282`).

All segments of a vector, and segments of segments, show one piece of memory (C15).  Here the memory is the list of the chars of the first vector.
-/

namespace Verif.BitVector.Views
open Verif Verif.BitVector Verif.BitVector.Spec

/-! ### Model -/

/-- A vector that shows the chars `off .. off + len - 1` of the memory. -/
structure View where
  off : Nat
  len : Nat
  deriving DecidableEq

/-- `BitVector::segment`, BitVector.h:160-170. -/
def segment (w : View) (start span : Nat) : Outcome View := if start + span ≤ w.len then .ok ⟨w.off + start, span⟩ else .assertFail

/-- `BitVector::alias`, `head`, `tail`, BitVector.h:184-189; `tail` beyond the end (C18) is not considered. -/
def alias (w : View) : Outcome View := segment w 0 w.len
def head (w : View) (span : Nat) : Outcome View := segment w 0 span
def tail (w : View) (start : Nat) : Outcome View := if start ≤ w.len then segment w start (w.len - start) else .ub

/-- The chars a view shows. -/
def show' (m : Bits) (w : View) : Bits := (m.drop w.off).take w.len

/-- The memory when the chars of a view have become `v`. -/
def store (m : Bits) (w : View) (v : Bits) : Bits := m.take w.off ++ v ++ m.drop (w.off + w.len)

/-- The calls that change bits. -/
inductive Op where
  | fill (w : View) (index : Nat) (value : BitVec 64) (n : Nat)
  | fillReversed (w : View) (index : Nat) (value : BitVec 64) (n : Nat)
  | settfb (w : View) (index : Nat) (value : BitVec 32)
  | set (w : View) (c : BitVec 8) (start n : Nat)
  | unpack (w : View) (src : List (BitVec 8))
  | invert (w : View)
  | copy (w to : View) (start span : Nat)

/-- `VectorBase::fill(val,start,length)`, Vector.h:276-282; `fill(val)` of Vector.h:270-274 and `zero` of BitVector.h:198 are the same from 0 to the end. -/
def setRange (v : Bits) (c : BitVec 8) (start n : Nat) : Outcome Bits :=
  if start + n ≤ v.length then .ok (v.take start ++ List.replicate n c ++ v.drop (start + n)) else .assertFail

/-- One call.  `copy` is `copyToSegment`, Vector.h:242-248, with a `memcpy` that is undefined when both ranges share a char. -/
def run (m : Bits) : Op → Outcome Bits
  | .fill w i x n => do let v ← fillField (show' m w) i x n; pure (store m w v)
  | .fillReversed w i x n => do let v ← fillFieldReversed (show' m w) i x n; pure (store m w v)
  | .settfb w i x => do let v ← BitVector.settfb (show' m w) i x; pure (store m w v)
  | .set w c s n => do let v ← setRange (show' m w) c s n; pure (store m w v)
  | .unpack w src => do let v ← BitVector.unpack (show' m w) src; pure (store m w v)
  | .invert w => .ok (store m w (BitVector.invert (show' m w)))
  | .copy w to s n =>
    if s + n ≤ to.len then
      if n ≤ w.len then
        if n = 0 ∨ w.off + n ≤ to.off + s ∨ to.off + s + n ≤ w.off then .ok (store m ⟨to.off + s, n⟩ ((m.drop w.off).take n)) else .ub
      else .assertFail
    else .assertFail

def runAll (m : Bits) : List Op → Outcome Bits
  | [] => .ok m
  | o :: l => do let m' ← run m o; runAll m' l

/-! ### What the calls should do, bit by bit -/

/-- The view lies in a memory of `N` chars. -/
def View.In (w : View) (N : Nat) : Prop := w.off + w.len ≤ N

/-- The call stays within its views, and a copy does not overlap itself. -/
def Op.Fits (N : Nat) : Op → Prop
  | .fill w i _ n => w.In N ∧ i + n ≤ w.len
  | .fillReversed w i _ n => w.In N ∧ i + n ≤ w.len
  | .settfb w i _ => w.In N ∧ i < w.len
  | .set w _ s n => w.In N ∧ s + n ≤ w.len
  | .unpack w src => w.In N ∧ (w.len + 7) / 8 ≤ src.length
  | .invert w => w.In N
  | .copy w to s n => w.In N ∧ to.In N ∧ s + n ≤ to.len ∧ n ≤ w.len ∧ (n = 0 ∨ w.off + n ≤ to.off + s ∨ to.off + s + n ≤ w.off)

/-- What a call does to bit `p`, counted from the beginning of the memory, when the bits were `b`. -/
def Op.bitAfter (b : Nat → Bool) (p : Nat) : Op → Bool
  | .fill w i x n => if w.off + i ≤ p ∧ p < w.off + i + n then x.toNat.testBit (w.off + i + n - 1 - p) else b p
  | .fillReversed w i x n => if w.off + i ≤ p ∧ p < w.off + i + n then x.toNat.testBit (p - (w.off + i)) else b p
  | .settfb w i x => if p = w.off + i then x.toNat.testBit 0 else b p
  | .set w c s n => if w.off + s ≤ p ∧ p < w.off + s + n then c.toNat.testBit 0 else b p
  | .unpack w src => if w.off ≤ p ∧ p < w.off + w.len then ((src[(p - w.off) / 8]?).getD 0).toNat.testBit (7 - (p - w.off) % 8) else b p
  | .invert w => if w.off ≤ p ∧ p < w.off + w.len then ! b p else b p
  | .copy w to s n => if to.off + s ≤ p ∧ p < to.off + s + n then b (p - (to.off + s) + w.off) else b p

/-- The bits after several calls. -/
def bitsAfter (b : Nat → Bool) : List Op → Nat → Bool
  | [] => b
  | o :: l => bitsAfter (fun p => o.bitAfter b p) l

/-- The bits of a memory. -/
def bitAt (m : Bits) (p : Nat) : Bool := (bits m)[p]?.getD false

/-- The value a call gives bit `p` by itself, if it covers it: calls that depend on the bits before have none. -/
def Op.gives (p : Nat) : Op → Option Bool
  | .fill w i x n => if w.off + i ≤ p ∧ p < w.off + i + n then some (x.toNat.testBit (w.off + i + n - 1 - p)) else none
  | .fillReversed w i x n => if w.off + i ≤ p ∧ p < w.off + i + n then some (x.toNat.testBit (p - (w.off + i))) else none
  | .settfb w i x => if p = w.off + i then some (x.toNat.testBit 0) else none
  | .set w c s n => if w.off + s ≤ p ∧ p < w.off + s + n then some (c.toNat.testBit 0) else none
  | .unpack w src => if w.off ≤ p ∧ p < w.off + w.len then some (((src[(p - w.off) / 8]?).getD 0).toNat.testBit (7 - (p - w.off) % 8)) else none
  | _ => none

/-- The calls that write given values. -/
def Op.Writes : Op → Prop
  | .invert _ => False
  | .copy .. => False
  | _ => True

/-! ### Lemmas -/

theorem show_length {m : Bits} {w : View} (h : w.In m.length) : (show' m w).length = w.len := by
  unfold show' View.In at *; simp; omega

theorem store_length {m v : Bits} {w : View} (h : w.In m.length) (hv : v.length = w.len) : (store m w v).length = m.length := by
  unfold store View.In at *; simp; omega

theorem store_get {m v : Bits} {w : View} (h : w.In m.length) (hv : v.length = w.len) (p : Nat) :
    (store m w v)[p]? = if w.off ≤ p ∧ p < w.off + w.len then v[p - w.off]? else m[p]? := by
  unfold store View.In at *
  rw [List.getElem?_append, List.getElem?_append]
  simp only [List.length_append, List.length_take]
  have hm : min w.off m.length = w.off := by omega
  rw [hm]
  by_cases h1 : p < w.off
  · rw [if_pos (by omega), if_pos h1, if_neg (by omega), List.getElem?_take, if_pos h1]
  · by_cases h2 : p < w.off + w.len
    · rw [if_pos (by omega), if_neg h1, if_pos (by omega)]
    · rw [if_neg (by omega), if_neg (by omega), List.getElem?_drop]
      congr 1; omega

theorem show_get {m : Bits} {w : View} {k : Nat} (hk : k < w.len) : (show' m w)[k]? = m[w.off + k]? := by
  unfold show'
  rw [List.getElem?_take, if_pos hk, List.getElem?_drop]

theorem bitAt_store {m v : Bits} {w : View} (h : w.In m.length) (hv : v.length = w.len) (p : Nat) :
    bitAt (store m w v) p = if w.off ≤ p ∧ p < w.off + w.len then bitAt v (p - w.off) else bitAt m p := by
  unfold bitAt
  rw [bits_getElem?, bits_getElem?, bits_getElem?, store_get h hv]
  split <;> rfl

theorem bitAt_show {m : Bits} {w : View} {k : Nat} (hk : k < w.len) : bitAt (show' m w) k = bitAt m (w.off + k) := by
  unfold bitAt
  rw [bits_getElem?, bits_getElem?, show_get hk]

theorem bitAt_overwrite {v v' : Bits} {i : Nat} {new : List Bool} (h : bits v' = overwrite (bits v) i new) (hl : i + new.length ≤ v.length) (j : Nat) :
    bitAt v' j = if i ≤ j ∧ j < i + new.length then new[j - i]?.getD false else bitAt v j := by
  unfold bitAt
  rw [h, overwrite_getElem? _ _ _ _ (by rw [bits_length]; exact hl)]
  split <;> rfl

/-- One call: exact effect. -/
theorem run_ok {m : Bits} {o : Op} (h : o.Fits m.length) : ∃ m', run m o = .ok m' ∧ m'.length = m.length ∧ ∀ p, p < m.length → bitAt m' p = o.bitAfter (bitAt m) p := by
  cases o with
  | fill w i x n =>
    obtain ⟨hw, hn⟩ := h
    have hl := show_length hw
    obtain ⟨v', h1, h2, h3, -, -⟩ := C01_fillField (show' m w) i n x (.inr (by omega))
    refine ⟨store m w v', by simp [run, h1], store_length hw (by omega), fun p _ => ?_⟩
    rw [bitAt_store hw (by omega)]
    simp only [Op.bitAfter]
    have hd : (msbDigits n x.toNat).length = n := by simp [msbDigits]
    have ho := bitAt_overwrite h3 (by rw [hd, hl]; exact hn) (p - w.off)
    rw [hd] at ho
    by_cases h5 : w.off ≤ p ∧ p < w.off + w.len
    · rw [if_pos h5, ho]
      by_cases h6 : w.off + i ≤ p ∧ p < w.off + i + n
      · rw [if_pos (by omega), if_pos h6]
        unfold msbDigits
        rw [List.getElem?_eq_getElem (by simp; omega)]
        simp only [List.getElem_map, List.getElem_range, Option.getD_some]
        congr 1; omega
      · rw [if_neg (by omega), if_neg h6, bitAt_show (by omega)]
        congr 1; omega
    · rw [if_neg h5, if_neg (by omega)]
  | fillReversed w i x n =>
    obtain ⟨hw, hn⟩ := h
    have hl := show_length hw
    obtain ⟨v', h1, h2, h3, -, -⟩ := C02_fillFieldReversed (show' m w) i n x (.inr (by omega))
    refine ⟨store m w v', by simp [run, h1], store_length hw (by omega), fun p _ => ?_⟩
    rw [bitAt_store hw (by omega)]
    simp only [Op.bitAfter]
    have hd : (lsbDigits n x.toNat).length = n := by simp [lsbDigits]
    have ho := bitAt_overwrite h3 (by rw [hd, hl]; exact hn) (p - w.off)
    rw [hd] at ho
    by_cases h5 : w.off ≤ p ∧ p < w.off + w.len
    · rw [if_pos h5, ho]
      by_cases h6 : w.off + i ≤ p ∧ p < w.off + i + n
      · rw [if_pos (by omega), if_pos h6]
        unfold lsbDigits
        rw [List.getElem?_eq_getElem (by simp; omega)]
        simp only [List.getElem_map, List.getElem_range, Option.getD_some]
        congr 1; omega
      · rw [if_neg (by omega), if_neg h6, bitAt_show (by omega)]
        congr 1; omega
    · rw [if_neg h5, if_neg (by omega)]
  | settfb w i x =>
    obtain ⟨hw, hi⟩ := h
    have hl := show_length hw
    refine ⟨store m w ((show' m w).set i (x.setWidth 8)), by simp [run, BitVector.settfb, hl, hi], store_length hw (by simp [hl]), fun p _ => ?_⟩
    rw [bitAt_store hw (by simp [hl])]
    simp only [Op.bitAfter]
    by_cases h5 : w.off ≤ p ∧ p < w.off + w.len
    · rw [if_pos h5]
      by_cases h6 : p = w.off + i
      · rw [if_pos h6]
        unfold bitAt
        rw [bits_getElem?, List.getElem?_set, if_pos (by omega), if_pos (by omega), BitVec.testBit_toNat]
        simp
      · rw [if_neg h6]
        have e : bitAt ((show' m w).set i (x.setWidth 8)) (p - w.off) = bitAt (show' m w) (p - w.off) := by
          unfold bitAt
          rw [bits_getElem?, bits_getElem?, List.getElem?_set, if_neg (by omega)]
        rw [e, bitAt_show (by omega)]
        congr 1; omega
    · rw [if_neg h5, if_neg (by omega)]
  | set w c s n =>
    obtain ⟨hw, hn⟩ := h
    have hl := show_length hw
    have hin : View.In ⟨s, n⟩ (show' m w).length := by unfold View.In; dsimp only; omega
    have hs : setRange (show' m w) c s n = .ok (store (show' m w) ⟨s, n⟩ (List.replicate n c)) := by
      unfold setRange; rw [if_pos (by omega)]; rfl
    have hl2 : (store (show' m w) ⟨s, n⟩ (List.replicate n c)).length = w.len := by rw [store_length hin (by simp), hl]
    refine ⟨store m w (store (show' m w) ⟨s, n⟩ (List.replicate n c)), by simp [run, hs], store_length hw hl2, fun p _ => ?_⟩
    rw [bitAt_store hw hl2, bitAt_store hin (by simp)]
    simp only [Op.bitAfter]
    by_cases h5 : w.off ≤ p ∧ p < w.off + w.len
    · rw [if_pos h5]
      by_cases h6 : w.off + s ≤ p ∧ p < w.off + s + n
      · rw [if_pos (by omega), if_pos h6]
        unfold bitAt
        rw [bits_getElem?, List.getElem?_replicate, if_pos (by omega), BitVec.testBit_toNat]
        simp
      · rw [if_neg (by omega), if_neg h6, bitAt_show (by omega)]
        congr 1; omega
    · rw [if_neg h5, if_neg (by omega)]
  | unpack w src =>
    obtain ⟨hw, hn⟩ := h
    have hl := show_length hw
    obtain ⟨v', h1, h2, h3⟩ := C04_unpack_layout (show' m w) src (by omega)
    refine ⟨store m w v', by simp [run, h1], store_length hw (by omega), fun p _ => ?_⟩
    rw [bitAt_store hw (by omega)]
    simp only [Op.bitAfter]
    by_cases h5 : w.off ≤ p ∧ p < w.off + w.len
    · rw [if_pos h5, if_pos h5]
      have := h3 ((p - w.off) / 8) ((p - w.off) % 8) (by omega) (by omega)
      rw [show 8 * ((p - w.off) / 8) + (p - w.off) % 8 = p - w.off by omega] at this
      unfold bitAt
      rw [this, List.getElem?_eq_getElem (by omega)]
      simp [← BitVec.testBit_toNat]
    · rw [if_neg h5, if_neg h5]
  | invert w =>
    have hw : w.In m.length := h
    have hl := show_length hw
    refine ⟨_, rfl, store_length hw (by simp [BitVector.invert, hl]), fun p _ => ?_⟩
    rw [bitAt_store hw (by simp [BitVector.invert, hl])]
    simp only [Op.bitAfter]
    by_cases h5 : w.off ≤ p ∧ p < w.off + w.len
    · rw [if_pos h5, if_pos h5]
      have e : bitAt (BitVector.invert (show' m w)) (p - w.off) = ! bitAt (show' m w) (p - w.off) := by
        unfold bitAt BitVector.invert
        rw [bits_getElem?, bits_getElem?, List.getElem?_map, List.getElem?_eq_getElem (by omega)]
        simp
      rw [e, bitAt_show (by omega)]
      congr 2; omega
    · rw [if_neg h5, if_neg h5]
  | copy w to s n =>
    obtain ⟨hw, ht, h1, h2, h3⟩ := h
    unfold View.In at hw ht
    have hin : View.In ⟨to.off + s, n⟩ m.length := by unfold View.In; dsimp only; omega
    have hl : ((m.drop w.off).take n).length = n := by simp; omega
    refine ⟨store m ⟨to.off + s, n⟩ ((m.drop w.off).take n), by simp only [run]; rw [if_pos h1, if_pos h2, if_pos h3], store_length hin hl, fun p _ => ?_⟩
    rw [bitAt_store hin hl]
    simp only [Op.bitAfter]
    by_cases h5 : to.off + s ≤ p ∧ p < to.off + s + n
    · rw [if_pos h5, if_pos h5]
      have := bitAt_show (m := m) (w := ⟨w.off, n⟩) (k := p - (to.off + s)) (by dsimp only; omega)
      unfold show' at this
      dsimp only at this
      rw [this, Nat.add_comm]
    · rw [if_neg h5, if_neg h5]

/-- What `bitAfter` says about bits below `N` depends only on bits below `N`. -/
theorem bitAfter_congr {N : Nat} {o : Op} (h : o.Fits N) {b b' : Nat → Bool} (hb : ∀ p, p < N → b p = b' p) (p : Nat) (hp : p < N) : o.bitAfter b p = o.bitAfter b' p := by
  cases o with
  | copy w to s n =>
    obtain ⟨hw, ht, h1, h2, h3⟩ := h
    unfold View.In at hw ht
    simp only [Op.bitAfter]
    split
    · exact hb _ (by omega)
    · exact hb p hp
  | _ => simp only [Op.bitAfter, hb p hp]

theorem bitsAfter_congr {N : Nat} {l : List Op} (h : ∀ o ∈ l, o.Fits N) {b b' : Nat → Bool} (hb : ∀ p, p < N → b p = b' p) : ∀ p, p < N → bitsAfter b l p = bitsAfter b' l p := by
  induction l generalizing b b' with
  | nil => exact hb
  | cons o l ih => exact ih (fun o ho => h o (List.mem_cons_of_mem _ ho)) fun p hp => bitAfter_congr (h o List.mem_cons_self) hb p hp

theorem gives_after {o : Op} (h : o.Writes) (b : Nat → Bool) (p : Nat) : o.bitAfter b p = (o.gives p).getD (b p) := by
  cases o <;> simp only [Op.bitAfter, Op.gives, Op.Writes] at * <;> split <;> rfl

/-! ### C160 -/

/-- C160 (segments): a segment, head, tail or alias of a view lies in it and shows its bits from there on. -/
theorem C160_segment (m : Bits) (w w' : View) (start span : Nat) (h : segment w start span = .ok w') (hw : w.In m.length) :
    w'.In m.length ∧ w'.len = span ∧ ∀ k, k < span → bitAt (show' m w') k = bitAt (show' m w) (start + k) := by
  unfold segment at h
  split at h
  · cases h
    unfold View.In at *
    dsimp only
    refine ⟨by omega, rfl, fun k hk => ?_⟩
    rw [bitAt_show (by simpa using hk), bitAt_show (by omega)]
    congr 1
    dsimp only
    omega
  · cases h

/-- C160 (alias, head, tail): an alias shows all of the view, a head its first bits, a tail the ones behind; what does not fit makes head fail. -/
theorem C160_views (m : Bits) (w : View) (i : Nat) :
    (∃ w', alias w = .ok w' ∧ show' m w' = show' m w) ∧ (i ≤ w.len → ∃ w', head w i = .ok w' ∧ show' m w' = (show' m w).take i) ∧ (w.len < i → head w i = .assertFail) ∧
      (i ≤ w.len → ∃ w', tail w i = .ok w' ∧ show' m w' = (show' m w).drop i) := by
  refine ⟨⟨w, by simp [alias, segment], rfl⟩, fun h => ⟨⟨w.off, i⟩, by simp [head, segment, h], ?_⟩, fun h => ?_, fun h => ⟨⟨w.off + i, w.len - i⟩, ?_, ?_⟩⟩
  · simp [show', List.take_take, h]
  · simp [head, segment, show ¬ i ≤ w.len by omega]
  · simp [tail, segment, h]
  · simp [show', List.drop_take, List.drop_drop]

example : alias ⟨6, 6⟩ = .ok ⟨6, 6⟩ ∧ head ⟨6, 6⟩ 4 = .ok ⟨6, 4⟩ ∧ tail ⟨6, 6⟩ 4 = .ok ⟨10, 2⟩ ∧ show' [0, 1, 0, 1, 1, 1, 0, 0, 1, 0, 1, 1] ⟨10, 2⟩ = [1, 1] := by decide

/-- C160 (histories): after any calls on any views of one memory, each bit is what the calls, one after the other, make of it; no call changes a bit outside its field, and none fails. -/
theorem C160_history (m : Bits) (l : List Op) (h : ∀ o ∈ l, o.Fits m.length) :
    ∃ m', runAll m l = .ok m' ∧ m'.length = m.length ∧ ∀ p, p < m.length → bitAt m' p = bitsAfter (bitAt m) l p := by
  induction l generalizing m with
  | nil => exact ⟨m, rfl, rfl, fun _ _ => rfl⟩
  | cons o l ih =>
    obtain ⟨m1, h1, h2, h3⟩ := run_ok (h o List.mem_cons_self)
    obtain ⟨m2, g1, g2, g3⟩ := ih m1 fun o' ho' => by rw [h2]; exact h o' (List.mem_cons_of_mem _ ho')
    refine ⟨m2, by simp [runAll, h1, g1], by omega, fun p hp => ?_⟩
    rw [g3 p (by omega)]
    exact bitsAfter_congr (fun o' ho' => h o' (List.mem_cons_of_mem _ ho')) (fun q hq => h3 q hq) p hp

/-- C160 (last write): with calls that write values, each bit has the value of the last call that covers it, through whatever view, and is unchanged if none does. -/
theorem C160_last_write (m : Bits) (l : List Op) (h : ∀ o ∈ l, o.Fits m.length) (hw : ∀ o ∈ l, o.Writes) :
    ∃ m', runAll m l = .ok m' ∧ m'.length = m.length ∧ ∀ p, p < m.length → bitAt m' p = (l.reverse.findSome? (Op.gives p)).getD (bitAt m p) := by
  obtain ⟨m', h1, h2, h3⟩ := C160_history m l h
  refine ⟨m', h1, h2, fun p hp => ?_⟩
  rw [h3 p hp]
  generalize bitAt m = b
  clear h h1 h2 h3 hp
  induction l generalizing b with
  | nil => rfl
  | cons o l ih =>
    have := ih (fun o' ho' => hw o' (List.mem_cons_of_mem _ ho')) (fun p => o.bitAfter b p)
    simp only [bitsAfter, this, List.reverse_cons, List.findSome?_append]
    cases l.reverse.findSome? (Op.gives p) with
    | some x => rfl
    | none =>
      simp only [Option.getD_none, Option.none_or]
      rw [gives_after (hw o List.mem_cons_self)]
      simp only [List.findSome?_cons, List.findSome?_nil]
      cases o.gives p <;> rfl

/-- C160 (reading): a field of at most 64 bits read through any view after any such calls has as digits, first bit first, what the last calls that cover them wrote. -/
theorem C160_read (m : Bits) (l : List Op) (h : ∀ o ∈ l, o.Fits m.length) (hw : ∀ o ∈ l, o.Writes) (w : View) (i n : Nat) (hv : w.In m.length) (hn : i + n ≤ w.len) (h64 : n ≤ 64) :
    ∃ m' x y, runAll m l = .ok m' ∧ peekField (show' m' w) i n = .ok x ∧ peekFieldReversed (show' m' w) i n = .ok y ∧ x.toNat < 2 ^ n ∧ y.toNat < 2 ^ n ∧
      ∀ k, k < n → x.toNat.testBit (n - 1 - k) = (l.reverse.findSome? (Op.gives (w.off + i + k))).getD (bitAt m (w.off + i + k)) ∧ y.toNat.testBit k = x.toNat.testBit (n - 1 - k) := by
  obtain ⟨m', h1, h2, h3⟩ := C160_last_write m l h hw
  have hv' : w.In m'.length := by rw [h2]; exact hv
  have hl := show_length hv'
  obtain ⟨x, y, g1, g2, g3, g4, g5⟩ := C02_mirror_read (show' m' w) i n (by omega) h64
  refine ⟨m', x, y, h1, g1, g2, g4, g5, fun k hk => ⟨?_, g3 k hk⟩⟩
  have hx := C01_peekField (show' m' w) i n (by omega)
  rw [g1] at hx
  cases hx
  have hwl : (window (bits (show' m' w)) i n).length = n := window_length _ _ _ (by rw [bits_length]; omega)
  have hlt := msbValue_lt (window (bits (show' m' w)) i n)
  rw [hwl] at hlt
  rw [BitVec.toNat_ofNat, Nat.mod_eq_of_lt (Nat.lt_of_lt_of_le hlt (Nat.pow_le_pow_right (by omega) h64))]
  have ht := testBit_msbValue (window (bits (show' m' w)) i n) (n - 1 - k) (by omega)
  unfold View.In at hv
  rw [ht, ← h3 (w.off + i + k) (by omega), show w.off + i + k = w.off + (i + k) by omega, ← bitAt_show (by omega)]
  have e : ∀ (L : List Bool) (a b : Nat) (h : a < L.length), a = b → L[a] = L[b]?.getD false := fun L a b h hab => by subst hab; simp [h]
  rw [e _ _ k _ (by omega)]
  unfold bitAt window
  simp [hk, List.getElem?_drop]

/-- C160 (not fitting): a call that leaves its view changes nothing and fails. -/
theorem C160_misfit (m : Bits) (w to : View) (hw : w.In m.length) (i n : Nat) (x : BitVec 64) (c : BitVec 8) (b : BitVec 32) (hn : w.len < i + n) (h0 : n ≠ 0) :
    run m (.fill w i x n) = .assertFail ∧ run m (.fillReversed w i x n) = .assertFail ∧ run m (.set w c i n) = .assertFail ∧ run m (.copy to w i n) = .assertFail ∧
      run m (.settfb w (i + n) b) = .assertFail := by
  have hl := show_length hw
  refine ⟨?_, ?_, ?_, ?_, ?_⟩
  · simp [run, C01_fillField_misfit (show' m w) i n x h0 (by omega)]
  · simp [run, (C02_misfit (show' m w) i n x h0 (by omega)).1]
  · simp [run, setRange, show ¬ i + n ≤ (show' m w).length by omega]
  · simp [run, show ¬ i + n ≤ w.len by omega]
  · simp [run, BitVector.settfb, show ¬ i + n < (show' m w).length by omega]

/-- Twelve zero bits; a field of eight through the vector, a field of four through the segment from 6, and the last bit of it by itself. -/
def memo : Bits := List.replicate 12 0
def whole : View := ⟨0, 12⟩
def part : View := ⟨6, 6⟩

example : segment whole 6 6 = .ok part ∧ tail whole 6 = .ok part ∧ segment part 2 5 = .assertFail := by decide

example : runAll memo [.fill whole 0 0xA7 8, .fill part 1 0x5 4, .settfb part 4 0] = .ok [1, 0, 1, 0, 0, 1, 1, 0, 1, 0, 0, 0] := by decide +kernel

example : (∀ o ∈ [Op.fill whole 0 0xA7 8, .fill part 1 0x5 4, .settfb part 4 0], o.Fits 12 ∧ o.Writes) ∧
    ([Op.fill whole 0 0xA7 8, .fill part 1 0x5 4, .settfb part 4 0].reverse.findSome? (Op.gives 7)) = some false ∧
    ([Op.fill whole 0 0xA7 8, .fill part 1 0x5 4, .settfb part 4 0].reverse.findSome? (Op.gives 11)) = none := by
  refine ⟨?_, by decide, by decide⟩
  simp [Op.Fits, Op.Writes, View.In, whole, part]

/-- Inverting and copying between views. -/
example : runAll memo [.fill whole 0 0xA7 8, .invert part, .copy whole part 0 4] = .ok [1, 0, 1, 0, 0, 1, 1, 0, 1, 0, 255, 255] ∧ run memo (.copy whole part 0 6) = .ok memo ∧
    run memo (.copy whole ⟨3, 6⟩ 0 6) = .ub := by decide +kernel

end Verif.BitVector.Views
