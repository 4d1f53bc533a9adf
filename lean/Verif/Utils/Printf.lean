import Verif.Core.NumberLemmas
import Verif.Config.Sql
import Verif.Utils.LineProps

/-
Property C136: `format` with arguments (`Utils.h:39-67`, `Utils.cpp:129-151`, `Utils.cpp:172-195`).

Beside `format(const char*, ...)` the header declares eight functions of the same name with parameters of the types `string` and `int`.  Which one a call means is decided by the rules of C++ for
overloaded functions: a standard conversion is better than one by a constructor, which is better than the dots; the best function must be at least as good for every argument and better for one.
The arguments considered are `std::string`, C texts, `int`, `unsigned`, `long`, `unsigned long`, `double`, and the number 0 written in the program, which is also a null pointer (before C++23).

`vsnprintf` is modelled after the C standard for the conversions `%s`, `%d`, `%u`, `%x`, `%ld`, `%lu`, `%f` and `%%` with the flags `-` and `0` and a width; the digits of a `double` are left open
(`ft`).  An argument of another type than the conversion asks for is undefined, where `int` and `unsigned` may replace each other, and so may the long types.  A C text is a list of characters
that ends at its first zero.
-/

namespace Verif.Utils.Printf
open Verif Verif.Config

/-- An argument of a call. -/
inductive Arg
  | str (s : Str)
  | cstr (s : Str)
  | int (n : BitVec 32)
  | uint (n : BitVec 32)
  | long (n : BitVec 64)
  | ulong (n : BitVec 64)
  | dbl (x : Rat)
  | zero
deriving DecidableEq

/-- The types of arguments. -/
inductive Ty
  | str | cstr | int | uint | long | ulong | dbl | zero
deriving DecidableEq

/-- The type of an argument. -/
def Arg.ty : Arg → Ty
  | .str _ => .str
  | .cstr _ => .cstr
  | .int _ => .int
  | .uint _ => .uint
  | .long _ => .long
  | .ulong _ => .ulong
  | .dbl _ => .dbl
  | .zero => .zero

/-! ### Which function is called -/

/-- The functions with parameters after the format, `true` for `string` and `false` for `int` (`Utils.h:44-67`). -/
def table : List (List Bool) :=
  [[true], [true, true], [true, true, true], [true, true, true, true], [true, false], [false, true], [true, true, false], [true, true, false, false]]

/-- How good the conversion to a parameter is: 0 for the same type, 2 between numbers, 3 by a constructor of `string`; none if there is none. -/
def rank : Bool → Ty → Option Nat
  | true, .str => some 0
  | true, .cstr => some 3
  | true, .zero => some 3
  | true, _ => none
  | false, .int => some 0
  | false, .zero => some 0
  | false, .str => none
  | false, .cstr => none
  | false, _ => some 2

/-- A function: with these parameters, or with dots (`Utils.h:39`). -/
inductive Cand
  | over (params : List Bool)
  | dots
deriving DecidableEq

/-- Can the function be called so? -/
def viable (T : List Ty) (ps : List Bool) : Bool := ps.length == T.length && (ps.zip T).all fun p => (rank p.1 p.2).isSome

/-- The conversions a call of the function needs; 4 for the dots. -/
def ranks (T : List Ty) : Cand → List Nat
  | .over ps => (ps.zip T).map fun p => (rank p.1 p.2).getD 9
  | .dots => T.map fun _ => 4

/-- Is the first function better? -/
def better (T : List Ty) (f g : Cand) : Bool := ((ranks T f).zip (ranks T g)).all (fun p => p.1 ≤ p.2) && ((ranks T f).zip (ranks T g)).any fun p => p.1 < p.2

/-- All functions that can be called. -/
def viables (T : List Ty) : List Cand := ((table.filter (viable T)).map .over) ++ [.dots]

/-- The function that is called; none if the call is ambiguous. -/
def choose (T : List Ty) : Option Cand := (viables T).find? fun f => (viables T).all fun g => f == g || better T f g

/-! ### Passing the arguments -/

/-- What `vsnprintf` gets. -/
inductive PArg
  | ptr (s : Str)
  | int (n : BitVec 32)
  | long (n : BitVec 64)
  | dbl (x : Rat)
deriving DecidableEq

/-- Through the dots; a `std::string` is an error of compilation. -/
def pass : Arg → Option PArg
  | .str _ => none
  | .cstr s => some (.ptr s)
  | .int n => some (.int n)
  | .uint n => some (.int n)
  | .long n => some (.long n)
  | .ulong n => some (.long n)
  | .dbl x => some (.dbl x)
  | .zero => some (.int 0)

/-- Through a parameter of one of the eight functions, which passes `c_str()` or the `int` on (`Utils.h:44-67`). -/
def convert : Bool → Arg → Outcome PArg
  | true, .str s => .ok (.ptr s)
  | true, .cstr s => .ok (.ptr (cText s))
  | true, _ => .ub /- `string(NULL)` -/
  | false, .int n => .ok (.int n)
  | false, .uint n => .ok (.int n)
  | false, .long n => .ok (.int (n.setWidth 32))
  | false, .ulong n => .ok (.int (n.setWidth 32))
  | false, .dbl x => if -(2 ^ 31) ≤ x.num.tdiv x.den ∧ x.num.tdiv x.den < 2 ^ 31 then .ok (.int (BitVec.ofInt 32 (x.num.tdiv x.den))) else .ub
  | false, .zero => .ok (.int 0)
  | false, _ => .ub

/-- All arguments. -/
def convertAll : List Bool → List Arg → Outcome (List PArg)
  | b :: bs, a :: as => (convert b a).bind fun p => (convertAll bs as).bind fun ps => .ok (p :: ps)
  | _, _ => .ok []

/-! ### `vsnprintf` -/

/-- A conversion. -/
inductive Conv
  | s | d | u | x | ld | lu | f
deriving DecidableEq

/-- A conversion with flags `-`, `0` and width (0 for none). -/
structure Dir where
  left : Bool
  zero : Bool
  width : Nat
  conv : Conv
deriving DecidableEq

/-- The letters of a conversion. -/
def Conv.letters : Conv → Str
  | .s => [115]
  | .d => [100]
  | .u => [117]
  | .x => [120]
  | .ld => [108, 100]
  | .lu => [108, 117]
  | .f => [102]

/-- Reading the letters. -/
def readConv : Str → Option (Conv × Str)
  | 115 :: r => some (.s, r)
  | 100 :: r => some (.d, r)
  | 117 :: r => some (.u, r)
  | 120 :: r => some (.x, r)
  | 102 :: r => some (.f, r)
  | 108 :: 100 :: r => some (.ld, r)
  | 108 :: 117 :: r => some (.lu, r)
  | _ => none

/-- `-` or `0`. -/
def isFlag (c : Byte) : Bool := c == 45 || c == 48

/-- Reading what follows a percent sign. -/
def readDir (s : Str) : Option (Dir × Str) :=
  let fl := s.takeWhile isFlag
  let r := s.dropWhile isFlag
  (readConv (r.dropWhile (isDig 10))).map fun p => (⟨fl.contains 45, fl.contains 48, scanNat 10 r, p.1⟩, p.2)

/-- Filling up to the width: on the right, with zeros after the sign, or on the left. -/
def padded (d : Dir) (t : Str) : Str :=
  let k := d.width - t.length
  if d.left then t ++ List.replicate k 32
  else if d.zero then (match t with
    | 45 :: r => 45 :: (List.replicate k 48 ++ r)
    | _ => List.replicate k 48 ++ t)
  else List.replicate k 32 ++ t

/-- What a conversion prints; none if the argument has the wrong type. -/
def shown (ft : Rat → Str) (d : Dir) (a : PArg) : Option Str :=
  match d.conv, a with
  | .s, .ptr s => if d.zero then none else some (padded d (cText s))
  | .d, .int n => some (padded d (intText n.toInt))
  | .u, .int n => some (padded d (natText 10 n.toNat))
  | .x, .int n => some (padded d (natText 16 n.toNat))
  | .ld, .long n => some (padded d (intText n.toInt))
  | .lu, .long n => some (padded d (natText 10 n.toNat))
  | .f, .dbl x => some (padded d (ft x))
  | _, _ => none

/-- One step: what is printed for the next character or conversion, the rest of the format, and the arguments left; none if undefined. -/
def next (ft : Rat → Str) (c : Byte) (r : Str) (as : List PArg) : Option (Str × Str × List PArg) :=
  if c ≠ 37 then some ([c], r, as)
  else if r.head? = some 37 then some ([37], r.tail, as)
  else match readDir r, as with
    | some (d, r'), a :: as' => (shown ft d a).map fun t => (t, r', as')
    | _, _ => none

/-- The text of a format (at most `fuel` steps). -/
def printfGo (ft : Rat → Str) : Nat → Str → List PArg → Outcome Str
  | 0, _, _ => .ok []
  | _, [], _ => .ok []
  | fuel + 1, c :: r, as =>
    match next ft c r as with
    | some (t, r', as') => (printfGo ft fuel r' as').bind fun t' => .ok (t ++ t')
    | none => .ub

/-- `vsnprintf`: the whole text. -/
def printf (ft : Rat → Str) (fmt : Str) (as : List PArg) : Outcome Str := printfGo ft (cText fmt).length (cText fmt) as

/-- `format` and `format1` with the arguments passed (`Utils.cpp:129-151`, `Utils.cpp:172-195`); from 2^31 characters on `vsnprintf` fails and the buffer is not written. -/
def formatted (ft : Rat → Str) (fmt : Str) (as : List PArg) : Outcome Str :=
  (printf ft fmt as).bind fun t => if t.length < 2 ^ 31 then .ok (Utils.format t) else .ub

/-- A call of `format` in a program; none if it is not compiled. -/
def call (ft : Rat → Str) (fmt : Str) (args : List Arg) : Option (Outcome Str) :=
  match choose (args.map Arg.ty) with
  | none => none
  | some .dots => (args.mapM pass).map fun as => formatted ft fmt as
  | some (.over ps) => some ((convertAll ps args).bind fun as => formatted ft fmt as)

/-! ### Specification -/

/-- Parts of a format. -/
inductive Piece
  | text (s : Str)
  | percent
  | dir (d : Dir)

/-- How the part is written in the format. -/
def Piece.written : Piece → Str
  | .text s => s
  | .percent => [37, 37]
  | .dir d => 37 :: ((if d.left then [45] else []) ++ (if d.zero then [48] else []) ++ (if d.width = 0 then [] else natText 10 d.width) ++ d.conv.letters)

/-- The format. -/
def written (ps : List Piece) : Str := ps.flatMap Piece.written

/-- Texts between conversions contain neither percent signs nor zeros. -/
def Piece.Plain : Piece → Prop
  | .text s => ∀ c ∈ s, c ≠ 37 ∧ c ≠ 0
  | _ => True

/-- The argument fits the conversion, as `printf` demands, and `%s` may also stand for a `std::string`. -/
def Suits (d : Dir) (a : Arg) : Prop :=
  match d.conv with
  | .s => (a.ty = .str ∨ a.ty = .cstr) ∧ d.zero = false
  | .d => a.ty = .int ∨ a.ty = .uint ∨ a.ty = .zero
  | .u => a.ty = .int ∨ a.ty = .uint ∨ a.ty = .zero
  | .x => a.ty = .int ∨ a.ty = .uint ∨ a.ty = .zero
  | .ld => a.ty = .long ∨ a.ty = .ulong
  | .lu => a.ty = .long ∨ a.ty = .ulong
  | .f => a.ty = .dbl

/-- One suitable argument for every conversion. -/
def Fits : List Piece → List Arg → Prop
  | [], as => as = []
  | .dir d :: ps, a :: as => Suits d a ∧ Fits ps as
  | .dir _ :: _, [] => False
  | _ :: ps, as => Fits ps as

/-- The bits of a number. -/
def bits : Arg → Nat
  | .int n => n.toNat
  | .uint n => n.toNat
  | .long n => n.toNat
  | .ulong n => n.toNat
  | _ => 0

/-- The number with a sign. -/
def num : Arg → Int
  | .int n => n.toInt
  | .uint n => n.toInt
  | .long n => n.toInt
  | .ulong n => n.toInt
  | _ => 0

/-- What the user wants to see of an argument. -/
def wish (ft : Rat → Str) (d : Dir) (a : Arg) : Str :=
  padded d (match d.conv with
    | .s => (match a with | .str s => s | .cstr s => s | _ => [])
    | .d => intText (num a)
    | .ld => intText (num a)
    | .u => natText 10 (bits a)
    | .lu => natText 10 (bits a)
    | .x => natText 16 (bits a)
    | .f => (match a with | .dbl x => ft x | _ => []))

/-- The format with its conversions replaced. -/
def wished (ft : Rat → Str) : List Piece → List Arg → Str
  | .dir d :: ps, a :: as => wish ft d a ++ wished ft ps as
  | .dir _ :: _, [] => []
  | .text s :: ps, as => s ++ wished ft ps as
  | .percent :: ps, as => 37 :: wished ft ps as
  | [], _ => []

/-- Text or number. -/
def Ty.isText : Ty → Bool
  | .str => true
  | .cstr => true
  | _ => false

/-- The orders of texts (`true`) and numbers that the header knows: one to four texts; a text and a number; a number and a text; two texts and then one or two numbers. -/
def Known (o : List Bool) : Prop :=
  (∃ n, 1 ≤ n ∧ n ≤ 4 ∧ o = List.replicate n true) ∨ o = [true, false] ∨ o = [false, true] ∨ ∃ n, 1 ≤ n ∧ n ≤ 2 ∧ o = [true, true] ++ List.replicate n false

/-- The calls that are right: if the texts and numbers come in one of the known orders, all numbers are `int` or `unsigned`; otherwise no argument is a `std::string`. -/
def Good (T : List Ty) : Prop :=
  (Known (T.map Ty.isText) → ∀ t ∈ T, t.isText = true ∨ t = .int ∨ t = .uint) ∧ (¬ Known (T.map Ty.isText) → .str ∉ T)

/-! ### Which function is called: lemmas -/

theorem known_iff (o : List Bool) : Known o ↔ o ∈ table := by
  constructor
  · rintro (⟨n, h1, h2, rfl⟩ | rfl | rfl | ⟨n, h1, h2, rfl⟩)
    · match n, h1, h2 with
      | 1, _, _ | 2, _, _ | 3, _, _ | 4, _, _ => decide
    · decide
    · decide
    · match n, h1, h2 with
      | 1, _, _ | 2, _, _ => decide
  · intro h
    simp only [table, List.mem_cons, List.not_mem_nil, or_false] at h
    rcases h with rfl | rfl | rfl | rfl | rfl | rfl | rfl | rfl
    · exact .inl ⟨1, by decide, by decide, rfl⟩
    · exact .inl ⟨2, by decide, by decide, rfl⟩
    · exact .inl ⟨3, by decide, by decide, rfl⟩
    · exact .inl ⟨4, by decide, by decide, rfl⟩
    · exact .inr (.inl rfl)
    · exact .inr (.inr (.inl rfl))
    · exact .inr (.inr (.inr ⟨1, by decide, by decide, rfl⟩))
    · exact .inr (.inr (.inr ⟨2, by decide, by decide, rfl⟩))

theorem good_eq (T : List Ty) : Good T ↔ if T.map Ty.isText ∈ table then ∀ t ∈ T, t.isText = true ∨ t = .int ∨ t = .uint else .str ∉ T := by
  unfold Good
  rw [known_iff]
  by_cases h : T.map Ty.isText ∈ table
  · rw [if_pos h]; exact ⟨fun g => g.1 h, fun g => ⟨fun _ => g, fun n => absurd h n⟩⟩
  · rw [if_neg h]; exact ⟨fun g => g.2 h, fun g => ⟨fun n => absurd n h, fun _ => g⟩⟩

theorem rank_some {t : Ty} (h : t ≠ .zero) (b : Bool) : (rank b t).isSome = (b == t.isText) := by cases t <;> cases b <;> first | rfl | exact absurd rfl h

theorem viable_iff : ∀ {T : List Ty}, .zero ∉ T → ∀ ps, viable T ps = true ↔ ps = T.map Ty.isText
  | [], _, [] => by simp [viable]
  | [], _, _ :: _ => by simp [viable]
  | _ :: _, _, [] => by simp [viable]
  | t :: T, h, p :: ps => by
    have ih := viable_iff (T := T) (fun hm => h (by simp [hm])) ps
    have ht : t ≠ .zero := fun e => h (by simp [e])
    have hr := rank_some ht p
    unfold viable at ih ⊢
    simp only [List.zip_cons_cons, List.all_cons, List.length_cons, Bool.and_eq_true, beq_iff_eq, hr, List.map_cons, List.cons.injEq, Nat.succ.injEq] at ih ⊢
    rw [← ih]
    tauto

theorem ranks_lt (t : Ty) : (rank t.isText t).getD 9 < 4 := by cases t <;> decide

theorem better_dots : ∀ {T : List Ty}, .zero ∉ T → T ≠ [] → better T (.over (T.map Ty.isText)) .dots = true ∧ better T .dots (.over (T.map Ty.isText)) = false := by
  intro T h hne
  have key : ∀ T : List Ty, .zero ∉ T → ∀ p ∈ ((T.map Ty.isText).zip T).map (fun p => (rank p.1 p.2).getD 9), p < 4 := by
    intro T h p hp
    obtain ⟨q, hq, rfl⟩ := List.mem_map.1 hp
    have : q.1 = q.2.isText := by
      clear h hp
      induction T with
      | nil => cases hq
      | cons t T ih =>
        rcases List.mem_cons.1 hq with rfl | hq
        · rfl
        · exact ih hq
    rw [this]
    exact ranks_lt _
  cases T with
  | nil => exact absurd rfl hne
  | cons t T =>
    have hT : .zero ∉ T := fun hm => h (by simp [hm])
    have h0 := ranks_lt t
    have hz : ∀ (T : List Ty) (l : List Nat), (∀ p ∈ l, p < 4) → (l.zip (T.map fun _ => 4)).all (fun p => decide (p.1 ≤ p.2)) = true := by
      intro T l hl
      rw [List.all_eq_true]
      intro p hp
      have a := hl p.1 (List.of_mem_zip hp).1
      have b := (List.of_mem_zip hp).2
      obtain ⟨-, -, e⟩ := List.mem_map.1 b
      simp only [decide_eq_true_eq]
      omega
    unfold better
    constructor
    · simp only [ranks, List.map_cons, List.zip_cons_cons, List.all_cons, List.any_cons, Bool.and_eq_true, decide_eq_true_eq, Bool.or_eq_true]
      exact ⟨⟨by omega, hz T _ (key T hT)⟩, Or.inl h0⟩
    · simp only [ranks, List.map_cons, List.zip_cons_cons, List.all_cons, Bool.and_eq_false_iff]
      exact Or.inl (Or.inl (by simp only [decide_eq_false_iff_not]; omega))

theorem choose_eq {T : List Ty} (h : .zero ∉ T) : choose T = some (if T.map Ty.isText ∈ table then .over (T.map Ty.isText) else .dots) := by
  by_cases ht : T.map Ty.isText ∈ table
  · have hne : T ≠ [] := by rintro rfl; revert ht; decide
    obtain ⟨b1, b2⟩ := better_dots h hne
    have hf : table.filter (viable T) = [T.map Ty.isText] := by
      have e : table.filter (viable T) = table.filter (fun ps => decide (ps = T.map Ty.isText)) := by
        apply List.filter_congr
        intro ps _
        rw [Bool.eq_iff_iff, viable_iff h]
        simp
      rw [e]
      revert ht
      generalize T.map Ty.isText = q
      intro ht
      simp only [table, List.mem_cons, List.not_mem_nil, or_false] at ht
      rcases ht with rfl | rfl | rfl | rfl | rfl | rfl | rfl | rfl <;> decide
    rw [if_pos ht]
    unfold choose viables
    rw [hf]
    simp only [List.map_cons, List.map_nil, List.cons_append, List.nil_append, List.find?_cons, List.all_cons, List.all_nil, b1, beq_self_eq_true, Bool.true_or, Bool.or_true, Bool.and_true]
  · have hf : table.filter (viable T) = [] := by
      rw [List.filter_eq_nil_iff]
      intro ps hp hv
      exact ht ((viable_iff h ps).1 hv ▸ hp)
    rw [if_neg ht]
    unfold choose viables
    rw [hf]
    simp

/-! ### Reading the format: lemmas -/

theorem letters_read (c : Conv) (r : Str) : readConv (c.letters ++ r) = some (c, r) := by cases c <;> rfl

theorem letters_head (c : Conv) : ∃ x t, c.letters = x :: t ∧ isDig 10 x = false ∧ isFlag x = false ∧ x ≠ 37 := by
  cases c <;> exact ⟨_, _, rfl, by decide, by decide, by decide⟩

theorem digit_ne : ∀ d, d < 10 → digitChar d ≠ 37 := by decide

theorem isFlag_digit : ∀ d, d < 10 → d ≠ 0 → isFlag (digitChar d) = false := by decide

theorem dropWhile_nil {p : Byte → Bool} {s : Str} : s.dropWhile p = [] ↔ ∀ c ∈ s, p c = true := by
  induction s with
  | nil => simp
  | cons c s ih =>
    cases h : p c
    · simp [h]
    · simp [h, ih]

/-- Width and letters. -/
theorem rest_read (w : Nat) (c : Conv) (r : Str) : ∃ x t, (if w = 0 then [] else natText 10 w) ++ c.letters ++ r = x :: t ∧ isFlag x = false ∧ x ≠ 37 ∧
    scanNat 10 ((if w = 0 then [] else natText 10 w) ++ c.letters ++ r) = w ∧
    ((if w = 0 then [] else natText 10 w) ++ c.letters ++ r).dropWhile (isDig 10) = c.letters ++ r := by
  obtain ⟨x, t, e, h1, h2, h3⟩ := letters_head c
  by_cases hw : w = 0
  · rw [if_pos hw, List.nil_append, e]
    refine ⟨x, t ++ r, rfl, h2, h3, ?_, ?_⟩
    · rw [hw]; simp [scanNat, h1]
    · simp [h1]
  · rw [if_neg hw]
    obtain ⟨d, u, hd, hd0, eu⟩ := natText_head (b := 10) (by omega) (by omega) w hw
    refine ⟨digitChar d, u ++ c.letters ++ r, by rw [eu]; simp, isFlag_digit d hd hd0, ?_, ?_, ?_⟩
    · exact digit_ne d hd
    · rw [List.append_assoc, e, List.cons_append]
      exact scanNat_natText_stop (by omega) (by omega) w h1
    · rw [List.append_assoc, e, List.cons_append, List.dropWhile_append]
      have : (natText 10 w).dropWhile (isDig 10) = [] := by
        rw [dropWhile_nil]
        exact natText_isDig (by omega) (by omega) w
      rw [this]
      simp [h1]

theorem flags_read {fl : Str} (h : ∀ c ∈ fl, isFlag c = true) {x : Byte} {t : Str} (hx : isFlag x = false) :
    (fl ++ x :: t).takeWhile isFlag = fl ∧ (fl ++ x :: t).dropWhile isFlag = x :: t := by
  induction fl with
  | nil => simp [hx]
  | cons c fl ih =>
    have hc := h c (by simp)
    obtain ⟨a, b⟩ := ih fun y hy => h y (by simp [hy])
    simp [hc, a, b]

theorem dir_read (d : Dir) (r : Str) : ∃ x t, ((if d.left then [45] else []) ++ (if d.zero then [48] else []) ++ (if d.width = 0 then [] else natText 10 d.width) ++ d.conv.letters) ++ r = x :: t ∧
    x ≠ 37 ∧ readDir (x :: t) = some (d, r) := by
  obtain ⟨l, z, w, c⟩ := d
  obtain ⟨x, t, e, h1, h2, h3, h4⟩ := rest_read w c r
  have key : ∀ fl : Str, (∀ c ∈ fl, isFlag c = true) → fl.contains 45 = l → fl.contains 48 = z → readDir (fl ++ x :: t) = some (⟨l, z, w, c⟩, r) := by
    intro fl hfl hl hz
    obtain ⟨a, b⟩ := flags_read hfl (t := t) h1
    unfold readDir
    simp only [a, b, hl, hz]
    rw [← e, h3, h4, letters_read]
    rfl
  cases l <;> cases z
  · exact ⟨x, t, by simpa using e, h2, key [] (by decide) rfl rfl⟩
  · exact ⟨48, x :: t, by simpa using e, by decide, key [48] (by decide) rfl rfl⟩
  · exact ⟨45, x :: t, by simpa using e, by decide, key [45] (by decide) rfl rfl⟩
  · exact ⟨45, 48 :: x :: t, by simpa using e, by decide, key [45, 48] (by decide) rfl rfl⟩

/-- What a list of parts prints. -/
def out (ft : Rat → Str) : List Piece → List PArg → Outcome Str
  | [], _ => .ok []
  | .text s :: ps, as => (out ft ps as).bind fun t => .ok (s ++ t)
  | .percent :: ps, as => (out ft ps as).bind fun t => .ok (37 :: t)
  | .dir d :: ps, a :: as => match shown ft d a with
    | some t => (out ft ps as).bind fun t' => .ok (t ++ t')
    | none => .ub
  | .dir _ :: _, [] => .ub

theorem go_text (ft : Rat → Str) (s : Str) (hs : ∀ c ∈ s, c ≠ 37) (n : Nat) (r : Str) (as : List PArg) :
    printfGo ft (s.length + n) (s ++ r) as = (printfGo ft n r as).bind fun t => .ok (s ++ t) := by
  induction s with
  | nil =>
    simp only [List.length_nil, Nat.zero_add, List.nil_append]
    cases printfGo ft n r as <;> rfl
  | cons c s ih =>
    have hc := hs c (by simp)
    rw [show (c :: s).length + n = (s.length + n) + 1 by simp; omega, List.cons_append, printfGo, show next ft c (s ++ r) as = some ([c], s ++ r, as) from if_pos hc]
    simp only
    rw [ih fun x hx => hs x (by simp [hx])]
    cases printfGo ft n r as <;> rfl

theorem go_dir (ft : Rat → Str) (d : Dir) (n : Nat) (r : Str) (as : List PArg) : printfGo ft (n + 1) ((Piece.dir d).written ++ r) as = match as with
    | a :: as' => (match shown ft d a with
      | some t => (printfGo ft n r as').bind fun t' => .ok (t ++ t')
      | none => .ub)
    | [] => .ub := by
  obtain ⟨x, t, e, hx, hd⟩ := dir_read d r
  unfold Piece.written
  rw [List.cons_append, e, printfGo]
  have hn : next ft 37 (x :: t) as = match as with
      | a :: as' => (shown ft d a).map fun t => (t, r, as')
      | [] => none := by
    unfold next
    rw [if_neg (by simp), if_neg (show ¬ (x :: t).head? = some 37 from fun h => hx (Option.some.inj h)), hd]
    cases as <;> rfl
  rw [hn]
  cases as with
  | nil => rfl
  | cons a as' =>
    simp only
    cases shown ft d a <;> rfl

theorem go_pieces (ft : Rat → Str) (ps : List Piece) (hp : ∀ p ∈ ps, p.Plain) (as : List PArg) (n : Nat) (hn : (written ps).length ≤ n) :
    printfGo ft n (written ps) as = out ft ps as := by
  induction ps generalizing as n with
  | nil => cases n <;> rfl
  | cons p ps ih =>
    have hp' := fun q hq => hp q (List.mem_cons_of_mem p hq)
    have hw : written (p :: ps) = p.written ++ written ps := rfl
    rw [hw, List.length_append] at hn
    rw [hw]
    cases p with
    | text s =>
      have hs : ∀ c ∈ s, c ≠ 37 := fun c hc => ((hp (.text s) (by simp)) c hc).1
      simp only [Piece.written] at hn ⊢
      obtain ⟨m, rfl⟩ := Nat.exists_eq_add_of_le (show s.length ≤ n by omega)
      rw [go_text ft s hs, ih hp' as m (by omega)]
      rfl
    | percent =>
      simp only [Piece.written, List.length_cons, List.length_nil] at hn ⊢
      obtain ⟨m, rfl⟩ := Nat.exists_eq_add_of_le (show 1 ≤ n by omega)
      rw [Nat.add_comm, List.cons_append, List.cons_append, List.nil_append, printfGo, show next ft 37 (37 :: written ps) as = some ([37], written ps, as) from rfl]
      simp only
      rw [ih hp' as m (by omega)]
      rfl
    | dir d =>
      have h1 : 1 ≤ (Piece.dir d).written.length := by simp [Piece.written]
      obtain ⟨m, rfl⟩ := Nat.exists_eq_add_of_le (show 1 ≤ n by omega)
      rw [Nat.add_comm, go_dir]
      cases as with
      | nil => rfl
      | cons a as =>
        simp only [out]
        rw [ih hp' as m (by omega)]

theorem written_cText (ps : List Piece) (hp : ∀ p ∈ ps, p.Plain) : cText (written ps) = written ps := by
  unfold cText
  apply takeWhile_all
  intro c hc
  obtain ⟨p, hm, hc⟩ := List.mem_flatMap.1 hc
  simp only [ne_eq, decide_not, Bool.not_eq_eq_eq_not, Bool.not_true, decide_eq_false_iff_not]
  cases p with
  | text s => exact ((hp _ hm) c hc).2
  | percent => simp [Piece.written] at hc; rw [hc]; decide
  | dir d =>
    simp only [Piece.written, List.mem_cons, List.mem_append] at hc
    rcases hc with rfl | ((hc | hc) | hc) | hc
    · decide
    · split at hc <;> simp at hc; rw [hc]; decide
    · split at hc <;> simp at hc; rw [hc]; decide
    · split at hc
      · cases hc
      · intro e
        have := natText_isDig (b := 10) (by omega) (by omega) d.width c hc
        rw [e] at this
        revert this; decide
    · intro e
      subst e
      revert hc
      cases d.conv <;> decide

theorem printf_pieces (ft : Rat → Str) (ps : List Piece) (hp : ∀ p ∈ ps, p.Plain) (as : List PArg) : printf ft (written ps) as = out ft ps as := by
  unfold printf
  rw [written_cText ps hp]
  exact go_pieces ft ps hp as _ (Nat.le_refl _)

/-! ### Arguments: lemmas -/

/-- The argument arrives as it is. -/
def Same : Arg → PArg → Prop
  | .str s, .ptr s' => cText s' = s
  | .cstr s, .ptr s' => cText s' = s
  | .int n, .int m => m = n
  | .uint n, .int m => m = n
  | .long n, .long m => m = n
  | .ulong n, .long m => m = n
  | .dbl x, .dbl y => y = x
  | _, _ => False

theorem shown_same (ft : Rat → Str) {d : Dir} {a : Arg} {p : PArg} (h : Suits d a) (hs : Same a p) : shown ft d p = some (wish ft d a) := by
  obtain ⟨l, z, w, c⟩ := d
  cases c <;> cases a <;> cases p <;> simp_all [Suits, Same, shown, wish, Arg.ty, num, bits]

theorem out_same (ft : Rat → Str) : ∀ {ps : List Piece} {args : List Arg} {as : List PArg}, Fits ps args → List.Forall₂ Same args as → out ft ps as = .ok (wished ft ps args)
  | [], args, as, hf, hs => by rfl
  | .text s :: ps, args, as, hf, hs => by
    rw [out, out_same ft (ps := ps) hf hs]; rfl
  | .percent :: ps, args, as, hf, hs => by
    rw [out, out_same ft (ps := ps) hf hs]; rfl
  | .dir d :: ps, [], as, hf, hs => hf.elim
  | .dir d :: ps, a :: args, as, hf, hs => by
    cases hs with
    | cons h hs =>
      rw [out, shown_same ft hf.1 h]
      simp only
      rw [out_same ft (ps := ps) hf.2 hs]
      rfl

/-- The argument arrives as an `int`, though its conversion asks for something longer. -/
theorem shown_bad (ft : Rat → Str) {d : Dir} {a : Arg} (h : Suits d a) (ha : a.ty = .long ∨ a.ty = .ulong ∨ a.ty = .dbl) (n : BitVec 32) : shown ft d (.int n) = none := by
  obtain ⟨l, z, w, c⟩ := d
  cases c <;> cases a <;> simp_all [Suits, shown, Arg.ty]

/-- What comes through parameters that suit: everything as it is, but the longer numbers as `int`. -/
def Cut (a : Arg) (p : PArg) : Prop := Same a p ∨ ((a.ty = .long ∨ a.ty = .ulong ∨ a.ty = .dbl) ∧ ∃ n, p = .int n)

theorem out_cut (ft : Rat → Str) : ∀ {ps : List Piece} {args : List Arg} {as : List PArg}, Fits ps args → List.Forall₂ Cut args as → ¬ List.Forall₂ Same args as → out ft ps as = .ub
  | [], args, as, hf, hc, hs => by
    cases hf
    cases hc
    exact absurd List.Forall₂.nil hs
  | .text s :: ps, args, as, hf, hc, hs => by
    rw [out, out_cut ft (ps := ps) hf hc hs]; rfl
  | .percent :: ps, args, as, hf, hc, hs => by
    rw [out, out_cut ft (ps := ps) hf hc hs]; rfl
  | .dir d :: ps, [], as, hf, hc, hs => hf.elim
  | .dir d :: ps, a :: args, as, hf, hc, hs => by
    cases hc with
    | cons h hc =>
      rw [out]
      rcases h with h | ⟨ha, n, rfl⟩
      · rw [shown_same ft hf.1 h]
        simp only
        rw [out_cut ft (ps := ps) hf.2 hc fun hh => hs (.cons h hh)]
        rfl
      · rw [shown_bad ft hf.1 ha n]

theorem cText_clean {s : Str} (h : (0 : Byte) ∉ s) : cText s = s := by
  unfold cText
  apply takeWhile_all
  intro c hc
  simp only [ne_eq, decide_not, Bool.not_eq_eq_eq_not, Bool.not_true, decide_eq_false_iff_not]
  intro e
  exact h (e ▸ hc)

/-- No zeros inside texts. -/
def Whole (args : List Arg) : Prop := ∀ s, .str s ∈ args ∨ .cstr s ∈ args → (0 : Byte) ∉ s

theorem convertAll_cut : ∀ {args : List Arg}, Whole args → .zero ∉ args.map Arg.ty → (∃ as, convertAll ((args.map Arg.ty).map Ty.isText) args = .ok as ∧ List.Forall₂ Cut args as) ∨
    ((∃ a ∈ args, a.ty = .dbl) ∧ convertAll ((args.map Arg.ty).map Ty.isText) args = .ub)
  | [], _, _ => Or.inl ⟨[], rfl, .nil⟩
  | a :: args, hw, hz => by
    have hw' : Whole args := fun s hs => hw s (hs.imp (List.mem_cons_of_mem _) (List.mem_cons_of_mem _))
    have ih := convertAll_cut hw' fun h => hz (by simp only [List.map_cons, List.mem_cons]; exact Or.inr h)
    have hza : a ≠ .zero := fun e => hz (by simp [e, Arg.ty])
    have hconv : (∃ p, convert a.ty.isText a = .ok p ∧ Cut a p) ∨ (a.ty = .dbl ∧ convert a.ty.isText a = .ub) := by
      cases a with
      | str s => exact Or.inl ⟨.ptr s, rfl, Or.inl (cText_clean (hw s (Or.inl (by simp))))⟩
      | cstr s => exact Or.inl ⟨.ptr (cText s), rfl, Or.inl (by
          have e := cText_clean (hw s (Or.inr (by simp)))
          show cText (cText s) = s
          rw [e, e])⟩
      | int n => exact Or.inl ⟨.int n, rfl, Or.inl rfl⟩
      | uint n => exact Or.inl ⟨.int n, rfl, Or.inl rfl⟩
      | long n => exact Or.inl ⟨_, rfl, Or.inr ⟨Or.inl rfl, _, rfl⟩⟩
      | ulong n => exact Or.inl ⟨_, rfl, Or.inr ⟨Or.inr (Or.inl rfl), _, rfl⟩⟩
      | dbl x =>
        by_cases hx : -(2 ^ 31) ≤ x.num.tdiv x.den ∧ x.num.tdiv x.den < 2 ^ 31
        · exact Or.inl ⟨_, if_pos hx, Or.inr ⟨Or.inr (Or.inr rfl), _, rfl⟩⟩
        · exact Or.inr ⟨rfl, if_neg hx⟩
      | zero => exact absurd rfl hza
    simp only [List.map_cons, convertAll]
    rcases hconv with ⟨p, hp, hc⟩ | ⟨hd, hu⟩
    · rw [hp]
      rcases ih with ⟨as, h1, h2⟩ | ⟨⟨b, hb, hbd⟩, h2⟩
      · exact Or.inl ⟨p :: as, by simp only [Outcome.bind]; rw [h1], .cons hc h2⟩
      · exact Or.inr ⟨⟨b, by simp [hb], hbd⟩, by simp only [Outcome.bind]; rw [h2]⟩
    · exact Or.inr ⟨⟨a, by simp, hd⟩, by rw [hu]; rfl⟩

theorem same_iff : ∀ {args : List Arg} {as : List PArg}, .zero ∉ args.map Arg.ty → List.Forall₂ Cut args as → (∀ p ∈ as, ∀ n, p ≠ .long n) → (∀ p ∈ as, ∀ x, p ≠ .dbl x) →
    (List.Forall₂ Same args as ↔ ∀ t ∈ args.map Arg.ty, t.isText = true ∨ t = .int ∨ t = .uint)
  | [], _, _, hc, _, _ => by
    cases hc
    simp
  | a :: args, _, hz, .cons (b := p) (l₂ := as) h hc, hl, hd => by
    have ih := same_iff (args := args) (as := as) (fun h => hz (by simp only [List.map_cons, List.mem_cons]; exact Or.inr h)) hc (fun q hq => hl q (by simp [hq])) fun q hq => hd q (by simp [hq])
    have key : Same a p ↔ a.ty.isText = true ∨ a.ty = .int ∨ a.ty = .uint := by
      have h1 := hl p (by simp)
      have h2 := hd p (by simp)
      cases a <;> cases p <;> simp_all [Cut, Same, Arg.ty, Ty.isText]
    rw [List.forall₂_cons, ih, key]
    simp

theorem convert_short {b : Bool} {a : Arg} {p : PArg} (hc : convert b a = .ok p) : (∀ n, p ≠ .long n) ∧ ∀ x, p ≠ .dbl x := by
  have key : ∀ {q : PArg}, Outcome.ok q = .ok p → (∀ n, q ≠ .long n) → (∀ x, q ≠ .dbl x) → (∀ n, p ≠ .long n) ∧ ∀ x, p ≠ .dbl x := by
    intro q e h1 h2
    rw [← Outcome.ok.inj e]
    exact ⟨h1, h2⟩
  have ptr : ∀ s, (∀ n, PArg.ptr s ≠ .long n) ∧ ∀ x, PArg.ptr s ≠ .dbl x := fun s => ⟨fun _ h => PArg.noConfusion h, fun _ h => PArg.noConfusion h⟩
  have int : ∀ s, (∀ n, PArg.int s ≠ .long n) ∧ ∀ x, PArg.int s ≠ .dbl x := fun s => ⟨fun _ h => PArg.noConfusion h, fun _ h => PArg.noConfusion h⟩
  cases b
  · cases a with
    | dbl x =>
      by_cases hx : -(2 ^ 31) ≤ x.num.tdiv x.den ∧ x.num.tdiv x.den < 2 ^ 31
      · rw [show convert false (.dbl x) = _ from if_pos hx] at hc
        exact key hc (int _).1 (int _).2
      · rw [show convert false (.dbl x) = _ from if_neg hx] at hc
        cases hc
    | str s => cases hc
    | cstr s => cases hc
    | _ => exact key hc (int _).1 (int _).2
  · cases a with
    | str s => exact key hc (ptr _).1 (ptr _).2
    | cstr s => exact key hc (ptr _).1 (ptr _).2
    | _ => cases hc

theorem convertAll_short : ∀ {bs : List Bool} {args : List Arg} {as : List PArg}, convertAll bs args = .ok as → (∀ p ∈ as, ∀ n, p ≠ .long n) ∧ ∀ p ∈ as, ∀ x, p ≠ .dbl x
  | [], args, as, h => by cases args <;> cases h <;> simp
  | _ :: _, [], as, h => by cases h; simp
  | b :: bs, a :: args, as, h => by
    rw [convertAll] at h
    cases hc : convert b a with
    | ok p =>
      rw [hc] at h
      simp only [Outcome.bind] at h
      cases hr : convertAll bs args with
      | ok qs =>
        rw [hr] at h
        cases h
        obtain ⟨h1, h2⟩ := convertAll_short hr
        have hp : (∀ n, p ≠ .long n) ∧ ∀ x, p ≠ .dbl x := by
          exact convert_short hc
        constructor
        · intro q hq
          rcases List.mem_cons.1 hq with rfl | hq
          · exact hp.1
          · exact h1 q hq
        · intro q hq
          rcases List.mem_cons.1 hq with rfl | hq
          · exact hp.2
          · exact h2 q hq
      | assertFail => rw [hr] at h; cases h
      | ub => rw [hr] at h; cases h
      | diverge => rw [hr] at h; cases h
    | assertFail => rw [hc] at h; cases h
    | ub => rw [hc] at h; cases h
    | diverge => rw [hc] at h; cases h

theorem pass_all : ∀ {args : List Arg}, Whole args → .zero ∉ args.map Arg.ty → .str ∉ args.map Arg.ty → ∃ as, args.mapM pass = some as ∧ List.Forall₂ Same args as
  | [], _, _, _ => ⟨[], rfl, .nil⟩
  | a :: args, hw, hz, hs => by
    have hw' : Whole args := fun s hs => hw s (hs.imp (List.mem_cons_of_mem _) (List.mem_cons_of_mem _))
    obtain ⟨as, h1, h2⟩ := pass_all hw' (fun h => hz (by simp only [List.map_cons, List.mem_cons]; exact Or.inr h)) fun h => hs (by simp only [List.map_cons, List.mem_cons]; exact Or.inr h)
    have : ∃ p, pass a = some p ∧ Same a p := by
      cases a with
      | str s => exact absurd (by simp [Arg.ty]) hs
      | cstr s => exact ⟨.ptr s, rfl, cText_clean (hw s (Or.inr (by simp)))⟩
      | zero => exact absurd (by simp [Arg.ty]) hz
      | _ => exact ⟨_, rfl, rfl⟩
    obtain ⟨p, hp, hsame⟩ := this
    exact ⟨p :: as, by rw [List.mapM_cons, hp, h1]; rfl, .cons hsame h2⟩

theorem pass_str : ∀ {args : List Arg}, .str ∈ args.map Arg.ty → args.mapM pass = none
  | [], h => by cases h
  | a :: args, h => by
    rw [List.mapM_cons]
    rcases List.mem_cons.1 h with h | h
    · cases a <;> cases h
      rfl
    · rw [pass_str h]
      cases pass a <;> rfl

/-! ### No zeros in the result: lemmas -/

theorem natText_clean {b : Nat} (h2 : 2 ≤ b) (hb : b ≤ 16) (n : Nat) : (0 : Byte) ∉ natText b n := by
  intro h
  have := natText_isDig h2 hb n 0 h
  rw [show isDig b 0 = false by unfold isDig; rfl] at this
  cases this

theorem intText_clean (n : Int) : (0 : Byte) ∉ intText n := by
  unfold intText
  split
  · intro h
    rcases List.mem_cons.1 h with h | h
    · revert h; decide
    · exact natText_clean (by omega) (by omega) _ h
  · exact natText_clean (by omega) (by omega) _

theorem padded_clean (d : Dir) {t : Str} (h : (0 : Byte) ∉ t) : (0 : Byte) ∉ padded d t := by
  have hr : ∀ (k : Nat) (c : Byte), c ≠ 0 → (0 : Byte) ∉ List.replicate k c := fun k c hc hm => hc (List.eq_of_mem_replicate hm).symm
  unfold padded
  simp only
  split
  · simp only [List.mem_append, not_or]; exact ⟨h, hr _ _ (by decide)⟩
  · split
    · split
      · rename_i r
        simp only [List.mem_cons, List.mem_append, not_or] at h ⊢
        exact ⟨h.1, hr _ _ (by decide), h.2⟩
      · simp only [List.mem_append, not_or]; exact ⟨hr _ _ (by decide), h⟩
    · simp only [List.mem_append, not_or]; exact ⟨hr _ _ (by decide), h⟩

theorem wished_clean (ft : Rat → Str) (hft : ∀ x, (0 : Byte) ∉ ft x) : ∀ {ps : List Piece} {args : List Arg}, (∀ p ∈ ps, p.Plain) → Whole args → (0 : Byte) ∉ wished ft ps args
  | [], _, _, _ => by simp [wished]
  | .text s :: ps, args, hp, hw => by
    simp only [wished, List.mem_append, not_or]
    exact ⟨fun h => ((hp (.text s) (by simp)) 0 h).2 rfl, wished_clean ft hft (fun p h => hp p (by simp [h])) hw⟩
  | .percent :: ps, args, hp, hw => by
    simp only [wished, List.mem_cons, not_or]
    exact ⟨by decide, wished_clean ft hft (fun p h => hp p (by simp [h])) hw⟩
  | .dir d :: ps, [], hp, hw => by simp [wished]
  | .dir d :: ps, a :: args, hp, hw => by
    have hw' : Whole args := fun s hs => hw s (hs.imp (List.mem_cons_of_mem _) (List.mem_cons_of_mem _))
    simp only [wished, List.mem_append, not_or]
    refine ⟨?_, wished_clean ft hft (fun p h => hp p (by simp [h])) hw'⟩
    unfold wish
    apply padded_clean
    split
    · split
      · rename_i s; exact hw s (Or.inl (by simp))
      · rename_i s; exact hw s (Or.inr (by simp))
      · simp
    · exact intText_clean _
    · exact intText_clean _
    · exact natText_clean (by omega) (by omega) _
    · exact natText_clean (by omega) (by omega) _
    · exact natText_clean (by omega) (by omega) _
    · split
      · exact hft _
      · simp

/-! ### C136 -/

/-- C136, partial: for every format and suitable arguments the call gives the format with its conversions replaced in order (up to 5000 characters) exactly if either the texts and numbers come in
one of the orders the header knows and all numbers are `int` or `unsigned`, or they come in another order and no argument is a `std::string`.  Missing: the other calls (`C136_long_refuted`), the
number 0 written in the program (`C136_zero_refuted`), texts with zeros (`C136_nul_refuted`), results of exactly 199 characters (`C45_refuted`). -/
theorem C136_format_partial (ft : Rat → Str) (hft : ∀ x, (0 : Byte) ∉ ft x) (ps : List Piece) (hp : ∀ p ∈ ps, p.Plain) (args : List Arg) (hf : Fits ps args) (hz : .zero ∉ args.map Arg.ty)
    (hw : ∀ s, .str s ∈ args ∨ .cstr s ∈ args → (0 : Byte) ∉ s) (h1 : (wished ft ps args).length ≠ 199) (h2 : (wished ft ps args).length < 2 ^ 31) :
    call ft (written ps) args = some (.ok ((wished ft ps args).take 5000)) ↔ Good (args.map Arg.ty) := by
  have hr : ∀ as, List.Forall₂ Same args as → formatted ft (written ps) as = .ok ((wished ft ps args).take 5000) := by
    intro as hs
    unfold formatted
    rw [printf_pieces ft ps hp, out_same ft hf hs]
    simp only [Outcome.bind]
    rw [if_pos h2, C45_format_partial _ (fun c hc e => wished_clean ft hft hp hw (e ▸ hc)) h1]
  rw [good_eq]
  unfold call
  rw [choose_eq hz]
  by_cases ht : (args.map Arg.ty).map Ty.isText ∈ table
  · rw [if_pos ht, if_pos ht]
    simp only
    rcases convertAll_cut hw hz with ⟨as, e, hc⟩ | ⟨⟨a, ha, hd⟩, e⟩
    · obtain ⟨s1, s2⟩ := convertAll_short e
      rw [e, ← same_iff hz hc s1 s2]
      simp only [Outcome.bind]
      constructor
      · intro h
        by_contra hs
        have : formatted ft (written ps) as = .ub := by
          unfold formatted
          rw [printf_pieces ft ps hp, out_cut ft hf hc hs]
          rfl
        rw [this] at h
        cases h
      · intro hs
        rw [hr as hs]
    · rw [e]
      constructor
      · intro h; cases h
      · intro h
        rcases h a.ty (List.mem_map_of_mem ha) with h | h | h <;> rw [hd] at h <;> cases h
  · rw [if_neg ht, if_neg ht]
    simp only
    constructor
    · intro h hs
      rw [pass_str hs] at h
      cases h
    · intro hs
      obtain ⟨as, e, hsame⟩ := pass_all hw hz hs
      rw [e]
      exact congrArg some (hr as hsame)

/-- C136 (width): the text of an argument is filled up to the width and never cut; with `-` on the right, with `0` after the sign, otherwise on the left. -/
theorem C136_width (d : Dir) (t : Str) :
    (padded d t).length = max d.width t.length ∧ (d.left = true → ∃ n, padded d t = t ++ List.replicate n (chr ' ')) ∧
    (d.left = false → d.zero = false → ∃ n, padded d t = List.replicate n (chr ' ') ++ t) ∧
    (d.left = false → d.zero = true → ∃ n sign digits, t = sign ++ digits ∧ padded d t = sign ++ List.replicate n (chr '0') ++ digits ∧
      ((sign = [chr '-'] ∨ sign = []) ∧ (sign = [] → digits.head? ≠ some (chr '-')))) := by
  have hl : ∀ k : Nat, (d.width - k) + k = max d.width k := fun k => by omega
  have hb : chr '-' = 45 := rfl
  have hz : chr '0' = 48 := rfl
  have hs : chr ' ' = 32 := rfl
  rw [hb, hz, hs]
  unfold padded
  simp only
  cases hle : d.left
  · cases hze : d.zero
    · simp only [Bool.false_eq_true, if_false]
      refine ⟨by rw [List.length_append, List.length_replicate, hl], nofun, fun _ _ => ⟨_, rfl⟩, nofun⟩
    · simp only [Bool.false_eq_true, if_false, if_true]
      refine ⟨?_, nofun, nofun, fun _ _ => ?_⟩
      · split
        · simp only [List.length_cons, List.length_append, List.length_replicate]; omega
        · rw [List.length_append, List.length_replicate, hl]
      · split
        · rename_i r
          exact ⟨_, [45], r, rfl, rfl, .inl rfl, nofun⟩
        · rename_i hn
          refine ⟨_, [], t, rfl, rfl, .inr rfl, fun _ h => ?_⟩
          cases t with
          | nil => cases h
          | cons c r =>
            simp only [List.head?_cons, Option.some.injEq] at h
            exact hn r (by rw [h]; rfl)
  · simp only [if_true]
    refine ⟨by rw [List.length_append, List.length_replicate]; omega, fun _ => ⟨_, rfl⟩, nofun, nofun⟩

/-- The digits of doubles do not matter in the examples. -/
def noDigits (_ : Rat) : Str := lit "?"

example : call noDigits (lit "%-4s=%03d%%") [.str (lit "ab"), .int (-5)] = some (.ok (lit "ab  =-05%")) ∧
    call noDigits (lit "%ld %s|%5u") [.long (-1), .cstr (lit "x"), .uint 42] = some (.ok (lit "-1 x|   42")) ∧
    call noDigits (lit "%x %s %s %s") [.int 255, .str (lit "a"), .str (lit "b"), .cstr (lit "c")] = none := by decide +kernel

theorem formatted_ub (ft : Rat → Str) (ps : List Piece) (hp : ∀ p ∈ ps, p.Plain) (as : List PArg) (h : out ft ps as = .ub) : formatted ft (written ps) as = .ub := by
  unfold formatted
  rw [printf_pieces ft ps hp, h]
  rfl

/-- C136 (negation): a long number or a `double` after or before a text comes as an `int`, which its conversion may not get, though the same call without the text is right. -/
theorem C136_long_refuted (ft : Rat → Str) (s : Str) (n : BitVec 64) (x : Rat) :
    call ft (lit "%s %ld") [.cstr s, .long n] = some .ub ∧ call ft (lit "%s %lu") [.str s, .ulong n] = some .ub ∧ call ft (lit "%f %s") [.dbl x, .cstr s] = some .ub ∧
    call ft (lit "%lu %ld") [.ulong n, .long n] ≠ some .ub := by
  refine ⟨?_, ?_, ?_, ?_⟩
  · exact congrArg some (formatted_ub ft [.dir ⟨false, false, 0, .s⟩, .text (lit " "), .dir ⟨false, false, 0, .ld⟩] (by simp [Piece.Plain]; decide) [.ptr (cText s), .int (n.setWidth 32)] rfl)
  · exact congrArg some (formatted_ub ft [.dir ⟨false, false, 0, .s⟩, .text (lit " "), .dir ⟨false, false, 0, .lu⟩] (by simp [Piece.Plain]; decide) [.ptr s, .int (n.setWidth 32)] rfl)
  · have e : call ft (lit "%f %s") [.dbl x, .cstr s] = some ((convertAll [false, true] [.dbl x, .cstr s]).bind fun as => formatted ft (lit "%f %s") as) := rfl
    rw [e]
    by_cases hx : -(2 ^ 31) ≤ x.num.tdiv x.den ∧ x.num.tdiv x.den < 2 ^ 31
    · rw [show convertAll [false, true] [.dbl x, .cstr s] = .ok [.int (BitVec.ofInt 32 (x.num.tdiv x.den)), .ptr (cText s)] by
        rw [convertAll, show convert false (.dbl x) = _ from if_pos hx]; rfl]
      exact congrArg some (formatted_ub ft [.dir ⟨false, false, 0, .f⟩, .text (lit " "), .dir ⟨false, false, 0, .s⟩] (by simp [Piece.Plain]; decide) [.int (BitVec.ofInt 32 (x.num.tdiv x.den)), .ptr (cText s)] rfl)
    · rw [show convertAll [false, true] [.dbl x, .cstr s] = .ub by
        rw [convertAll, show convert false (.dbl x) = _ from if_neg hx]; rfl]
      rfl
  · have e : call ft (lit "%lu %ld") [.ulong n, .long n] = some (formatted ft (written [.dir ⟨false, false, 0, .lu⟩, .text (lit " "), .dir ⟨false, false, 0, .ld⟩]) [.long n, .long n]) := rfl
    rw [e]
    unfold formatted
    rw [printf_pieces ft _ (by simp [Piece.Plain]; decide)]
    have hl : (natText 10 n.toNat).length ≤ 20 := by
      rw [natText_length _ _ (by omega)]
      have := n.isLt
      omega
    have hi : (intText n.toInt).length ≤ 21 := by
      unfold intText
      have : (natText 10 n.toInt.natAbs).length ≤ 20 := by
        rw [natText_length _ _ (by omega)]
        have h1 := BitVec.toInt_lt (x := n)
        have h2 := BitVec.le_toInt (x := n)
        omega
      split
      · simp; omega
      · omega
    have ho : out ft [.dir ⟨false, false, 0, .lu⟩, .text (lit " "), .dir ⟨false, false, 0, .ld⟩] [.long n, .long n] =
        .ok (natText 10 n.toNat ++ (lit " " ++ (intText n.toInt ++ []))) := by
      simp [out, shown, padded, Outcome.bind]
    rw [ho]
    simp only [Outcome.bind]
    rw [if_pos (by simp; have : (lit " ").length = 1 := rfl; omega)]
    intro h
    cases h

/-- C136 (negation): the number 0 becomes a null pointer for a `string`, with any format. -/
theorem C136_zero_refuted (ft : Rat → Str) (fmt s : Str) (n : BitVec 32) :
    call ft fmt [.zero] = some .ub ∧ call ft fmt [.int n, .zero] = some .ub ∧ call ft fmt [.zero, .int n] = some .ub ∧ call ft fmt [.cstr s, .zero, .int n] = some .ub ∧
    call ft fmt [.zero, .zero] = none := ⟨rfl, rfl, rfl, rfl, rfl⟩

example : call noDigits (lit "%s%d") [.cstr (lit "n="), .zero] = some (.ok (lit "n=0")) ∧ call noDigits (lit "%d") [.int 0] = some (.ok (lit "0")) := by decide +kernel

/-- C136 (negation): a `std::string` is printed up to its first zero, so different texts give the same result. -/
theorem C136_nul_refuted (ft : Rat → Str) (s t : Str) (h : (0 : Byte) ∉ s) (hl : s.length < 199) : call ft (lit "%s") [.str (s ++ 0 :: t)] = some (.ok s) := by
  have e : call ft (lit "%s") [.str (s ++ 0 :: t)] = some (formatted ft (written [.dir ⟨false, false, 0, .s⟩]) [.ptr (s ++ 0 :: t)]) := rfl
  rw [e]
  unfold formatted
  rw [printf_pieces ft _ (by simp [Piece.Plain])]
  have hc : cText (s ++ 0 :: t) = s := by
    unfold cText
    rw [takeWhile_stop (by decide)]
    exact cText_clean h
  have ho : out ft [.dir ⟨false, false, 0, .s⟩] [.ptr (s ++ 0 :: t)] = .ok s := by
    simp [out, shown, padded, Outcome.bind]
    exact hc
  rw [ho]
  simp only [Outcome.bind]
  rw [if_pos (by omega), C45_format_partial s (fun c hc e => h (e ▸ hc)) (by omega), List.take_of_length_le (by omega)]

end Verif.Utils.Printf
