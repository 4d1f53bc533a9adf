import Verif.Core.Number
import Verif.Logger.Record

/-
Property C144: the macros that put a name and a value into a message (`Logger.h:91-104`, `Defines.h:71-74`).

A macro is replaced by tokens before the expression around it is parsed.  Here are the tokens, the grammar of C++ expressions (the operators that a value may be written with, the conditional, casts,
parentheses; no assignment and no comma), the types of integers and what they print.  `#var` is an arbitrary text for every argument.  Left out: `LOGBV`, values of class type.
-/

namespace Verif.Macros.Values
open Verif

/-! ### Integers (LP64) -/

inductive Ty where
  | bool | schar | uchar | short | ushort | int | uint | long | ulong
  deriving DecidableEq, Repr

def Ty.bits : Ty → Nat
  | .bool => 1 | .schar => 8 | .uchar => 8 | .short => 16 | .ushort => 16 | .int => 32 | .uint => 32 | .long => 64 | .ulong => 64

def Ty.isSigned : Ty → Bool
  | .schar => true | .short => true | .int => true | .long => true | _ => false

def Ty.min (t : Ty) : Int := if t.isSigned then -2 ^ (t.bits - 1) else 0
def Ty.max (t : Ty) : Int := if t.isSigned then 2 ^ (t.bits - 1) - 1 else 2 ^ t.bits - 1

/-- Conversion to a type. -/
def Ty.conv (t : Ty) (x : Int) : Int := if t = .bool then (if x = 0 then 0 else 1) else (x - t.min) % 2 ^ t.bits + t.min

/-- The result of an operation in a type: none if a signed one overflows. -/
def Ty.fit (t : Ty) (x : Int) : Option Int := if t.isSigned ∧ (x < t.min ∨ t.max < x) then none else some (t.conv x)

def Ty.promote : Ty → Ty
  | .uint => .uint | .long => .long | .ulong => .ulong | _ => .int

/-- The usual arithmetic conversions. -/
def Ty.common (a b : Ty) : Ty :=
  if a = .ulong ∨ b = .ulong then .ulong else if a = .long ∨ b = .long then .long else if a = .uint ∨ b = .uint then .uint else .int

/-! ### Expressions -/

inductive Bin where
  | mul | div | mod | add | sub | shl | shr | lt | gt | le | ge | eq | ne | band | bxor | bor | land | lor
  deriving DecidableEq, Repr

/-- How tightly an operator binds. -/
def Bin.prec : Bin → Nat
  | .mul => 13 | .div => 13 | .mod => 13 | .add => 12 | .sub => 12 | .shl => 11 | .shr => 11 | .lt => 10 | .gt => 10 | .le => 10 | .ge => 10
  | .eq => 9 | .ne => 9 | .band => 8 | .bxor => 7 | .bor => 6 | .land => 5 | .lor => 4

/-- Names and literals: the stream, a variable, a text, `std::hex` (true) and `std::dec`. -/
inductive Leaf where
  | os
  | var (i : Nat)
  | text (s : Str)
  | base (hex : Bool)
  deriving DecidableEq, Repr

/-- Tokens; `(unsigned long long)` counts as one, `cast`. -/
inductive Tok where
  | leaf (x : Leaf)
  | op (b : Bin)
  | cast
  | lp
  | rp
  | quest
  | colon
  deriving DecidableEq, Repr

inductive Expr where
  | leaf (x : Leaf)
  | paren (e : Expr)
  | cast (e : Expr)
  | bin (b : Bin) (l r : Expr)
  | cond (a b c : Expr)
  deriving DecidableEq, Repr

def Expr.toks : Expr → List Tok
  | .leaf x => [.leaf x]
  | .paren e => .lp :: (e.toks ++ [.rp])
  | .cast e => .cast :: e.toks
  | .bin b l r => l.toks ++ .op b :: r.toks
  | .cond a b c => a.toks ++ .quest :: (b.toks ++ .colon :: c.toks)

/-- How tightly the outermost operator binds. -/
def Expr.level : Expr → Nat
  | .bin b _ _ => b.prec
  | .cond _ _ _ => 3
  | _ => 14

/-- The grammar. -/
def Expr.Wf : Expr → Prop
  | .leaf _ => True
  | .paren e => e.Wf
  | .cast e => e.Wf ∧ e.level = 14
  | .bin b l r => l.Wf ∧ r.Wf ∧ b.prec ≤ l.level ∧ b.prec < r.level
  | .cond a b c => a.Wf ∧ b.Wf ∧ c.Wf ∧ 4 ≤ a.level

/-- The compiler reads the tokens as this expression. -/
def Reads (ts : List Tok) (e : Expr) : Prop := e.Wf ∧ e.toks = ts

/-! ### Evaluation -/

inductive Val where
  | num (t : Ty) (x : Int)
  | text (s : Str)
  | stream
  | base (hex : Bool)
  deriving DecidableEq

/-- The variables: their types and values; what printing a stream gives: none if it is not allowed (since C++11), before that the address. -/
structure Env where
  ty : Nat → Ty
  val : Nat → Int
  addr : Option Str

structure Stream where
  hex : Bool
  out : Str
  deriving DecidableEq

/-- What `operator<<` prints for an integer: the 8-bit types print as characters. -/
def Stream.shows (s : Stream) (t : Ty) (x : Int) : Str :=
  if t = .schar ∨ t = .uchar then [BitVec.ofInt 8 x]
  else if s.hex then natText 16 (x % 2 ^ t.bits).toNat
  else intText x

def bit (p : Bool) : Val := .num .bool (if p then 1 else 0)

/-- Arithmetic: none if undefined. -/
def arith (b : Bin) (t : Ty) (x : Int) (u : Ty) (y : Int) : Option Val :=
  let c := Ty.common t.promote u.promote
  let p := c.conv x
  let q := c.conv y
  match b with
  | .mul => (c.fit (p * q)).map (.num c)
  | .add => (c.fit (p + q)).map (.num c)
  | .sub => (c.fit (p - q)).map (.num c)
  | .div => if q = 0 then none else (c.fit (p.tdiv q)).map (.num c)
  | .mod => if q = 0 ∨ c.fit (p.tdiv q) = none then none else (c.fit (p.tmod q)).map (.num c)
  | .shl => if y < 0 ∨ (t.promote.bits : Int) ≤ y ∨ t.promote.isSigned ∧ x < 0 then none else (t.promote.fit (x * 2 ^ y.toNat)).map (.num t.promote)
  | .shr => if y < 0 ∨ (t.promote.bits : Int) ≤ y then none else some (.num t.promote (x / 2 ^ y.toNat))
  | .lt => some (bit (decide (p < q)))
  | .gt => some (bit (decide (q < p)))
  | .le => some (bit (decide (p ≤ q)))
  | .ge => some (bit (decide (q ≤ p)))
  | .eq => some (bit (decide (p = q)))
  | .ne => some (bit (decide (p ≠ q)))
  | .band => some (.num c (c.conv ((p % 2 ^ c.bits).toNat &&& (q % 2 ^ c.bits).toNat : Nat)))
  | .bxor => some (.num c (c.conv ((p % 2 ^ c.bits).toNat ^^^ (q % 2 ^ c.bits).toNat : Nat)))
  | .bor => some (.num c (c.conv ((p % 2 ^ c.bits).toNat ||| (q % 2 ^ c.bits).toNat : Nat)))
  | .land => none
  | .lor => none

inductive Kind where
  | num (t : Ty)
  | text
  | stream
  | base
  deriving DecidableEq

/-- What converts to `bool`; texts are not modelled as conditions. -/
def Kind.isCond : Kind → Bool
  | .num _ => true
  | .stream => true
  | _ => false

/-- The type of an expression: none if the compiler rejects it. -/
def kind (E : Env) : Expr → Option Kind
  | .leaf .os => some .stream
  | .leaf (.var i) => some (.num (E.ty i))
  | .leaf (.text _) => some .text
  | .leaf (.base _) => some .base
  | .paren e => kind E e
  | .cast e => match kind E e with
    | some (.num _) => some (.num .ulong)
    | _ => none
  | .bin b l r => match b, kind E l, kind E r with
    | .shl, some .stream, some .stream => if E.addr.isSome then some .stream else none
    | .shl, some .stream, some _ => some .stream
    | .shl, some (.num t), some (.num _) => some (.num t.promote)
    | .shr, some (.num t), some (.num _) => some (.num t.promote)
    | .land, some k, some k' => if k.isCond && k'.isCond then some (.num .bool) else none
    | .lor, some k, some k' => if k.isCond && k'.isCond then some (.num .bool) else none
    | b, some (.num t), some (.num u) => if b.prec = 9 ∨ b.prec = 10 then some (.num .bool) else some (.num (Ty.common t.promote u.promote))
    | _, _, _ => none
  | .cond a b c => match kind E a, kind E b, kind E c with
    | some k, some (.num t), some (.num u) => if k.isCond then some (.num (if t = u then t else Ty.common t.promote u.promote)) else none
    | some k, some .stream, some .stream => if k.isCond then some .stream else none
    | some k, some .text, some .text => if k.isCond then some .text else none
    | _, _, _ => none

/-- As a condition. -/
def Val.truth : Val → Bool
  | .num _ x => decide (x ≠ 0)
  | _ => true

/-- The value of an expression that the compiler accepts, and the stream after it; none if it is undefined. -/
def value (E : Env) : Expr → Stream → Option (Val × Stream)
  | .leaf .os, s => some (.stream, s)
  | .leaf (.var i), s => some (.num (E.ty i) (E.val i), s)
  | .leaf (.text x), s => some (.text x, s)
  | .leaf (.base h), s => some (.base h, s)
  | .paren e, s => value E e s
  | .cast e, s => match value E e s with
    | some (.num _ x, s) => some (.num .ulong (Ty.conv .ulong x), s)
    | _ => none
  | .bin .land l r, s => (value E l s).bind fun p => if p.1.truth then (value E r p.2).map (fun q => (bit q.1.truth, q.2)) else some (bit false, p.2)
  | .bin .lor l r, s => (value E l s).bind fun p => if p.1.truth then some (bit true, p.2) else (value E r p.2).map (fun q => (bit q.1.truth, q.2))
  | .bin b l r, s =>
    match value E l s with
    | none => none
    | some (v, s) => match value E r s with
      | none => none
      | some (w, s) => match b, v, w with
        | .shl, .stream, .num t x => some (.stream, { s with out := s.out ++ s.shows t x })
        | .shl, .stream, .text x => some (.stream, { s with out := s.out ++ x })
        | .shl, .stream, .base h => some (.stream, { s with hex := h })
        | .shl, .stream, .stream => E.addr.map fun a => (.stream, { s with out := s.out ++ a })
        | b, .num t x, .num u y => (arith b t x u y).map fun v => (v, s)
        | _, _, _ => none
  | .cond a b c, s => (value E a s).bind fun p => (if p.1.truth then value E b p.2 else value E c p.2).map fun q =>
    match q.1, kind E (.cond a b c) with
    | .num _ x, some (.num t) => (.num t (t.conv x), q.2)
    | v, _ => (v, q.2)

/-- A statement: none if the compiler rejects it or its behaviour is undefined. -/
def run (E : Env) (e : Expr) (s : Stream) : Option Stream := (kind E e).bind fun _ => (value E e s).map (·.2)

/-! ### The macros -/

/-- What stands in a statement after `<<`: a text or a macro. -/
inductive Item where
  | text (x : Str)
  | logvar2 (name : Str) (val : Expr)
  | logvar (var : Expr)
  | logvarm (var : Expr)
  | logvarp2 (name : Str) (val : Expr)
  | logvarp (var : Expr)
  | loghex (var : Expr)
  | loghex2 (name : Str) (val : Expr)
  | range (name : Str) (cur lo hi : Expr)
  | pretty (name : Expr)
  | pretty1 (name : Expr)

/-- A text in the code. -/
def str (x : String) : Tok := .leaf (.text (lit x))
def shl : Tok := .op .shl

/-- The tokens a macro is replaced by.  `sp` is `#`: it makes a text of the tokens of an argument.  (`Ty.ulong` is `unsigned long` and `unsigned long long`.) -/
def Item.expand (sp : List Tok → Str) : Item → List Tok
  | .text x => [.leaf (.text x)]
  /- Logger.h:91 -/
  | .logvar2 n v => [str " ", shl, .leaf (.text n), shl, str "=", shl, .lp] ++ v.toks ++ [.rp]
  /- Logger.h:92 -/
  | .logvar v => [.lp, .leaf (.text (lit " " ++ sp v.toks ++ lit "=")), .rp, shl] ++ v.toks
  /- Logger.h:93 -/
  | .logvarm v => [str " ", shl, .leaf (.text ((sp v.toks).drop 1)), shl, str "=", shl] ++ v.toks
  /- Logger.h:94 -/
  | .logvarp2 n v => [.lp, .leaf (.text (lit " " ++ n ++ lit "=(")), .rp, shl] ++ v.toks ++ [shl, str ")"]
  /- Logger.h:95 -/
  | .logvarp v => [.lp, .leaf (.text (lit " " ++ sp v.toks ++ lit "=(")), .rp, shl] ++ v.toks ++ [shl, str ")"]
  /- Logger.h:97 -/
  | .loghex v => [.lp, .leaf (.text (lit " " ++ sp v.toks ++ lit "=0x")), .rp, shl, .leaf (.base true), shl, .lp, .cast] ++ v.toks ++ [.rp, shl, .leaf (.base false)]
  /- Logger.h:98 -/
  | .loghex2 n v => [str " ", shl, .leaf (.text n), shl, str "=0x", shl, .leaf (.base true), shl, .lp, .cast, .lp] ++ v.toks ++ [.rp, .rp, shl, .leaf (.base false)]
  /- Logger.h:102 -/
  | .range n c l h => [str " ", shl, .leaf (.text n), shl, str "=(", shl, .lp] ++ c.toks ++ [.rp, shl, str " range:", shl, .lp] ++ l.toks ++ [.rp, shl, str " to ", shl, .lp] ++ h.toks ++
      [.rp, shl, str ")"]
  /- Defines.h:71 -/
  | .pretty v => [.lp, .leaf (.text (lit " " ++ sp v.toks ++ lit "=(")), .rp, shl] ++ v.toks ++ [shl, str ")"]
  /- Defines.h:72 -/
  | .pretty1 v => [.lp, .leaf (.text (lit " " ++ sp v.toks ++ lit "=")), .rp, shl] ++ v.toks

/-- The tokens of `os << item << item ...`. -/
def statement (sp : List Tok → Str) (l : List Item) : List Tok := .leaf .os :: l.flatMap fun i => shl :: i.expand sp

/-! ### Specification -/

/-- The expression is a number, whatever is in the stream, and leaves the stream alone. -/
def IsNum (E : Env) (e : Expr) (t : Ty) (x : Int) : Prop := kind E e = some (.num t) ∧ ∀ s, value E e s = some (.num t x, s)

/-- A number in decimal; the 8-bit types as characters. -/
def decimal (t : Ty) (x : Int) : Str := if t = .schar ∨ t = .uchar then [BitVec.ofInt 8 x] else intText x

/-- The text of an item, with its arguments evaluated by themselves: name and value. -/
inductive Shows (E : Env) (sp : List Tok → Str) : Item → Str → Prop
  | text (x) : Shows E sp (.text x) x
  | logvar2 {n v t x} : IsNum E v t x → Shows E sp (.logvar2 n v) (lit " " ++ n ++ lit "=" ++ decimal t x)
  | logvar {v t x} : IsNum E v t x → Shows E sp (.logvar v) (lit " " ++ sp v.toks ++ lit "=" ++ decimal t x)
  | logvarm {v t x} : IsNum E v t x → Shows E sp (.logvarm v) (lit " " ++ (sp v.toks).drop 1 ++ lit "=" ++ decimal t x)
  | logvarp2 {n v t x} : IsNum E v t x → Shows E sp (.logvarp2 n v) (lit " " ++ n ++ lit "=(" ++ decimal t x ++ lit ")")
  | logvarp {v t x} : IsNum E v t x → Shows E sp (.logvarp v) (lit " " ++ sp v.toks ++ lit "=(" ++ decimal t x ++ lit ")")
  | loghex {v t x} : IsNum E v t x → Shows E sp (.loghex v) (lit " " ++ sp v.toks ++ lit "=0x" ++ natText 16 (x % 2 ^ 64).toNat)
  | loghex2 {n v t x} : IsNum E v t x → Shows E sp (.loghex2 n v) (lit " " ++ n ++ lit "=0x" ++ natText 16 (x % 2 ^ 64).toNat)
  | range {n c l h t x t' x' t'' x''} : IsNum E c t x → IsNum E l t' x' → IsNum E h t'' x'' →
      Shows E sp (.range n c l h) (lit " " ++ n ++ lit "=(" ++ decimal t x ++ lit " range:" ++ decimal t' x' ++ lit " to " ++ decimal t'' x'' ++ lit ")")
  | pretty {v t x} : IsNum E v t x → Shows E sp (.pretty v) (lit " " ++ sp v.toks ++ lit "=(" ++ decimal t x ++ lit ")")
  | pretty1 {v t x} : IsNum E v t x → Shows E sp (.pretty1 v) (lit " " ++ sp v.toks ++ lit "=" ++ decimal t x)

/-- The argument is an expression by itself. -/
def Item.args : Item → List Expr
  | .text _ => []
  | .logvar2 _ v => [v]
  | .logvar v => [v]
  | .logvarm v => [v]
  | .logvarp2 _ v => [v]
  | .logvarp v => [v]
  | .loghex v => [v]
  | .loghex2 _ v => [v]
  | .range _ c l h => [c, l, h]
  | .pretty v => [v]
  | .pretty1 v => [v]

/-- The argument binds tightly enough for the macro: more tightly than `<<` where the macro has no parentheses, as tightly as a cast for `LOGHEX`, anyhow for `LOGVAR2`, `LOGHEX2` and `LOGVARRANGE`. -/
def Item.Tight : Item → Prop
  | .logvar v => 12 ≤ v.level
  | .logvarm v => 12 ≤ v.level
  | .logvarp2 _ v => 12 ≤ v.level
  | .logvarp v => 12 ≤ v.level
  | .loghex v => v.level = 14
  | .pretty v => 12 ≤ v.level
  | .pretty1 v => 12 ≤ v.level
  | _ => True

/-! ### The grammar is unambiguous -/

mutual
/-- Reads an expression that binds at least as tightly as the level. -/
def parse : Nat → Nat → List Tok → Option (Expr × List Tok)
  | 0, _, _ => none
  | f + 1, p, ts =>
    if 14 ≤ p then
      match ts with
      | .leaf x :: r => some (.leaf x, r)
      | .lp :: r => match parse f 3 r with
        | some (e, .rp :: r) => some (.paren e, r)
        | _ => none
      | .cast :: r => match parse f 14 r with
        | some (e, r) => some (.cast e, r)
        | none => none
      | _ => none
    else if p ≤ 3 then
      match parse f 4 ts with
      | some (a, .quest :: r) => match parse f 3 r with
        | some (b, .colon :: r) => match parse f 3 r with
          | some (c, r) => some (.cond a b c, r)
          | none => none
        | _ => none
      | x => x
    else match parse f (p + 1) ts with
      | some (l, r) => more f p l r
      | none => none
def more : Nat → Nat → Expr → List Tok → Option (Expr × List Tok)
  | 0, _, _, _ => none
  | f + 1, p, l, ts =>
    match ts with
    | .op b :: r => if b.prec = p then match parse f (p + 1) r with
        | some (e, r) => more f p (.bin b l e) r
        | none => none
      else some (l, .op b :: r)
    | ts => some (l, ts)
end

/-- What follows does not belong to an expression of the level. -/
def Stops (p : Nat) : List Tok → Prop
  | .op b :: _ => b.prec < p
  | .quest :: _ => 3 < p
  | _ => True

theorem prec_bounds (b : Bin) : 4 ≤ b.prec ∧ b.prec ≤ 13 := by cases b <;> decide

theorem level_bounds (e : Expr) : 3 ≤ e.level ∧ e.level ≤ 14 := by
  cases e <;> simp only [Expr.level] <;> first | omega | (rename_i b _ _; have := prec_bounds b; omega)

/-- With enough fuel. -/
def Ev (f : Nat → Option (Expr × List Tok)) (x : Option (Expr × List Tok)) : Prop := ∃ N, ∀ n, N ≤ n → f n = x

def A (e : Expr) : Prop := ∀ p rest, 3 ≤ p → p ≤ e.level → Stops p rest → Ev (fun f => parse f p (e.toks ++ rest)) (some (e, rest))
def B (e : Expr) : Prop := ∀ p rest X, 4 ≤ p → p ≤ 13 → p ≤ e.level → Stops (p + 1) rest → Ev (fun f => more f p e rest) X → Ev (fun f => parse f p (e.toks ++ rest)) X

theorem Stops.mono {p q : Nat} {rest : List Tok} (h : p ≤ q) (hs : Stops p rest) : Stops q rest := by
  unfold Stops at *
  split <;> simp_all <;> omega

theorem more_stops {p : Nat} {e : Expr} {rest : List Tok} (hs : Stops p rest) : Ev (fun f => more f p e rest) (some (e, rest)) := by
  refine ⟨1, fun n hn => ?_⟩
  obtain ⟨k, rfl⟩ : ∃ k, n = k + 1 := ⟨n - 1, by omega⟩
  simp only [more]
  split
  · rename_i b r
    have : b.prec < p := hs
    rw [if_neg (by omega)]
  · rfl

/-- One level down. -/
theorem lower {e : Expr} {p : Nat} {rest : List Tok} {X} (h4 : 4 ≤ p) (h13 : p ≤ 13) (h : Ev (fun f => parse f (p + 1) (e.toks ++ rest)) (some (e, rest)))
    (hm : Ev (fun f => more f p e rest) X) : Ev (fun f => parse f p (e.toks ++ rest)) X := by
  obtain ⟨N, hN⟩ := h
  obtain ⟨M, hM⟩ := hm
  refine ⟨N + M + 1, fun n hn => ?_⟩
  obtain ⟨k, rfl⟩ : ∃ k, n = k + 1 := ⟨n - 1, by omega⟩
  have h1 := hN k (by omega)
  have h2 := hM k (by omega)
  simp only at h1 h2
  simp only [parse]
  rw [if_neg (by omega), if_neg (by omega), h1]
  exact h2

/-- From what holds at the level of the expression to all below. -/
theorem all_below {e : Expr} (hA : ∀ rest, Stops e.level rest → Ev (fun f => parse f e.level (e.toks ++ rest)) (some (e, rest)))
    (hB : ∀ rest X, 4 ≤ e.level → e.level ≤ 13 → Stops (e.level + 1) rest → Ev (fun f => more f e.level e rest) X → Ev (fun f => parse f e.level (e.toks ++ rest)) X) : A e ∧ B e := by
  have key : ∀ k p, p + k = e.level → 3 ≤ p → ∀ rest, Stops p rest → Ev (fun f => parse f p (e.toks ++ rest)) (some (e, rest)) := by
    intro k
    induction k with
    | zero =>
      intro p hp _ rest hs
      have hp : p = e.level := by omega
      subst hp; exact hA rest hs
    | succ k ih =>
      intro p hp h3 rest hs
      have hb := level_bounds e
      have h1 := ih (p + 1) (by omega) (by omega) rest (hs.mono (by omega))
      by_cases h : p = 3
      · subst h
        obtain ⟨N, hN⟩ := h1
        refine ⟨N + 1, fun n hn => ?_⟩
        obtain ⟨k, rfl⟩ : ∃ k, n = k + 1 := ⟨n - 1, by omega⟩
        have h1 := hN k (by omega)
        simp only [Nat.reduceAdd] at h1
        simp only [parse]
        rw [if_neg (by omega), if_pos (by omega), h1]
        split
        · rename_i heq
          simp only [Option.some.injEq, Prod.mk.injEq] at heq
          rw [heq.2] at hs
          exact absurd hs (by simp [Stops])
        · rfl
      · exact lower (by omega) (by omega) h1 (more_stops hs)
  refine ⟨fun p rest h3 hp hs => key (e.level - p) p (by omega) h3 rest hs, fun p rest X h4 h13 hp hs hm => ?_⟩
  by_cases h : p = e.level
  · subst h; exact hB rest X h4 h13 hs hm
  · exact lower h4 h13 (key (e.level - (p + 1)) (p + 1) (by omega) (by omega) rest hs) hm

theorem parses (e : Expr) (hw : e.Wf) : A e ∧ B e := by
  induction e with
  | leaf x =>
    apply all_below
    · intro rest _
      refine ⟨1, fun n hn => ?_⟩
      obtain ⟨k, rfl⟩ : ∃ k, n = k + 1 := ⟨n - 1, by omega⟩
      simp [parse, Expr.level, Expr.toks]
    · intro rest X _ h; simp [Expr.level] at h
  | paren e ih =>
    have ih := (ih hw).1
    apply all_below
    · intro rest _
      obtain ⟨N, hN⟩ := ih 3 (.rp :: rest) (by omega) (level_bounds e).1 (by simp [Stops])
      refine ⟨N + 1, fun n hn => ?_⟩
      obtain ⟨k, rfl⟩ : ∃ k, n = k + 1 := ⟨n - 1, by omega⟩
      have h1 := hN k (by omega)
      simp only at h1
      simp [parse, Expr.level, Expr.toks, h1]
    · intro rest X _ h; simp [Expr.level] at h
  | cast e ih =>
    obtain ⟨hw, hl⟩ := hw
    have ih := (ih hw).1
    apply all_below
    · intro rest hs
      obtain ⟨N, hN⟩ := ih 14 rest (by omega) (by omega) hs
      refine ⟨N + 1, fun n hn => ?_⟩
      obtain ⟨k, rfl⟩ : ∃ k, n = k + 1 := ⟨n - 1, by omega⟩
      have h1 := hN k (by omega)
      simp only at h1
      simp [parse, Expr.level, Expr.toks, h1]
    · intro rest X _ h; simp [Expr.level] at h
  | bin b l r ihl ihr =>
    obtain ⟨hwl, hwr, hl, hr⟩ := hw
    have hb := prec_bounds b
    have main : ∀ rest X, Stops (b.prec + 1) rest → Ev (fun f => more f b.prec (.bin b l r) rest) X → Ev (fun f => parse f b.prec ((Expr.bin b l r).toks ++ rest)) X := by
      intro rest X hs hm
      simp only [Expr.toks, List.append_assoc, List.cons_append]
      refine (ihl hwl).2 b.prec (.op b :: (r.toks ++ rest)) X hb.1 hb.2 hl (by simp [Stops]) ?_
      obtain ⟨N, hN⟩ := (ihr hwr).1 (b.prec + 1) rest (by omega) (by omega) hs
      obtain ⟨M, hM⟩ := hm
      refine ⟨N + M + 1, fun n hn => ?_⟩
      obtain ⟨k, rfl⟩ : ∃ k, n = k + 1 := ⟨n - 1, by omega⟩
      have h1 := hN k (by omega)
      have h2 := hM k (by omega)
      simp only at h1 h2
      simp only [more, if_true]
      rw [h1]
      exact h2
    apply all_below
    · intro rest hs
      exact main rest _ (hs.mono (by simp [Expr.level])) (more_stops hs)
    · intro rest X _ _ hs hm
      exact main rest X hs hm
  | cond a b c iha ihb ihc =>
    obtain ⟨hwa, hwb, hwc, ha⟩ := hw
    apply all_below
    · intro rest hs
      obtain ⟨N, hN⟩ := (iha hwa).1 4 (.quest :: (b.toks ++ .colon :: (c.toks ++ rest))) (by omega) ha (by simp [Stops])
      obtain ⟨M, hM⟩ := (ihb hwb).1 3 (.colon :: (c.toks ++ rest)) (by omega) (level_bounds b).1 (by simp [Stops])
      obtain ⟨L, hL⟩ := (ihc hwc).1 3 rest (by omega) (level_bounds c).1 hs
      refine ⟨N + M + L + 1, fun n hn => ?_⟩
      obtain ⟨k, rfl⟩ : ∃ k, n = k + 1 := ⟨n - 1, by omega⟩
      have h1 := hN k (by omega)
      have h2 := hM k (by omega)
      have h3 := hL k (by omega)
      simp only at h1 h2 h3
      simp [parse, Expr.level, Expr.toks, h1, h2, h3]
    · intro rest X h; simp [Expr.level] at h

/-- The tokens of an expression have no other reading. -/
theorem unambiguous {ts : List Tok} {e e' : Expr} (h : Reads ts e) (h' : Reads ts e') : e = e' := by
  obtain ⟨N, hN⟩ := (parses e h.1).1 3 [] (by omega) (level_bounds e).1 (by simp [Stops])
  obtain ⟨M, hM⟩ := (parses e' h'.1).1 3 [] (by omega) (level_bounds e').1 (by simp [Stops])
  have h1 := hN (N + M) (by omega)
  have h2 := hM (N + M) (by omega)
  simp only [h.2, h'.2] at h1 h2
  rw [h1] at h2
  simpa using h2

/-! ### What the statements print -/

/-- The operands of `<<` that a macro adds. -/
def Item.ops (sp : List Tok → Str) : Item → List Expr
  | .text x => [.leaf (.text x)]
  | .logvar2 n v => [.leaf (.text (lit " ")), .leaf (.text n), .leaf (.text (lit "=")), .paren v]
  | .logvar v => [.paren (.leaf (.text (lit " " ++ sp v.toks ++ lit "="))), v]
  | .logvarm v => [.leaf (.text (lit " ")), .leaf (.text ((sp v.toks).drop 1)), .leaf (.text (lit "=")), v]
  | .logvarp2 n v => [.paren (.leaf (.text (lit " " ++ n ++ lit "=("))), v, .leaf (.text (lit ")"))]
  | .logvarp v => [.paren (.leaf (.text (lit " " ++ sp v.toks ++ lit "=("))), v, .leaf (.text (lit ")"))]
  | .loghex v => [.paren (.leaf (.text (lit " " ++ sp v.toks ++ lit "=0x"))), .leaf (.base true), .paren (.cast v), .leaf (.base false)]
  | .loghex2 n v => [.leaf (.text (lit " ")), .leaf (.text n), .leaf (.text (lit "=0x")), .leaf (.base true), .paren (.cast (.paren v)), .leaf (.base false)]
  | .range n c l h => [.leaf (.text (lit " ")), .leaf (.text n), .leaf (.text (lit "=(")), .paren c, .leaf (.text (lit " range:")), .paren l, .leaf (.text (lit " to ")), .paren h, .leaf (.text (lit ")"))]
  | .pretty v => [.paren (.leaf (.text (lit " " ++ sp v.toks ++ lit "=("))), v, .leaf (.text (lit ")"))]
  | .pretty1 v => [.paren (.leaf (.text (lit " " ++ sp v.toks ++ lit "="))), v]

/-- A chain of `<<`. -/
def chain (e : Expr) (l : List Expr) : Expr := l.foldl (.bin .shl) e

theorem chain_toks (l : List Expr) (e : Expr) : (chain e l).toks = e.toks ++ l.flatMap fun x => shl :: x.toks := by
  induction l generalizing e with
  | nil => simp [chain]
  | cons x l ih =>
    have := ih (.bin .shl e x)
    simp only [chain, List.foldl_cons] at this ⊢
    rw [this]
    simp [Expr.toks, shl]

theorem chain_wf (l : List Expr) (e : Expr) (he : e.Wf) (hl : 11 ≤ e.level) (h : ∀ x ∈ l, x.Wf ∧ 12 ≤ x.level) : (chain e l).Wf ∧ 11 ≤ (chain e l).level := by
  induction l generalizing e with
  | nil => exact ⟨he, hl⟩
  | cons x l ih =>
    have hx := h x (by simp)
    exact ih (.bin .shl e x) ⟨he, hx.1, hl, hx.2⟩ (by simp [Expr.level, Bin.prec]) fun y hy => h y (by simp [hy])

theorem expand_ops (sp : List Tok → Str) (i : Item) : shl :: i.expand sp = (i.ops sp).flatMap fun x => shl :: x.toks := by
  cases i <;> simp [Item.expand, Item.ops, Expr.toks, str, shl]

theorem statement_toks (sp : List Tok → Str) (l : List Item) : statement sp l = (chain (.leaf .os) (l.flatMap (Item.ops sp))).toks := by
  rw [chain_toks, List.flatMap_assoc]
  simp only [statement, expand_ops]
  rfl

theorem ops_tight (sp : List Tok → Str) (i : Item) (hw : ∀ a ∈ i.args, a.Wf) (ht : i.Tight) : ∀ x ∈ i.ops sp, x.Wf ∧ 12 ≤ x.level := by
  cases i <;> simp_all [Item.ops, Item.args, Item.Tight, Expr.Wf, Expr.level]

/-- The expression writes to the stream. -/
def Has (E : Env) (e : Expr) (s s' : Stream) : Prop := kind E e = some .stream ∧ value E e s = some (.stream, s')

theorem Has.text {E : Env} {e : Expr} {s s' : Stream} (h : Has E e s s') (x : Str) : Has E (.bin .shl e (.leaf (.text x))) s { s' with out := s'.out ++ x } := by
  refine ⟨by simp [kind, h.1], by simp [value, h.2]⟩

theorem Has.ptext {E : Env} {e : Expr} {s s' : Stream} (h : Has E e s s') (x : Str) : Has E (.bin .shl e (.paren (.leaf (.text x)))) s { s' with out := s'.out ++ x } := by
  refine ⟨by simp [kind, h.1], by simp [value, h.2]⟩

theorem Has.base {E : Env} {e : Expr} {s s' : Stream} (h : Has E e s s') (b : Bool) : Has E (.bin .shl e (.leaf (.base b))) s { s' with hex := b } := by
  refine ⟨by simp [kind, h.1], by simp [value, h.2]⟩

theorem Has.num {E : Env} {e v : Expr} {s s' : Stream} {t : Ty} {x : Int} (h : Has E e s s') (hv : IsNum E v t x) : Has E (.bin .shl e v) s { s' with out := s'.out ++ s'.shows t x } := by
  refine ⟨by simp [kind, h.1, hv.1], by simp [value, h.2, hv.2]⟩

theorem IsNum.paren {E : Env} {v : Expr} {t : Ty} {x : Int} (hv : IsNum E v t x) : IsNum E (.paren v) t x := ⟨by simpa [kind] using hv.1, fun s => by simpa [value] using hv.2 s⟩

theorem IsNum.cast {E : Env} {v : Expr} {t : Ty} {x : Int} (hv : IsNum E v t x) : IsNum E (.cast v) .ulong (x % 2 ^ 64) := by
  refine ⟨by simp [kind, hv.1], fun s => ?_⟩
  simp [value, hv.2, Ty.conv, Ty.min, Ty.isSigned, Ty.bits]

theorem shows_dec (s : Stream) (t : Ty) (x : Int) (h : s.hex = false) : s.shows t x = decimal t x := by simp [Stream.shows, decimal, h]

theorem shows_hex (s : Stream) (x : Int) (h : s.hex = true) : s.shows .ulong (x % 2 ^ 64) = natText 16 (x % 2 ^ 64).toNat := by
  simp [Stream.shows, h, Ty.bits, Int.emod_emod_of_dvd]

theorem shows_hex' (s : Stream) (x : Int) (h : s.hex = true) : s.shows .ulong (x % 18446744073709551616) = natText 16 (x % 18446744073709551616).toNat := shows_hex s x h

theorem item_runs {E : Env} {sp : List Tok → Str} {i : Item} {txt : Str} (h : Shows E sp i txt) {e : Expr} {s : Stream} {out : Str} (he : Has E e s ⟨false, out⟩) :
    Has E (chain e (i.ops sp)) s ⟨false, out ++ txt⟩ := by
  cases h with
  | text => exact he.text _
  | @logvar2 n v t x hv => simpa [chain, Item.ops, shows_dec] using ((((he.text (lit " ")).text n).text (lit "=")).num hv.paren)
  | @logvar v t x hv => simpa [chain, Item.ops, shows_dec] using ((he.ptext (lit " " ++ sp v.toks ++ lit "=")).num hv)
  | @logvarm v t x hv => simpa [chain, Item.ops, shows_dec] using ((((he.text (lit " ")).text ((sp v.toks).drop 1)).text (lit "=")).num hv)
  | @logvarp2 n v t x hv => simpa [chain, Item.ops, shows_dec] using (((he.ptext (lit " " ++ n ++ lit "=(")).num hv).text (lit ")"))
  | @logvarp v t x hv => simpa [chain, Item.ops, shows_dec] using (((he.ptext (lit " " ++ sp v.toks ++ lit "=(")).num hv).text (lit ")"))
  | @loghex v t x hv => simpa [chain, Item.ops, shows_hex'] using ((((he.ptext (lit " " ++ sp v.toks ++ lit "=0x")).base true).num hv.cast.paren).base false)
  | @loghex2 n v t x hv => simpa [chain, Item.ops, shows_hex'] using ((((((he.text (lit " ")).text n).text (lit "=0x")).base true).num hv.paren.cast.paren).base false)
  | @range n c l h t x t' x' t'' x'' hc hl hh =>
    simpa [chain, Item.ops, shows_dec] using ((((((((((he.text (lit " ")).text n).text (lit "=(")).num hc.paren).text (lit " range:")).num hl.paren).text (lit " to ")).num hh.paren).text (lit ")")))
  | @pretty v t x hv => simpa [chain, Item.ops, shows_dec] using (((he.ptext (lit " " ++ sp v.toks ++ lit "=(")).num hv).text (lit ")"))
  | @pretty1 v t x hv => simpa [chain, Item.ops, shows_dec] using ((he.ptext (lit " " ++ sp v.toks ++ lit "=")).num hv)

theorem chain_append (e : Expr) (l m : List Expr) : chain e (l ++ m) = chain (chain e l) m := by simp [chain]

theorem items_run {E : Env} {sp : List Tok → Str} (l : List (Item × Str)) (h : ∀ p ∈ l, Shows E sp p.1 p.2) {e : Expr} {s : Stream} {out : Str} (he : Has E e s ⟨false, out⟩) :
    Has E (chain e (l.flatMap fun p => p.1.ops sp)) s ⟨false, out ++ l.flatMap (·.2)⟩ := by
  induction l generalizing e out with
  | nil => simpa [chain] using he
  | cons p l ih =>
    simp only [List.flatMap_cons, chain_append]
    rw [← List.append_assoc]
    exact ih (fun q hq => h q (by simp [hq])) (item_runs (h p (by simp)) he)

/-- A statement of texts and macros, in which every argument binds tightly enough for its macro, has one reading, and prints the name and the value of every argument in turn; numbers after
it are printed in decimal again.  (Missing, and false: arguments that bind less tightly, see below.) -/
theorem C144_values_partial (E : Env) (sp : List Tok → Str) (l : List (Item × Str)) (h : ∀ p ∈ l, Shows E sp p.1 p.2) (hw : ∀ p ∈ l, (∀ a ∈ p.1.args, a.Wf) ∧ p.1.Tight) (out : Str) :
    ∃ e, Reads (statement sp (l.map (·.1))) e ∧ (∀ e', Reads (statement sp (l.map (·.1))) e' → e' = e) ∧ run E e ⟨false, out⟩ = some ⟨false, out ++ l.flatMap (·.2)⟩ := by
  have hr : Reads (statement sp (l.map (·.1))) (chain (.leaf .os) (l.flatMap fun p => p.1.ops sp)) := by
    refine ⟨(chain_wf _ _ (by simp [Expr.Wf]) (by simp [Expr.level]) ?_).1, ?_⟩
    · intro x hx
      obtain ⟨p, hp, hx⟩ := List.mem_flatMap.1 hx
      exact ops_tight sp p.1 (hw p hp).1 (hw p hp).2 x hx
    · rw [statement_toks, List.flatMap_map]
  refine ⟨_, hr, fun e' h' => unambiguous h' hr, ?_⟩
  have h0 : Has E (.leaf .os) ⟨false, out⟩ ⟨false, out⟩ := ⟨rfl, rfl⟩
  have := items_run l h h0
  simp [run, this.1, this.2]

/-- With a conditional as argument the statement compiles and prints the condition, not the value. -/
theorem C144_cond_refuted (E : Env) (sp : List Tok → Str) (a b c : Expr) (hw : a.Wf ∧ b.Wf ∧ c.Wf) (ha : 12 ≤ a.level) (t u w : Ty) (x y z : Int)
    (hx : IsNum E a t x) (hy : IsNum E b u y) (hz : IsNum E c w z) (out : Str) :
    ∃ e, Reads (statement sp [.logvar (.cond a b c)]) e ∧ (∀ e', Reads (statement sp [.logvar (.cond a b c)]) e' → e' = e) ∧
      run E e ⟨false, out⟩ = some ⟨false, out ++ (lit " " ++ sp (Expr.cond a b c).toks ++ lit "=" ++ decimal t x)⟩ := by
  have hr : Reads (statement sp [.logvar (.cond a b c)]) (.cond (chain (.leaf .os) [.paren (.leaf (.text (lit " " ++ sp (Expr.cond a b c).toks ++ lit "="))), a]) b c) := by
    refine ⟨⟨(chain_wf _ _ (by simp [Expr.Wf]) (by simp [Expr.level]) ?_).1, hw.2.1, hw.2.2, ?_⟩, ?_⟩
    · intro y hy
      simp only [List.mem_cons, List.not_mem_nil, or_false] at hy
      rcases hy with rfl | rfl
      · exact ⟨trivial, by simp [Expr.level]⟩
      · exact ⟨hw.1, ha⟩
    · simp [chain, Expr.level, Bin.prec]
    · simp [statement, Item.expand, Expr.toks, chain, shl]
  refine ⟨_, hr, fun e' h' => unambiguous h' hr, ?_⟩
  have h0 : Has E (.leaf .os) ⟨false, out⟩ ⟨false, out⟩ := ⟨rfl, rfl⟩
  have h1 : Has E (chain (.leaf .os) [.paren (.leaf (.text (lit " " ++ sp (Expr.cond a b c).toks ++ lit "="))), a]) ⟨false, out⟩
      ⟨false, out ++ (lit " " ++ sp (Expr.cond a b c).toks ++ lit "=" ++ decimal t x)⟩ := by
    simpa [chain, shows_dec] using (h0.ptext (lit " " ++ sp (Expr.cond a b c).toks ++ lit "=")).num hx
  have hk : kind E (.cond (chain (.leaf .os) [.paren (.leaf (.text (lit " " ++ sp (Expr.cond a b c).toks ++ lit "="))), a]) b c) = some (.num (if u = w then u else Ty.common u.promote w.promote)) := by
    simp only [kind, h1.1, hy.1, hz.1]; simp [Kind.isCond]
  simp only [run, hk, value, h1.2]
  simp [Val.truth, hy.2]

/-- With `<<` in the argument both operands are printed one after the other. -/
theorem C144_shift_refuted (E : Env) (sp : List Tok → Str) (a b : Expr) (hw : a.Wf ∧ b.Wf) (ha : 12 ≤ a.level) (hb : 12 ≤ b.level) (t u : Ty) (x y : Int)
    (hx : IsNum E a t x) (hy : IsNum E b u y) (out : Str) :
    ∃ e, Reads (statement sp [.logvar (.bin .shl a b)]) e ∧ (∀ e', Reads (statement sp [.logvar (.bin .shl a b)]) e' → e' = e) ∧
      run E e ⟨false, out⟩ = some ⟨false, out ++ (lit " " ++ sp (Expr.bin .shl a b).toks ++ lit "=" ++ decimal t x ++ decimal u y)⟩ := by
  have hr : Reads (statement sp [.logvar (.bin .shl a b)]) (chain (.leaf .os) [.paren (.leaf (.text (lit " " ++ sp (Expr.bin .shl a b).toks ++ lit "="))), a, b]) := by
    refine ⟨(chain_wf _ _ (by simp [Expr.Wf]) (by simp [Expr.level]) ?_).1, ?_⟩
    · intro y hy
      simp only [List.mem_cons, List.not_mem_nil, or_false] at hy
      rcases hy with rfl | rfl | rfl
      · exact ⟨trivial, by simp [Expr.level]⟩
      · exact ⟨hw.1, ha⟩
      · exact ⟨hw.2, hb⟩
    · simp [statement, Item.expand, Expr.toks, chain, shl]
  refine ⟨_, hr, fun e' h' => unambiguous h' hr, ?_⟩
  have h0 : Has E (.leaf .os) ⟨false, out⟩ ⟨false, out⟩ := ⟨rfl, rfl⟩
  have h1 : Has E (chain (.leaf .os) [.paren (.leaf (.text (lit " " ++ sp (Expr.bin .shl a b).toks ++ lit "="))), a, b]) ⟨false, out⟩
      ⟨false, out ++ (lit " " ++ sp (Expr.bin .shl a b).toks ++ lit "=" ++ decimal t x ++ decimal u y)⟩ := by
    simpa [chain, shows_dec] using ((h0.ptext (lit " " ++ sp (Expr.bin .shl a b).toks ++ lit "=")).num hx).num hy
  simp only [run, h1.1, h1.2]; rfl

/-- With `&&` or `||` the statement compiles and prints the left operand. -/
theorem C144_and_refuted (E : Env) (sp : List Tok → Str) (o : Bin) (ho : o = .land ∨ o = .lor) (a b : Expr) (hw : a.Wf ∧ b.Wf) (ha : 12 ≤ a.level) (hb : o.prec < b.level) (t u : Ty)
    (x y : Int) (hx : IsNum E a t x) (hy : IsNum E b u y) (out : Str) :
    ∃ e, Reads (statement sp [.logvar (.bin o a b)]) e ∧ (∀ e', Reads (statement sp [.logvar (.bin o a b)]) e' → e' = e) ∧
      run E e ⟨false, out⟩ = some ⟨false, out ++ (lit " " ++ sp (Expr.bin o a b).toks ++ lit "=" ++ decimal t x)⟩ := by
  have hr : Reads (statement sp [.logvar (.bin o a b)]) (.bin o (chain (.leaf .os) [.paren (.leaf (.text (lit " " ++ sp (Expr.bin o a b).toks ++ lit "="))), a]) b) := by
    refine ⟨⟨(chain_wf _ _ (by simp [Expr.Wf]) (by simp [Expr.level]) ?_).1, hw.2, ?_, hb⟩, ?_⟩
    · intro y hy
      simp only [List.mem_cons, List.not_mem_nil, or_false] at hy
      rcases hy with rfl | rfl
      · exact ⟨trivial, by simp [Expr.level]⟩
      · exact ⟨hw.1, ha⟩
    · rcases ho with rfl | rfl <;> simp [chain, Expr.level, Bin.prec]
    · simp [statement, Item.expand, Expr.toks, chain, shl]
  refine ⟨_, hr, fun e' h' => unambiguous h' hr, ?_⟩
  have h0 : Has E (.leaf .os) ⟨false, out⟩ ⟨false, out⟩ := ⟨rfl, rfl⟩
  have h1 : Has E (chain (.leaf .os) [.paren (.leaf (.text (lit " " ++ sp (Expr.bin o a b).toks ++ lit "="))), a]) ⟨false, out⟩
      ⟨false, out ++ (lit " " ++ sp (Expr.bin o a b).toks ++ lit "=" ++ decimal t x)⟩ := by
    simpa [chain, shows_dec] using (h0.ptext (lit " " ++ sp (Expr.bin o a b).toks ++ lit "=")).num hx
  generalize chain (.leaf .os) [.paren (.leaf (.text (lit " " ++ sp (Expr.bin o a b).toks ++ lit "="))), a] = c at h1 ⊢
  rcases ho with rfl | rfl
  · simp only [run, kind, h1.1, hy.1, value, h1.2]
    simp [Kind.isCond, Val.truth, hy.2]
  · simp only [run, kind, h1.1, hy.1, value, h1.2]
    simp [Kind.isCond, Val.truth]

/-- With a comparison or a bit operation the compiler rejects the statement. -/
theorem C144_compare_rejected (E : Env) (sp : List Tok → Str) (o : Bin) (ho : 6 ≤ o.prec ∧ o.prec ≤ 10) (a b : Expr) (hw : a.Wf ∧ b.Wf) (ha : 12 ≤ a.level) (hb : o.prec < b.level) (t : Ty)
    (x : Int) (hx : IsNum E a t x) (s : Stream) :
    ∃ e, Reads (statement sp [.logvar (.bin o a b)]) e ∧ (∀ e', Reads (statement sp [.logvar (.bin o a b)]) e' → e' = e) ∧ kind E e = none ∧ run E e s = none := by
  have hr : Reads (statement sp [.logvar (.bin o a b)]) (.bin o (chain (.leaf .os) [.paren (.leaf (.text (lit " " ++ sp (Expr.bin o a b).toks ++ lit "="))), a]) b) := by
    refine ⟨⟨(chain_wf _ _ (by simp [Expr.Wf]) (by simp [Expr.level]) ?_).1, hw.2, ?_, hb⟩, ?_⟩
    · intro y hy
      simp only [List.mem_cons, List.not_mem_nil, or_false] at hy
      rcases hy with rfl | rfl
      · exact ⟨trivial, by simp [Expr.level]⟩
      · exact ⟨hw.1, ha⟩
    · show o.prec ≤ 11; omega
    · simp [statement, Item.expand, Expr.toks, chain, shl]
  have h0 : Has E (.leaf .os) ⟨false, []⟩ ⟨false, []⟩ := ⟨rfl, rfl⟩
  have h1 := ((h0.ptext (lit " " ++ sp (Expr.bin o a b).toks ++ lit "=")).num hx).1
  have hk : kind E (.bin o (chain (.leaf .os) [.paren (.leaf (.text (lit " " ++ sp (Expr.bin o a b).toks ++ lit "="))), a]) b) = none := by
    simp only [chain, List.foldl]
    generalize Expr.bin .shl (Expr.bin .shl (.leaf .os) (.paren (.leaf (.text (lit " " ++ sp (Expr.bin o a b).toks ++ lit "="))))) a = c at h1 ⊢
    simp only [kind, h1]
    cases o <;> first | (exfalso; revert ho; decide) | (cases kind E b <;> rfl)
  exact ⟨_, hr, fun e' h' => unambiguous h' hr, hk, by simp only [run, hk]; rfl⟩

/-- `RN_WRITE_OPT_TEXT` (`Defines.h:74`): the tokens of the statement in braces. -/
def optText (sp : List Tok → Str) (v : Expr) : List Tok := [.leaf .os, shl] ++ statement sp [.pretty v]

/-- The stream itself is written first: since C++11 the compiler rejects the statement, before that the address of the stream is printed. -/
theorem C144_opt_refuted (E : Env) (sp : List Tok → Str) (v : Expr) (hw : v.Wf) (hl : 12 ≤ v.level) (t : Ty) (x : Int) (hx : IsNum E v t x) (out : Str) :
    ∃ e, Reads (optText sp v) e ∧ (∀ e', Reads (optText sp v) e' → e' = e) ∧
      run E e ⟨false, out⟩ = E.addr.map fun a => ⟨false, out ++ (a ++ lit " " ++ sp v.toks ++ lit "=(" ++ decimal t x ++ lit ")")⟩ := by
  have hr : Reads (optText sp v) (chain (.leaf .os) [.leaf .os, .paren (.leaf (.text (lit " " ++ sp v.toks ++ lit "=("))), v, .leaf (.text (lit ")"))]) := by
    refine ⟨(chain_wf _ _ (by simp [Expr.Wf]) (by simp [Expr.level]) ?_).1, ?_⟩
    · intro y hy
      simp only [List.mem_cons, List.not_mem_nil, or_false] at hy
      rcases hy with rfl | rfl | rfl | rfl
      · exact ⟨trivial, by simp [Expr.level]⟩
      · exact ⟨trivial, by simp [Expr.level]⟩
      · exact ⟨hw, hl⟩
      · exact ⟨trivial, by simp [Expr.level]⟩
    · simp [optText, statement, Item.expand, Expr.toks, chain, shl, str]
  refine ⟨_, hr, fun e' h' => unambiguous h' hr, ?_⟩
  cases ha : E.addr with
  | none => simp [run, chain, kind, ha]
  | some a =>
    have h0 : Has E (.bin .shl (.leaf .os) (.leaf .os)) ⟨false, out⟩ ⟨false, out ++ a⟩ := ⟨by simp [kind, ha], by simp [value, ha]⟩
    have h1 := ((h0.ptext (lit " " ++ sp v.toks ++ lit "=(")).num hx).text (lit ")")
    simp only [chain, List.foldl, run, h1.1, h1.2]
    simp [shows_dec]

/-! ### Numbers of 8 bits, and `LOGHEX` -/

/-- A number of 8 bits is printed as a character: a zero ends the record for every destination (`C108`), with all that comes after it. -/
theorem C144_byte_refuted (E : Env) (sp : List Tok → Str) (i : Nat) (ht : E.ty i = .uchar) (hv : E.val i = 0) (l : List (Item × Str)) (h : ∀ p ∈ l, Shows E sp p.1 p.2)
    (hw : ∀ p ∈ l, (∀ a ∈ p.1.args, a.Wf) ∧ p.1.Tight) (out : Str) :
    ∃ e s, Reads (statement sp (.logvar (.leaf (.var i)) :: l.map (·.1))) e ∧ run E e ⟨false, out⟩ = some s ∧
      Logger.Record.cstr s.out = Logger.Record.cstr (out ++ (lit " " ++ sp [.leaf (.var i)] ++ lit "=")) := by
  have hn : IsNum E (.leaf (.var i)) .uchar 0 := ⟨by simp [kind, ht], fun s => by simp [value, ht, hv]⟩
  obtain ⟨e, h1, _, h3⟩ := C144_values_partial E sp ((.logvar (.leaf (.var i)), lit " " ++ sp [.leaf (.var i)] ++ lit "=" ++ decimal .uchar 0) :: l)
    (by intro p hp; rcases List.mem_cons.1 hp with rfl | hp; exact .logvar hn; exact h p hp)
    (by
      intro p hp
      rcases List.mem_cons.1 hp with rfl | hp
      · exact ⟨fun a ha => by simp [Item.args] at ha; subst ha; trivial, by simp [Item.Tight, Expr.level]⟩
      · exact hw p hp) out
  refine ⟨e, _, h1, h3, ?_⟩
  have hd : decimal .uchar 0 = [0] := by decide
  simp only [List.flatMap_cons, hd, Logger.Record.cstr]
  rw [show out ++ (lit " " ++ sp [.leaf (.var i)] ++ lit "=" ++ [0] ++ l.flatMap (·.2)) = out ++ (lit " " ++ sp [.leaf (.var i)] ++ lit "=") ++ 0 :: l.flatMap (·.2) by simp]
  generalize out ++ (lit " " ++ sp [.leaf (.var i)] ++ lit "=") = p
  induction p with
  | nil => simp
  | cons c p ih =>
    simp only [List.cons_append, List.takeWhile_cons]
    split
    · rw [ih]
    · rfl

/-- Three variables: an `int` -16, an `int` 2, a `short` 7. -/
def sample : Env := ⟨fun i => if i = 2 then .short else .int, fun i => if i = 0 then -16 else if i = 1 then 2 else 7, none⟩
def v0 : Expr := .leaf (.var 0)
def v1 : Expr := .leaf (.var 1)
def v2 : Expr := .leaf (.var 2)

/-- `LOGHEX` casts only the first operand of its argument: `LOGHEX(a >> b)` with a negative `a` prints another number than `a >> b`; `LOGHEX2` prints it. -/
theorem C144_hex_refuted : ∃ (E : Env) (sp : List Tok → Str) (v : Expr) (x : Int) (e : Expr) (s : Stream),
    v.Wf ∧ IsNum E v .int x ∧ Reads (statement sp [.loghex v]) e ∧ (∀ e', Reads (statement sp [.loghex v]) e' → e' = e) ∧ run E e ⟨false, []⟩ = some s ∧ ¬ Shows E sp (.loghex v) s.out := by
  have hn : IsNum sample (.bin .shr v0 v1) .int (-4) := ⟨by decide, fun s => by simp [value, v0, v1, sample, arith, Ty.promote, Ty.bits]⟩
  have hr : Reads (statement (fun _ => lit "a>>b") [.loghex (.bin .shr v0 v1)])
      (chain (.leaf .os) [.paren (.leaf (.text (lit " a>>b=0x"))), .leaf (.base true), .paren (.bin .shr (.cast v0) v1), .leaf (.base false)]) :=
    ⟨by simp [chain, Expr.Wf, Expr.level, Bin.prec, v0, v1], by decide⟩
  refine ⟨sample, fun _ => lit "a>>b", .bin .shr v0 v1, -4, _, ⟨false, lit " a>>b=0x3ffffffffffffffc"⟩, by simp [Expr.Wf, Expr.level, Bin.prec, v0, v1], hn, hr, fun e' h => unambiguous h hr,
    by decide +kernel, ?_⟩
  intro h
  generalize ho : (⟨false, lit " a>>b=0x3ffffffffffffffc"⟩ : Stream).out = o at h
  cases h with
  | @loghex _ t x hx =>
    have h1 := hx.2 ⟨false, []⟩
    rw [hn.2] at h1
    simp only [Option.some.injEq, Prod.mk.injEq, Val.num.injEq, and_true] at h1
    obtain ⟨rfl, rfl⟩ := h1
    revert ho
    decide +kernel

/-- `LOG(INFO) << "cell" << LOGVAR(a) << LOGHEX(b) << LOGVAR2("n", a >> b) << LOGVARRANGE("c", c, b, a ? b : c)` -/
example : ∃ e, Reads (statement (fun ts => if ts = [.leaf (.var 0)] then lit "a" else lit "b")
      [.text (lit "cell"), .logvar v0, .loghex v1, .logvar2 (lit "n") (.bin .shr v0 v1), .range (lit "c") v2 v1 (.cond v0 v1 v2)]) e ∧
    run sample e ⟨false, []⟩ = some ⟨false, lit "cell a=-16 b=0x2 n=-4 c=(7 range:2 to 2)"⟩ :=
  ⟨chain (.leaf .os) ([.text (lit "cell"), .logvar v0, .loghex v1, .logvar2 (lit "n") (.bin .shr v0 v1), .range (lit "c") v2 v1 (.cond v0 v1 v2)].flatMap
      (Item.ops (fun ts => if ts = [.leaf (.var 0)] then lit "a" else lit "b"))),
    ⟨by simp [chain, Item.ops, Expr.Wf, Expr.level, Bin.prec, v0, v1, v2], by decide +kernel⟩, by decide +kernel⟩

/-- The hypotheses of the partial theorem hold for it. -/
example : IsNum sample (.cond v0 v1 v2) .int 2 ∧ IsNum sample (.bin .shr v0 v1) .int (-4) ∧ (Expr.cond v0 v1 v2).Wf ∧ (Item.range (lit "c") v2 v1 (.cond v0 v1 v2)).Tight :=
  ⟨⟨by decide, fun s => by simp [value, kind, v0, v1, v2, sample, Val.truth, Kind.isCond, Ty.common, Ty.promote, Ty.conv, Ty.min, Ty.isSigned, Ty.bits]⟩,
    ⟨by decide, fun s => by simp [value, v0, v1, sample, arith, Ty.promote, Ty.bits]⟩, by simp [Expr.Wf, Expr.level, v0, v1, v2], trivial⟩

/-- `LOGVAR(a ? b : c)` prints -16, though the value is 2; `LOGVAR(b << b)` prints 22, though the value is 8. -/
example : run sample (.cond (chain (.leaf .os) [.paren (.leaf (.text (lit " x="))), v0]) v1 v2) ⟨false, []⟩ = some ⟨false, lit " x=-16"⟩ ∧
    (value sample (.cond v0 v1 v2) ⟨false, []⟩).map (·.1) = some (.num .int 2) ∧
    run sample (chain (.leaf .os) [.paren (.leaf (.text (lit " x="))), v1, v1]) ⟨false, []⟩ = some ⟨false, lit " x=22"⟩ ∧
    (value sample (.bin .shl v1 v1) ⟨false, []⟩).map (·.1) = some (.num .int 8) := by decide +kernel

/-- An `unsigned` and a negative `int` are compared as `unsigned` numbers; a small `short` minus another is an `int`. -/
example : arith .lt .uint 1 .int (-1) = some (.num .bool 1) ∧ arith .lt .int 1 .int (-1) = some (.num .bool 0) ∧ arith .sub .ushort 0 .ushort 1 = some (.num .int (-1)) ∧
    arith .sub .uint 0 .uint 1 = some (.num .uint 4294967295) ∧ arith .add .int 2147483647 .int 1 = none ∧ arith .band .int (-1) .int 255 = some (.num .int 255) := by decide +kernel

end Verif.Macros.Values
