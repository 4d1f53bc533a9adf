import Verif.Core.Str

/-
C126: the macros written as statements: `LOG`, `OBJLOG`, `LOG_ASSERT`, `WATCH`, `WATCHF`, `WATCHINFO`, `WATCHLEVEL` (`Logger.h:64-116`), `devassert` (`Defines.h:46`), `COUT` and `CERR`
(`Threads.h:55-56`).

The preprocessor replaces a macro by tokens, and only then the compiler reads statements.  The model has these two steps: a program is a tree in which a macro is a statement like any other
(what its writer meant), `toks` is its text with the macros replaced, and `parseS` reads statements as C++ does, an `else` belonging to the nearest `if` before it that has none
([stmt.if] of the standard).  Conditions and expressions are names, whose evaluation is given by an environment: they may change the state, and an expression may end the process.
`assert` is active (no `NDEBUG`).  Left out: the other statements of C++ (loops are read like `if` without `else`), declarations, and the reading of expressions: an argument is one expression.
-/

namespace Verif.Macros

/-- Conditions: of the program, `IS_LOG_LEVEL`, `IS_WATCH_LEVEL` (Logger.h:64-68), and `!(x)` of Logger.h:108 and Defines.h:46. -/
inductive Cond where
  | user (n : Nat)
  | isLog (l : Nat)
  | isWatch (l : Nat)
  | not (x : Nat)
  deriving DecidableEq

/-- Expressions: of the program, a log record with its arguments (`_LOG`, Logger.h:56-58), the log record of a failed assertion, a print on the console, the time stamp of `WATCHF`, `assert`,
locking and unlocking the console. -/
inductive Ex where
  | user (n : Nat)
  | log (l a : Nat)
  | failed (l x : Nat)
  | print (a : Nat)
  | stamp
  | asrt (x : Nat)
  | lock
  | unlock
  deriving DecidableEq

/-- Tokens: `if (c)`, `else`, `{`, `}`, `;` and expressions. -/
inductive Tok where
  | ifc (c : Cond)
  | els
  | lb
  | rb
  | semi
  | ex (e : Ex)
  deriving DecidableEq

/-- Uses of the macros. -/
inductive Mac where
  | log (l a : Nat)
  | watchLevel (l a : Nat)
  | watch (a : Nat)
  | watchInfo (a : Nat)
  | watchF (a : Nat)
  | cout (a : Nat)
  | devassert (x : Nat)
  | logAssert (x : Nat)
  deriving DecidableEq

/-- What the preprocessor puts for a macro: `LOG` and `OBJLOG` (Logger.h:75-76,105-106), `WATCHLEVEL` (Logger.h:114), `WATCH` (Logger.h:115), `WATCHINFO` (Logger.h:116), `WATCHF` (Logger.h:113),
`COUT` and `CERR` (Threads.h:55-56), `devassert` (Defines.h:46), `LOG_ASSERT` (Logger.h:108). -/
def Mac.body : Mac → List Tok
  | .log l a => [.ifc (.isLog l), .ex (.log l a)]
  | .watchLevel l a => [.ifc (.isWatch l), .lb, .ex (.print a), .semi, .rb]
  | .watch a => [.lb, .ifc (.isLog 7), .ex (.log 7 a), .semi, .ifc (.isWatch 7), .lb, .ex (.print a), .semi, .rb, .rb]
  | .watchInfo a => [.lb, .ifc (.isLog 6), .ex (.log 6 a), .semi, .ifc (.isWatch 6), .lb, .ex (.print a), .semi, .rb, .rb]
  | .watchF a => [.lb, .ifc (.isLog 7), .ex (.log 7 a), .semi, .ifc (.isWatch 7), .lb, .ex .stamp, .semi, .ex (.print a), .semi, .rb, .rb]
  | .cout a => [.lb, .ex .lock, .semi, .ex (.print a), .semi, .ex .unlock, .semi, .rb]
  | .devassert x => [.lb, .ifc (.isLog 7), .lb, .ex (.asrt x), .semi, .rb, .els, .ifc (.not x), .lb, .ifc (.isLog 3), .ex (.failed 3 x), .semi, .rb, .rb]
  | .logAssert x => [.lb, .ifc (.not x), .ifc (.isLog 0), .ex (.failed 0 x), .semi, .rb, .ex (.asrt x), .semi]

/-! ### Programs as written -/

mutual
/-- Statements as their writer means them; macros and expressions are followed by `;`. -/
inductive Src where
  | mac (m : Mac)
  | ex (n : Nat)
  | ifThen (c : Nat) (s : Src)
  | ifElse (c : Nat) (s t : Src)
  | block (l : Srcs)
inductive Srcs where
  | nil
  | cons (s : Src) (l : Srcs)
end

mutual
/-- The text of a statement, with the macros replaced. -/
def Src.toks : Src → List Tok
  | .mac m => m.body ++ [.semi]
  | .ex n => [.ex (.user n), .semi]
  | .ifThen c s => .ifc (.user c) :: s.toks
  | .ifElse c s t => .ifc (.user c) :: (s.toks ++ .els :: t.toks)
  | .block l => .lb :: (l.toks ++ [.rb])
def Srcs.toks : Srcs → List Tok
  | .nil => []
  | .cons s l => s.toks ++ l.toks
end

/-! ### Reading statements -/

mutual
/-- Statements as the compiler reads them. -/
inductive Stmt where
  | ex (e : Ex)
  | empty
  | ifThen (c : Cond) (s : Stmt)
  | ifElse (c : Cond) (s t : Stmt)
  | block (l : Stmts)
inductive Stmts where
  | nil
  | cons (s : Stmt) (l : Stmts)
end

mutual
/-- Reads one statement; `none` if there is none, a compile error.  The number only bounds the depth. -/
def parseS : Nat → List Tok → Option (Stmt × List Tok)
  | 0, _ => none
  | n + 1, ts => match ts with
    | .ex e :: .semi :: r => some (.ex e, r)
    | .semi :: r => some (.empty, r)
    | .lb :: r => (parseL n r).bind fun p => some (.block p.1, p.2)
    | .ifc c :: r => (parseS n r).bind fun p => match p.2 with
      | .els :: r2 => (parseS n r2).bind fun q => some (.ifElse c p.1 q.1, q.2)
      | _ => some (.ifThen c p.1, p.2)
    | _ => none
/-- Reads statements up to `}`. -/
def parseL : Nat → List Tok → Option (Stmts × List Tok)
  | 0, _ => none
  | n + 1, ts => match ts with
    | .rb :: r => some (.nil, r)
    | _ => (parseS n ts).bind fun p => (parseL n p.2).bind fun q => some (.cons p.1 q.1, q.2)
end

/-- The body of a function, `{`, the statements and `}`, is read as `st`. -/
def Compiles (l : Srcs) (st : Stmts) : Prop := ∃ n, parseL n (l.toks ++ [.rb]) = some (st, [])

/-! ### Running -/

/-- Evaluation of conditions and expressions; `none`: the process ends. -/
structure Env (W : Type) where
  cond : Cond → W → Bool × W
  ex : Ex → W → Option W

mutual
/-- Runs a statement. -/
def run {W : Type} (E : Env W) : Stmt → W → Option W
  | .ex e, w => E.ex e w
  | .empty, w => some w
  | .ifThen c s, w => if (E.cond c w).1 then run E s (E.cond c w).2 else some (E.cond c w).2
  | .ifElse c s t, w => if (E.cond c w).1 then run E s (E.cond c w).2 else run E t (E.cond c w).2
  | .block l, w => runL E l w
def runL {W : Type} (E : Env W) : Stmts → W → Option W
  | .nil, w => some w
  | .cons s l, w => (run E s w).bind (runL E l)
end

/-! ### Specification -/

/-- Specification: do something if a condition holds. -/
def when {W : Type} (E : Env W) (c : Cond) (f : W → Option W) (w : W) : Option W := if (E.cond c w).1 then f (E.cond c w).2 else some (E.cond c w).2

/-- Specification: what each macro is for. -/
def means {W : Type} (E : Env W) : Mac → W → Option W
  | .log l a, w => when E (.isLog l) (E.ex (.log l a)) w
  | .watchLevel l a, w => when E (.isWatch l) (E.ex (.print a)) w
  | .watch a, w => (when E (.isLog 7) (E.ex (.log 7 a)) w).bind (when E (.isWatch 7) (E.ex (.print a)))
  | .watchInfo a, w => (when E (.isLog 6) (E.ex (.log 6 a)) w).bind (when E (.isWatch 6) (E.ex (.print a)))
  | .watchF a, w => (when E (.isLog 7) (E.ex (.log 7 a)) w).bind (when E (.isWatch 7) fun w => (E.ex .stamp w).bind (E.ex (.print a)))
  | .cout a, w => (E.ex .lock w).bind fun w => (E.ex (.print a) w).bind (E.ex .unlock)
  | .devassert x, w => if (E.cond (.isLog 7) w).1 then E.ex (.asrt x) (E.cond (.isLog 7) w).2
      else when E (.not x) (when E (.isLog 3) (E.ex (.failed 3 x))) (E.cond (.isLog 7) w).2
  | .logAssert x, w => (when E (.not x) (when E (.isLog 0) (E.ex (.failed 0 x))) w).bind (E.ex (.asrt x))

mutual
/-- Specification: what the program means, macros being statements. -/
def meant {W : Type} (E : Env W) : Src → W → Option W
  | .mac m, w => means E m w
  | .ex n, w => E.ex (.user n) w
  | .ifThen c s, w => when E (.user c) (meant E s) w
  | .ifElse c s t, w => if (E.cond (.user c) w).1 then meant E s (E.cond (.user c) w).2 else meant E t (E.cond (.user c) w).2
  | .block l, w => meantL E l w
def meantL {W : Type} (E : Env W) : Srcs → W → Option W
  | .nil, w => some w
  | .cons s l, w => (meant E s w).bind (meantL E l)
end

/-- Specification: the macro at the end of the text of a statement. -/
def Src.last : Src → Option Mac
  | .mac m => some m
  | .ex _ => none
  | .ifThen _ s => s.last
  | .ifElse _ _ t => t.last
  | .block _ => none

/-- Specification: the text of the statement ends with the statement of an `if` without `else`. -/
def Src.dangling : Src → Bool
  | .ifThen _ _ => true
  | .ifElse _ _ t => t.dangling
  | _ => false

/-- Specification: `LOG` at the end of a statement. -/
def Mac.isLog : Mac → Bool
  | .log _ _ => true
  | _ => false

/-- Specification: `LOG_ASSERT`. -/
def Mac.isAssert : Mac → Bool
  | .logAssert _ => true
  | _ => false

mutual
/-- Specification: the text is that of the program (no `else` after an `if` that has none), no `LOG` stands before an `else`, and no `LOG_ASSERT` directly in an `if`. -/
def Src.Fine : Src → Prop
  | .mac _ => True
  | .ex _ => True
  | .ifThen _ s => s.Fine ∧ ∀ m, s.last = some m → m.isAssert = false
  | .ifElse _ s t => s.Fine ∧ t.Fine ∧ s.dangling = false ∧ (∀ m, s.last = some m → m.isLog = false ∧ m.isAssert = false) ∧ ∀ m, t.last = some m → m.isAssert = false
  | .block l => l.Fine
def Srcs.Fine : Srcs → Prop
  | .nil => True
  | .cons s l => s.Fine ∧ l.Fine
end

mutual
/-- Specification: no macro stands before an `else`. -/
def Src.Apart : Src → Prop
  | .mac _ => True
  | .ex _ => True
  | .ifThen _ s => s.Apart
  | .ifElse _ s t => s.Apart ∧ t.Apart ∧ s.last = none
  | .block l => l.Apart
def Srcs.Apart : Srcs → Prop
  | .nil => True
  | .cons s l => s.Apart ∧ l.Apart
end

/-! ### How the text is read -/

/-- The tokens left over when the statement of a macro has been read. -/
def Mac.left : Mac → List Tok
  | .log _ _ => []
  | .logAssert x => [.ex (.asrt x), .semi, .semi]
  | _ => [.semi]

/-- These, as statements. -/
def Mac.after : Mac → List Stmt
  | .log _ _ => []
  | .logAssert x => [.ex (.asrt x), .empty]
  | _ => [.empty]

/-- The statement of a macro. -/
def Mac.tr : Mac → Stmt
  | .log l a => .ifThen (.isLog l) (.ex (.log l a))
  | .watchLevel l a => .ifThen (.isWatch l) (.block (.cons (.ex (.print a)) .nil))
  | .watch a => .block (.cons (.ifThen (.isLog 7) (.ex (.log 7 a))) (.cons (.ifThen (.isWatch 7) (.block (.cons (.ex (.print a)) .nil))) .nil))
  | .watchInfo a => .block (.cons (.ifThen (.isLog 6) (.ex (.log 6 a))) (.cons (.ifThen (.isWatch 6) (.block (.cons (.ex (.print a)) .nil))) .nil))
  | .watchF a => .block (.cons (.ifThen (.isLog 7) (.ex (.log 7 a))) (.cons (.ifThen (.isWatch 7) (.block (.cons (.ex .stamp) (.cons (.ex (.print a)) .nil)))) .nil))
  | .cout a => .block (.cons (.ex .lock) (.cons (.ex (.print a)) (.cons (.ex .unlock) .nil)))
  | .devassert x => .block (.cons (.ifElse (.isLog 7) (.block (.cons (.ex (.asrt x)) .nil)) (.ifThen (.not x) (.block (.cons (.ifThen (.isLog 3) (.ex (.failed 3 x))) .nil)))) .nil)
  | .logAssert x => .block (.cons (.ifThen (.not x) (.ifThen (.isLog 0) (.ex (.failed 0 x)))) .nil)

def leftOf : Option Mac → List Tok
  | none => []
  | some m => m.left

def afterOf : Option Mac → List Stmt
  | none => []
  | some m => m.after

def prepend : List Stmt → Stmts → Stmts
  | [], l => l
  | s :: a, l => .cons s (prepend a l)

mutual
def Src.tr : Src → Stmt
  | .mac m => m.tr
  | .ex n => .ex (.user n)
  | .ifThen c s => .ifThen (.user c) s.tr
  | .ifElse c s t => .ifElse (.user c) s.tr t.tr
  | .block l => .block l.tr
def Srcs.tr : Srcs → Stmts
  | .nil => .nil
  | .cons s l => .cons s.tr (prepend (afterOf s.last) l.tr)
end

theorem parseS_ex (n : Nat) (e : Ex) (r : List Tok) : parseS (n + 1) (.ex e :: .semi :: r) = some (.ex e, r) := rfl

theorem parseS_semi (n : Nat) (r : List Tok) : parseS (n + 1) (.semi :: r) = some (.empty, r) := rfl

theorem parseS_lb (n : Nat) (r : List Tok) : parseS (n + 1) (.lb :: r) = (parseL n r).bind fun p => some (.block p.1, p.2) := rfl

theorem parseS_if (n : Nat) (c : Cond) (r : List Tok) : parseS (n + 1) (.ifc c :: r) = (parseS n r).bind fun p => match p.2 with
      | .els :: r2 => (parseS n r2).bind fun q => some (.ifElse c p.1 q.1, q.2)
      | _ => some (.ifThen c p.1, p.2) := rfl

theorem parseL_rb (n : Nat) (r : List Tok) : parseL (n + 1) (.rb :: r) = some (.nil, r) := rfl

theorem parseL_cons (n : Nat) {t : Tok} (h : t ≠ .rb) (ts : List Tok) :
    parseL (n + 1) (t :: ts) = (parseS n (t :: ts)).bind fun p => (parseL n p.2).bind fun q => some (.cons p.1 q.1, q.2) := by
  cases t <;> first | rfl | exact absurd rfl h

/-- More depth does not change what is read. -/
theorem parse_mono (n : Nat) : (∀ ts x, parseS n ts = some x → parseS (n + 1) ts = some x) ∧ ∀ ts x, parseL n ts = some x → parseL (n + 1) ts = some x := by
  induction n with
  | zero => exact ⟨fun _ _ h => by simp [parseS] at h, fun _ _ h => by simp [parseL] at h⟩
  | succ n ih =>
    obtain ⟨ih1, ih2⟩ := ih
    constructor
    · intro ts x h
      rw [parseS.eq_def] at h ⊢
      dsimp only at h ⊢
      split at h
      · exact h
      · exact h
      · next r =>
        obtain ⟨p, hp, h⟩ := Option.bind_eq_some_iff.1 h
        rw [ih2 _ _ hp]
        exact h
      · next c r =>
        obtain ⟨p, hp, h⟩ := Option.bind_eq_some_iff.1 h
        rw [ih1 _ _ hp]
        simp only [Option.bind_some]
        split at h
        · next r2 e =>
          obtain ⟨q, hq, h⟩ := Option.bind_eq_some_iff.1 h
          rw [ih1 _ _ hq]
          exact h
        · exact h
      · cases h
    · intro ts x h
      rw [parseL.eq_def] at h ⊢
      dsimp only at h ⊢
      split at h
      · exact h
      · next hn =>
        obtain ⟨p, hp, h⟩ := Option.bind_eq_some_iff.1 h
        obtain ⟨q, hq, h⟩ := Option.bind_eq_some_iff.1 h
        rw [ih1 _ _ hp]
        simp only [Option.bind_some]
        rw [ih2 _ _ hq]
        exact h

theorem parseS_le {n m : Nat} (h : n ≤ m) {ts x} (e : parseS n ts = some x) : parseS m ts = some x := by
  induction h with
  | refl => exact e
  | step _ ih => exact (parse_mono _).1 _ _ ih

theorem parseL_le {n m : Nat} (h : n ≤ m) {ts x} (e : parseL n ts = some x) : parseL m ts = some x := by
  induction h with
  | refl => exact e
  | step _ ih => exact (parse_mono _).2 _ _ ih

theorem parseS_unique {n m : Nat} {ts x y} (h : parseS n ts = some x) (h' : parseS m ts = some y) : x = y := by
  have a := parseS_le (Nat.le_max_left n m) h
  rw [parseS_le (Nat.le_max_right n m) h'] at a
  exact (Option.some.inj a).symm

theorem parseL_unique {n m : Nat} {ts x y} (h : parseL n ts = some x) (h' : parseL m ts = some y) : x = y := by
  have a := parseL_le (Nat.le_max_left n m) h
  rw [parseL_le (Nat.le_max_right n m) h'] at a
  exact (Option.some.inj a).symm

/-- The statement of a macro and what is left over; `LOG` must not be followed by `else`. -/
theorem parse_mac (m : Mac) (r : List Tok) (h : m.isLog = true → r.head? ≠ some .els) : parseS 9 (m.body ++ .semi :: r) = some (m.tr, m.left ++ r) := by
  cases m
  case log l a =>
    cases r with
    | nil => rfl
    | cons t r =>
      cases t <;> first | rfl | exact absurd rfl (h rfl)
  all_goals rfl

theorem body_head (m : Mac) : ∃ t r, m.body = t :: r ∧ t ≠ .els ∧ t ≠ .rb := by cases m <;> exact ⟨_, _, rfl, by simp, by simp⟩

theorem toks_head (s : Src) : ∃ t r, s.toks = t :: r ∧ t ≠ .els ∧ t ≠ .rb := by
  cases s with
  | mac m =>
    obtain ⟨t, r, e, h⟩ := body_head m
    exact ⟨t, r ++ [.semi], by rw [Src.toks, e]; rfl, h⟩
  | ex n => exact ⟨_, _, rfl, by simp, by simp⟩
  | ifThen c s => exact ⟨_, _, rfl, by simp, by simp⟩
  | ifElse c s t => exact ⟨_, _, rfl, by simp, by simp⟩
  | block l => exact ⟨_, _, rfl, by simp, by simp⟩

theorem toksL_head (l : Srcs) (r : List Tok) : (l.toks ++ .rb :: r).head? ≠ some .els := by
  cases l with
  | nil => simp [Srcs.toks]
  | cons s l =>
    obtain ⟨t, r', e, h, -⟩ := toks_head s
    rw [Srcs.toks, e]
    simpa using h

theorem left_head {o : Option Mac} {r : List Tok} (h : o = none ∨ (∃ m, o = some m ∧ m.isLog = true) → r.head? ≠ some .els) : (leftOf o ++ r).head? ≠ some .els := by
  cases o with
  | none => exact h (.inl rfl)
  | some m =>
    cases m
    case log l a => exact h (.inr ⟨_, rfl, rfl⟩)
    all_goals simp [leftOf, Mac.left]

theorem left_semi {m : Mac} (h1 : m.isLog = false) (h2 : m.isAssert = false) : m.left = [.semi] := by
  cases m <;> simp_all [Mac.isLog, Mac.isAssert, Mac.left]

/-- Reading the tokens left over. -/
theorem parseL_left (o : Option Mac) (ts : List Tok) (n : Nat) (st : Stmts) (r : List Tok) (h : parseL n ts = some (st, r)) :
    ∃ m, parseL m (leftOf o ++ ts) = some (prepend (afterOf o) st, r) := by
  cases o with
  | none => exact ⟨n, h⟩
  | some m =>
    have h1 := parseL_le (Nat.le_succ n) h
    cases m
    case log l a => exact ⟨n, h⟩
    case logAssert x =>
      refine ⟨n + 3, ?_⟩
      show parseL (n + 2 + 1) (.ex (.asrt x) :: .semi :: .semi :: ts) = _
      rw [parseL_cons _ (by simp), parseS_ex]
      simp only [Option.bind_some]
      rw [parseL_cons _ (by simp), parseS_semi]
      simp only [Option.bind_some]
      rw [h1]
      rfl
    all_goals
      refine ⟨n + 2, ?_⟩
      show parseL (n + 1 + 1) (.semi :: ts) = _
      rw [parseL_cons _ (by simp), parseS_semi]
      simp only [Option.bind_some]
      rw [h1]
      rfl

theorem parseL_left_none (o : Option Mac) (ts : List Tok) (h : ∀ n, parseL n ts = none) (n : Nat) : parseL n (leftOf o ++ ts) = none := by
  have semi : ∀ n ts, (∀ n, parseL n ts = none) → parseL n (.semi :: ts) = none := by
    intro n ts h
    match n with
    | 0 => rfl
    | 1 => rfl
    | n + 2 =>
      rw [parseL_cons _ (by simp), parseS_semi]
      simp only [Option.bind_some]
      rw [h]
      rfl
  cases o with
  | none => exact h n
  | some m =>
    cases m
    case log l a => exact h n
    case logAssert x =>
      match n with
      | 0 => rfl
      | 1 => rfl
      | n + 2 =>
        show parseL (n + 1 + 1) (.ex (.asrt x) :: .semi :: .semi :: ts) = _
        rw [parseL_cons _ (by simp), parseS_ex]
        simp only [Option.bind_some]
        rw [semi (n + 1) ts h]
        rfl
    all_goals exact semi n ts h

/-- The tokens after a statement that ends with an `if` without `else`, or `LOG`, must not begin with `else`. -/
def Follows (s : Src) (r : List Tok) : Prop := (s.dangling = true ∨ ∃ m, s.last = some m ∧ m.isLog = true) → r.head? ≠ some .els

mutual
/-- A statement without macros before `else` is read as meant, up to tokens left over. -/
theorem parse_src : (s : Src) → s.Fine → s.Apart → (r : List Tok) → Follows s r → ∃ n, parseS n (s.toks ++ r) = some (s.tr, leftOf s.last ++ r)
  | .mac m, _, _, r, h => ⟨9, by
      rw [Src.toks, List.append_assoc]
      exact parse_mac m r fun e => h (.inr ⟨m, rfl, e⟩)⟩
  | .ex n, _, _, r, _ => ⟨1, rfl⟩
  | .ifThen c s, hf, ha, r, h => by
    have hr : r.head? ≠ some .els := h (.inl rfl)
    obtain ⟨n, hn⟩ := parse_src s hf.1 ha r fun _ => hr
    refine ⟨n + 1, ?_⟩
    rw [Src.toks, List.cons_append, parseS_if, hn]
    simp only [Option.bind_some]
    split
    · next r2 e => exact absurd (by rw [e]; rfl) (left_head (o := s.last) fun _ => hr)
    · rfl
  | .ifElse c s t, hf, ha, r, h => by
    obtain ⟨hfs, hft, hd, -, -⟩ := hf
    obtain ⟨has, hat, hl⟩ := ha
    obtain ⟨n, hn⟩ := parse_src s hfs has (.els :: (t.toks ++ r)) (by
      rintro (e | ⟨m, e, -⟩)
      · rw [hd] at e; cases e
      · rw [hl] at e; cases e)
    obtain ⟨k, hk⟩ := parse_src t hft hat r fun e => h e
    refine ⟨max n k + 1, ?_⟩
    rw [Src.toks, List.cons_append, List.append_assoc, List.cons_append, parseS_if, parseS_le (Nat.le_max_left n k) hn, hl]
    simp only [Option.bind_some, leftOf, List.nil_append]
    rw [parseS_le (Nat.le_max_right n k) hk]
    rfl
  | .block l, hf, ha, r, _ => by
    obtain ⟨n, hn⟩ := parse_srcs l hf ha r
    refine ⟨n + 1, ?_⟩
    rw [Src.toks, List.cons_append, List.append_assoc, List.singleton_append, parseS_lb, hn]
    rfl
theorem parse_srcs : (l : Srcs) → l.Fine → l.Apart → (r : List Tok) → ∃ n, parseL n (l.toks ++ .rb :: r) = some (l.tr, r)
  | .nil, _, _, _ => ⟨1, rfl⟩
  | .cons s l, hf, ha, r => by
    obtain ⟨n, hn⟩ := parse_src s hf.1 ha.1 (l.toks ++ .rb :: r) fun _ => toksL_head l r
    obtain ⟨k, hk⟩ := parse_srcs l hf.2 ha.2 r
    obtain ⟨j, hj⟩ := parseL_left s.last _ k _ _ hk
    refine ⟨max n j + 1, ?_⟩
    obtain ⟨t, r', e, -, ht⟩ := toks_head s
    have hn' := parseS_le (Nat.le_max_left n j) hn
    rw [Srcs.toks, List.append_assoc]
    rw [e, List.cons_append] at hn' ⊢
    rw [parseL_cons _ ht, hn']
    simp only [Option.bind_some]
    rw [parseL_le (Nat.le_max_right n j) hj]
    rfl
end

theorem left_none {o : Option Mac} (h : ∀ m, o = some m → m.isLog = false ∧ m.isAssert = false) (hn : o ≠ none) : leftOf o = [.semi] := by
  cases o with
  | none => exact absurd rfl hn
  | some m => exact left_semi (h m rfl).1 (h m rfl).2

theorem parseL_else (n : Nat) (r : List Tok) : parseL n (.semi :: .els :: r) = none := by
  match n with
  | 0 => rfl
  | 1 => rfl
  | 2 => rfl
  | n + 3 => rfl

mutual
/-- A macro before `else`: at the latest the next statement cannot be read. -/
theorem parse_bad : (s : Src) → s.Fine → ¬ s.Apart → (r : List Tok) → (n : Nat) → (p : Stmt × List Tok) → parseS n (s.toks ++ r) = some p → ∃ r', p.2 = .semi :: .els :: r'
  | .mac m, _, h, _, _, _, _ => absurd trivial h
  | .ex n, _, h, _, _, _, _ => absurd trivial h
  | .ifThen c s, hf, ha, r, 0, p, hp => by cases hp
  | .ifThen c s, hf, ha, r, n + 1, p, hp => by
    rw [Src.toks, List.cons_append, parseS_if] at hp
    obtain ⟨q, hq, hp⟩ := Option.bind_eq_some_iff.1 hp
    obtain ⟨r', e⟩ := parse_bad s hf.1 ha r n q hq
    rw [e] at hp
    cases hp
    exact ⟨r', rfl⟩
  | .ifElse c s t, hf, ha, r, 0, p, hp => by cases hp
  | .ifElse c s t, hf, ha, r, n + 1, p, hp => by
    obtain ⟨hfs, hft, hd, hl, -⟩ := hf
    rw [Src.toks, List.cons_append, List.append_assoc, List.cons_append, parseS_if] at hp
    obtain ⟨q, hq, hp⟩ := Option.bind_eq_some_iff.1 hp
    by_cases has : s.Apart
    · obtain ⟨k, hk⟩ := parse_src s hfs has (.els :: (t.toks ++ r)) (by
        rintro (e | ⟨m, e, h⟩)
        · rw [hd] at e; cases e
        · rw [(hl m e).1] at h; cases h)
      have e := parseS_unique hq hk
      subst e
      by_cases hn : s.last = none
      · rw [hn] at hp
        simp only [leftOf, List.nil_append] at hp
        obtain ⟨x, hx, hp⟩ := Option.bind_eq_some_iff.1 hp
        obtain ⟨r', e⟩ := parse_bad t hft (fun h => ha ⟨has, h, hn⟩) r n x hx
        cases hp
        exact ⟨r', e⟩
      · rw [left_none hl hn] at hp
        cases hp
        exact ⟨_, rfl⟩
    · obtain ⟨r', e⟩ := parse_bad s hfs has _ n q hq
      rw [e] at hp
      cases hp
      exact ⟨r', rfl⟩
  | .block l, hf, ha, r, 0, p, hp => by cases hp
  | .block l, hf, ha, r, n + 1, p, hp => by
    rw [Src.toks, List.cons_append, List.append_assoc, List.singleton_append, parseS_lb, parse_bads l hf ha r n] at hp
    cases hp
theorem parse_bads : (l : Srcs) → l.Fine → ¬ l.Apart → (r : List Tok) → (n : Nat) → parseL n (l.toks ++ .rb :: r) = none
  | .nil, _, h, _, _ => absurd trivial h
  | .cons s l, hf, ha, r, 0 => rfl
  | .cons s l, hf, ha, r, n + 1 => by
    obtain ⟨t, r', e, -, ht⟩ := toks_head s
    rw [Srcs.toks, List.append_assoc, e, List.cons_append, parseL_cons _ ht, ← List.cons_append, ← e]
    cases hp : parseS n (s.toks ++ (l.toks ++ .rb :: r)) with
    | none => rfl
    | some p =>
      simp only [Option.bind_some]
      by_cases has : s.Apart
      · obtain ⟨k, hk⟩ := parse_src s hf.1 has (l.toks ++ .rb :: r) fun _ => toksL_head l r
        rw [parseS_unique hp hk]
        simp only
        rw [parseL_left_none _ _ fun m => parse_bads l hf.2 (fun h => ha ⟨has, h⟩) r m]
        rfl
      · obtain ⟨r2, e2⟩ := parse_bad s hf.1 has _ n p hp
        rw [e2, parseL_else]
        rfl
end

/-! ### Running what is read -/

theorem run_mac {W : Type} (E : Env W) (m : Mac) (h : m.isAssert = false) (w : W) : run E m.tr w = means E m w := by
  have single : ∀ x : Option W, (x.bind fun w => some w) = x := fun x => by cases x <;> rfl
  cases m
  case logAssert x => cases h
  all_goals (simp only [Mac.tr, run, runL, means, when, single]; try rfl)

theorem run_prepend {W : Type} (E : Env W) (o : Option Mac) (h : ∀ m, o = some m → m.isAssert = false) (l : Stmts) (w : W) : runL E (prepend (afterOf o) l) w = runL E l w := by
  cases o with
  | none => rfl
  | some m =>
    have h := h m rfl
    cases m
    case logAssert x => cases h
    all_goals rfl

/-- `LOG_ASSERT` stands alone. -/
theorem fine_assert {s : Src} {m : Mac} (hf : s.Fine) (hl : s.last = some m) (ha : m.isAssert = true) : s = .mac m := by
  cases s with
  | mac n => cases hl; rfl
  | ex n => cases hl
  | ifThen c s => rw [hf.2 m hl] at ha; cases ha
  | ifElse c s t => rw [hf.2.2.2.2 m hl] at ha; cases ha
  | block l => cases hl

mutual
theorem run_src {W : Type} (E : Env W) : (s : Src) → s.Fine → (∀ m, s.last = some m → m.isAssert = false) → (w : W) → run E s.tr w = meant E s w
  | .mac m, _, h, w => run_mac E m (h m rfl) w
  | .ex n, _, _, w => rfl
  | .ifThen c s, hf, h, w => by
    simp only [Src.tr, run, meant, when]
    rw [run_src E s hf.1 hf.2]
  | .ifElse c s t, hf, h, w => by
    obtain ⟨h1, h2, -, h4, h5⟩ := hf
    simp only [Src.tr, run, meant]
    rw [run_src E s h1 (fun m e => (h4 m e).2), run_src E t h2 h5]
  | .block l, hf, _, w => by
    simp only [Src.tr, run, meant]
    exact run_srcs E l hf w
theorem run_srcs {W : Type} (E : Env W) : (l : Srcs) → l.Fine → (w : W) → runL E l.tr w = meantL E l w
  | .nil, _, w => rfl
  | .cons s l, hf, w => by
    simp only [Srcs.tr, runL, meantL]
    by_cases h : ∀ m, s.last = some m → m.isAssert = false
    · rw [run_src E s hf.1 h]
      congr 1
      funext w
      rw [run_prepend E _ h, run_srcs E l hf.2]
    · simp only [Classical.not_forall] at h
      obtain ⟨m, e, hm⟩ := h
      replace hm : m.isAssert = true := by simpa using hm
      have es := fine_assert hf.1 e hm
      subst es
      cases m
      case logAssert x =>
        have e1 : run E (Src.mac (.logAssert x)).tr w = when E (.not x) (when E (.isLog 0) (E.ex (.failed 0 x))) w := by
          show (when E (.not x) (when E (.isLog 0) (E.ex (.failed 0 x))) w).bind (fun w => some w) = _
          cases when E (.not x) (when E (.isLog 0) (E.ex (.failed 0 x))) w <;> rfl
        have e2 : meant E (.mac (.logAssert x)) w = (when E (.not x) (when E (.isLog 0) (E.ex (.failed 0 x))) w).bind (E.ex (.asrt x)) := rfl
        rw [e1, e2, Option.bind_assoc]
        congr 1
        funext w
        show (E.ex (.asrt x) w).bind (fun w => (some w).bind (runL E l.tr)) = _
        congr 1
        funext w
        exact run_srcs E l hf.2 w
      all_goals cases hm
end

/-! ### C126 -/

/-- C126, partial: however the macros are used, if no `LOG` stands before an `else` and no `LOG_ASSERT` directly in an `if`, the body of a function compiles exactly when no other macro stands
before an `else`, and then does what was meant: every macro acts as one statement.  Missing: these two, see the refutations. -/
theorem C126_statement_partial (l : Srcs) (h : l.Fine) : ((∃ st, Compiles l st) ↔ l.Apart) ∧
    ∀ st, Compiles l st → ∀ (W : Type) (E : Env W) (w : W), runL E st w = meantL E l w := by
  have comp : l.Apart → Compiles l l.tr := fun ha => parse_srcs l h ha []
  have apart : ∀ st, Compiles l st → l.Apart := by
    rintro st ⟨n, hn⟩
    refine Classical.byContradiction fun ha => ?_
    rw [parse_bads l h ha [] n] at hn
    cases hn
  refine ⟨⟨fun ⟨st, hs⟩ => apart st hs, fun ha => ⟨_, comp ha⟩⟩, fun st hs W E w => ?_⟩
  obtain ⟨n, hn⟩ := hs
  obtain ⟨k, hk⟩ := comp (apart st ⟨n, hn⟩)
  have e := parseL_unique hn hk
  rw [show st = l.tr from congrArg Prod.fst e]
  exact run_srcs E l h w

/-- C126 is refuted for `LOG` before `else`: `if (c) LOG(l) << a; else n;` compiles, and `n` is executed if `c` holds and the level is off, but never if `c` does not hold. -/
theorem C126_else_refuted (c l a n : Nat) : let p : Srcs := .cons (.ifElse c (.mac (.log l a)) (.ex n)) .nil
    ∃ st, Compiles p st ∧ ∀ (W : Type) (E : Env W) (w : W), runL E st w = if (E.cond (.user c) w).1
      then if (E.cond (.isLog l) (E.cond (.user c) w).2).1 then E.ex (.log l a) (E.cond (.isLog l) (E.cond (.user c) w).2).2 else E.ex (.user n) (E.cond (.isLog l) (E.cond (.user c) w).2).2
      else some (E.cond (.user c) w).2 := by
  refine ⟨_, ⟨10, rfl⟩, fun W E w => ?_⟩
  simp only [runL, run]
  split
  · split
    · cases E.ex (.log l a) _ <;> rfl
    · cases E.ex (.user n) _ <;> rfl
  · rfl

/-- C126 is refuted for `LOG_ASSERT` in an `if`: `if (c) LOG_ASSERT(x);` asserts `x` even if `c` does not hold. -/
theorem C126_assert_refuted (c x : Nat) : let p : Srcs := .cons (.ifThen c (.mac (.logAssert x))) .nil
    ∃ st, Compiles p st ∧ ∀ (W : Type) (E : Env W) (w : W), (E.cond (.user c) w).1 = false → meantL E p w = some (E.cond (.user c) w).2 ∧ runL E st w = E.ex (.asrt x) (E.cond (.user c) w).2 := by
  refine ⟨_, ⟨10, rfl⟩, fun W E w h => ⟨?_, ?_⟩⟩
  · simp [meantL, meant, when, h]
  · simp only [runL, run, h, Option.bind_some]
    cases h : E.ex (.asrt x) (E.cond (.user c) w).2 <;> simp [h]

/-- C126: `if (0) { LOG(7) << 5; } else COUT(6); WATCH(8);` compiles; `if (0) COUT(6); else 1;` does not. -/
example : Srcs.Fine (.cons (.ifElse 0 (.block (.cons (.mac (.log 7 5)) .nil)) (.mac (.cout 6))) (.cons (.mac (.watch 8)) .nil)) ∧
    Srcs.Apart (.cons (.ifElse 0 (.block (.cons (.mac (.log 7 5)) .nil)) (.mac (.cout 6))) (.cons (.mac (.watch 8)) .nil)) ∧
    ¬ ∃ st, Compiles (.cons (.ifElse 0 (.mac (.cout 6)) (.ex 1)) .nil) st := by
  refine ⟨?_, ?_, ?_⟩
  · simp [Srcs.Fine, Src.Fine, Src.dangling, Src.last, Mac.isAssert]
  · simp [Srcs.Apart, Src.Apart, Src.last]
  · rw [(C126_statement_partial _ (by simp [Srcs.Fine, Src.Fine, Src.dangling, Src.last, Mac.isAssert, Mac.isLog])).1]
    simp [Srcs.Apart, Src.Apart, Src.last]

/-! ### How often arguments are evaluated -/

/-- An environment that counts: the levels are as given, `code x k` is the value of argument `x` at its evaluation number `k`, the state is the number of evaluations of each argument.
An assertion that fails ends the process. -/
def counting (logOn watchOn : Nat → Bool) (code : Nat → Nat → Bool) : Env (Nat → Nat) where
  cond
    | .user _, w => (true, w)
    | .isLog l, w => (logOn l, w)
    | .isWatch l, w => (watchOn l, w)
    | .not x, w => (!code x (w x), fun y => if y = x then w y + 1 else w y)
  ex
    | .log _ a, w => some fun y => if y = a then w y + 1 else w y
    | .print a, w => some fun y => if y = a then w y + 1 else w y
    | .asrt x, w => if code x (w x) then some fun y => if y = x then w y + 1 else w y else none
    | _, w => some w

/-- Specification: how often the argument of a macro is evaluated. -/
def evaluations (logOn watchOn : Nat → Bool) : Mac → Nat × Nat
  | .log l a => (a, if logOn l then 1 else 0)
  | .watchLevel l a => (a, if watchOn l then 1 else 0)
  | .watch a => (a, (if logOn 7 then 1 else 0) + if watchOn 7 then 1 else 0)
  | .watchInfo a => (a, (if logOn 6 then 1 else 0) + if watchOn 6 then 1 else 0)
  | .watchF a => (a, (if logOn 7 then 1 else 0) + if watchOn 7 then 1 else 0)
  | .cout a => (a, 1)
  | .devassert x => (x, 1)
  | .logAssert x => (x, 2)

/-- C126: a macro that does not end the process evaluates its argument as often as the levels say: `LOG` not at all or once, `COUT` and `devassert` once, `WATCH` up to twice,
`LOG_ASSERT` twice; and nothing else. -/
theorem C126_evaluations (logOn watchOn : Nat → Bool) (code : Nat → Nat → Bool) (m : Mac) (w w' : Nat → Nat) (st : Stmts) (hs : Compiles (.cons (.mac m) .nil) st)
    (h : runL (counting logOn watchOn code) st w = some w') : ∀ y, w' y = w y + if y = (evaluations logOn watchOn m).1 then (evaluations logOn watchOn m).2 else 0 := by
  rw [(C126_statement_partial (.cons (.mac m) .nil) ⟨trivial, trivial⟩).2 st hs] at h
  intro y
  cases m <;> simp only [meantL, meant, means, when, counting, evaluations] at h ⊢
  case log l a => cases hl : logOn l <;> simp [hl] at h ⊢ <;> subst h <;> by_cases hy : y = a <;> simp [hy]
  case watchLevel l a => cases hl : watchOn l <;> simp [hl] at h ⊢ <;> subst h <;> by_cases hy : y = a <;> simp [hy]
  case watch a => cases hl : logOn 7 <;> cases hw : watchOn 7 <;> simp [hl, hw, when] at h ⊢ <;> subst h <;> by_cases hy : y = a <;> simp [hy]
  case watchInfo a => cases hl : logOn 6 <;> cases hw : watchOn 6 <;> simp [hl, hw, when] at h ⊢ <;> subst h <;> by_cases hy : y = a <;> simp [hy]
  case watchF a => cases hl : logOn 7 <;> cases hw : watchOn 7 <;> simp [hl, hw, when] at h ⊢ <;> subst h <;> by_cases hy : y = a <;> simp [hy]
  case cout a => simp at h; subst h; by_cases hy : y = a <;> simp [hy]
  case devassert x => cases hl : logOn 7 <;> cases hw : logOn 3 <;> cases hc : code x (w x) <;> simp [hl, hw, hc] at h <;> subst h <;> by_cases hy : y = x <;> simp [hy]
  case logAssert x => cases hl : logOn 0 <;> cases hc : code x (w x) <;> cases hd : code x (w x + 1) <;> simp [hl, hc, hd] at h <;> subst h <;> by_cases hy : y = x <;> simp [hy]

/-- C126 is refuted for `LOG_ASSERT` with an argument that changes something: the first evaluation holds, so that nothing is logged, and the second one ends the process. -/
theorem C126_twice_refuted (x : Nat) (code : Nat → Nat → Bool) (h0 : code x 0 = true) (h1 : code x 1 = false) :
    ∃ st, Compiles (.cons (.mac (.logAssert x)) .nil) st ∧ runL (counting (fun _ => true) (fun _ => true) code) st (fun _ => 0) = none := by
  obtain ⟨st, hs⟩ := (C126_statement_partial (.cons (.mac (.logAssert x)) .nil) ⟨trivial, trivial⟩).1.2 ⟨trivial, trivial⟩
  refine ⟨st, hs, ?_⟩
  rw [(C126_statement_partial (.cons (.mac (.logAssert x)) .nil) ⟨trivial, trivial⟩).2 st hs]
  simp [meantL, meant, means, when, counting, h0, h1]

/-- C126: `WATCH` with both levels on evaluates its argument twice. -/
example : evaluations (fun _ => true) (fun _ => true) (.watch 4) = (4, 2) := rfl

end Verif.Macros
