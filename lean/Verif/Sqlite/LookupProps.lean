import Verif.Utils.LineProps
import Verif.Sqlite.Props

/-
Properties of the SQLite helpers: C82 (existence checks and lookups), C83 (attributes), C84 (going through the rows of a query).
-/

namespace Verif.Sqlite

open Verif.Config

/-! ### Reading the texts -/

/-- A name of a table or column: letters, digits, underscore, characters beyond ASCII, not empty. -/
def Ident (w : Str) : Prop := w ≠ [] ∧ ∀ c ∈ w, isWord c = true

instance (w : Str) : Decidable (Ident w) := inferInstanceAs (Decidable (_ ∧ _))

theorem start_word : ∀ c : Byte, isWord c = true → start c = (.word [c], []) := by decide +kernel

theorem isWord_zero : isWord 0 = false := by decide

theorem lexRun_word (a w : Str) (h : ∀ c ∈ w, isWord c = true) : lexRun (.word a) w = (.word (a ++ w), []) := by
  induction w generalizing a with
  | nil => simp [lexRun]
  | cons c w ih =>
    have hc := h c (by simp)
    simp only [lexRun, lexStep, hc, if_true, ih _ (fun x hx => h x (by simp [hx]))]
    simp

theorem lexRun_ident {w : Str} (h : Ident w) : lexRun .idle w = (.word w, []) := by
  obtain ⟨hn, ha⟩ := h
  cases w with
  | nil => exact absurd rfl hn
  | cons c w =>
    simp only [lexRun, lexStep, start_word c (ha c (by simp)), lexRun_word _ w (fun x hx => ha x (by simp [hx]))]
    simp

theorem ident_no_zero {w : Str} (h : Ident w) : (0 : Byte) ∉ w := by
  intro h0
  have := h.2 0 h0
  rw [isWord_zero] at this
  exact absurd this (by decide)

theorem natText_digits (n : Nat) : ∀ c ∈ natText 10 n, isDigit c = true := by
  have hd : ∀ c : Byte, isDig 10 c = true → isDigit c = true := by decide +kernel
  exact fun c hc => hd c (natText_isDig (by omega) (by omega) n c hc)

theorem natText_ident (n : Nat) : Ident (natText 10 n) := by
  refine ⟨natText_ne_nil _ _, fun c hc => ?_⟩
  have hd : ∀ c : Byte, isDigit c = true → isWord c = true := by decide +kernel
  exact hd c (natText_digits n c hc)

theorem lexGo_end (m : Mode) (s : Str) : lexGo m s = (lexRun m s).2 ++ lexEnd (lexRun m s).1 := by
  have := lexGo_append m s []
  rwa [List.append_nil, lexGo] at this

theorem lexRun_append (m : Mode) (a b : Str) : lexRun m (a ++ b) = ((lexRun (lexRun m a).1 b).1, (lexRun m a).2 ++ (lexRun (lexRun m a).1 b).2) := by
  induction a generalizing m with
  | nil => rfl
  | cons c a ih => simp only [List.cons_append, lexRun, ih, List.append_assoc]

theorem lex_lookup {v t k d : Str} (hv : Ident v) (ht : Ident t) (hk : Ident k) (hd : CleanValue d) :
    lex (lit "SELECT " ++ v ++ lit " FROM " ++ t ++ lit " WHERE " ++ k ++ lit " == \"" ++ d ++ lit "\"") =
      [.word (lit "SELECT"), .word v, .word (lit "FROM"), .word t, .word (lit "WHERE"), .word k, .eq, .dq d] := by
  unfold lex
  rw [cText_self]
  · simp only [List.append_assoc]
    have e1 : lexRun .idle (lit "SELECT ") = (.idle, [.word (lit "SELECT")]) := by decide +kernel
    have e2 : lexRun (.word v) (lit " FROM ") = (.idle, [.word v, .word (lit "FROM")]) := rfl
    have e3 : lexRun (.word t) (lit " WHERE ") = (.idle, [.word t, .word (lit "WHERE")]) := rfl
    have e4 : lexRun (.word k) (lit " == \"") = (.dq [], [.word k, .eq]) := rfl
    have e5 : lexGo (.dq d) (lit "\"") = [.dq d] := rfl
    simp only [lexGo_append, e1, lexRun_ident hv, e2, lexRun_ident ht, e3, lexRun_ident hk, e4, lexRun_dq0 _ hd.1, e5]
    rfl
  · simp only [List.mem_append, not_or]
    exact ⟨⟨⟨⟨⟨⟨⟨⟨by decide +kernel, ident_no_zero hv⟩, by decide⟩, ident_no_zero ht⟩, by decide⟩, ident_no_zero hk⟩, by decide⟩, hd.2⟩, by decide⟩

theorem lex_exists {t k d : Str} (ht : Ident t) (hk : Ident k) (hd : CleanValue d) :
    lex (lit "SELECT * FROM " ++ t ++ lit " WHERE " ++ k ++ lit " == \"" ++ d ++ lit "\"") =
      [.word (lit "SELECT"), .star, .word (lit "FROM"), .word t, .word (lit "WHERE"), .word k, .eq, .dq d] := by
  unfold lex
  rw [cText_self]
  · simp only [List.append_assoc]
    have e1 : lexRun .idle (lit "SELECT * FROM ") = (.idle, [.word (lit "SELECT"), .star, .word (lit "FROM")]) := by decide +kernel
    have e3 : lexRun (.word t) (lit " WHERE ") = (.idle, [.word t, .word (lit "WHERE")]) := rfl
    have e4 : lexRun (.word k) (lit " == \"") = (.dq [], [.word k, .eq]) := rfl
    have e5 : lexGo (.dq d) (lit "\"") = [.dq d] := rfl
    simp only [lexGo_append, e1, lexRun_ident ht, e3, lexRun_ident hk, e4, lexRun_dq0 _ hd.1, e5]
    rfl
  · simp only [List.mem_append, not_or]
    exact ⟨⟨⟨⟨⟨⟨by decide +kernel, ident_no_zero ht⟩, by decide⟩, ident_no_zero hk⟩, by decide⟩, hd.2⟩, by decide⟩

theorem lex_lookupNum {v t k : Str} (n : Nat) (hv : Ident v) (ht : Ident t) (hk : Ident k) :
    lex (lit "SELECT " ++ v ++ lit " FROM " ++ t ++ lit " WHERE " ++ k ++ lit " == " ++ natText 10 n) =
      [.word (lit "SELECT"), .word v, .word (lit "FROM"), .word t, .word (lit "WHERE"), .word k, .eq, .word (natText 10 n)] := by
  unfold lex
  rw [cText_self]
  · simp only [List.append_assoc]
    have e1 : lexRun .idle (lit "SELECT ") = (.idle, [.word (lit "SELECT")]) := by decide +kernel
    have e2 : lexRun (.word v) (lit " FROM ") = (.idle, [.word v, .word (lit "FROM")]) := rfl
    have e3 : lexRun (.word t) (lit " WHERE ") = (.idle, [.word t, .word (lit "WHERE")]) := rfl
    have e4 : lexRun (.word k) (lit " == ") = (.idle, [.word k, .eq]) := rfl
    simp only [lexGo_append, e1, lexRun_ident hv, e2, lexRun_ident ht, e3, lexRun_ident hk, e4, lexGo_end .idle (natText 10 n), lexRun_ident (natText_ident n)]
    rfl
  · simp only [List.mem_append, not_or]
    exact ⟨⟨⟨⟨⟨⟨⟨by decide +kernel, ident_no_zero hv⟩, by decide⟩, ident_no_zero ht⟩, by decide⟩, ident_no_zero hk⟩, by decide⟩, ident_no_zero (natText_ident n)⟩

theorem lex_queryC {v t k d : Str} (hv : Ident v) (ht : Ident t) (hk : Ident k) (hd : CleanDesc d) :
    lex (lit "SELECT " ++ v ++ lit " FROM " ++ t ++ lit " " ++ (lit "WHERE " ++ k ++ lit " == '" ++ d ++ lit "'")) =
      [.word (lit "SELECT"), .word v, .word (lit "FROM"), .word t, .word (lit "WHERE"), .word k, .eq, .sq d] := by
  unfold lex
  rw [cText_self]
  · simp only [List.append_assoc]
    have e1 : lexRun .idle (lit "SELECT ") = (.idle, [.word (lit "SELECT")]) := by decide +kernel
    have e2 : lexRun (.word v) (lit " FROM ") = (.idle, [.word v, .word (lit "FROM")]) := rfl
    have e3 : lexRun (.word t) (lit " ") = (.idle, [.word t]) := rfl
    have e3' : lexRun .idle (lit "WHERE ") = (.idle, [.word (lit "WHERE")]) := rfl
    have e4 : lexRun (.word k) (lit " == '") = (.sq [], [.word k, .eq]) := rfl
    have e5 : lexGo (.sq d) (lit "'") = [.sq d] := rfl
    simp only [lexGo_append, e1, lexRun_ident hv, e2, lexRun_ident ht, e3, e3', lexRun_ident hk, e4, lexRun_sq0 _ hd.1, e5]
    rfl
  · simp only [List.mem_append, not_or]
    exact ⟨⟨⟨⟨⟨by decide +kernel, ident_no_zero hv⟩, by decide⟩, ident_no_zero ht⟩, by decide⟩, ⟨⟨⟨by decide +kernel, ident_no_zero hk⟩, by decide⟩, hd.2⟩, by decide⟩

theorem lex_queryU {v t k : Str} (n : Nat) (hv : Ident v) (ht : Ident t) (hk : Ident k) :
    lex (lit "SELECT " ++ v ++ lit " FROM " ++ t ++ lit " " ++ (lit "WHERE " ++ k ++ lit " == " ++ natText 10 n)) =
      [.word (lit "SELECT"), .word v, .word (lit "FROM"), .word t, .word (lit "WHERE"), .word k, .eq, .word (natText 10 n)] := by
  have := lex_lookupNum n hv ht hk
  have e : lit " WHERE " = lit " " ++ lit "WHERE " := by decide
  rw [e] at this
  simpa only [List.append_assoc] using this

/-! ### Compiling -/

/-- The column asked for. -/
def cell (r : List (Option Str)) (i : Nat) : Option Str := (r[i]?).join

/-- A key that SQLite takes for a text between double quotes in a table with these columns. -/
def PlainKey (cols : List Str) (d : Str) : Prop := CleanValue d ∧ (∀ c ∈ cols, upper c ≠ upper d) ∧ upper d ∉ [lit "ROWID", lit "OID", lit "_ROWID_"]

instance (cols : List Str) (d : Str) : Decidable (PlainKey cols d) := inferInstanceAs (Decidable (_ ∧ _ ∧ _))

theorem dqOperand_plain {cols : List Str} {d : Str} (h : PlainKey cols d) : dqOperand cols d = .text d := by
  obtain ⟨-, h1, h2⟩ := h
  have : colIdx cols d = none := by
    unfold colIdx
    rw [List.findIdx?_eq_none_iff]
    intro c hc
    simpa using h1 c hc
  unfold dqOperand
  rw [this]
  exact if_neg h2

/-- Where the names lead: table, position of the key column and of the result column. -/
structure Names (c : Conn) (t k v : Str) (tb : Tbl) (i j : Nat) : Prop where
  idt : Ident t
  idk : Ident k
  idv : Ident v
  tbl : findTbl c.tables t = some tb
  key : colIdx tb.cols k = some i
  val : colIdx tb.cols v = some j

theorem compile_dq {c : Conn} {t k v d : Str} {tb : Tbl} {i j : Nat} {sql : Str} (h : Names c t k v tb i j)
    (hl : lex sql = [.word (lit "SELECT"), .word v, .word (lit "FROM"), .word t, .word (lit "WHERE"), .word k, .eq, .dq d]) :
    compile c.tables sql = some (some (.select t (some j) (some (i, dqOperand tb.cols d)))) := by
  unfold compile
  rw [hl]
  simp only [and_self, if_true, h.tbl, h.val, Option.map_some, Option.bind_some, compileCond, ne_eq, not_true_eq_false, if_false, h.key]

theorem compile_sq {c : Conn} {t k v d : Str} {tb : Tbl} {i j : Nat} {sql : Str} (h : Names c t k v tb i j)
    (hl : lex sql = [.word (lit "SELECT"), .word v, .word (lit "FROM"), .word t, .word (lit "WHERE"), .word k, .eq, .sq d]) :
    compile c.tables sql = some (some (.select t (some j) (some (i, .text d)))) := by
  unfold compile
  rw [hl]
  simp only [and_self, if_true, h.tbl, h.val, Option.map_some, Option.bind_some, compileCond, ne_eq, not_true_eq_false, if_false, h.key]

theorem compile_num {c : Conn} {t k v : Str} {tb : Tbl} {i j n : Nat} {sql : Str} (h : Names c t k v tb i j)
    (hl : lex sql = [.word (lit "SELECT"), .word v, .word (lit "FROM"), .word t, .word (lit "WHERE"), .word k, .eq, .word (natText 10 n)]) :
    compile c.tables sql = some (some (.select t (some j) (some (i, .text (natText 10 n))))) := by
  unfold compile
  rw [hl]
  have hd : (natText 10 n).all isDigit = true := List.all_eq_true.2 (natText_digits n)
  simp only [and_self, if_true, h.tbl, h.val, Option.map_some, Option.bind_some, compileCond, ne_eq, not_true_eq_false, if_false, h.key, hd]

theorem compile_star {c : Conn} {t k d : Str} {tb : Tbl} {i : Nat} {sql : Str} (ht : findTbl c.tables t = some tb) (hk : colIdx tb.cols k = some i)
    (hl : lex sql = [.word (lit "SELECT"), .star, .word (lit "FROM"), .word t, .word (lit "WHERE"), .word k, .eq, .dq d]) :
    compile c.tables sql = some (some (.select t none (some (i, dqOperand tb.cols d)))) := by
  unfold compile
  rw [hl]
  simp only [and_self, if_true, ht, Option.bind_some, Option.map_some, compileCond, ne_eq, not_true_eq_false, if_false, hk]

/-! ### Undisturbed runs -/

theorem prepare_quiet {c : Conn} {sql : Str} {s : Stmt} (hq : c.noise = []) (hc : compile c.tables sql = some (some s)) (n : Nat) :
    prepareStatement sql (n + 1) c = .ok (0, .fresh s, { c with live := c.live + 1 }) := by
  have : prepareV2 c sql = (0, .fresh s, { c with live := c.live + 1 }) := by
    unfold prepareV2
    simp only [hq, hc]
    cases c
    simp only at hq
    subst hq
    rfl
  unfold prepareStatement attempts
  simp only [this]
  rfl

theorem run_quiet {c : Conn} {t : Str} {res : Option Nat} {cond : Option (Nat × Operand)} {tb : Tbl} (hq : c.noise = []) (ht : findTbl c.tables t = some tb) (n : Nat) :
    runQuery (.fresh (.select t res cond)) (n + 1) c =
      match resultRows tb res cond with
      | [] => (DONE, .running (.select t res cond) none [], c)
      | r :: rs => (ROW, .running (.select t res cond) (some r) rs, c) := by
  obtain ⟨tbs, noise, live⟩ := c
  simp only at hq ht
  subst hq
  have : step (.fresh (.select t res cond)) ⟨tbs, [], live⟩ =
      match resultRows tb res cond with
      | [] => (DONE, .running (.select t res cond) none [], ⟨tbs, [], live⟩)
      | r :: rs => (ROW, .running (.select t res cond) (some r) rs, ⟨tbs, [], live⟩) := by
    unfold step
    simp only [effect, ht, List.tail_nil]
    split
    · next h => simp [h]
    · next h => simp [h]
  unfold runQuery attempts
  rw [this]
  cases resultRows tb res cond with
  | nil => rfl
  | cons r rs => rfl

theorem lookupWith_quiet {α : Type} (read : Ptr → α) {c : Conn} {sql t : Str} {res : Option Nat} {cond : Option (Nat × Operand)} {tb : Tbl} (hq : c.noise = [])
    (hc : compile c.tables sql = some (some (.select t res cond))) (ht : findTbl c.tables t = some tb) (n : Nat) :
    lookupWith read sql (n + 1) c = .ok (match resultRows tb res cond with | [] => none | r :: rs => some (read (.running (.select t res cond) (some r) rs)), c) := by
  unfold lookupWith
  rw [prepare_quiet hq hc]
  have hrun := run_quiet (c := { c with live := c.live + 1 }) (res := res) (cond := cond) hq ht n
  simp only [Outcome.bind, ne_eq, not_true_eq_false, if_false, hrun]
  obtain ⟨tbs, noise, live⟩ := c
  cases resultRows tb res cond with
  | nil => simp [finalize, DONE, ROW]
  | cons r rs => simp [finalize]

theorem first_row {rows : List (List (Option Str))} {p : List (Option Str) → Bool} {f : List (Option Str) → List (Option Str)} {α : Type} (g : List (Option Str) → List (List (Option Str)) → α)
    (h : List (Option Str) → α) (hg : ∀ r rs, g (f r) rs = h r) :
    (match (rows.filter p).map f with | [] => none | r :: rs => some (g r rs)) = (rows.find? p).map h := by
  induction rows with
  | nil => rfl
  | cons x xs ih =>
    by_cases hp : p x = true
    · simp [hp, hg]
    · simp only [Bool.not_eq_true] at hp
      simp only [List.filter_cons, hp, List.find?_cons, Bool.false_eq_true, if_false]
      exact ih

/-! ### C82 -/

/-- C82, partial: on an undisturbed connection `sqlite3_exists` says whether there is a row with that key.  Missing: keys with double quotes and keys equal to the name of a column
(see C82_column_refuted, C82_quote_refuted); refusals are treated by C82_contention. -/
theorem C82_exists_partial (c : Conn) (hq : c.noise = []) (t k d : Str) (tb : Tbl) (i : Nat) (ht : Ident t) (hk : Ident k) (h1 : findTbl c.tables t = some tb) (h2 : colIdx tb.cols k = some i)
    (hd : PlainKey tb.cols d) (n : Nat) : exists_ t k d (n + 1) c = .ok (decide (∃ r ∈ tb.rows, cell r i = some d), c) := by
  unfold exists_
  rw [(C85_texts t k d [] 0 (by omega)).1]
  simp only [Outcome.bind]
  rw [lookupWith_quiet _ hq (compile_star h1 h2 (lex_exists ht hk hd.1)) h1, dqOperand_plain hd]
  simp only [resultRows, Outcome.ok.injEq, Prod.mk.injEq, and_true]
  rw [first_row (fun _ _ => ()) (fun _ => ()) (fun _ _ => rfl)]
  simp only [Option.isSome_map]
  rw [Bool.eq_iff_iff]
  simp only [List.find?_isSome, decide_eq_true_eq]
  simp [holds, cell]

/-- C82, partial: on an undisturbed connection `sqlite3_single_lookup` finds the first row with that key and returns its value (or NULL); it fails exactly if there is none.
Missing: as in C82_exists_partial. -/
theorem C82_lookup_partial (c : Conn) (hq : c.noise = []) (t k v d : Str) (tb : Tbl) (i j : Nat) (h : Names c t k v tb i j) (hd : PlainKey tb.cols d) (n : Nat) :
    singleLookup t k d v (n + 1) c = .ok ((tb.rows.find? fun r => decide (cell r i = some d)).map fun r => cell r j, c) := by
  unfold singleLookup
  rw [(C85_texts t k d v 0 (by omega)).2.1]
  simp only [Outcome.bind]
  rw [lookupWith_quiet _ hq (compile_dq h (lex_lookup h.idv h.idt h.idk hd.1)) h.tbl, dqOperand_plain hd]
  simp only [resultRows, Outcome.ok.injEq, Prod.mk.injEq, and_true]
  rw [first_row (fun r rs => columnText (.running (.select t (some j) (some (i, .text d))) (some r) rs) 0) (fun r => cell r j) (fun r rs => by simp [columnText, cell])]
  rfl

/-- C82: the lookup with a number as key, for every number. -/
theorem C82_number (c : Conn) (hq : c.noise = []) (t k v : Str) (tb : Tbl) (i j : Nat) (h : Names c t k v tb i j) (m : Nat) (hm : m < 2 ^ 32) (n : Nat) :
    singleLookupNum t k m v (n + 1) c = .ok ((tb.rows.find? fun r => decide (cell r i = some (natText 10 m))).map fun r => cell r j, c) := by
  unfold singleLookupNum
  rw [(C85_texts t k [] v m hm).2.2]
  simp only [Outcome.bind]
  rw [lookupWith_quiet _ hq (compile_num h (lex_lookupNum m h.idv h.idt h.idk)) h.tbl]
  simp only [resultRows, Outcome.ok.injEq, Prod.mk.injEq, and_true]
  rw [first_row (fun r rs => columnText (.running (.select t (some j) (some (i, .text (natText 10 m)))) (some r) rs) 0) (fun r => cell r j) (fun r rs => by simp [columnText, cell])]
  rfl

/-- C82, partial: the lookup of a number gives the number in the first row with that key, for every number of 32 bits; it fails exactly if there is no such row.
Missing: as in C82_exists_partial. -/
theorem C82_value_partial (c : Conn) (hq : c.noise = []) (t k v d : Str) (tb : Tbl) (i j : Nat) (h : Names c t k v tb i j) (hd : PlainKey tb.cols d) (n : Nat) :
    (∀ r m, tb.rows.find? (fun r => decide (cell r i = some d)) = some r → cell r j = some (natText 10 m) → m < 2 ^ 32 → singleLookupUnsigned t k d v (n + 1) c = .ok (some m, c)) ∧
    (tb.rows.find? (fun r => decide (cell r i = some d)) = none → singleLookupUnsigned t k d v (n + 1) c = .ok (none, c)) := by
  have key : singleLookupUnsigned t k d v (n + 1) c = .ok ((tb.rows.find? fun r => decide (cell r i = some d)).map fun r => (((cell r j).map atol).getD 0) % 2 ^ 32, c) := by
    unfold singleLookupUnsigned
    rw [(C85_texts t k d v 0 (by omega)).2.1]
    simp only [Outcome.bind]
    rw [lookupWith_quiet _ hq (compile_dq h (lex_lookup h.idv h.idt h.idk hd.1)) h.tbl, dqOperand_plain hd]
    simp only [resultRows, Outcome.ok.injEq, Prod.mk.injEq, and_true]
    rw [first_row (fun r rs => columnInt (.running (.select t (some j) (some (i, .text d))) (some r) rs) 0 % 2 ^ 32) (fun r => (((cell r j).map atol).getD 0) % 2 ^ 32) (fun r rs => by simp [columnInt, columnText, cell])]
    rfl
  rw [key]
  refine ⟨fun r m hr hm hb => ?_, fun hr => by rw [hr]; rfl⟩
  rw [hr]
  simp only [Option.map_some, hm, Option.getD_some]
  have ha : atol (natText 10 m) = m := by
    obtain ⟨c, t, e, h1, h2, h3, -⟩ := natText_plain (b := 10) (by omega) (by omega) m
    unfold atol
    rw [e, dropWhile_cons h1, signed_plain h2 h3, ← e, scanNat_natText (by omega) (by omega), clamp_of_mem (by omega) (by omega)]
  rw [ha]
  congr 3
  omega

/-- The lengths of query texts that `format` does not shorten. -/
def Fits (n : Nat) : Prop := n ≠ 199 ∧ n ≤ 5000

instance (n : Nat) : Decidable (Fits n) := inferInstanceAs (Decidable (_ ∧ _))

theorem selectText_length (t v cond : Str) : (selectText t v cond).length = v.length + t.length + cond.length + 14 := by
  have e1 : (lit "SELECT ").length = 7 := by decide
  have e2 : (lit " FROM ").length = 6 := by decide
  have e3 : (lit " ").length = 1 := by decide
  unfold selectText
  simp only [List.length_append, e1, e2, e3]
  omega

/-- A text that fits is prepared as it is. -/
theorem format_fits {t v cond : Str} (hz : (0 : Byte) ∉ selectText t v cond) (hf : Fits (v.length + t.length + cond.length + 14)) : Utils.format (selectText t v cond) = selectText t v cond := by
  have e := selectText_length t v cond
  rw [Utils.C45_format_partial _ (fun x hx h0 => hz (h0 ▸ hx)) (by rw [e]; exact hf.1), List.take_of_length_le (by rw [e]; exact hf.2)]

/-- The result of `sqlQuery` on an undisturbed connection. -/
theorem queryStart_quiet {c : Conn} {t v cond : Str} {res : Option Nat} {cd : Option (Nat × Operand)} {tb : Tbl} (hq : c.noise = [])
    (hz : (0 : Byte) ∉ selectText t v cond) (hf : Fits (v.length + t.length + cond.length + 14))
    (hc : compile c.tables (lit "SELECT " ++ v ++ lit " FROM " ++ t ++ lit " " ++ cond) = some (some (.select t res cd))) (ht : findTbl c.tables t = some tb) :
    queryStart t v cond c = .ok (match resultRows tb res cd with
      | [] => ⟨.running (.select t res cd) none [], DONE⟩
      | r :: rs => ⟨.running (.select t res cd) (some r) rs, ROW⟩, { c with live := c.live + 1 }) := by
  unfold queryStart
  rw [format_fits hz hf]
  unfold selectText
  rw [prepare_quiet hq hc 4]
  have hrun := run_quiet (c := { c with live := c.live + 1 }) (res := res) (cond := cd) hq ht 4
  simp only [Outcome.bind, ne_eq, not_true_eq_false, if_false, hrun]
  cases resultRows tb res cd with
  | nil => rfl
  | cons r rs => rfl

theorem lookup_of_query {c : Conn} {t v cond : Str} {j : Nat} {cd : Option (Nat × Operand)} {tb : Tbl} {P : List (Option Str) → Bool} (hq : c.noise = [])
    (hz : (0 : Byte) ∉ selectText t v cond) (hf : Fits (v.length + t.length + cond.length + 14))
    (hc : compile c.tables (lit "SELECT " ++ v ++ lit " FROM " ++ t ++ lit " " ++ cond) = some (some (.select t (some j) cd))) (ht : findTbl c.tables t = some tb)
    (hP : resultRows tb (some j) cd = (tb.rows.filter P).map fun r => [cell r j]) :
    ((queryStart t v cond c).bind fun r => (r.1.destroy r.2).bind fun c' => .ok (if r.1.success then some (r.1.text 0) else none, c')) =
      .ok ((tb.rows.find? P).map fun r => (cell r j).getD [], c) ∧
    ((queryStart t v cond c).bind fun r => (r.1.destroy r.2).bind fun c' => .ok (r.1.text 0, c')) = .ok (((tb.rows.find? P).map fun r => (cell r j).getD []).getD [], c) := by
  rw [queryStart_quiet hq hz hf hc ht, hP]
  have e := first_row (rows := tb.rows) (p := P) (f := fun r => [cell r j]) (fun r _ => (cell r 0).getD []) (fun r => (cell r j).getD []) (fun r rs => by simp [cell])
  rw [← e]
  obtain ⟨tbs, noise, live⟩ := c
  cases (tb.rows.filter P).map fun r => [cell r j] with
  | nil => simp [Outcome.bind, Query.destroy, finalize, Query.success, Query.text, ROW, DONE]
  | cons r rs => simp [Outcome.bind, Query.destroy, finalize, Query.success, Query.text, columnText, cell]

/-- The condition is not cut if it has less than 100 characters. -/
theorem snprintfTo_whole {size : Nat} {t : Str} (h : t.length + 1 ≤ size) : snprintfTo size t = t := List.take_of_length_le (by omega)

/-- C82, partial: `sqlite_single_lookup` with a text key finds the first row with that key; missing: keys with single quotes, names and keys of together more than 87 characters (C82_long_refuted), and
queries of 199 or more than 5000 characters (C82_199_refuted). -/
theorem C82_text_partial (c : Conn) (hq : c.noise = []) (t k v d : Str) (tb : Tbl) (i j : Nat) (h : Names c t k v tb i j) (hd : CleanDesc d) (hl : k.length + d.length ≤ 87)
    (hf : Fits (v.length + t.length + k.length + d.length + 26)) :
    lookupC t k d v c = .ok ((tb.rows.find? fun r => decide (cell r i = some d)).map fun r => (cell r j).getD [], c) := by
  have e : conditionC k d = lit "WHERE " ++ k ++ lit " == '" ++ d ++ lit "'" := by
    refine snprintfTo_whole ?_
    have e1 : (lit "WHERE ").length = 6 := by decide
    have e2 : (lit " == '").length = 5 := by decide
    have e3 : (lit "'").length = 1 := by decide
    simp only [List.length_append, e1, e2, e3]; omega
  unfold lookupC
  rw [e]
  have hz : (0 : Byte) ∉ selectText t v (lit "WHERE " ++ k ++ lit " == '" ++ d ++ lit "'") := by
    simp only [selectText, List.mem_append, not_or]
    exact ⟨⟨⟨⟨⟨by decide +kernel, ident_no_zero h.idv⟩, by decide⟩, ident_no_zero h.idt⟩, by decide⟩, ⟨⟨⟨by decide +kernel, ident_no_zero h.idk⟩, by decide⟩, hd.2⟩, by decide⟩
  have hf' : Fits (v.length + t.length + (lit "WHERE " ++ k ++ lit " == '" ++ d ++ lit "'").length + 14) := by
    have e1 : (lit "WHERE ").length = 6 := by decide
    have e2 : (lit " == '").length = 5 := by decide
    have e3 : (lit "'").length = 1 := by decide
    unfold Fits at hf ⊢
    simp only [List.length_append, e1, e2, e3]; omega
  exact (lookup_of_query hq hz hf' (compile_sq h (lex_queryC h.idv h.idt h.idk hd)) h.tbl rfl).1

/-- C82, partial: the same with a number as key; missing: names and numbers of together more than 89 characters (C82_cut_refuted), and queries of 199 or more than
5000 characters (C82_199_refuted). -/
theorem C82_unsigned_partial (c : Conn) (hq : c.noise = []) (t k v : Str) (tb : Tbl) (i j m : Nat) (h : Names c t k v tb i j) (hl : k.length + (natText 10 m).length ≤ 89)
    (hf : Fits (v.length + t.length + k.length + (natText 10 m).length + 24)) :
    lookupU t k m v c = .ok ((tb.rows.find? fun r => decide (cell r i = some (natText 10 m))).map fun r => (cell r j).getD [], c) := by
  have e : conditionU k m = lit "WHERE " ++ k ++ lit " == " ++ natText 10 m := by
    refine snprintfTo_whole ?_
    have e1 : (lit "WHERE ").length = 6 := by decide
    have e2 : (lit " == ").length = 4 := by decide
    simp only [List.length_append, e1, e2]; omega
  unfold lookupU
  rw [e]
  have hz : (0 : Byte) ∉ selectText t v (lit "WHERE " ++ k ++ lit " == " ++ natText 10 m) := by
    simp only [selectText, List.mem_append, not_or]
    exact ⟨⟨⟨⟨⟨by decide +kernel, ident_no_zero h.idv⟩, by decide⟩, ident_no_zero h.idt⟩, by decide⟩, ⟨⟨by decide +kernel, ident_no_zero h.idk⟩, by decide⟩, ident_no_zero (natText_ident m)⟩
  have hf' : Fits (v.length + t.length + (lit "WHERE " ++ k ++ lit " == " ++ natText 10 m).length + 14) := by
    have e1 : (lit "WHERE ").length = 6 := by decide
    have e2 : (lit " == ").length = 4 := by decide
    unfold Fits at hf ⊢
    simp only [List.length_append, e1, e2]; omega
  exact (lookup_of_query hq hz hf' (compile_num h (lex_queryU m h.idv h.idt h.idk)) h.tbl rfl).1

/-- A table of subscribers, used in the examples. -/
def subscribers : Tables := [(lit "SUBS", ⟨[lit "NAME", lit "PORT"], [[some (lit "alice"), some (lit "5060")], [some (lit "bob"), some (lit "5062")], [some (lit "say \"hi\""), none]], false⟩)]

/-- C82 (negation): a key that is the name of a column matches every row with that column. -/
theorem C82_column_refuted : exists_ (lit "SUBS") (lit "NAME") (lit "name") 5 ⟨subscribers, [], 0⟩ = .ok (true, ⟨subscribers, [], 0⟩) ∧
    singleLookup (lit "SUBS") (lit "NAME") (lit "name") (lit "PORT") 5 ⟨subscribers, [], 0⟩ = .ok (some (some (lit "5060")), ⟨subscribers, [], 0⟩) := by decide +kernel

/-- C82 (negation): a key with double quotes is not found though it is there; and with doubled quotes another key is found. -/
theorem C82_quote_refuted : exists_ (lit "SUBS") (lit "NAME") (lit "say \"hi\"") 5 ⟨subscribers, [], 0⟩ = .ok (false, ⟨subscribers, [], 0⟩) ∧
    exists_ (lit "SUBS") (lit "NAME") (lit "say \"\"hi\"\"") 5 ⟨subscribers, [], 0⟩ = .ok (true, ⟨subscribers, [], 0⟩) := by decide +kernel

/-- A column name of 86 characters. -/
def longName : Str := List.replicate 86 (chr 'K')

/-- C82 (negation): with a long column name a number is cut, and the row of another number is found. -/
theorem C82_cut_refuted : let d : Tables := [(lit "T", ⟨[longName, lit "V"], [[some (lit "123"), some (lit "wrong")], [some (lit "1234"), some (lit "right")]], false⟩)]
    lookupU (lit "T") longName 1234 (lit "V") ⟨d, [], 0⟩ = .ok (some (lit "wrong"), ⟨d, [], 0⟩) ∧ singleLookupNum (lit "T") longName 1234 (lit "V") 5 ⟨d, [], 0⟩ = .ok (some (some (lit "right")), ⟨d, [], 0⟩) := by
  decide +kernel

theorem lex_cut {v t k d : Str} (hv : Ident v) (ht : Ident t) (hk : Ident k) (hd : CleanDesc d) :
    lex (lit "SELECT " ++ v ++ lit " FROM " ++ t ++ lit " " ++ (lit "WHERE " ++ k ++ lit " == '" ++ d)) =
      [.word (lit "SELECT"), .word v, .word (lit "FROM"), .word t, .word (lit "WHERE"), .word k, .eq, .bad] := by
  unfold lex
  rw [cText_self]
  · simp only [List.append_assoc]
    have e1 : lexRun .idle (lit "SELECT ") = (.idle, [.word (lit "SELECT")]) := by decide +kernel
    have e2 : lexRun (.word v) (lit " FROM ") = (.idle, [.word v, .word (lit "FROM")]) := rfl
    have e3 : lexRun (.word t) (lit " ") = (.idle, [.word t]) := rfl
    have e3' : lexRun .idle (lit "WHERE ") = (.idle, [.word (lit "WHERE")]) := rfl
    have e4 : lexRun (.word k) (lit " == '") = (.sq [], [.word k, .eq]) := rfl
    simp only [lexGo_append, e1, lexRun_ident hv, e2, lexRun_ident ht, e3, e3', lexRun_ident hk, e4, lexGo_end (.sq []) d, lexRun_sq0 _ hd.1]
    rfl
  · simp only [List.mem_append, not_or]
    exact ⟨⟨⟨⟨⟨by decide +kernel, ident_no_zero hv⟩, by decide⟩, ident_no_zero ht⟩, by decide⟩, ⟨⟨by decide +kernel, ident_no_zero hk⟩, by decide⟩, hd.2⟩

/-- C82 (negation): a key that together with the column name has more than 87 characters is never found by `sqlite_single_lookup`, whatever is in the table, because the condition is cut
(`sqlite3_single_lookup` finds it, C82_lookup_partial). -/
theorem C82_long_refuted (c : Conn) (hq : c.noise = []) (t k v d : Str) (tb : Tbl) (i j : Nat) (h : Names c t k v tb i j) (hd : CleanDesc d) (hk : k.length ≤ 80) (hl : 87 < k.length + d.length)
    (hf : Fits (v.length + t.length + 113)) :
    lookupC t k d v c = .ok (none, c) := by
  have e1 : (lit "WHERE ").length = 6 := by decide
  have e2 : (lit " == '").length = 5 := by decide
  have e : conditionC k d = lit "WHERE " ++ k ++ lit " == '" ++ d.take (88 - k.length) := by
    have hA : (lit "WHERE " ++ k ++ lit " == '").length = k.length + 11 := by simp only [List.length_append, e1, e2]; omega
    unfold conditionC snprintfTo
    rw [List.append_assoc (lit "WHERE " ++ k ++ lit " == '"), List.take_append, List.take_of_length_le (by omega), hA, List.take_append_of_le_length (by omega)]
    congr 2
    omega
  have hd' : CleanDesc (d.take (88 - k.length)) := ⟨fun x => hd.1 (List.mem_of_mem_take x), fun x => hd.2 (List.mem_of_mem_take x)⟩
  have hc : compile c.tables (lit "SELECT " ++ v ++ lit " FROM " ++ t ++ lit " " ++ (lit "WHERE " ++ k ++ lit " == '" ++ d.take (88 - k.length))) = none := by
    unfold compile
    rw [lex_cut h.idv h.idt h.idk hd']
    simp only [and_self, if_true, h.tbl, h.val, Option.map_some, Option.bind_some, compileCond, ne_eq, not_true_eq_false, if_false, h.key, Option.map_none]
  have hp : prepareStatement (lit "SELECT " ++ v ++ lit " FROM " ++ t ++ lit " " ++ (lit "WHERE " ++ k ++ lit " == '" ++ d.take (88 - k.length))) 5 c = .ok (1, .null, c) := by
    have : prepareV2 c (lit "SELECT " ++ v ++ lit " FROM " ++ t ++ lit " " ++ (lit "WHERE " ++ k ++ lit " == '" ++ d.take (88 - k.length))) = (1, .null, c) := by
      unfold prepareV2
      simp only [hq, hc]
      cases c
      simp only at hq
      subst hq
      rfl
    unfold prepareStatement attempts
    simp only [this]
    rfl
  have hz : (0 : Byte) ∉ selectText t v (lit "WHERE " ++ k ++ lit " == '" ++ d.take (88 - k.length)) := by
    simp only [selectText, List.mem_append, not_or]
    exact ⟨⟨⟨⟨⟨by decide +kernel, ident_no_zero h.idv⟩, by decide⟩, ident_no_zero h.idt⟩, by decide⟩, ⟨⟨by decide +kernel, ident_no_zero h.idk⟩, by decide⟩, hd'.2⟩
  have hf' : Fits (v.length + t.length + (lit "WHERE " ++ k ++ lit " == '" ++ d.take (88 - k.length)).length + 14) := by
    unfold Fits at hf ⊢
    simp only [List.length_append, e1, e2, List.length_take]; omega
  unfold lookupC queryStart
  rw [e, format_fits hz hf']
  unfold selectText
  rw [hp]
  rfl

/-- C82 (negation): a query text of exactly 199 characters loses its last one, so that the row of another number is found. -/
theorem C82_199_refuted : let k : Str := List.replicate 85 (chr 'K'); let v : Str := List.replicate 85 (chr 'V')
    let d : Tables := [(lit "T", ⟨[k, v], [[some (lit "123"), some (lit "wrong")], [some (lit "1234"), some (lit "right")]], false⟩)]
    lookupU (lit "T") k 1234 v ⟨d, [], 0⟩ = .ok (some (lit "wrong"), ⟨d, [], 0⟩) ∧ lookupU (lit "T") k 123 v ⟨d, [], 0⟩ = .ok (some (lit "wrong"), ⟨d, [], 0⟩) ∧
      k.length + (natText 10 1234).length ≤ 89 := by
  decide +kernel

/-- C82: such a key. -/
example : CleanDesc (longName ++ longName) ∧ 87 < (lit "K").length + (longName ++ longName).length := by decide +kernel

theorem prepareV2_code (c : Conn) (sql : Str) (h : ∀ f r, c.noise ≠ some f :: r) : ¬ Transient (prepareV2 c sql).1 := by
  unfold prepareV2
  split
  · next f r hn => exact absurd hn (h f r)
  · simp only
    split <;> simp [Transient, ERROR, OK]

theorem step_code (p : Ptr) (c : Conn) (h : ∀ f r, c.noise ≠ some f :: r) : ¬ Transient (step p c).1 := by
  unfold step
  split
  · next f r hn => exact absurd hn (h f r)
  · simp only
    split
    · split <;> simp [Transient, ROW, DONE]
    · simp [Transient, ROW]
    · simp [Transient, DONE]
    · simp [Transient, MISUSE]

theorem not_transient {code : Int} (h : ¬ Transient code) : code ≠ BUSY ∧ code ≠ LOCKED := ⟨fun e => h (Or.inl e), fun e => h (Or.inr e)⟩

theorem fault_transient {f : Fault} (h : f ≠ .broken) : ¬ (f.code ≠ BUSY ∧ f.code ≠ LOCKED) := by cases f <;> simp_all [Fault.code]

theorem prepare_contention (sql : Str) (d : Tables) (live : Nat) (rest : List (Option Fault)) (hr : ∀ f r, rest ≠ some f :: r) : ∀ (fs : List Fault) (n : Nat) (src : Int) (p : Ptr), (∀ f ∈ fs, f ≠ .broken) → fs.length < n →
    attempts (fun e : Ptr × Conn => prepareV2 e.2 sql) n src (p, ⟨d, fs.map some ++ rest, live⟩) = prepareV2 ⟨d, rest, live⟩ sql := by
  intro fs
  induction fs with
  | nil =>
    intro n src p _ hn
    obtain ⟨n, rfl⟩ : ∃ m, n = m + 1 := ⟨n - 1, by simp at hn; omega⟩
    simp only [attempts, List.map_nil, List.nil_append, if_pos (not_transient (prepareV2_code ⟨d, rest, live⟩ sql hr))]
  | cons f fs ih =>
    intro n src p hf hn
    obtain ⟨n, rfl⟩ : ∃ m, n = m + 1 := ⟨n - 1, by simp at hn; omega⟩
    have e : prepareV2 ⟨d, (f :: fs).map some ++ rest, live⟩ sql = (f.code, .null, ⟨d, fs.map some ++ rest, live⟩) := rfl
    simp only [attempts, e, if_neg (fault_transient (hf f (by simp)))]
    exact ih n _ _ (fun x hx => hf x (by simp [hx])) (by simp at hn; omega)

theorem step_contention (s : Stmt) (d : Tables) (live : Nat) (rest : List (Option Fault)) (hr : ∀ f r, rest ≠ some f :: r) : ∀ (fs : List Fault) (n : Nat) (src : Int) (p : Ptr), p = .fresh s ∨ p = .null → (∀ f ∈ fs, f ≠ .broken) → fs.length < n →
    attempts (fun e : Ptr × Conn => step e.1 e.2) n src (p, ⟨d, fs.map some ++ rest, live⟩) = step p ⟨d, rest, live⟩ := by
  intro fs
  induction fs with
  | nil =>
    intro n src p _ _ hn
    obtain ⟨n, rfl⟩ : ∃ m, n = m + 1 := ⟨n - 1, by simp at hn; omega⟩
    simp only [attempts, List.map_nil, List.nil_append, if_pos (not_transient (step_code p ⟨d, rest, live⟩ hr))]
  | cons f fs ih =>
    intro n src p hp hf hn
    obtain ⟨n, rfl⟩ : ∃ m, n = m + 1 := ⟨n - 1, by simp at hn; omega⟩
    have e : step p ⟨d, (f :: fs).map some ++ rest, live⟩ = (f.code, p, ⟨d, fs.map some ++ rest, live⟩) := by
      rcases hp with rfl | rfl <;> rfl
    simp only [attempts, e, if_neg (fault_transient (hf f (by simp)))]
    exact ih n _ p hp (fun x hx => hf x (by simp [hx])) (by simp at hn; omega)

/-- What happens when both calls are refused fewer times than there are attempts. -/
theorem lookup_contention {α : Type} (read : Ptr → α) (sql : Str) (n : Nat) (d : Tables) (live : Nat) (fs gs : List Fault) (rest : List (Option Fault)) (hf : ∀ f ∈ fs, f ≠ .broken) (hg : ∀ f ∈ gs, f ≠ .broken)
    (lf : fs.length < n) (lg : gs.length < n) :
    ∃ x c1 c2, lookupWith read sql n ⟨d, fs.map some ++ none :: (gs.map some ++ none :: rest), live⟩ = .ok (x, c1) ∧ lookupWith read sql n ⟨d, [], live⟩ = .ok (x, c2) ∧ c1.tables = c2.tables := by
  have p1 := prepare_contention sql d live (none :: (gs.map some ++ none :: rest)) (by simp) fs n BUSY .unset hf lf
  have p2 := prepare_contention sql d live [] (by simp) [] n BUSY .unset (by simp) (by simp; omega)
  simp only [List.map_nil, List.nil_append] at p2
  unfold lookupWith prepareStatement
  simp only [p1, p2]
  have q1 : prepareV2 ⟨d, none :: (gs.map some ++ none :: rest), live⟩ sql = (match compile d sql with | none => (ERROR, .null, ⟨d, gs.map some ++ none :: rest, live⟩) | some none => (OK, .null, ⟨d, gs.map some ++ none :: rest, live⟩) | some (some s) => (OK, .fresh s, ⟨d, gs.map some ++ none :: rest, live + 1⟩)) := rfl
  have q2 : prepareV2 ⟨d, [], live⟩ sql = (match compile d sql with | none => (ERROR, .null, ⟨d, [], live⟩) | some none => (OK, .null, ⟨d, [], live⟩) | some (some s) => (OK, .fresh s, ⟨d, [], live + 1⟩)) := rfl
  rw [q1, q2]
  cases compile d sql with
  | none => exact ⟨none, _, _, rfl, rfl, rfl⟩
  | some o =>
    have fin : ∀ (p : Ptr) (s : Stmt) (l : Nat), p = .fresh s ∨ p = .null → ∃ x c1 c2,
        (finalize (runQuery p n ⟨d, gs.map some ++ none :: rest, l⟩).2.1 (runQuery p n ⟨d, gs.map some ++ none :: rest, l⟩).2.2).bind (fun c' => Outcome.ok (if (runQuery p n ⟨d, gs.map some ++ none :: rest, l⟩).1 = ROW then some (read (runQuery p n ⟨d, gs.map some ++ none :: rest, l⟩).2.1) else none, c')) = .ok (x, c1) ∧
        (finalize (runQuery p n ⟨d, [], l⟩).2.1 (runQuery p n ⟨d, [], l⟩).2.2).bind (fun c' => Outcome.ok (if (runQuery p n ⟨d, [], l⟩).1 = ROW then some (read (runQuery p n ⟨d, [], l⟩).2.1) else none, c')) = .ok (x, c2) ∧ c1.tables = c2.tables := by
      intro p s l hp
      have r1 : runQuery p n ⟨d, gs.map some ++ none :: rest, l⟩ = step p ⟨d, none :: rest, l⟩ := step_contention s d l (none :: rest) (by simp) gs n BUSY p hp hg lg
      have r2 : runQuery p n ⟨d, [], l⟩ = step p ⟨d, [], l⟩ := step_contention s d l [] (by simp) [] n BUSY p hp (by simp) (by simp; omega)
      rw [r1, r2]
      rcases hp with rfl | rfl
      · have t : ∀ nz : List (Option Fault), (nz = [] ∨ nz = none :: rest) → step (.fresh s) ⟨d, nz, l⟩ = (match (effect d s).2 with
            | [] => (DONE, .running s none [], ⟨(effect d s).1, nz.tail, l⟩)
            | r :: rs => (ROW, .running s (some r) rs, ⟨(effect d s).1, nz.tail, l⟩)) := by
          intro nz hz
          rcases hz with rfl | rfl <;> rfl
        rw [t _ (Or.inl rfl), t _ (Or.inr rfl)]
        cases (effect d s).2 with
        | nil => exact ⟨_, _, _, rfl, rfl, rfl⟩
        | cons r rs => exact ⟨_, _, _, rfl, rfl, rfl⟩
      · exact ⟨_, _, _, rfl, rfl, rfl⟩
    cases o with
    | none => exact fin .null (.create [] []) live (Or.inr rfl)
    | some s => exact fin (.fresh s) s (live + 1) (Or.inl rfl)

/-- C82, partial: existence checks and lookups answer the same, and change the tables in the same way, as on an undisturbed connection, if compiling and stepping are each refused fewer times than there are
attempts.  Missing: more refusals, where the answer is "no" (C82_busy_refuted). -/
theorem C82_contention_partial {α : Type} (read : Ptr → α) (sql : Str) (n : Nat) (d : Tables) (live : Nat) (fs gs : List Fault) (rest : List (Option Fault)) (hf : ∀ f ∈ fs, f ≠ .broken) (hg : ∀ f ∈ gs, f ≠ .broken)
    (lf : fs.length < n) (lg : gs.length < n) :
    ∃ x c1 c2, lookupWith read sql n ⟨d, fs.map some ++ none :: (gs.map some ++ none :: rest), live⟩ = .ok (x, c1) ∧ lookupWith read sql n ⟨d, [], live⟩ = .ok (x, c2) ∧ c1.tables = c2.tables :=
  lookup_contention read sql n d live fs gs rest hf hg lf lg

/-- C82 (negation): a database that is busy five times is reported as a row that does not exist. -/
theorem C82_busy_refuted : exists_ (lit "SUBS") (lit "NAME") (lit "bob") 5 ⟨subscribers, List.replicate 5 (some .busy), 0⟩ = .ok (false, ⟨subscribers, [], 0⟩) ∧
    exists_ (lit "SUBS") (lit "NAME") (lit "bob") 5 ⟨subscribers, List.replicate 4 (some .busy), 0⟩ = .ok (true, ⟨subscribers, [], 0⟩) := by decide +kernel

/-- C82: the hypotheses are met. -/
example : Names ⟨subscribers, [], 0⟩ (lit "subs") (lit "Name") (lit "PORT") ⟨[lit "NAME", lit "PORT"], [[some (lit "alice"), some (lit "5060")], [some (lit "bob"), some (lit "5062")], [some (lit "say \"hi\""), none]], false⟩ 0 1 :=
  ⟨by decide, by decide, by decide, by decide +kernel, by decide +kernel, by decide +kernel⟩
example : PlainKey [lit "NAME", lit "PORT"] (lit "bob") ∧ CleanDesc (lit "say \"hi\"") := by decide +kernel

end Verif.Sqlite
