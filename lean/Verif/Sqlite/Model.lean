import Verif.Core.Outcome
import Verif.Core.Number
import Verif.Config.Sql
import Verif.Utils.Strings

/-
The helpers of `sqlite3util.cpp` around SQLite: retry loops, existence checks, lookups, `sqlQuery`, attributes, commands.

SQLite itself is not part of /repo.  What is assumed about it (after its documentation):
* `sqlite3_prepare_v2` answers with a code; on success the statement pointer is a statement or, for a text without any statement, NULL; otherwise it is NULL;
* `sqlite3_step` answers 100 (a row), 101 (done) or an error code, and 21 (misuse) for NULL; `sqlite3_finalize(NULL)` does nothing;
* any call may be refused because another connection holds a lock (5 busy, 6 locked) or fail otherwise (10 input/output error); a refused step has no effect on the tables,
  and the next step begins the statement again from its first row;
* names of tables and columns are compared without regard to case; a double quoted text is the column of that name if there is one and otherwise a text;
* numbers are compared with cells by their decimal text.
The statements understood are those the helpers build; everything else is an error.
-/

namespace Verif.Sqlite

open Verif.Config

/-- `SQLITE_BUSY`. -/
def BUSY : Int := 5
/-- `SQLITE_LOCKED`. -/
def LOCKED : Int := 6
/-- `SQLITE_ROW`. -/
def ROW : Int := 100
/-- `SQLITE_DONE`. -/
def DONE : Int := 101
/-- `SQLITE_OK`. -/
def OK : Int := 0
/-- `SQLITE_ERROR`. -/
def ERROR : Int := 1
/-- `SQLITE_MISUSE`. -/
def MISUSE : Int := 21

/-! ### Statements and their meaning (assumption about SQLite) -/

/-- A table; `unique` says that the first column is the primary key. -/
structure Tbl where
  cols : List Str
  rows : List (List (Option Str))
  unique : Bool
deriving DecidableEq, Repr

/-- Tables by name. -/
abbrev Tables := List (Str × Tbl)

/-- The table of that name. -/
def findTbl (d : Tables) (t : Str) : Option Tbl := (d.find? fun p => upper p.1 = upper t).map (·.2)

/-- Position of a column. -/
def colIdx (cols : List Str) (k : Str) : Option Nat := cols.findIdx? fun c => upper c = upper k

/-- What a column is compared with. -/
inductive Operand
  | text (v : Str)
  | col (i : Nat)
  | hidden
deriving DecidableEq, Repr

/-- Names of the hidden row number. -/
def hiddenNames : List Str := [lit "ROWID", lit "OID", lit "_ROWID_"]

/-- The meaning of a double quoted text among these columns. -/
def dqOperand (cols : List Str) (v : Str) : Operand :=
  match colIdx cols v with
  | some i => .col i
  | none => if upper v ∈ hiddenNames then .hidden else .text v

/-- A comparison on a row (NULL is equal to nothing; comparisons with the hidden row number count as false). -/
def holds (k : Nat) (o : Operand) (r : List (Option Str)) : Bool :=
  match o with
  | .text v => (r[k]?).join = some v
  | .col i => (r[k]?).join.isSome && (r[k]?).join == (r[i]?).join
  | .hidden => false

/-- A compiled statement. -/
inductive Stmt
  | create (t : Str) (cols : List Str)
  | replace (t : Str) (vals : List Str)
  | select (t : Str) (res : Option Nat) (cond : Option (Nat × Operand))
deriving DecidableEq, Repr

/-- The statement of `sqlite_set_attr` that makes the table (`sqlite3util.cpp:365`). -/
def createText : Str := lit "CREATE TABLE IF NOT EXISTS ATTR_TABLE (ATTR_NAME TEXT PRIMARY KEY, ATTR_VALUE TEXT)"

/-- The table that `createText` makes. -/
def attrTbl : Tbl := ⟨[lit "ATTR_NAME", lit "ATTR_VALUE"], [], true⟩

/-- The end of a query after FROM: the table's condition. -/
def compileCond (cols : List Str) : List Tok → Option (Option (Nat × Operand))
  | [] => some none
  | [.word w, .word k, .eq, v] =>
    if w ≠ lit "WHERE" then none
    else match colIdx cols k with
      | none => none
      | some i =>
        match v with
        | .sq s => some (some (i, .text s))
        | .dq s => some (some (i, dqOperand cols s))
        | .word n => if n.all isDigit then some (some (i, .text n)) else (colIdx cols n).map fun j => some (i, .col j)
        | _ => none
  | _ => none

/-- What follows CREATE TABLE IF NOT: the name and two columns of type TEXT, of which the first is the primary key (other forms are not modelled). -/
def parseCreate : List Tok → Option (Option Stmt)
  | [.word e, .word t, .lp, .word k, .word ty, .word p, .word y, .comma, .word n, .word ty', .rp] =>
    if e = lit "EXISTS" ∧ ty = lit "TEXT" ∧ p = lit "PRIMARY" ∧ y = lit "KEY" ∧ ty' = lit "TEXT" then some (some (.create t [k, n])) else none
  | _ => none

/-- Compiling; outer `none` is an error, inner `none` a text without statement. -/
def compile (d : Tables) (sql : Str) : Option (Option Stmt) :=
  match lex sql with
  | [] => some none
  | .word a :: c :: .word f :: .word t :: r =>
    if a = lit "SELECT" ∧ f = lit "FROM" then
      match findTbl d t with
      | none => none
      | some tb =>
        (match c with
          | .star => some none
          | .word w => (colIdx tb.cols w).map some
          | _ => none).bind fun res => (compileCond tb.cols r).map fun cond => some (.select t res cond)
    else if a = lit "CREATE" ∧ c = .word (lit "TABLE") ∧ f = lit "IF" ∧ t = lit "NOT" then parseCreate r
    else none
  | .word a :: .word b :: .word t :: .lp :: r =>
    if a = lit "REPLACE" ∧ b = lit "INTO" then
      match findTbl d t with
      | none => none
      | some tb =>
        match parseCols r with
        | some (cols, .word v :: .lp :: r2) => if v = lit "VALUES" ∧ cols = tb.cols then (parseVals r2).bind fun vs => if vs.length = cols.length then some (some (.replace t vs)) else none else none
        | _ => none
    else none
  | _ => none

/-- All rows a query yields; the column asked for, or all. -/
def resultRows (tb : Tbl) (res : Option Nat) (cond : Option (Nat × Operand)) : List (List (Option Str)) :=
  (tb.rows.filter fun r => match cond with | none => true | some (k, o) => holds k o r).map fun r => match res with | none => r | some i => [(r[i]?).join]

/-- Replacing a row: the row with the same primary key goes, the new one is added. -/
def replaceRow (tb : Tbl) (vals : List Str) : Tbl :=
  { tb with rows := (if tb.unique then tb.rows.filter (fun r => r.head?.join ≠ vals.head?) else tb.rows) ++ [vals.map some] }

/-- Changing one table. -/
def setTbl (d : Tables) (t : Str) (tb : Tbl) : Tables := d.map fun p => if upper p.1 = upper t then (p.1, tb) else p

/-- The effect of a statement on the tables, and its rows. -/
def effect (d : Tables) : Stmt → Tables × List (List (Option Str))
  | .create t cols => (if (findTbl d t).isSome then d else d ++ [(t, ⟨cols, [], true⟩)], [])
  | .replace t vals => (match findTbl d t with | some tb => setTbl d t (replaceRow tb vals) | none => d, [])
  | .select t res cond => (d, match findTbl d t with | some tb => resultRows tb res cond | none => [])

/-! ### A connection -/

/-- Why a call is refused. -/
inductive Fault
  | busy | locked | broken
deriving DecidableEq, Repr

/-- The code of a refusal. -/
def Fault.code : Fault → Int
  | .busy => BUSY
  | .locked => LOCKED
  | .broken => 10

/-- A connection: the tables, what happens to the next calls (`none`, or the end of the list, is an undisturbed call), and the number of statements not yet finalised. -/
structure Conn where
  tables : Tables
  noise : List (Option Fault)
  live : Nat
deriving DecidableEq, Repr

/-- A statement pointer: never written, NULL, or a statement that has not been stepped or has these rows left. -/
inductive Ptr
  | unset
  | null
  | fresh (s : Stmt)
  | running (s : Stmt) (row : Option (List (Option Str))) (rows : List (List (Option Str)))
deriving DecidableEq, Repr

/-- `sqlite3_prepare_v2`: code and pointer. -/
def prepareV2 (c : Conn) (sql : Str) : Int × Ptr × Conn :=
  match c.noise with
  | some f :: r => (f.code, .null, { c with noise := r })
  | _ =>
    let c' := { c with noise := c.noise.tail }
    match compile c.tables sql with
    | none => (ERROR, .null, c')
    | some none => (OK, .null, c')
    | some (some s) => (OK, .fresh s, { c' with live := c'.live + 1 })

/-- A statement whose step was refused begins again with the next step. -/
def Ptr.reset : Ptr → Ptr
  | .running s _ _ => .fresh s
  | p => p

/-- `sqlite3_step`: code, the statement afterwards. -/
def step (p : Ptr) (c : Conn) : Int × Ptr × Conn :=
  match c.noise with
  | some f :: r => (f.code, p.reset, { c with noise := r })
  | _ =>
    let c' := { c with noise := c.noise.tail }
    match p with
    | .fresh s =>
      match (effect c.tables s).2 with
      | [] => (DONE, .running s none [], { c' with tables := (effect c.tables s).1 })
      | r :: rs => (ROW, .running s (some r) rs, { c' with tables := (effect c.tables s).1 })
    | .running s _ (r :: rs) => (ROW, .running s (some r) rs, c')
    | .running s _ [] => (DONE, .running s none [], c')
    | _ => (MISUSE, p, c')

/-- `sqlite3_finalize`; undefined for a pointer that was never written. -/
def finalize (p : Ptr) (c : Conn) : Outcome Conn :=
  match p with
  | .unset => .ub
  | .null => .ok c
  | _ => .ok { c with live := c.live - 1 }

/-- The text in column 0 of the current row; `none` is NULL. -/
def columnText (p : Ptr) (i : Nat) : Option Str :=
  match p with
  | .running _ (some r) _ => (r[i]?).join
  | _ => none

/-! ### The helpers -/

/-- The loop of both retry functions (`sqlite3util.cpp:51-59` and `72-80`): `src` is the last answer, the first argument counts the rounds left.  The pause has no effect here. -/
def attempts {E : Type} (call : E → Int × E) : Nat → Int → E → Int × E
  | 0, src, e => (src, e)
  | n + 1, _, e => if (call e).1 ≠ BUSY ∧ (call e).1 ≠ LOCKED then call e else attempts call n (call e).1 (call e).2

/-- `sqlite3_prepare_statement` (`sqlite3util.cpp:49-68`): result code and statement pointer.  The message is not modelled. -/
def prepareStatement (sql : Str) (retries : Nat) (c : Conn) : Outcome (Int × Ptr × Conn) :=
  let r := attempts (fun e : Ptr × Conn => prepareV2 e.2 sql) retries BUSY (.unset, c)
  if r.1 ≠ 0 then (finalize r.2.1 r.2.2).bind fun c' => .ok (r.1, r.2.1, c') else .ok r

/-- `sqlite3_run_query` (`sqlite3util.cpp:70-86`).  The message is not modelled. -/
def runQuery (p : Ptr) (retries : Nat) (c : Conn) : Int × Ptr × Conn := attempts (fun e : Ptr × Conn => step e.1 e.2) retries BUSY (p, c)

/-- `sqlite_command` (`sqlite3util.cpp:394-407`): the answer, the result code, the connection. -/
def command (sql : Str) (retries : Nat) (c : Conn) : Outcome (Bool × Int × Conn) :=
  (prepareStatement sql retries c).bind fun r =>
    if r.1 ≠ 0 then .ok (false, -2, r.2.2)
    else
      let q := runQuery r.2.1 retries r.2.2
      (finalize q.2.1 q.2.2).bind fun c' => .ok (decide (q.1 = DONE ∨ q.1 = OK ∨ q.1 = ROW), q.1, c')

/-- The common part of `sqlite3_exists` and the `sqlite3_single_lookup` functions after the text is built (`sqlite3util.cpp:172-179`, `191-202`, `323-335`, `348-360`):
`none` unless there is a row, otherwise what `read` finds in the statement. -/
def lookupWith {α : Type} (read : Ptr → α) (sql : Str) (retries : Nat) (c : Conn) : Outcome (Option α × Conn) :=
  (prepareStatement sql retries c).bind fun r =>
    if r.1 ≠ 0 then .ok (none, r.2.2)
    else
      let q := runQuery r.2.1 retries r.2.2
      (finalize q.2.1 q.2.2).bind fun c' => .ok (if q.1 = ROW then some (read q.2.1) else none, c')

/-- `sprintf` into a buffer of that size. -/
def sprintfTo (size : Nat) (t : Str) : Outcome Str := if t.length + 1 ≤ size then .ok t else .ub

/-- `snprintf` into a buffer of that size. -/
def snprintfTo (size : Nat) (t : Str) : Str := t.take (size - 1)

/-- The text of `sqlite3_exists` (`sqlite3util.cpp:169-171`); arguments are C strings (without NUL). -/
def existsText (table keyName keyData : Str) : Outcome Str :=
  sprintfTo (100 + table.length + keyName.length + keyData.length) (lit "SELECT * FROM " ++ table ++ lit " WHERE " ++ keyName ++ lit " == \"" ++ keyData ++ lit "\"")

/-- `sqlite3_exists` (`sqlite3util.cpp:166-180`). -/
def exists_ (table keyName keyData : Str) (retries : Nat) (c : Conn) : Outcome (Bool × Conn) :=
  (existsText table keyName keyData).bind fun sql => (lookupWith (fun _ => ()) sql retries c).bind fun r => .ok (r.1.isSome, r.2)

/-- The text of `sqlite3_single_lookup` with a text key (`sqlite3util.cpp:188-190`, `320-322`; the second uses `snprintf` with the same size). -/
def lookupText (table keyName keyData valueName : Str) : Outcome Str :=
  sprintfTo (100 + valueName.length + table.length + keyName.length + keyData.length)
    (lit "SELECT " ++ valueName ++ lit " FROM " ++ table ++ lit " WHERE " ++ keyName ++ lit " == \"" ++ keyData ++ lit "\"")

/-- The text of `sqlite3_single_lookup` with a number as key (`sqlite3util.cpp:345-347`). -/
def lookupNumText (table keyName : Str) (keyData : Nat) (valueName : Str) : Outcome Str :=
  sprintfTo (100 + valueName.length + table.length + keyName.length + 20)
    (lit "SELECT " ++ valueName ++ lit " FROM " ++ table ++ lit " WHERE " ++ keyName ++ lit " == " ++ natText 10 keyData)

/-- `sqlite3_single_lookup` for a text (`sqlite3util.cpp:315-336`): `none` is false; the value is NULL or a copy of the text. -/
def singleLookup (table keyName keyData valueName : Str) (retries : Nat) (c : Conn) : Outcome (Option (Option Str) × Conn) :=
  (lookupText table keyName keyData valueName).bind fun sql => lookupWith (fun p => columnText p 0) sql retries c

/-- `sqlite3_single_lookup` with a number as key (`sqlite3util.cpp:340-361`). -/
def singleLookupNum (table keyName : Str) (keyData : Nat) (valueName : Str) (retries : Nat) (c : Conn) : Outcome (Option (Option Str) × Conn) :=
  (lookupNumText table keyName keyData valueName).bind fun sql => lookupWith (fun p => columnText p 0) sql retries c

/-- `sqlite3_column_int64` of a cell: the leading number of the text, 0 for NULL (after SQLite's documentation). -/
def columnInt (p : Ptr) (i : Nat) : Int := ((columnText p i).map atol).getD 0

/-- `sqlite3_single_lookup` for a number (`sqlite3util.cpp:184-203`): the value is cut to `unsigned`. -/
def singleLookupUnsigned (table keyName keyData valueName : Str) (retries : Nat) (c : Conn) : Outcome (Option Int × Conn) :=
  (lookupText table keyName keyData valueName).bind fun sql => lookupWith (fun p => columnInt p 0 % 2 ^ 32) sql retries c

/-- `condition_c` (`sqlite3util.cpp:90-94`), buffer of 100 bytes. -/
def conditionC (keyName keyValue : Str) : Str := snprintfTo 100 (lit "WHERE " ++ keyName ++ lit " == '" ++ keyValue ++ lit "'")

/-- `condition_u` (`sqlite3util.cpp:96-100`), buffer of 100 bytes. -/
def conditionU (keyName : Str) (keyValue : Nat) : Str := snprintfTo 100 (lit "WHERE " ++ keyName ++ lit " == " ++ natText 10 keyValue)

/-- An object of class `sqlQuery` (`sqlite3util.h:39-42`). -/
structure Query where
  stmt : Ptr
  rc : Int
deriving DecidableEq, Repr

/-- The text of the query that `sqlQuery::queryStart` asks `format` for (`sqlite3util.cpp:111`). -/
def selectText (table cols cond : Str) : Str := lit "SELECT " ++ cols ++ lit " FROM " ++ table ++ lit " " ++ cond

/-- `sqlQuery::queryStart` (`sqlite3util.cpp:102-116`); what `format` makes of the text is prepared. -/
def queryStart (table cols cond : Str) (c : Conn) : Outcome (Query × Conn) :=
  (prepareStatement (Utils.format (selectText table cols cond)) 5 c).bind fun r =>
    if r.1 ≠ 0 then .ok (⟨.null, ERROR⟩, r.2.2)
    else
      let q := runQuery r.2.1 5 r.2.2
      .ok (⟨q.2.1, q.1⟩, q.2.2)

/-- `sqlQuery::sqlSuccess` (`sqlite3util.h:54`). -/
def Query.success (q : Query) : Bool := decide (q.stmt ≠ .null ∧ q.rc = ROW)

/-- `sqlQuery::sqlStep` (`sqlite3util.cpp:119-126`). -/
def Query.step (q : Query) (c : Conn) : Bool × Query × Conn :=
  if q.rc = ROW then
    let r := runQuery q.stmt 5 c
    (decide (r.1 = ROW), ⟨r.2.1, r.1⟩, r.2.2)
  else (false, q, c)

/-- `sqlQuery::getResultText` (`sqlite3util.cpp:150-157`). -/
def Query.text (q : Query) (i : Nat) : Str := if q.success then (columnText q.stmt i).getD [] else []

/-- `sqlQuery::~sqlQuery` (`sqlite3util.cpp:145-148`). -/
def Query.destroy (q : Query) (c : Conn) : Outcome Conn := if q.stmt ≠ .null then finalize q.stmt c else .ok c

/-- `sqlite_single_lookup` with a text key (`sqlite3util.cpp:256-265`): `none` is false. -/
def lookupC (table keyName keyData resultName : Str) (c : Conn) : Outcome (Option Str × Conn) :=
  (queryStart table resultName (conditionC keyName keyData) c).bind fun r =>
    (r.1.destroy r.2).bind fun c' => .ok (if r.1.success then some (r.1.text 0) else none, c')

/-- `sqlite_single_lookup` with a number as key (`sqlite3util.cpp:278-287`). -/
def lookupU (table keyName : Str) (keyValue : Nat) (resultName : Str) (c : Conn) : Outcome (Option Str × Conn) :=
  (queryStart table resultName (conditionU keyName keyValue) c).bind fun r =>
    (r.1.destroy r.2).bind fun c' => .ok (if r.1.success then some (r.1.text 0) else none, c')

/-- `sqlite_single_lookup_string` (`sqlite3util.cpp:302-305`). -/
def lookupString (table keyName keyData resultName : Str) (c : Conn) : Outcome (Str × Conn) :=
  (queryStart table resultName (conditionC keyName keyData) c).bind fun r =>
    (r.1.destroy r.2).bind fun c' => .ok (r.1.text 0, c')

/-- The text of `sqlite_set_attr` (`sqlite3util.cpp:373-374`), buffer of 100 bytes. -/
def setAttrText (name value : Str) : Str :=
  snprintfTo 100 (lit "REPLACE INTO ATTR_TABLE (ATTR_NAME,ATTR_VALUE) VALUES('" ++ name ++ lit "','" ++ value ++ lit "')")

/-- `sqlite_set_attr` (`sqlite3util.cpp:363-384`). -/
def setAttr (name value : Str) (c : Conn) : Outcome (Bool × Conn) :=
  (command createText 5 c).bind fun r =>
    if !r.1 then .ok (false, r.2.2) else (command (setAttrText name value) 5 r.2.2).bind fun q => .ok (q.1, q.2.2)

/-- `sqlite_get_attr` (`sqlite3util.cpp:386-389`). -/
def getAttr (name : Str) (c : Conn) : Outcome (Str × Conn) := lookupString (lit "ATTR_TABLE") (lit "ATTR_NAME") name (lit "ATTR_VALUE") c

end Verif.Sqlite
