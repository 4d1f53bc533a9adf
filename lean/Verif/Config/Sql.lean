import Verif.Core.Str

/-
The little part of SQL that `ConfigurationTable` speaks to SQLite: a lexer for statements (string literals in single and double quotes with doubled quotes inside,
words, numbers, punctuation) and the meaning of INSERT OR REPLACE, DELETE and SELECT on the table CONFIG
(`Configuration.cpp:45-53`, columns KEYSTRING UNIQUE NOT NULL, VALUESTRING, STATIC, OPTIONAL, COMMENTS).

SQLite is not part of /repo; this file is the assumption made about it, after its documentation:
* `sqlite3_prepare_v2` compiles the first statement of the text only; what follows a semicolon is ignored;
* a double quoted token is an identifier if it matches a column name in scope (ignoring case) and otherwise a string literal; there is no column in scope in VALUES;
* INSERT OR REPLACE removes the row with the same UNIQUE key and adds the new row at the end.
Simplifications: keywords are recognised in upper case only; expressions are single literals; everything else is a syntax error; columns STATIC, OPTIONAL and COMMENTS
are not stored since no function of the class reads them.
-/

namespace Verif.Config

/-- Tokens. -/
inductive Tok
  | word (s : Str)
  | dq (s : Str)
  | sq (s : Str)
  | lp | rp | comma | eq | star | bad
deriving DecidableEq, Repr

/-- Where the lexer is. -/
inductive Mode
  | idle
  | word (acc : Str)
  | dq (acc : Str)
  | dqq (acc : Str)
  | sq (acc : Str)
  | sqq (acc : Str)
  | eq
  | stop
deriving DecidableEq, Repr

/-- Characters of words and numbers. -/
def isWord (c : Byte) : Bool := isAlnum c || c == chr '_' || 128 ≤ c.toNat

/-- The first character of a token. -/
def start (c : Byte) : Mode × List Tok :=
  if isSpace c then (.idle, [])
  else if c = chr '"' then (.dq [], [])
  else if c = chr '\'' then (.sq [], [])
  else if c = chr '(' then (.idle, [.lp])
  else if c = chr ')' then (.idle, [.rp])
  else if c = chr ',' then (.idle, [.comma])
  else if c = chr '=' then (.eq, [])
  else if c = chr ';' then (.stop, [])
  else if c = chr '*' then (.idle, [.star])
  else if isWord c then (.word [c], [])
  else (.idle, [.bad])

/-- One character. -/
def lexStep : Mode → Byte → Mode × List Tok
  | .idle, c => start c
  | .word a, c => if isWord c then (.word (a ++ [c]), []) else ((start c).1, .word a :: (start c).2)
  | .dq a, c => if c = chr '"' then (.dqq a, []) else (.dq (a ++ [c]), [])
  | .dqq a, c => if c = chr '"' then (.dq (a ++ [c]), []) else ((start c).1, .dq a :: (start c).2)
  | .sq a, c => if c = chr '\'' then (.sqq a, []) else (.sq (a ++ [c]), [])
  | .sqq a, c => if c = chr '\'' then (.sq (a ++ [c]), []) else ((start c).1, .sq a :: (start c).2)
  | .eq, c => if c = chr '=' then (.idle, [.eq]) else ((start c).1, .eq :: (start c).2)
  | .stop, _ => (.stop, [])

/-- The end of the text. -/
def lexEnd : Mode → List Tok
  | .idle => []
  | .word a => [.word a]
  | .dq _ => [.bad]
  | .dqq a => [.dq a]
  | .sq _ => [.bad]
  | .sqq a => [.sq a]
  | .eq => [.eq]
  | .stop => []

/-- The lexer. -/
def lexGo : Mode → Str → List Tok
  | m, [] => lexEnd m
  | m, c :: cs => (lexStep m c).2 ++ lexGo (lexStep m c).1 cs

/-- The C string in a `std::string`: up to the first NUL. -/
def cText (s : Str) : Str := s.takeWhile (· ≠ 0)

/-- Tokens of a statement passed as `cmd.c_str()`. -/
def lex (cmd : Str) : List Tok := lexGo .idle (cText cmd)

/-- The rows of CONFIG, oldest first. -/
abbrev Db := List (Str × Option Str)

/-- `word, word, ... )`. -/
def parseCols : List Tok → Option (List Str × List Tok)
  | .word w :: .comma :: r => (parseCols r).map fun p => (w :: p.1, p.2)
  | .word w :: .rp :: r => some ([w], r)
  | _ => none

/-- The value of a literal (where no column is in scope). -/
def literal : Tok → Option Str
  | .dq s => some s
  | .sq s => some s
  | .word w => if w.all isDigit then some w else none
  | _ => none

/-- `literal, literal, ... )` and nothing more. -/
def parseVals : List Tok → Option (List Str)
  | t :: .comma :: r => (literal t).bind fun v => (parseVals r).map (v :: ·)
  | [t, .rp] => (literal t).map ([·])
  | _ => none

/-- INSERT OR REPLACE of one row. -/
def insertRow (db : Db) (cols vals : List Str) : Option Db :=
  if cols.length ≠ vals.length then none
  else match (cols.zip vals).lookup (lit "KEYSTRING") with
    | none => none
    | some k => some (db.filter (fun r => r.1 ≠ k) ++ [(k, (cols.zip vals).lookup (lit "VALUESTRING"))])

/-- INSERT OR REPLACE and DELETE; `none` means that SQLite reports an error. -/
def sqlExec (db : Db) (cmd : Str) : Option Db :=
  match lex cmd with
  | .word a :: .word b :: .word c :: .word d :: .word e :: .lp :: r =>
    if [a, b, c, d, e] = [lit "INSERT", lit "OR", lit "REPLACE", lit "INTO", lit "CONFIG"] then
      match parseCols r with
      | some (cols, .word v :: .lp :: r2) => if v = lit "VALUES" then (parseVals r2).bind (insertRow db cols) else none
      | _ => none
    else none
  | [.word a, .word b, .word c, .word d, .word e, .eq, .sq k] =>
    if [a, b, c, d, e] = [lit "DELETE", lit "FROM", lit "CONFIG", lit "WHERE", lit "KEYSTRING"] then some (db.filter fun r => r.1 ≠ k) else none
  | _ => none

/-- Upper case. -/
def upper (s : Str) : Str := s.map fun c => if 97 ≤ c.toNat && c.toNat ≤ 122 then c - 32 else c

/-- Names that are identifiers in a query on CONFIG. -/
def columns : List Str := [lit "KEYSTRING", lit "VALUESTRING", lit "STATIC", lit "OPTIONAL", lit "COMMENTS", lit "ROWID", lit "OID", lit "_ROWID_"]

/-- `KEYSTRING == "k"` on a row; comparisons with columns that are not stored count as false. -/
def matchRow (k : Str) (r : Str × Option Str) : Bool :=
  if upper k = lit "KEYSTRING" then true
  else if upper k = lit "VALUESTRING" then r.2 = some r.1
  else if upper k ∈ columns then false
  else r.1 = k

/-- `SELECT VALUESTRING FROM CONFIG WHERE KEYSTRING == "k"`: the first row; outer `none` is an error, then no row, then NULL. -/
def sqlQuery (db : Db) (cmd : Str) : Option (Option (Option Str)) :=
  match lex cmd with
  | [.word a, .word v, .word b, .word c, .word d, .word e, .eq, .dq k] =>
    if [a, v, b, c, d, e] = [lit "SELECT", lit "VALUESTRING", lit "FROM", lit "CONFIG", lit "WHERE", lit "KEYSTRING"] then some ((db.find? (matchRow k)).map (·.2)) else none
  | _ => none

end Verif.Config
