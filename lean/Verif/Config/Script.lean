import Verif.Config.SqlProps

/-
Property C96: the script of defaults, `ConfigurationTable::getDefaultSQL` (`Configuration.cpp:213-268`).

The script is read with the token rules of `Config/Sql.lean`, with comments (`--` to the end of the line) and several statements.
-/

namespace Verif.Config

/-! ### The script -/

/-- A key of the schema as far as the script shows it (`Configuration.h:407-415`). -/
structure SKey where
  name : Str
  dflt : Str
  isBool : Bool
  static : Bool
  desc : Str
deriving DecidableEq, Repr

/-- End of line. -/
def nl : Str := [10]

/-- The quote chosen for the description (`Configuration.cpp:250`). -/
def quoteOf (desc : Str) : Str := if chr '\'' ∈ desc then lit "\"" else lit "'"

/-- The text of the description column (`Configuration.cpp:252-258`). -/
def comment (k : SKey) : Str := (if k.isBool then lit "1=enabled, 0=disabled - " else []) ++ k.desc ++ (if k.static then lit "  Static." else [])

/-- The statement of one key (`Configuration.cpp:232-260`). -/
def insertStmt (k : SKey) : Str :=
  lit "INSERT OR IGNORE INTO \"CONFIG\" VALUES('" ++ k.name ++ lit "','" ++ k.dflt ++ lit "'," ++ (if k.static then lit "1" else lit "0") ++ lit ",0," ++
    quoteOf k.desc ++ comment k ++ quoteOf k.desc ++ lit ");" ++ nl

/-- The comment lines (`Configuration.cpp:218-224`). -/
def headComment (program version : Str) : Str :=
  lit "--" ++ nl ++ lit "-- This file was generated using: " ++ program ++ lit " --gensql" ++ nl ++ lit "-- binary version: " ++ version ++ nl ++ lit "--" ++ nl ++
    lit "-- Future changes should not be put in this file directly but" ++ nl ++ lit "-- rather in the program's ConfigurationKey schema." ++ nl ++ lit "--" ++ nl

/-- The statements before the keys (`Configuration.cpp:225-228`). -/
def headStmts : Str :=
  lit "PRAGMA foreign_keys=OFF;" ++ nl ++ lit "BEGIN TRANSACTION;" ++ nl ++
    lit "CREATE TABLE IF NOT EXISTS CONFIG ( KEYSTRING TEXT UNIQUE NOT NULL, VALUESTRING TEXT, STATIC INTEGER DEFAULT 0, OPTIONAL INTEGER DEFAULT 0, COMMENTS TEXT DEFAULT '');" ++ nl

/-- `ConfigurationTable::getDefaultSQL` (`Configuration.cpp:213-268`); `schema` are the entries of the map `mSchema` in its order. -/
def getDefaultSQL (program version : Str) (schema : List SKey) : Str :=
  headComment program version ++ headStmts ++ schema.flatMap insertStmt ++ lit "COMMIT;" ++ nl ++ nl

/-! ### Reading a script (assumption about SQLite) -/

/-- Where the reader is. -/
inductive SMode
  | m (x : Mode)
  | dash
  | cmt
deriving DecidableEq, Repr

/-- A token, or the end of a statement. -/
abbrev STok := Option Tok

/-- First character of a token. -/
def sStart (c : Byte) : SMode × List STok :=
  if c = chr '-' then (.dash, []) else if c = chr ';' then (.m .idle, [none]) else (.m (start c).1, (start c).2.map some)

/-- One character. -/
def sStep : SMode → Byte → SMode × List STok
  | .m .idle, c => sStart c
  | .m (.word a), c => if isWord c then (.m (.word (a ++ [c])), []) else ((sStart c).1, some (.word a) :: (sStart c).2)
  | .m (.dq a), c => if c = chr '"' then (.m (.dqq a), []) else (.m (.dq (a ++ [c])), [])
  | .m (.dqq a), c => if c = chr '"' then (.m (.dq (a ++ [c])), []) else ((sStart c).1, some (.dq a) :: (sStart c).2)
  | .m (.sq a), c => if c = chr '\'' then (.m (.sqq a), []) else (.m (.sq (a ++ [c])), [])
  | .m (.sqq a), c => if c = chr '\'' then (.m (.sq (a ++ [c])), []) else ((sStart c).1, some (.sq a) :: (sStart c).2)
  | .m .eq, c => if c = chr '=' then (.m .idle, [some .eq]) else ((sStart c).1, some .eq :: (sStart c).2)
  | .m .stop, _ => (.m .stop, [])
  | .dash, c => if c = chr '-' then (.cmt, []) else ((sStart c).1, some .bad :: (sStart c).2)
  | .cmt, c => if c = 10 then (.m .idle, []) else (.cmt, [])

/-- A stretch of text. -/
def sRun : SMode → Str → SMode × List STok
  | m, [] => (m, [])
  | m, c :: cs => ((sRun (sStep m c).1 cs).1, (sStep m c).2 ++ (sRun (sStep m c).1 cs).2)

/-- End of the text. -/
def sEnd : SMode → List STok
  | .m x => (lexEnd x).map some
  | .dash => [some .bad]
  | .cmt => []

/-- The tokens of a script. -/
def sLex (s : Str) : List STok := (sRun (.m .idle) s).2 ++ sEnd (sRun (.m .idle) s).1

/-- Split into statements. -/
def statements : List STok → List (List Tok)
  | [] => [[]]
  | none :: r => [] :: statements r
  | some t :: r => match statements r with
    | [] => [[t]]
    | s :: ss => (t :: s) :: ss

/-- A row of CONFIG with all columns but OPTIONAL. -/
structure Row where
  key : Str
  value : Str
  static : Bool
  comment : Str
deriving DecidableEq, Repr

/-- INSERT OR IGNORE of one row: nothing happens if the key is there. -/
def insertIgnore (db : List Row) (r : Row) : List Row := if r.key ∈ db.map (·.key) then db else db ++ [r]

/-- The rest of an INSERT statement. -/
def execInsert (db : List Row) : List Tok → Option (List Row)
  | .word a :: .word b :: .word c :: .dq t :: .word v :: .lp :: vals =>
    if [a, b, c, t, v] = [lit "OR", lit "IGNORE", lit "INTO", lit "CONFIG", lit "VALUES"] then
      match parseVals vals with
      | some [k, x, s, _, d] => some (insertIgnore db ⟨k, x, s = lit "1", d⟩)
      | _ => none
    else none
  | _ => none

/-- A statement by its first word; the others are without effect on the rows. -/
def execWord (db : List Row) (w : Str) (r : List Tok) : Option (List Row) :=
  if w = lit "PRAGMA" ∨ w = lit "BEGIN" ∨ w = lit "COMMIT" ∨ w = lit "CREATE" then some db
  else if w = lit "INSERT" then execInsert db r
  else none

/-- One statement; `none` is an error. -/
def execStmt (db : List Row) : List Tok → Option (List Row)
  | [] => some db
  | .word w :: r => execWord db w r
  | _ => none

/-- All statements in turn; `none` if one of them fails. -/
def execAll (db : List Row) : List (List Tok) → Option (List Row)
  | [] => some db
  | s :: ss => (execStmt db s).bind fun db' => execAll db' ss

/-- The effect of a script. -/
def runScript (db : List Row) (script : Str) : Option (List Row) := execAll db (statements (sLex script))

/-! ### Specification -/

/-- The row a key should get. -/
def rowOf (k : SKey) : Row := ⟨k.name, k.dflt, k.static, comment k⟩

/-- Keys whose texts survive the quoting. -/
def CleanEntry (k : SKey) : Prop := chr '\'' ∉ k.name ∧ chr '\'' ∉ k.dflt ∧ (chr '\'' ∈ k.desc → chr '"' ∉ k.desc)

/-! ### Proof -/

theorem sRun_append (m : SMode) (a b : Str) : sRun m (a ++ b) = ((sRun (sRun m a).1 b).1, (sRun m a).2 ++ (sRun (sRun m a).1 b).2) := by
  induction a generalizing m with
  | nil => simp [sRun]
  | cons c a ih => simp only [List.cons_append, sRun, ih, List.append_assoc]

theorem sRun_sq (a v : Str) (h : chr '\'' ∉ v) : sRun (.m (.sq a)) v = (.m (.sq (a ++ v)), []) := by
  induction v generalizing a with
  | nil => simp [sRun]
  | cons c v ih =>
    have hc : c ≠ chr '\'' := fun e => h (by simp [e])
    have hv : chr '\'' ∉ v := fun e => h (by simp [e])
    simp only [sRun, sStep, if_neg hc, ih _ hv]
    simp

theorem sRun_dq (a v : Str) (h : chr '"' ∉ v) : sRun (.m (.dq a)) v = (.m (.dq (a ++ v)), []) := by
  induction v generalizing a with
  | nil => simp [sRun]
  | cons c v ih =>
    have hc : c ≠ chr '"' := fun e => h (by simp [e])
    have hv : chr '"' ∉ v := fun e => h (by simp [e])
    simp only [sRun, sStep, if_neg hc, ih _ hv]
    simp

theorem sRun_cmt (v : Str) (h : (10 : Byte) ∉ v) : sRun .cmt v = (.cmt, []) := by
  induction v with
  | nil => rfl
  | cons c v ih =>
    have hc : c ≠ 10 := fun e => h (by simp [e])
    have hv : (10 : Byte) ∉ v := fun e => h (List.mem_cons_of_mem _ e)
    simp only [sRun, sStep, if_neg hc, ih hv]
    simp

theorem comment_clean (k : SKey) (c : Byte) (h : c ∉ k.desc) (h1 : c ∉ lit "1=enabled, 0=disabled - ") (h2 : c ∉ lit "  Static.") : c ∉ comment k := by
  unfold comment
  simp only [List.mem_append, not_or]
  refine ⟨⟨?_, h⟩, ?_⟩
  · split
    · exact h1
    · simp
  · split
    · exact h2
    · simp

/-- The literal the description becomes. -/
def commentTok (k : SKey) : Tok := if chr '\'' ∈ k.desc then .dq (comment k) else .sq (comment k)

/-- The number of the flag. -/
def flag (k : SKey) : Str := if k.static then lit "1" else lit "0"

/-- The tokens of one statement. -/
def insertToks (k : SKey) : List Tok :=
  [.word (lit "INSERT"), .word (lit "OR"), .word (lit "IGNORE"), .word (lit "INTO"), .dq (lit "CONFIG"), .word (lit "VALUES"), .lp,
   .sq k.name, .comma, .sq k.dflt, .comma, .word (flag k), .comma, .word (lit "0"), .comma, commentTok k, .rp]

theorem sRun_insert (k : SKey) (h : CleanEntry k) : sRun (.m .idle) (insertStmt k) = (.m .idle, (insertToks k).map some ++ [none]) := by
  obtain ⟨h1, h2, h3⟩ := h
  have e1 : sRun (.m .idle) (lit "INSERT OR IGNORE INTO \"CONFIG\" VALUES('") =
      (.m (.sq []), [some (.word (lit "INSERT")), some (.word (lit "OR")), some (.word (lit "IGNORE")), some (.word (lit "INTO")), some (.dq (lit "CONFIG")), some (.word (lit "VALUES")), some .lp]) := by decide +kernel
  have e2 : sRun (.m (.sq k.name)) (lit "','") = (.m (.sq []), [some (.sq k.name), some .comma]) := rfl
  have e3 : ∀ f : Bool, sRun (.m (.sq k.dflt)) (lit "'," ++ ((if f then lit "1" else lit "0") ++ lit ",0,")) =
      (.m .idle, [some (.sq k.dflt), some .comma, some (.word (if f then lit "1" else lit "0")), some .comma, some (.word (lit "0")), some .comma]) := by
    intro f; cases f <;> rfl
  have e4 : sRun (.m .idle) (quoteOf k.desc ++ (comment k ++ (quoteOf k.desc ++ (lit ");" ++ nl)))) = (.m .idle, [some (commentTok k), some .rp, none]) := by
    unfold quoteOf commentTok
    split
    · next hq =>
      have hc := comment_clean k (chr '"') (h3 hq) (by decide +kernel) (by decide +kernel)
      have a1 : sRun (.m .idle) (lit "\"") = (.m (.dq []), []) := rfl
      have a2 : sRun (.m (.dq (comment k))) (lit "\"" ++ (lit ");" ++ nl)) = (.m .idle, [some (.dq (comment k)), some .rp, none]) := rfl
      rw [sRun_append, a1]
      simp only
      rw [sRun_append, sRun_dq [] _ hc]
      simp only [List.nil_append]
      rw [a2]
    · next hq =>
      have hc := comment_clean k (chr '\'') hq (by decide +kernel) (by decide +kernel)
      have a1 : sRun (.m .idle) (lit "'") = (.m (.sq []), []) := rfl
      have a2 : sRun (.m (.sq (comment k))) (lit "'" ++ (lit ");" ++ nl)) = (.m .idle, [some (.sq (comment k)), some .rp, none]) := rfl
      rw [sRun_append, a1]
      simp only
      rw [sRun_append, sRun_sq [] _ hc]
      simp only [List.nil_append]
      rw [a2]
  have e : insertStmt k = lit "INSERT OR IGNORE INTO \"CONFIG\" VALUES('" ++ (k.name ++ (lit "','" ++ (k.dflt ++ ((lit "'," ++ ((if k.static then lit "1" else lit "0") ++ lit ",0,")) ++
      (quoteOf k.desc ++ (comment k ++ (quoteOf k.desc ++ (lit ");" ++ nl)))))))) := by
    unfold insertStmt; simp only [List.append_assoc]
  rw [e, sRun_append, e1]
  simp only
  rw [sRun_append, sRun_sq [] _ h1]
  simp only [List.nil_append]
  rw [sRun_append, e2]
  simp only
  rw [sRun_append, sRun_sq [] _ h2]
  simp only [List.nil_append]
  rw [sRun_append, e3]
  simp only
  rw [e4]
  rfl

theorem sRun_inserts (l : List SKey) (h : ∀ k ∈ l, CleanEntry k) :
    sRun (.m .idle) (l.flatMap insertStmt) = (.m .idle, l.flatMap fun k => (insertToks k).map some ++ [none]) := by
  induction l with
  | nil => rfl
  | cons k l ih =>
    rw [List.flatMap_cons, List.flatMap_cons, sRun_append, sRun_insert k (h k (by simp))]
    simp only
    rw [ih fun x hx => h x (by simp [hx])]

theorem sRun_headComment (p v : Str) (hp : (10 : Byte) ∉ p) (hv : (10 : Byte) ∉ v) : sRun (.m .idle) (headComment p v) = (.m .idle, []) := by
  have a1 : sRun (.m .idle) (lit "--" ++ nl ++ lit "-- This file was generated using: ") = (.cmt, []) := by decide +kernel
  have a2 : sRun .cmt (lit " --gensql" ++ nl ++ lit "-- binary version: ") = (.cmt, []) := by decide +kernel
  have a3 : sRun .cmt (nl ++ lit "--" ++ nl ++ lit "-- Future changes should not be put in this file directly but" ++ nl ++ lit "-- rather in the program's ConfigurationKey schema." ++ nl ++ lit "--" ++ nl) =
      (.m .idle, []) := by decide +kernel
  have e : headComment p v = (lit "--" ++ nl ++ lit "-- This file was generated using: ") ++ (p ++ ((lit " --gensql" ++ nl ++ lit "-- binary version: ") ++ (v ++
      (nl ++ lit "--" ++ nl ++ lit "-- Future changes should not be put in this file directly but" ++ nl ++ lit "-- rather in the program's ConfigurationKey schema." ++ nl ++ lit "--" ++ nl)))) := by
    unfold headComment; simp only [List.append_assoc]
  rw [e, sRun_append, a1]; simp only
  rw [sRun_append, sRun_cmt p hp]; simp only
  rw [sRun_append, a2]; simp only
  rw [sRun_append, sRun_cmt v hv]; simp only
  rw [a3]; rfl

theorem statements_stmt (t : List Tok) (r : List STok) : statements (t.map some ++ none :: r) = t :: statements r := by
  induction t with
  | nil => rfl
  | cons x t ih => rw [List.map_cons, List.cons_append, statements, ih]

theorem execStmt_insert (db : List Row) (k : SKey) : execStmt db (insertToks k) = some (insertIgnore db (rowOf k)) := by
  have hl : literal (commentTok k) = some (comment k) := by unfold commentTok; split <;> rfl
  have hf : literal (.word (flag k)) = some (flag k) := by unfold flag; split <;> rfl
  have hv : parseVals [.sq k.name, .comma, .sq k.dflt, .comma, .word (flag k), .comma, .word (lit "0"), .comma, commentTok k, .rp] =
      some [k.name, k.dflt, flag k, lit "0", comment k] := by
    have h0 : literal (.word (lit "0")) = some (lit "0") := rfl
    simp only [parseVals, hl, hf, h0]
    rfl
  have hs : decide (flag k = lit "1") = k.static := by unfold flag; cases k.static <;> rfl
  show execWord db (lit "INSERT") _ = _
  unfold execWord
  rw [if_neg (by decide +kernel), if_pos rfl]
  unfold execInsert
  simp only
  rw [if_pos trivial, hv]
  simp only [hs]
  rfl

theorem exec_inserts (db : List Row) (l : List SKey) (r : List STok) :
    execAll db (statements ((l.flatMap fun k => (insertToks k).map some ++ [none]) ++ r)) = execAll (l.foldl (fun d k => insertIgnore d (rowOf k)) db) (statements r) := by
  induction l generalizing db with
  | nil => rfl
  | cons k l ih =>
    rw [List.flatMap_cons, List.append_assoc, List.append_assoc, List.singleton_append, statements_stmt, execAll, execStmt_insert]
    simp only [Option.bind_some, List.foldl_cons]
    exact ih _

theorem fold_insert (db : List Row) (l : List SKey) (hn : (l.map (·.name)).Nodup) :
    l.foldl (fun d k => insertIgnore d (rowOf k)) db = db ++ (l.filter fun k => decide (k.name ∉ db.map (·.key))).map rowOf := by
  induction l generalizing db with
  | nil => simp
  | cons k l ih =>
    rw [List.map_cons, List.nodup_cons] at hn
    rw [List.foldl_cons, ih _ hn.2]
    unfold insertIgnore
    have hk : (rowOf k).key = k.name := rfl
    rw [hk]
    by_cases h : k.name ∈ db.map (·.key)
    · rw [if_pos h, List.filter_cons_of_neg (by simp [h])]
    · rw [if_neg h, List.filter_cons_of_pos (by simpa using h)]
      simp only [List.map_cons, List.append_assoc, List.singleton_append]
      congr 2
      congr 1
      apply List.filter_congr
      intro x hx
      have hne : x.name ≠ k.name := fun e => hn.1 (by rw [← e]; exact List.mem_map_of_mem hx)
      simp only [List.map_append, List.map_cons, List.map_nil, List.mem_append, List.mem_singleton, hk, hne, or_false]

/-- The statements of the keys and what follows. -/
def scriptBody (schema : List SKey) : Str := schema.flatMap insertStmt ++ (lit "COMMIT;" ++ nl ++ nl)

/-- The head of the script has no effect on the rows. -/
theorem run_body (program version : Str) (schema : List SKey) (db : List Row) (hp : (10 : Byte) ∉ program) (hv : (10 : Byte) ∉ version) :
    runScript db (getDefaultSQL program version schema) = runScript db (scriptBody schema) := by
  have hh : sRun (.m .idle) headStmts = (.m .idle,
      List.map some [Tok.word (lit "PRAGMA"), .word (lit "foreign_keys"), .eq, .word (lit "OFF")] ++ none :: (List.map some [Tok.word (lit "BEGIN"), .word (lit "TRANSACTION")] ++ none ::
        (List.map some [Tok.word (lit "CREATE"), .word (lit "TABLE"), .word (lit "IF"), .word (lit "NOT"), .word (lit "EXISTS"), .word (lit "CONFIG"), .lp, .word (lit "KEYSTRING"), .word (lit "TEXT"), .word (lit "UNIQUE"),
         .word (lit "NOT"), .word (lit "NULL"), .comma, .word (lit "VALUESTRING"), .word (lit "TEXT"), .comma, .word (lit "STATIC"), .word (lit "INTEGER"), .word (lit "DEFAULT"), .word (lit "0"), .comma,
         .word (lit "OPTIONAL"), .word (lit "INTEGER"), .word (lit "DEFAULT"), .word (lit "0"), .comma, .word (lit "COMMENTS"), .word (lit "TEXT"), .word (lit "DEFAULT"), .sq [], .rp] ++ [none]))) := by decide +kernel
  have e : getDefaultSQL program version schema = headComment program version ++ (headStmts ++ scriptBody schema) := by
    unfold getDefaultSQL scriptBody; simp only [List.append_assoc]
  unfold runScript sLex
  rw [e, sRun_append, sRun_headComment program version hp hv]; simp only [List.nil_append]
  rw [sRun_append, hh]; simp only
  simp only [List.append_assoc, List.cons_append, List.nil_append]
  rw [statements_stmt, statements_stmt, statements_stmt]
  have p1 : ∀ t, execStmt db (Tok.word (lit "PRAGMA") :: t) = some db := fun t => by
    show execWord db _ _ = _
    exact if_pos (Or.inl rfl)
  have p2 : ∀ t, execStmt db (Tok.word (lit "BEGIN") :: t) = some db := fun t => by
    show execWord db _ _ = _
    exact if_pos (Or.inr (Or.inl rfl))
  have p3 : ∀ t, execStmt db (Tok.word (lit "CREATE") :: t) = some db := fun t => by
    show execWord db _ _ = _
    exact if_pos (Or.inr (Or.inr (Or.inr rfl)))
  simp only [execAll, p1, p2, p3, Option.bind_some]

/-- C96 (partial: names and defaults without single quote, descriptions without one of the two quotes, no line feed in program name and version): run on any database, the script
leaves all rows as they are and adds, for each key of the schema that is missing, the row with its name, default, static flag and description. -/
theorem C96_script_partial (program version : Str) (schema : List SKey) (db : List Row) (hp : (10 : Byte) ∉ program) (hv : (10 : Byte) ∉ version)
    (hc : ∀ k ∈ schema, CleanEntry k) (hn : (schema.map (·.name)).Nodup) :
    runScript db (getDefaultSQL program version schema) = some (db ++ (schema.filter fun k => decide (k.name ∉ db.map (·.key))).map rowOf) := by
  have hlast : sRun (.m .idle) (lit "COMMIT;" ++ nl ++ nl) = (.m .idle, [some (.word (lit "COMMIT")), none]) := by decide +kernel
  rw [run_body program version schema db hp hv]
  have hr : sRun (.m .idle) (scriptBody schema) = (.m .idle, (schema.flatMap fun k => (insertToks k).map some ++ [none]) ++ [some (.word (lit "COMMIT")), none]) := by
    unfold scriptBody
    rw [sRun_append, sRun_inserts schema hc]; simp only
    rw [hlast]
  unfold runScript sLex
  rw [hr]
  have e : sEnd (SMode.m Mode.idle) = [] := rfl
  simp only [e, List.append_nil]
  rw [exec_inserts, fold_insert db schema hn]
  rfl

/-- C96 (partial, as C96_script_partial): on an empty table the script creates exactly the rows of the schema. -/
theorem C96_fresh_partial (program version : Str) (schema : List SKey) (hp : (10 : Byte) ∉ program) (hv : (10 : Byte) ∉ version)
    (hc : ∀ k ∈ schema, CleanEntry k) (hn : (schema.map (·.name)).Nodup) : runScript [] (getDefaultSQL program version schema) = some (schema.map rowOf) := by
  rw [C96_script_partial program version schema [] hp hv hc hn, List.filter_eq_self.2 (by simp)]
  rfl

/-- C96 (the script may be run again): a second run changes nothing. -/
theorem C96_twice_partial (program version : Str) (schema : List SKey) (db db' : List Row) (hp : (10 : Byte) ∉ program) (hv : (10 : Byte) ∉ version)
    (hc : ∀ k ∈ schema, CleanEntry k) (hn : (schema.map (·.name)).Nodup) (h : runScript db (getDefaultSQL program version schema) = some db') :
    runScript db' (getDefaultSQL program version schema) = some db' := by
  rw [C96_script_partial program version schema db hp hv hc hn, Option.some.injEq] at h
  rw [C96_script_partial program version schema db' hp hv hc hn]
  have : (schema.filter fun k => decide (k.name ∉ db'.map (·.key))) = [] := by
    rw [List.filter_eq_nil_iff]
    intro k hk
    rw [decide_eq_true_eq]
    refine fun hno => hno ?_
    rw [← h, List.map_append, List.mem_append]
    by_cases hd : k.name ∈ db.map (·.key)
    · exact Or.inl hd
    · right
      rw [List.map_map]
      exact List.mem_map_of_mem (f := Row.key ∘ rowOf) (List.mem_filter.2 ⟨hk, by simpa using hd⟩)
  rw [this]; simp

/-- Texts meeting the hypotheses: a description with an apostrophe, a static boolean. -/
def sampleSchema : List SKey := [⟨lit "A.B", lit "1", true, false, lit "the cell's name"⟩, ⟨lit "C", lit "say \"x\"", false, true, lit "plain \"text\""⟩]

example : (∀ k ∈ sampleSchema, CleanEntry k) ∧ (sampleSchema.map (·.name)).Nodup := by
  constructor
  · intro k hk
    simp only [sampleSchema, List.mem_cons, List.not_mem_nil, or_false] at hk
    rcases hk with rfl | rfl <;> refine ⟨?_, ?_, ?_⟩ <;> decide +kernel
  · decide +kernel

example : runScript [] (getDefaultSQL (lit "OpenBTS") (lit "1.0") sampleSchema) =
    some [⟨lit "A.B", lit "1", false, lit "1=enabled, 0=disabled - the cell's name"⟩, ⟨lit "C", lit "say \"x\"", true, lit "plain \"text\"  Static."⟩] := by
  rw [run_body _ _ _ _ (by decide +kernel) (by decide +kernel)]; decide +kernel

/-- C96 is refuted: a default with a single quote makes the script fail. -/
theorem C96_default_refuted : runScript [] (getDefaultSQL [] [] [⟨lit "A", lit "Joe's", false, false, []⟩]) = none := by
  rw [run_body _ _ _ _ (by decide +kernel) (by decide +kernel)]; decide +kernel

/-- C96 is refuted: a description with both kinds of quotes makes the script fail. -/
theorem C96_both_quotes_refuted : runScript [] (getDefaultSQL [] [] [⟨lit "A", lit "1", false, false, lit "the \"cell's\" name"⟩]) = none := by
  rw [run_body _ _ _ _ (by decide +kernel) (by decide +kernel)]; decide +kernel

/-- C96 is refuted: doubled quotes lose one of them. -/
theorem C96_doubled_refuted : runScript [] (getDefaultSQL [] [] [⟨lit "A", lit "x''y", false, false, []⟩]) = some [⟨lit "A", lit "x'y", false, []⟩] := by
  rw [run_body _ _ _ _ (by decide +kernel) (by decide +kernel)]; decide +kernel

/-- C96 is refuted: a default may contain another statement that changes another key. -/
theorem C96_injection_refuted : runScript [] (getDefaultSQL [] [] [⟨lit "A", lit "1',0,0,'');INSERT OR IGNORE INTO \"CONFIG\" VALUES('Z','evil", false, false, []⟩, ⟨lit "Z", lit "good", false, false, []⟩]) =
    some [⟨lit "A", lit "1", false, []⟩, ⟨lit "Z", lit "evil", false, []⟩] := by
  rw [run_body _ _ _ _ (by decide +kernel) (by decide +kernel)]; decide +kernel

end Verif.Config
