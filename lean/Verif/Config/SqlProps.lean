import Verif.Config.Table

/-
Property C61: the commands built by `set` and `remove` and the query built by `lookup`.
-/

namespace Verif.Config

/-! ### The lexer on a text with known and unknown parts -/

/-- The lexer on a part of the text. -/
def lexRun : Mode → Str → Mode × List Tok
  | m, [] => (m, [])
  | m, c :: cs => ((lexRun (lexStep m c).1 cs).1, (lexStep m c).2 ++ (lexRun (lexStep m c).1 cs).2)

theorem lexGo_append (m : Mode) (a b : Str) : lexGo m (a ++ b) = (lexRun m a).2 ++ lexGo (lexRun m a).1 b := by
  induction a generalizing m with
  | nil => rfl
  | cons c a ih => simp only [List.cons_append, lexGo, lexRun, ih, List.append_assoc]

theorem lexRun_dq (a v : Str) (h : chr '"' ∉ v) : lexRun (.dq a) v = (.dq (a ++ v), []) := by
  induction v generalizing a with
  | nil => simp [lexRun]
  | cons c v ih =>
    have hc : c ≠ chr '"' := fun e => h (by simp [e])
    have hv : chr '"' ∉ v := fun e => h (by simp [e])
    simp only [lexRun, lexStep, if_neg hc, ih _ hv]
    simp

theorem lexRun_sq (a v : Str) (h : chr '\'' ∉ v) : lexRun (.sq a) v = (.sq (a ++ v), []) := by
  induction v generalizing a with
  | nil => simp [lexRun]
  | cons c v ih =>
    have hc : c ≠ chr '\'' := fun e => h (by simp [e])
    have hv : chr '\'' ∉ v := fun e => h (by simp [e])
    simp only [lexRun, lexStep, if_neg hc, ih _ hv]
    simp

theorem cText_self {s : Str} (h : (0 : Byte) ∉ s) : cText s = s := by
  unfold cText
  induction s with
  | nil => rfl
  | cons c s ih =>
    have hc : c ≠ 0 := fun e => h (by simp [e])
    rw [List.takeWhile_cons_of_pos (by simpa using hc), ih (fun e => h (List.mem_cons_of_mem _ e))]

theorem lexRun_dq0 (v : Str) (h : chr '"' ∉ v) : lexRun (.dq []) v = (.dq v, []) := lexRun_dq [] v h

theorem lexRun_sq0 (v : Str) (h : chr '\'' ∉ v) : lexRun (.sq []) v = (.sq v, []) := lexRun_sq [] v h

/-! ### Clean texts -/

/-- A text that may stand between double quotes. -/
def CleanValue (v : Str) : Prop := chr '"' ∉ v ∧ (0 : Byte) ∉ v

/-- A text that may stand between single quotes. -/
def CleanDesc (v : Str) : Prop := chr '\'' ∉ v ∧ (0 : Byte) ∉ v

/-- A key that may be used everywhere: no quotes, no NUL, not the name of a column. -/
def CleanKey (k : Str) : Prop := chr '"' ∉ k ∧ chr '\'' ∉ k ∧ (0 : Byte) ∉ k ∧ upper k ∉ columns

instance (v : Str) : Decidable (CleanValue v) := inferInstanceAs (Decidable (_ ∧ _))
instance (v : Str) : Decidable (CleanDesc v) := inferInstanceAs (Decidable (_ ∧ _))
instance (v : Str) : Decidable (CleanKey v) := inferInstanceAs (Decidable (_ ∧ _ ∧ _ ∧ _))

/-- All descriptions in the schema may stand between single quotes. -/
def CleanSchema (schema : Str → Option Key) : Prop := ∀ k key, schema k = some key → CleanDesc key.desc

/-! ### The commands -/

/-- What the table should be after setting `k` to `v`: the other rows as before, and one row for `k`. -/
def stored (db : Db) (k v : Str) : Db := db.filter (fun r => r.1 ≠ k) ++ [(k, some v)]

/-- C61, partial: for a key and a value without double quote and NUL, and a description without single quote and NUL, the command of `set` stores exactly that key and value.
Missing: all other texts, see the refutations. -/
theorem C61_set_partial (s : Table) (db : Db) (k v : Str) (hk : CleanValue k) (hv : CleanValue v) (hs : CleanSchema s.schema) : sqlExec db (setCmd s k v) = some (stored db k v) := by
  obtain ⟨kq, k0⟩ := hk
  obtain ⟨vq, v0⟩ := hv
  unfold setCmd
  split
  · next key hkey =>
    obtain ⟨dq, d0⟩ := hs k key hkey
    have hlex : lex (lit "INSERT OR REPLACE INTO CONFIG (KEYSTRING,VALUESTRING,OPTIONAL,COMMENTS) VALUES (\"" ++ k ++ lit "\",\"" ++ v ++ lit "\",1,'" ++ key.desc ++ lit "')") =
        [.word (lit "INSERT"), .word (lit "OR"), .word (lit "REPLACE"), .word (lit "INTO"), .word (lit "CONFIG"), .lp, .word (lit "KEYSTRING"), .comma,
         .word (lit "VALUESTRING"), .comma, .word (lit "OPTIONAL"), .comma, .word (lit "COMMENTS"), .rp, .word (lit "VALUES"), .lp,
         .dq k, .comma, .dq v, .comma, .word (lit "1"), .comma, .sq key.desc, .rp] := by
      unfold lex
      rw [cText_self]
      · simp only [List.append_assoc]
        have e1 : lexRun .idle (lit "INSERT OR REPLACE INTO CONFIG (KEYSTRING,VALUESTRING,OPTIONAL,COMMENTS) VALUES (\"") = (.dq [], [.word (lit "INSERT"), .word (lit "OR"), .word (lit "REPLACE"), .word (lit "INTO"), .word (lit "CONFIG"), .lp, .word (lit "KEYSTRING"), .comma,
          .word (lit "VALUESTRING"), .comma, .word (lit "OPTIONAL"), .comma, .word (lit "COMMENTS"), .rp, .word (lit "VALUES"), .lp]) := by decide +kernel
        have e2 : lexRun (.dq k) (lit "\",\"") = (.dq [], [.dq k, .comma]) := rfl
        have e3 : lexRun (.dq v) (lit "\",1,'") = (.sq [], [.dq v, .comma, .word (lit "1"), .comma]) := rfl
        have e4 : lexGo (.sq key.desc) (lit "')") = [.sq key.desc, .rp] := rfl
        simp only [lexGo_append, e1, lexRun_dq0 _ kq, e2, lexRun_dq0 _ vq, e3, lexRun_sq0 _ dq, e4]
        rfl
      · simp only [List.mem_append, not_or]
        exact ⟨⟨⟨⟨⟨⟨by decide +kernel, k0⟩, by decide⟩, v0⟩, by decide⟩, d0⟩, by decide⟩
    unfold sqlExec
    rw [hlex]
    rfl
  · have hlex : lex (lit "INSERT OR REPLACE INTO CONFIG (KEYSTRING,VALUESTRING,OPTIONAL) VALUES (\"" ++ k ++ lit "\",\"" ++ v ++ lit "\",1)") =
        [.word (lit "INSERT"), .word (lit "OR"), .word (lit "REPLACE"), .word (lit "INTO"), .word (lit "CONFIG"), .lp, .word (lit "KEYSTRING"), .comma,
         .word (lit "VALUESTRING"), .comma, .word (lit "OPTIONAL"), .rp, .word (lit "VALUES"), .lp,
         .dq k, .comma, .dq v, .comma, .word (lit "1"), .rp] := by
      unfold lex
      rw [cText_self]
      · simp only [List.append_assoc]
        have e1 : lexRun .idle (lit "INSERT OR REPLACE INTO CONFIG (KEYSTRING,VALUESTRING,OPTIONAL) VALUES (\"") = (.dq [], [.word (lit "INSERT"), .word (lit "OR"), .word (lit "REPLACE"), .word (lit "INTO"), .word (lit "CONFIG"), .lp, .word (lit "KEYSTRING"), .comma,
          .word (lit "VALUESTRING"), .comma, .word (lit "OPTIONAL"), .rp, .word (lit "VALUES"), .lp]) := by decide +kernel
        have e2 : lexRun (.dq k) (lit "\",\"") = (.dq [], [.dq k, .comma]) := rfl
        have e3 : lexGo (.dq v) (lit "\",1)") = [.dq v, .comma, .word (lit "1"), .rp] := rfl
        simp only [lexGo_append, e1, lexRun_dq0 _ kq, e2, lexRun_dq0 _ vq, e3]
        rfl
      · simp only [List.mem_append, not_or]
        exact ⟨⟨⟨⟨by decide +kernel, k0⟩, by decide⟩, v0⟩, by decide⟩
    unfold sqlExec
    rw [hlex]
    rfl

/-- C61, partial: for a key without single quote and NUL the command of `remove` removes exactly the row of that key. -/
theorem C61_remove_partial (db : Db) (k : Str) (hk : CleanDesc k) : sqlExec db (removeCmd k) = some (db.filter fun r => r.1 ≠ k) := by
  obtain ⟨kq, k0⟩ := hk
  have hlex : lex (removeCmd k) = [.word (lit "DELETE"), .word (lit "FROM"), .word (lit "CONFIG"), .word (lit "WHERE"), .word (lit "KEYSTRING"), .eq, .sq k] := by
    unfold lex removeCmd
    rw [cText_self]
    · simp only [List.append_assoc]
      have e1 : lexRun .idle (lit "DELETE FROM CONFIG WHERE KEYSTRING=='") = (.sq [], [.word (lit "DELETE"), .word (lit "FROM"), .word (lit "CONFIG"), .word (lit "WHERE"), .word (lit "KEYSTRING"), .eq]) := by decide +kernel
      have e2 : lexGo (.sq k) (lit "'") = [.sq k] := rfl
      simp only [lexGo_append, e1, lexRun_sq0 _ kq, e2]
      rfl
    · simp only [List.mem_append, not_or]
      exact ⟨⟨by decide +kernel, k0⟩, by decide⟩
  unfold sqlExec
  rw [hlex]
  rfl

/-- C61, partial: for a clean key the query of `lookup` finds the first row of exactly that key. -/
theorem C61_lookup_partial (db : Db) (k : Str) (hk : CleanKey k) : sqlQuery db (lookupCmd k) = some ((db.find? fun r => r.1 = k).map (·.2)) := by
  obtain ⟨kq, -, k0, kc⟩ := hk
  have hlex : lex (lookupCmd k) = [.word (lit "SELECT"), .word (lit "VALUESTRING"), .word (lit "FROM"), .word (lit "CONFIG"), .word (lit "WHERE"), .word (lit "KEYSTRING"), .eq, .dq k] := by
    unfold lex lookupCmd
    rw [cText_self k0, cText_self]
    · simp only [List.append_assoc]
      have e1 : lexRun .idle (lit "SELECT VALUESTRING FROM CONFIG WHERE KEYSTRING == \"") = (.dq [], [.word (lit "SELECT"), .word (lit "VALUESTRING"), .word (lit "FROM"), .word (lit "CONFIG"), .word (lit "WHERE"), .word (lit "KEYSTRING"), .eq]) := by decide +kernel
      have e2 : lexGo (.dq k) (lit "\"") = [.dq k] := rfl
      simp only [lexGo_append, e1, lexRun_dq0 _ kq, e2]
      rfl
    · simp only [List.mem_append, not_or]
      exact ⟨⟨by decide +kernel, k0⟩, by decide⟩
  have hm : matchRow k = fun r => decide (r.1 = k) := by
    funext r
    unfold matchRow
    have h1 : upper k ≠ lit "KEYSTRING" := fun e => kc (by rw [e]; decide)
    have h2 : upper k ≠ lit "VALUESTRING" := fun e => kc (by rw [e]; decide)
    rw [if_neg h1, if_neg h2, if_neg kc]
  unfold sqlQuery
  rw [hlex, ← hm]
  rfl

/-- An empty table without schema. -/
def emptyTable : Table := ⟨[], fun _ => none, fun _ => none, 0, 0⟩

/-- C61 (negation): a value with two double quotes is stored with one, and `set` reports success. -/
theorem C61_quotes_refuted : sqlExec [] (setCmd emptyTable (lit "Key") (lit "say \"\"hi\"\"")) = some [(lit "Key", some (lit "say \"hi\""))] := by decide +kernel

/-- C61 (negation): a value with one double quote is refused as a syntax error. -/
theorem C61_quote_refuted : sqlExec [] (setCmd emptyTable (lit "Key") (lit "5\" disk")) = none := by decide +kernel

/-- C61 (negation): a value can end the statement; the rest is ignored and another value is stored. -/
theorem C61_injection_refuted : sqlExec [] (setCmd emptyTable (lit "Key") (lit "off\",0); DROP TABLE CONFIG;")) = some [(lit "Key", some (lit "off"))] := by decide +kernel

/-- C61 (negation): a value can even set a different key. -/
theorem C61_other_key_refuted : sqlExec [(lit "Other", some (lit "1"))] (setCmd emptyTable (lit "Other\",\"2\",1);") (lit "x")) = some [(lit "Other", some (lit "2"))] := by decide +kernel

/-- C61 (negation): an apostrophe in a description of the schema makes every `set` of that key fail. -/
theorem C61_description_refuted : sqlExec [] (setCmd { emptyTable with schema := fun _ => some ⟨[], lit "the cell's name"⟩ } (lit "Key") (lit "1")) = none := by decide +kernel

/-- C61 (negation): looking up the key `KeyString` finds the first row of the table whatever its key is. -/
theorem C61_column_refuted : sqlQuery [(lit "Other", some (lit "1"))] (lookupCmd (lit "KeyString")) = some (some (some (lit "1"))) := by decide +kernel

/-- C61: texts meeting the hypotheses. -/
example : CleanKey (lit "GSM.Radio.ARFCN") ∧ CleanValue (lit "it's 51, or (52); --") ∧ CleanDesc (lit "the \"first\" ARFCN") := by decide +kernel

end Verif.Config
