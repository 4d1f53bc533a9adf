import Verif.Sqlite.LookupProps

/-
Properties of the SQLite helpers: C83 (attributes read back), C84 (going through the rows of a query).
-/

namespace Verif.Sqlite

open Verif.Config

/-! ### C83 -/

/-- The attribute table is absent or as `sqlite_set_attr` makes it (with any rows). -/
def AttrReady (d : Tables) : Prop := ∀ tb, findTbl d (lit "ATTR_TABLE") = some tb → tb.cols = [lit "ATTR_NAME", lit "ATTR_VALUE"] ∧ tb.unique = true

/-- The value of an attribute in the table; the empty text if there is none. -/
def attr (d : Tables) (name : Str) : Str :=
  (((findTbl d (lit "ATTR_TABLE")).bind fun tb => tb.rows.find? fun r => decide (cell r 0 = some name)).map fun r => (cell r 1).getD []).getD []

theorem command_quiet {c : Conn} {sql : Str} {s : Stmt} (hq : c.noise = []) (hc : compile c.tables sql = some (some s)) (n : Nat) (hr : (effect c.tables s).2 = []) :
    command sql (n + 1) c = .ok (true, 101, { c with tables := (effect c.tables s).1 }) := by
  unfold command
  rw [prepare_quiet hq hc]
  obtain ⟨d, noise, live⟩ := c
  simp only at hq hr
  subst hq
  have : runQuery (.fresh s) (n + 1) ⟨d, [], live + 1⟩ = (DONE, .running s none [], ⟨(effect d s).1, [], live + 1⟩) := by
    have e : step (.fresh s) ⟨d, [], live + 1⟩ = (DONE, .running s none [], ⟨(effect d s).1, [], live + 1⟩) := by
      unfold step
      simp only [hr, List.tail_nil]
    unfold runQuery attempts
    simp only [e]
    rfl
  simp only [Outcome.bind, ne_eq, not_true_eq_false, if_false, this, finalize]
  simp [DONE]

theorem compile_create (d : Tables) : compile d createText = some (some (.create (lit "ATTR_TABLE") [lit "ATTR_NAME", lit "ATTR_VALUE"])) := by
  have e : lex createText = .word (lit "CREATE") :: .word (lit "TABLE") :: .word (lit "IF") :: .word (lit "NOT") :: (lex createText).drop 4 := by decide +kernel
  have e' : compile d createText = if lit "CREATE" = lit "SELECT" ∧ lit "IF" = lit "FROM" then (match findTbl d (lit "NOT") with
      | none => none
      | some tb => (colIdx tb.cols (lit "TABLE")).map some |>.bind fun res => (compileCond tb.cols ((lex createText).drop 4)).map fun cond => some (.select (lit "NOT") res cond))
      else if lit "CREATE" = lit "CREATE" ∧ Tok.word (lit "TABLE") = .word (lit "TABLE") ∧ lit "IF" = lit "IF" ∧ lit "NOT" = lit "NOT" then
        parseCreate ((lex createText).drop 4) else none := by
    unfold compile
    rw [e]
    rfl
  rw [e', if_neg (by decide), if_pos ⟨rfl, rfl, rfl, rfl⟩]
  decide +kernel

theorem findTbl_append_none {d : Tables} {t : Str} {tb : Tbl} (h : findTbl d t = none) : findTbl (d ++ [(t, tb)]) t = some tb := by
  unfold findTbl at *
  rw [List.find?_append]
  simp only [Option.map_eq_none_iff] at h
  simp [h]

theorem findTbl_setTbl {d : Tables} {t : Str} {tb tb' : Tbl} (h : findTbl d t = some tb) : findTbl (setTbl d t tb') t = some tb' := by
  unfold findTbl at *
  unfold setTbl
  induction d with
  | nil => simp at h
  | cons p d ih =>
    by_cases hp : upper p.1 = upper t
    · simp [hp]
    · simp only [List.find?_cons, hp, decide_false] at h
      have e : (if upper p.1 = upper t then (p.1, tb') else p) = p := if_neg hp
      rw [List.map_cons, e, List.find?_cons]
      simp only [hp, decide_false]
      exact ih h

theorem lex_setAttr {n v : Str} (hn : CleanDesc n) (hv : CleanDesc v) :
    lex (lit "REPLACE INTO ATTR_TABLE (ATTR_NAME,ATTR_VALUE) VALUES('" ++ n ++ lit "','" ++ v ++ lit "')") =
      [.word (lit "REPLACE"), .word (lit "INTO"), .word (lit "ATTR_TABLE"), .lp, .word (lit "ATTR_NAME"), .comma, .word (lit "ATTR_VALUE"), .rp, .word (lit "VALUES"), .lp, .sq n, .comma, .sq v, .rp] := by
  unfold lex
  rw [cText_self]
  · simp only [List.append_assoc]
    have e1 : lexRun .idle (lit "REPLACE INTO ATTR_TABLE (ATTR_NAME,ATTR_VALUE) VALUES('") =
      (.sq [], [.word (lit "REPLACE"), .word (lit "INTO"), .word (lit "ATTR_TABLE"), .lp, .word (lit "ATTR_NAME"), .comma, .word (lit "ATTR_VALUE"), .rp, .word (lit "VALUES"), .lp]) := by decide +kernel
    have e2 : lexRun (.sq n) (lit "','") = (.sq [], [.sq n, .comma]) := rfl
    have e3 : lexGo (.sq v) (lit "')") = [.sq v, .rp] := rfl
    simp only [lexGo_append, e1, lexRun_sq0 _ hn.1, e2, lexRun_sq0 _ hv.1, e3]
    rfl
  · simp only [List.mem_append, not_or]
    exact ⟨⟨⟨⟨by decide +kernel, hn.2⟩, by decide⟩, hv.2⟩, by decide⟩

/-- Reading an attribute of a short name. -/
theorem getAttr_quiet (c : Conn) (hq : c.noise = []) (hr : AttrReady c.tables) (tb : Tbl) (ht : findTbl c.tables (lit "ATTR_TABLE") = some tb) (n : Str) (hn : CleanDesc n) (hl : n.length ≤ 78) :
    getAttr n c = .ok (attr c.tables n, c) := by
  obtain ⟨h1, -⟩ := hr tb ht
  have hN : Names c (lit "ATTR_TABLE") (lit "ATTR_NAME") (lit "ATTR_VALUE") tb 0 1 := ⟨by decide, by decide, by decide, ht, by rw [h1]; decide, by rw [h1]; decide⟩
  have e : conditionC (lit "ATTR_NAME") n = lit "WHERE " ++ lit "ATTR_NAME" ++ lit " == '" ++ n ++ lit "'" := by
    refine snprintfTo_whole ?_
    have e1 : (lit "WHERE ").length = 6 := by decide
    have e2 : (lit " == '").length = 5 := by decide
    have e3 : (lit "'").length = 1 := by decide
    have e4 : (lit "ATTR_NAME").length = 9 := by decide
    simp only [List.length_append, e1, e2, e3, e4]; omega
  have hz : (0 : Byte) ∉ selectText (lit "ATTR_TABLE") (lit "ATTR_VALUE") (lit "WHERE " ++ lit "ATTR_NAME" ++ lit " == '" ++ n ++ lit "'") := by
    simp only [selectText, List.mem_append, not_or]
    exact ⟨⟨⟨⟨⟨by decide +kernel, by decide⟩, by decide⟩, by decide⟩, by decide⟩, ⟨⟨⟨by decide +kernel, by decide⟩, by decide⟩, hn.2⟩, by decide⟩
  have hf : Fits ((lit "ATTR_VALUE").length + (lit "ATTR_TABLE").length + (lit "WHERE " ++ lit "ATTR_NAME" ++ lit " == '" ++ n ++ lit "'").length + 14) := by
    have e1 : (lit "WHERE ").length = 6 := by decide
    have e2 : (lit " == '").length = 5 := by decide
    have e3 : (lit "'").length = 1 := by decide
    have e4 : (lit "ATTR_NAME").length = 9 := by decide
    have e5 : (lit "ATTR_VALUE").length = 10 := by decide
    have e6 : (lit "ATTR_TABLE").length = 10 := by decide
    unfold Fits
    simp only [List.length_append, e1, e2, e3, e4, e5, e6]; omega
  unfold getAttr lookupString
  rw [e, (lookup_of_query hq hz hf (compile_sq hN (lex_queryC hN.idv hN.idt hN.idk hn)) hN.tbl rfl).2]
  simp only [attr, ht, Option.bind_some]
  rfl

/-- C83, partial: on an undisturbed connection an attribute that is set reads back as set, and all others stay as they were.  Missing: names and values with single quotes, and names and values of
together more than 39 characters (C83_long_refuted, C83_quote_refuted). -/
theorem C83_attributes_partial (c : Conn) (hq : c.noise = []) (hr : AttrReady c.tables) (n v : Str) (hn : CleanDesc n) (hv : CleanDesc v) (hl : n.length + v.length ≤ 39) :
    ∃ c', setAttr n v c = .ok (true, c') ∧ c'.noise = [] ∧ AttrReady c'.tables ∧ getAttr n c' = .ok (v, c') ∧
      ∀ m, m ≠ n → CleanDesc m → m.length ≤ 78 → getAttr m c' = .ok (attr c.tables m, c') := by
  obtain ⟨d, noise, live⟩ := c
  simp only at hq hr
  subst hq
  -- after the CREATE statement
  obtain ⟨d1, tb1, he1, ht1, hr1, hc1, ha1⟩ : ∃ d1 tb1, (effect d (.create (lit "ATTR_TABLE") [lit "ATTR_NAME", lit "ATTR_VALUE"])).1 = d1 ∧ findTbl d1 (lit "ATTR_TABLE") = some tb1 ∧ tb1.unique = true ∧
      tb1.cols = [lit "ATTR_NAME", lit "ATTR_VALUE"] ∧ ∀ m, attr d1 m = attr d m := by
    cases h : findTbl d (lit "ATTR_TABLE") with
    | some tb =>
      refine ⟨d, tb, ?_, h, (hr tb h).2, (hr tb h).1, fun m => rfl⟩
      simp [effect, h]
    | none =>
      refine ⟨d ++ [(lit "ATTR_TABLE", attrTbl)], attrTbl, ?_, findTbl_append_none h, rfl, rfl, fun m => ?_⟩
      · simp [effect, h, attrTbl]
      · simp [attr, findTbl_append_none h, h, attrTbl]
  have hcreate := command_quiet (c := ⟨d, [], live⟩) rfl (compile_create d) 4 rfl
  simp only [he1] at hcreate
  have hset : compile d1 (setAttrText n v) = some (some (.replace (lit "ATTR_TABLE") [n, v])) := by
    have e : setAttrText n v = lit "REPLACE INTO ATTR_TABLE (ATTR_NAME,ATTR_VALUE) VALUES('" ++ n ++ lit "','" ++ v ++ lit "')" := by
      refine snprintfTo_whole ?_
      have e1 : (lit "REPLACE INTO ATTR_TABLE (ATTR_NAME,ATTR_VALUE) VALUES('").length = 55 := by decide +kernel
      have e2 : (lit "','").length = 3 := by decide
      have e3 : (lit "')").length = 2 := by decide
      simp only [List.length_append, e1, e2, e3]; omega
    rw [e]
    unfold compile
    rw [lex_setAttr hn hv]
    simp only [and_self, if_true, ht1, parseCols, Option.map_some, hc1, parseVals, literal, Option.bind_some]
    rfl
  have hrep := command_quiet (c := ⟨d1, [], live⟩) rfl hset 4 rfl
  have heff : (effect d1 (.replace (lit "ATTR_TABLE") [n, v])).1 = setTbl d1 (lit "ATTR_TABLE") (replaceRow tb1 [n, v]) := by simp [effect, ht1]
  have ht2 := findTbl_setTbl (tb' := replaceRow tb1 [n, v]) ht1
  simp only [heff] at hrep
  have hr2 : AttrReady (setTbl d1 (lit "ATTR_TABLE") (replaceRow tb1 [n, v])) := by
    intro tb h
    rw [ht2] at h
    injection h with h
    subst h
    exact ⟨hc1, hr1⟩
  have hrows : (replaceRow tb1 [n, v]).rows = tb1.rows.filter (fun r => r.head?.join ≠ some n) ++ [[some n, some v]] := by
    simp only [replaceRow, hr1, if_true]
    rfl
  have hcell : ∀ r : List (Option Str), cell r 0 = r.head?.join := by intro r; cases r <;> rfl
  refine ⟨⟨setTbl d1 (lit "ATTR_TABLE") (replaceRow tb1 [n, v]), [], live⟩, ?_, rfl, hr2, ?_, ?_⟩
  · unfold setAttr
    rw [hcreate]
    simp only [Outcome.bind, Bool.not_true, Bool.false_eq_true, if_false]
    rw [hrep]
  · rw [getAttr_quiet _ rfl hr2 _ ht2 n hn (by omega)]
    simp only [attr, ht2, Option.bind_some, hrows, List.find?_append]
    have : (tb1.rows.filter fun r => r.head?.join ≠ some n).find? (fun r => decide (cell r 0 = some n)) = none := by
      rw [List.find?_eq_none]
      intro r hr
      rw [List.mem_filter] at hr
      simpa [hcell] using hr.2
    rw [this]
    simp [cell]
  · intro m hm hc hlm
    rw [getAttr_quiet _ rfl hr2 _ ht2 m hc hlm, ← ha1 m]
    simp only [attr, ht2, ht1, Option.bind_some, hrows, List.find?_append]
    have e1 : (tb1.rows.filter fun r => r.head?.join ≠ some n).find? (fun r => decide (cell r 0 = some m)) = tb1.rows.find? (fun r => decide (cell r 0 = some m)) := by
      rw [List.find?_filter]
      congr 1
      funext r
      rw [hcell]
      by_cases h : r.head?.join = some m
      · have : some m ≠ some n := by simpa using hm
        simp [h, hm]
      · simp [h]
    have e2 : ([[some n, some v]] : List (List (Option Str))).find? (fun r => decide (cell r 0 = some m)) = none := by
      simp [cell, Ne.symm hm]
    rw [e1, e2]
    simp

/-- C83 (negation): a name and a value of together forty characters cannot be set. -/
theorem C83_long_refuted : setAttr (lit "A") (List.replicate 39 (chr 'x')) ⟨[], [], 0⟩ = .ok (false, ⟨[(lit "ATTR_TABLE", attrTbl)], [], 0⟩) ∧
    (∃ c, setAttr (lit "A") (List.replicate 38 (chr 'x')) ⟨[], [], 0⟩ = .ok (true, c)) := by
  refine ⟨by decide +kernel, ?_⟩
  obtain ⟨c, h, -⟩ := C83_attributes_partial ⟨[], [], 0⟩ rfl (fun _ h => by simp [findTbl] at h) (lit "A") (List.replicate 38 (chr 'x')) (by decide) (by decide +kernel) (by decide)
  exact ⟨c, h⟩

/-- C83 (negation): a value with a single quote cannot be set; one with two is set successfully to something else. -/
theorem C83_quote_refuted : setAttr (lit "A") (lit "it's") ⟨[], [], 0⟩ = .ok (false, ⟨[(lit "ATTR_TABLE", attrTbl)], [], 0⟩) ∧
    (setAttr (lit "A") (lit "it''s") ⟨[], [], 0⟩).bind (fun r => if r.1 then getAttr (lit "A") r.2 else .ub) =
      .ok (lit "it's", ⟨[(lit "ATTR_TABLE", ⟨[lit "ATTR_NAME", lit "ATTR_VALUE"], [[some (lit "A"), some (lit "it's")]], true⟩)], [], 0⟩) := by decide +kernel

/-- C83: the hypotheses are met by an empty database and usual attributes. -/
example : AttrReady [] ∧ CleanDesc (lit "DB_VERSION") ∧ CleanDesc (lit "6.0.0") ∧ (lit "DB_VERSION").length + (lit "6.0.0").length ≤ 39 := by
  refine ⟨fun _ h => by simp [findTbl] at h, by decide, by decide, by decide⟩

/-! ### C84 -/

/-- The query object that shows the first of these rows. -/
def shown (s : Stmt) : List (List (Option Str)) → Query
  | [] => ⟨.running s none [], DONE⟩
  | r :: rs => ⟨.running s (some r) rs, ROW⟩

/-- C84, partial: on an undisturbed connection, going through a query with `sqlStep` visits the matching rows once each in order: after `k` steps the query shows row number `k`, and reports no row from the
number of rows on; each `sqlStep` returns whether there is a further row.  Missing: connections where a step is refused, see C84_again_refuted and C84_error_refuted,
and queries of 199 or more than 5000 characters, which `format` shortens (C82_199_refuted). -/
theorem C84_rows_partial (c : Conn) (hq : c.noise = []) (t v cond : Str) (res : Option Nat) (cd : Option (Nat × Operand)) (tb : Tbl)
    (hz : (0 : Byte) ∉ t ++ v ++ cond) (hf : Fits (v.length + t.length + cond.length + 14))
    (hc : compile c.tables (lit "SELECT " ++ v ++ lit " FROM " ++ t ++ lit " " ++ cond) = some (some (.select t res cd))) (ht : findTbl c.tables t = some tb) :
    ∃ q c1, queryStart t v cond c = .ok (q, c1) ∧ ∀ k,
      (steps q c1 k).1.success = decide (k < (resultRows tb res cd).length) ∧
      ((steps q c1 k).1.step (steps q c1 k).2).1 = decide (k + 1 < (resultRows tb res cd).length) ∧
      ∀ i, (steps q c1 k).1.text i = (((resultRows tb res cd)[k]?).bind fun r => cell r i).getD [] := by
  have hz' : (0 : Byte) ∉ selectText t v cond := by
    simp only [List.mem_append, not_or] at hz
    simp only [selectText, List.mem_append, not_or]
    exact ⟨⟨⟨⟨⟨by decide +kernel, hz.1.2⟩, by decide⟩, hz.1.1⟩, by decide⟩, hz.2⟩
  rw [queryStart_quiet hq hz' hf hc ht]
  refine ⟨_, _, rfl, ?_⟩
  generalize hR : resultRows tb res cd = R
  generalize hs : Stmt.select t res cd = s
  obtain ⟨d, noise, live⟩ := c
  simp only at hq
  subst hq
  simp only
  have inv : ∀ k, steps (shown s R) ⟨d, [], live + 1⟩ k = (shown s (R.drop k), ⟨d, [], live + 1⟩) := by
    intro k
    induction k with
    | zero => simp [steps]
    | succ k ih =>
      simp only [steps, ih]
      have : R.drop (k + 1) = (R.drop k).tail := by rw [List.tail_drop]
      rw [this]
      cases R.drop k with
      | nil => rfl
      | cons r rs => cases rs <;> rfl
  intro k
  show (steps (shown s R) ⟨d, [], live + 1⟩ k).1.success = _ ∧ ((steps (shown s R) ⟨d, [], live + 1⟩ k).1.step (steps (shown s R) ⟨d, [], live + 1⟩ k).2).1 = _ ∧
    ∀ i, (steps (shown s R) ⟨d, [], live + 1⟩ k).1.text i = _
  rw [inv]
  cases hd : R.drop k with
  | nil =>
    have : R.length ≤ k := by
      have := congrArg List.length hd
      simp at this; omega
    refine ⟨by simp [shown, Query.success, DONE, ROW]; omega, ?_, fun i => ?_⟩
    · rw [decide_eq_false (by omega : ¬ k + 1 < R.length)]; rfl
    rw [List.getElem?_eq_none this]
    simp [shown, Query.text, Query.success, DONE, ROW]
  | cons r rs =>
    have hk : k < R.length := by
      have := congrArg List.length hd
      simp at this; omega
    have hr : R[k]? = some r := by
      have := List.head?_drop (l := R) (i := k)
      rw [hd] at this
      simpa using this.symm
    have hl : R.length = k + 1 + rs.length := by
      have := congrArg List.length hd
      simp at this; omega
    refine ⟨by simp [shown, Query.success, hk], ?_, fun i => ?_⟩
    · cases rs with
      | nil => rw [decide_eq_false (by simp at hl; omega : ¬ k + 1 < R.length)]; rfl
      | cons => rw [decide_eq_true (by simp at hl; omega : k + 1 < R.length)]; rfl
    rw [hr]
    simp [shown, Query.text, Query.success, columnText, cell]

/-- C84 (negation, under the assumption that SQLite begins a statement again after a refused step): one refusal in the middle makes the rows come again from the first. -/
theorem C84_again_refuted : ∃ q c1, queryStart (lit "SUBS") (lit "NAME") [] ⟨subscribers, [none, none, some .busy], 0⟩ = .ok (q, c1) ∧
    q.text 0 = lit "alice" ∧ (steps q c1 1).1.text 0 = lit "alice" ∧ (steps q c1 2).1.text 0 = lit "bob" := by
  refine ⟨_, _, rfl, ?_⟩
  decide +kernel

/-- C84 (negation): a failure in the middle looks like the end of the rows. -/
theorem C84_error_refuted : ∃ q c1, queryStart (lit "SUBS") (lit "NAME") [] ⟨subscribers, [none, none, some .broken], 0⟩ = .ok (q, c1) ∧
    q.text 0 = lit "alice" ∧ ∀ k, (steps q c1 (k + 1)).1.success = false := by
  refine ⟨_, _, rfl, by decide +kernel, ?_⟩
  intro k
  induction k with
  | zero => decide +kernel
  | succ k ih =>
    have hrc : (steps (⟨.running (.select (lit "SUBS") (some 0) none) (some [some (lit "alice")]) [[some (lit "bob")], [some (lit "say \"hi\"")]], ROW⟩ : Query) ⟨subscribers, [some .broken], 1⟩ (k + 1)) =
        (⟨.fresh (.select (lit "SUBS") (some 0) none), 10⟩, ⟨subscribers, [], 1⟩) := by
      clear ih
      induction k with
      | zero => decide +kernel
      | succ k ih => rw [steps, ih]; rfl
    have : (steps (⟨.running (.select (lit "SUBS") (some 0) none) (some [some (lit "alice")]) [[some (lit "bob")], [some (lit "say \"hi\"")]], ROW⟩ : Query) ⟨subscribers, [some .broken], 1⟩ (k + 2)).1.success = false := by
      rw [steps, hrc]; rfl
    exact this

/-- C84: a query whose text compiles. -/
example : compile subscribers (lit "SELECT " ++ lit "NAME" ++ lit " FROM " ++ lit "SUBS" ++ lit " " ++ lit "") = some (some (.select (lit "SUBS") (some 0) none)) := by decide +kernel

end Verif.Sqlite
