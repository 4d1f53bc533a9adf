import Verif.Config.TableProps
import Verif.Utils.Strings

/-
Properties C98 and C99: listing keys and rows, `ConfigurationTable::getSimilarKeys` (`Configuration.cpp:643-655`), `find` (`842-862`) and `getAllPairs` (`865-890`).

Assumptions about SQLite, after its documentation: in the pattern of LIKE a percent sign stands for any text and an underscore for one character; letters of the ASCII set are equal
to their capitals; a pattern of more than 50000 bytes is an error when the statement runs.  Simplifications: texts are ASCII (one byte per character); the engine is never busy.
-/

namespace Verif.Config

/-- `pattern` of LIKE against a text. -/
def like : Str → Str → Bool
  | [], s => s.isEmpty
  | c :: p, s =>
    if c = chr '%' then (List.range (s.length + 1)).any fun i => like p (s.drop i)
    else match s with
      | [] => false
      | d :: t => (c = chr '_' || upper [c] = upper [d]) && like p t

/-- The statement built by `find` (`Configuration.cpp:845`). -/
def findCmd (pat : Str) : Str := lit "SELECT KEYSTRING,VALUESTRING FROM CONFIG WHERE KEYSTRING LIKE \"%" ++ pat ++ lit "%\""

/-- The rows SQLite returns; `none` is an error. -/
def likeQuery (db : Db) (cmd : Str) : Option Db :=
  match lex cmd with
  | [.word a, .word b, .comma, .word c, .word d, .word e, .word f, .word g, .word h, .dq p] =>
    if [a, b, c, d, e, f, g, h] = [lit "SELECT", lit "KEYSTRING", lit "VALUESTRING", lit "FROM", lit "CONFIG", lit "WHERE", lit "KEYSTRING", lit "LIKE"] then
      if p.length ≤ 50000 then some (db.filter fun r => like p r.1) else none
    else none
  | _ => none

/-- One line of the output (`Configuration.cpp:851-858`). -/
def findLine (r : Str × Option Str) : Str :=
  cText r.1 ++ lit " " ++ (match r.2 with
    | some v => if cText v = [] then lit "(disabled)" else cText v
    | none => lit "(disabled)") ++ [10]

/-- `ConfigurationTable::find` (`Configuration.cpp:842-862`): what is written to the stream. -/
def findOut (db : Db) (pat : Str) : Str :=
  match likeQuery db (findCmd pat) with
  | some rows => rows.flatMap findLine
  | none => []

/-- `ConfigurationTable::getSimilarKeys` (`Configuration.cpp:643-655`); the map as a list in its order. -/
def getSimilarKeys (schema : List (Str × Key)) (snippet : Str) : List (Str × Key) :=
  schema.filter fun e => Utils.size_t (Utils.find e.1 snippet 0) ≠ 2 ^ 64 - 1

/-- One round of `getAllPairs` (`Configuration.cpp:875-884`); the key is never NULL (`Configuration.cpp:47`). -/
def pairStep (m : Str → Option Rec) (r : Str × Option Str) : Str → Option Rec :=
  put m (cText r.1) (some (match r.2 with
    | some v => ⟨cText v, true⟩
    | none => ⟨[], false⟩))

/-- `ConfigurationTable::getAllPairs` (`Configuration.cpp:865-890`). -/
def getAllPairs (db : Db) : Str → Option Rec := db.foldl pairStep fun _ => none

/-! ### Specification -/

/-- `p` occurs in `s` when capitals count as small letters. -/
def OccursFold (p s : Str) : Prop := ∃ a b c, s = a ++ b ++ c ∧ upper b = upper p

/-- A pattern without wildcards and quotes. -/
def PlainPattern (p : Str) : Prop := chr '%' ∉ p ∧ chr '_' ∉ p ∧ chr '"' ∉ p ∧ (0 : Byte) ∉ p

/-! ### Lemmas -/

theorem upper_cons (c : Byte) (s : Str) : upper (c :: s) = upper [c] ++ upper s := by simp [upper]

theorem upper_length (s : Str) : (upper s).length = s.length := by simp [upper]

theorem like_percent (p s : Str) : like (chr '%' :: p) s = (List.range (s.length + 1)).any fun i => like p (s.drop i) := by
  rw [like.eq_def]
  exact if_pos rfl

theorem like_char (c : Byte) (p s : Str) (h : c ≠ chr '%') : like (c :: p) s = match s with
      | [] => false
      | d :: t => (c = chr '_' || upper [c] = upper [d]) && like p t := by
  rw [like.eq_def]
  exact if_neg h

theorem like_any (s : Str) : like [chr '%'] s = true := by
  simp only [like, if_true, List.any_eq_true, List.mem_range]
  exact ⟨s.length, by omega, by simp⟩

theorem like_prefix (p s : Str) (h1 : chr '%' ∉ p) (h2 : chr '_' ∉ p) : like (p ++ [chr '%']) s = true ↔ ∃ b c, s = b ++ c ∧ upper b = upper p := by
  induction p generalizing s with
  | nil =>
    rw [List.nil_append, like_any]
    simp only [true_iff]
    exact ⟨[], s, rfl, rfl⟩
  | cons c p ih =>
    have hc1 : c ≠ chr '%' := fun e => h1 (by simp [e])
    have hc2 : c ≠ chr '_' := fun e => h2 (by simp [e])
    rw [List.cons_append, like_char _ _ _ hc1]
    cases s with
    | nil =>
      simp only [Bool.false_eq_true, false_iff]
      rintro ⟨b, t, e, hu⟩
      have : b = [] := by
        cases b with
        | nil => rfl
        | cons x b => cases e
      subst this
      have := congrArg List.length hu
      rw [upper_length, upper_length] at this
      cases this
    | cons d t =>
      simp only [hc2, decide_false, Bool.false_or, Bool.and_eq_true, decide_eq_true_eq]
      rw [ih t (fun h => h1 (by simp [h])) (fun h => h2 (by simp [h]))]
      constructor
      · rintro ⟨hu, b, t', rfl, hb⟩
        exact ⟨d :: b, t', rfl, by rw [upper_cons d b, upper_cons c p, hu, hb]⟩
      · rintro ⟨b, t', e, hb⟩
        cases b with
        | nil =>
          have := congrArg List.length hb
          rw [upper_length, upper_length] at this
          cases this
        | cons x b =>
          injection e with e1 e2
          subst e1
          rw [upper_cons d b, upper_cons c p] at hb
          obtain ⟨h3, h4⟩ := List.append_inj hb (by simp [upper])
          exact ⟨h3.symm, b, t', e2, h4⟩

theorem like_plain (p s : Str) (h1 : chr '%' ∉ p) (h2 : chr '_' ∉ p) : like (chr '%' :: (p ++ [chr '%'])) s = true ↔ OccursFold p s := by
  rw [like_percent, List.any_eq_true]
  constructor
  · rintro ⟨i, -, hl⟩
    obtain ⟨b, c, e, hu⟩ := (like_prefix p _ h1 h2).1 hl
    exact ⟨s.take i, b, c, by rw [List.append_assoc, ← e, List.take_append_drop], hu⟩
  · rintro ⟨a, b, c, rfl, hu⟩
    exact ⟨a.length, by simp; omega, (like_prefix p _ h1 h2).2 ⟨b, c, by simp, hu⟩⟩

theorem lex_find (pat : Str) (h : PlainPattern pat) : lex (findCmd pat) =
    [.word (lit "SELECT"), .word (lit "KEYSTRING"), .comma, .word (lit "VALUESTRING"), .word (lit "FROM"), .word (lit "CONFIG"), .word (lit "WHERE"),
      .word (lit "KEYSTRING"), .word (lit "LIKE"), .dq (chr '%' :: (pat ++ [chr '%']))] := by
  obtain ⟨h1, h2, h3, h4⟩ := h
  unfold lex findCmd
  rw [cText_self (by
    intro hm
    rcases List.mem_append.1 hm with hm | hm
    · rcases List.mem_append.1 hm with hm | hm
      · revert hm; decide +kernel
      · exact h4 hm
    · revert hm; decide +kernel)]
  rw [show lit "SELECT KEYSTRING,VALUESTRING FROM CONFIG WHERE KEYSTRING LIKE \"%" ++ pat ++ lit "%\"" =
    lit "SELECT KEYSTRING,VALUESTRING FROM CONFIG WHERE KEYSTRING LIKE \"" ++ ((chr '%' :: (pat ++ [chr '%'])) ++ [chr '"']) from by
      rw [show lit "SELECT KEYSTRING,VALUESTRING FROM CONFIG WHERE KEYSTRING LIKE \"%" = lit "SELECT KEYSTRING,VALUESTRING FROM CONFIG WHERE KEYSTRING LIKE \"" ++ [chr '%'] from by decide +kernel,
        show lit "%\"" = [chr '%', chr '"'] from by decide +kernel]
      simp]
  rw [lexGo_append, lexGo_append]
  rw [show lexRun .idle (lit "SELECT KEYSTRING,VALUESTRING FROM CONFIG WHERE KEYSTRING LIKE \"") = (.dq [], [.word (lit "SELECT"), .word (lit "KEYSTRING"), .comma, .word (lit "VALUESTRING"),
    .word (lit "FROM"), .word (lit "CONFIG"), .word (lit "WHERE"), .word (lit "KEYSTRING"), .word (lit "LIKE")]) from by decide +kernel]
  simp only
  rw [lexRun_dq0 _ (by
    intro hm
    rcases List.mem_cons.1 hm with hm | hm
    · revert hm; decide
    · rcases List.mem_append.1 hm with hm | hm
      · exact h3 hm
      · revert hm; decide)]
  rfl

/-! ### C98 -/

open Classical in
theorem find_lines (db : Db) (pat : Str) (h : PlainPattern pat) (hl : pat.length ≤ 49998) :
    findOut db pat = (db.filter fun r => decide (OccursFold pat r.1)).flatMap findLine := by
  unfold findOut likeQuery
  rw [lex_find pat h]
  simp only [if_true]
  rw [if_pos (by simp; omega)]
  simp only
  congr 1
  apply List.filter_congr
  intro r _
  have := like_plain pat r.1 h.1 h.2.1
  by_cases ho : OccursFold pat r.1
  · simp [ho, this.2 ho]
  · simp only [ho, decide_false]
    rw [Bool.eq_false_iff]
    exact fun hh => ho (this.1 hh)

open Classical in
/-- C98 (search in the table), partial: for a pattern without wildcards, quotes and NUL of at most 49998 characters, `find` prints exactly the rows whose key contains the pattern,
where capitals count as small letters, in the order of the table: the key, a blank and the value, or the word for no value.  Missing: wildcards, quotes (refuted below); NUL in the table. -/
theorem C98_find_partial (db : Db) (pat : Str) (h : PlainPattern pat) (hl : pat.length ≤ 49998) (hz : ∀ r ∈ db, (0 : Byte) ∉ r.1 ∧ ∀ v, r.2 = some v → (0 : Byte) ∉ v) :
    findOut db pat = (db.filter fun r => decide (OccursFold pat r.1)).flatMap fun r => r.1 ++ lit " " ++ (if r.2 = none ∨ r.2 = some [] then lit "(disabled)" else r.2.getD []) ++ lit "\n" := by
  rw [find_lines db pat h hl]
  have : ∀ r ∈ db.filter fun r => decide (OccursFold pat r.1), findLine r = r.1 ++ lit " " ++ (if r.2 = none ∨ r.2 = some [] then lit "(disabled)" else r.2.getD []) ++ lit "\n" := by
    intro r hr
    obtain ⟨h1, h2⟩ := hz r (List.mem_filter.1 hr).1
    unfold findLine
    rw [cText_self h1]
    cases hv : r.2 with
    | none => rfl
    | some v =>
      dsimp only
      rw [cText_self (h2 v hv)]
      by_cases e : v = []
      · rw [if_pos e, if_pos (Or.inr (by rw [e]))]; rfl
      · rw [if_neg e, if_neg (by simp [e])]; rfl
  generalize (db.filter fun r => decide (OccursFold pat r.1)) = rows at this
  induction rows with
  | nil => rfl
  | cons r rows ih => rw [List.flatMap_cons, List.flatMap_cons, this r List.mem_cons_self, ih fun x hx => this x (List.mem_cons_of_mem _ hx)]

/-- C98 (wildcards) is refuted: an underscore, common in keys, matches any character, and a percent sign anything. -/
theorem C98_wildcard_refuted : findOut [(lit "A_B", some (lit "1")), (lit "AxB", some (lit "2"))] (lit "A_B") = lit "A_B 1\nAxB 2\n" ∧
    findOut [(lit "AxB", some (lit "2"))] (lit "%") = lit "AxB 2\n" := by decide +kernel

/-- C98 (quotes) is refuted: with a double quote in the pattern nothing is printed, though the text occurs in a key. -/
theorem C98_quote_refuted : findOut [(lit "5\" disk", some (lit "1"))] (lit "5\"") = [] := by decide +kernel

/-- C98 (values) is refuted: a row with the text (disabled) looks like a row without value, and a value with a line feed like two rows. -/
theorem C98_value_refuted : findOut [(lit "A", some (lit "(disabled)"))] (lit "A") = findOut [(lit "A", none)] (lit "A") ∧
    findOut [(lit "A", some (lit "1\nAB 2"))] (lit "A") = findOut [(lit "A", some (lit "1")), (lit "AB", some (lit "2"))] (lit "A") := by decide +kernel

theorem find_some_iff (s p : Str) : Utils.find s p 0 ≠ none ↔ ∃ a c, s = a ++ p ++ c := by
  unfold Utils.find
  rw [Ne, List.find?_eq_none]
  simp only [Nat.zero_le, decide_true, Bool.true_and, List.mem_range, List.isPrefixOf_iff_prefix]
  constructor
  · intro h
    by_cases hh : ∃ a c, s = a ++ p ++ c
    · exact hh
    · exfalso; apply h
      rintro i hi ⟨c, hc⟩
      exact hh ⟨s.take i, c, by rw [List.append_assoc, hc, List.take_append_drop]⟩
  · rintro ⟨a, c, rfl⟩ h
    exact h a.length (by simp; omega) ⟨c, by simp⟩

/-- C98 (search in the schema): the keys returned are exactly those of the schema that contain the text, in the order of the schema, with their entries; all keys for the empty text. -/
theorem C98_similar (schema : List (Str × Key)) (snippet : Str) (hl : ∀ e ∈ schema, e.1.length < 2 ^ 63) :
    (getSimilarKeys schema snippet).Sublist schema ∧ (∀ e, e ∈ getSimilarKeys schema snippet ↔ e ∈ schema ∧ ∃ a c, e.1 = a ++ snippet ++ c) ∧ getSimilarKeys schema [] = schema := by
  have key : ∀ (sn : Str) (e : Str × Key), e ∈ schema → (Utils.size_t (Utils.find e.1 sn 0) ≠ 2 ^ 64 - 1 ↔ ∃ a c, e.1 = a ++ sn ++ c) := by
    intro sn e he
    rw [← find_some_iff]
    cases hf : Utils.find e.1 sn 0 with
    | none => simp [Utils.size_t]
    | some i =>
      have hi : i < e.1.length + 1 := by
        have := List.mem_of_find?_eq_some hf
        simpa using this
      have := hl e he
      simp only [Utils.size_t, ne_eq, reduceCtorEq, not_false_eq_true, iff_true]
      omega
  refine ⟨List.filter_sublist, ?_, ?_⟩
  · intro e
    unfold getSimilarKeys
    rw [List.mem_filter]
    constructor
    · rintro ⟨h1, h2⟩
      exact ⟨h1, (key snippet e h1).1 (by simpa using h2)⟩
    · rintro ⟨h1, h2⟩
      exact ⟨h1, by simpa using (key snippet e h1).2 h2⟩
  · unfold getSimilarKeys
    rw [List.filter_eq_self]
    intro e he
    simpa using (key [] e he).2 ⟨[], e.1, rfl⟩

/-- C98 (both searches agree) is refuted: the one in the schema distinguishes capitals, the one in the table does not. -/
theorem C98_case_refuted : getSimilarKeys [(lit "Log.Level", {})] (lit "level") = [] ∧ findOut [(lit "Log.Level", some (lit "INFO"))] (lit "level") = lit "Log.Level INFO\n" := by
  decide +kernel

example : findOut [(lit "Log.Level", some (lit "INFO")), (lit "GSM.Id", none), (lit "Log.File", some [])] (lit "LOG") = lit "Log.Level INFO\nLog.File (disabled)\n" ∧
    PlainPattern (lit "LOG") := by
  refine ⟨by decide +kernel, by decide +kernel, by decide +kernel, by decide +kernel, by decide +kernel⟩

/-! ### C99 -/

/-- Keys of the table are unique (`Configuration.cpp:47`) and hold no NUL. -/
def UniqueKeys (db : Db) : Prop := (db.map (·.1)).Nodup ∧ ∀ r ∈ db, (0 : Byte) ∉ r.1

theorem pairs_fold (db : Db) (hu : UniqueKeys db) (m : Str → Option Rec) (k : Str) :
    db.foldl pairStep m k = match db.find? (fun r => r.1 = k) with
      | some r => some (recOf (r.2.map cText))
      | none => m k := by
  induction db generalizing m with
  | nil => rfl
  | cons r db ih =>
    obtain ⟨h1, h2⟩ := hu
    rw [List.map_cons, List.nodup_cons] at h1
    rw [List.foldl_cons, ih ⟨h1.2, fun x hx => h2 x (by simp [hx])⟩]
    by_cases hk : r.1 = k
    · have hnone : db.find? (fun r => decide (r.1 = k)) = none := by
        rw [List.find?_eq_none]
        intro x hx hxk
        exact h1.1 (List.mem_map.2 ⟨x, hx, by rw [hk]; simpa using hxk⟩)
      rw [hnone, List.find?_cons_of_pos (by simpa using hk)]
      simp only [pairStep]
      rw [cText_self (h2 r (by simp)), hk]
      cases r.2 <;> simp [put, recOf]
    · rw [List.find?_cons_of_neg (by simpa using hk)]
      cases hf : db.find? (fun r => decide (r.1 = k)) with
      | some x => rfl
      | none =>
        simp only [pairStep]
        rw [cText_self (h2 r (by simp))]
        simp [put, Ne.symm hk]

/-- C99 (completeness): the pairs returned are those of the table, one for each row: the value as a text, or "not defined" for NULL; nothing for other keys. -/
theorem C99_pairs (db : Db) (hu : UniqueKeys db) (k : Str) :
    (∀ r ∈ db, r.1 = k → getAllPairs db k = some (recOf (r.2.map cText))) ∧ ((∀ r ∈ db, r.1 ≠ k) → getAllPairs db k = none) := by
  have hp := pairs_fold db hu (fun _ => none) k
  constructor
  · intro r hr hk
    unfold getAllPairs
    rw [hp]
    have : db.find? (fun r => decide (r.1 = k)) = some r := by
      clear hp
      induction db with
      | nil => cases hr
      | cons x db ih =>
        obtain ⟨h1, h2⟩ := hu
        rw [List.map_cons, List.nodup_cons] at h1
        rcases List.mem_cons.1 hr with rfl | hr'
        · rw [List.find?_cons_of_pos (by simpa using hk)]
        · have hx : x.1 ≠ k := fun e => h1.1 (List.mem_map.2 ⟨r, hr', by rw [hk, e]⟩)
          rw [List.find?_cons_of_neg (by simpa using hx)]
          exact ih ⟨h1.2, fun y hy => h2 y (by simp [hy])⟩ hr'
    rw [this]
  · intro h
    unfold getAllPairs
    rw [hp]
    have : db.find? (fun r => decide (r.1 = k)) = none := by
      rw [List.find?_eq_none]
      intro x hx hxk
      exact h x hx (by simpa using hxk)
    rw [this]

theorem stored_unique {db : Db} {k v : Str} (hu : UniqueKeys db) (hk : (0 : Byte) ∉ k) : UniqueKeys (stored db k v) := by
  obtain ⟨h1, h2⟩ := hu
  unfold stored
  constructor
  · rw [List.map_append, List.nodup_append]
    refine ⟨h1.sublist (List.filter_sublist.map _), by simp, ?_⟩
    intro a ha b hb
    obtain ⟨r, hr, rfl⟩ := List.mem_map.1 ha
    have := (List.mem_filter.1 hr).2
    simp at hb
    subst hb
    simpa using this
  · intro r hr
    rcases List.mem_append.1 hr with hr | hr
    · exact h2 r (List.mem_filter.1 hr).1
    · simp at hr; subst hr; exact hk

theorem filter_unique {db : Db} {p : Str × Option Str → Bool} (hu : UniqueKeys db) : UniqueKeys (db.filter p) :=
  ⟨hu.1.sublist (List.filter_sublist.map _), fun r hr => hu.2 r (List.mem_filter.1 hr).1⟩

theorem run_unique {s : Table} {ops : List Op} (hs : CleanSchema s.schema) (hc : ∀ op ∈ ops, CleanOp s.schema op) (hu : UniqueKeys s.db) : UniqueKeys (run s ops).db := by
  induction ops generalizing s with
  | nil => exact hu
  | cons op ops ih =>
    have hop := hc op (by simp)
    have h2 := (step_dbOk (m := contents s.db) hs hop (fun _ _ => rfl)).2
    have hn : UniqueKeys (step s op).db := by
      have set : ∀ k v, CleanKey k → CleanValue v → UniqueKeys (setStr s k v).1.db := by
        intro k v hk hv
        rw [setStr_clean s k v hk hv hs]
        exact stored_unique hu hk.2.2.1
      cases op with
      | set k v => exact set k v hop.1 hop.2
      | setNum k n => exact set k (intText n) hop (intText_clean n)
      | remove k =>
        show UniqueKeys (remove s k).1.db
        rw [remove_clean s k hop]
        exact filter_unique hu
      | purge => exact hu
      | read k =>
        show UniqueKeys (lookup s k).1.db
        rw [(lookup_db s k).1]; exact hu
      | validate k =>
        show UniqueKeys (touchSchema s k).db
        have : (touchSchema s k).db = s.db := by unfold touchSchema; split <;> rfl
        rw [this]; exact hu
      | tick t => exact hu
      | other t => exact hu
      | ext db => cases hop
    exact ih (by rw [h2]; exact hs) (by intro o ho; rw [h2]; exact hc o (by simp [ho])) hn

/-- C99 (after any history of clean events, as in C53): a key that was set and not removed is listed with the value most recently set; a key that was removed, or had no value at first
and was never set, is not listed with a value.  In particular the list never shows values from the cache. -/
theorem C99_history_partial (db : Db) (schema : Str → Option Key) (last now : Int) (ops : List Op) (k : Str) (hs : CleanSchema schema) (hc : ∀ op ∈ ops, CleanOp schema op)
    (hu : UniqueKeys db) (hk : CleanKey k) :
    (∀ v, idealRun (contents db) ops k = some v → getAllPairs (run (fresh db schema last now) ops).db k = some ⟨v, true⟩) ∧
      (idealRun (contents db) ops k = none → ∀ r, getAllPairs (run (fresh db schema last now) ops).db k = some r → r.defined = false) := by
  have h1 := (run_ok (m := contents db) (s := fresh db schema last now) hs hc (fun _ _ => rfl) (by intro x r _ hr; cases hr)).1 k hk
  have h2 := run_unique (s := fresh db schema last now) hs hc hu
  have hp := pairs_fold _ h2 (fun _ => none) k
  rw [contents] at h1
  unfold getAllPairs
  rw [hp]
  cases hf : (run (fresh db schema last now) ops).db.find? (fun r => decide (r.1 = k)) with
  | none =>
    rw [hf] at h1
    simp only [Option.bind_none, Option.map_none] at h1
    refine ⟨fun v hv => ?_, fun _ r hr => by cases hr⟩
    rw [← h1] at hv; cases hv
  | some x =>
    rw [hf] at h1
    simp only [Option.bind_some] at h1
    simp only
    rw [h1]
    refine ⟨fun v hv => by rw [hv]; rfl, fun hn r hr => ?_⟩
    rw [hn] at hr
    injection hr with hr
    rw [← hr]; rfl

example : UniqueKeys [(lit "A", some (lit "1")), (lit "B", none)] ∧
    getAllPairs (run (fresh [(lit "A", some (lit "1")), (lit "B", none)] (fun _ => none) 0 0) [.set (lit "C") (lit "x"), .remove (lit "A")]).db (lit "C") = some ⟨lit "x", true⟩ := by
  refine ⟨⟨by decide +kernel, by decide +kernel⟩, ?_⟩
  exact (C99_history_partial [(lit "A", some (lit "1")), (lit "B", none)] (fun _ => none) 0 0 [.set (lit "C") (lit "x"), .remove (lit "A")] (lit "C") (by intro _ _ h; cases h) (by
    intro op hop
    rcases List.mem_cons.1 hop with rfl | hop
    · exact ⟨by decide +kernel, by decide +kernel⟩
    · simp at hop; subst hop; exact (by decide +kernel : CleanKey (lit "A"))) ⟨by decide +kernel, by decide +kernel⟩ (by decide +kernel)).1 (lit "x") (by decide +kernel)

end Verif.Config
