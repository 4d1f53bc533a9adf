import Verif.Config.ValidProps
import Verif.Config.NumberProps
import Verif.Logger.Props

/-
Property C109: the keys every configuration has, and the start of the configuration (`Configuration.cpp:96-211,701-708,954-968`).
-/

namespace Verif.Config.Builtin
open Verif Verif.Config Verif.Config.Spec

/-- `ConfigurationKey` as far as the schema uses it (`Configuration.h:407-415`); visibility, units, scope and description are left out. -/
structure FullKey where
  dflt : Str
  type : KType
  valid : Str
  isStatic : Bool
deriving DecidableEq, Repr

/-- An entry of `mSchema`: a key, or one made by `ConfigurationKey()` (`Configuration.h:432-433`), whose type and flags were never set. -/
inductive Entry
  | key (k : FullKey)
  | unset

/-- The choices of `Log.Level` with their descriptions (`Configuration.cpp:166-173`). -/
def levelChoices : List (Str × Str) :=
  [(lit "EMERG", lit "EMERGENCY - report serious faults associated with service failure or hardware damage"),
   (lit "ALERT", lit "ALERT - report likely service disruption caused by misconfiguration or poor connectivity"),
   (lit "CRIT", lit "CRITICAL - report anomalous events that are likely to degrade service"),
   (lit "ERR", lit "ERROR - report internal errors of the software that may result in degradation of service in unusual circumstances"),
   (lit "WARNING", lit "WARNING - report anomalous events that may indicate a degradation of normal service"),
   (lit "NOTICE", lit "NOTICE - report anomalous events that probably do not affect service but may be of interest to network operators"),
   (lit "INFO", lit "INFORMATION - report normal events"),
   (lit "DEBUG", lit "DEBUG - only for use by developers and will degrade system performance")]

/-- The keys of CommonLibs (`Configuration.cpp:124-178`). -/
def builtin : List (Str × FullKey) :=
  [(lit "Control.NumSQLTries", ⟨lit "3", .valRange, lit "1:10", false⟩),
   (lit "Log.Alarms.Max", ⟨lit "20", .valRange, lit "10:20", false⟩),
   (lit "Log.File", ⟨[], .filepathOpt, [], false⟩),
   (lit "Log.Level", ⟨lit "NOTICE", .choice, described levelChoices, false⟩)]

/-- A `std::map` as list; the names are different. -/
def find (m : List (Str × FullKey)) (k : Str) : Option FullKey := (m.find? fun e => e.1 = k).map (·.2)

/-- `std::map::insert` of a range: existing keys are kept. -/
def insertAll (m : List (Str × FullKey)) : List (Str × FullKey) → List (Str × FullKey)
  | [] => m
  | e :: l => insertAll (if (find m e.1).isSome then m else m ++ [e]) l

/-- `gCmdName` (`Configuration.cpp:43`): 20 bytes. -/
def setByte (buf : Str) (i : Nat) (c : Byte) : Outcome Str := if i < buf.length then .ok (buf.set i c) else .ub

/-- Writing a text at a position. -/
def writeAt (buf : Str) (i : Nat) : Str → Outcome Str
  | [] => .ok buf
  | c :: s => (setByte buf i c).bind fun b => writeAt b (i + 1) s

/-- `strncpy(gCmdName,wCmdName,18); gCmdName[18] = 0; strcat(gCmdName,":")` (`Configuration.cpp:103-105`). -/
def setCmdName (buf name : Str) : Outcome Str :=
  (writeAt buf 0 (name.take 18 ++ List.replicate (18 - name.length) 0)).bind fun b =>
  (setByte b 18 0).bind fun b =>
  writeAt b (b.takeWhile (· ≠ 0)).length [chr ':', 0]

/-- What the constructor leaves behind: the schema and the cross check hook, `none` if it was never set. -/
structure Built where
  schema : List (Str × FullKey)
  hook : Option (Option (Str → List Str))

/-- The constructor (`Configuration.cpp:96-184`); `opened`: the database could be opened. -/
def construct (opened : Bool) (app : List (Str × FullKey)) : Built :=
  if opened then ⟨insertAll builtin app, some none⟩ else ⟨[], none⟩

/-- `setCrossCheckHook` (`Configuration.cpp:954-957`). -/
def setHook (b : Built) (f : Str → List Str) : Built := { b with hook := some (some f) }

/-- `crossCheck` (`Configuration.cpp:960-968`). -/
def crossCheck (b : Built) (k : Str) : Outcome (List Str) :=
  match b.hook with
  | none => .ub
  | some none => .ok []
  | some (some f) => .ok (f k)

/-- `isStatic` (`Configuration.cpp:701-708`). -/
def isStatic (schema : Str → Option Entry) (k : Str) : Outcome Bool :=
  match schema k with
  | some (.key e) => .ok e.isStatic
  | some .unset => .ub
  | none => .ok false

/-- `isValidValue` (`Configuration.cpp:361-366`) with its effect on the schema. -/
def validate (schema : Str → Option Entry) (k v : Str) : (Str → Option Entry) × Outcome Bool :=
  match schema k with
  | some (.key e) => (schema, isValidValue 64 e.type e.valid v)
  | some .unset => (schema, .ub)
  | none => (fun x => if x = k then some .unset else schema x, .ub)

/-! ### Proof -/

theorem find_append (m : List (Str × FullKey)) (e : Str × FullKey) (k : Str) : find (m ++ [e]) k = (find m k).or (if e.1 = k then some e.2 else none) := by
  unfold find
  rw [List.find?_append]
  cases hm : m.find? (fun e => decide (e.1 = k)) with
  | some x => simp
  | none =>
    by_cases he : e.1 = k <;> simp [he]

theorem find_insertAll : ∀ (app m : List (Str × FullKey)) (k : Str), find (insertAll m app) k = (find m k).or (find app k)
  | [], m, k => by simp [insertAll, find]
  | e :: l, m, k => by
    rw [insertAll, find_insertAll l]
    have hc : find (e :: l) k = if e.1 = k then some e.2 else find l k := by
      unfold find
      by_cases he : e.1 = k <;> simp [he]
    rw [hc]
    split
    · rename_i hs
      by_cases he : e.1 = k
      · rw [he] at hs
        obtain ⟨x, hx⟩ := Option.isSome_iff_exists.1 hs
        simp [hx]
      · rw [if_neg he]
    · rename_i hs
      rw [find_append]
      by_cases he : e.1 = k
      · rw [he] at hs
        simp [he, Option.not_isSome_iff_eq_none.1 hs]
      · simp [he]

/-- C109: if the database can be opened, the schema has every key of the application with its definition, and the four keys of CommonLibs with theirs, also if the application defines them; no others. -/
theorem C109_schema (app : List (Str × FullKey)) (k : Str) :
    find (construct true app).schema k = if k ∈ [lit "Control.NumSQLTries", lit "Log.Alarms.Max", lit "Log.File", lit "Log.Level"] then find builtin k else find app k := by
  show find (insertAll builtin app) k = _
  rw [find_insertAll]
  split
  · rename_i h
    have hs : (find builtin k).isSome = true := by
      simp only [List.mem_cons, List.not_mem_nil, or_false] at h
      rcases h with rfl | rfl | rfl | rfl <;> decide +kernel
    obtain ⟨x, hx⟩ := Option.isSome_iff_exists.1 hs
    rw [hx]; rfl
  · rename_i h
    have hn : find builtin k = none := by
      simp only [List.mem_cons, List.not_mem_nil, or_false, not_or] at h
      obtain ⟨h1, h2, h3, h4⟩ := h
      have g1 : ¬ lit "Control.NumSQLTries" = k := fun e => h1 e.symm
      have g2 : ¬ lit "Log.Alarms.Max" = k := fun e => h2 e.symm
      have g3 : ¬ lit "Log.File" = k := fun e => h3 e.symm
      have g4 : ¬ lit "Log.Level" = k := fun e => h4 e.symm
      simp [find, builtin, g1, g2, g3, g4]
    rw [hn]; rfl

example : find (construct true [(lit "Log.Level", ⟨lit "DEBUG", .choice, [], true⟩), (lit "My.Key", ⟨lit "1", .boolean, [], true⟩)]).schema (lit "Log.Level") = find builtin (lit "Log.Level") ∧
    find (construct true [(lit "Log.Level", ⟨lit "DEBUG", .choice, [], true⟩), (lit "My.Key", ⟨lit "1", .boolean, [], true⟩)]).schema (lit "My.Key") = some ⟨lit "1", .boolean, [], true⟩ :=
  ⟨(C109_schema _ _).trans (if_pos (by decide +kernel)), (C109_schema _ _).trans ((if_neg (by decide +kernel)).trans (by decide +kernel))⟩

/-- The choices are written as in the source, with `|` and a comma between. -/
example : described (levelChoices.drop 6) = lit "INFO|INFORMATION - report normal events,DEBUG|DEBUG - only for use by developers and will degrade system performance" := by decide +kernel

/-- C109: the accepted values of `Log.Level` are exactly the eight names of levels, and the logger understands each of them as its level; the default is one of them. -/
theorem C109_level (v : Str) : (isValidValue 64 .choice (described levelChoices) v = .ok true ↔ v ∈ levelChoices.map (·.1)) ∧
    (v ∈ levelChoices.map (·.1) → ∃ l, 0 ≤ l ∧ l ≤ 7 ∧ Logger.levelStringToInt v = l ∧ (levelChoices.map (·.1))[l.toNat]? = some v) ∧ lit "NOTICE" ∈ levelChoices.map (·.1) := by
  refine ⟨?_, ?_, by decide +kernel⟩
  · rw [C58_described_partial 64 (Or.inr rfl) levelChoices v (by decide) (by decide +kernel) (by decide +kernel)]
    simp
  · intro h
    simp only [levelChoices, List.map_cons, List.map_nil, List.mem_cons, List.not_mem_nil, or_false] at h
    rcases h with rfl | rfl | rfl | rfl | rfl | rfl | rfl | rfl
    · exact ⟨0, by decide +kernel⟩
    · exact ⟨1, by decide +kernel⟩
    · exact ⟨2, by decide +kernel⟩
    · exact ⟨3, by decide +kernel⟩
    · exact ⟨4, by decide +kernel⟩
    · exact ⟨5, by decide +kernel⟩
    · exact ⟨6, by decide +kernel⟩
    · exact ⟨7, by decide +kernel⟩

example : isValidValue 64 .choice (described levelChoices) (lit "DEBUG") = .ok true := (C109_level _).1.2 (by decide +kernel)

/-- C109 the other way round is refuted: the logger knows `ERROR`, which the configuration does not accept. -/
theorem C109_alias_refuted : Logger.levelStringToInt (lit "ERROR") = 3 ∧ isValidValue 64 .choice (described levelChoices) (lit "ERROR") ≠ .ok true := by
  refine ⟨by decide +kernel, fun h => ?_⟩
  have := (C109_level _).1.1 h
  revert this
  decide +kernel

/-- C109, partial: a value of `Control.NumSQLTries` or `Log.Alarms.Max` written in decimal without leading zero is accepted exactly if it is in the range, and is then read as that number.
Missing: values with a leading zero, see `C109_octal_refuted`. -/
theorem C109_range_partial (d : Nat) (ds : List Nat) (hd : d ≠ 0) (hds : ∀ x ∈ d :: ds, x < 10) (hn : (Nat.ofDigits 10 (d :: ds).reverse : Nat) ≤ 2 ^ 31 - 1) :
    let v := digits (d :: ds)
    let n : Nat := Nat.ofDigits 10 (d :: ds).reverse
    isValidValue 64 .valRange (lit "1:10") v = .ok (decide (1 ≤ n ∧ n ≤ 10)) ∧ isValidValue 64 .valRange (lit "10:20") v = .ok (decide (10 ≤ n ∧ n ≤ 20)) ∧ strtol0 v = n := by
  intro v n
  have hv : Signed v n := Or.inl ⟨Nat.ofDigits 10 (d :: ds).reverse, ⟨d :: ds, by simp, hds, rfl, rfl⟩, rfl⟩
  have s1 : Signed (lit "1") 1 := Or.inl ⟨1, ⟨[1], by simp, by simp, by decide, by decide⟩, rfl⟩
  have s10 : Signed (lit "10") 10 := Or.inl ⟨10, ⟨[1, 0], by simp, by simp, by decide, by decide⟩, rfl⟩
  have s20 : Signed (lit "20") 20 := Or.inl ⟨20, ⟨[2, 0], by simp, by simp, by decide, by decide⟩, rfl⟩
  have hn' : -(2 ^ 31) ≤ (n : Int) ∧ (n : Int) ≤ 2 ^ 31 - 1 := by
    have : n ≤ 2 ^ 31 - 1 := hn
    omega
  refine ⟨?_, ?_, ?_⟩
  · have := C60_range_partial 64 (Or.inr rfl) (lit "1") (lit "10") v none 1 10 n s1 s10 hv (by omega) (by omega) hn' (by decide)
    rw [show range (lit "1") (lit "10") none = lit "1:10" from by decide] at this
    rw [this]
    congr 1
    exact decide_eq_decide.2 (by omega)
  · have := C60_range_partial 64 (Or.inr rfl) (lit "10") (lit "20") v none 10 20 n s10 s20 hv (by omega) (by omega) hn' (by decide)
    rw [show range (lit "10") (lit "20") none = lit "10:20" from by decide] at this
    rw [this]
    congr 1
    exact decide_eq_decide.2 (by omega)
  · have := C55_decimal d ds hd hds
    show strtol0 ((d :: ds).map _) = _
    refine this.trans ?_
    show min ((n : Int)) _ = n
    omega

example : digits [1, 5] = lit "15" ∧ isValidValue 64 .valRange (lit "10:20") (lit "15") = .ok true := by decide +kernel

/-- C109 is refuted for a leading zero: the value is accepted as decimal but read as octal, out of the range. -/
theorem C109_octal_refuted : isValidValue 64 .valRange (lit "1:10") (lit "09") = .ok true ∧ strtol0 (lit "09") = 0 ∧
    isValidValue 64 .valRange (lit "10:20") (lit "010") = .ok true ∧ strtol0 (lit "010") = 8 := by decide +kernel

/-- C109: the defaults of the four keys are themselves accepted. -/
theorem C109_defaults (k : Str) (e : FullKey) (h : find builtin k = some e) : isValidValue 64 e.type e.valid e.dflt = .ok true ∧ e.isStatic = false := by
  have hm : (k, e) ∈ builtin := by
    unfold find at h
    obtain ⟨x, hx, rfl⟩ := Option.map_eq_some_iff.1 h
    have := List.find?_some hx
    have hk : x.1 = k := by simpa using this
    subst hk
    exact List.mem_of_find?_eq_some hx
  simp only [builtin, List.mem_cons, List.not_mem_nil, or_false, Prod.mk.injEq] at hm
  rcases hm with ⟨-, rfl⟩ | ⟨-, rfl⟩ | ⟨-, rfl⟩ | ⟨-, rfl⟩
  · decide +kernel
  · decide +kernel
  · decide +kernel
  · exact ⟨(C109_level _).1.2 (by decide +kernel), rfl⟩

example : (find builtin (lit "Log.File")).map (·.dflt) = some [] := by decide +kernel

theorem writeAt_ok : ∀ (s buf : Str) (i : Nat), i + s.length ≤ buf.length → writeAt buf i s = .ok (buf.take i ++ s ++ buf.drop (i + s.length))
  | [], buf, i, _ => by simp [writeAt]
  | c :: s, buf, i, h => by
    simp only [List.length_cons] at h
    have hi : i < buf.length := by omega
    rw [writeAt, setByte, if_pos hi]
    show writeAt (buf.set i c) (i + 1) s = _
    rw [writeAt_ok s _ _ (by rw [List.length_set]; omega)]
    congr 1
    have e1 : (buf.set i c).take (i + 1) = buf.take i ++ [c] := by
      rw [List.take_set, List.take_succ_eq_append_getElem hi, List.set_append_right _ _ (by simp)]
      simp [Nat.min_eq_left hi.le]
    have e2 : (buf.set i c).drop (i + 1 + s.length) = buf.drop (i + (c :: s).length) := by
      rw [List.drop_set_of_lt (by omega)]
      congr 1
      simp; omega
    rw [e1, e2]
    simp

theorem takeWhile_zero {a b : Str} (h : (0 : Byte) ∉ a) : (a ++ 0 :: b).takeWhile (· ≠ 0) = a := by
  have hp : ∀ x ∈ a, (decide (x ≠ 0)) = true := fun x hx => decide_eq_true fun e => h (e ▸ hx)
  rw [List.takeWhile_append_of_pos hp, List.takeWhile_cons_of_neg (by simp), List.append_nil]

/-- C109: the name of the program is stored without writing outside the buffer, however long it is, and whatever the buffer held: its first 18 characters and a colon. -/
theorem C109_name (buf name : Str) (hb : buf.length = 20) (h0 : (0 : Byte) ∉ name) : ∃ b, setCmdName buf name = .ok b ∧ b.length = 20 ∧ b.takeWhile (· ≠ 0) = name.take 18 ++ lit ":" := by
  have h1 := writeAt_ok (name.take 18 ++ List.replicate (18 - name.length) 0) buf 0 (by simp; omega)
  have hl : (name.take 18 ++ List.replicate (18 - name.length) (0 : Byte)).length = 18 := by simp; omega
  rw [hl, List.take_zero, List.nil_append] at h1
  obtain ⟨x, y, hxy⟩ : ∃ x y, buf.drop (0 + 18) = [x, y] := by
    have : (buf.drop (0 + 18)).length = 2 := by rw [List.length_drop, hb]
    exact List.length_eq_two.1 this
  rw [hxy] at h1
  have h2 : setByte (name.take 18 ++ List.replicate (18 - name.length) 0 ++ [x, y]) 18 0 = .ok (name.take 18 ++ 0 :: (List.replicate (18 - name.length) 0 ++ [y])) := by
    rw [setByte, if_pos (by rw [List.length_append, hl]; simp), List.set_append_right _ _ (by rw [hl]), hl]
    congr 1
    have : ∀ k : Nat, List.replicate k (0 : Byte) ++ [0, y] = 0 :: (List.replicate k 0 ++ [y]) := by
      intro k
      induction k with
      | zero => rfl
      | succ k ih => rw [List.replicate_succ, List.cons_append, ih, List.cons_append]
    simp only [Nat.sub_self, List.set_cons_zero, List.append_assoc, this]
  have h0' : (0 : Byte) ∉ name.take 18 := fun h => h0 (List.mem_of_mem_take h)
  have hlen : (name.take 18 ++ 0 :: (List.replicate (18 - name.length) 0 ++ [y])).length = 20 := by simp; omega
  have h3 := writeAt_ok [chr ':', 0] (name.take 18 ++ 0 :: (List.replicate (18 - name.length) 0 ++ [y])) (name.take 18).length (by rw [hlen]; simp)
  have h4 : setCmdName buf name = writeAt (name.take 18 ++ 0 :: (List.replicate (18 - name.length) 0 ++ [y])) (name.take 18).length [chr ':', 0] := by
    unfold setCmdName
    rw [h1]
    show ((setByte _ 18 0).bind fun b => _) = _
    rw [h2]
    show writeAt _ _ _ = _
    rw [takeWhile_zero h0']
  rw [h3] at h4
  refine ⟨_, h4, ?_, ?_⟩
  · simp only [List.length_append, List.length_take, List.length_drop, hlen, List.length_cons, List.length_nil]
    omega
  · generalize List.drop _ (name.take 18 ++ 0 :: (List.replicate (18 - name.length) 0 ++ [y])) = z
    rw [List.take_left, show name.take 18 ++ [chr ':', 0] ++ z = (name.take 18 ++ lit ":") ++ 0 :: z from by simp; rfl]
    refine takeWhile_zero fun h => ?_
    rcases List.mem_append.1 h with h | h
    · exact h0' h
    · revert h; decide

example : (setCmdName (List.replicate 20 0) (lit "OpenBTS-with-a-long-name")).bind (fun b => .ok (b.takeWhile (· ≠ 0))) = .ok (lit "OpenBTS-with-a-lon:") := by decide +kernel

/-- A client of the table calls `setCrossCheckHook` with a function or `crossCheck` with a key. -/
inductive HookCall where
  | set (f : Str → List Str)
  | check (k : Str)

/-- What the calls of `crossCheck` of a sequence of calls give. -/
def hookRun : Built → List HookCall → Outcome (List (List Str))
  | _, [] => .ok []
  | c, .set f :: rest => hookRun (setHook c f) rest
  | c, .check k :: rest => (crossCheck c k).bind fun r => (hookRun c rest).bind fun rs => .ok (r :: rs)

/-- Specification: every check is answered by the function given last. -/
def hookSpec : (Str → List Str) → List HookCall → List (List Str)
  | _, [] => []
  | _, .set f :: rest => hookSpec f rest
  | f, .check k :: rest => f k :: hookSpec f rest

theorem hookRun_set (c : Built) (f : Str → List Str) (ops : List HookCall) : hookRun (setHook c f) ops = .ok (hookSpec f ops) := by
  induction ops generalizing c f with
  | nil => rfl
  | cons op rest ih =>
    cases op with
    | set g => exact ih _ g
    | check k =>
      have h : crossCheck (setHook c f) k = .ok (f k) := rfl
      simp only [hookRun, h, Outcome.bind, ih c f, hookSpec]

/-- C109: in any sequence of calls, every cross check is done by the hook set last, with its key; before a hook is set it finds nothing.  If the database could not be
opened, this holds once a hook is set. -/
theorem C109_hook (app : List (Str × FullKey)) (ops : List HookCall) : hookRun (construct true app) ops = .ok (hookSpec (fun _ => []) ops) ∧
    ∀ f, hookRun (construct false app) (.set f :: ops) = .ok (hookSpec f ops) := by
  refine ⟨?_, fun f => hookRun_set _ f ops⟩
  induction ops with
  | nil => rfl
  | cons op rest ih =>
    cases op with
    | set g => exact hookRun_set _ g rest
    | check k =>
      have h : crossCheck (construct true app) k = .ok [] := rfl
      simp only [hookRun, h, Outcome.bind, ih, hookSpec]

example : hookRun (construct true []) [.check (lit "a"), .set (fun k => [k]), .check (lit "b"), .set (fun _ => [lit "c"]), .check (lit "d")] = .ok [[], [lit "b"], [lit "c"]] := by
  decide +kernel

/-- C109 is refuted if the database cannot be opened: the schema is empty, so that the keys of CommonLibs have no defaults, and the cross check follows a pointer never set. -/
theorem C109_open_refuted (app : List (Str × FullKey)) (k : Str) : find (construct false app).schema k = none ∧ crossCheck (construct false app) k = .ub := ⟨rfl, rfl⟩

/-- C109: without validation of unknown keys, `isStatic` is the flag of the schema, false for keys not in it. -/
theorem C109_static_partial (m : List (Str × FullKey)) (k : Str) : isStatic (fun x => (find m x).map .key) k = .ok (match find m k with | some e => e.isStatic | none => false) := by
  unfold isStatic
  cases h : find m k <;> simp [h]

example : isStatic (fun x => (find builtin x).map .key) (lit "Log.Level") = .ok false := C109_static_partial builtin _

/-- C109 is refuted for keys not in the schema: validating a value reads a type never set, and leaves an entry whose flag, never set, `isStatic` then reads. -/
theorem C109_unknown_refuted (m : List (Str × FullKey)) (k v : Str) (h : find m k = none) : let r := validate (fun x => (find m x).map .key) k v
    r.2 = .ub ∧ isStatic r.1 k = .ub := by
  unfold validate isStatic
  simp [h]

example : find builtin (lit "No.Such.Key") = none := by decide +kernel

end Verif.Config.Builtin
