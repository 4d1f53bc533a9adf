import Verif.Logger.Model
import Verif.Config.HashProps
import Verif.Config.TableProps

/-
C63 (cache), C64, C65, C66, C78.
-/

namespace Verif.Logger
open Verif.Config

/-! ### C64 -/

theorem trim_drop (m : Nat) : ∀ l : List Str, trim m l = l.drop (l.length - m) := by
  intro l
  induction l with
  | nil => simp [trim]
  | cons x l ih =>
    rw [trim]
    by_cases h : l.length + 1 > m
    · rw [if_pos h, ih, List.length_cons, show l.length + 1 - m = (l.length - m) + 1 by omega, List.drop_succ_cons]
    · rw [if_neg h, List.length_cons, show l.length + 1 - m = 0 by omega, List.drop_zero]

theorem addAlarms_append (a : Alarms) (l r : List (Str × Option Int)) : addAlarms a (l ++ r) = (addAlarms a l).bind fun b => addAlarms b r := by
  induction l generalizing a with
  | nil => rfl
  | cons x l ih =>
    obtain ⟨s, m⟩ := x
    rw [List.cons_append, addAlarms, addAlarms]
    cases addAlarm a s m with
    | ok b => exact ih b
    | assertFail => rfl
    | ub => rfl
    | diverge => rfl

/-- C64: for every history of alarms and limits, the list is the history without its first `d` alarms, where alarm `i` is still there exactly when it was among the newest `limit` alarms
at that time and at all later times.  Limits are as `unsigned` numbers. -/
theorem C64_kept (h : List (Str × Int)) : ∃ d, addAlarms {} (h.map fun p => (p.1, some p.2)) = .ok ⟨(h.map (·.1)).drop d, false⟩ ∧
    ∀ i, i < h.length → (d ≤ i ↔ ∀ j p, i ≤ j → h[j]? = some p → ((j - i : Nat) : Int) < uwrap32 p.2) := by
  suffices ∀ n, ∀ h : List (Str × Int), h.length = n → ∃ d, d ≤ h.length ∧ addAlarms {} (h.map fun p => (p.1, some p.2)) = .ok ⟨(h.map (·.1)).drop d, false⟩ ∧
      ∀ i, i < h.length → (d ≤ i ↔ ∀ j p, i ≤ j → h[j]? = some p → ((j - i : Nat) : Int) < uwrap32 p.2) by
    obtain ⟨d, -, h1, h2⟩ := this h.length h rfl
    exact ⟨d, h1, h2⟩
  intro n
  induction n with
  | zero =>
    intro h hn
    have := List.length_eq_zero_iff.1 hn
    subst this
    exact ⟨0, Nat.le_refl _, rfl, by simp⟩
  | succ n ih =>
    intro h hn
    have hne : h ≠ [] := by intro e; rw [e] at hn; simp at hn
    obtain ⟨h', ⟨s, m⟩, rfl⟩ : ∃ h' x, h = h' ++ [x] := ⟨h.dropLast, h.getLast hne, (List.dropLast_concat_getLast hne).symm⟩
    have hn' : h'.length = n := by simpa using hn
    obtain ⟨d, hd, h1, h2⟩ := ih h' hn'
    have hu : 0 ≤ uwrap32 m := Int.emod_nonneg _ (by omega)
    refine ⟨max d (h'.length + 1 - (uwrap32 m).toNat), ?_, ?_, ?_⟩
    · simp; omega
    · rw [List.map_append, addAlarms_append, h1]
      simp only [List.map_cons, List.map_nil, addAlarms, addAlarm, Bool.false_eq_true, if_false, Outcome.bind]
      have e : List.drop d (h'.map (·.1)) ++ [s] = List.drop d ((h' ++ [(s, m)]).map (·.1)) := by
        rw [List.map_append, List.drop_append_of_le_length (by rw [List.length_map]; omega)]
        rfl
      rw [e, trim_drop, List.drop_drop]
      simp only [List.length_drop, List.length_map, List.length_append, List.length_singleton]
      congr 3
      omega
    · intro i hi
      have hi : i < h'.length + 1 := by simpa using hi
      have last : (h' ++ [(s, m)])[h'.length]? = some (s, m) := by simp
      constructor
      · intro hm j p hij hp
        by_cases hj : j < h'.length
        · rw [List.getElem?_append_left hj] at hp
          exact (h2 i (by omega)).1 (by omega) j p hij hp
        · have : j = h'.length := by
            have := (List.getElem?_eq_some_iff.1 hp).1
            simp at this
            omega
          subst this
          rw [last] at hp
          cases hp
          simp only
          omega
      · intro hall
        have e1 := hall h'.length (s, m) (by omega) last
        simp only at e1
        by_cases hi' : i < h'.length
        · have := (h2 i hi').2 (fun j p hij hp => hall j p hij (by rw [List.getElem?_append_left (List.getElem?_eq_some_iff.1 hp).1]; exact hp))
          omega
        · omega

/-- C64 (partial: missing are limits outside 0..2^32-1, see C64_wrap_refuted, no limit at all, see C64_undefined_refuted, and limits that change, see C64_kept): with a constant limit the list holds
the newest `m` alarms, oldest first, and `gGetLoggerAlarms` returns it. -/
theorem C64_constant_partial (h : List Str) (m : Nat) (hm : m < 2 ^ 32) : ∃ a, addAlarms {} (h.map fun s => (s, some (m : Int))) = .ok a ∧ gGetLoggerAlarms a = .ok (h.drop (h.length - m)) := by
  obtain ⟨d, h1, h2⟩ := C64_kept (h.map fun s => (s, (m : Int)))
  rw [List.map_map] at h1
  have e : uwrap32 (m : Int) = m := by unfold uwrap32; omega
  refine ⟨_, h1, ?_⟩
  have copy : ∀ (l acc : List Str), l.foldl (fun ret x => ret ++ [x]) acc = acc ++ l := by
    intro l
    induction l with
    | nil => simp
    | cons x l ih => intro acc; rw [List.foldl_cons, ih]; simp
  simp only [gGetLoggerAlarms, Bool.false_eq_true, if_false, copy, List.nil_append, List.map_map]
  rw [show ((fun p : Str × Int => p.1) ∘ fun s => (s, (m : Int))) = id from rfl, List.map_id]
  have key : ∀ i, i < h.length → (d ≤ i ↔ h.length - m ≤ i) := by
    intro i hi
    rw [h2 i (by simpa using hi)]
    constructor
    · intro hall
      have := hall (h.length - 1) (h[h.length - 1], (m : Int)) (by omega) (by simp)
      simp only [e] at this
      omega
    · intro hl j p hij hp
      rw [List.getElem?_map, Option.map_eq_some_iff] at hp
      obtain ⟨x, hx, rfl⟩ := hp
      have := (List.getElem?_eq_some_iff.1 hx).1
      simp only [e]
      omega
  rw [Outcome.ok.injEq]
  by_cases hd : d < h.length
  · have k1 := (key d hd).1 (Nat.le_refl _)
    by_cases hp : h.length - m < h.length
    · have k2 := (key (h.length - m) hp).2 (Nat.le_refl _)
      rw [show d = h.length - m by omega]
    · omega
  · rw [List.drop_of_length_le (by omega)]
    by_cases hp : h.length - m < h.length
    · have k2 := (key (h.length - m) hp).2 (Nat.le_refl _)
      omega
    · rw [List.drop_of_length_le (by omega)]

/-- C64 (negation): the limit is cut to 32 bits: 2^32 keeps nothing, -1 everything. -/
theorem C64_wrap_refuted : addAlarms {} [(lit "a", some (2 ^ 32)), (lit "b", some (2 ^ 32))] = .ok ⟨[], false⟩ ∧ addAlarms {} [(lit "a", some (-1)), (lit "b", some (-1))] = .ok ⟨[lit "a", lit "b"], false⟩ := by
  decide +kernel

/-- C64 (negation): if the limit is not configured, the first alarm leaves the list locked; the next alarm and every look at the list by another thread wait for ever. -/
theorem C64_undefined_refuted (s : Str) (s' : Str) (l : Option Int) : ∃ a, addAlarm {} s none = .ok a ∧ addAlarm a s' l = .diverge ∧ gGetLoggerAlarms a = .diverge := ⟨_, rfl, rfl, rfl⟩

/-- C64 (negation): alarms dropped under a smaller limit do not come back when it is raised. -/
theorem C64_raise_refuted : addAlarms {} [(lit "a", some 5), (lit "b", some 1), (lit "c", some 5)] = .ok ⟨[lit "b", lit "c"], false⟩ := by decide +kernel

/-- C64: a history. -/
example : addAlarms {} [(lit "a", some 2), (lit "b", some 2), (lit "c", some 2)] = .ok ⟨[lit "b", lit "c"], false⟩ := by decide +kernel

/-! ### C65 -/

/-- A history of checks: what the configuration said at that time, and the file. -/
def checks (c : LevelCache) : List ((Str → Option Int) × Str) → LevelCache
  | [] => c
  | (cfg, f) :: r => checks (check c cfg f).1 r

/-- The newest `n` entries. -/
def newest {α : Type} (n : Nat) (l : List α) : List α := l.drop (l.length - n)

theorem newest_append {α : Type} (n : Nat) (l : List α) (x : α) : newest (n + 1) (l ++ [x]) = newest n l ++ [x] := by
  unfold newest
  rw [List.length_append, List.length_singleton, show l.length + 1 - (n + 1) = l.length - n by omega, List.drop_append_of_le_length (by omega)]

/-- What is in the cache was obtained in the newest `count` checks. -/
def CacheInv (h : List ((Str → Option Int) × Str)) (c : LevelCache) : Prop :=
  c.count ≤ 1001 ∧ ∀ k l, c.cache k = some l → ∃ p ∈ newest c.count h, Config.hash p.2 = k ∧ p.1 p.2 = some l

theorem check_inv {h : List ((Str → Option Int) × Str)} {c : LevelCache} (hc : CacheInv h c) (cfg : Str → Option Int) (f : Str) :
    CacheInv (h ++ [(cfg, f)]) (check c cfg f).1 ∧ ∃ p ∈ newest 1000 h ++ [(cfg, f)], Config.hash p.2 = Config.hash f ∧ (check c cfg f).2 = p.1 p.2 := by
  -- the state after a possible flush
  have key : ∃ c1 : LevelCache, c1.count ≤ 1000 ∧ CacheInv h c1 ∧ beginCheck c f = ({ c1 with count := c1.count + 1 }, c1.cache (Config.hash f)) := by
    unfold beginCheck
    by_cases hf : c.count > 1000
    · exact ⟨{}, by simp, ⟨by simp, by simp⟩, by simp only; rw [if_pos hf]⟩
    · exact ⟨c, by omega, hc, by simp only; rw [if_neg hf]⟩
  obtain ⟨c1, h1, h2, h3⟩ := key
  have old : ∀ k l, c1.cache k = some l → ∃ p ∈ newest (c1.count + 1) (h ++ [(cfg, f)]), Config.hash p.2 = k ∧ p.1 p.2 = some l := by
    intro k l hk
    obtain ⟨p, hp, hp2⟩ := h2.2 k l hk
    exact ⟨p, by rw [newest_append]; simp [hp], hp2⟩
  unfold check
  rw [h3]
  cases hk : c1.cache (Config.hash f) with
  | some l =>
    simp only
    refine ⟨⟨by simp only; omega, old⟩, ?_⟩
    obtain ⟨p, hp, hp2, hp3⟩ := h2.2 _ l hk
    refine ⟨p, ?_, hp2, hp3.symm⟩
    rw [List.mem_append]
    left
    unfold newest at hp ⊢
    exact (List.drop_suffix_drop_left h (by omega)).subset hp
  | none =>
    simp only
    cases hcfg : cfg f with
    | none => exact ⟨⟨by simp only; omega, old⟩, (cfg, f), by simp, rfl, hcfg.symm⟩
    | some l =>
      simp only
      refine ⟨⟨by simp only [endCheck]; omega, ?_⟩, (cfg, f), by simp, rfl, hcfg.symm⟩
      intro k l' hk'
      simp only [endCheck] at hk' ⊢
      by_cases e : k = Config.hash f
      · rw [if_pos e, e, hk, Option.none_or, Option.some.injEq] at hk'
        subst hk'
        exact ⟨(cfg, f), by rw [newest_append]; simp, e.symm, hcfg⟩
      · rw [if_neg e] at hk'
        exact old k l' hk'

theorem checks_append (c : LevelCache) (h : List ((Str → Option Int) × Str)) (x : (Str → Option Int) × Str) : checks c (h ++ [x]) = (check (checks c h) x.1 x.2).1 := by
  induction h generalizing c with
  | nil => rfl
  | cons y h ih => exact ih _

theorem checks_inv (h : List ((Str → Option Int) × Str)) : CacheInv h (checks {} h) := by
  suffices ∀ n h, h.length = n → CacheInv h (checks {} h) from this _ h rfl
  intro n
  induction n with
  | zero =>
    intro h hn
    have := List.length_eq_zero_iff.1 hn
    subst this
    exact ⟨by simp [checks], by simp [checks]⟩
  | succ n ih =>
    intro h hn
    have hne : h ≠ [] := by intro e; rw [e] at hn; simp at hn
    obtain ⟨h', x, rfl⟩ : ∃ h' x, h = h' ++ [x] := ⟨h.dropLast, h.getLast hne, (List.dropLast_concat_getLast hne).symm⟩
    rw [checks_append]
    exact (check_inv (ih h' (by simpa using hn)) x.1 x.2).1

/-- C65 (partial: missing are threads that interrupt each other, see C65_threads_refuted): for every history of checks and every course of the configuration, the level was obtained from the configuration
at this check or one of the 1000 before it, for a file whose name has the same hash. -/
theorem C65_recent_partial (h : List ((Str → Option Int) × Str)) (cfg : Str → Option Int) (f : Str) :
    ∃ p ∈ newest 1000 h ++ [(cfg, f)], Config.hash p.2 = Config.hash f ∧ (check (checks {} h) cfg f).2 = p.1 p.2 := (check_inv (checks_inv h) cfg f).2

/-- C65 (partial, as before, and missing are colliding names): if no other file checked has the same hash, the level is one the file itself had at this check or one of the 1000 before. -/
theorem C65_own_level_partial (h : List ((Str → Option Int) × Str)) (cfg : Str → Option Int) (f : Str) (hf : ∀ p ∈ h, Config.hash p.2 = Config.hash f → p.2 = f) :
    ∃ p ∈ newest 1000 h ++ [(cfg, f)], p.2 = f ∧ (check (checks {} h) cfg f).2 = p.1 f := by
  obtain ⟨p, hp, h1, h2⟩ := C65_recent_partial h cfg f
  have e : p.2 = f := by
    rcases List.mem_append.1 hp with h' | h'
    · exact hf p ((List.drop_suffix _ h).subset h') h1
    · rw [List.mem_singleton.1 h']
  exact ⟨p, hp, e, by rw [h2, e]⟩

/-- C63 (negation, for the level cache): a file gets the level of another one with the same hash. -/
theorem C63_cache_refuted : let f := lit "aCohaukgtypCd.cpp"; let g := lit "mAamAiDqcevjm.cpp"
    (check (checks {} [(fun x => if x = f then some 7 else some 3, f)]) (fun x => if x = f then some 7 else some 3) g).2 = some 7 := by decide +kernel

theorem count_le (c : LevelCache) (cfg : Str → Option Int) (f : Str) : (check c cfg f).1.count = (if c.count > 1000 then 0 else c.count) + 1 := by
  have e : (beginCheck c f).1.count = (if c.count > 1000 then 0 else c.count) + 1 := by
    unfold beginCheck
    simp only
    split <;> rfl
  unfold check
  split
  · rename_i c1 l h; rw [h] at e; exact e
  · rename_i c1 h
    rw [h] at e
    split
    · exact e
    · exact e

theorem check_other (c : LevelCache) (cfg : Str → Option Int) (g : Str) (k : BitVec 64) (hk : k ≠ Config.hash g) (h : c.cache k = none) : (check c cfg g).1.cache k = none := by
  have e : (beginCheck c g).1.cache k = none := by
    unfold beginCheck
    simp only
    split
    · rfl
    · exact h
  unfold check
  split
  · rename_i c1 l h; rw [h] at e; exact e
  · rename_i c1 h
    rw [h] at e
    split
    · simp only [endCheck]; rw [if_neg hk]; exact e
    · exact e

theorem checks_other (cfg : Str → Option Int) (g : Str) (k : BitVec 64) (hk : k ≠ Config.hash g) : ∀ (n : Nat) (c : LevelCache), c.cache k = none → (checks c (List.replicate n (cfg, g))).cache k = none := by
  intro n
  induction n with
  | zero => exact fun c h => h
  | succ n ih => exact fun c h => ih _ (check_other c cfg g k hk h)

/-- C65 (negation, with threads): a thread that is interrupted between asking the configuration and storing the answer stores an answer of any age, and other checks then use it.
The first thread asks when the level is 7, then another thread makes `n` checks under the new configuration, in which the level is 3, then the first one stores 7, and a check returns 7. -/
theorem C65_threads_refuted (f g : Str) (hfg : Config.hash f ≠ Config.hash g) (N : Nat) : ∃ n ≥ N, (beginCheck {} f).2 = none ∧
    (check (endCheck (checks (beginCheck {} f).1 (List.replicate n (fun _ => some 3, g))) f 7) (fun _ => some 3) f).2 = some 7 := by
  have key : ∃ n ≥ N, (checks (beginCheck {} f).1 (List.replicate n (fun _ => some 3, g))).count ≤ 1000 := by
    by_cases h : (checks (beginCheck {} f).1 (List.replicate N (fun _ => some 3, g))).count ≤ 1000
    · exact ⟨N, Nat.le_refl _, h⟩
    · refine ⟨N + 1, by omega, ?_⟩
      rw [List.replicate_succ', checks_append, count_le, if_pos (by omega)]
      omega
  obtain ⟨n, hn, h1⟩ := key
  refine ⟨n, hn, rfl, ?_⟩
  have h2 := checks_other (fun _ => some 3) g (Config.hash f) hfg n (beginCheck {} f).1 rfl
  generalize checks (beginCheck {} f).1 (List.replicate n (fun _ => some 3, g)) = c at h1 h2
  have e : beginCheck (endCheck c f 7) f = ({ endCheck c f 7 with count := c.count + 1 }, some 7) := by
    have hc : ¬ (endCheck c f 7).count > 1000 := by simp only [endCheck]; omega
    have hl : (endCheck c f 7).cache (Config.hash f) = some 7 := by simp [endCheck, h2]
    unfold beginCheck
    simp only [if_neg hc]
    rw [hl]
    rfl
  unfold check
  rw [e]

/-- C65: files with different hashes; a change seen after the refresh. -/
example : Config.hash (lit "Logger.cpp") ≠ Config.hash (lit "Sockets.cpp") := by decide +kernel
example : (check (checks {} [(fun _ => some 7, lit "a")]) (fun _ => some 3) (lit "a")).2 = some 7 := by decide +kernel

/-! ### C66 -/

/-- The level names with their syslog numbers. -/
def Spec.levels : List (Str × Int) := [(lit "EMERG", 0), (lit "ALERT", 1), (lit "CRIT", 2), (lit "ERR", 3), (lit "WARNING", 4), (lit "NOTICE", 5), (lit "INFO", 6), (lit "DEBUG", 7),
  (lit "INFORMATION", 6), (lit "WARN", 4), (lit "ERROR", 3), (lit "CRITICAL", 2), (lit "EMERGENCY", 0)]

/-- C66: the level names; everything else is unknown. -/
theorem C66_names (name : Str) (l : Int) : (levelStringToInt name = l ∧ l ≠ -1) ↔ (name, l) ∈ Spec.levels := by
  constructor
  · rintro ⟨rfl, h⟩
    by_contra hn
    have k : ∀ e ∈ Spec.levels, (e.1, levelStringToInt e.1) ∈ Spec.levels := by decide +kernel
    have hne : ∀ e ∈ Spec.levels, e.1 ≠ name := fun e he h => hn (h ▸ k e he)
    simp only [Spec.levels, List.forall_mem_cons] at hne
    obtain ⟨h0, h1, h2, h3, h4, h5, h6, h7, h8, h9, h10, h11, h12, -⟩ := hne
    apply h
    unfold levelStringToInt
    have e : levelScan name 8 = none := by simp [levelScan, levelNames, h0, h1, h2, h3, h4, h5, h6, h7]
    rw [e]
    simp only
    rw [if_neg (Ne.symm h8), if_neg (Ne.symm h9), if_neg (Ne.symm h10), if_neg (Ne.symm h11), if_neg (Ne.symm h12)]
  · intro h
    simp only [Spec.levels, List.mem_cons, List.not_mem_nil, or_false, Prod.mk.injEq] at h
    rcases h with ⟨rfl, rfl⟩ | ⟨rfl, rfl⟩ | ⟨rfl, rfl⟩ | ⟨rfl, rfl⟩ | ⟨rfl, rfl⟩ | ⟨rfl, rfl⟩ | ⟨rfl, rfl⟩ | ⟨rfl, rfl⟩ | ⟨rfl, rfl⟩ | ⟨rfl, rfl⟩ | ⟨rfl, rfl⟩ | ⟨rfl, rfl⟩ | ⟨rfl, rfl⟩ <;> decide +kernel

theorem lookup_again (s : Table) (k k' : Str) : (lookup (lookup s k).1 k').2 = (lookup s k').2 := by
  have age : ∀ t : Table, checkCacheAge (checkCacheAge t) = checkCacheAge t := by
    intro t
    unfold checkCacheAge
    by_cases h : t.now - t.last < 3
    · rw [if_pos h, if_pos h]
    · rw [if_neg h]; simp
  have age2 : ∀ (t : Table) (c : Str → Option Rec), t = checkCacheAge t → checkCacheAge { t with cache := c } = { t with cache := c } := by
    intro t c ht
    unfold checkCacheAge at ht ⊢
    by_cases h : t.now - t.last < 3
    · simp only; rw [if_pos h]
    · rw [if_neg h] at ht
      have : t.last = t.now := by rw [ht]
      exfalso; omega
  unfold lookup
  simp only
  cases hk : (checkCacheAge s).cache k with
  | some r => simp only [age]
  | none =>
    simp only
    rw [age2 _ _ (age s).symm]
    simp only [put]
    by_cases e : k' = k
    · subst e
      rw [if_pos rfl, hk]
    · rw [if_neg e]
      cases hk' : (checkCacheAge s).cache k' with
      | some r => rfl
      | none => rfl

theorem lookupLevel_known {s : Table} {k v : Str} {l : Int} (h : (getStr s k).2 = some v) (hv : (v, l) ∈ Spec.levels) : (lookupLevel s k).2 = some l := by
  obtain ⟨h1, h2⟩ := (C66_names v l).2 hv
  unfold lookupLevel
  split
  · rename_i s1 w e
    rw [e] at h
    cases h
    unfold lookupLevel2
    simp only
    rw [if_neg (by rw [h1]; exact h2), h1]
  · rename_i s1 e
    rw [e] at h
    cases h

theorem getLoggingLevel_file (s : Table) (f v : Str) (hv : v ≠ []) (h : (getStr s (lit "Log.Level." ++ f)).2 = some v) : ∃ s2, (getLoggingLevel s (some f)).2 = some (lookupLevel2 s2 (lit "Log.Level." ++ f) v).2 ∧
    (getLoggingLevel s (some f)).1 = (lookupLevel2 s2 (lit "Log.Level." ++ f) v).1 ∧ s2.schema = s.schema := by
  have hd : defines s (lit "Log.Level." ++ f) = ((lookup s (lit "Log.Level." ++ f)).1, true) := by
    unfold getStr at h
    unfold defines
    rw [h]
    rfl
  have hg := lookup_again s (lit "Log.Level." ++ f) (lit "Log.Level." ++ f)
  unfold getStr at h
  rw [h] at hg
  have h3 := lookup_db s (lit "Log.Level." ++ f)
  have h4 := lookup_db (lookup s (lit "Log.Level." ++ f)).1 (lit "Log.Level." ++ f)
  have hl : v.length ≠ 0 := fun e => hv (List.length_eq_zero_iff.1 e)
  refine ⟨(lookup (lookup s (lit "Log.Level." ++ f)).1 (lit "Log.Level." ++ f)).1, ?_, ?_, by rw [h4.2.1, h3.2.1]⟩
  all_goals
    unfold getLoggingLevel
    simp only
    rw [hd]
    simp only [getStr]
    generalize lookup (lookup s (lit "Log.Level." ++ f)).1 (lit "Log.Level." ++ f) = x at hg
    obtain ⟨x1, x2⟩ := x
    simp only at hg
    subst hg
    simp only [if_pos hl]

/-- C66: the file's own level decides if it is set and a known name. -/
theorem C66_file (s : Table) (f v : Str) (l : Int) (h : (getStr s (lit "Log.Level." ++ f)).2 = some v) (hv : (v, l) ∈ Spec.levels) : (getLoggingLevel s (some f)).2 = some l := by
  obtain ⟨h1, h2⟩ := (C66_names v l).2 hv
  have hne : v ≠ [] := by
    rintro rfl
    revert h1
    rw [show levelStringToInt [] = -1 by decide]
    exact fun h => h2 h.symm
  obtain ⟨s2, e, -⟩ := getLoggingLevel_file s f v hne h
  rw [e]
  unfold lookupLevel2
  simp only
  rw [if_neg (by rw [h1]; exact h2), h1]

theorem getLoggingLevel_none (s : Table) (f : Str) (h : (getStr s (lit "Log.Level." ++ f)).2 = none ∨ (getStr s (lit "Log.Level." ++ f)).2 = some []) :
    ∃ s2, getLoggingLevel s (some f) = lookupLevel s2 (lit "Log.Level") ∧ (getStr s2 (lit "Log.Level")).2 = (getStr s (lit "Log.Level")).2 := by
  unfold getStr at h
  rcases h with h | h
  · refine ⟨(lookup s (lit "Log.Level." ++ f)).1, ?_, lookup_again s _ _⟩
    have hd : defines s (lit "Log.Level." ++ f) = ((lookup s (lit "Log.Level." ++ f)).1, false) := by
      unfold defines
      rw [h]
      rfl
    unfold getLoggingLevel
    simp only
    rw [hd]
  · refine ⟨(lookup (lookup s (lit "Log.Level." ++ f)).1 (lit "Log.Level." ++ f)).1, ?_, by unfold getStr; rw [lookup_again, lookup_again]⟩
    have hd : defines s (lit "Log.Level." ++ f) = ((lookup s (lit "Log.Level." ++ f)).1, true) := by
      unfold defines
      rw [h]
      rfl
    have hg := lookup_again s (lit "Log.Level." ++ f) (lit "Log.Level." ++ f)
    rw [h] at hg
    unfold getLoggingLevel
    simp only
    rw [hd]
    simp only [getStr]
    generalize lookup (lookup s (lit "Log.Level." ++ f)).1 (lit "Log.Level." ++ f) = x at hg
    obtain ⟨x1, x2⟩ := x
    simp only at hg
    subst hg
    simp

/-- C66: otherwise, if the file has no level or an empty one, the general level decides if it is a known name. -/
theorem C66_default (s : Table) (f v : Str) (l : Int) (h : (getStr s (lit "Log.Level." ++ f)).2 = none ∨ (getStr s (lit "Log.Level." ++ f)).2 = some [])
    (hd : (getStr s (lit "Log.Level")).2 = some v) (hv : (v, l) ∈ Spec.levels) : (getLoggingLevel s (some f)).2 = some l ∧ (getLoggingLevel s none).2 = some l := by
  refine ⟨?_, lookupLevel_known hd hv⟩
  obtain ⟨s2, e, e2⟩ := getLoggingLevel_none s f h
  rw [e]
  exact lookupLevel_known (e2.trans hd) hv

/-- What is used for a name that is not a level: the default of `Log.Level` in the schema, whatever `Log.Level` is set to; and the configuration of the file is overwritten with it. -/
theorem C66_unknown (s : Table) (f v : Str) (key : Key) (l : Int) (h : (getStr s (lit "Log.Level." ++ f)).2 = some v) (hne : v ≠ []) (hv : ∀ l, (v, l) ∉ Spec.levels)
    (hs : s.schema (lit "Log.Level") = some key) (hl : (key.dflt, l) ∈ Spec.levels) : (getLoggingLevel s (some f)).2 = some l ∧
      ∃ s2, s2.schema = s.schema ∧ (getLoggingLevel s (some f)).1 = (setStr s2 (lit "Log.Level." ++ f) key.dflt).1 := by
  obtain ⟨s2, e, e1, e2⟩ := getLoggingLevel_file s f v hne h
  have hm : levelStringToInt v = -1 := by
    by_contra hn
    exact hv _ ((C66_names v _).1 ⟨rfl, hn⟩)
  have ht : touchSchema s2 (lit "Log.Level") = s2 := by
    unfold touchSchema
    rw [e2, hs]
  have hd : ((s2.schema (lit "Log.Level")).map Key.dflt).getD [] = key.dflt := by rw [e2, hs]; rfl
  have e3 : lookupLevel2 s2 (lit "Log.Level." ++ f) v = ((setStr s2 (lit "Log.Level." ++ f) key.dflt).1, levelStringToInt key.dflt) := by
    unfold lookupLevel2
    simp only
    rw [if_pos hm, ht, hd]
  rw [e, e1, e3]
  exact ⟨congrArg some ((C66_names _ _).2 hl).1, s2, e2, rfl⟩

/-- A configuration with an unknown level for one file. -/
def badLevel : Table := fresh [(lit "Log.Level", some (lit "DEBUG")), (lit "Log.Level.a.cpp", some (lit "LOUD"))] (fun k => if k = lit "Log.Level" then some ⟨lit "NOTICE", []⟩ else none) 0 10

/-- C66 (negation): an unknown name for the file makes it NOTICE, although the general level is DEBUG, and asking changes the configuration. -/
theorem C66_unknown_refuted : (getLoggingLevel badLevel (some (lit "a.cpp"))).2 = some 5 ∧ (getLoggingLevel badLevel none).2 = some 7 ∧
    (getLoggingLevel badLevel (some (lit "a.cpp"))).1.db = [(lit "Log.Level", some (lit "DEBUG")), (lit "Log.Level.a.cpp", some (lit "NOTICE"))] := by decide +kernel

/-- Specification: the level of a file in a configuration: its own if that is set, otherwise the general one. -/
def Spec.FileLevel (s : Table) (f : Str) (l : Int) : Prop :=
  (∃ v, (getStr s (lit "Log.Level." ++ f)).2 = some v ∧ (v, l) ∈ Spec.levels) ∨
    (((getStr s (lit "Log.Level." ++ f)).2 = none ∨ (getStr s (lit "Log.Level." ++ f)).2 = some []) ∧ ∃ v, (getStr s (lit "Log.Level")).2 = some v ∧ (v, l) ∈ Spec.levels)

theorem fileLevel_get {s : Table} {f : Str} {l : Int} (h : Spec.FileLevel s f l) : (getLoggingLevel s (some f)).2 = some l := by
  rcases h with ⟨v, h1, h2⟩ | ⟨h1, v, h2, h3⟩
  · exact C66_file s f v l h1 h2
  · exact (C66_default s f v l h1 h2 h3).1

theorem logged {h : List (Table × Str)} {s : Table} {f : Str} {l : Int} (hf : ∀ p ∈ h, Config.hash p.2 = Config.hash f → p.2 = f)
    (hl : ∀ p ∈ newest 1000 h ++ [(s, f)], p.2 = f → Spec.FileLevel p.1 f l) :
    (check (checks {} (h.map fun p => (fun x => (getLoggingLevel p.1 (some x)).2, p.2))) (fun x => (getLoggingLevel s (some x)).2) f).2 = some l := by
  obtain ⟨p, hp, h1, h2⟩ := C65_own_level_partial (h.map fun p => (fun x => (getLoggingLevel p.1 (some x)).2, p.2)) (fun x => (getLoggingLevel s (some x)).2) f (by
    intro q hq e
    obtain ⟨p, hp, rfl⟩ := List.mem_map.1 hq
    exact hf p hp e)
  rw [h2]
  have e : newest 1000 (h.map fun p => ((fun x => (getLoggingLevel p.1 (some x)).2 : Str → Option Int), p.2)) = (newest 1000 h).map fun p => ((fun x => (getLoggingLevel p.1 (some x)).2 : Str → Option Int), p.2) := by
    unfold newest
    rw [List.length_map, List.map_drop]
  rw [e] at hp
  rcases List.mem_append.1 hp with hp | hp
  · obtain ⟨q, hq, rfl⟩ := List.mem_map.1 hp
    exact fileLevel_get (hl q (List.mem_append_left _ hq) h1)
  · rw [List.mem_singleton.1 hp]
    exact fileLevel_get (hl (s, f) (List.mem_append_right _ (List.mem_singleton.2 rfl)) rfl)

/-- C66 (partial: missing are files with a group, see C66_group_refuted, and files whose names collide, see C63): whatever log statements were executed before, a message is logged exactly when its
level is at most that of the file, if this was the level of the file in the configurations of the last 1000 of them. -/
theorem C66_logged_partial (h : List (Table × Str)) (s : Table) (f : Str) (l level : Int) (hf : ∀ p ∈ h, Config.hash p.2 = Config.hash f → p.2 = f)
    (hl : ∀ p ∈ newest 1000 h ++ [(s, f)], p.2 = f → Spec.FileLevel p.1 f l) :
    (isLogLevel (checks {} (h.map fun p => (fun x => (getLoggingLevel p.1 (some x)).2, p.2))) (fun x => (getLoggingLevel s (some x)).2) none f level).2 = some (decide (level ≤ l)) := by
  simp only [isLogLevel]
  rw [logged hf hl]
  rfl

/-- C66 (negation): the level of the group can only add messages: with a level of the group of at least that of the message it is logged, whatever the level of the file; in particular emergencies
are always logged, the level of a group being 0 unless set. -/
theorem C66_group_refuted (c : LevelCache) (cfg : Str → Option Int) (f : Str) (g level : Int) (h : level ≤ g) : isLogLevel c cfg (some g) f level = (c, some true) := by
  simp only [isLogLevel]
  rw [if_pos h]

/-- C66: with a group, the more talkative of file and group decides. -/
theorem C66_group (h : List (Table × Str)) (s : Table) (f : Str) (g l level : Int) (hf : ∀ p ∈ h, Config.hash p.2 = Config.hash f → p.2 = f)
    (hl : ∀ p ∈ newest 1000 h ++ [(s, f)], p.2 = f → Spec.FileLevel p.1 f l) :
    (isLogLevel (checks {} (h.map fun p => (fun x => (getLoggingLevel p.1 (some x)).2, p.2))) (fun x => (getLoggingLevel s (some x)).2) (some g) f level).2 = some (decide (level ≤ max g l)) := by
  simp only [isLogLevel]
  split
  · next h => rw [show decide (level ≤ max g l) = true from decide_eq_true (by omega)]
  · next h =>
    simp only
    rw [logged hf hl]
    have : (level ≤ l) ↔ level ≤ max g l := by omega
    show some (decide (level ≤ l)) = _
    rw [decide_eq_decide.2 this]

/-- C66: a file without own level in a configuration with the general level DEBUG. -/
example : Spec.FileLevel badLevel (lit "b.cpp") 7 := .inr ⟨.inl (by decide +kernel), lit "DEBUG", by decide +kernel, by decide +kernel⟩

/-- C66: a configuration meeting the hypotheses. -/
example : (getStr badLevel (lit "Log.Level.a.cpp")).2 = some (lit "LOUD") ∧ (∀ e ∈ Spec.levels, e.1 ≠ lit "LOUD") ∧ (getStr badLevel (lit "Log.Level.b.cpp")).2 = none ∧
    (getStr badLevel (lit "Log.Level")).2 = some (lit "DEBUG") ∧ (lit "DEBUG", 7) ∈ Spec.levels := by decide +kernel

/-! ### C78 -/

theorem groupLevel_cases (s : Table) (p : Str) : ((∃ v, (getStr s p).2 = some v ∧ v ≠ []) ∧ groupLevel s p = .ub) ∨
    (((getStr s p).2 = none ∨ (getStr s p).2 = some []) ∧ ∃ s1, groupLevel s p = .ok (s1, 0) ∧ ∀ k, (getStr s1 k).2 = (getStr s k).2) := by
  have hg := lookup_again s p p
  unfold getStr
  cases h : (lookup s p).2 with
  | none =>
    right
    refine ⟨Or.inl rfl, (lookup s p).1, ?_, fun k => lookup_again s p k⟩
    have hd : defines s p = ((lookup s p).1, false) := by unfold defines; rw [h]; rfl
    unfold groupLevel
    rw [hd]
  | some v =>
    have hd : defines s p = ((lookup s p).1, true) := by unfold defines; rw [h]; rfl
    rw [h] at hg
    unfold groupLevel
    rw [hd]
    simp only [getStr]
    have again : ∀ k, (lookup (lookup (lookup s p).1 p).1 k).2 = (lookup s k).2 := fun k => by rw [lookup_again, lookup_again]
    generalize lookup (lookup s p).1 p = x at hg again
    obtain ⟨x1, x2⟩ := x
    simp only at hg
    subst hg
    simp only
    by_cases hv : v = []
    · right
      subst hv
      exact ⟨Or.inr rfl, x1, by simp, again⟩
    · left
      exact ⟨⟨v, rfl, hv⟩, by rw [if_pos fun e => hv (List.length_eq_zero_iff.1 e)]⟩

/-- The keys read by `setAll`. -/
def Spec.groupKeys (gs : List Str) : List Str := gs.flatMap fun g => [lit "Log.Group." ++ g, lit "Log.Watch." ++ g]

theorem setAllFrom_cases (gs : List Str) : ∀ s : Table, ((∃ k ∈ Spec.groupKeys gs, ∃ v, (getStr s k).2 = some v ∧ v ≠ []) ∧ setAllFrom s gs = .ub) ∨
    ((∀ k ∈ Spec.groupKeys gs, (getStr s k).2 = none ∨ (getStr s k).2 = some []) ∧ ∃ s1, setAllFrom s gs = .ok (s1, gs.map fun _ => (0, 0))) := by
  induction gs with
  | nil => exact fun s => Or.inr ⟨by simp [Spec.groupKeys], s, rfl⟩
  | cons g gs ih =>
    intro s
    have hk : ∀ k, k ∈ Spec.groupKeys (g :: gs) ↔ k = lit "Log.Group." ++ g ∨ k = lit "Log.Watch." ++ g ∨ k ∈ Spec.groupKeys gs := by
      intro k
      simp [Spec.groupKeys]
    rw [setAllFrom]
    rcases groupLevel_cases s (lit "Log.Group." ++ g) with ⟨h1, e1⟩ | ⟨h1, s1, e1, k1⟩
    · exact Or.inl ⟨⟨_, (hk _).2 (Or.inl rfl), h1⟩, by rw [e1]; rfl⟩
    · rw [e1]
      simp only [Outcome.bind]
      rcases groupLevel_cases s1 (lit "Log.Watch." ++ g) with ⟨h2, e2⟩ | ⟨h2, s2, e2, k2⟩
      · rw [k1] at h2
        exact Or.inl ⟨⟨_, (hk _).2 (Or.inr (Or.inl rfl)), h2⟩, by rw [e2]⟩
      · rw [k1] at h2
        rw [e2]
        simp only
        rcases ih s2 with ⟨⟨k, h3, h4⟩, e3⟩ | ⟨h3, s3, e3⟩
        · rw [k2, k1] at h4
          exact Or.inl ⟨⟨k, (hk _).2 (Or.inr (Or.inr h3)), h4⟩, by rw [e3]⟩
        · refine Or.inr ⟨?_, s3, by rw [e3]; rfl⟩
          intro k hm
          rcases (hk k).1 hm with rfl | rfl | hm
          · exact h1
          · exact h2
          · have := h3 k hm
            rw [k2, k1] at this
            exact this

/-- C78 (negation): as soon as one of the group or watch levels is configured, `setAll` reads a string that no longer exists. -/
theorem C78_dangling_refuted (s : Table) (k v : Str) (hk : k ∈ Spec.groupKeys groupNames) (h : (getStr s k).2 = some v) (hv : v ≠ []) : setAll s = .ub := by
  rcases setAllFrom_cases groupNames s with ⟨-, e⟩ | ⟨h1, -⟩
  · exact e
  · rcases h1 k hk with h1 | h1
    · rw [h1] at h; cases h
    · rw [h1] at h; cases h; exact absurd rfl hv

/-- C78 (partial: missing is any level at all): if none is configured, all group and watch levels are 0. -/
theorem C78_unset_partial (s : Table) (h : ∀ k ∈ Spec.groupKeys groupNames, (getStr s k).2 = none ∨ (getStr s k).2 = some []) : ∃ s1, setAll s = .ok (s1, List.replicate 6 (0, 0)) := by
  rcases setAllFrom_cases groupNames s with ⟨⟨k, hk, v, h1, h2⟩, -⟩ | ⟨-, e⟩
  · rcases h k hk with h3 | h3
    · rw [h3] at h1; cases h1
    · rw [h3] at h1; cases h1; exact absurd rfl h2
  · exact e

/-- C78: configurations meeting the hypotheses. -/
example : lit "Log.Group.SIP" ∈ Spec.groupKeys groupNames ∧ (getStr (fresh [(lit "Log.Group.SIP", some (lit "DEBUG"))] (fun _ => none) 0 10) (lit "Log.Group.SIP")).2 = some (lit "DEBUG") ∧
    ∀ k ∈ Spec.groupKeys groupNames, (getStr badLevel k).2 = none := by decide +kernel

end Verif.Logger
