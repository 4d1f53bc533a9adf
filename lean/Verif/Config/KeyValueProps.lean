import Verif.Config.KeyValue
import Verif.Config.SqlProps
import Verif.Utils.SplitProps
import Verif.Core.NumberLemmas
import Mathlib.Data.List.Induction

/-
C62, C77: SimpleKeyValue.
-/

namespace Verif.Config
open Verif.Utils Verif.Utils.Spec

namespace Spec

/-- The text `p` is the pair `k=v`: the name ends at the first `=`. -/
def Assigns (p k v : Str) : Prop := chr '=' ∉ k ∧ p = k ++ chr '=' :: v

/-- The last of the texts `ps` that assigns to `k` gives it `v`. -/
def LastAssigned (ps : List Str) (k v : Str) : Prop := ∃ a p b, ps = a ++ p :: b ∧ Assigns p k v ∧ ∀ q ∈ b, ∀ v', ¬ Assigns q k v'

/-- `k1=v1 k2=v2 ...` -/
def pairText : List (Str × Str) → Str
  | [] => []
  | [p] => p.1 ++ chr '=' :: p.2
  | p :: q :: l => p.1 ++ chr '=' :: p.2 ++ chr ' ' :: pairText (q :: l)

end Spec
open Spec

/-- What separates pairs. -/
def blank (c : Byte) : Bool := c == chr ' '

theorem mem_takeWhile_ne {d c : Byte} {s : Str} (h : c ∈ s.takeWhile (· ≠ d)) : c ≠ d := by
  have := mem_takeWhile_imp h
  simpa using this

theorem split_at {d : Byte} {s : Str} (h : d ∈ s) : s = s.takeWhile (· ≠ d) ++ d :: (s.dropWhile (· ≠ d)).tail := by
  induction s with
  | nil => simp at h
  | cons x s ih =>
    by_cases hx : x = d
    · subst hx; simp
    · have hs : d ∈ s := by
        rcases List.mem_cons.1 h with e | h
        · exact absurd e.symm hx
        · exact h
      rw [List.takeWhile_cons_of_pos (by simpa using hx), List.dropWhile_cons_of_pos (by simpa using hx), List.cons_append]
      exact congrArg (x :: ·) (ih hs)

theorem addItemsLoop_pieces : ∀ (n : Nat) (kv : KeyValue) (s : Str), s.length ≤ n → addItemsLoop kv s = (pieces blank s).foldl addItem kv := by
  intro n
  induction n with
  | zero =>
    intro kv s h
    have : s = [] := List.length_eq_zero_iff.1 (by omega)
    subst this
    rw [addItemsLoop]
    simp [strsep, pieces]
  | succ n ih =>
    intro kv s h
    rw [addItemsLoop]
    by_cases hd : chr ' ' ∈ s
    · have e := split_at hd
      have h2 : (strsep (chr ' ') s).2 = some (s.dropWhile (· ≠ chr ' ')).tail := by simp only [strsep]; rw [if_pos hd]
      have hl := strsep_lt h2
      split
      · rename_i t ht
        rw [h2, Option.some.injEq] at ht
        subst ht
        rw [ih _ _ (by omega)]
        conv_rhs => rw [e]
        rw [pieces_run blank _ _ _ (fun c hc => by simpa [blank] using mem_takeWhile_ne hc) (by simp [blank]), List.foldl_cons]
        rfl
      · rename_i ht
        rw [h2] at ht
        cases ht
    · have h2 : (strsep (chr ' ') s).2 = none := by simp only [strsep]; rw [if_neg hd]
      have hall : ∀ c ∈ s, c ≠ chr ' ' := fun c hc e => hd (e ▸ hc)
      have h1 : (strsep (chr ' ') s).1 = s := takeWhile_all (fun c hc => by simpa using hall c hc)
      split
      · rename_i t ht
        rw [h2] at ht
        cases ht
      · rw [h1, pieces_nosep blank s (fun c hc => by simpa [blank] using hall c hc)]
        rfl

theorem pieces_sub : ∀ (s : Str), ∀ p ∈ pieces blank s, ∀ c ∈ p, c ∈ s := by
  intro s
  induction s with
  | nil => intro p hp c hc; simp [pieces] at hp; simp [hp] at hc
  | cons x s ih =>
    intro p hp c hc
    rw [pieces] at hp
    split at hp
    · rcases List.mem_cons.1 hp with rfl | hp
      · simp at hc
      · exact List.mem_cons_of_mem _ (ih p hp c hc)
    · split at hp
      · simp only [List.mem_singleton] at hp
        subst hp
        simp only [List.mem_singleton] at hc
        simp [hc]
      · rename_i q qs hq
        rcases List.mem_cons.1 hp with rfl | hp
        · rcases List.mem_cons.1 hc with rfl | hc
          · simp
          · exact List.mem_cons_of_mem _ (ih q (by rw [hq]; simp) c hc)
        · exact List.mem_cons_of_mem _ (ih p (by rw [hq]; simp [hp]) c hc)

theorem assigns_unique {p k v k' v' : Str} (h : Assigns p k v) (h' : Assigns p k' v') : k = k' ∧ v = v' := by
  obtain ⟨h1, rfl⟩ := h
  obtain ⟨h2, h3⟩ := h'
  have e : ∀ (k v : Str), chr '=' ∉ k → (k ++ chr '=' :: v).takeWhile (· ≠ chr '=') = k := by
    intro k v hk
    rw [takeWhile_stop (by simp), takeWhile_all (p := fun x : Byte => decide (x ≠ chr '=')) (fun c hc => decide_eq_true (fun e : c = chr '=' => hk (e ▸ hc)))]
  have := e k v h1
  rw [h3, e k' v' h2] at this
  subst this
  simpa using h3

theorem addItem_map {kv : KeyValue} {p : Str} (h0 : (0 : Byte) ∉ p) (k : Str) :
    ((addItem kv p).map k = kv.map k ∧ ∀ v, ¬ Assigns p k v) ∨ ∃ v, (addItem kv p).map k = some v ∧ Assigns p k v := by
  unfold addItem
  rw [cText_self h0]
  by_cases h : chr '=' ∈ p
  · simp only [if_pos h, store]
    have e := split_at h
    have ha : Assigns p (p.takeWhile (· ≠ chr '=')) (p.dropWhile (· ≠ chr '=')).tail := ⟨fun hm => mem_takeWhile_ne hm rfl, e⟩
    by_cases hk : k = p.takeWhile (· ≠ chr '=')
    · right
      rw [if_pos hk]
      exact ⟨_, rfl, hk ▸ ha⟩
    · left
      rw [if_neg hk]
      exact ⟨rfl, fun v hv => hk (assigns_unique hv ha).1⟩
  · left
    rw [if_neg h]
    refine ⟨rfl, ?_⟩
    rintro v ⟨-, rfl⟩
    exact h (by simp)

theorem fold_map (k : Str) : ∀ (ps : List Str) (kv : KeyValue) (v : Str), (∀ p ∈ ps, (0 : Byte) ∉ p) →
    ((ps.foldl addItem kv).map k = some v ↔ LastAssigned ps k v ∨ ((∀ p ∈ ps, ∀ v', ¬ Assigns p k v') ∧ kv.map k = some v)) := by
  intro ps
  induction ps using List.reverseRecOn with
  | nil =>
    intro kv v _
    simp [LastAssigned]
  | append_singleton ps p ih =>
    intro kv v h0
    have ih := ih kv v (fun q hq => h0 q (by simp [hq]))
    rw [List.foldl_append, List.foldl_cons, List.foldl_nil]
    rcases addItem_map (kv := ps.foldl addItem kv) (h0 p (by simp)) k with ⟨h1, h2⟩ | ⟨w, h1, h2⟩
    · rw [h1, ih]
      refine or_congr ?_ ?_
      · constructor
        · rintro ⟨a, q, b, rfl, hq, hb⟩
          refine ⟨a, q, b ++ [p], by simp, hq, ?_⟩
          intro r hr
          rcases List.mem_append.1 hr with hr | hr
          · exact hb r hr
          · rw [List.mem_singleton.1 hr]; exact h2
        · rintro ⟨a, q, b, hab, hq, hb⟩
          cases b using List.reverseRecOn with
          | nil =>
            obtain ⟨-, e⟩ := List.append_inj' hab rfl
            rw [List.cons.injEq] at e
            exact absurd (e.1 ▸ hq) (h2 v)
          | append_singleton b r =>
            rw [← List.cons_append, ← List.append_assoc] at hab
            obtain ⟨e, -⟩ := List.append_inj' hab rfl
            exact ⟨a, q, b, e, hq, fun t ht => hb t (by simp [ht])⟩
      · simp only [List.mem_append, List.mem_singleton]
        constructor
        · rintro ⟨h3, h4⟩
          refine ⟨?_, h4⟩
          rintro q (hq | rfl)
          · exact h3 q hq
          · exact h2
        · rintro ⟨h3, h4⟩
          exact ⟨fun q hq => h3 q (Or.inl hq), h4⟩
    · rw [h1]
      constructor
      · intro e
        rw [Option.some.injEq] at e
        subst e
        exact Or.inl ⟨ps, p, [], rfl, h2, by simp⟩
      · rintro (⟨a, q, b, hab, hq, hb⟩ | ⟨h3, -⟩)
        · cases b using List.reverseRecOn with
          | nil =>
            obtain ⟨-, e⟩ := List.append_inj' hab rfl
            rw [List.cons.injEq] at e
            rw [(assigns_unique h2 (e.1 ▸ hq)).2]
          | append_singleton b r =>
            rw [← List.cons_append, ← List.append_assoc] at hab
            obtain ⟨-, e⟩ := List.append_inj' hab rfl
            rw [List.cons.injEq] at e
            exact absurd h2 (hb p (by simp [e.1]) w)
        · exact absurd h2 (h3 p (by simp) w)

theorem cText_no_nul (s : Str) : (0 : Byte) ∉ cText s := fun h => mem_takeWhile_ne h rfl

/-- C62: for every text, `get` afterwards returns the value of the last pair with that name, or what was stored before if there is none. -/
theorem C62_addItems (kv : KeyValue) (s k v : Str) (hk : (0 : Byte) ∉ k) :
    (addItems kv s).get k = some v ↔ LastAssigned (pieces blank (cText s)) k v ∨ ((∀ p ∈ pieces blank (cText s), ∀ v', ¬ Assigns p k v') ∧ kv.get k = some v) := by
  unfold KeyValue.get
  rw [cText_self hk]
  unfold addItems
  rw [addItemsLoop_pieces _ _ _ (Nat.le_refl _), fold_map k _ _ v (fun p hp h0 => cText_no_nul s (pieces_sub _ p hp 0 h0))]

theorem pieces_pairs : ∀ l : List (Str × Str), l ≠ [] → (∀ p ∈ l, chr ' ' ∉ p.1 ∧ chr ' ' ∉ p.2) → pieces blank (pairText l) = l.map fun p => p.1 ++ chr '=' :: p.2 := by
  have hb : ∀ p : Str × Str, chr ' ' ∉ p.1 → chr ' ' ∉ p.2 → ∀ c ∈ p.1 ++ chr '=' :: p.2, blank c = false := by
    intro p h1 h2 c hc
    simp only [List.mem_append, List.mem_cons] at hc
    have : c ≠ chr ' ' := by
      rintro rfl
      rcases hc with hc | hc | hc
      · exact h1 hc
      · exact absurd hc (by decide)
      · exact h2 hc
    simpa [blank] using this
  intro l
  induction l with
  | nil => intro h; exact absurd rfl h
  | cons p l ih =>
    intro _ h
    have hp := h p (by simp)
    cases l with
    | nil => exact pieces_nosep blank _ (hb p hp.1 hp.2)
    | cons q l =>
      rw [pairText, pieces_run blank _ _ _ (hb p hp.1 hp.2) (by simp [blank]), ih (by simp) (fun r hr => h r (by simp [hr]))]
      rfl

/-- C62: every pair of a well-formed list is stored; later ones override earlier ones.  Values may contain `=`. -/
theorem C62_pairs (kv : KeyValue) (l : List (Str × Str)) (k v : Str) (hne : l ≠ []) (hl : ∀ p ∈ l, chr ' ' ∉ p.1 ∧ chr ' ' ∉ p.2 ∧ chr '=' ∉ p.1) (h0 : (0 : Byte) ∉ pairText l)
    (hk : (0 : Byte) ∉ k) : (addItems kv (pairText l)).get k = some v ↔
      (∃ a b, l = a ++ (k, v) :: b ∧ ∀ p ∈ b, p.1 ≠ k) ∨ ((∀ p ∈ l, p.1 ≠ k) ∧ kv.get k = some v) := by
  rw [C62_addItems kv _ k v hk, cText_self h0, pieces_pairs l hne (fun p hp => ⟨(hl p hp).1, (hl p hp).2.1⟩)]
  have key : ∀ p ∈ l, ∀ k' v', Assigns (p.1 ++ chr '=' :: p.2) k' v' ↔ p = (k', v') := by
    intro p hp k' v'
    constructor
    · intro h
      obtain ⟨rfl, rfl⟩ := assigns_unique h ⟨(hl p hp).2.2, rfl⟩
      rfl
    · rintro rfl
      exact ⟨(hl _ hp).2.2, rfl⟩
  refine or_congr ?_ (and_congr_left fun _ => ?_)
  · constructor
    · rintro ⟨a, p, b, e, ha, hb⟩
      obtain ⟨l1, l2, rfl, rfl, e2⟩ := List.map_eq_append_iff.1 e
      obtain ⟨q, l3, rfl, rfl, rfl⟩ := List.map_eq_cons_iff.1 e2
      have := (key q (by simp) k v).1 ha
      subst this
      refine ⟨l1, l3, rfl, ?_⟩
      rintro ⟨r1, r2⟩ hr rfl
      exact hb _ (List.mem_map.2 ⟨_, hr, rfl⟩) r2 ((key _ (by simp [hr]) _ _).2 rfl)
    · rintro ⟨a, b, rfl, hb⟩
      refine ⟨a.map fun p => p.1 ++ chr '=' :: p.2, k ++ chr '=' :: v, b.map fun p => p.1 ++ chr '=' :: p.2, by simp, (key (k, v) (by simp) k v).2 rfl, ?_⟩
      rintro q hq v' ha
      obtain ⟨p, hp, rfl⟩ := List.mem_map.1 hq
      have := (key p (by simp [hp]) k v').1 ha
      exact hb p hp (by rw [this])
  · constructor
    · rintro h ⟨r1, r2⟩ hr rfl
      exact h _ (List.mem_map.2 ⟨_, hr, rfl⟩) r2 ((key _ hr _ _).2 rfl)
    · rintro h q hq v' ha
      obtain ⟨p, hp, rfl⟩ := List.mem_map.1 hq
      exact h p hp (by rw [(key p hp k v').1 ha])

/-- C62: the number functions read the stored text as a decimal number; `getNum` leaves `valid` alone when the name is known and clears it otherwise, so a caller that set it before the call
learns whether the name is known. -/
theorem C62_getNum (kv : KeyValue) (k : Str) : (kv.getNum k true).2 = (kv.get k).isSome ∧ (∀ v, kv.get k = some v → kv.getNumOrBust k = some (atol v) ∧ ∀ b, kv.getNum k b = (atol v, b)) ∧
    (kv.get k = none → kv.getNumOrBust k = none ∧ ∀ b, kv.getNum k b = (0, false)) := by
  unfold KeyValue.getNum KeyValue.getNumOrBust
  refine ⟨?_, ?_, ?_⟩
  · cases kv.get k <;> rfl
  · intro v h; rw [h]; exact ⟨rfl, fun _ => rfl⟩
  · intro h; rw [h]; exact ⟨rfl, fun _ => rfl⟩

/-- C62: a list meeting the hypotheses, with a repeated name and a value containing `=`. -/
example : pairText [(lit "a", lit "1"), (lit "b", lit "x=y"), (lit "a", lit "2")] = lit "a=1 b=x=y a=2" ∧
    (∀ p ∈ [(lit "a", lit "1"), (lit "b", lit "x=y"), (lit "a", lit "2")], chr ' ' ∉ p.1 ∧ chr ' ' ∉ p.2 ∧ chr '=' ∉ p.1) ∧ (0 : Byte) ∉ lit "a=1 b=x=y a=2" ∧
    (addItems ⟨fun _ => none, 0⟩ (lit "a=1 b=x=y a=2")).get (lit "a") = some (lit "2") := by
  refine ⟨by decide, by decide, by decide, ?_⟩
  have e : pairText [(lit "a", lit "1"), (lit "b", lit "x=y"), (lit "a", lit "2")] = lit "a=1 b=x=y a=2" := by decide
  rw [← e, C62_pairs _ _ _ _ (by simp) (by decide) (by decide) (by decide)]
  exact Or.inl ⟨[(lit "a", lit "1"), (lit "b", lit "x=y")], [], by simp, by simp⟩

/-! ### C77 -/

/-- C77 (negation): every call of `addItems` leaves its copy of the text allocated, and so does every word without `=`. -/
theorem C77_leak_refuted (kv : KeyValue) (s : Str) : (addItems kv s).live = kv.live + 1 + ((pieces blank (cText s)).filter (chr '=' ∉ ·)).length := by
  unfold addItems
  rw [addItemsLoop_pieces _ _ _ (Nat.le_refl _)]
  have hp : ∀ p ∈ pieces blank (cText s), (0 : Byte) ∉ p := fun p hp h0 => cText_no_nul s (pieces_sub _ p hp 0 h0)
  generalize pieces blank (cText s) = ps at hp
  have : ∀ (ps : List Str) (kv : KeyValue), (∀ p ∈ ps, (0 : Byte) ∉ p) → (ps.foldl addItem kv).live = kv.live + (ps.filter (chr '=' ∉ ·)).length := by
    intro ps
    induction ps with
    | nil => intro kv _; rfl
    | cons p ps ih =>
      intro kv h
      rw [List.foldl_cons, ih _ (fun q hq => h q (by simp [hq])), List.filter_cons]
      unfold addItem
      rw [cText_self (h p (by simp))]
      by_cases he : chr '=' ∈ p
      · simp [he]
      · simp [he]; omega
  rw [this ps _ hp]

/-- C77 (partial: missing are words without `=` and `addItems`): any number of single pairs leave nothing allocated; exactly a word without `=` leaves its copy. -/
theorem C77_addItem_partial (kv : KeyValue) (ps : List Str) : (ps.foldl addItem kv).live = kv.live + (ps.filter (chr '=' ∉ cText ·)).length := by
  induction ps generalizing kv with
  | nil => rfl
  | cons p ps ih =>
    rw [List.foldl_cons, ih, List.filter_cons]
    unfold addItem
    by_cases he : chr '=' ∈ cText p
    · simp [he]
    · simp [he]; omega

example : ([lit "a=1", lit "b=2", lit "a=3"].foldl addItem ⟨fun _ => none, 4⟩).live = 4 := C77_addItem_partial _ _

/-- C77: a text with two words without `=`. -/
example : (addItems ⟨fun _ => none, 0⟩ (lit "a=1 b c")).live = 3 := by
  rw [C77_leak_refuted]
  decide +kernel

end Verif.Config
