import Verif.Utils.Strings
import Verif.Utils.StringSpec

/-
Properties C43 and C44.
-/

namespace Verif.Utils
open Verif Spec

theorem pieces_ne_nil (sep : Byte → Bool) (s : Str) : pieces sep s ≠ [] := by
  cases s with
  | nil => simp [pieces]
  | cons c s =>
    unfold pieces
    split
    · simp
    · split <;> simp

/-- No separators: one piece. -/
theorem pieces_nosep (sep : Byte → Bool) (w : Str) (h : ∀ c ∈ w, sep c = false) : pieces sep w = [w] := by
  induction w with
  | nil => rfl
  | cons c w ih =>
    rw [pieces, if_neg (by simp [h c List.mem_cons_self]), ih (fun x hx => h x (List.mem_cons_of_mem _ hx))]

/-- A run without separators followed by one. -/
theorem pieces_run (sep : Byte → Bool) (w : Str) (c : Byte) (s : Str) (h : ∀ c ∈ w, sep c = false) (hc : sep c = true) :
    pieces sep (w ++ c :: s) = w :: pieces sep s := by
  induction w with
  | nil => simp [pieces, hc]
  | cons d w ih =>
    rw [List.cons_append, pieces, if_neg (by simp [h d List.mem_cons_self]),
      ih (fun x hx => h x (List.mem_cons_of_mem _ hx))]

theorem words_sep (sep : Byte → Bool) (a s : Str) (h : ∀ c ∈ a, sep c = true) : words sep (a ++ s) = words sep s := by
  induction a with
  | nil => rfl
  | cons c a ih =>
    rw [← ih (fun x hx => h x (List.mem_cons_of_mem _ hx))]
    unfold words
    rw [List.cons_append, pieces, if_pos (h c List.mem_cons_self)]
    simp

theorem words_nil (sep : Byte → Bool) : words sep [] = [] := by simp [words, pieces]

theorem words_last (sep : Byte → Bool) (w : Str) (h : ∀ c ∈ w, sep c = false) (hw : w ≠ []) :
    words sep w = [w] := by
  unfold words
  rw [pieces_nosep sep w h]
  cases w with
  | nil => exact absurd rfl hw
  | cons => rfl

theorem words_cons (sep : Byte → Bool) (w : Str) (c : Byte) (s : Str) (h : ∀ c ∈ w, sep c = false)
    (hw : w ≠ []) (hc : sep c = true) : words sep (w ++ c :: s) = w :: words sep s := by
  unfold words
  rw [pieces_run sep w c s h hc]
  cases w with
  | nil => exact absurd rfl hw
  | cons => rfl

/-- Every text is separators, then a word, then the end or a separator. -/
theorem takeWhile_split (p : Byte → Bool) (s : Str) :
    ∃ b, s = s.takeWhile p ++ b ∧ (∀ c ∈ s.takeWhile p, p c = true) ∧ (∀ c t, b = c :: t → p c = false) := by
  refine ⟨s.dropWhile p, (List.takeWhile_append_dropWhile).symm, ?_, ?_⟩
  · intro c hc
    exact List.all_eq_true.mp (List.all_takeWhile (l := s) (p := p)) c hc
  · intro c t h
    induction s with
    | nil => simp at h
    | cons d s ih =>
      rw [List.dropWhile_cons] at h
      split at h
      · exact ih h
      · next hd => injection h with h1 h2; subst h1; simpa using hd

theorem takeWhile_prefix (p : Byte → Bool) (a b : Str) (ha : ∀ c ∈ a, p c = true)
    (hb : ∀ c t, b = c :: t → p c = false) : (a ++ b).takeWhile p = a := by
  induction a with
  | nil =>
    cases b with
    | nil => rfl
    | cons c t => simp [hb c t rfl]
  | cons d a ih =>
    rw [List.cons_append, List.takeWhile_cons, if_pos (ha d List.mem_cons_self),
      ih (fun x hx => ha x (List.mem_cons_of_mem _ hx))]

theorem cstr_at (pre t rest : Str) (ht : ∀ c ∈ t, c ≠ 0) : cstr (pre ++ t ++ 0 :: rest) pre.length = t := by
  unfold cstr
  rw [List.append_assoc, List.drop_left]
  exact takeWhile_prefix _ t (0 :: rest) (fun c hc => by simpa using ht c hc)
    (fun c u h => by injection h with h1 h2; subst h1; simp)

/-- Main loop lemma.  `pre` is the part of the buffer already passed. -/
theorem splitLoop_spec (split : Str) : ∀ (k : Nat) (s pre : Str) (argv : List Nat), (∀ c ∈ s, c ≠ 0) →
    ∃ (buf' : Str) (new : List Nat), splitLoop split k (pre ++ s ++ [0]) pre.length argv = (buf', argv ++ new) ∧
      buf'.take pre.length = pre ∧ new.map (cstr buf') = (words (split.contains ·) s).take k := by
  intro k
  induction k with
  | zero => intro s pre argv hs; exact ⟨pre ++ s ++ [0], [], by simp [splitLoop], by simp, by simp⟩
  | succ k ih =>
    intro s pre argv hs
    obtain ⟨b, hsb, ha, hb⟩ := takeWhile_split (split.contains ·) s
    have hc0 : cstr (pre ++ s ++ [0]) pre.length = s := cstr_at pre s [] hs
    generalize s.takeWhile (split.contains ·) = a at hsb ha
    have htk : s.takeWhile (split.contains ·) = a := by rw [hsb]; exact takeWhile_prefix _ a b ha hb
    subst hsb
    have hbz : ∀ c ∈ b, c ≠ 0 := fun c hc => hs c (List.mem_append_right _ hc)
    have hbuf : pre ++ (a ++ b) ++ [0] = (pre ++ a) ++ b ++ 0 :: [] := by simp
    have hc1 : cstr (pre ++ (a ++ b) ++ [0]) (pre.length + a.length) = b := by
      rw [hbuf, ← List.length_append]; exact cstr_at (pre ++ a) b [] hbz
    rw [words_sep _ _ _ ha]
    simp only [splitLoop, hc0, htk, hc1]
    by_cases hbn : b = []
    · rw [if_pos hbn]
      subst hbn
      exact ⟨pre ++ (a ++ []) ++ [0], [], by simp, by simp, by simp [words_nil]⟩
    rw [if_neg hbn]
    obtain ⟨d, hbd, hw, hd⟩ := takeWhile_split (! split.contains ·) b
    generalize hwd : b.takeWhile (! split.contains ·) = w at hbd hw
    have hwne : w ≠ [] := by
      rintro rfl
      obtain ⟨c, t, rfl⟩ := List.exists_cons_of_ne_nil hbn
      have h1 := hb c t rfl
      have h2 := hd c t hbd.symm
      have h3 : (!split.contains c) = true := by rw [h1]; rfl
      rw [h3] at h2; cases h2
    have hw' : ∀ c ∈ w, split.contains c = false := fun c hc => by
      have := hw c hc
      revert this
      cases split.contains c <;> simp
    subst hbd
    by_cases hdn : d = []
    · subst hdn
      have e0 : w ++ [] = w := List.append_nil w
      rw [if_pos (by rw [e0])]
      refine ⟨_, [pre.length + a.length], rfl, by simp, ?_⟩
      rw [words_last _ (w ++ []) (by rw [e0]; exact hw') (by rw [e0]; exact hwne)]
      rw [List.map_cons, List.map_nil, hc1]; simp
    · obtain ⟨c, t, rfl⟩ := List.exists_cons_of_ne_nil hdn
      have hcs : split.contains c = true := by
        have := hd c t rfl
        revert this
        cases split.contains c <;> simp
      rw [if_neg (by simp)]
      have hset : (pre ++ (a ++ (w ++ c :: t)) ++ [0]).set (pre.length + a.length + w.length) 0 =
          (pre ++ a ++ w ++ [0]) ++ t ++ [0] := by
        have e : pre ++ (a ++ (w ++ c :: t)) ++ [0] = (pre ++ a ++ w) ++ (c :: (t ++ [0])) := by simp
        rw [e, List.set_append_right _ _ (by simp; omega)]
        have : pre.length + a.length + w.length - (pre ++ a ++ w).length = 0 := by simp; omega
        rw [this]; simp
      have hlen : pre.length + a.length + w.length + 1 = (pre ++ a ++ w ++ [0]).length := by simp; omega
      rw [hset, hlen]
      obtain ⟨buf', new, h1, h2, h3⟩ := ih t (pre ++ a ++ w ++ [0]) (argv ++ [pre.length + a.length])
        (fun x hx => hbz x (by simp [hx]))
      refine ⟨buf', (pre.length + a.length) :: new, ?_, ?_, ?_⟩
      · rw [h1]; simp
      · have := congrArg (List.take pre.length) h2
        rw [List.take_take, Nat.min_eq_left (by simp)] at this
        rw [this]; simp
      · rw [words_cons _ w c t hw' hwne hcs, List.map_cons, List.take_succ_cons, h3]
        congr 1
        have hb2 : buf' = (pre ++ a) ++ w ++ 0 :: buf'.drop (pre ++ a ++ w ++ [0]).length := by
          conv => lhs; rw [← List.take_append_drop (pre ++ a ++ w ++ [0]).length buf', h2]
          simp
        rw [hb2, ← List.length_append]
        exact cstr_at (pre ++ a) w _ (fun x hx => hbz x (by simp [hx]))

/-- C43: the arguments returned by `cstrSplit` (read from the modified buffer) are the first `maxargc`
words of the string. -/
theorem C43_cstrSplit (s split : Str) (maxargc : Int) (hs : ∀ c ∈ s, c ≠ 0) :
    cstrSplit s maxargc split = (words (split.contains ·) s).take maxargc.toNat := by
  obtain ⟨buf', new, h1, -, h3⟩ := splitLoop_spec split maxargc.toNat s [] [] hs
  unfold cstrSplit
  simp only [List.nil_append, List.length_nil] at h1
  rw [h1]; simpa using h3

/-- C43 (negation of the documented treatment of the last argument): the final argument does not receive
the rest of the string, the rest is lost. -/
theorem C43_rest_refuted : cstrSplit (lit "a b c") 2 defaultSplit = [lit "a", lit "b"] := by decide +kernel

/-- C43: `stringSplit` appends the first 40 white-space separated words. -/
theorem C43_stringSplit (result : List Str) (s : Str) (hs : ∀ c ∈ s, c ≠ 0) :
    stringSplit result s = result ++ (words (fun c => c == 32 || c == 9 || c == 13 || c == 10) s).take 40 := by
  have : (fun c : Byte => defaultSplit.contains c) = (fun c => c == 32 || c == 9 || c == 13 || c == 10) := by
    funext c; rw [Bool.eq_iff_iff]; simp [defaultSplit, or_assoc]
  unfold stringSplit
  rw [C43_cstrSplit s _ _ hs, this]; rfl

/-- C43, partial: all words are returned when there are at most 40 of them.  Missing: longer inputs, whose
remaining words are silently dropped (`C43_forty_refuted`). -/
theorem C43_stringSplit_partial (s : Str) (hs : ∀ c ∈ s, c ≠ 0)
    (h40 : (words (fun c => c == 32 || c == 9 || c == 13 || c == 10) s).length ≤ 40) :
    stringSplit [] s = words (fun c => c == 32 || c == 9 || c == 13 || c == 10) s := by
  rw [C43_stringSplit [] s hs, List.take_of_length_le h40]; rfl

/-- C43 (negation): with 41 words the last one is lost. -/
theorem C43_forty_refuted : (stringSplit [] (List.replicate 41 [97, 32]).flatten).length = 40 ∧
    (words (fun c => c == 32 || c == 9 || c == 13 || c == 10) (List.replicate 41 [97, 32]).flatten).length = 41 := by
  decide +kernel

theorem getArg_spec : ∀ (nth pos : Nat) (cp : Str),
    match getArgLoop (nth + 1) pos cp with
    | some (p, len) => ∃ off, p = pos + off ∧ off + len ≤ cp.length ∧ (words isSpace cp)[nth]? = some ((cp.drop off).take len)
    | none => (words isSpace cp)[nth]? = none := by
  intro nth
  induction nth with
  | zero =>
    intro pos cp
    simp only [getArgLoop]
    by_cases hcp : cp = []
    · rw [if_pos hcp]; subst hcp; simp [words_nil]
    rw [if_neg hcp]
    obtain ⟨b, hsb, ha, hb⟩ := takeWhile_split isSpace cp
    generalize hA : cp.takeWhile isSpace = a at hsb ha
    subst hsb
    rw [words_sep _ _ _ ha, List.drop_left, if_pos trivial]
    obtain ⟨d, hbd, hw, hd⟩ := takeWhile_split (! isSpace ·) b
    generalize hwd : b.takeWhile (! isSpace ·) = w at hbd hw
    have hw' : ∀ c ∈ w, isSpace c = false := fun c hc => by simpa using hw c hc
    by_cases hwn : w = []
    · subst hwn
      simp only [List.length_nil, ne_eq, not_true_eq_false, if_false]
      cases b with
      | nil => simp [words_nil]
      | cons c t =>
        exfalso
        have h1 := hb c t rfl
        have h2 := hd c t hbd.symm
        simp [h1] at h2
    · rw [if_pos (by simpa using hwn)]
      refine ⟨a.length, rfl, ?_, ?_⟩
      · rw [hbd]; simp
      · rw [List.drop_left]
        conv => rhs; rw [hbd, List.take_left]
        cases d with
        | nil => rw [hbd, List.append_nil, words_last _ w hw' hwn]; rfl
        | cons c t =>
          rw [hbd, words_cons _ w c t hw' hwn (by simpa using hd c t rfl)]; rfl
  | succ nth ih =>
    intro pos cp
    rw [getArgLoop]
    by_cases hcp : cp = []
    · rw [if_pos hcp]; subst hcp; simp [words_nil]
    rw [if_neg hcp]
    obtain ⟨b, hsb, ha, hb⟩ := takeWhile_split isSpace cp
    generalize hA : cp.takeWhile isSpace = a at hsb ha
    subst hsb
    simp only [List.drop_left]
    rw [words_sep _ _ _ ha, if_neg (by omega)]
    obtain ⟨d, hbd, hw, hd⟩ := takeWhile_split (! isSpace ·) b
    generalize hwd : b.takeWhile (! isSpace ·) = w at hbd hw
    have hw' : ∀ c ∈ w, isSpace c = false := fun c hc => by simpa using hw c hc
    subst hbd
    rw [List.drop_left]
    have hih := ih (pos + a.length + w.length) d
    have hwords : (words isSpace (w ++ d))[nth + 1]? = (words isSpace d)[nth]? := by
      by_cases hwn : w = []
      · subst hwn
        cases d with
        | nil => simp [words_nil]
        | cons c t =>
          exfalso
          have h1 := hb c t rfl
          have h2 := hd c t rfl
          simp [h1] at h2
      · cases d with
        | nil => rw [List.append_nil, words_last _ w hw' hwn]; simp [words_nil]
        | cons c t =>
          have hc : isSpace c = true := by simpa using hd c t rfl
          rw [words_cons _ w c t hw' hwn hc]
          have : words isSpace (c :: t) = words isSpace t := words_sep isSpace [c] t (by simp [hc])
          rw [this]; rfl
    rw [hwords]
    cases hg : getArgLoop (nth + 1) (pos + a.length + w.length) d with
    | none => rw [hg] at hih; exact hih
    | some r =>
      rw [hg] at hih
      obtain ⟨off, h1, h2, h3⟩ := hih
      refine ⟨a.length + w.length + off, by omega, by simp; omega, ?_⟩
      rw [h3]
      congr 2
      have : a ++ (w ++ d) = (a ++ w) ++ d := by simp
      rw [this, ← List.length_append, ← List.drop_drop, List.drop_left]

/-- C43: `cstrGetArg(s,n)` with n ≥ 1 points to the n-th white-space separated word, with its length, or is
NULL exactly when there are fewer words. -/
theorem C43_cstrGetArg (s : Str) (n : Int) (hn : 1 ≤ n) :
    match cstrGetArg s n with
    | some (p, len) => p + len ≤ s.length ∧ (words isSpace s)[n.toNat - 1]? = some ((s.drop p).take len)
    | none => (words isSpace s).length < n.toNat := by
  obtain ⟨k, rfl⟩ : ∃ k : Nat, n = k + 1 := ⟨(n - 1).toNat, by omega⟩
  have ht : ((k : Int) + 1).toNat = k + 1 := by omega
  unfold cstrGetArg
  rw [ht, Nat.add_sub_cancel]
  have h := getArg_spec k 0 s
  cases hg : getArgLoop (k + 1) 0 s with
  | none =>
    rw [hg] at h
    rw [List.getElem?_eq_none_iff] at h
    show _ < _; omega
  | some r =>
    rw [hg] at h
    obtain ⟨off, h1, h2, h3⟩ := h
    have : r.1 = off := by omega
    subst this
    exact ⟨h2, h3⟩

/-- C43: the words of a text are its maximal runs of non-separators, none is left out, and they come in order. -/
theorem C43_words_are_runs (sep : Byte → Bool) (s : Str) :
    (words sep s).flatten = s.filter (! sep ·) ∧
    ∀ w ∈ words sep s, w ≠ [] ∧ (∀ c ∈ w, sep c = false) ∧ ∃ pre post, s = pre ++ w ++ post ∧
      (∀ c t, post = c :: t → sep c = true) ∧ (∀ c, pre.getLast? = some c → sep c = true) := by
  have main : ∀ s : Str, ∀ i (w : Str), (pieces sep s)[i]? = some w →
      (∀ c ∈ w, sep c = false) ∧ ∃ pre post, s = pre ++ w ++ post ∧
      (∀ c t, post = c :: t → sep c = true) ∧ (∀ c, pre.getLast? = some c → sep c = true) ∧ (i = 0 ↔ pre = []) := by
    intro s
    induction s with
    | nil =>
      intro i w h
      cases i with
      | zero => simp [pieces] at h; subst h; exact ⟨by simp, [], [], by simp, by simp, by simp, by simp⟩
      | succ i => simp [pieces] at h
    | cons c s ih =>
      intro i w h
      rw [pieces] at h
      by_cases hc : sep c = true
      · rw [if_pos hc] at h
        cases i with
        | zero =>
          simp at h; subst h
          exact ⟨by simp, [], c :: s, by simp, fun d t hd => by injection hd with h1; subst h1; exact hc, by simp, by simp⟩
        | succ i =>
          rw [List.getElem?_cons_succ] at h
          obtain ⟨h1, pre, post, h2, h3, h4, h5⟩ := ih i w h
          refine ⟨h1, c :: pre, post, by rw [h2]; simp, h3, ?_, by simp⟩
          intro d hd
          cases pre with
          | nil => simp at hd; subst hd; exact hc
          | cons e pre => rw [List.getLast?_cons_cons] at hd; exact h4 d hd
      · rw [if_neg hc] at h
        have hc' : sep c = false := by simpa using hc
        cases hp : pieces sep s with
        | nil => exact absurd hp (pieces_ne_nil sep s)
        | cons p ps =>
          rw [hp] at h
          cases i with
          | zero =>
            simp at h; subst h
            obtain ⟨h1, pre, post, h2, h3, h4, h5⟩ := ih 0 p (by rw [hp]; rfl)
            have := h5.mp rfl; subst this
            refine ⟨?_, [], post, by rw [h2]; simp, h3, by simp, by simp⟩
            intro d hd
            rcases List.mem_cons.mp hd with rfl | hd
            · exact hc'
            · exact h1 d hd
          | succ i =>
            simp only [List.getElem?_cons_succ] at h
            obtain ⟨h1, pre, post, h2, h3, h4, h5⟩ := ih (i + 1) w (by rw [hp]; exact h)
            refine ⟨h1, c :: pre, post, by rw [h2]; simp, h3, ?_, by simp⟩
            intro d hd
            cases pre with
            | nil => exact absurd (h5.mpr rfl) (by omega)
            | cons e pre => rw [List.getLast?_cons_cons] at hd; exact h4 d hd
  constructor
  · have hfl : ∀ l : List Str, (l.filter (! ·.isEmpty)).flatten = l.flatten := by
      intro l
      induction l with
      | nil => rfl
      | cons p l ih => cases p <;> simp [ih]
    unfold words
    rw [hfl]
    induction s with
    | nil => rfl
    | cons c s ih =>
      rw [pieces]
      by_cases hc : sep c = true
      · rw [if_pos hc]; simp [hc, ih]
      · rw [if_neg hc]
        cases hp : pieces sep s with
        | nil => exact absurd hp (pieces_ne_nil sep s)
        | cons p ps => rw [hp] at ih; simp [hc, ← ih]
  · intro w hw
    unfold words at hw
    rw [List.mem_filter] at hw
    obtain ⟨i, hi⟩ := List.mem_iff_getElem?.mp hw.1
    obtain ⟨h1, pre, post, h2, h3, h4, -⟩ := main s i w hi
    refine ⟨?_, h1, pre, post, h2, h3, h4⟩
    rintro rfl
    simp at hw

example : cstrSplit (lit " a  bc d") 10 defaultSplit = [lit "a", lit "bc", lit "d"] := by decide +kernel
example : cstrGetArg (lit " a  bc d") 2 = some (4, 2) ∧ cstrGetArg (lit " a  bc d") 4 = none := by decide +kernel
example : ∀ c ∈ lit " a  bc d", c ≠ 0 := by decide +kernel

end Verif.Utils
