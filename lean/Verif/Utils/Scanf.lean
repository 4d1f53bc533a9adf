import Verif.Core.Outcome
import Verif.Core.Str

/-
Property C105: scanning into C++ strings, `myscanf` (`Utils.cpp:197-246`).

`sscanf` is modelled after the C standard for the directives that make sense here: white space, ordinary characters, `%s`, `%[...]`, both with or without width, and `%c`.
A format is a list of directives (its text is not parsed).  The input is a C string: a list of characters without the terminating zero.
-/

namespace Verif.Utils.Scanf
open Verif

/-- A directive of the format.  A width `some w` stands for at most `w + 1` characters (`%0s` is not allowed). -/
inductive Dir
  | ws
  | ord (c : Byte)
  | str (w : Option Nat)
  | set (p : Byte → Bool) (w : Option Nat)
  | chr

/-- Does the directive store something? -/
def Dir.stores : Dir → Bool
  | .str _ => true
  | .set _ _ => true
  | .chr => true
  | _ => false

/-- Cut after the width. -/
def cut (w : Option Nat) (s : Str) : Str := match w with
  | some n => s.take (n + 1)
  | none => s

/-- What a directive does with the input: stop for lack of input, stop for a mismatch, or continue after storing at most one piece. -/
inductive Res
  | eof
  | mismatch
  | cont (piece : Option Str) (rest : Str)

/-- One directive (C standard, `fscanf`). -/
def Dir.run (d : Dir) (s : Str) : Res := match d with
  | .ws => .cont none (s.dropWhile isSpace)
  | .ord c => match s with
    | [] => .eof
    | x :: t => if x = c then .cont none t else .mismatch
  | .str w => match s.dropWhile isSpace with
    | [] => .eof
    | x :: t => let p := cut w ((x :: t).takeWhile fun c => !isSpace c); .cont (some p) ((x :: t).drop p.length)
  | .set q w => match s with
    | [] => .eof
    | x :: t => let p := cut w ((x :: t).takeWhile q); if p = [] then .mismatch else .cont (some p) ((x :: t).drop p.length)
  | .chr => match s with
    | [] => .eof
    | x :: t => .cont (some [x]) t

/-- `sscanf`: the pieces stored, and whether the input ended too early. -/
def sscanf : List Dir → Str → List (Dir × Str) × Bool
  | [], _ => ([], false)
  | d :: ds, s => match d.run s with
    | .eof => ([], true)
    | .mismatch => ([], false)
    | .cont p r => (match p with | some q => [(d, q)] | none => [], false) |> fun a => let b := sscanf ds r; (a.1 ++ b.1, b.2)

/-- The value returned: the number of pieces stored, or -1 if the input ended before the first. -/
def count (r : List (Dir × Str) × Bool) : Int := if r.1 = [] ∧ r.2 then -1 else r.1.length

/-- Is the piece followed by a zero? -/
def terminated : Dir → Bool
  | .chr => false
  | _ => true

/-- `myscanf` with `old.length` strings whose values are `old` (`Utils.cpp:197-246`): the value returned and the new values.
Undefined: more directives that store than strings; a piece longer than the buffer (`strlen(str)+1`, with its zero); a string read from a buffer without a zero,
which is what happens in the version with one string (line 202) if nothing was stored. -/
def myscanf (fmt : List Dir) (s : Str) (old : List Str) : Outcome (Int × List Str) :=
  if old.length < (fmt.filter Dir.stores).length then .ub
  else
    let r := sscanf fmt s
    if r.1.any fun p => s.length + 1 < p.2.length + (if terminated p.1 then 1 else 0) then .ub
    else if r.1.any fun p => !terminated p.1 then .ub
    else if old.length = 1 ∧ r.1 = [] then .ub
    else .ok (count r, r.1.map (·.2) ++ old.drop r.1.length)

/-! ### Specification -/

/-- The text `p` is the longest beginning of `s` with characters in `q`, within the width. -/
def Longest (q : Byte → Bool) (w : Option Nat) (p r : Str) : Prop :=
  (∀ c ∈ p, q c = true) ∧ p ≠ [] ∧ (match w with | some n => p.length ≤ n + 1 | none => True) ∧ ((∀ c t, r = c :: t → q c = false) ∨ ∃ n, w = some n ∧ p.length = n + 1)

/-- The directive reads the text `a` and stores `ps`, when `r` follows. -/
inductive Reads1 : Dir → Str → List Str → Str → Prop
  | ws {a r : Str} : (∀ c ∈ a, isSpace c = true) → (∀ c t, r = c :: t → isSpace c = false) → Reads1 .ws a [] r
  | ord {c : Byte} {r : Str} : Reads1 (.ord c) [c] [] r
  | str {w : Option Nat} {a p r : Str} : (∀ c ∈ a, isSpace c = true) → Longest (fun c => !isSpace c) w p r → Reads1 (.str w) (a ++ p) [p] r
  | set {q : Byte → Bool} {w : Option Nat} {p r : Str} : Longest q w p r → Reads1 (.set q w) p [p] r
  | chr {c : Byte} {r : Str} : Reads1 .chr [c] [[c]] r

/-- The directives read the text, store the pieces, and leave the rest. -/
inductive Reads : List Dir → Str → List Str → Str → Prop
  | nil {s : Str} : Reads [] s [] s
  | cons {d : Dir} {ds : List Dir} {a s r : Str} {p ps : List Str} : Reads1 d a p s → Reads ds s ps r → Reads (d :: ds) (a ++ s) (p ++ ps) r

/-- No beginning of the text can be read by the directive. -/
def Stuck (d : Dir) (s : Str) : Prop := ∀ a p r, s = a ++ r → ¬ Reads1 d a p r

/-! ### Proof -/

theorem dropWhile_head {q : Byte → Bool} : ∀ {s : Str} {c : Byte} {t : Str}, s.dropWhile q = c :: t → q c = false
  | [], _, _, h => by simp at h
  | x :: s, c, t, h => by
    rw [List.dropWhile_cons] at h
    split at h
    · exact dropWhile_head h
    · rename_i hx
      injection h with h1 _
      rw [← h1]; simpa using hx

theorem longest_cut (q : Byte → Bool) (w : Option Nat) (s : Str) (h : cut w (s.takeWhile q) ≠ []) : Longest q w (cut w (s.takeWhile q)) (s.drop (cut w (s.takeWhile q)).length) := by
  have hq : ∀ c ∈ s.takeWhile q, q c = true := fun c hc => List.all_eq_true.1 (List.all_takeWhile (p := q) (l := s)) c hc
  have hd : s.drop (s.takeWhile q).length = s.dropWhile q := by
    conv => lhs; rw [← List.takeWhile_append_dropWhile (p := q) (l := s)]
    have : (s.takeWhile q ++ s.dropWhile q).takeWhile q = s.takeWhile q := by rw [List.takeWhile_append_dropWhile]
    rw [this, List.drop_left]
  cases w with
  | none =>
    refine ⟨hq, h, trivial, Or.inl fun c t e => ?_⟩
    simp only [cut] at e
    rw [hd] at e
    exact dropWhile_head e
  | some n =>
    refine ⟨fun c hc => hq c (List.mem_of_mem_take hc), h, by simp [cut]; omega, ?_⟩
    by_cases hl : n + 1 ≤ (s.takeWhile q).length
    · exact Or.inr ⟨n, rfl, by simp [cut]; omega⟩
    · refine Or.inl fun c t e => ?_
      simp only [cut] at e
      rw [List.take_of_length_le (by omega), hd] at e
      exact dropWhile_head e

theorem cut_prefix (w : Option Nat) (q : Byte → Bool) (s : Str) : cut w (s.takeWhile q) ++ s.drop (cut w (s.takeWhile q)).length = s := by
  have h : cut w (s.takeWhile q) <+: s := by
    cases w with
    | none => exact List.takeWhile_prefix q
    | some n => exact (List.take_prefix _ _).trans (List.takeWhile_prefix q)
  obtain ⟨r, e⟩ := h
  conv => lhs; rhs; rhs; rw [← e]
  rw [List.drop_left, e]

theorem cut_ne {w : Option Nat} {l : Str} (h : l ≠ []) : cut w l ≠ [] := by
  cases w <;> cases l <;> simp_all [cut]

/-- A directive that continues has read. -/
theorem run_cont {d : Dir} {s : Str} {p : Option Str} {r : Str} (h : d.run s = .cont p r) : ∃ a, s = a ++ r ∧ Reads1 d a p.toList r := by
  cases d with
  | ws =>
    simp only [Dir.run, Res.cont.injEq] at h
    obtain ⟨rfl, rfl⟩ := h
    exact ⟨s.takeWhile isSpace, (List.takeWhile_append_dropWhile ..).symm, .ws (fun c hc => List.all_eq_true.1 (List.all_takeWhile (p := isSpace) (l := s)) c hc) fun c t e => dropWhile_head e⟩
  | ord c =>
    cases s with
    | nil => simp [Dir.run] at h
    | cons x t =>
      simp only [Dir.run] at h
      split at h
      · rename_i hx
        injection h with h1 h2
        subst h1; subst h2; subst hx
        exact ⟨[x], rfl, .ord⟩
      · cases h
  | str w =>
    simp only [Dir.run] at h
    split at h
    · cases h
    · rename_i x t e
      injection h with h1 h2
      subst h1; subst h2
      have hx := dropWhile_head e
      have hne : cut w ((x :: t).takeWhile fun c => !isSpace c) ≠ [] := cut_ne (by simp [hx])
      refine ⟨s.takeWhile isSpace ++ cut w ((x :: t).takeWhile fun c => !isSpace c), ?_, .str (fun c hc => List.all_eq_true.1 (List.all_takeWhile (p := isSpace) (l := s)) c hc) (longest_cut _ _ _ hne)⟩
      rw [List.append_assoc, cut_prefix, ← e, List.takeWhile_append_dropWhile]
  | set q w =>
    cases s with
    | nil => simp [Dir.run] at h
    | cons x t =>
      simp only [Dir.run] at h
      split at h
      · cases h
      · rename_i hne
        injection h with h1 h2
        subst h1; subst h2
        exact ⟨_, (cut_prefix w q (x :: t)).symm, .set (longest_cut _ _ _ hne)⟩
  | chr =>
    cases s with
    | nil => simp [Dir.run] at h
    | cons x t =>
      simp only [Dir.run] at h
      injection h with h1 h2
      subst h1; subst h2
      exact ⟨[x], rfl, .chr⟩

/-- A directive that does not continue cannot read. -/
theorem run_stuck {d : Dir} {s : Str} (h : ∀ p r, d.run s ≠ .cont p r) : Stuck d s := by
  intro a p r hs hr
  cases hr with
  | ws h1 h2 => exact h _ _ rfl
  | ord => rename_i c; subst hs; exact h none r (by simp [Dir.run])
  | @str w a q _ h1 h2 =>
    obtain ⟨g1, g2, -, -⟩ := h2
    subst hs
    cases q with
    | nil => exact g2 rfl
    | cons x t =>
      have hx : isSpace x = false := by simpa using g1 x (by simp)
      have hd : (a ++ x :: t ++ r).dropWhile isSpace = x :: (t ++ r) := by
        rw [List.append_assoc, List.dropWhile_append_of_pos (by simpa using h1)]
        simp [hx]
      refine h (some (cut w ((x :: (t ++ r)).takeWhile fun c => !isSpace c))) ((x :: (t ++ r)).drop (cut w ((x :: (t ++ r)).takeWhile fun c => !isSpace c)).length) ?_
      simp only [Dir.run, hd]
  | @set q w _ _ h1 =>
    obtain ⟨g1, g2, -, -⟩ := h1
    subst hs
    cases a with
    | nil => exact g2 rfl
    | cons x t =>
      have hx : q x = true := g1 x (by simp)
      have hne : cut w ((x :: (t ++ r)).takeWhile q) ≠ [] := cut_ne (by simp [hx])
      refine h (some (cut w ((x :: (t ++ r)).takeWhile q))) ((x :: (t ++ r)).drop (cut w ((x :: (t ++ r)).takeWhile q)).length) ?_
      simp only [Dir.run, List.cons_append]
      rw [if_neg hne]
  | chr => rename_i c; subst hs; exact h (some [c]) r (by simp [Dir.run])

theorem sscanf_reads : ∀ (fmt : List Dir) (s : Str), ∃ f g r, fmt = f ++ g ∧ Reads f s ((sscanf fmt s).1.map (·.2)) r ∧ (g = [] ∧ (sscanf fmt s).2 = false ∨ ∃ d ds, g = d :: ds ∧ Stuck d r)
  | [], s => ⟨[], [], s, rfl, .nil, Or.inl ⟨rfl, rfl⟩⟩
  | d :: ds, s => by
    cases hd : d.run s with
    | eof => exact ⟨[], d :: ds, s, rfl, by simp only [sscanf, hd]; exact .nil, Or.inr ⟨d, ds, rfl, run_stuck (by intro p r e; rw [hd] at e; cases e)⟩⟩
    | mismatch => exact ⟨[], d :: ds, s, rfl, by simp only [sscanf, hd]; exact .nil, Or.inr ⟨d, ds, rfl, run_stuck (by intro p r e; rw [hd] at e; cases e)⟩⟩
    | cont p r =>
      obtain ⟨a, rfl, h1⟩ := run_cont hd
      obtain ⟨f, g, r', e, h2, h3⟩ := sscanf_reads ds r
      have e2 : (sscanf (d :: ds) (a ++ r)).1.map (·.2) = p.toList ++ (sscanf ds r).1.map (·.2) := by
        simp only [sscanf, hd]
        cases p <;> simp
      refine ⟨d :: f, g, r', by rw [e]; rfl, by rw [e2]; exact .cons h1 h2, ?_⟩
      have e3 : (sscanf (d :: ds) (a ++ r)).2 = (sscanf ds r).2 := by simp only [sscanf, hd]
      rw [e3]
      exact h3

theorem reads1_len {d : Dir} {a : Str} {p : List Str} {r : Str} (h : Reads1 d a p r) : (∀ q ∈ p, q.length ≤ a.length) ∧ p.length = if d.stores then 1 else 0 := by
  cases h <;> simp [Dir.stores]

theorem reads_len {f : List Dir} {s : Str} {ps : List Str} {r : Str} (h : Reads f s ps r) : (∀ q ∈ ps, q.length ≤ s.length) ∧ ps.length = (f.filter Dir.stores).length := by
  induction h with
  | nil => simp
  | @cons d ds a s r p ps h1 _ ih =>
    obtain ⟨l1, l2⟩ := reads1_len h1
    refine ⟨fun q hq => ?_, ?_⟩
    · rw [List.length_append]
      rcases List.mem_append.1 hq with hq | hq
      · have := l1 q hq; omega
      · have := ih.1 q hq; omega
    · rw [List.length_append, l2, ih.2, List.filter_cons]
      split <;> simp <;> omega

theorem sscanf_dirs : ∀ (fmt : List Dir) (s : Str), ∀ p ∈ (sscanf fmt s).1, p.1 ∈ fmt
  | [], s => by simp [sscanf]
  | d :: ds, s => by
    intro p hp
    cases hd : d.run s with
    | eof => simp [sscanf, hd] at hp
    | mismatch => simp [sscanf, hd] at hp
    | cont q r =>
      have : p = (d, p.2) ∨ p ∈ (sscanf ds r).1 := by
        simp only [sscanf, hd, List.mem_append] at hp
        rcases hp with hp | hp
        · cases q with
          | none => simp at hp
          | some q => simp at hp; left; rw [hp]
        · exact Or.inr hp
      rcases this with h | h
      · rw [h]; simp
      · exact List.mem_cons_of_mem _ (sscanf_dirs ds r p h)

/-- C105, partial: with two or more strings, a format without `%c` and with at most as many storing directives as there are strings, `myscanf` is well defined for every input.
The format is split into a part that reads the input and stores exactly the pieces given to the first strings, the others keeping their values, and a part of which the first directive can read
nothing of what is left; the value returned is the number of pieces, or -1 when there is none and the input ended.
Missing: `%c`, and one string when nothing is stored; both refuted below. -/
theorem C105_scan_partial (fmt : List Dir) (s : Str) (old : List Str) (hk : (fmt.filter Dir.stores).length ≤ old.length) (h2 : old.length ≠ 1 ∨ (sscanf fmt s).1 ≠ []) (hc : ∀ d ∈ fmt, d ≠ .chr) :
    ∃ n ps f g r, myscanf fmt s old = .ok (n, ps ++ old.drop ps.length) ∧ fmt = f ++ g ∧ Reads f s ps r ∧ (g = [] ∨ ∃ d ds, g = d :: ds ∧ Stuck d r) ∧
      (n = ps.length ∨ ps = [] ∧ n = -1 ∧ ∃ d ds, g = d :: ds ∧ Stuck d r) := by
  obtain ⟨f, g, r, e, h, hg⟩ := sscanf_reads fmt s
  have hl := reads_len h
  refine ⟨count (sscanf fmt s), _, f, g, r, ?_, e, h, hg.imp (fun x => x.1) id, ?_⟩
  · unfold myscanf
    rw [if_neg (by omega)]
    have t : ∀ p ∈ (sscanf fmt s).1, terminated p.1 = true := by
      intro p hp
      have := hc _ (sscanf_dirs fmt s p hp)
      cases hd : p.1 <;> simp_all [terminated]
    have c1 : ((sscanf fmt s).1.any fun p => decide (s.length + 1 < p.2.length + (if terminated p.1 then 1 else 0))) = false := by
      rw [List.any_eq_false]
      intro p hp
      have hlen := hl.1 p.2 (List.mem_map.2 ⟨p, hp, rfl⟩)
      rw [t p hp]
      simp
      omega
    have c2 : ((sscanf fmt s).1.any fun p => !terminated p.1) = false := by
      rw [List.any_eq_false]
      intro p hp
      simp [t p hp]
    simp only [c1, c2]
    rw [if_neg (by simp), if_neg (by simp), if_neg (fun ⟨x, y⟩ => h2.elim (fun z => z x) (fun z => z y))]
    rw [List.length_map]
  · unfold count
    split
    · rename_i hn
      right
      refine ⟨by simp [hn.1], rfl, ?_⟩
      rcases hg with ⟨-, hf⟩ | hg
      · rw [hf] at hn; simp at hn
      · exact hg
    · left; simp

/-- The usual format for two words. -/
def twoWords : List Dir := [.str none, .str none]

example : myscanf twoWords (lit " ab  c d") [[], lit "x"] = .ok (2, [lit "ab", lit "c"]) := by decide +kernel
example : myscanf twoWords (lit "ab ") [[], lit "x"] = .ok (1, [lit "ab", lit "x"]) := by decide +kernel
example : myscanf twoWords (lit " ") [[], lit "x"] = .ok (-1, [[], lit "x"]) := by decide +kernel
example : myscanf [.set (fun c => c ≠ chr '=') none, .ord (chr '='), .str (some 2)] (lit "k e=value") [[], []] = .ok (2, [lit "k e", lit "val"]) := by decide +kernel

/-- Reading is unambiguous: what a directive reads and stores is determined by the text. -/
theorem C105_unique {d : Dir} {s a b : Str} {p q : List Str} {r t : Str} (h1 : Reads1 d a p r) (e1 : s = a ++ r) (h2 : Reads1 d b q t) (e2 : s = b ++ t) : p = q ∧ r = t := by
  have spaces : ∀ {a b r t : Str}, (∀ c ∈ a, isSpace c = true) → (∀ c ∈ b, isSpace c = true) → (∀ c x, r = c :: x → isSpace c = false) → (∀ c x, t = c :: x → isSpace c = false) → a ++ r = b ++ t → a = b ∧ r = t := by
    intro a
    induction a with
    | nil =>
      intro b r t _ hb hr _ e
      cases b with
      | nil => exact ⟨rfl, e⟩
      | cons x b =>
        have := hr x (b ++ t) e
        rw [hb x (by simp)] at this; cases this
    | cons x a ih =>
      intro b r t ha hb hr ht e
      cases b with
      | nil =>
        have := ht x (a ++ r) e.symm
        rw [ha x (by simp)] at this; cases this
      | cons y b =>
        injection e with e3 e4
        obtain ⟨i1, i2⟩ := ih (fun c hc => ha c (by simp [hc])) (fun c hc => hb c (by simp [hc])) hr ht e4
        exact ⟨by rw [e3, i1], i2⟩
  have longest : ∀ {f : Byte → Bool} {w : Option Nat} {p q r t : Str}, Longest f w p r → Longest f w q t → p ++ r = q ++ t → p = q ∧ r = t := by
    intro f w p q r t hp hq e
    have key : ∀ {p q r t : Str}, Longest f w p r → Longest f w q t → p ++ r = q ++ t → p.length < q.length → False := by
      intro p q r t ⟨_, _, _, p4⟩ ⟨q1, _, q3, _⟩ e hl
      have : ∃ x m, q = p ++ x :: m := by
        obtain ⟨m, hm⟩ : p <+: q := List.prefix_of_prefix_length_le (List.prefix_append p r) (by rw [e]; exact List.prefix_append q t) (by omega)
        cases m with
        | nil => rw [← hm] at hl; simp at hl
        | cons x m => exact ⟨x, m, hm.symm⟩
      obtain ⟨x, m, rfl⟩ := this
      rcases p4 with p4 | ⟨n, hn, hp⟩
      · rw [List.append_assoc, List.append_cancel_left_eq] at e
        have := p4 x (m ++ t) e
        rw [q1 x (by simp)] at this; cases this
      · rw [hn] at q3
        simp only at q3
        omega
    have hlen : p.length = q.length := by
      rcases Nat.lt_trichotomy p.length q.length with h | h | h
      · exact (key hp hq e h).elim
      · exact h
      · exact (key hq hp e.symm h).elim
    exact List.append_inj e hlen
  cases h1 with
  | ws x1 x2 => cases h2 with
    | ws y1 y2 => exact ⟨rfl, (spaces x1 y1 x2 y2 (e1.symm.trans e2)).2⟩
  | ord => cases h2 with
    | ord => rw [e1] at e2; injection e2 with _ e2; exact ⟨rfl, e2⟩
  | @str w a p _ x1 x2 => cases h2 with
    | @str _ b q _ y1 y2 =>
      have e := e1.symm.trans e2
      rw [List.append_assoc, List.append_assoc] at e
      have nsp : ∀ {p r : Str}, Longest (fun c => !isSpace c) w p r → ∀ c x, p ++ r = c :: x → isSpace c = false := by
        intro p r hp c x hx
        cases p with
        | nil => exact absurd rfl hp.2.1
        | cons z p =>
          injection hx with hx _
          rw [← hx]; simpa using hp.1 z (by simp)
      have e3 := (spaces x1 y1 (nsp x2) (nsp y2) e).2
      obtain ⟨e4, e5⟩ := longest x2 y2 e3
      exact ⟨by rw [e4], e5⟩
  | set x1 => cases h2 with
    | set y1 =>
      obtain ⟨e4, e5⟩ := longest x1 y1 (e1.symm.trans e2)
      exact ⟨by rw [e4], e5⟩
  | chr => cases h2 with
    | chr => rw [e1] at e2; injection e2 with e3 e4; exact ⟨by rw [e3], e4⟩

example : Reads1 (.str none) (lit " ab") [lit "ab"] (lit " c") := .str (a := lit " ") (p := lit "ab") (by decide) ⟨by decide, by decide, trivial, Or.inl (by intro c t h; injection h with h; subst h; rfl)⟩

/-- C105 is refuted for one string: when nothing is stored the string is read from memory that was never written (line 202). -/
theorem C105_single_refuted : myscanf [.str none] (lit "  ") [lit "x"] = .ub ∧ myscanf [.ord (chr '#'), .str none] (lit "abc") [lit "x"] = .ub := by decide +kernel

/-- C105 is refuted for `%c`, which stores no zero. -/
theorem C105_char_refuted : myscanf [.chr, .str none] (lit "a b") [[], []] = .ub := by decide +kernel

/-- The number returned does not say that the text after the last piece matches. -/
theorem C105_tail_refuted : ∃ fmt s ps, myscanf fmt s [[], []] = .ok (2, ps) ∧ ∀ qs r, ¬ Reads fmt s qs r := by
  refine ⟨[.str none, .str none, .ws, .ord (chr ';')], lit "a b", [lit "a", lit "b"], by decide +kernel, ?_⟩
  intro qs r h
  have last : ∀ {f : List Dir} {s : Str} {ps : List Str} {r : Str}, Reads f s ps r → ∀ g, f = g ++ [.ord (chr ';')] → chr ';' ∈ s := by
    intro f s ps r h
    induction h with
    | nil => intro g hg; simp at hg
    | @cons d ds a s r p ps h1 h2 ih =>
      intro g hg
      cases g with
      | nil =>
        injection hg with h3 h4
        subst h3
        cases h1
        simp
      | cons x g =>
        injection hg with _ h4
        exact List.mem_append.2 (Or.inr (ih g h4))
  exact absurd (last h [.str none, .str none, .ws] rfl) (by decide)

end Verif.Utils.Scanf
