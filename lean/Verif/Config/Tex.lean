import Verif.Config.Script
import Verif.Utils.ReplaceProps

/-
Property C97: the manual pages, `ConfigurationTable::getTeX` (`Configuration.cpp:270-342`).
-/

namespace Verif.Config
open Verif.Utils Verif.Utils.Spec

/-- `ConfigurationKey::VisibilityLevel` (`Configuration.h:359-367`). -/
inductive Vis
  | customer | customerSite | customerTune | customerWarn | developer | factory
deriving DecidableEq, Repr

/-- A key as far as the manual shows it; `vis` is `none` for a key made by the default constructor (`Configuration.h:432-433`), which leaves the member unset. -/
structure TKey where
  name : Str
  vis : Option Vis
  desc : Str
deriving DecidableEq, Repr

/-- One entry (`Configuration.cpp:285-290`, `308-313`, `327-332`). -/
def texItem (k : TKey) : Str := [9] ++ lit "\\item \\texttt{" ++ k.name ++ lit "} -- " ++ k.desc ++ nl

/-- The conditions of the three loops (`Configuration.cpp:284`, `302-307`, `325-326`). -/
def isSite (k : TKey) : Bool := k.vis = some .customerSite
def isTune (k : TKey) : Bool := k.vis ≠ some .customerSite && (k.vis = some .customer || k.vis = some .customerTune || k.vis = some .customerWarn)
def isDev (k : TKey) : Bool := k.vis = some .factory || k.vis = some .developer

/-- The fixed parts (`Configuration.cpp:275-281`, `294-299`, `317-322`, `336-338`). -/
def texHead (program version : Str) : Str :=
  lit "% START AUTO-GENERATED CONTENT" ++ nl ++ lit "% -- these sections were generated using: " ++ program ++ lit " --gentex" ++ nl ++ lit "% -- binary version: " ++ version ++ nl
def texSec1 : Str := lit "\\section{Customer Site Parameters}" ++ nl ++ lit "These parameters must be changed to fit your site." ++ nl ++ lit "\\begin{itemize}" ++ nl
def texSec2 : Str := lit "\\section{Customer Tuneable Parameters}" ++ nl ++ lit "These parameters can be changed to optimize your site." ++ nl ++ lit "\\begin{itemize}" ++ nl
def texSec3 : Str := lit "\\section{Developer/Factory Parameters}" ++ nl ++ lit "These parameters should only be changed by when developing new code." ++ nl ++ lit "\\begin{itemize}" ++ nl
def texEnd : Str := lit "\\end{itemize}" ++ nl ++ nl
def texFoot : Str := lit "\\end{itemize}" ++ nl ++ lit "% END AUTO-GENERATED CONTENT" ++ nl ++ nl

/-- The stream before the replacements (`Configuration.cpp:272-338`). -/
def texBody (program version : Str) (schema : List TKey) : Str :=
  texHead program version ++ texSec1 ++ (schema.filter isSite).flatMap texItem ++ texEnd ++ texSec2 ++ (schema.filter isTune).flatMap texItem ++ texEnd ++
    texSec3 ++ (schema.filter isDev).flatMap texItem ++ texFoot

/-- `ConfigurationTable::getTeX` (`Configuration.cpp:270-342`): reading an unset visibility is undefined; then two calls of `Utils::replaceAll`, with enough rounds. -/
def getTeX (program version : Str) (schema : List TKey) : Outcome Str :=
  if schema.any (·.vis.isNone) then .ub
  else
    match replaceAll ((texBody program version schema).length + 1) (texBody program version schema) (lit "^") (lit "\\^") with
    | none => .diverge
    | some (tmp, _) =>
      match replaceAll (tmp.length + 1) tmp (lit "_") (lit "\\_") with
      | none => .diverge
      | some (out, _) => .ok out

/-! ### Specification -/

/-- Every character of `specials` with a backslash in front. -/
def escape (specials : Str) (s : Str) : Str := s.flatMap fun c => if c ∈ specials then [chr '\\', c] else [c]

/-- What TeX reads of a line: a percent sign without a backslash begins a comment. -/
def texVisible : Str → Str
  | [] => []
  | [c] => if c = chr '%' then [] else [c]
  | c :: d :: s => if c = chr '%' then [] else if c = chr '\\' then c :: d :: texVisible s else c :: texVisible (d :: s)

/-- The lines of a text. -/
def linesOf : Str → List Str
  | [] => []
  | c :: s => if c = 10 then [] :: linesOf s else match linesOf s with | [] => [[c]] | l :: r => (c :: l) :: r

/-- What a reader finds below a heading: the entries, lines that begin with a tab, up to the end of the list. -/
def entriesUnder (heading text : Str) : List Str := (((linesOf text).dropWhile (· ≠ heading)).takeWhile (· ≠ lit "\\end{itemize}")).filter fun l => l.head? = some 9

/-- The entry of a key as it should be. -/
def entry (k : TKey) : Str := [9] ++ lit "\\item \\texttt{" ++ escape (lit "^_") k.name ++ lit "} -- " ++ escape (lit "^_") k.desc

/-! ### Proof -/

theorem occurs_single (c : Byte) (s : Str) (i : Nat) : OccursAt [c] s i ↔ s[i]? = some c := by
  unfold OccursAt
  rw [List.singleton_prefix_iff_head?_eq_some]
  simp [List.head?_drop, eq_comm]

theorem first_split {c : Byte} {s : Str} (hc : c ∈ s) : ∃ pre t, s = pre ++ c :: t ∧ c ∉ pre := by
  induction s with
  | nil => simp at hc
  | cons d s ih =>
    by_cases hd : d = c
    · exact ⟨[], s, by simp [hd], by simp⟩
    · have hcs : c ∈ s := by
        rcases List.mem_cons.1 hc with h | h
        · exact absurd h.symm hd
        · exact h
      obtain ⟨p, t, e2, h2⟩ := ih hcs
      exact ⟨d :: p, t, by simp [e2], by simp [h2, Ne.symm hd]⟩

theorem replaced_single (c : Byte) (rep s : Str) : Replaced [c] rep s (s.flatMap fun d => if d = c then rep else [d]) := by
  -- split at the first occurrence
  induction hn : s.length using Nat.strongRecOn generalizing s with
  | ind n ih =>
    by_cases hc : c ∈ s
    · obtain ⟨pre, t, rfl, hpre⟩ := first_split hc
      have hfix : (pre.flatMap fun d => if d = c then rep else [d]) = pre := by
        clear ih hn hc
        induction pre with
        | nil => rfl
        | cons d p ih2 =>
          have hd : d ≠ c := fun e => hpre (by simp [e])
          rw [List.flatMap_cons, ih2 (fun h => hpre (by simp [h])), if_neg hd]; rfl
      have hstep := Replaced.step (pat := [c]) (rep := rep) pre t (t.flatMap fun d => if d = c then rep else [d]) (by
        intro i hi hocc
        rw [occurs_single, List.append_assoc, List.getElem?_append_left hi] at hocc
        exact hpre (List.mem_of_getElem? hocc)) (ih t.length (by rw [← hn]; simp; omega) t rfl)
      rw [List.flatMap_append, List.flatMap_cons, hfix, if_pos rfl]
      simpa using hstep
    · have hfix : (s.flatMap fun d => if d = c then rep else [d]) = s := by
        clear ih hn
        induction s with
        | nil => rfl
        | cons d p ih2 =>
          have hd : d ≠ c := fun e => hc (by simp [e])
          rw [List.flatMap_cons, ih2 (fun h => hc (by simp [h])), if_neg hd]; rfl
      rw [hfix]
      apply Replaced.done
      intro i hocc
      rw [occurs_single] at hocc
      exact hc (List.mem_of_getElem? hocc)

theorem length_flatMap_le (c : Byte) (s : Str) : (s.flatMap fun d => if d = c then [chr '\\', c] else [d]).length ≤ 2 * s.length := by
  induction s with
  | nil => simp
  | cons d s ih =>
    rw [List.flatMap_cons, List.length_append, List.length_cons]
    split
    · have : [chr '\\', c].length = 2 := rfl
      omega
    · have : [d].length = 1 := rfl
      omega

/-- C97 (text): for schemas whose text stays below 400 MB, the result is the text of the three sections with a backslash before every `^` and `_`; in particular the program ends. -/
theorem C97_text_partial (program version : Str) (schema : List TKey) (hv : ∀ k ∈ schema, k.vis ≠ none) (hl : (texBody program version schema).length < 400000000) :
    getTeX program version schema = .ok (escape (lit "^_") (texBody program version schema)) := by
  unfold getTeX
  rw [if_neg]
  · generalize texBody program version schema = s at hl ⊢
    obtain ⟨t, log, h1, h2⟩ := C42_replaceAll_partial s (lit "^") (lit "\\^") (by decide) (by
      have : (lit "\\^").length = 2 := by decide
      rw [this]; omega)
    have e1 := replaced_unique _ _ h1 (replaced_single (chr '^') (lit "\\^") s)
    rw [h2 _ (by omega)]
    simp only
    have hlen : t.length ≤ 2 * s.length := by rw [e1]; exact length_flatMap_le _ _
    obtain ⟨u, log2, g1, g2⟩ := C42_replaceAll_partial t (lit "_") (lit "\\_") (by decide) (by
      have : (lit "\\_").length = 2 := by decide
      rw [this]; omega)
    have e2 := replaced_unique _ _ g1 (replaced_single (chr '_') (lit "\\_") t)
    rw [g2 _ (by omega)]
    simp only
    rw [e2, e1]
    unfold escape
    rw [List.flatMap_assoc]
    congr 2
    funext c
    by_cases h1 : c = chr '^'
    · subst h1; rfl
    · by_cases h2 : c = chr '_'
      · subst h2; rfl
      · have h3 : c ∉ lit "^_" := by
          have : lit "^_" = [chr '^', chr '_'] := rfl
          rw [this]; simp [h1, h2]
        rw [if_neg h1, if_neg h3]; simp [h2]
  · rw [List.any_eq_true]
    rintro ⟨k, hk, hn⟩
    exact hv k hk (by simpa using hn)

theorem linesOf_line (l s : Str) (h : (10 : Byte) ∉ l) : linesOf (l ++ 10 :: s) = l :: linesOf s := by
  induction l with
  | nil => exact if_pos rfl
  | cons c l ih =>
    rw [List.cons_append, linesOf, if_neg (fun e => h (by simp [e])), ih fun hm => h (List.mem_cons_of_mem _ hm)]

theorem escape_append (sp a b : Str) : escape sp (a ++ b) = escape sp a ++ escape sp b := List.flatMap_append

theorem escape_nl (s : Str) : escape (lit "^_") (10 :: s) = 10 :: escape (lit "^_") s := rfl

theorem escape_no_nl (s : Str) (h : (10 : Byte) ∉ s) : (10 : Byte) ∉ escape (lit "^_") s := by
  unfold escape
  rw [List.mem_flatMap]
  rintro ⟨c, hc, hm⟩
  have hne : (10 : Byte) ≠ c := fun e => h (e ▸ hc)
  split at hm
  · rcases List.mem_cons.1 hm with e | hm
    · revert e; decide
    · exact hne (List.mem_singleton.1 hm)
  · exact hne (List.mem_singleton.1 hm)

/-- The lines of an escaped text that begins with a line. -/
theorem linesOf_escape (l s : Str) (h : (10 : Byte) ∉ l) : linesOf (escape (lit "^_") (l ++ 10 :: s)) = escape (lit "^_") l :: linesOf (escape (lit "^_") s) := by
  rw [escape_append, escape_nl, linesOf_line _ _ (escape_no_nl l h)]

theorem entry_escape (k : TKey) : escape (lit "^_") ([9] ++ lit "\\item \\texttt{" ++ k.name ++ lit "} -- " ++ k.desc) = entry k := by
  simp only [escape_append]
  rfl

theorem linesOf_items (ks : List TKey) (s : Str) (h : ∀ k ∈ ks, (10 : Byte) ∉ k.name ∧ (10 : Byte) ∉ k.desc) :
    linesOf (escape (lit "^_") (ks.flatMap texItem ++ s)) = ks.map entry ++ linesOf (escape (lit "^_") s) := by
  induction ks with
  | nil => rfl
  | cons k ks ih =>
    have hk := h k List.mem_cons_self
    have e : (k :: ks).flatMap texItem ++ s = ([9] ++ lit "\\item \\texttt{" ++ k.name ++ lit "} -- " ++ k.desc) ++ 10 :: (ks.flatMap texItem ++ s) := by
      simp only [List.flatMap_cons, texItem, nl, List.append_assoc]; rfl
    rw [e, linesOf_escape, entry_escape, ih fun x hx => h x (List.mem_cons_of_mem _ hx)]
    · rfl
    · have h1 : (10 : Byte) ∉ ([9] ++ lit "\\item \\texttt{" : Str) := by decide
      have h2 : (10 : Byte) ∉ lit "} -- " := by decide
      simp only [List.mem_append, not_or] at h1 ⊢
      exact ⟨⟨⟨h1, hk.1⟩, h2⟩, hk.2⟩

theorem entry_head (k : TKey) : (entry k).head? = some 9 := rfl

theorem linesOf_body (program version : Str) (schema : List TKey) (hp : (10 : Byte) ∉ program) (hn : (10 : Byte) ∉ version) (hk : ∀ k ∈ schema, (10 : Byte) ∉ k.name ∧ (10 : Byte) ∉ k.desc) :
    ∃ a b c : Str, linesOf (escape (lit "^_") (texBody program version schema)) =
      [chr '%' :: a, chr '%' :: b, chr '%' :: c, lit "\\section{Customer Site Parameters}", lit "These parameters must be changed to fit your site.", lit "\\begin{itemize}"] ++ (schema.filter isSite).map entry ++
      ([lit "\\end{itemize}", [], lit "\\section{Customer Tuneable Parameters}", lit "These parameters can be changed to optimize your site.", lit "\\begin{itemize}"] ++ (schema.filter isTune).map entry ++
      ([lit "\\end{itemize}", [], lit "\\section{Developer/Factory Parameters}", lit "These parameters should only be changed by when developing new code.", lit "\\begin{itemize}"] ++ (schema.filter isDev).map entry ++
      [lit "\\end{itemize}", lit "% END AUTO-GENERATED CONTENT", []])) := by
  have hf : ∀ p : TKey → Bool, ∀ k ∈ schema.filter p, (10 : Byte) ∉ k.name ∧ (10 : Byte) ∉ k.desc := fun p k h => hk k (List.mem_filter.1 h).1
  have hl1 : (10 : Byte) ∉ lit "% -- these sections were generated using: " ++ program ++ lit " --gentex" := by
    have h1 : (10 : Byte) ∉ lit "% -- these sections were generated using: " := by decide +kernel
    have h2 : (10 : Byte) ∉ lit " --gentex" := by decide
    simp only [List.mem_append, not_or]; exact ⟨⟨h1, hp⟩, h2⟩
  have hl2 : (10 : Byte) ∉ lit "% -- binary version: " ++ version := by
    have h1 : (10 : Byte) ∉ lit "% -- binary version: " := by decide
    simp only [List.mem_append, not_or]; exact ⟨h1, hn⟩
  refine ⟨lit " START AUTO-GENERATED CONTENT", escape (lit "^_") (lit " -- these sections were generated using: " ++ program ++ lit " --gentex"), escape (lit "^_") (lit " -- binary version: " ++ version), ?_⟩
  have e : texBody program version schema = lit "% START AUTO-GENERATED CONTENT" ++ 10 :: ((lit "% -- these sections were generated using: " ++ program ++ lit " --gentex") ++ 10 ::
      ((lit "% -- binary version: " ++ version) ++ 10 :: (lit "\\section{Customer Site Parameters}" ++ 10 :: (lit "These parameters must be changed to fit your site." ++ 10 :: (lit "\\begin{itemize}" ++ 10 ::
      ((schema.filter isSite).flatMap texItem ++ (lit "\\end{itemize}" ++ 10 :: ([] ++ 10 ::
      (lit "\\section{Customer Tuneable Parameters}" ++ 10 :: (lit "These parameters can be changed to optimize your site." ++ 10 :: (lit "\\begin{itemize}" ++ 10 ::
      ((schema.filter isTune).flatMap texItem ++ (lit "\\end{itemize}" ++ 10 :: ([] ++ 10 ::
      (lit "\\section{Developer/Factory Parameters}" ++ 10 :: (lit "These parameters should only be changed by when developing new code." ++ 10 :: (lit "\\begin{itemize}" ++ 10 ::
      ((schema.filter isDev).flatMap texItem ++ (lit "\\end{itemize}" ++ 10 :: (lit "% END AUTO-GENERATED CONTENT" ++ 10 :: ([] ++ 10 :: []))))))))))))))))))))) := by
    simp only [texBody, texHead, texSec1, texSec2, texSec3, texEnd, texFoot, nl, List.append_assoc, List.cons_append, List.nil_append]
  rw [e, linesOf_escape _ _ (by decide +kernel), linesOf_escape _ _ hl1, linesOf_escape _ _ hl2, linesOf_escape _ _ (by decide +kernel), linesOf_escape _ _ (by decide +kernel), linesOf_escape _ _ (by decide +kernel),
    linesOf_items _ _ (hf _), linesOf_escape _ _ (by decide +kernel), linesOf_escape _ _ (by decide +kernel), linesOf_escape _ _ (by decide +kernel), linesOf_escape _ _ (by decide +kernel), linesOf_escape _ _ (by decide +kernel),
    linesOf_items _ _ (hf _), linesOf_escape _ _ (by decide +kernel), linesOf_escape _ _ (by decide +kernel), linesOf_escape _ _ (by decide +kernel), linesOf_escape _ _ (by decide +kernel), linesOf_escape _ _ (by decide +kernel),
    linesOf_items _ _ (hf _), linesOf_escape _ _ (by decide +kernel), linesOf_escape _ _ (by decide +kernel), linesOf_escape _ _ (by decide +kernel)]
  rfl

/-- Reading one list: lines that are not the heading, the heading with two more lines, entries, the end. -/
theorem entries_found (heading : Str) (pre : List Str) (x y : Str) (ks : List TKey) (rest : List Str) (hpre : ∀ l ∈ pre, l ≠ heading) (h0 : heading ≠ lit "\\end{itemize}") (h1 : heading.head? ≠ some 9)
    (hx : x ≠ lit "\\end{itemize}" ∧ x.head? ≠ some 9) (hy : y ≠ lit "\\end{itemize}" ∧ y.head? ≠ some 9) :
    (((pre ++ heading :: x :: y :: (ks.map entry ++ lit "\\end{itemize}" :: rest)).dropWhile (· ≠ heading)).takeWhile (· ≠ lit "\\end{itemize}")).filter (fun l => l.head? = some 9) = ks.map entry := by
  have hd : (pre ++ heading :: x :: y :: (ks.map entry ++ lit "\\end{itemize}" :: rest)).dropWhile (· ≠ heading) = heading :: x :: y :: (ks.map entry ++ lit "\\end{itemize}" :: rest) := by
    induction pre with
    | nil => simp
    | cons a pre ih =>
      rw [List.cons_append, List.dropWhile_cons_of_pos (by simpa using hpre a List.mem_cons_self)]
      exact ih fun l hl => hpre l (List.mem_cons_of_mem _ hl)
  have ht : (ks.map entry ++ lit "\\end{itemize}" :: rest).takeWhile (· ≠ lit "\\end{itemize}") = ks.map entry := by
    clear hd
    induction ks with
    | nil => simp
    | cons k ks ih =>
      rw [List.map_cons, List.cons_append, List.takeWhile_cons_of_pos, ih]
      rw [decide_eq_true_eq]
      intro e
      have := entry_head k
      rw [e] at this
      revert this; decide
  rw [hd, List.takeWhile_cons_of_pos (by simpa using h0), List.takeWhile_cons_of_pos (by simpa using hx.1), List.takeWhile_cons_of_pos (by simpa using hy.1), ht,
    List.filter_cons_of_neg (by simpa using h1), List.filter_cons_of_neg (by simpa using hx.2), List.filter_cons_of_neg (by simpa using hy.2), List.filter_eq_self.2]
  intro l hl
  obtain ⟨k, -, rfl⟩ := List.mem_map.1 hl
  rw [entry_head]; rfl

theorem entries_ne (heading : Str) (h : heading.head? ≠ some 9) (ks : List TKey) : ∀ l ∈ ks.map entry, l ≠ heading := by
  rintro l hl rfl
  obtain ⟨k, -, rfl⟩ := List.mem_map.1 hl
  exact h (entry_head k)

theorem comments_ne (heading : Str) (h : heading.head? ≠ some (chr '%')) (a b c : Str) : ∀ l ∈ [chr '%' :: a, chr '%' :: b, chr '%' :: c], l ≠ heading := by
  rintro l hl rfl
  simp only [List.mem_cons, List.not_mem_nil, or_false] at hl
  rcases hl with rfl | rfl | rfl <;> exact h rfl

theorem sections_found (a b c : Str) (k1 k2 k3 : List TKey) :
    let text := [chr '%' :: a, chr '%' :: b, chr '%' :: c, lit "\\section{Customer Site Parameters}", lit "These parameters must be changed to fit your site.", lit "\\begin{itemize}"] ++ k1.map entry ++ ([lit "\\end{itemize}", [], lit "\\section{Customer Tuneable Parameters}", lit "These parameters can be changed to optimize your site.", lit "\\begin{itemize}"] ++ k2.map entry ++
      ([lit "\\end{itemize}", [], lit "\\section{Developer/Factory Parameters}", lit "These parameters should only be changed by when developing new code.", lit "\\begin{itemize}"] ++ k3.map entry ++ [lit "\\end{itemize}", lit "% END AUTO-GENERATED CONTENT", []]))
    let found := fun h : Str => ((text.dropWhile (· ≠ h)).takeWhile (· ≠ lit "\\end{itemize}")).filter fun l => l.head? = some 9
    found (lit "\\section{Customer Site Parameters}") = k1.map entry ∧ found (lit "\\section{Customer Tuneable Parameters}") = k2.map entry ∧ found (lit "\\section{Developer/Factory Parameters}") = k3.map entry := by
  dsimp only
  have fx : ∀ h : Str, h ∈ [lit "\\section{Customer Site Parameters}", lit "\\section{Customer Tuneable Parameters}", lit "\\section{Developer/Factory Parameters}"] → h.head? = some (chr '\\') ∧ h ≠ lit "\\end{itemize}" := by decide +kernel
  have ln : ∀ l : Str, l ∈ [lit "These parameters must be changed to fit your site.", lit "These parameters can be changed to optimize your site.", lit "These parameters should only be changed by when developing new code.", lit "\\begin{itemize}"] → l ≠ lit "\\end{itemize}" ∧ l.head? ≠ some 9 := by decide +kernel
  have n1 : ∀ l ∈ ([lit "\\section{Customer Site Parameters}", lit "These parameters must be changed to fit your site.", lit "\\begin{itemize}"] : List Str), l ≠ lit "\\section{Customer Tuneable Parameters}" := by decide +kernel
  have n2 : ∀ l ∈ ([lit "\\end{itemize}", []] : List Str), l ≠ lit "\\section{Customer Tuneable Parameters}" := by decide +kernel
  have n3 : ∀ l ∈ ([lit "\\section{Customer Site Parameters}", lit "These parameters must be changed to fit your site.", lit "\\begin{itemize}"] : List Str), l ≠ lit "\\section{Developer/Factory Parameters}" := by decide +kernel
  have n4 : ∀ l ∈ ([lit "\\end{itemize}", [], lit "\\section{Customer Tuneable Parameters}", lit "These parameters can be changed to optimize your site.", lit "\\begin{itemize}"] : List Str), l ≠ lit "\\section{Developer/Factory Parameters}" := by decide +kernel
  have n5 : ∀ l ∈ ([lit "\\end{itemize}", []] : List Str), l ≠ lit "\\section{Developer/Factory Parameters}" := by decide +kernel
  have hb := ln (lit "\\begin{itemize}") (by simp)
  generalize lit "\\section{Customer Site Parameters}" = H1 at *
  generalize lit "\\section{Customer Tuneable Parameters}" = H2 at *
  generalize lit "\\section{Developer/Factory Parameters}" = H3 at *
  have hx1 := ln (lit "These parameters must be changed to fit your site.") (by simp)
  have hx2 := ln (lit "These parameters can be changed to optimize your site.") (by simp)
  have hx3 := ln (lit "These parameters should only be changed by when developing new code.") (by simp)
  generalize lit "These parameters must be changed to fit your site." = X1 at *
  generalize lit "These parameters can be changed to optimize your site." = X2 at *
  generalize lit "These parameters should only be changed by when developing new code." = X3 at *
  generalize lit "\\begin{itemize}" = B at *
  generalize lit "% END AUTO-GENERATED CONTENT" = F at *
  have f1 := fx H1 (by simp)
  have f2 := fx H2 (by simp)
  have f3 := fx H3 (by simp)
  have tab : ∀ h : Str, h.head? = some (chr '\\') → h.head? ≠ some 9 := fun h e => by rw [e]; decide
  have pct : ∀ h : Str, h.head? = some (chr '\\') → h.head? ≠ some (chr '%') := fun h e => by rw [e]; decide
  refine ⟨?_, ?_, ?_⟩
  · have := entries_found H1 [chr '%' :: a, chr '%' :: b, chr '%' :: c] X1 B k1 ([[], H2, X2, B] ++ k2.map entry ++ ([lit "\\end{itemize}", [], H3, X3, B] ++ k3.map entry ++ [lit "\\end{itemize}", F, []]))
      (comments_ne H1 (pct _ f1.1) a b c) f1.2 (tab _ f1.1) hx1 hb
    refine Eq.trans ?_ this
    simp only [List.cons_append, List.nil_append]
  · have := entries_found H2 ([chr '%' :: a, chr '%' :: b, chr '%' :: c] ++ ([H1, X1, B] ++ (k1.map entry ++ [lit "\\end{itemize}", []]))) X2 B k2 ([[], H3, X3, B] ++ k3.map entry ++ [lit "\\end{itemize}", F, []])
      (List.forall_mem_append.2 ⟨comments_ne H2 (pct _ f2.1) a b c, List.forall_mem_append.2 ⟨n1, List.forall_mem_append.2 ⟨entries_ne H2 (tab _ f2.1) k1, n2⟩⟩⟩) f2.2 (tab _ f2.1) hx2 hb
    refine Eq.trans ?_ this
    simp only [List.cons_append, List.nil_append, List.append_assoc]
  · have := entries_found H3 ([chr '%' :: a, chr '%' :: b, chr '%' :: c] ++ ([H1, X1, B] ++ (k1.map entry ++ ([lit "\\end{itemize}", [], H2, X2, B] ++ (k2.map entry ++ [lit "\\end{itemize}", []]))))) X3 B k3 [F, []]
      (List.forall_mem_append.2 ⟨comments_ne H3 (pct _ f3.1) a b c, List.forall_mem_append.2 ⟨n3, List.forall_mem_append.2 ⟨entries_ne H3 (tab _ f3.1) k1, List.forall_mem_append.2 ⟨n4,
        List.forall_mem_append.2 ⟨entries_ne H3 (tab _ f3.1) k2, n5⟩⟩⟩⟩⟩) f3.2 (tab _ f3.1) hx3 hb
    refine Eq.trans ?_ this
    simp only [List.cons_append, List.nil_append, List.append_assoc]

/-- C97 (sections), where names and descriptions have no line ends: what a reader finds below each heading is an entry for each key of that kind, in order, with `^` and `_` escaped, and nothing else. -/
theorem C97_sections_partial (program version : Str) (schema : List TKey) (hv : ∀ k ∈ schema, k.vis ≠ none) (hl : (texBody program version schema).length < 400000000)
    (hp : (10 : Byte) ∉ program) (hn : (10 : Byte) ∉ version) (hk : ∀ k ∈ schema, (10 : Byte) ∉ k.name ∧ (10 : Byte) ∉ k.desc) :
    ∃ out, getTeX program version schema = .ok out ∧
      entriesUnder (lit "\\section{Customer Site Parameters}") out = (schema.filter fun k => k.vis = some .customerSite).map entry ∧
      entriesUnder (lit "\\section{Customer Tuneable Parameters}") out = (schema.filter fun k => k.vis ∈ [some .customer, some .customerTune, some .customerWarn]).map entry ∧
      entriesUnder (lit "\\section{Developer/Factory Parameters}") out = (schema.filter fun k => k.vis ∈ [some .developer, some .factory]).map entry := by
  refine ⟨_, C97_text_partial program version schema hv hl, ?_⟩
  obtain ⟨a, b, c, e⟩ := linesOf_body program version schema hp hn hk
  have s1 : ∀ k : TKey, decide (k.vis = some .customerSite) = isSite k := fun _ => rfl
  have s2 : ∀ k : TKey, decide (k.vis ∈ [some Vis.customer, some .customerTune, some .customerWarn]) = isTune k := by
    intro k; unfold isTune; generalize k.vis = v
    rcases v with _ | v
    · rfl
    · cases v <;> rfl
  have s3 : ∀ k : TKey, decide (k.vis ∈ [some Vis.developer, some .factory]) = isDev k := by
    intro k; unfold isDev; generalize k.vis = v
    rcases v with _ | v
    · rfl
    · cases v <;> rfl
  have h1 : (schema.filter fun k => k.vis = some .customerSite) = schema.filter isSite := List.filter_congr fun k _ => s1 k
  have h2 : (schema.filter fun k => k.vis ∈ [some .customer, some .customerTune, some .customerWarn]) = schema.filter isTune := List.filter_congr fun k _ => s2 k
  have h3 : (schema.filter fun k => k.vis ∈ [some .developer, some .factory]) = schema.filter isDev := List.filter_congr fun k _ => s3 k
  obtain ⟨g1, g2, g3⟩ := sections_found a b c (schema.filter isSite) (schema.filter isTune) (schema.filter isDev)
  have eu : ∀ h, entriesUnder h (escape (lit "^_") (texBody program version schema)) = _ := fun h => by unfold entriesUnder; rw [e]
  rw [h1, h2, h3]
  exact ⟨(eu _).trans g1, (eu _).trans g2, (eu _).trans g3⟩

example : entriesUnder (lit "\\section{Customer Tuneable Parameters}") (escape (lit "^_") (texBody (lit "p") (lit "1") [⟨lit "A_B", some .customerWarn, lit "x^2"⟩, ⟨lit "C", some .factory, lit "y"⟩])) =
    [[9] ++ lit "\\item \\texttt{A\\_B} -- x\\^2"] := by decide +kernel

/-- C97 (all characters are shown) is refuted: a percent sign in a description is not escaped and hides the rest of the line. -/
theorem C97_percent_refuted : escape (lit "^_") (texItem ⟨lit "A.B", some .customer, lit "5% of all"⟩) = texItem ⟨lit "A.B", some .customer, lit "5% of all"⟩ ∧
    texVisible (escape (lit "^_") (texItem ⟨lit "A.B", some .customer, lit "5% of all"⟩)) = [9] ++ lit "\\item \\texttt{A.B} -- 5" := by decide +kernel

/-- C97 is refuted: after `isValidValue` was asked about a name that is not in the schema, the manual reads an unset member. -/
theorem C97_unset_refuted (schema : List TKey) (name : Str) : getTeX [] [] (⟨name, none, []⟩ :: schema) = .ub := by
  unfold getTeX
  rw [if_pos (by simp)]

example : getTeX [] [] [⟨lit "A_B", some .customerSite, lit "x^2"⟩] = .ok (escape (lit "^_") (texBody [] [] [⟨lit "A_B", some .customerSite, lit "x^2"⟩])) ∧
    escape (lit "^_") (lit "A_B x^2") = lit "A\\_B x\\^2" := by
  refine ⟨C97_text_partial _ _ _ (by simp) (by decide +kernel), by decide +kernel⟩

end Verif.Config
