import Verif.Config.ValidLemmas

/-
Property C110: what `printKey` and `printDescription` tell about a configuration key (`Configuration.cpp:1099-1290`).
-/

namespace Verif.Config.Describe
open Verif Verif.Config Verif.Config.Spec

/-- `VisibilityLevel` (`Configuration.h:359-367`). -/
inductive Vis
  | customer | customerSite | customerTune | customerWarn | developer | factory
deriving DecidableEq, Repr

/-- `Type` (`Configuration.h:369-394`). -/
inductive Ty
  | boolean | choiceOpt | choice | cidrOpt | cidr | filepathOpt | filepath | hostAndPortOpt | hostAndPort | ipAddressOpt | ipAddress | ipAndPort
  | mipAddressOpt | mipAddress | portOpt | port | regexOpt | regex | stringOpt | string | valRange
deriving DecidableEq, Repr

/-- `visibilityLevelToString` (`Configuration.cpp:1099-1124`). -/
def visText : Vis → Str
  | .customer => lit "customer - can be freely changed by the customer without any detriment to their system"
  | .customerSite => lit "customer site - these values are different for each BTS and should not be left default"
  | .customerTune => lit "customer tune - should only be changed to tune an installation to better suit the physical environment or MS usage pattern"
  | .customerWarn => lit "customer warn - a warning will be presented and confirmation required before changing this sensitive setting"
  | .developer => lit "developer - should only be changed by developers to debug/optimize the implementation"
  | .factory => lit "factory - set once at the factory, should never be changed"

/-- `typeToString` (`Configuration.cpp:1126-1196`). -/
def typeText : Ty → Str
  | .boolean => lit "boolean"
  | .choiceOpt => lit "multiple choice (optional)"
  | .choice => lit "multiple choice"
  | .cidrOpt => lit "CIDR notation (optional)"
  | .cidr => lit "CIDR notation"
  | .filepathOpt => lit "file path (optional)"
  | .filepath => lit "file path"
  | .hostAndPortOpt => lit "hostname or IP address and port (optional)"
  | .hostAndPort => lit "hostname or IP address and port"
  | .ipAddressOpt => lit "IP address (optional)"
  | .ipAddress => lit "IP address"
  | .ipAndPort => lit "IP address and port"
  | .mipAddressOpt => lit "space-separated list of IP addresses (optional)"
  | .mipAddress => lit "space-separated list of IP addresses"
  | .portOpt => lit "IP port (optional)"
  | .port => lit "IP port"
  | .regexOpt => lit "regular expression (optional)"
  | .regex => lit "regular expression"
  | .stringOpt => lit "string (optional)"
  | .string => lit "string"
  | .valRange => lit "value range"

/-- `ConfigurationKey` (`Configuration.h:407-415`); `scope` is the `unsigned`. -/
structure PKey where
  name : Str
  dflt : Str
  units : Str
  vis : Vis
  type : Ty
  valid : Str
  isStatic : Bool
  desc : Str
  scope : Nat

/-- `printKey` (`Configuration.cpp:1198-1209`). -/
def printKey (k : PKey) (cur : Str) : Str :=
  k.name ++ lit " " ++ (if cur = [] then lit "(disabled)" else cur) ++ (if cur = k.dflt then lit "     [default]" else []) ++ lit "\n"

/-- The two parts printed for the entry at `p`: up to the separator and from there to the comma (`Configuration.cpp:1237-1239, 1249-1251`); positions are `uint`, `size_t` has 64 bits. -/
def pieces (sep : Byte) (tmp : Str) (p : Nat) : Str × Str :=
  let e := u32 (asSize 64 (findFrom tmp sep p))
  (substr tmp p (u32 ((e : Int) - p)), substr tmp (u32 ((e : Int) + 1)) (((asSize 64 (findFrom tmp (chr ',') e) : Int) - e - 1) % 2 ^ 64).toNat)

/-- The line for a range (`Configuration.cpp:1237-1239`). -/
def rangeLine (tmp : Str) (p : Nat) : Str := lit " - valid values:     from " ++ (pieces (chr ':') tmp p).1 ++ lit " to " ++ (pieces (chr ':') tmp p).2 ++ lit "\n"

/-- The line for a choice (`Configuration.cpp:1249-1254`). -/
def choiceLine (tmp : Str) (p : Nat) : Str :=
  if u32 (asSize 64 (findFrom tmp (chr '|') p)) ≠ 2 ^ 64 - 1 then lit " - valid values:     " ++ (pieces (chr '|') tmp p).1 ++ lit " = " ++ (pieces (chr '|') tmp p).2 ++ lit "\n"
  else lit " - valid values:     " ++ substr tmp p (asSize 64 (findFrom tmp (chr ',') p) - p) ++ lit "\n"

/-- The loops over the entries (`Configuration.cpp:1235-1241, 1247-1256`), `p` being `startPos` after the increment; `fuel` bounds the number of rounds. -/
def entries (line : Str → Nat → Str) (tmp : Str) : Nat → Nat → Str
  | 0, _ => []
  | fuel + 1, p => line tmp p ++ match findFrom tmp (chr ',') p with
    | none => []
    | some q => entries line tmp fuel (q + 1)

/-- The lines on valid values (`Configuration.cpp:1226-1267`). -/
def valuesText (type : Ty) (valid : Str) : Str :=
  match type with
  | .valRange => entries rangeLine (stripStep valid) (valid.length + 1) 0
  | .choice => entries choiceLine valid (valid.length + 1) 0
  | .boolean => lit " - valid values:     0 = disabled\n - valid values:     1 = enabled\n"
  | .string => lit " - valid val regex:  " ++ valid ++ lit "\n"
  | _ => if valid = [] then [] else lit " - raw valid values: " ++ valid ++ lit "\n"

/-- The lines on the scope (`Configuration.cpp:1269-1289`). -/
def scopeText (scope : Nat) : Str :=
  (if scope.testBit 0 then lit " - scope:            value must be unique across all nodes\n" else []) ++
  (if scope.testBit 1 then lit " - scope:            value must be the same across all nodes\n" else []) ++
  (if scope.testBit 2 then lit " - scope:            value must be unique across all neighbors\n" else []) ++
  (if scope.testBit 3 then lit " - scope:            value must be the same across all neighbors\n" else []) ++
  (if scope.testBit 3 then lit " - scope:            must be the same across all neighbors\n" else []) ++
  (if scope.testBit 4 then lit " - scope:            specific to each individual node\n" else [])

/-- `printDescription` (`Configuration.cpp:1211-1290`). -/
def printDescription (k : PKey) : Str :=
  lit " - description:      " ++ k.desc ++ lit "\n" ++
  ((if k.units = [] then [] else lit " - units:            " ++ k.units ++ lit "\n") ++
  (lit " - type:             " ++ typeText k.type ++ lit "\n" ++
  ((if k.dflt = [] then [] else lit " - default value:    " ++ k.dflt ++ lit "\n") ++
  (lit " - visibility level: " ++ visText k.vis ++ lit "\n" ++
  (lit " - static:           " ++ (if k.isStatic then lit "1" else lit "0") ++ lit "\n" ++
  (valuesText k.type k.valid ++ scopeText k.scope))))))

/-! ### Proof -/

theorem allTypes (t : Ty) : t ∈ [Ty.boolean, .choiceOpt, .choice, .cidrOpt, .cidr, .filepathOpt, .filepath, .hostAndPortOpt, .hostAndPort, .ipAddressOpt, .ipAddress, .ipAndPort,
    .mipAddressOpt, .mipAddress, .portOpt, .port, .regexOpt, .regex, .stringOpt, .string, .valRange] := by cases t <;> simp

theorem allVis (v : Vis) : v ∈ [Vis.customer, .customerSite, .customerTune, .customerWarn, .developer, .factory] := by cases v <;> simp

/-- C110: every type and every visibility has a name of its own, one line, never the text for unknown ones. -/
theorem C110_names : (∀ t t' : Ty, typeText t = typeText t' → t = t') ∧ (∀ v v' : Vis, visText v = visText v' → v = v') ∧
    (∀ t : Ty, typeText t ≠ lit "UNKNOWN ERROR" ∧ chr '\n' ∉ typeText t) ∧ ∀ v : Vis, visText v ≠ lit "UNKNOWN ERROR" ∧ chr '\n' ∉ visText v := by
  refine ⟨fun t t' => ?_, fun v v' => ?_, fun t => ?_, fun v => ?_⟩
  · have : ∀ t ∈ [Ty.boolean, .choiceOpt, .choice, .cidrOpt, .cidr, .filepathOpt, .filepath, .hostAndPortOpt, .hostAndPort, .ipAddressOpt, .ipAddress, .ipAndPort,
        .mipAddressOpt, .mipAddress, .portOpt, .port, .regexOpt, .regex, .stringOpt, .string, .valRange], ∀ t' ∈ [Ty.boolean, .choiceOpt, .choice, .cidrOpt, .cidr, .filepathOpt, .filepath, .hostAndPortOpt, .hostAndPort, .ipAddressOpt, .ipAddress, .ipAndPort,
        .mipAddressOpt, .mipAddress, .portOpt, .port, .regexOpt, .regex, .stringOpt, .string, .valRange], typeText t = typeText t' → t = t' := by decide +kernel
    exact this t (allTypes t) t' (allTypes t')
  · have : ∀ t ∈ [Vis.customer, .customerSite, .customerTune, .customerWarn, .developer, .factory], ∀ t' ∈ [Vis.customer, .customerSite, .customerTune, .customerWarn, .developer, .factory],
        visText t = visText t' → t = t' := by decide +kernel
    exact this v (allVis v) v' (allVis v')
  · cases t <;> decide +kernel
  · cases v <;> decide +kernel

example : typeText .choice = lit "multiple choice" ∧ visText .factory = lit "factory - set once at the factory, should never be changed" := ⟨rfl, rfl⟩

theorem split_at {c : Byte} : ∀ {a a' r r' : Str}, c ∉ a → c ∉ a' → a ++ c :: r = a' ++ c :: r' → a = a' ∧ r = r'
  | [], [], _, _, _, _, h => by simpa using h
  | [], x :: a', _, _, _, h2, h => by
    simp only [List.nil_append, List.cons_append, List.cons.injEq] at h
    exact absurd (by simp [h.1]) h2
  | x :: a, [], _, _, h1, _, h => by
    simp only [List.nil_append, List.cons_append, List.cons.injEq] at h
    exact absurd (by simp [h.1]) h1
  | x :: a, y :: a', r, r', h1, h2, h => by
    simp only [List.cons_append, List.cons.injEq] at h
    simp only [List.mem_cons, not_or] at h1 h2
    obtain ⟨e1, e2⟩ := split_at h1.2 h2.2 h.2
    exact ⟨by rw [h.1, e1], e2⟩

theorem mid_inj {c : Byte} {s a a' r r' : Str} (hs : s = [c]) (h1 : c ∉ a) (h2 : c ∉ a') (h : a ++ (s ++ r) = a' ++ (s ++ r')) : a = a' ∧ r = r' := by
  subst hs
  exact split_at h1 h2 h

theorem cut {c : Byte} {a : Str} (b : Str) (h : c ∉ a) : (a ++ c :: b).takeWhile (· ≠ c) = a ∧ (a ++ c :: b).dropWhile (· ≠ c) = c :: b := by
  have hp : ∀ x ∈ a, (decide (x ≠ c)) = true := fun x hx => decide_eq_true fun e => h (e ▸ hx)
  constructor
  · rw [List.takeWhile_append_of_pos hp, List.takeWhile_cons_of_neg (by simp), List.append_nil]
  · rw [List.dropWhile_append_of_pos hp, List.dropWhile_cons_of_neg (by simp)]

theorem take_eq {n : Nat} {b t : Str} (h : n = b.length) : (b ++ t).take n = b := by
  subst h; simp

theorem line_inj {p a a' r r' : Str} (h1 : chr '\n' ∉ a) (h2 : chr '\n' ∉ a') (h : p ++ a ++ lit "\n" ++ r = p ++ a' ++ lit "\n" ++ r') : a = a' ∧ r = r' := by
  simp only [List.append_assoc] at h
  exact split_at h1 h2 (List.append_cancel_left h)

theorem ne_at {p q : Str} {c d : Byte} (i : Nat) (hp : p[i]? = some c) (hq : q[i]? = some d) (hcd : c ≠ d) (x y : Str) : p ++ x ≠ q ++ y := by
  intro h
  have l1 : i < p.length := (List.getElem?_eq_some_iff.1 hp).1
  have l2 : i < q.length := (List.getElem?_eq_some_iff.1 hq).1
  have := congrArg (·[i]?) h
  simp only [List.getElem?_append_left l1, List.getElem?_append_left l2, hp, hq, Option.some.injEq] at this
  exact hcd this

/-- An optional line. -/
theorem opt_inj {p q a a' r r' : Str} (h1 : chr '\n' ∉ a) (h2 : chr '\n' ∉ a') (hq : ∃ c d, p[3]? = some c ∧ q[3]? = some d ∧ c ≠ d) 
    (h : (if a = [] then [] else p ++ a ++ lit "\n") ++ (q ++ r) = (if a' = [] then [] else p ++ a' ++ lit "\n") ++ (q ++ r')) : a = a' ∧ r = r' := by
  obtain ⟨c, d, hc, hd, hcd⟩ := hq
  by_cases e : a = [] <;> by_cases e' : a' = []
  · subst e; subst e'
    simp only [if_pos, List.nil_append] at h
    exact ⟨rfl, List.append_cancel_left h⟩
  · rw [if_pos e, if_neg e', List.nil_append, List.append_assoc, List.append_assoc] at h
    exact absurd h (ne_at 3 hd hc hcd.symm _ _)
  · rw [if_neg e, if_pos e', List.nil_append, List.append_assoc, List.append_assoc] at h
    exact absurd h (ne_at 3 hc hd hcd _ _)
  · rw [if_neg e, if_neg e'] at h
    obtain ⟨x, y⟩ := line_inj h1 h2 h
    exact ⟨x, List.append_cancel_left y⟩

/-- C110: if no field contains an end of line, the description tells everything about the key: two keys described in the same way agree in the text, units, type, default, visibility and static flag. -/
theorem C110_read (k k' : PKey) (hk : ∀ s ∈ [k.desc, k.units, k.dflt], chr '\n' ∉ s) (hk' : ∀ s ∈ [k'.desc, k'.units, k'.dflt], chr '\n' ∉ s) (h : printDescription k = printDescription k') :
    k.desc = k'.desc ∧ k.units = k'.units ∧ k.type = k'.type ∧ k.dflt = k'.dflt ∧ k.vis = k'.vis ∧ k.isStatic = k'.isStatic ∧
    valuesText k.type k.valid ++ scopeText k.scope = valuesText k'.type k'.valid ++ scopeText k'.scope := by
  obtain ⟨n1, n2, n3, n4⟩ := C110_names
  simp only [List.mem_cons, List.not_mem_nil, or_false, forall_eq_or_imp, forall_eq] at hk hk'
  obtain ⟨a1, a2, a3⟩ := hk
  obtain ⟨b1, b2, b3⟩ := hk'
  unfold printDescription at h
  obtain ⟨e1, h⟩ := line_inj a1 b1 h
  have h' : (if k.units = [] then [] else lit " - units:            " ++ k.units ++ lit "\n") ++ (lit " - type:             " ++ (typeText k.type ++ lit "\n" ++
      ((if k.dflt = [] then [] else lit " - default value:    " ++ k.dflt ++ lit "\n") ++ (lit " - visibility level: " ++ visText k.vis ++ lit "\n" ++
      (lit " - static:           " ++ (if k.isStatic then lit "1" else lit "0") ++ lit "\n" ++ (valuesText k.type k.valid ++ scopeText k.scope)))))) =
      (if k'.units = [] then [] else lit " - units:            " ++ k'.units ++ lit "\n") ++ (lit " - type:             " ++ (typeText k'.type ++ lit "\n" ++
      ((if k'.dflt = [] then [] else lit " - default value:    " ++ k'.dflt ++ lit "\n") ++ (lit " - visibility level: " ++ visText k'.vis ++ lit "\n" ++
      (lit " - static:           " ++ (if k'.isStatic then lit "1" else lit "0") ++ lit "\n" ++ (valuesText k'.type k'.valid ++ scopeText k'.scope)))))) := by
    simpa only [List.append_assoc] using h
  obtain ⟨e2, h⟩ := opt_inj a2 b2 ⟨chr 'u', chr 't', by decide +kernel, by decide +kernel, by decide⟩ h'
  obtain ⟨e3, h⟩ := mid_inj (s := lit "\n") rfl (n3 _).2 (n3 _).2 (by simpa only [List.append_assoc] using h)
  have h' : (if k.dflt = [] then [] else lit " - default value:    " ++ k.dflt ++ lit "\n") ++ (lit " - visibility level: " ++ (visText k.vis ++ lit "\n" ++
      (lit " - static:           " ++ (if k.isStatic then lit "1" else lit "0") ++ lit "\n" ++ (valuesText k.type k.valid ++ scopeText k.scope)))) =
      (if k'.dflt = [] then [] else lit " - default value:    " ++ k'.dflt ++ lit "\n") ++ (lit " - visibility level: " ++ (visText k'.vis ++ lit "\n" ++
      (lit " - static:           " ++ (if k'.isStatic then lit "1" else lit "0") ++ lit "\n" ++ (valuesText k'.type k'.valid ++ scopeText k'.scope)))) := by
    simpa only [List.append_assoc, List.nil_append] using h
  obtain ⟨e4, h⟩ := opt_inj a3 b3 ⟨chr 'd', chr 'v', by decide +kernel, by decide +kernel, by decide⟩ h'
  obtain ⟨e5, h⟩ := mid_inj (s := lit "\n") rfl (n4 _).2 (n4 _).2 (by simpa only [List.append_assoc] using h)
  have hb : ∀ b : Bool, chr '\n' ∉ (if b then lit "1" else lit "0") := by decide +kernel
  have h' : lit " - static:           " ++ (if k.isStatic then lit "1" else lit "0") ++ lit "\n" ++ (valuesText k.type k.valid ++ scopeText k.scope) =
      lit " - static:           " ++ (if k'.isStatic then lit "1" else lit "0") ++ lit "\n" ++ (valuesText k'.type k'.valid ++ scopeText k'.scope) := by
    simpa only [List.append_assoc, List.nil_append] using h
  obtain ⟨e6, h⟩ := line_inj (hb _) (hb _) h'
  refine ⟨e1, e2, n1 _ _ e3, e4, n2 _ _ e5, ?_, h⟩
  revert e6
  cases k.isStatic <;> cases k'.isStatic <;> decide

/-- A key with choices. -/
def sample : PKey := ⟨lit "GSM.Radio.Band", lit "900", lit "MHz", .customerSite, .choice, lit "850|GSM850,900|PGSM900", true, lit "Band of operation.", 18⟩

example : printDescription sample =
    lit " - description:      Band of operation.\n" ++
    lit " - units:            MHz\n" ++
    lit " - type:             multiple choice\n" ++
    lit " - default value:    900\n" ++
    lit " - visibility level: customer site - these values are different for each BTS and should not be left default\n" ++
    lit " - static:           1\n" ++
    lit " - valid values:     850 = GSM850\n" ++
    lit " - valid values:     900 = PGSM900\n" ++
    lit " - scope:            value must be the same across all nodes\n" ++
    lit " - scope:            specific to each individual node\n" := by decide +kernel

theorem pieces_entry {sep : Byte} (hs : sep ≠ chr ',') (pre a b tail : Str) (ha : sep ∉ a) (hb : chr ',' ∉ b) (ht : tail = [] ∨ ∃ t, tail = chr ',' :: t)
    (hl : (pre ++ (a ++ sep :: b ++ tail)).length < 2 ^ 31) : pieces sep (pre ++ (a ++ sep :: b ++ tail)) pre.length = (a, b) := by
  have hl' : pre.length + a.length + 1 + b.length < 2 ^ 31 := by simp at hl; omega
  have e0 : u32 (asSize 64 (findFrom (pre ++ (a ++ sep :: b ++ tail)) sep pre.length)) = a.length + pre.length := by
    rw [findFrom_at, List.append_assoc, List.cons_append, idx_split ha]
    exact u32_small (n := a.length + pre.length) (by omega)
  have e1 : u32 (((a.length + pre.length : Nat) : Int) - pre.length) = a.length := by
    rw [show (((a.length + pre.length : Nat) : Int) - pre.length) = (a.length : Int) by push_cast; omega, u32_small (by omega)]
  have e2 : u32 (((a.length + pre.length : Nat) : Int) + 1) = (pre ++ (a ++ [sep])).length := by
    rw [show (((a.length + pre.length : Nat) : Int) + 1) = ((a.length + pre.length + 1 : Nat) : Int) by push_cast; rfl, u32_small (by omega)]
    simp; omega
  have e3 : findFrom (pre ++ (a ++ sep :: b ++ tail)) (chr ',') (a.length + pre.length) = if tail = [] then none else some (b.length + 1 + (a.length + pre.length)) := by
    rw [show pre ++ (a ++ sep :: b ++ tail) = (pre ++ a) ++ ((sep :: b) ++ tail) by simp, show a.length + pre.length = (pre ++ a).length by simp; omega, findFrom_at]
    have hn : chr ',' ∉ sep :: b := by simp [hs.symm, hb]
    rcases ht with rfl | ⟨t, rfl⟩
    · rw [List.append_nil, idx_none hn]; rfl
    · rw [idx_split hn]; simp
  unfold pieces
  simp only [e0, e1, e2, e3]
  refine Prod.ext ?_ ?_
  · show substr (pre ++ (a ++ sep :: b ++ tail)) pre.length a.length = a
    rw [substr_at]
    simp
  · show substr (pre ++ (a ++ sep :: b ++ tail)) (pre ++ (a ++ [sep])).length _ = b
    rw [show pre ++ (a ++ sep :: b ++ tail) = (pre ++ (a ++ [sep])) ++ (b ++ tail) by simp, substr_at]
    rcases ht with rfl | ⟨t, rfl⟩
    · simp only [if_pos, asSize, List.append_nil]
      exact List.take_of_length_le (by omega)
    · rw [if_neg (by simp)]
      simp only [asSize]
      exact take_eq (by push_cast; omega)

theorem entries_commas (line : Str → Nat → Str) (g : Str → Str) (tmp : Str) : ∀ (l : List Str) (pre : Str) (f : Nat), l ≠ [] → (∀ x ∈ l, chr ',' ∉ x) → l.length ≤ f → tmp = pre ++ commas l →
    (∀ pre' x tail, x ∈ l → (tail = [] ∨ ∃ t, tail = chr ',' :: t) → tmp = pre' ++ (x ++ tail) → line tmp pre'.length = g x) → entries line tmp f pre.length = (l.map g).flatten
  | [], _, _, h, _, _, _, _ => absurd rfl h
  | x :: l, pre, f, _, hc, hf, ht, hg => by
    obtain ⟨f, rfl⟩ : ∃ k, f = k + 1 := ⟨f - 1, by simp at hf; omega⟩
    rw [entries]
    cases l with
    | nil =>
      rw [hg pre x [] (by simp) (Or.inl rfl) (by rw [ht]; simp [commas])]
      rw [ht, findFrom_at, show commas [x] = x from rfl, idx_none (hc x (by simp))]
      simp
    | cons y l =>
      have ht' : tmp = (pre ++ x ++ [chr ',']) ++ commas (y :: l) := by rw [ht, commas_cons]; simp
      rw [hg pre x (chr ',' :: commas (y :: l)) (by simp) (Or.inr ⟨_, rfl⟩) (by rw [ht, commas_cons])]
      have hi : findFrom tmp (chr ',') pre.length = some (x.length + pre.length) := by
        rw [ht, findFrom_at, commas_cons, idx_split (hc x (by simp))]; rfl
      rw [hi]
      show g x ++ entries line tmp f (x.length + pre.length + 1) = _
      rw [show x.length + pre.length + 1 = (pre ++ x ++ [chr ',']).length by simp; omega,
        entries_commas line g tmp (y :: l) _ f (by simp) (fun z hz => hc z (by simp [hz])) (by simp at hf ⊢; omega) ht'
          (fun p z t hz => hg p z t (by simp [hz]))]
      simp

theorem commas_length : ∀ l : List Str, l.length ≤ (commas l).length + 1
  | [] => by simp
  | [x] => by simp
  | x :: y :: l => by
    have := commas_length (y :: l)
    rw [commas_cons]
    simp at this ⊢
    omega

/-- C110, partial: for choices with descriptions there is one line for each, in their order, with the value and its description.
Missing: choices without description (refuted below). -/
theorem C110_choice_partial (l : List (Str × Str)) (hne : l ≠ []) (hv : ∀ e ∈ l, chr '|' ∉ e.1 ∧ chr ',' ∉ e.1 ∧ chr ',' ∉ e.2) (hl : (described l).length < 2 ^ 31) :
    valuesText .choice (described l) = (l.map fun e => lit " - valid values:     " ++ e.1 ++ lit " = " ++ e.2 ++ lit "\n").flatten := by
  have kc : chr ',' ≠ chr '|' := by decide
  let g : Str → Str := fun x => lit " - valid values:     " ++ x.takeWhile (· ≠ chr '|') ++ lit " = " ++ (x.dropWhile (· ≠ chr '|')).drop 1 ++ lit "\n"
  have hgd : ∀ e : Str × Str, chr '|' ∉ e.1 → g (e.1 ++ chr '|' :: e.2) = lit " - valid values:     " ++ e.1 ++ lit " = " ++ e.2 ++ lit "\n" := by
    intro e he
    obtain ⟨h1, h2⟩ := cut e.2 he
    show _ ++ _ ++ _ ++ _ ++ _ = _
    rw [h1, h2]; rfl
  have := entries_commas choiceLine g (described l) (l.map fun e => e.1 ++ chr '|' :: e.2) [] ((described l).length + 1) (by simpa using hne)
    (by
      intro x hx
      obtain ⟨e, he, rfl⟩ := List.mem_map.1 hx
      obtain ⟨h1, h2, h3⟩ := hv e he
      simp [h2, h3, kc])
    (commas_length _) rfl
    (by
      intro pre x tail hx ht htmp
      obtain ⟨e, he, rfl⟩ := List.mem_map.1 hx
      obtain ⟨h1, h2, h3⟩ := hv e he
      rw [hgd e h1]
      have hp := pieces_entry kc.symm pre e.1 e.2 tail h1 h3 ht (by rw [← htmp]; exact hl)
      rw [← htmp] at hp
      have hu : u32 (asSize 64 (findFrom (described l) (chr '|') pre.length)) ≠ 2 ^ 64 - 1 := by
        unfold u32; omega
      unfold choiceLine
      rw [if_pos hu, hp])
  show entries choiceLine (described l) ((described l).length + 1) ([] : Str).length = _
  rw [this, List.map_map]
  congr 1
  exact List.map_congr_left fun e he => hgd e (hv e he).1

example : valuesText .choice (lit "0|off,1|on") = lit " - valid values:     0 = off\n - valid values:     1 = on\n" :=
  (C110_choice_partial [(lit "0", lit "off"), (lit "1", lit "on")] (by simp) (by decide +kernel) (by decide +kernel)).trans (by decide +kernel)

theorem pieces_none {sep : Byte} (pre rest : Str) (h : sep ∉ rest) (hl : (pre ++ rest).length < 2 ^ 31) : pieces sep (pre ++ rest) pre.length = (rest, pre ++ rest) := by
  rw [List.length_append] at hl
  have e0 : u32 (asSize 64 (findFrom (pre ++ rest) sep pre.length)) = 2 ^ 32 - 1 := by
    rw [findFrom_at, idx_none h, Option.map_none]; decide
  have e1 : u32 (((2 ^ 32 - 1 : Nat) : Int) + 1) = 0 := by decide
  have e2 : findFrom (pre ++ rest) (chr ',') (2 ^ 32 - 1) = none := by
    unfold findFrom
    rw [List.drop_of_length_le (by rw [List.length_append]; omega)]; rfl
  unfold pieces
  simp only [e0, e1, e2]
  refine Prod.ext ?_ ?_
  · show substr (pre ++ rest) pre.length _ = rest
    rw [substr_at, List.take_of_length_le]
    unfold u32
    omega
  · show substr (pre ++ rest) 0 _ = _
    unfold substr
    rw [List.drop_zero, List.take_of_length_le]
    rw [List.length_append]
    simp only [asSize]
    omega

/-- C110 is refuted for choices without description, with 64-bit `size_t`: the first line shows the whole list twice. -/
theorem C110_plain_refuted (l : List Str) (hv : ∀ x ∈ l, chr '|' ∉ x) (hl : (commas l).length < 2 ^ 31) :
    ∃ r, valuesText .choice (commas l) = lit " - valid values:     " ++ commas l ++ lit " = " ++ commas l ++ lit "\n" ++ r := by
  have hb : chr '|' ∉ commas l := mem_commas hv (by decide)
  have hp := pieces_none [] (commas l) hb (by simpa using hl)
  show ∃ r, entries choiceLine (commas l) ((commas l).length + 1) 0 = _
  rw [entries]
  refine ⟨_, congrArg (· ++ _) ?_⟩
  unfold choiceLine
  rw [if_pos (by unfold u32; omega)]
  simp only [List.nil_append, List.length_nil] at hp
  rw [hp]

example : valuesText .choice (lit "850,900") = lit " - valid values:     850,900 = 850,900\n - valid values:     900 = 850,900\n" := by decide +kernel

/-- C110: for ranges there is one line for each, in their order, with the bounds; the step is not shown. -/
theorem C110_range (l : List (Str × Str)) (step : Option Str) (hne : l ≠ []) (hv : ∀ e ∈ l, chr ':' ∉ e.1 ∧ chr ',' ∉ e.1 ∧ chr ',' ∉ e.2 ∧ chr '(' ∉ e.1 ∧ chr '(' ∉ e.2)
    (hl : (commas (l.map fun e => e.1 ++ chr ':' :: e.2)).length < 2 ^ 31) :
    valuesText .valRange (commas (l.map fun e => e.1 ++ chr ':' :: e.2) ++ (match step with | some s => chr '(' :: s ++ [chr ')'] | none => [])) =
    (l.map fun e => lit " - valid values:     from " ++ e.1 ++ lit " to " ++ e.2 ++ lit "\n").flatten := by
  have kc : chr ',' ≠ chr ':' := by decide
  have kp : chr '(' ≠ chr ':' := by decide
  let tmp : Str := commas (l.map fun e => e.1 ++ chr ':' :: e.2)
  let g : Str → Str := fun x => lit " - valid values:     from " ++ x.takeWhile (· ≠ chr ':') ++ lit " to " ++ (x.dropWhile (· ≠ chr ':')).drop 1 ++ lit "\n"
  have hgd : ∀ e : Str × Str, chr ':' ∉ e.1 → g (e.1 ++ chr ':' :: e.2) = lit " - valid values:     from " ++ e.1 ++ lit " to " ++ e.2 ++ lit "\n" := by
    intro e he
    obtain ⟨h1, h2⟩ := cut e.2 he
    show _ ++ _ ++ _ ++ _ ++ _ = _
    rw [h1, h2]; rfl
  have hno : chr '(' ∉ tmp := by
    refine mem_commas ?_ (by decide)
    intro x hx
    obtain ⟨e, he, rfl⟩ := List.mem_map.1 hx
    obtain ⟨-, -, -, h4, h5⟩ := hv e he
    simp [h4, h5, kp]
  have hstrip : stripStep (tmp ++ (match step with | some s => chr '(' :: s ++ [chr ')'] | none => [])) = tmp := by
    unfold stripStep
    rw [findFrom_zero]
    cases step with
    | none => simp only [List.append_nil]; rw [idx_none hno]
    | some s =>
      simp only [List.cons_append]
      rw [idx_split hno]
      simp [substr]
  have key : ∀ f, tmp.length + 1 ≤ f → entries rangeLine tmp f 0 = (l.map fun e => lit " - valid values:     from " ++ e.1 ++ lit " to " ++ e.2 ++ lit "\n").flatten := by
    intro f hf
    have := entries_commas rangeLine g tmp (l.map fun e => e.1 ++ chr ':' :: e.2) [] f (by simpa using hne)
      (by
        intro x hx
        obtain ⟨e, he, rfl⟩ := List.mem_map.1 hx
        obtain ⟨h1, h2, h3, -⟩ := hv e he
        simp [h2, h3, kc])
      (le_trans (commas_length _) hf) rfl
      (by
        intro pre x tail hx ht htmp
        obtain ⟨e, he, rfl⟩ := List.mem_map.1 hx
        obtain ⟨h1, h2, h3, -⟩ := hv e he
        rw [hgd e h1]
        have hp := pieces_entry kc.symm pre e.1 e.2 tail h1 h3 ht (by rw [← htmp]; exact hl)
        rw [← htmp] at hp
        unfold rangeLine
        rw [hp])
    show entries rangeLine tmp f ([] : Str).length = _
    rw [this, List.map_map]
    congr 1
    exact List.map_congr_left fun e he => hgd e (hv e he).1
  show entries rangeLine (stripStep (tmp ++ _)) ((tmp ++ _).length + 1) 0 = _
  rw [hstrip]
  exact key _ (by simp)

example : valuesText .valRange (lit "0:10,20:30(5)") = lit " - valid values:     from 0 to 10\n - valid values:     from 20 to 30\n" :=
  (C110_range [(lit "0", lit "10"), (lit "20", lit "30")] (some (lit "5")) (by simp) (by decide +kernel) (by decide +kernel)).trans (by decide +kernel)

/-- C110: for texts there is one line with the regular expression; for the types other than choices, ranges and switches there is one with the valid values as they are, or none if there are none. -/
theorem C110_other (t : Ty) (v : Str) :
    (t = .string → valuesText t v = lit " - valid val regex:  " ++ v ++ lit "\n") ∧
    (t ∉ [Ty.string, .valRange, .choice, .boolean] → valuesText t [] = [] ∧ (v ≠ [] → valuesText t v = lit " - raw valid values: " ++ v ++ lit "\n")) := by
  refine ⟨?_, ?_⟩
  · rintro rfl
    rfl
  · intro h
    cases t <;> first | (exact absurd (by decide) h) | exact ⟨rfl, fun hv => if_neg hv⟩

example : valuesText .string (lit "^[0-9]{3}$") = lit " - valid val regex:  ^[0-9]{3}$\n" ∧ valuesText .port (lit "1024-") = lit " - raw valid values: 1024-\n" := by decide +kernel

/-- C110: what is printed about the scope tells which of the five scopes apply. -/
theorem C110_scope (s s' : Nat) (h : scopeText s = scopeText s') : ∀ i < 5, s.testBit i = s'.testBit i := by
  have key : ∀ a b c d e a' b' c' d' e' : Bool,
      (if a then lit " - scope:            value must be unique across all nodes\n" else []) ++ (if b then lit " - scope:            value must be the same across all nodes\n" else []) ++
      (if c then lit " - scope:            value must be unique across all neighbors\n" else []) ++ (if d then lit " - scope:            value must be the same across all neighbors\n" else []) ++
      (if d then lit " - scope:            must be the same across all neighbors\n" else []) ++ (if e then lit " - scope:            specific to each individual node\n" else []) =
      (if a' then lit " - scope:            value must be unique across all nodes\n" else []) ++ (if b' then lit " - scope:            value must be the same across all nodes\n" else []) ++
      (if c' then lit " - scope:            value must be unique across all neighbors\n" else []) ++ (if d' then lit " - scope:            value must be the same across all neighbors\n" else []) ++
      (if d' then lit " - scope:            must be the same across all neighbors\n" else []) ++ (if e' then lit " - scope:            specific to each individual node\n" else []) →
      a = a' ∧ b = b' ∧ c = c' ∧ d = d' ∧ e = e' := by decide +kernel
  obtain ⟨h0, h1, h2, h3, h4⟩ := key _ _ _ _ _ _ _ _ _ _ h
  intro i hi
  have : i = 0 ∨ i = 1 ∨ i = 2 ∨ i = 3 ∨ i = 4 := by omega
  rcases this with rfl | rfl | rfl | rfl | rfl <;> assumption

example : scopeText 2 ≠ scopeText 8 := fun h => absurd (C110_scope _ _ h 1 (by omega)) (by decide)

/-- C110 is refuted for one scope: it is printed twice, in different words. -/
theorem C110_scope_refuted : scopeText 8 = lit " - scope:            value must be the same across all neighbors\n - scope:            must be the same across all neighbors\n" := by decide +kernel

theorem marker_end {v v' : Str} {b b' : Bool} (m : Str) (h1 : ¬ m <:+ v) (h2 : ¬ m <:+ v') (h : v ++ (if b then m else []) = v' ++ (if b' then m else [])) : v = v' ∧ b = b' := by
  cases b <;> cases b' <;> simp only [if_true, if_false, Bool.false_eq_true, List.append_nil] at h
  · exact ⟨h, rfl⟩
  · exact absurd ⟨v', h.symm⟩ h1
  · exact absurd ⟨v, h⟩ h2
  · exact ⟨List.append_cancel_right h, rfl⟩

/-- C110, partial: the line of `printKey` tells the name, the value and whether it is the default, for names without space and values that do not look like the marks.
Missing: those values, see below. -/
theorem C110_key_partial (k k' : PKey) (v v' : Str) (hk : chr ' ' ∉ k.name) (hk' : chr ' ' ∉ k'.name) (hv : v ≠ lit "(disabled)" ∧ ¬ lit "     [default]" <:+ v)
    (hv' : v' ≠ lit "(disabled)" ∧ ¬ lit "     [default]" <:+ v') (h : printKey k v = printKey k' v') : k.name = k'.name ∧ v = v' ∧ (v = k.dflt ↔ v' = k'.dflt) := by
  unfold printKey at h
  have h' := List.append_cancel_right h
  simp only [List.append_assoc] at h'
  obtain ⟨e1, h2⟩ := mid_inj (s := lit " ") rfl hk hk' h'
  have hs : ∀ x : Str, ¬ lit "     [default]" <:+ x → ¬ lit "     [default]" <:+ (if x = [] then lit "(disabled)" else x) := by
    intro x hx
    split
    · decide +kernel
    · exact hx
  have h3 : (if v = [] then lit "(disabled)" else v) ++ (if decide (v = k.dflt) then lit "     [default]" else []) =
      (if v' = [] then lit "(disabled)" else v') ++ (if decide (v' = k'.dflt) then lit "     [default]" else []) := by
    simpa only [decide_eq_true_eq, List.nil_append] using h2
  obtain ⟨e2, e3⟩ := marker_end _ (hs v hv.2) (hs v' hv'.2) h3
  refine ⟨e1, ?_, by simpa using decide_eq_decide.1 e3⟩
  by_cases c : v = [] <;> by_cases c' : v' = []
  · rw [c, c']
  · rw [if_pos c, if_neg c'] at e2; exact absurd e2.symm hv'.1
  · rw [if_neg c, if_pos c'] at e2; exact absurd e2 hv.1
  · rw [if_neg c, if_neg c'] at e2; exact e2

example : printKey sample (lit "900") = lit "GSM.Radio.Band 900     [default]\n" ∧ printKey sample [] = lit "GSM.Radio.Band (disabled)\n" := by decide +kernel

/-- C110 is refuted for values like the marks: an empty value and the text `(disabled)` print alike. -/
theorem C110_key_refuted : printKey sample [] = printKey sample (lit "(disabled)") ∧ printKey sample (lit "900") = printKey sample (lit "900     [default]") := by decide +kernel

/-- C110 is refuted for fields with line ends: a description can look like other fields. -/
theorem C110_read_refuted : printDescription ⟨lit "K", [], [], .developer, .port, [], false, lit "a\n - units:            b", 0⟩ = printDescription ⟨lit "K", [], lit "b", .developer, .port, [], false, lit "a", 0⟩ := by
  decide +kernel

end Verif.Config.Describe
