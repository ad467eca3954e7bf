import Verif.Options.Spec
import Verif.Strings.Lemmas
/-
Parsing lines and files of options.
-/
namespace AmpGen.Options
open AmpGen.Strings (Str getlines)

theorem net_cons (c : Char) (w : Str) : net (c :: w) = (if c = '{' then 1 else 0) - (if c = '}' then 1 else 0) + net w := by
  unfold net
  rw [List.count_cons, List.count_cons]
  by_cases h1 : c = '{'
  · subst h1; simp; omega
  · by_cases h2 : c = '}'
    · subst h2; simp; omega
    · simp [h1, h2]

theorem parse_char (c : Char) (s : Str) (cur : Option Str) (out : List Str) (depth : Int) (hb : isBlank c = false) (hc : c ≠ '#') (hq : c ≠ '"') :
    parseLoop (c :: s) ⟨false, cur, out, depth⟩ =
      parseLoop s ⟨false, some (cur.getD [] ++ [c]), out, depth + ((if c = '{' then 1 else 0) - (if c = '}' then 1 else 0))⟩ := by
  rw [parseLoop]
  by_cases h1 : c = '{'
  · subst h1
    simp [hb]
  · by_cases h2 : c = '}'
    · subst h2
      simp [hb]
      congr 1
    · simp [h1, h2, hb, hc, hq]

theorem parse_qchar (c : Char) (s : Str) (cur : Option Str) (out : List Str) (depth : Int) (hq : c ≠ '"') :
    parseLoop (c :: s) ⟨true, cur, out, depth⟩ = parseLoop s ⟨true, some (cur.getD [] ++ [c]), out, depth⟩ := by
  rw [parseLoop]
  simp [hq]

theorem parse_word : ∀ (w : Str) (s : Str) (st : PState), (∀ c ∈ w, isBlank c = false) → '#' ∉ w → '"' ∉ w → st.quotes = false → w ≠ [] →
    parseLoop (w ++ s) st = parseLoop s { st with cur := some (st.cur.getD [] ++ w), depth := st.depth + net w } := by
  intro w
  induction w with
  | nil => intro s st _ _ _ _ h; exact absurd rfl h
  | cons c w ih =>
    intro s st hb hc hq hs _
    obtain ⟨quotes, cur, out, depth⟩ := st
    simp only at hs
    subst hs
    rw [List.cons_append, parse_char c _ _ _ _ (hb c (by simp)) (fun h => hc (by rw [h]; simp)) (fun h => hq (by rw [h]; simp)), net_cons]
    by_cases hw : w = []
    · subst hw
      simp [net]
    · rw [ih s _ (fun x hx => hb x (by simp [hx])) (fun h => hc (by simp [h])) (fun h => hq (by simp [h])) rfl hw]
      simp only [Option.getD_some, List.append_assoc, List.singleton_append, Int.add_assoc]

theorem parse_quoted : ∀ (w : Str) (s : Str) (st : PState), '"' ∉ w → st.quotes = true → w ≠ [] →
    parseLoop (w ++ s) st = parseLoop s { st with cur := some (st.cur.getD [] ++ w) } := by
  intro w
  induction w with
  | nil => intro s st _ _ h; exact absurd rfl h
  | cons c w ih =>
    intro s st hq hs _
    obtain ⟨quotes, cur, out, depth⟩ := st
    simp only at hs
    subst hs
    rw [List.cons_append, parse_qchar c _ _ _ _ (fun h => hq (by rw [h]; simp))]
    by_cases hw : w = []
    · subst hw
      rfl
    · rw [ih s _ (fun h => hq (by simp [h])) rfl hw]
      simp only [Option.getD_some, List.append_assoc, List.singleton_append]

theorem parse_blank {c : Char} (s : Str) (st : PState) (hc : isBlank c = true) (hs : st.quotes = false) :
    parseLoop (c :: s) st = parseLoop s { st with out := st.out ++ st.cur.toList, cur := none } := by
  have h0 : c = ' ' ∨ c = '\t' := by simpa [isBlank] using hc
  rw [parseLoop]
  have e1 : (!st.quotes && c == '#') = false := by rcases h0 with rfl | rfl <;> simp
  have e2 : ((!st.quotes && isBlank c) || c == '"') = true := by simp [hs, hc]
  have h1 : c ≠ '"' := by rcases h0 with rfl | rfl <;> decide
  have h2 : c ≠ '{' := by rcases h0 with rfl | rfl <;> decide
  have h3 : c ≠ '}' := by rcases h0 with rfl | rfl <;> decide
  simp only [e1, e2, if_neg h1, h2, h3, if_true, if_false, false_and, Bool.false_eq_true]

theorem parse_quote (s : Str) (st : PState) :
    parseLoop ('"' :: s) st = parseLoop s { st with out := st.out ++ st.cur.toList, cur := none, quotes := !st.quotes } := by
  rw [parseLoop]
  simp

theorem parse_line {s : Str} {ts : List Str} {d : Int} (h : Line s ts d) : ∀ (st : PState), st.quotes = false → st.cur = none →
    (parseLoop (s ++ [' ']) st).out = st.out ++ ts ∧ (parseLoop (s ++ [' ']) st).depth = st.depth + d := by
  induction h with
  | nil =>
    intro st hs hc
    rw [List.nil_append, parse_blank _ _ (by decide) hs]
    simp [parseLoop, hc]
  | comment s =>
    intro st hs hc
    rw [List.cons_append, parseLoop]
    simp [hs]
  | blank hb _ ih =>
    intro st hs hc
    rw [List.cons_append, parse_blank _ _ hb hs]
    obtain ⟨h1, h2⟩ := ih { st with out := st.out ++ st.cur.toList, cur := none } hs rfl
    rw [h1, h2]
    simp [hc]
  | last hw =>
    intro st hs hc
    rw [parse_word _ _ _ hw.blank hw.comment hw.quote hs hw.nonempty]
    rw [parse_blank (c := ' ') _ _ (by decide) (by exact hs)]
    simp [parseLoop, hc]
  | word hw hb _ ih =>
    intro st hs hc
    rw [List.append_assoc, parse_word _ _ _ hw.blank hw.comment hw.quote hs hw.nonempty, List.cons_append]
    rw [parse_blank _ _ hb (by exact hs)]
    simp only
    refine ⟨(ih _ (by exact hs) rfl).1.trans ?_, (ih _ (by exact hs) rfl).2.trans ?_⟩
    · simp [hc]
    · simp only; omega
  | @beforeQuote w s ts d hw _ ih =>
    intro st hs hc
    rw [List.append_assoc, parse_word _ _ _ hw.blank hw.comment hw.quote hs hw.nonempty, List.cons_append]
    have h := ih { st with out := st.out ++ [w], depth := st.depth + net w } hs hc
    rw [List.cons_append, parse_quote] at h
    rw [parse_quote]
    simp only [hc, Option.getD_none, List.nil_append, Option.toList_some, Option.toList_none, List.append_nil] at h ⊢
    rw [h.1, h.2]
    refine ⟨?_, ?_⟩
    · simp
    · omega
  | @quoted w s ts d hne hq _ ih =>
    intro st hs hc
    have e : ('"' :: w ++ '"' :: s) ++ [' '] = '"' :: (w ++ ('"' :: (s ++ [' ']))) := by simp
    rw [e, parse_quote, parse_quoted w _ _ hq (by simp [hs]) hne, parse_quote]
    simp only [hc, hs]
    have h := ih { st with out := st.out ++ [w], cur := none, quotes := false } rfl rfl
    simp only [Bool.not_false, Bool.not_true, Option.getD_none, List.nil_append, Option.toList_some, Option.toList_none, List.append_nil] at h ⊢
    rw [h.1, h.2]
    simp
  | empty _ ih =>
    intro st hs hc
    rw [List.cons_append, List.cons_append, parse_quote, parse_quote]
    simp only [hc, hs]
    refine ⟨(ih _ rfl rfl).1.trans ?_, (ih _ rfl rfl).2⟩
    simp

theorem makeParsedStrings_line {l : Str} {ts : List Str} {d : Int} (h : Line l ts d) (depth : Int) :
    makeParsedStrings l depth = (ts, depth + d) ∨ l = [] := by
  by_cases hl : l = []
  · right; exact hl
  · left
    unfold makeParsedStrings
    rw [if_neg hl]
    have e : (' ' :: l ++ [' ']) = ' ' :: (l ++ [' ']) := rfl
    rw [e, parse_blank _ _ (by decide) rfl]
    have := parse_line h ⟨false, none, [], depth⟩ rfl rfl
    simp only [Option.toList_none, List.append_nil, List.nil_append] at this ⊢
    rw [this.1, this.2]

theorem Line.head {l : Str} {ts : List Str} {d : Int} (h : Line l ts d) (hts : ts ≠ []) : l.head? ≠ some '#' ∧ l ≠ [] := by
  have hp : ∀ {w : Str}, Plain w → ∀ s : Str, (w ++ s).head? ≠ some '#' ∧ w ++ s ≠ [] := by
    intro w hw s
    cases w with
    | nil => exact absurd rfl hw.nonempty
    | cons c w =>
      refine ⟨?_, by simp⟩
      intro h
      simp only [List.cons_append, List.head?_cons, Option.some.injEq] at h
      exact hw.comment (by simp [h])
  cases h with
  | nil => exact absurd rfl hts
  | comment s => exact absurd rfl hts
  | blank hb _ =>
    refine ⟨?_, by simp⟩
    intro h
    simp only [List.head?_cons, Option.some.injEq] at h
    rw [h] at hb
    exact absurd hb (by decide)
  | last hw => have := hp hw []; simpa using this
  | word hw _ _ => exact hp hw _
  | beforeQuote hw _ => exact hp hw _
  | quoted => exact ⟨by simp, by simp⟩
  | empty => exact ⟨by simp, by simp⟩

theorem ignore_iff (l : Str) : ignoreThisLine l = true ↔ l = [] ∨ l.head? = some '*' ∨ l.head? = some '#' := by
  cases l with
  | nil => simp [ignoreThisLine]
  | cons c l => simp [ignoreThisLine]

variable {imp : Str → Parser → Option Parser}

theorem import_silent {l : Str} (h : Silent l) (rest tokens : List Str) (depth : Int) (p : Parser) :
    importLines imp (l :: rest) tokens depth p = importLines imp rest tokens depth p := by
  rw [importLines]
  by_cases hi : ignoreThisLine l = true
  · rw [if_pos hi]
  · rw [if_neg hi]
    have hn := mt (ignore_iff l).mpr hi
    have hl : Line l [] 0 := by
      rcases h with h | h | h | h
      · exact absurd (Or.inl h) hn
      · exact absurd (Or.inr (Or.inl h)) hn
      · exact absurd (Or.inr (Or.inr h)) hn
      · exact h
    rcases makeParsedStrings_line hl depth with h | h
    · simp [h]
    · exact absurd (Or.inl h) hn

theorem import_says {l : Str} {ts : List Str} {d : Int} (h : Says l ts d) (rest tokens : List Str) (depth : Int) (p : Parser) :
    importLines imp (l :: rest) tokens depth p = if depth + d ≠ 0 then importLines imp rest (tokens ++ ts) (depth + d) p
      else (addTokens imp p ((tokens ++ ts).filter fun o => !isCurlyBrace o)).bind (importLines imp rest [] 0) := by
  obtain ⟨h1, h2⟩ := h.line.head h.words
  have hi : ¬ ignoreThisLine l = true := by
    rw [ignore_iff]
    rintro (h' | h' | h')
    · exact h2 h'
    · exact h.star h'
    · exact h1 h'
  rw [importLines, if_neg hi]
  rcases makeParsedStrings_line h.line depth with h' | h'
  · simp only [h']
    rw [if_neg (by rw [List.length_eq_zero_iff]; exact h.words)]
    by_cases hd : depth + d ≠ 0
    · rw [if_pos hd, if_pos hd]
    · rw [if_neg hd, if_neg hd]
      have : depth + d = 0 := by simpa using hd
      rw [this]
  · exact absurd h' h2

theorem import_block {d : Int} {b ts : List Str} (h : Block d b ts) : ∀ (rest tokens : List Str) (p : Parser),
    importLines imp (b ++ rest) tokens d p = (addTokens imp p ((tokens ++ ts).filter fun o => !isCurlyBrace o)).bind (importLines imp rest [] 0) := by
  induction h with
  | last hs hd =>
    intro rest tokens p
    rw [List.singleton_append, import_says hs, if_neg (by simpa using hd)]
  | more hs hd _ ih =>
    intro rest tokens p
    rw [List.cons_append, import_says hs, if_pos hd, ih, List.append_assoc]
  | skip hs _ ih =>
    intro rest tokens p
    rw [List.cons_append, import_silent hs, ih]

theorem import_statements {ls : List Str} {ss : List (List Str)} (h : Statements ls ss) : ∀ (p : Parser),
    importLines imp ls [] 0 p = ss.foldlM (addTokens imp) p := by
  induction h with
  | nil => intro p; rfl
  | skip hs _ ih => intro p; rw [import_silent hs, ih]
  | @block b ls ts ss hb _ ih =>
    intro p
    rw [import_block hb, List.nil_append, List.foldlM_cons]
    have e : (fun o => !isCurlyBrace o) = fun w : Str => decide (w ≠ ['{'] ∧ w ≠ ['}']) := by
      funext w
      by_cases h1 : w = ['{']
      · simp [isCurlyBrace, h1]
      · by_cases h2 : w = ['}']
        · simp [isCurlyBrace, h2]
        · simp [isCurlyBrace, h1, h2]
    rw [e]
    show _ = Option.bind _ _
    congr 1
    funext q
    exact ih q

theorem import_filter : ∀ (ls tokens : List Str) (d : Int) (p : Parser),
    importLines imp (ls.filter fun l => !(l == [] || l.head? == some '#')) tokens d p = importLines imp ls tokens d p := by
  intro ls
  induction ls with
  | nil => intro tokens d p; rfl
  | cons l ls ih =>
    intro tokens d p
    rw [List.filter_cons]
    by_cases h : (!(l == [] || l.head? == some '#')) = true
    · rw [if_pos h, importLines, importLines]
      simp only [ih]
      congr 1
      split
      · rfl
      split
      · rfl
      · congr 1
        funext q
        exact ih _ _ _
    · rw [if_neg h, ih]
      have : l = [] ∨ l.head? = some '#' := by
        by_contra hn
        apply h
        rw [not_or] at hn
        simp [hn.1, hn.2]
      rw [import_silent (by rcases this with h | h; exact Or.inl h; exact Or.inr (Or.inr (Or.inl h)))]

theorem filter_cr {text : Str} (h : '\r' ∉ text) : (getlines '\n' text).map (fun l => l.filter fun c => c != '\r') = getlines '\n' text := by
  have hm : ∀ l ∈ getlines '\n' text, '\r' ∉ l := by
    intro l hl hc
    have := AmpGen.Strings.getlines_flatMap '\n' text
    apply h
    have hin : '\r' ∈ (getlines '\n' text).flatMap (· ++ ['\n']) := List.mem_flatMap.mpr ⟨l, hl, by simp [hc]⟩
    rcases this with h' | h'
    · rw [h'] at hin; exact hin
    · rw [h'] at hin; simpa using hin
  conv_rhs => rw [← List.map_id (getlines '\n' text)]
  apply List.map_congr_left
  intro l hl
  rw [id, List.filter_eq_self]
  intro c hc
  have : c ≠ '\r' := fun e => hm l hl (by rw [← e]; exact hc)
  simpa using this

theorem import_text {text : Str} (hcr : '\r' ∉ text) {ss : List (List Str)} (h : Statements (getlines '\n' text) ss) (p : Parser) :
    importLines imp (fileLines text) [] 0 p = ss.foldlM (addTokens imp) p := by
  unfold fileLines
  rw [filter_cr hcr, import_filter, import_statements h]

/-- What a sequence of settings does to the parser. -/
def apply (p : Parser) (es : List (List Str)) : Parser :=
  es.foldl (fun p e => { parsed := Function.update p.parsed (e.head?.getD []) (some e), ordered := p.ordered ++ [e.head?.getD []] }) p

theorem apply_append (p : Parser) (es fs : List (List Str)) : apply p (es ++ fs) = apply (apply p es) fs := by
  unfold apply; rw [List.foldl_append]

theorem addTokens_set {key : Str} {args : List Str} (hk : key ∉ keywords) (p : Parser) : addTokens imp p (key :: args) =
    some { parsed := Function.update p.parsed key (some (key :: args)), ordered := p.ordered ++ [key] } := by
  unfold addTokens
  exact if_neg hk

theorem addTokens_keyword {key : Str} {args : List Str} (hk : key ∈ keywords) (hi : key ≠ "Import".toList) (p : Parser) :
    addTokens imp p (key :: args) = some p := by
  unfold addTokens
  exact (if_pos hk).trans (if_neg hi)

theorem addTokens_import (file : Str) (p : Parser) : addTokens imp p ["Import".toList, file] = imp file p := by
  unfold addTokens
  exact (if_pos (by decide)).trans (if_pos rfl)

theorem settings_apply {fs : Str → Option Str} {expand : Str → Str} {ss es : List (List Str)} (h : Settings fs expand ss es) :
    ∃ n, ∀ m, n ≤ m → ∀ p, ss.foldlM (addTokens fun f => importFile fs expand m (expand f)) p = some (apply p es) := by
  induction h with
  | nil => exact ⟨0, fun m _ p => rfl⟩
  | @set key args ss es hk _ ih =>
    obtain ⟨n, hn⟩ := ih
    refine ⟨n, fun m hm p => ?_⟩
    rw [List.foldlM_cons, addTokens_set hk]
    show Option.bind (some _) _ = _
    rw [Option.bind_some, hn m hm]
    rfl
  | @keyword key args ss es hk hi _ ih =>
    obtain ⟨n, hn⟩ := ih
    refine ⟨n, fun m hm p => ?_⟩
    rw [List.foldlM_cons, addTokens_keyword hk hi]
    show Option.bind (some _) _ = _
    rw [Option.bind_some, hn m hm]
  | @missing file ss es hf _ ih =>
    obtain ⟨n, hn⟩ := ih
    refine ⟨n + 1, fun m hm p => ?_⟩
    obtain ⟨m, rfl⟩ : ∃ k, m = k + 1 := ⟨m - 1, by omega⟩
    rw [List.foldlM_cons, addTokens_import, importFile, hf]
    show Option.bind (some _) _ = _
    rw [Option.bind_some, hn (m + 1) (by omega)]
  | @imported file text ss us es vs hf hcr hst _ _ ih1 ih2 =>
    obtain ⟨n1, h1⟩ := ih1
    obtain ⟨n2, h2⟩ := ih2
    refine ⟨n1 + n2 + 1, fun m hm p => ?_⟩
    obtain ⟨m, rfl⟩ : ∃ k, m = k + 1 := ⟨m - 1, by omega⟩
    rw [List.foldlM_cons, addTokens_import, importFile, hf]
    simp only
    rw [import_text hcr hst, h1 m (by omega)]
    show Option.bind (some _) _ = _
    rw [Option.bind_some, h2 (m + 1) (by omega), apply_append]

theorem lastSet_cons (e : List Str) (es : List (List Str)) (key : Str) :
    lastSet (e :: es) key = (lastSet es key <|> if e.head? = some key then some e else none) := by
  unfold lastSet
  rw [List.reverse_cons, List.find?_append]
  congr 1
  by_cases h : e.head? = some key <;> simp [h]

theorem apply_parsed : ∀ (es : List (List Str)) (p : Parser) (key : Str), (∀ e ∈ es, e ≠ []) →
    (apply p es).parsed key = (lastSet es key <|> p.parsed key) := by
  intro es
  induction es with
  | nil => intro p key _; simp [apply, lastSet]
  | cons e es ih =>
    intro p key hne
    have := ih { parsed := Function.update p.parsed (e.head?.getD []) (some e), ordered := p.ordered ++ [e.head?.getD []] } key
      (fun x hx => hne x (by simp [hx]))
    rw [lastSet_cons]
    have e1 : apply p (e :: es) =
      apply { parsed := Function.update p.parsed (e.head?.getD []) (some e), ordered := p.ordered ++ [e.head?.getD []] } es := rfl
    rw [e1, this]
    cases lastSet es key with
    | some v => rfl
    | none =>
      simp only [HOrElse.hOrElse, OrElse.orElse, Option.orElse]
      obtain ⟨k, a, rfl⟩ : ∃ k a, e = k :: a := by
        cases e with
        | nil => exact absurd rfl (hne [] (by simp))
        | cons k a => exact ⟨k, a, rfl⟩
      by_cases hk : k = key
      · subst hk; simp
      · simp [hk, Function.update_of_ne (Ne.symm hk)]

theorem apply_ordered : ∀ (es : List (List Str)) (p : Parser), (apply p es).ordered = p.ordered ++ es.map fun e => e.head?.getD [] := by
  intro es
  induction es with
  | nil => intro p; simp [apply]
  | cons e es ih =>
    intro p
    have e1 : apply p (e :: es) =
      apply { parsed := Function.update p.parsed (e.head?.getD []) (some e), ordered := p.ordered ++ [e.head?.getD []] } es := rfl
    rw [e1, ih]; simp

theorem settings_ne {fs : Str → Option Str} {expand : Str → Str} {ss es : List (List Str)} (h : Settings fs expand ss es) : ∀ e ∈ es, e ≠ [] := by
  induction h with
  | nil => intro e he; simp at he
  | set _ _ ih =>
    intro e he
    rcases List.mem_cons.mp he with rfl | he
    · simp
    · exact ih e he
  | keyword _ _ _ ih => exact ih
  | missing _ _ ih => exact ih
  | imported _ _ _ _ _ ih1 ih2 =>
    intro e he
    rcases List.mem_append.mp he with h | h
    · exact ih1 e h
    · exact ih2 e h

end AmpGen.Options
