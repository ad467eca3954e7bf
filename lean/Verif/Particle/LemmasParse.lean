import Verif.Particle.LemmasItems
import Verif.Particle.LemmasTree
import Verif.Strings.Lemmas
/-
Reading modifiers again that were printed.
-/
namespace AmpGen.Particle
open AmpGen.Strings AmpGen.PDG AmpGen.PDG.Spec AmpGen.Particle.Spec

variable {K : Type} [Field K] [LinearOrder K]

/-! ### Lineshapes -/

theorem lineshape_short {env : Env K} (he : Unambiguous env) {s : Str} (hs : s.length ≤ 1) : env.isLineshape s = false := by
  cases h : env.isLineshape s with
  | false => rfl
  | true =>
    have := he.long _ h
    have hl := (List.takeWhile_prefix (l := s) fun c => decide (c ≠ '.')).length_le
    omega

theorem lineshape_pair {env : Env K} (he : Unambiguous env) {a : Char} (ha : a ∈ orbitals) (b : Char) : env.isLineshape [a, b] = false := by
  have ha' : a ≠ '.' := by rintro rfl; revert ha; decide
  unfold Env.isLineshape
  rw [List.takeWhile_cons, if_pos (by simpa using ha'), List.takeWhile_cons]
  by_cases hb : b = '.'
  · subst hb
    cases h : env.lineshapes ([a] ++ []) with
    | false => simpa using h
    | true => have := he.long _ h; simp at this
  · rw [if_pos (by simpa using hb)]
    exact he.letters a b ha

theorem lineshape_flag {env : Env K} (he : Unambiguous env) {f : Str} (hf : f ∈ flags) : env.isLineshape f = false := by
  unfold flags at hf
  have key : ∀ s ∈ ["BgSpin0", "Inco", "NoSym"], (s.toList.takeWhile fun c => decide (c ≠ '.')) = s.toList := by decide
  unfold Env.isLineshape
  simp only [List.mem_cons, List.not_mem_nil, or_false] at hf
  rcases hf with rfl | rfl | rfl
  · rw [key _ (by simp)]; exact he.flags _ (by simp)
  · rw [key _ (by simp)]; exact he.flags _ (by simp)
  · rw [key _ (by simp)]; exact he.flags _ (by simp)

/-! ### One modifier -/

/-- The vertex after a modifier. -/
def vertexAfter (v : Str) (m : Str) : Str :=
  if (split m '=' true).length = 2 ∧ (split m '=' true)[0]? = some "vertex".toList then (split m '=' true).getD 1 [] else v

theorem parseLetter_vertex (s : Parsed) (c : Char) : (parseLetter s c).vertexName = s.vertexName ∧ (parseLetter s c).lineshape = s.lineshape := by
  unfold parseLetter
  repeat' split
  all_goals exact ⟨rfl, rfl⟩

theorem parseOne_vertex (env : Env K) (s : Parsed) (c : Char) : (env.parseOne s c).vertexName = s.vertexName := by
  unfold Env.parseOne
  split
  · rfl
  · exact (parseLetter_vertex s c).1

theorem parse_vertex (env : Env K) (s : Parsed) (m : Str) : (env.parseModifier s m).vertexName = vertexAfter s.vertexName m := by
  unfold Env.parseModifier vertexAfter
  simp only
  split
  · rfl
  · split
    · rfl
    · split
      · exact (parseLetter_vertex s _).1
      · rw [parseOne_vertex, parseOne_vertex]
      · rfl

theorem split_short {m : Str} (h : '=' ∉ m) : (split m '=' true).length ≤ 1 := by
  unfold split
  refine le_trans (List.length_filter_le _ _) ?_
  cases m with
  | nil => rw [getlines_nil]; simp
  | cons a l => rw [getlines_single h (by simp)]; simp

theorem not_vertex {m : Str} (h : '=' ∉ m) : ¬ ((split m '=' true).length = 2 ∧ (split m '=' true)[0]? = some "vertex".toList) := by
  have := split_short h
  omega

theorem vertexAfter_none {m : Str} (h : '=' ∉ m) (v : Str) : vertexAfter v m = v := if_neg (not_vertex h)

theorem vertex_fold (env : Env K) : ∀ (mods : List Str) (s : Parsed), (mods.foldl env.parseModifier s).vertexName = (mods.filter fun m => decide ('=' ∈ m)).foldl vertexAfter s.vertexName
  | [], _ => rfl
  | m :: mods, s => by
    rw [List.foldl_cons, vertex_fold env mods, parse_vertex, List.filter_cons]
    by_cases h : '=' ∈ m
    · rw [if_pos (decide_eq_true h), List.foldl_cons]
    · rw [if_neg (by simpa using h), vertexAfter_none h]

theorem parse_setting (env : Env K) (s : Parsed) {m : Str} (hl : 3 ≤ m.length) (hm : env.isLineshape m = false) : env.parseModifier s m = { s with vertexName := vertexAfter s.vertexName m } := by
  unfold Env.parseModifier vertexAfter
  simp only
  split
  · rfl
  · rw [if_neg (by rw [hm]; simp)]
    match m, hl with
    | _ :: _ :: _ :: _, _ => rfl

theorem parse_settings (env : Env K) : ∀ (l : List Str) (s : Parsed), (∀ m ∈ l, 3 ≤ m.length ∧ env.isLineshape m = false) → l.foldl env.parseModifier s = { s with vertexName := l.foldl vertexAfter s.vertexName }
  | [], _, _ => rfl
  | m :: l, s, h => by
    rw [List.foldl_cons, parse_setting env s (h m List.mem_cons_self).1 (h m List.mem_cons_self).2, parse_settings env l _ fun x hx => h x (List.mem_cons_of_mem _ hx)]
    rfl

theorem parse_lineshape (env : Env K) (s : Parsed) {m : Str} (he : '=' ∉ m) (hm : env.isLineshape m = true) : env.parseModifier s m = { s with lineshape := m } := by
  unfold Env.parseModifier
  simp only
  rw [if_neg (not_vertex he), if_pos hm]

theorem parse_flag {env : Env K} (he : Unambiguous env) (s : Parsed) {f : Str} (hf : f ∈ flags) : env.parseModifier s f = s := by
  have h3 : ∀ f ∈ flags, 3 ≤ f.length ∧ '=' ∉ f := by decide
  rw [parse_setting env s (h3 f hf).1 (lineshape_flag he hf), vertexAfter_none (h3 f hf).2]

theorem parse_flags {env : Env K} (he : Unambiguous env) : ∀ (l : List Str) (s : Parsed), (∀ f ∈ l, f ∈ flags) → l.foldl env.parseModifier s = s
  | [], _, _ => rfl
  | f :: l, s, h => by
    rw [List.foldl_cons, parse_flag he s (h f List.mem_cons_self), parse_flags he l s fun x hx => h x (List.mem_cons_of_mem _ hx)]

theorem parse_orbital {env : Env K} (he : Unambiguous env) (s : Parsed) {n : Nat} {l : Char} (h : orbitals[n]? = some l) :
    env.parseModifier s [l] = { s with orbital := n } ∧ parseLetter s l = { s with orbital := n } ∧ l ∈ orbitals ∧ l ≠ '=' := by
  have hmem : l ∈ orbitals := List.mem_of_getElem? h
  have hne : l ≠ '=' := by rintro rfl; revert hmem; decide
  have hp : parseLetter s l = { s with orbital := n } := by
    match n, h with
    | 0, h => obtain rfl := Option.some.inj h; rfl
    | 1, h => obtain rfl := Option.some.inj h; rfl
    | 2, h => obtain rfl := Option.some.inj h; rfl
    | 3, h => obtain rfl := Option.some.inj h; rfl
    | 4, h => obtain rfl := Option.some.inj h; rfl
    | 5, h => obtain rfl := Option.some.inj h; rfl
    | 6, h => obtain rfl := Option.some.inj h; rfl
    | n + 7, h => simp [orbitals] at h
  refine ⟨?_, hp, hmem, hne⟩
  unfold Env.parseModifier
  simp only
  rw [if_neg (not_vertex (by simpa using hne.symm)), if_neg (by rw [lineshape_short he (by simp)]; simp)]
  exact hp

theorem parse_pair {env : Env K} (he : Unambiguous env) (s : Parsed) {n : Nat} {l x : Char} (h : orbitals[n]? = some l) (hx : x ≠ '=') :
    env.parseModifier s [l, x] = parseLetter { s with orbital := n } x := by
  obtain ⟨_, h2, h3, h4⟩ := parse_orbital he s h
  unfold Env.parseModifier
  simp only
  rw [if_neg (not_vertex (by simp [h4.symm, hx.symm])), if_neg (by rw [lineshape_pair he h3]; simp)]
  unfold Env.parseOne
  rw [lineshape_short he (by simp), lineshape_short he (by simp)]
  simp only [Bool.false_eq_true, if_false]
  rw [h2]

/-! ### What modifiers can set -/

/-- What is known about the members that modifiers set. -/
structure Origin (env : Env K) (mods : List Str) (s : Parsed) : Prop where
  lineshape : s.lineshape = "BW".toList ∨ s.lineshape ∈ mods ∧ env.isLineshape s.lineshape = true
  spin : s.spinConf < 10 ∨ ∃ c : Char, s.spinConf = 10 + c.toNat ∧ c ∉ orbitals ∧ c.isDigit = false ∧ ∃ m ∈ mods, c ∈ m ∧ m.length ≤ 2

theorem origin_letter {env : Env K} {mods : List Str} {s : Parsed} (h : Origin env mods s) {m : Str} (hm : m ∈ mods) (hl : m.length ≤ 2) {c : Char} (hc : c ∈ m) : Origin env mods (parseLetter s c) := by
  refine ⟨by rw [(parseLetter_vertex s c).2]; exact h.lineshape, ?_⟩
  by_cases h1 : c ∈ orbitals
  · have : (parseLetter s c).spinConf = s.spinConf := by
      simp only [orbitals, List.mem_cons, List.not_mem_nil, or_false] at h1
      rcases h1 with rfl | rfl | rfl | rfl | rfl | rfl | rfl <;> rfl
    rw [this]; exact h.spin
  · have hs : parseLetter s c = if c.isDigit = true then { s with spinConf := c.toNat - 48 } else { s with spinConf := 10 + c.toNat } := by
      simp only [orbitals, List.mem_cons, List.not_mem_nil, or_false, not_or] at h1
      obtain ⟨g1, g2, g3, g4, g5, g6, g7⟩ := h1
      unfold parseLetter
      rw [if_neg g1, if_neg g2, if_neg g3, if_neg g4, if_neg g5, if_neg g6, if_neg g7]
    rw [hs]
    cases hd : c.isDigit with
    | true =>
      left
      rw [if_pos rfl]
      have : c.toNat ≤ 57 := by
        unfold Char.isDigit at hd
        simp only [ge_iff_le, Bool.and_eq_true, decide_eq_true_eq] at hd
        exact hd.2
      simp only
      omega
    | false =>
      right
      exact ⟨c, rfl, h1, hd, m, hm, hc, hl⟩

theorem origin_one {env : Env K} (he : Unambiguous env) {mods : List Str} {s : Parsed} (h : Origin env mods s) {m : Str} (hm : m ∈ mods) (hl : m.length ≤ 2) {c : Char} (hc : c ∈ m) :
    Origin env mods (env.parseOne s c) := by
  unfold Env.parseOne
  rw [lineshape_short he (by simp)]
  exact origin_letter h hm hl hc

theorem origin_step {env : Env K} (he : Unambiguous env) {mods : List Str} {s : Parsed} (h : Origin env mods s) {m : Str} (hm : m ∈ mods) : Origin env mods (env.parseModifier s m) := by
  unfold Env.parseModifier
  simp only
  split
  · exact ⟨h.lineshape, h.spin⟩
  · split
    · rename_i hls
      exact ⟨Or.inr ⟨hm, hls⟩, h.spin⟩
    · split
      · exact origin_letter h hm (by simp) (by simp)
      · exact origin_one he (origin_one he h hm (by simp) (by simp)) hm (by simp) (by simp)
      · exact h

theorem origin_fold {env : Env K} (he : Unambiguous env) (mods : List Str) : Origin env mods (mods.foldl env.parseModifier Parsed.initial) := by
  have key : ∀ (l : List Str) (s : Parsed), (∀ m ∈ l, m ∈ mods) → Origin env mods s → Origin env mods (l.foldl env.parseModifier s) := by
    intro l
    induction l with
    | nil => intro s _ h; exact h
    | cons m l ih =>
      intro s hl h
      exact ih _ (fun x hx => hl x (List.mem_cons_of_mem _ hx)) (origin_step he h (hl m List.mem_cons_self))
  exact key mods _ (fun m hm => hm) ⟨Or.inl rfl, Or.inl (by decide)⟩

/-! ### Printed modifiers -/

theorem plain_noneOf {s : Str} (h : Plain s) {cs : List Char} (hc : ∀ x ∈ cs, x ∈ structural) : NoneOf cs s := fun x hx hx' => h x hx (hc x hx')

theorem plain_append {s r : Str} (h : Plain s) (h' : Plain r) : Plain (s ++ r) := by
  intro x hx
  rcases List.mem_append.1 hx with hx | hx
  · exact h x hx
  · exact h' x hx

/-- The data of a particle before and after the look-up. -/
def rawData (name : Str) (props : Props K) (s : Parsed) (mods : List Str) : Data K := ⟨name, props, s.lineshape, s.vertexName, 0, 999, 999, s.orbital, s.spinConf, 0, false, mods⟩

/-- The members that the printed modifiers set. -/
def reparsed (d : Data K) : Parsed :=
  ⟨if d.usesDefaultLineshape then "BW".toList else d.lineshape, d.vertexName, if d.orbital ≠ d.minL ∨ d.spinConf ≠ 0 then d.orbital else 0, d.spinConf⟩

theorem lookup_lineshape (env : Env K) (name : Str) (props : Props K) (l : Str) :
    (l = "BW".toList → (env.lookupLineshape name props l false).2 = true) ∧
    (l ≠ "BW".toList → (env.lookupLineshape name props l false).2 = false ∧ (env.lookupLineshape name props l false).1 ≠ "BW".toList ∧
      ((env.lookupLineshape name props l false).1 = l ∨ (env.lookupLineshape name props l false).1 = l ++ ['.'] ++ env.defaultModifier) ∧
      env.lookupLineshape name props (env.lookupLineshape name props l false).1 false = env.lookupLineshape name props l false) := by
  constructor
  · intro h
    unfold Env.lookupLineshape
    simp only [h, true_or, if_true]
  · intro h
    have h0 : ∀ x : Str, x ≠ "BW".toList → env.lookupLineshape name props x false = (if env.defaultModifier ≠ [] ∧ '.' ∉ x then x ++ ['.'] ++ env.defaultModifier else x, false) := by
      intro x hx
      unfold Env.lookupLineshape
      simp only [hx, false_or, Bool.false_eq_true, if_false]
    rw [h0 l h]
    simp only
    by_cases hc : env.defaultModifier ≠ [] ∧ '.' ∉ l
    · rw [if_pos hc]
      have hdot : '.' ∈ l ++ ['.'] ++ env.defaultModifier := by simp
      have hne : l ++ ['.'] ++ env.defaultModifier ≠ "BW".toList := by
        intro e
        rw [e] at hdot
        revert hdot; decide
      exact ⟨trivial, hne, Or.inr rfl, by rw [h0 _ hne, if_neg (by simp)]⟩
    · rw [if_neg hc]
      exact ⟨trivial, h, Or.inl rfl, by rw [h0 l h, if_neg hc]⟩

theorem takeWhile_dot : ∀ (l r : Str), '.' ∈ l → ((l ++ r).takeWhile fun c => decide (c ≠ '.')) = l.takeWhile fun c => decide (c ≠ '.')
  | [], _, h => by simp at h
  | x :: l, r, h => by
    rw [List.cons_append, List.takeWhile_cons, List.takeWhile_cons]
    by_cases hx : x = '.'
    · subst hx; rfl
    · have hl : '.' ∈ l := (List.mem_cons.1 h).resolve_left fun e => hx e.symm
      rw [takeWhile_dot l r hl]

theorem lookup_isLineshape {env : Env K} {l l' : Str} (h : env.isLineshape l = true) (hl : l' = l ∨ l' = l ++ ['.'] ++ env.defaultModifier) : env.isLineshape l' = true := by
  rcases hl with rfl | rfl
  · exact h
  · unfold Env.isLineshape at *
    rw [List.append_assoc]
    by_cases hd : '.' ∈ l
    · have := takeWhile_dot l (['.'] ++ env.defaultModifier) hd
      rw [this]; exact h
    · have hall : ∀ x ∈ l, decide (x ≠ '.') = true := by
        intro x hx
        have : x ≠ '.' := by rintro rfl; exact hd hx
        simpa using this
      rw [List.takeWhile_append_of_pos hall]
      have h' : l.takeWhile (fun c => decide (c ≠ '.')) = l := List.takeWhile_eq_self_iff.2 hall
      rw [h'] at h
      simpa using h

end AmpGen.Particle
