import Verif.Particle.LemmasParse
/-
Printing a tree and reading it again.
-/
namespace AmpGen.Particle
open AmpGen.Strings AmpGen.PDG AmpGen.PDG.Spec AmpGen.Particle.Spec

variable {K : Type} [Field K] [LinearOrder K]

theorem pdgLookup_eq {env : Env K} {name : Str} {props : Props K} {s : Parsed} {mods : List Str} {ds : List (Tree K)} {d : Data K} (h : env.pdgLookup (rawData name props s mods) ds = some d) :
    ∃ b, isStrong name props ds = some b ∧
      d = ⟨name, props, (env.lookupLineshape name props s.lineshape false).1, s.vertexName, props.parity, 999, 999,
        if s.orbital = 0 then minOrbital props.twoSpin.toNat props.parity b ds else s.orbital, s.spinConf, minOrbital props.twoSpin.toNat props.parity b ds,
        (env.lookupLineshape name props s.lineshape false).2, mods⟩ := by
  unfold Env.pdgLookup rawData at h
  simp only at h
  cases hb : isStrong name props ds with
  | none => rw [hb] at h; simp at h
  | some b =>
    rw [hb] at h
    simp only [Option.bind_eq_bind, Option.bind_some] at h
    exact ⟨b, rfl, (Option.some.inj h).symm⟩

theorem pdgLookup_of {env : Env K} {name : Str} {props : Props K} {s : Parsed} {mods : List Str} {ds : List (Tree K)} {b : Bool} (h : isStrong name props ds = some b) :
    env.pdgLookup (rawData name props s mods) ds = some ⟨name, props, (env.lookupLineshape name props s.lineshape false).1, s.vertexName, props.parity, 999, 999,
        if s.orbital = 0 then minOrbital props.twoSpin.toNat props.parity b ds else s.orbital, s.spinConf, minOrbital props.twoSpin.toNat props.parity b ds,
        (env.lookupLineshape name props s.lineshape false).2, mods⟩ := by
  unfold Env.pdgLookup rawData
  simp only
  rw [h]
  rfl

/-- The part of the printed modifiers for the orbital state. -/
def orbitalPart (d : Data K) : Option (List Str) := if d.orbital ≠ d.minL ∨ d.spinConf ≠ 0 then (orbitalString d).map fun s => [s] else some []

/-- The rest of the printed modifiers. -/
def otherPart (d : Data K) : List Str :=
  (if !d.usesDefaultLineshape then [d.lineshape] else []) ++ flags.filter (fun m => decide (m ∈ d.modifiers)) ++ d.modifiers.filter (fun m => decide ('=' ∈ m))

theorem printedModifiers_eq (d : Data K) : printedModifiers d = (orbitalPart d).map fun o => o ++ otherPart d := by
  unfold printedModifiers orbitalPart otherPart
  simp only [List.append_assoc]

/-- What is needed of the members of a particle to print and read its modifiers. -/
structure Printed (env : Env K) (d : Data K) : Prop where
  good : Unambiguous env
  writable : Writable env d
  lineshape : d.usesDefaultLineshape = false → env.isLineshape d.lineshape = true ∧ Plain d.lineshape ∧ '=' ∉ d.lineshape
  spin : d.spinConf < 10 ∨ ∃ c : Char, d.spinConf = 10 + c.toNat ∧ c ∉ orbitals ∧ c.isDigit = false ∧ c ≠ '=' ∧ c ∉ structural
  vertex : d.vertexName = (d.modifiers.filter fun m => decide ('=' ∈ m)).foldl vertexAfter []

theorem printed_of_lookup {env : Env K} (he : Unambiguous env) {name : Str} {props : Props K} {mods : List Str} {ds : List (Tree K)} {d : Data K}
    (h : env.pdgLookup (rawData name props (mods.foldl env.parseModifier Parsed.initial) mods) ds = some d) (hw : Writable env d) : Printed env d := by
  obtain ⟨b, _, rfl⟩ := pdgLookup_eq h
  have ho := origin_fold he mods
  generalize hs : mods.foldl env.parseModifier Parsed.initial = s at *
  refine ⟨he, hw, ?_, ?_, ?_⟩
  · intro hu
    simp only at hu ⊢
    obtain ⟨h1, h2⟩ := lookup_lineshape env name props s.lineshape
    have hne : s.lineshape ≠ "BW".toList := by
      intro e
      rw [h1 e] at hu
      exact absurd hu (by simp)
    obtain ⟨_, _, h3, _⟩ := h2 hne
    obtain ⟨hm, hl⟩ := ho.lineshape.resolve_left hne
    have heq : '=' ∉ s.lineshape := by
      intro hc
      have := (hw.settings _ hm hc).2
      rw [hl] at this
      exact absurd this (by simp)
    have hpl := hw.plain _ hm
    refine ⟨lookup_isLineshape hl h3, ?_, ?_⟩
    · rcases h3 with h3 | h3
      · rw [h3]; exact hpl
      · rw [h3]
        refine plain_append (plain_append hpl ?_) he.defaultModifier.1
        intro x hx
        simp only [List.mem_cons, List.not_mem_nil, or_false] at hx
        subst hx
        decide
    · rcases h3 with h3 | h3
      · rw [h3]; exact heq
      · rw [h3]
        simp only [List.mem_append, not_or]
        exact ⟨⟨heq, by decide⟩, he.defaultModifier.2⟩
  · rcases ho.spin with h1 | ⟨c, h1, h2, h3, m, h4, h5, h6⟩
    · exact Or.inl h1
    · refine Or.inr ⟨c, h1, h2, h3, ?_, hw.plain m h4 c h5⟩
      rintro rfl
      have := (hw.settings m h4 h5).1
      omega
  · simp only
    rw [← hs, vertex_fold]
    rfl

theorem digit_char : ∀ n < 10, ∃ c : Char, Nat.toDigits 10 n = [c] ∧ c.isDigit = true ∧ c.toNat - 48 = n ∧ c ∉ orbitals ∧ c ≠ '=' ∧ c ∉ structural := by
  intro n hn
  match n, hn with
  | 0, _ => exact ⟨'0', by decide⟩
  | 1, _ => exact ⟨'1', by decide⟩
  | 2, _ => exact ⟨'2', by decide⟩
  | 3, _ => exact ⟨'3', by decide⟩
  | 4, _ => exact ⟨'4', by decide⟩
  | 5, _ => exact ⟨'5', by decide⟩
  | 6, _ => exact ⟨'6', by decide⟩
  | 7, _ => exact ⟨'7', by decide⟩
  | 8, _ => exact ⟨'8', by decide⟩
  | 9, _ => exact ⟨'9', by decide⟩

theorem parseLetter_other {s : Parsed} {c : Char} (h1 : c ∉ orbitals) : parseLetter s c = if c.isDigit = true then { s with spinConf := c.toNat - 48 } else { s with spinConf := 10 + c.toNat } := by
  simp only [orbitals, List.mem_cons, List.not_mem_nil, or_false, not_or] at h1
  obtain ⟨g1, g2, g3, g4, g5, g6, g7⟩ := h1
  unfold parseLetter
  rw [if_neg g1, if_neg g2, if_neg g3, if_neg g4, if_neg g5, if_neg g6, if_neg g7]

/-- The orbital state is read again. -/
theorem orbitalPart_spec {env : Env K} {d : Data K} (h : Printed env d) {o : List Str} (ho : orbitalPart d = some o) :
    o.foldl env.parseModifier Parsed.initial = { Parsed.initial with orbital := if d.orbital ≠ d.minL ∨ d.spinConf ≠ 0 then d.orbital else 0, spinConf := d.spinConf } ∧
    ∀ m ∈ o, Plain m ∧ m ≠ [] ∧ m.length ≤ 2 ∧ '=' ∉ m := by
  unfold orbitalPart at ho
  by_cases hc : d.orbital ≠ d.minL ∨ d.spinConf ≠ 0
  · rw [if_pos hc] at ho ⊢
    have hv : d.vertexName = [] := by
      rcases h.writable.vertex with h1 | ⟨h1, h2⟩
      · exact h1
      · rcases hc with hc | hc
        · exact absurd h1 hc
        · exact absurd h2 hc
    obtain ⟨os, hos, rfl⟩ := Option.map_eq_some_iff.1 ho
    unfold orbitalString at hos
    rw [if_neg (by simp [hv])] at hos
    obtain ⟨l, hl, rfl⟩ := Option.map_eq_some_iff.1 hos
    obtain ⟨p1, _, p3, p4⟩ := parse_orbital h.good Parsed.initial hl
    have hlp : l ∉ structural := by
      intro hx
      have : ∀ l ∈ orbitals, l ∉ structural := by decide
      exact this l p3 hx
    have pair : ∀ x : Char, x ≠ '=' → x ∉ structural → ∀ m ∈ [[l] ++ [x]], Plain m ∧ m ≠ [] ∧ m.length ≤ 2 ∧ '=' ∉ m := by
      intro x hx hxs m hm
      simp only [List.mem_cons, List.not_mem_nil, or_false] at hm
      subst hm
      refine ⟨?_, by simp, by simp, by simp [p4.symm, hx.symm]⟩
      intro c hc
      simp only [List.cons_append, List.nil_append, List.mem_cons, List.not_mem_nil, or_false] at hc
      rcases hc with rfl | rfl
      · exact hlp
      · exact hxs
    by_cases hz : d.spinConf = 0
    · rw [if_neg (by simp [hz]), List.append_nil]
      refine ⟨?_, ?_⟩
      · rw [List.foldl_cons, List.foldl_nil, p1, hz]; rfl
      · intro m hm
        simp only [List.mem_cons, List.not_mem_nil, or_false] at hm
        subst hm
        refine ⟨?_, by simp, by simp, by simp [p4.symm]⟩
        intro c hc
        simp only [List.mem_cons, List.not_mem_nil, or_false] at hc
        subst hc
        exact hlp
    · rw [if_pos hz]
      by_cases h10 : d.spinConf < 10
      · obtain ⟨c, c1, c2, c3, c4, c5, c6⟩ := digit_char _ h10
        rw [if_pos h10, c1]
        refine ⟨?_, pair c c5 c6⟩
        rw [List.foldl_cons, List.foldl_nil, List.singleton_append, parse_pair h.good _ hl c5, parseLetter_other c4, if_pos c2, c3]
      · obtain ⟨c, c1, c2, c3, c4, c5⟩ := h.spin.resolve_left h10
        rw [if_neg h10]
        have hch : Char.ofNat (d.spinConf - 10) = c := by rw [c1, Nat.add_sub_cancel_left, Char.ofNat_toNat]
        rw [hch]
        refine ⟨?_, pair c c4 c5⟩
        rw [List.foldl_cons, List.foldl_nil, List.singleton_append, parse_pair h.good _ hl c4, parseLetter_other c2, if_neg (by rw [c3]; simp), ← c1]
  · rw [if_neg hc] at ho ⊢
    obtain rfl := Option.some.inj ho
    have hz : d.spinConf = 0 := by
      by_contra hx
      exact hc (Or.inr hx)
    rw [hz]
    exact ⟨rfl, by simp⟩

/-- The printed modifiers are read again, and can be printed again. -/
theorem reparse_spec {env : Env K} {d : Data K} (h : Printed env d) {ps : List Str} (hp : printedModifiers d = some ps) :
    ps.foldl env.parseModifier Parsed.initial = reparsed d ∧ (∀ m ∈ ps, Plain m ∧ m ≠ []) ∧ printedModifiers { d with modifiers := ps } = some ps ∧
    (∀ f ∈ flags, f ∈ ps ↔ f ∈ d.modifiers) ∧ ps.filter (fun m => decide ('=' ∈ m)) = d.modifiers.filter fun m => decide ('=' ∈ m) := by
  rw [printedModifiers_eq] at hp
  obtain ⟨o, ho, rfl⟩ := Option.map_eq_some_iff.1 hp
  obtain ⟨h1, h2⟩ := orbitalPart_spec h ho
  have hflag : ∀ f ∈ flags, '=' ∉ f ∧ 3 ≤ f.length ∧ f ≠ [] := by decide
  have hplain : ∀ f ∈ flags, Plain f := by unfold Plain; decide
  have hmemo : ∀ f ∈ flags, f ∉ o := by
    intro f hf hfo
    have := (h2 f hfo).2.2.1
    have := (hflag f hf).2.1
    omega
  have hl3 : d.usesDefaultLineshape = false → d.lineshape ≠ [] := by
    intro hu e
    have := (h.lineshape hu).1
    rw [e, lineshape_short h.good (by simp)] at this
    exact absurd this (by simp)
  have hset : ∀ m ∈ d.modifiers.filter (fun m => decide ('=' ∈ m)), 3 ≤ m.length ∧ env.isLineshape m = false := by
    intro m hm
    obtain ⟨g1, g2⟩ := List.mem_filter.1 hm
    exact h.writable.settings m g1 (of_decide_eq_true g2)
  have hmem : ∀ f ∈ flags, f ∈ o ++ otherPart d ↔ f ∈ d.modifiers := by
    intro f hf
    unfold otherPart
    rw [List.mem_append, List.mem_append, List.mem_append, List.mem_filter, List.mem_filter]
    constructor
    · rintro (hx | (hx | ⟨_, hx⟩) | ⟨hx, _⟩)
      · exact absurd hx (hmemo f hf)
      · exfalso
        split at hx
        · rename_i hu
          simp only [List.mem_cons, List.not_mem_nil, or_false] at hx
          have hu : d.usesDefaultLineshape = false := by simpa using hu
          have := (h.lineshape hu).1
          rw [← hx, lineshape_flag h.good hf] at this
          exact absurd this (by simp)
        · simp at hx
      · exact of_decide_eq_true hx
      · exact hx
    · intro hx
      exact Or.inr (Or.inl (Or.inr ⟨hf, decide_eq_true hx⟩))
  have hfil : (o ++ otherPart d).filter (fun m => decide ('=' ∈ m)) = d.modifiers.filter fun m => decide ('=' ∈ m) := by
    unfold otherPart
    rw [List.filter_append, List.filter_append, List.filter_append]
    have e1 : o.filter (fun m => decide ('=' ∈ m)) = [] := by
      rw [List.filter_eq_nil_iff]
      intro m hm
      simpa using (h2 m hm).2.2.2
    have e2 : (if !d.usesDefaultLineshape then [d.lineshape] else []).filter (fun m => decide ('=' ∈ m)) = [] := by
      rw [List.filter_eq_nil_iff]
      intro m hm
      split at hm
      · rename_i hu
        simp only [List.mem_cons, List.not_mem_nil, or_false] at hm
        subst hm
        simpa using (h.lineshape (by simpa using hu)).2.2
      · simp at hm
    have e3 : (flags.filter fun m => decide (m ∈ d.modifiers)).filter (fun m => decide ('=' ∈ m)) = [] := by
      rw [List.filter_eq_nil_iff]
      intro m hm
      simpa using (hflag m (List.mem_filter.1 hm).1).1
    rw [e1, e2, e3, List.filter_filter]
    simp
  refine ⟨?_, ?_, ?_, hmem, hfil⟩
  · rw [List.foldl_append, h1]
    unfold otherPart
    rw [List.foldl_append, List.foldl_append]
    have e1 : ∀ s : Parsed, s.lineshape = "BW".toList → (if !d.usesDefaultLineshape then [d.lineshape] else []).foldl env.parseModifier s =
        { s with lineshape := if d.usesDefaultLineshape then "BW".toList else d.lineshape } := by
      intro s hs
      cases hu : d.usesDefaultLineshape with
      | true => simp only [Bool.not_true, Bool.false_eq_true, if_false, List.foldl_nil, if_true]; rw [← hs]
      | false =>
        simp only [Bool.not_false, Bool.false_eq_true, if_false, List.foldl_nil, if_true, List.foldl_cons]
        exact parse_lineshape env s (h.lineshape hu).2.2 (h.lineshape hu).1
    rw [e1 _ rfl, parse_flags h.good _ _ (fun f hf => (List.mem_filter.1 hf).1), parse_settings env _ _ hset]
    unfold reparsed
    rw [h.vertex]
    rfl
  · intro m hm
    unfold otherPart at hm
    rcases List.mem_append.1 hm with hm | hm
    · exact ⟨(h2 m hm).1, (h2 m hm).2.1⟩
    · rcases List.mem_append.1 hm with hm | hm
      · rcases List.mem_append.1 hm with hm | hm
        · split at hm
          · rename_i hu
            simp only [List.mem_cons, List.not_mem_nil, or_false] at hm
            subst hm
            have hu : d.usesDefaultLineshape = false := by simpa using hu
            exact ⟨(h.lineshape hu).2.1, hl3 hu⟩
          · simp at hm
        · have hf := (List.mem_filter.1 hm).1
          exact ⟨hplain m hf, (hflag m hf).2.2⟩
      · refine ⟨h.writable.plain m (List.mem_filter.1 hm).1, ?_⟩
        rintro rfl
        simp at hm
  · rw [printedModifiers_eq]
    have ho' : orbitalPart { d with modifiers := o ++ otherPart d } = some o := ho
    rw [ho', Option.map_some]
    congr 2
    unfold otherPart
    simp only
    unfold otherPart at hmem hfil
    rw [hfil]
    congr 2
    apply List.filter_congr
    intro f hf
    exact decide_eq_decide.2 (hmem f hf)

theorem modString_aux : ∀ (l : List Str) (acc : Str), acc ≠ ['['] → 1 ≤ acc.length → l.foldl (fun (s : Str) (m : Str) => s ++ (if s = ['['] then m else ';' :: m)) acc = acc ++ l.flatMap fun m => ';' :: m
  | [], acc, _, _ => by simp
  | m :: l, acc, h, hl => by
    rw [List.foldl_cons, if_neg h, modString_aux l _ _ (by simp; omega), List.flatMap_cons, List.append_assoc]
    intro e
    have := congrArg List.length e
    simp at this
    omega

theorem intercalate_flatMap (sep : Char) : ∀ (m : Str) (l : List Str), [sep].intercalate (m :: l) = m ++ l.flatMap fun x => sep :: x
  | m, [] => by rw [intercalate_single]; simp
  | m, x :: l => by rw [intercalate_cons, intercalate_flatMap sep x l, List.flatMap_cons]; simp

theorem modifierString_eq (d : Data K) (ps : List Str) (hp : printedModifiers d = some ps) (hn : ∀ m ∈ ps, m ≠ []) :
    modifierString d = some (if ps = [] then [] else '[' :: ([';'].intercalate ps ++ [']'])) := by
  unfold modifierString
  rw [hp, Option.map_some]
  congr 1
  cases ps with
  | nil => rfl
  | cons m l =>
    have hm := hn m List.mem_cons_self
    have hne : ['['] ++ m ≠ ['['] := by simpa using hm
    simp only
    rw [List.foldl_cons, if_pos rfl, modString_aux l _ hne (by simp), intercalate_flatMap]
    have hl : ¬ (['['] ++ m ++ l.flatMap fun m => ';' :: m) ++ [']'] = ['[', ']'] := by
      intro e
      have := congrArg List.length e
      have h1 : 0 < m.length := List.length_pos_of_ne_nil hm
      simp at this
      omega
    rw [if_neg hl, if_neg (by simp)]
    simp

/-- The head of a descriptor is read again. -/
theorem head_print {env : Env K} {d : Data K} (h : Printed env d) (hname : Plain d.name) (hfind : env.db.find d.name = some d.props) {ps : List Str} (hp : printedModifiers d = some ps) :
    ∃ m, modifierString d = some m ∧ Plain d.name ∧ NoneOf ['{', '}', ','] (d.name ++ m) ∧ env.head (d.name ++ m) = some (rawData d.name d.props (reparsed d) ps) := by
  obtain ⟨h1, h2, _⟩ := reparse_spec h hp
  refine ⟨_, modifierString_eq d ps hp fun m hm => (h2 m hm).2, hname, ?_, ?_⟩
  · intro x hx
    rcases List.mem_append.1 hx with hx | hx
    · exact plain_noneOf hname (by decide) x hx
    · split at hx
      · simp at hx
      · have key : ∀ (l : List Str), (∀ m ∈ l, Plain m) → NoneOf ['{', '}', ','] ([';'].intercalate l) := by
          intro l
          induction l with
          | nil => intro _ x hx; simp at hx
          | cons a l ih =>
            intro hl x hx
            cases l with
            | nil => rw [intercalate_single] at hx; exact plain_noneOf (hl a List.mem_cons_self) (by decide) x hx
            | cons b l =>
              rw [intercalate_cons] at hx
              rcases List.mem_append.1 hx with hx | hx
              · exact plain_noneOf (hl a List.mem_cons_self) (by decide) x hx
              · rcases List.mem_cons.1 hx with rfl | hx
                · decide
                · exact ih (fun m hm => hl m (List.mem_cons_of_mem _ hm)) x hx
        rcases List.mem_cons.1 hx with rfl | hx
        · decide
        · rcases List.mem_append.1 hx with hx | hx
          · exact key ps (fun m hm => (h2 m hm).1) x hx
          · simp only [List.mem_cons, List.not_mem_nil, or_false] at hx
            subst hx
            decide
  · have hitems : getItems (d.name ++ if ps = [] then [] else '[' :: ([';'].intercalate ps ++ [']'])) '[' ']' ';' = some (d.name :: ps) := by
      by_cases hps : ps = []
      · rw [if_pos hps, List.append_nil, hps]
        exact getItems_atom _ (fun hx => hname _ hx (by decide)) (fun hx => hname _ hx (by decide))
      · rw [if_neg hps]
        exact getItems_node (by decide) (by decide) (by decide) d.name ps (plain_noneOf hname (by decide)) hps fun i hi => Shape.atom i (plain_noneOf (h2 i hi).1 (by decide))
    unfold Env.head
    rw [hitems]
    simp only [Option.bind_eq_bind, Option.bind_some, List.head?_cons, List.tail_cons, hfind, h1]
    rfl

/-- The look-up after reading gives the same members. -/
theorem lookup_reparsed {env : Env K} {name : Str} {props : Props K} {s : Parsed} {mods ps : List Str} {ds ds' : List (Tree K)} {d : Data K}
    (h : env.pdgLookup (rawData name props s mods) ds = some d) (hs : isStrong name props ds' = isStrong name props ds)
    (hm : ∀ b, minOrbital props.twoSpin.toNat props.parity b ds' = minOrbital props.twoSpin.toNat props.parity b ds) :
    env.pdgLookup (rawData name props (reparsed d) ps) ds' = some { d with modifiers := ps } := by
  obtain ⟨b, hb, hd⟩ := pdgLookup_eq h
  rw [pdgLookup_of (hs.trans hb), hm]
  obtain ⟨h1, h2⟩ := lookup_lineshape env name props s.lineshape
  have hl : env.lookupLineshape name props (reparsed d).lineshape false = env.lookupLineshape name props s.lineshape false := by
    rw [hd]
    unfold reparsed
    simp only
    by_cases hbw : s.lineshape = "BW".toList
    · rw [h1 hbw, if_pos rfl, hbw]
    · obtain ⟨g1, _, _, g2⟩ := h2 hbw
      rw [g1, if_neg (by simp), g2]
  rw [hl, hd]
  unfold reparsed
  simp only [Option.some.injEq, Data.mk.injEq, true_and, and_true]
  generalize minOrbital props.twoSpin.toNat props.parity b ds = L
  by_cases hz : s.orbital = 0
  · rw [if_pos hz]
    by_cases hc : L ≠ L ∨ s.spinConf ≠ 0
    · rw [if_pos hc]; split <;> rfl
    · rw [if_neg hc, if_pos rfl]
  · rw [if_neg hz]
    by_cases hc : s.orbital ≠ L ∨ s.spinConf ≠ 0
    · rw [if_pos hc, if_neg hz]
    · rw [if_neg hc, if_pos rfl]
      simp only [not_or, not_not] at hc
      exact hc.1.symm

end AmpGen.Particle
