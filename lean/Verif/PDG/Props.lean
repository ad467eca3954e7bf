import Verif.PDG.LemmasDB
import Mathlib.Data.Rat.Cast.Defs
import Mathlib.Algebra.Order.Ring.Rat
import Mathlib.Data.Rat.Defs
/-
Properties C67 and C68: the particle database and the quark content.
-/
namespace AmpGen.PDG
open AmpGen.Strings Spec

variable {K : Type} [Field K]

/-! ### Quark content -/

theorem toLower_iff (small capital : Char) (h : small.toLower = small) (hs : 97 ≤ small.toNat ∧ small.toNat ≤ 122) (hc : capital.toNat + 32 = small.toNat) (c : Char) :
    c.toLower = small ↔ c = small ∨ c = capital := by
  unfold Char.toLower
  have hinj : ∀ a b : Char, a.toNat = b.toNat → a = b := by
    intro a b hab
    exact Char.ext (UInt32.toNat_inj.1 hab)
  constructor
  · intro e
    split at e
    · right
      rename_i hr
      apply hinj
      have e' := congrArg Char.toNat e
      have h1 : (65 : Nat) ≤ c.toNat := hr.1
      have h2 : c.toNat ≤ 90 := hr.2
      have e2 : (c.val + ('a'.val - 'A'.val)).toNat = c.toNat + 32 := by
        have : ('a'.val - 'A'.val) = 32 := by decide
        rw [this, UInt32.toNat_add]
        show (c.toNat + 32) % 4294967296 = _
        omega
      change (c.val + ('a'.val - 'A'.val)).toNat = small.toNat at e'
      omega
    · exact Or.inl e
  · rintro (rfl | rfl)
    · have : c.toLower = c := h
      unfold Char.toLower at this
      exact this
    · split
      · rename_i hr
        apply hinj
        show (c.val + ('a'.val - 'A'.val)).toNat = small.toNat
        have h2 : c.toNat ≤ 90 := hr.2
        have : ('a'.val - 'A'.val) = 32 := by decide
        rw [this, UInt32.toNat_add]
        show (c.toNat + 32) % 4294967296 = _
        omega
      · rename_i hr
        exfalso
        apply hr
        constructor
        · show (65 : Nat) ≤ c.toNat; omega
        · show c.toNat ≤ 90; omega

/-- **C68**: every text gives a quark state in which each flavour has the number of small letters less the number of capital letters of its name. -/
theorem quark_numbers (str : Str) :
    QuarkState.ofString str = ![flavour 'd' 'D' str, flavour 'u' 'U' str, flavour 's' 'S' str, flavour 'c' 'C' str, flavour 'b' 'B' str, flavour 't' 'T' str] := by
  unfold QuarkState.ofString
  funext i
  have key := fun (i : Fin 6) (s c : Char) h1 h2 h3 h4 h5 => (ofString_aux i s c h1 h2 h3 h4 h5 str (fun _ => 0)).trans (zero_add _)
  match i with
  | 0 => exact key 0 'd' 'D' (by decide) (by decide) (toLower_iff _ _ (by decide) (by decide) (by decide)) (by decide) (by decide)
  | 1 => exact key 1 'u' 'U' (by decide) (by decide) (toLower_iff _ _ (by decide) (by decide) (by decide)) (by decide) (by decide)
  | 2 => exact key 2 's' 'S' (by decide) (by decide) (toLower_iff _ _ (by decide) (by decide) (by decide)) (by decide) (by decide)
  | 3 => exact key 3 'c' 'C' (by decide) (by decide) (toLower_iff _ _ (by decide) (by decide) (by decide)) (by decide) (by decide)
  | 4 => exact key 4 'b' 'B' (by decide) (by decide) (toLower_iff _ _ (by decide) (by decide) (by decide)) (by decide) (by decide)
  | 5 => exact key 5 't' 'T' (by decide) (by decide) (toLower_iff _ _ (by decide) (by decide) (by decide)) (by decide) (by decide)

example : flavour 'd' 'D' "udD".toList = 0 ∧ flavour 'u' 'U' "udD".toList = 1 := by decide

/-- **C68**: reading the quark content of a particle always succeeds and gives at least one state. -/
theorem quark_content_total (str : Str) : ∃ q, QuarkContent.ofString str = some q ∧ q ≠ [] := ofString_total str

/-- **C68**: a particle that is marked as no quark and antiquark has the quark numbers of the vacuum. -/
theorem quark_content_neutral (before after : Str) : QuarkContent.ofString (before ++ "non-qQ".toList ++ after) = some [fun _ => 0] := by
  have h : (find (before ++ "non-qQ".toList ++ after) "non-qQ".toList 0).isSome = true := by
    cases hf : find (before ++ "non-qQ".toList ++ after) "non-qQ".toList 0 with
    | some p => rfl
    | none =>
      refine absurd ?_ (find_none hf before.length (Nat.zero_le _) (by simp))
      rw [List.append_assoc, List.drop_left]
      exact List.prefix_append _ _
  unfold QuarkContent.ofString
  rw [if_pos h]
  rfl

example : QuarkContent.ofString "maybe non-qQ (dD)".toList = some [fun _ => 0] := quark_content_neutral "maybe ".toList " (dD)".toList

/-- The content of the neutral pion: three texts, of which the one between brackets and the sign are states. -/
example : (QuarkContent.ofString "(uU-dD)/sqrt(2)".toList) = some [fun _ => 0] := by decide +kernel

example : (QuarkContent.ofString "(uS+sU)/sqrt(2)".toList) = some [![0, 1, -1, 0, 0, 0], ![0, -1, 1, 0, 0, 0]] := by decide +kernel

theorem daughterQuarks_fold : ∀ (ds : List QuarkContent) (acc : QuarkContent), acc ≠ [] → (∀ d ∈ ds, d ≠ []) →
    ∃ r, ds.foldlM (QuarkContent.combine QuarkState.add) acc = some r ∧ r ≠ [] ∧ ∀ s, s ∈ r ↔ ∃ x ∈ acc, ∃ t, Choice ds t ∧ s = fun i => x i + t i
  | [], acc, ha, _ => by
    refine ⟨acc, rfl, ha, ?_⟩
    intro s
    constructor
    · intro h
      exact ⟨s, h, _, .nil, by simp⟩
    · rintro ⟨x, hx, t, ht, rfl⟩
      cases ht
      simpa using hx
  | d :: ds, acc, ha, hd => by
    have hd0 := hd d (by simp)
    obtain ⟨r, hr, hne, hmem⟩ := daughterQuarks_fold ds (acc.flatMap fun x => d.map fun y => QuarkState.add x y)
      (flatMap_ne_nil acc d ha hd0 QuarkState.add) (fun e he => hd e (List.mem_cons_of_mem _ he))
    refine ⟨r, ?_, hne, ?_⟩
    · rw [List.foldlM_cons, combine_add_spec acc d ha hd0]
      exact hr
    · intro s
      rw [hmem]
      constructor
      · rintro ⟨x, hx, t, ht, rfl⟩
        obtain ⟨y, hy, hx⟩ := List.mem_flatMap.1 hx
        obtain ⟨z, hz, rfl⟩ := List.mem_map.1 hx
        exact ⟨y, hy, _, .cons hz ht, by funext i; simp only [QuarkState.add]; ring⟩
      · rintro ⟨x, hx, t, ht, rfl⟩
        cases ht with
        | @cons _ _ y u hy hu =>
          exact ⟨_, List.mem_flatMap.2 ⟨x, hx, List.mem_map.2 ⟨y, hy, rfl⟩⟩, u, hu, by funext i; simp only [QuarkState.add]; ring⟩

omit [Field K] in
/-- **C68**: the quark content of a particle agrees with that of its decay products exactly if one state of the particle has, flavour by flavour, the sum of the quark numbers of one state of each product.
This decides whether a decay counts as strong. -/
theorem flavour_conservation (q : QuarkContent) (ds : List QuarkContent) (hd : ∀ d ∈ ds, d ≠ []) :
    ∃ r, daughterQuarks ds = some r ∧ (q.eq r = true ↔ ∃ s ∈ q, Choice ds s) := by
  obtain ⟨r, hr, _, hmem⟩ := daughterQuarks_fold ds QuarkContent.default (by simp [QuarkContent.default]) hd
  refine ⟨r, hr, ?_⟩
  unfold QuarkContent.eq
  rw [List.any_eq_true]
  constructor
  · rintro ⟨s, hs, h⟩
    rw [List.any_eq_true] at h
    obtain ⟨t, ht, h⟩ := h
    have e : s = t := by simpa using h
    subst e
    obtain ⟨x, hx, u, hu, e⟩ := (hmem s).1 ht
    have hx0 : x = fun _ => 0 := by simpa [QuarkContent.default] using hx
    subst hx0
    refine ⟨s, hs, ?_⟩
    have : s = u := by rw [e]; funext i; simp
    rw [this]
    exact hu
  · rintro ⟨s, hs, hc⟩
    refine ⟨s, hs, ?_⟩
    rw [List.any_eq_true]
    exact ⟨s, (hmem s).2 ⟨fun _ => 0, by simp [QuarkContent.default], s, hc, by funext i; simp⟩, by simp⟩

/-- A strong decay: `K*(892)+ → K0 π+`, with contents `uS`, `dS` and `uD`. -/
example : ∃ r, daughterQuarks [[QuarkState.ofString "dS".toList], [QuarkState.ofString "uD".toList]] = some r ∧ QuarkContent.eq [QuarkState.ofString "uS".toList] r = true :=
  ⟨_, rfl, by decide +kernel⟩

/-- A weak decay: `D0 → K- π+`. -/
example : ∃ r, daughterQuarks [[QuarkState.ofString "sU".toList], [QuarkState.ofString "uD".toList]] = some r ∧ QuarkContent.eq [QuarkState.ofString "cU".toList] r = false :=
  ⟨_, rfl, by decide +kernel⟩

theorem anti_injective {x y : QuarkState} : x.anti = y.anti ↔ x = y := by
  constructor
  · intro h
    rw [← QuarkState.anti_anti x, h, QuarkState.anti_anti]
  · rintro rfl; rfl

/-- **C68**: the antiparticles agree in quark content exactly if the particles do, and the content of the antiparticle's decay products is the conjugate one: a decay is strong exactly if its conjugate is. -/
theorem flavour_conjugation (q : QuarkContent) (ds : List QuarkContent) (hd : ∀ d ∈ ds, d ≠ []) :
    ∃ r r', daughterQuarks ds = some r ∧ daughterQuarks (ds.map QuarkContent.anti) = some r' ∧ q.anti.eq r' = q.eq r := by
  obtain ⟨r, hr, h⟩ := flavour_conservation q ds hd
  have hd' : ∀ d ∈ ds.map QuarkContent.anti, d ≠ [] := by
    intro d hd0
    obtain ⟨e, he, rfl⟩ := List.mem_map.1 hd0
    have := hd e he
    intro h0
    exact this (List.map_eq_nil_iff.1 h0)
  obtain ⟨r', hr', h'⟩ := flavour_conservation q.anti (ds.map QuarkContent.anti) hd'
  refine ⟨r, r', hr, hr', ?_⟩
  have key : ∀ (ds : List QuarkContent) (s : QuarkState), Choice ds s → Choice (ds.map QuarkContent.anti) s.anti := by
    intro ds s h
    induction h with
    | nil =>
      have : QuarkState.anti (fun _ => 0) = fun _ => 0 := by funext i; simp [QuarkState.anti]
      rw [this]
      exact .nil
    | @cons q qs x s hx _ ih =>
      have : QuarkState.anti (fun i => x i + s i) = fun i => x.anti i + s.anti i := by
        funext i; simp only [QuarkState.anti]; ring
      rw [this]
      exact .cons (List.mem_map.2 ⟨x, hx, rfl⟩) ih
  have key' : ∀ (ds : List QuarkContent) (s : QuarkState), Choice (ds.map QuarkContent.anti) s.anti → Choice ds s := by
    intro ds s h
    have := key _ _ h
    rw [List.map_map, QuarkState.anti_anti] at this
    have e : (QuarkContent.anti ∘ QuarkContent.anti) = id := by funext x; exact QuarkContent.anti_anti x
    rwa [e, List.map_id] at this
  rw [Bool.eq_iff_iff, h, h']
  constructor
  · rintro ⟨s, hs, hc⟩
    obtain ⟨t, ht, rfl⟩ := List.mem_map.1 hs
    exact ⟨t, ht, key' ds t hc⟩
  · rintro ⟨s, hs, hc⟩
    exact ⟨s.anti, List.mem_map.2 ⟨s, hs, rfl⟩, key ds s hc⟩

/-- **C68**: agreement in quark content is symmetric and, for particles with a single state, equality; it is not transitive. -/
theorem flavour_agreement (q r : QuarkContent) : q.eq r = r.eq q ∧ (∀ x y, QuarkContent.eq [x] [y] = true ↔ x = y) := by
  constructor
  · rw [Bool.eq_iff_iff]
    unfold QuarkContent.eq
    simp only [List.any_eq_true, decide_eq_true_eq]
    constructor
    · rintro ⟨x, hx, y, hy, rfl⟩; exact ⟨x, hy, x, hx, rfl⟩
    · rintro ⟨x, hx, y, hy, rfl⟩; exact ⟨x, hy, x, hx, rfl⟩
  · intro x y
    simp [QuarkContent.eq]

theorem flavour_agreement_counterexample : ∃ p q r : QuarkContent, p.eq q = true ∧ q.eq r = true ∧ p.eq r = false :=
  ⟨[QuarkState.ofString "uS".toList], [QuarkState.ofString "uS".toList, QuarkState.ofString "sU".toList], [QuarkState.ofString "sU".toList], by decide +kernel⟩

/-! ### Antiparticles -/

/-- **C67**: the antiparticle of a particle with a distinct antiparticle has the opposite charge, identifier and quark numbers, and the same mass, width, spin and radius; the parity changes for fermions. -/
theorem antiparticle_properties (p : Props K) (h : p.hasDistinctAnti = true) : IsAnti p p.anti := by
  have e2 : p.anti = { p with
      chargeString := swapChars p.chargeString '+' '-'
      charge := p.charge * -1
      parity := if p.isFermion then p.parity * -1 else p.parity
      quarkContent := p.quarkContent.anti
      pdgID := p.pdgID * -1 } := by rw [Props.anti]; simp [h]
  rw [e2]
  constructor
  all_goals (try rfl)
  · show p.charge * -1 = _; ring
  · show p.pdgID * -1 = _; ring
  · show p.quarkContent.map QuarkState.anti = _
    congr 1
    funext s i
    simp [QuarkState.anti]
  · show (if p.isFermion = true then p.parity * -1 else p.parity) = _
    have : p.isFermion = true ↔ p.twoSpin % 2 = 1 ∧ 0 ≤ p.twoSpin := by
      unfold Props.isFermion
      simp only [decide_eq_true_eq]
      constructor
      · intro h
        have h2 := Int.tmod_def p.twoSpin 2
        by_cases h0 : 0 ≤ p.twoSpin
        · rw [Int.tmod_eq_emod_of_nonneg h0] at h
          exact ⟨h, h0⟩
        · exfalso
          have : p.twoSpin.tmod 2 ≤ 0 := by
            have := Int.neg_tmod (-p.twoSpin) 2
            rw [neg_neg] at this
            rw [this]
            have := Int.tmod_nonneg (a := -p.twoSpin) 2 (by omega)
            omega
          omega
      · rintro ⟨h, h0⟩
        rw [Int.tmod_eq_emod_of_nonneg h0]
        exact h
    by_cases hf : p.isFermion = true
    · rw [if_pos hf, if_pos (this.1 hf)]; ring
    · rw [if_neg hf, if_neg (fun x => hf (this.2 x))]

/-- **C26, C67**: the antiparticle of the antiparticle is the particle; a particle without a distinct antiparticle is its own. -/
theorem antiparticle_involution (p : Props K) : p.anti.anti = p ∧ (p.hasDistinctAnti = false → p.anti = p) := by
  refine ⟨Props.anti_anti p, ?_⟩
  intro h
  simp [Props.anti, h]

omit [Field K] in
/-- **C67**: names: of a particle with the format `F`, `bar` marks the antiparticle, and the signs of the charge are exchanged in any case. -/
theorem antiparticle_name (p : Props K) (hc : p.customName = false) (hid : 0 < p.pdgID) (h : p.hasDistinctAnti = true) :
    p.name = p.name_ ++ p.chargeString ∧ p.anti.name = p.name_ ++ (if p.aformat = 'F' then "bar".toList else []) ++ swapChars p.chargeString '+' '-' := by
  have hn : ¬ p.pdgID < 0 := by omega
  have hn' : p.pdgID * -1 < 0 := by omega
  constructor
  · simp [Props.name, hc, hn]
  · unfold Props.name Props.anti
    simp only [h, Bool.not_true, Bool.false_eq_true, if_false, hc, hn', true_and]
    split <;> simp

/-! ### The library for examples -/

/-- A library that reads decimal numbers without sign, and takes every real number as one. -/
def digits : Library ℚ := ⟨fun _ => 1, fun s => (s.foldl (fun (n : Int) (c : Char) => 10 * n + (c.toNat - 48)) 0, true)⟩

def linePi : Str := "1.3957018E+02 ,3.5E-04,3.5E-04,2.5452E-14  ,5.0E-18,5.0E-18,1  ,-,0   ,-, ,B,    211,   +, ,R,pi               ,uD              ".toList
def lineXiPi : Str := "9.990E+03     ,1.0E+01,1.0E+01,9.9E+09     ,3.0E+01,3.0E+01,1/2, ,1/2 ,-, ,F,       ,   -,3,R,XiPi             ,dss".toList
def lineXiPi0 : Str := "9.990E+03     ,1.0E+01,1.0E+01,9.9E+09     ,3.0E+01,3.0E+01,1/2, ,1/2 ,-, ,F,       ,   0,3,R,XiPi             ,uss".toList
def lineB1 : Str := "1.2295E+03    ,3.2E+00,3.2E+00,1.42E+02    ,9.0E+00,9.0E+00,1  ,+,1   ,+,-,B,  10113,   0, ,R,b(1)(1235)       ,(uU-dD)/sqrt(2) ".toList

/-! ### The database -/

/-- **C67**: the files are read for every contents, and with every particle that has a distinct antiparticle the antiparticle is entered. -/
theorem database_read (lib : Library K) (junk : Char × Char) (latex : Int → Option (Str × Str)) (lines : List Str) :
    ∃ l, readFile lib junk latex lines = some l ∧ ∀ p ∈ l, p.hasDistinctAnti = true → ∃ q ∈ l, SameButLabel q p.anti := readFile_spec lib junk latex lines

theorem readFile_cons (lib : Library K) (junk : Char × Char) (latex : Int → Option (Str × Str)) (l : Str) (ls : List Str) :
    readFile lib junk latex (l :: ls) =
      (if (l.filter fun c => c ≠ '\r') = [] ∨ (l.filter fun c => c ≠ '\r').head? = some '#' then some [] else readLine lib junk latex (l.filter fun c => c ≠ '\r')).bind
        fun a => (readFile lib junk latex ls).map fun b => a ++ b := by
  unfold readFile processLines
  rw [List.map_cons]
  obtain ⟨x, hx⟩ : ∃ x, List.filter (fun c => decide (c ≠ '\r')) l = x := ⟨_, rfl⟩
  rw [hx]
  obtain ⟨M, hM⟩ : ∃ M, ls.map (fun l => l.filter fun c => decide (c ≠ '\r')) = M := ⟨_, rfl⟩
  rw [hM]
  by_cases hp : x = [] ∨ x.head? = some '#'
  · rw [if_pos hp, List.filter_cons, if_neg (by rcases hp with h | h <;> simp [h])]
    simp only [Option.bind_some, List.nil_append]
    exact Option.map_id'.symm
  · rw [if_neg hp, List.filter_cons, if_pos (by simp only [not_or] at hp; simp [hp.1, hp.2]), List.mapM_cons]
    cases readLine lib junk latex x with
    | none => rfl
    | some r =>
      simp only [Option.bind_eq_bind, Option.bind_some]
      cases List.mapM (readLine lib junk latex) (M.filter fun l => decide (l.length ≠ 0) && decide (l.head? ≠ some '#')) <;> simp

/-- **C67**: empty lines and lines that begin with a star or a hash sign are comments: the file without them gives the same particles. -/
theorem database_comments (lib : Library K) (junk : Char × Char) (latex : Int → Option (Str × Str)) (lines : List Str) :
    readFile lib junk latex lines = readFile lib junk latex (lines.filter fun l => decide (l.head? ≠ none ∧ l.head? ≠ some '*' ∧ l.head? ≠ some '#')) := by
  induction lines with
  | nil => rfl
  | cons l ls ih =>
    by_cases hl : l.head? ≠ none ∧ l.head? ≠ some '*' ∧ l.head? ≠ some '#'
    · rw [List.filter_cons, if_pos (by simpa using hl), readFile_cons, readFile_cons, ih]
    · rw [List.filter_cons, if_neg (by simpa using hl), readFile_cons, ← ih]
      have : (if (l.filter fun c => decide (c ≠ '\r')) = [] ∨ (l.filter fun c => decide (c ≠ '\r')).head? = some '#' then some [] else readLine lib junk latex (l.filter fun c => decide (c ≠ '\r'))) = some [] := by
        match l with
        | [] => rfl
        | c :: l =>
          by_cases h1 : c = '*'
          · subst h1
            rw [List.filter_cons_of_pos (by simp), if_neg (by simp)]
            unfold readLine
            exact if_pos rfl
          · by_cases h3 : c = '#'
            · subst h3
              rw [List.filter_cons_of_pos (by simp)]; exact if_pos (Or.inr rfl)
            · exact absurd ⟨by simp, by simpa using h1, by simpa using h3⟩ hl
      rw [this]
      simp

/-- The title of the table is not read as a particle. -/
example : readFile digits (' ', ' ') (fun _ => none) ["*MASS(MeV) ,Err+".toList, linePi] = readFile digits (' ', ' ') (fun _ => none) [linePi] := by
  rw [database_comments, List.filter_cons_of_neg (by decide), List.filter_cons_of_pos (by decide +kernel), List.filter_nil]

theorem getlines_fields : ∀ (fs : List Str) (last : Str), (∀ f ∈ fs, ',' ∉ f) → ',' ∉ last → last ≠ [] → getlines ',' ((fs.flatMap fun f => f ++ [',']) ++ last) = fs ++ [last]
  | [], last, _, hl, hne => by
    simpa using getlines_single hl hne
  | f :: fs, last, h, hl, hne => by
    rw [List.flatMap_cons, List.append_assoc, List.append_assoc]
    show getlines ',' (f ++ ',' :: ((fs.flatMap fun f => f ++ [',']) ++ last)) = _
    rw [getlines_append (h f List.mem_cons_self), getlines_fields fs last (fun g hg => h g (List.mem_cons_of_mem _ hg)) hl hne]
    rfl

theorem slash_split (a b : Str) (ha : '/' ∉ a) : find (a ++ '/' :: b) ['/'] 0 = some a.length := by
  rw [find_eq_some_iff]
  refine ⟨Nat.zero_le _, by simp, by simp, ?_⟩
  intro q _ hq hp
  rw [List.drop_append_of_le_length (Nat.le_of_lt hq)] at hp
  obtain ⟨t, ht⟩ := hp
  obtain ⟨x, xs, hx⟩ : ∃ x xs, a.drop q = x :: xs := by
    cases h : a.drop q with
    | nil => rw [List.drop_eq_nil_iff] at h; omega
    | cons x xs => exact ⟨x, xs, rfl⟩
  rw [hx] at ht
  simp only [List.cons_append, List.nil_append, List.cons.injEq] at ht
  have : x ∈ a := List.mem_of_mem_drop (hx ▸ List.mem_cons_self)
  exact ha (ht.1 ▸ this)

theorem slash_none (s : Str) (hs : '/' ∉ s) : find s ['/'] 0 = none := by
  cases h : find s ['/'] 0 with
  | none => rfl
  | some p =>
    obtain ⟨_, _, ⟨t, ht⟩, _⟩ := find_some h
    exact absurd (List.mem_of_mem_drop (ht ▸ List.mem_append_left _ (List.mem_singleton.2 rfl))) hs

/-- **C67**: a line of the table with its 18 fields gives a particle with the mass, width, identifier, name and quark content of the first, fourth, 13th, 17th and 18th field, with charge and parity according to the
signs in the 14th and tenth field, and with the spin in the ninth field, which may be a whole number or a number of halves. Blanks around the fields do not matter. -/
theorem database_line (lib : Library K) (junk : Char × Char) (fs : List Str) (last : Str) (hf : fs.length = 17) (hc : ∀ f ∈ fs, ',' ∉ f) (hl : ',' ∉ last) (hne : last ≠ [])
    (hstar : (fs.getD 0 []).head? ≠ some '*') (h0 : fs.getD 0 [] ≠ []) :
    ∃ p, Props.ofString lib junk ((fs.flatMap fun f => f ++ [',']) ++ last) = some p ∧
      p.mass = lib.strtod (trim (fs.getD 0 [])) ∧ p.width = lib.strtod (trim (fs.getD 3 [])) ∧ p.pdgID = (lib.strtol (trim (fs.getD 12 []))).1 ∧ p.name_ = trim (fs.getD 16 []) ∧
      QuarkContent.ofString (trim last) = some p.quarkContent ∧
      (∀ sign value, (sign, value) ∈ [("+", 1), ("-", -1), ("0", 0), ("", 0), ("++", 2), ("--", (-2 : Int))] →
        (trim (fs.getD 13 []) = sign.toList → p.charge = value ∧ p.chargeString = sign.toList) ∧ (trim (fs.getD 9 []) = sign.toList → p.parity = value)) ∧
      (∀ a b, trim (fs.getD 8 []) = a ++ '/' :: b → '/' ∉ a → p.twoSpin = (lib.strtol a).1) ∧
      (trim (fs.getD 8 []) ≠ ['?'] → '/' ∉ trim (fs.getD 8 []) → p.twoSpin = 2 * (lib.strtol (trim (fs.getD 8 []))).1) ∧
      (∀ format, trim (fs.getD 11 []) = [format] → p.aformat = format) ∧ (trim (fs.getD 11 []) = [] → p.hasDistinctAnti = false) := by
  have hsplit : split ((fs.flatMap fun f => f ++ [',']) ++ last) ',' false = fs ++ [last] := by
    unfold split
    rw [getlines_fields fs last hc hl hne]
    simp
  obtain ⟨f0, fs', rfl⟩ : ∃ a as, fs = a :: as := by
    cases fs with
    | nil => simp at hf
    | cons a as => exact ⟨a, as, rfl⟩
  have h0' : f0 ≠ [] := h0
  obtain ⟨c, cs, rfl⟩ := List.exists_cons_of_ne_nil h0'
  have hcs : c ≠ '*' := by simpa using hstar
  obtain ⟨s, hs⟩ : ∃ s, (List.flatMap (fun f => f ++ [',']) ((c :: cs) :: fs')) ++ last = c :: s := ⟨_, rfl⟩
  rw [hs] at hsplit ⊢
  have hlen : ((((c :: cs) :: fs') ++ [last]).length) = 18 := by rw [List.length_append, hf]; rfl
  obtain ⟨q, hq, _⟩ := ofString_total (trim last)
  have hget : ∀ i, i < 17 → ((((c :: cs) :: fs') ++ [last]).map trim).getD i [] = trim (((c :: cs) :: fs').getD i []) := by
    intro i hi
    rw [List.getD_eq_getElem?_getD, List.getD_eq_getElem?_getD, List.getElem?_map, List.getElem?_append_left (by omega)]
    rw [List.getElem?_eq_getElem (by omega)]
    rfl
  have hget17 : ((((c :: cs) :: fs') ++ [last]).map trim).getD 17 [] = trim last := by
    rw [List.getD_eq_getElem?_getD, List.getElem?_map, List.getElem?_append_right (by omega), hf]
    rfl
  refine ⟨Props.ofFields lib (fun i => ((((c :: cs) :: fs') ++ [last]).map trim).getD i []) q, ?_, ?_⟩
  · unfold Props.ofString
    rw [if_neg (by simp), if_neg (by simpa using hcs), hsplit, if_neg (by rw [hlen]; simp)]
    simp only
    rw [hget17, hq]
    rfl
  · unfold Props.ofFields
    refine ⟨congrArg lib.strtod (hget 0 (by omega)), congrArg lib.strtod (hget 3 (by omega)), congrArg (fun x => (lib.strtol x).1) (hget 12 (by omega)), hget 16 (by omega), hq, ?_, ?_, ?_, ?_, ?_⟩
    · intro sign value hsv
      have key : chargeFromString sign.toList = value := by
        revert hsv
        simp only [List.mem_cons, Prod.mk.injEq, List.not_mem_nil, or_false]
        rintro (⟨rfl, rfl⟩ | ⟨rfl, rfl⟩ | ⟨rfl, rfl⟩ | ⟨rfl, rfl⟩ | ⟨rfl, rfl⟩ | ⟨rfl, rfl⟩) <;> decide
      refine ⟨fun e => ⟨?_, ?_⟩, fun e => ?_⟩
      · show chargeFromString _ = _
        beta_reduce
        rw [hget 13 (by omega), e, key]
      · show List.getD _ 13 [] = _
        rw [hget 13 (by omega), e]
      · show chargeFromString _ = _
        beta_reduce
        rw [hget 9 (by omega), e, key]
    · intro a b e ha
      show spinFromString lib (-1) _ = _
      beta_reduce
      rw [hget 8 (by omega), e]
      unfold spinFromString
      rw [if_neg (by intro e; have := congrArg (fun l : Str => decide ('/' ∈ l)) e; simp at this), slash_split a b ha]
      simp
    · intro h1 h2
      show spinFromString lib (-1) _ = _
      beta_reduce
      rw [hget 8 (by omega)]
      unfold spinFromString
      rw [if_neg h1, slash_none _ h2]
    · intro format e
      show (if _ then _ else _) = _
      beta_reduce
      rw [hget 11 (by omega), e]
      rfl
    · intro e
      unfold Props.hasDistinctAnti
      simp only
      have h11 : (((((c :: cs) :: fs') ++ [last]).map trim).getD 11 []).length ≠ 1 := by rw [hget 11 (by omega), e]; decide
      rw [if_neg h11]
      rfl

/-- The line of the charged pion. -/
example : ∃ (fs : List Str) (last : Str), linePi = (fs.flatMap fun f => f ++ [',']) ++ last ∧ fs.length = 17 ∧ (∀ f ∈ fs, ',' ∉ f) ∧ ',' ∉ last ∧ last ≠ [] ∧ (fs.getD 0 []).head? ≠ some '*' ∧ fs.getD 0 [] ≠ [] ∧
    trim (fs.getD 13 []) = "+".toList ∧ trim (fs.getD 8 []) = "0".toList ∧ trim (fs.getD 11 []) = ['B'] :=
  ⟨["1.3957018E+02 ", "3.5E-04", "3.5E-04", "2.5452E-14  ", "5.0E-18", "5.0E-18", "1  ", "-", "0   ", "-", " ", "B", "    211", "   +", " ", "R", "pi               "].map String.toList,
    "uD              ".toList, by decide +kernel⟩

/-- **C67**: a name or an identifier finds the last particle that was entered with it, and nothing if there is none. -/
theorem database_lookup (l : List (Props K)) (name : Str) (id : Int) :
    (makeMappings l).find name = lastWith (fun p => decide (p.name = name)) l ∧ (makeMappings l).findID id = lastWith (fun p => decide (p.pdgID = id)) l :=
  ⟨find_spec l name, findID_spec l id⟩

/-- **C67 (partial)**: if no two particles have the same name, each is found by its name; if no two have the same identifier, each is found by its identifier, and the negative identifier finds the antiparticle,
which its name finds as well. The names and identifiers of the files are not all different: see the counterexamples. -/
theorem database_antiparticle_partial (lib : Library K) (junk : Char × Char) (latex : Int → Option (Str × Str)) (lines : List Str) (l : List (Props K)) (hl : readFile lib junk latex lines = some l)
    (p : Props K) (hp : p ∈ l) :
    ((∀ q ∈ l, ∀ r ∈ l, q.name = r.name → q = r) → (makeMappings l).find p.name = some p ∧
      (p.hasDistinctAnti = true → ∃ q, (makeMappings l).find p.anti.name = some q ∧ SameButLabel q p.anti)) ∧
    ((∀ q ∈ l, ∀ r ∈ l, q.pdgID = r.pdgID → q = r) → (makeMappings l).findID p.pdgID = some p ∧
      (p.hasDistinctAnti = true → ∃ q, (makeMappings l).findID (-p.pdgID) = some q ∧ SameButLabel q p.anti ∧ IsAnti p q)) := by
  obtain ⟨l', hl', hpair⟩ := readFile_spec lib junk latex lines
  rw [hl] at hl'
  cases hl'
  constructor
  · intro hu
    constructor
    · rw [find_spec]
      exact lastWith_unique _ l p hp (by simp) (fun q hq h => hu q hq p hp (by simpa using h))
    · intro hd
      obtain ⟨q, hq, hs⟩ := hpair p hp hd
      refine ⟨q, ?_, hs⟩
      rw [find_spec]
      exact lastWith_unique _ l q hq (by simpa using same_name hs) (fun r hr h => hu r hr q hq ((by simpa using h : r.name = p.anti.name).trans (same_name hs).symm))
  · intro hu
    constructor
    · rw [findID_spec]
      exact lastWith_unique _ l p hp (by simp) (fun q hq h => hu q hq p hp (by simpa using h))
    · intro hd
      obtain ⟨q, hq, hs⟩ := hpair p hp hd
      have ha := antiparticle_properties p hd
      refine ⟨q, ?_, hs, ?_⟩
      · rw [findID_spec]
        have e : q.pdgID = -p.pdgID := (same_pdgID hs).trans ha.pdgID
        exact lastWith_unique _ l q hq (by simpa using e) (fun r hr h => hu r hr q hq ((by simpa using h : r.pdgID = -p.pdgID).trans e.symm))
      · obtain ⟨_⟩ := q
        unfold SameButLabel at hs
        simp only [Props.mk.injEq] at hs
        constructor
        · exact hs.1.trans ha.mass
        · exact hs.2.2.2.1.trans ha.width
        · exact hs.2.2.2.2.2.2.2.2.2.2.2.2.2.1.trans ha.spin
        · exact hs.2.2.2.2.2.2.1.trans ha.radius
        · exact hs.2.2.2.2.2.2.2.2.2.2.2.2.1.trans ha.charge
        · exact hs.2.2.2.2.2.2.2.2.2.2.1.trans ha.pdgID
        · simp only [hs]
          exact ha.quarks
        · exact hs.2.2.2.2.2.2.2.2.1.trans ha.parity
        · exact hs.2.2.2.2.2.2.2.1.trans ha.gparity
        · exact hs.2.2.2.2.2.2.2.2.2.1.trans ha.cparity

/-- The pion is read with its antiparticle, with different names and identifiers. -/
example : ((readFile digits (' ', ' ') (fun _ => none) [linePi]).map fun l => l.map fun p => (String.ofList p.name, p.pdgID, p.charge, p.hasDistinctAnti)) = some [("pi+", 211, 1, true), ("pi-", -211, -1, true)] := by
  decide +kernel

/-- **C67**: without an identifier, a particle does not find its antiparticle by the negative identifier: two particles of the files, of which the first one's charge is −1; the negative identifier gives charge 0. -/
theorem database_antiparticle_counterexample : ∃ l p q, readFile digits (' ', ' ') (fun _ => none) [lineXiPi, lineXiPi0] = some l ∧ p ∈ l ∧ p.hasDistinctAnti = true ∧ p.charge = -1 ∧
    (makeMappings l).findID (-p.pdgID) = some q ∧ q.charge = 0 := by
  have h : (match readFile digits (' ', ' ') (fun _ => none) [lineXiPi, lineXiPi0] with
      | some l => l.any fun p => p.hasDistinctAnti && decide (p.charge = -1) && (match lastWith (fun q => decide (q.pdgID = -p.pdgID)) l with
        | some q => decide (q.charge = 0)
        | none => false)
      | none => false) = true := by decide +kernel
  split at h
  · rename_i l hl
    rw [List.any_eq_true] at h
    obtain ⟨p, hp, h⟩ := h
    rw [Bool.and_eq_true, Bool.and_eq_true] at h
    obtain ⟨⟨h1, h2⟩, h⟩ := h
    split at h
    · rename_i q hq
      exact ⟨l, p, q, hl, hp, h1, by simpa using h2, by rw [findID_spec]; exact hq, by simpa using h⟩
    · cases h
  · cases h

/-- **C67**: a neutral particle with a distinct antiparticle of the format `B` is not found by its name: the name finds the antiparticle. -/
theorem database_name_counterexample : ∃ l p q, readFile digits (' ', ' ') (fun _ => none) [lineB1] = some l ∧ p ∈ l ∧ p.pdgID = 10113 ∧ (makeMappings l).find p.name = some q ∧ q.pdgID = -10113 := by
  have h : (match readFile digits (' ', ' ') (fun _ => none) [lineB1] with
      | some l => l.any fun p => decide (p.pdgID = 10113) && (match lastWith (fun q => decide (q.name = p.name)) l with
        | some q => decide (q.pdgID = -10113)
        | none => false)
      | none => false) = true := by decide +kernel
  split at h
  · rename_i l hl
    rw [List.any_eq_true] at h
    obtain ⟨p, hp, h⟩ := h
    rw [Bool.and_eq_true] at h
    obtain ⟨h1, h⟩ := h
    split at h
    · rename_i q hq
      exact ⟨l, p, q, hl, hp, by simpa using h1, by rw [find_spec]; exact hq, by simpa using h⟩
    · cases h
  · cases h

/-! ### Particles and aliases from the options -/

/-- **C67**: an alias is found under the new name with the properties of the particle, has no distinct antiparticle, and no other name changes its meaning, whatever the options before. -/
theorem database_alias (lib : Library K) (junk : Char × Char) (db : DB K) (hdb : Reachable lib junk db) (name other : Str) (p : Props K) (hp : db.find name = some p) :
    (∃ q, (db.makeAlias name other).find other = some q ∧ q.name = other ∧ q.anti = q ∧
      q.mass = p.mass ∧ q.width = p.width ∧ q.twoSpin = p.twoSpin ∧ q.charge = p.charge ∧ q.pdgID = p.pdgID ∧ q.quarkContent = p.quarkContent ∧ q.parity = p.parity) ∧
    ∀ n, n ≠ other → (db.makeAlias name other).find n = db.find n := by
  have hs := reachable_sound hdb
  unfold DB.makeAlias
  rw [hp]
  constructor
  · exact ⟨_, find_new_same other _, rfl, rfl, rfl, rfl, rfl, rfl, rfl, rfl, rfl⟩
  · intro n hn
    exact find_new_other hs other n hn _

/-- **C67**: after a line of the options that gives properties of a particle, its name finds the particle with the values that stand last for each key and the former values otherwise, or those of an empty
particle; no other name changes its meaning, whatever the options before. -/
theorem database_properties [CharZero K] (lib : Library K) (junk : Char × Char) (db : DB K) (hdb : Reachable lib junk db) (keyword name : Str) (pairs : List (Str × Str)) :
    ∃ db' p, db.addParticle lib junk (keyword :: name :: words pairs) = some db' ∧ db'.find name = some p ∧
      (∀ n, n ≠ name → db'.find n = db.find n) ∧
      p.getMass = ((lastValue "mass".toList pairs).map lib.strtod).getD ((db.find name).elim 0 Props.getMass) ∧
      p.getWidth = ((lastValue "width".toList pairs).map lib.strtod).getD ((db.find name).elim 0 Props.getWidth) ∧
      p.parity = ((lastValue "parity".toList pairs).map chargeFromString).getD ((db.find name).elim 0 Props.parity) ∧
      p.charge = ((lastValue "charge".toList pairs).map chargeFromString).getD ((db.find name).elim 0 Props.charge) ∧
      p.twoSpin = ((lastValue "spin".toList pairs).map (spinFromString lib 0)).getD ((db.find name).elim 0 Props.twoSpin) ∧
      p.pdgID = (db.find name).elim 0 Props.pdgID := by
  have hs := reachable_sound hdb
  have hk : (1 / 1000 : K) ≠ 0 := by
    have : (1000 : K) ≠ 0 := by exact_mod_cast (by decide : (1000 : Nat) ≠ 0)
    exact div_ne_zero one_ne_zero this
  -- the values after the loop
  have key : ∀ p0 p : Props K, setProperties lib (words pairs) p0 = some p →
      p.getMass = ((lastValue "mass".toList pairs).map lib.strtod).getD p0.getMass ∧
      p.getWidth = ((lastValue "width".toList pairs).map lib.strtod).getD p0.getWidth ∧
      p.parity = ((lastValue "parity".toList pairs).map chargeFromString).getD p0.parity ∧
      p.charge = ((lastValue "charge".toList pairs).map chargeFromString).getD p0.charge ∧
      p.twoSpin = ((lastValue "spin".toList pairs).map (spinFromString lib 0)).getD p0.twoSpin ∧
      p.pdgID = p0.pdgID := by
    intro p0 p h
    refine ⟨?_, ?_, ?_, ?_, ?_, ?_⟩
    · refine setProperties_field lib "mass".toList Props.getMass lib.strtod ?_ ?_ pairs p0 p h
      · intro a b v hv
        unfold Props.setProperty at hv
        rw [if_pos rfl] at hv
        cases hv
        unfold Props.getMass
        exact div_mul_cancel₀ _ hk
      · intro a b k v hne hv
        unfold Props.setProperty at hv
        rw [if_neg hne] at hv
        obtain ⟨c, hc, _⟩ := ofString_total v
        rw [hc] at hv
        split_ifs at hv <;> cases hv <;> rfl
    · refine setProperties_field lib "width".toList Props.getWidth lib.strtod ?_ ?_ pairs p0 p h
      · intro a b v hv
        unfold Props.setProperty at hv
        rw [if_neg (by decide), if_neg (by decide), if_pos rfl] at hv
        cases hv
        unfold Props.getWidth
        exact div_mul_cancel₀ _ hk
      · intro a b k v hne hv
        unfold Props.setProperty at hv
        obtain ⟨c, hc, _⟩ := ofString_total v
        rw [hc] at hv
        split_ifs at hv <;> cases hv <;> rfl
    · refine setProperties_field lib "parity".toList Props.parity chargeFromString ?_ ?_ pairs p0 p h
      · intro a b v hv
        unfold Props.setProperty at hv
        rw [if_neg (by decide), if_neg (by decide), if_neg (by decide), if_neg (by decide), if_pos rfl] at hv
        cases hv
        rfl
      · intro a b k v hne hv
        unfold Props.setProperty at hv
        obtain ⟨c, hc, _⟩ := ofString_total v
        rw [hc] at hv
        split_ifs at hv <;> cases hv <;> rfl
    · refine setProperties_field lib "charge".toList Props.charge chargeFromString ?_ ?_ pairs p0 p h
      · intro a b v hv
        unfold Props.setProperty at hv
        rw [if_neg (by decide), if_neg (by decide), if_neg (by decide), if_neg (by decide), if_neg (by decide), if_pos rfl] at hv
        cases hv
        rfl
      · intro a b k v hne hv
        unfold Props.setProperty at hv
        obtain ⟨c, hc, _⟩ := ofString_total v
        rw [hc] at hv
        split_ifs at hv <;> cases hv <;> rfl
    · refine setProperties_field lib "spin".toList Props.twoSpin (spinFromString lib 0) ?_ ?_ pairs p0 p h
      · intro a b v hv
        unfold Props.setProperty at hv
        rw [if_neg (by decide), if_neg (by decide), if_neg (by decide), if_pos rfl] at hv
        cases hv
        rfl
      · intro a b k v hne hv
        unfold Props.setProperty at hv
        obtain ⟨c, hc, _⟩ := ofString_total v
        rw [hc] at hv
        split_ifs at hv <;> cases hv <;> rfl
    · refine setProperties_unchanged lib Props.pdgID ?_ pairs p0 p h
      intro a b k v hv
      unfold Props.setProperty at hv
      obtain ⟨c, hc, _⟩ := ofString_total v
      rw [hc] at hv
      split_ifs at hv <;> cases hv <;> rfl
  unfold DB.addParticle
  simp only [List.getElem?_cons_succ, List.getElem?_cons_zero, List.drop_succ_cons, List.drop_zero, Option.bind_eq_bind, Option.bind_some]
  cases hi : db.byName name with
  | some i =>
    have hb := hs.bound name i hi
    have hf : db.find name = some db.heap[i] := by unfold DB.find; rw [hi]; simp [hb]
    obtain ⟨p, hp⟩ := setProperties_total lib pairs db.heap[i]
    refine ⟨{ db with heap := db.heap.set i p, byName := Function.update db.byName name (some i) }, p, by simp [hb, hp], find_set_same hs name i hi p,
      fun n hn => find_set_other hs name n hn i hi p, ?_⟩
    rw [hf]
    exact key _ p hp
  | none =>
    have hf : db.find name = none := by unfold DB.find; rw [hi]; rfl
    have h0 : (Props.empty junk : Props K).setProperty lib "name".toList name = some { (Props.empty junk : Props K) with name_ := name } := by
      unfold Props.setProperty
      rw [if_neg (by decide), if_pos rfl]
    obtain ⟨p, hp⟩ := setProperties_total lib pairs { (Props.empty junk : Props K) with name_ := name }
    refine ⟨{ db with heap := db.heap ++ [p], byName := Function.update db.byName name (some db.heap.length) }, p, by rw [h0]; simp only [Option.bind_some]; rw [hp]; rfl, find_new_same name p,
      fun n hn => find_new_other hs name n hn p, ?_⟩
    rw [hf]
    have := key _ p hp
    simpa [Props.getMass, Props.getWidth, Props.empty] using this

example : ∃ p, (makeMappings ([] : List (Props ℚ))).addParticle digits (' ', ' ') ["ParticleProperties".toList, "X".toList, "mass".toList, "1".toList] = some p ∧
    lastValue "mass".toList [("mass".toList, "1".toList)] = some "1".toList := ⟨_, rfl, by decide⟩

/-- **C67**: properties in the options change the particle but not its antiparticle: after a mass of the pion is given, the two masses differ. -/
theorem database_properties_counterexample : ∃ (lib : Library ℚ) (l : List (Props ℚ)) (db : DB ℚ) (p q : Props ℚ), readFile lib (' ', ' ') (fun _ => none) [linePi] = some l ∧
    (makeMappings l).addParticle lib (' ', ' ') ["ParticleProperties".toList, "pi+".toList, "mass".toList, "2".toList] = some db ∧
    db.find "pi+".toList = some p ∧ db.find "pi-".toList = some q ∧ p.getMass = 2 ∧ q.getMass ≠ 2 := by
  let lib : Library ℚ := ⟨fun s => if s = "2".toList then 2 else 1, digits.strtol⟩
  have h : (match readFile lib (' ', ' ') (fun _ => none) [linePi] with
      | some l => (match (makeMappings l).addParticle lib (' ', ' ') ["ParticleProperties".toList, "pi+".toList, "mass".toList, "2".toList] with
        | some db => (match db.find "pi+".toList, db.find "pi-".toList with
          | some p, some q => decide (p.getMass = 2) && decide (q.getMass ≠ 2)
          | _, _ => false)
        | none => false)
      | none => false) = true := by decide +kernel
  split at h
  · rename_i l hl
    split at h
    · rename_i db hdb
      split at h
      · rename_i p q hp hq
        rw [Bool.and_eq_true, decide_eq_true_eq, decide_eq_true_eq] at h
        exact ⟨lib, l, db, p, q, hl, hdb, hp, hq, h.1, h.2⟩
      · cases h
    · cases h
  · cases h

/-- **C67**: a key without a value makes the program read beyond the words of the line. -/
theorem database_odd_counterexample (lib : Library K) (junk : Char × Char) (name key : Str) : (makeMappings ([] : List (Props K))).addParticle lib junk ["ParticleProperties".toList, name, key] = none := by
  unfold DB.addParticle
  have : (makeMappings ([] : List (Props K))).byName name = none := rfl
  simp only [List.getElem?_cons_succ, List.getElem?_cons_zero, List.drop_succ_cons, List.drop_zero, Option.bind_eq_bind, Option.bind_some, this]
  obtain ⟨q, hq⟩ := setProperty_total lib (Props.empty junk : Props K) "name".toList name
  rw [hq]
  rfl

end AmpGen.PDG
