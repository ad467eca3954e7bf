import Verif.PDG.Spec
import Verif.Strings.Lemmas
import Verif.Strings.Props
import Mathlib.Tactic.Ring
namespace AmpGen.PDG
open AmpGen.Strings Spec

variable {K : Type} [Field K]

/-! ### Quarks -/

theorem QuarkState.anti_anti (q : QuarkState) : q.anti.anti = q := by
  funext i; simp [QuarkState.anti]

theorem QuarkContent.anti_anti (q : QuarkContent) : q.anti.anti = q := by
  unfold QuarkContent.anti
  rw [List.map_map]
  conv_rhs => rw [← List.map_id q]
  congr 1
  funext x
  exact QuarkState.anti_anti x

/-- Removing a pattern ends. -/
theorem remove_total (pat : Str) (hp : pat ≠ []) : ∀ (fuel : Nat) (s : Str) (start : Nat), s.length < fuel → ∃ t, replaceLoop pat [] fuel s start = some t
  | 0, _, _, h => by omega
  | fuel + 1, s, start, h => by
    unfold replaceLoop
    cases hf : find s pat start with
    | none => exact ⟨s, rfl⟩
    | some p =>
      have hb := find_some hf
      apply remove_total pat hp fuel
      have h1 : 0 < pat.length := List.length_pos_iff.2 hp
      obtain ⟨_, hle, ⟨t, ht⟩, _⟩ := hb
      have h3 : p + pat.length ≤ s.length := by
        have hl := congrArg List.length ht
        simp at hl
        omega
      simp only [List.append_nil, List.length_append, List.length_take, List.length_drop]
      omega

theorem ofString_total (str : Str) : ∃ q, QuarkContent.ofString str = some q ∧ q ≠ [] := by
  unfold QuarkContent.ofString
  split
  · exact ⟨_, rfl, by simp⟩
  · obtain ⟨t, ht⟩ := remove_total "sqrt".toList (by decide) (str.length + 1) str 0 (by omega)
    have h : replaceAll (str.length + 1) str "sqrt".toList [] = some t := by
      unfold replaceAll
      rw [if_neg (by decide)]
      exact ht
    rw [h]
    refine ⟨_, rfl, ?_⟩
    split
    · simp
    · rename_i h
      intro h0
      apply h
      rw [h0]
      rfl

theorem ofString_aux (i : Fin 6) (small capital : Char) (hs : gNames i = small) (hl : small.isLower = true) (hc : ∀ c : Char, c.toLower = small ↔ c = small ∨ c = capital) (hcap : capital.isLower = false) (hne : small ≠ capital) :
    ∀ (str : Str) (q : QuarkState), (str.foldl (fun (q : QuarkState) (c : Char) => fun i => if gNames i = c.toLower then q i + (if c.isLower then 1 else -1) else q i) q) i = q i + flavour small capital str
  | [], q => by simp [flavour]
  | c :: cs, q => by
    rw [List.foldl_cons, ofString_aux i small capital hs hl hc hcap hne cs]
    simp only [hs, flavour, List.count_cons]
    by_cases h1 : c = small
    · subst h1
      rw [if_pos ((hc c).2 (Or.inl rfl)).symm, if_pos hl]
      have : ¬ (c == capital) = true := by simpa using hne
      simp only [beq_self_eq_true, if_true, this]
      push_cast
      simp
      ring
    · by_cases h2 : c = capital
      · subst h2
        rw [if_pos ((hc c).2 (Or.inr rfl)).symm, hcap]
        have : ¬ (c == small) = true := by simpa using h1
        simp only [beq_self_eq_true, if_true, this]
        push_cast
        simp
        ring
      · have h3 : ¬ small = c.toLower := by
          intro h
          rcases (hc c).1 h.symm with h | h
          · exact h1 h
          · exact h2 h
        rw [if_neg h3]
        have h4 : ¬ (c == small) = true := by simpa using h1
        have h5 : ¬ (c == capital) = true := by simpa using h2
        simp only [h4, h5]
        simp

omit [Field K] in
theorem combine_add_spec (q r : QuarkContent) (hq : q ≠ []) (hr : r ≠ []) (op : QuarkState → QuarkState → QuarkState) :
    QuarkContent.combine op q r = some (q.flatMap fun x => r.map fun y => op x y) := by
  unfold QuarkContent.combine
  split
  · rename_i h
    match q, r, hq, hr with
    | [x], [y], _, _ => simp
    | [], _, hq, _ => exact absurd rfl hq
    | _ :: _, [], _, hr => exact absurd rfl hr
    | _ :: _ :: _, _ :: _, _, _ => simp [Nat.add_mul, Nat.mul_add] at h; omega
    | [_], _ :: _ :: _, _, _ => simp at h
  · rfl

omit [Field K] in
theorem flatMap_ne_nil (q r : QuarkContent) (hq : q ≠ []) (hr : r ≠ []) (op : QuarkState → QuarkState → QuarkState) : (q.flatMap fun x => r.map fun y => op x y) ≠ [] := by
  obtain ⟨x, hx⟩ := List.exists_mem_of_ne_nil _ hq
  obtain ⟨y, hy⟩ := List.exists_mem_of_ne_nil _ hr
  exact List.ne_nil_of_mem (List.mem_flatMap.2 ⟨x, hx, List.mem_map.2 ⟨y, hy, rfl⟩⟩)

/-! ### Properties -/

theorem anti_hasDistinctAnti (p : Props K) : p.anti.hasDistinctAnti = p.hasDistinctAnti := by
  unfold Props.anti
  split <;> rfl

theorem Props.anti_anti (p : Props K) : p.anti.anti = p := by
  cases h : p.hasDistinctAnti with
  | false => simp [Props.anti, h]
  | true =>
    have h2 : p.anti.hasDistinctAnti = true := by rw [anti_hasDistinctAnti, h]
    have e1 : p.anti.anti = { p.anti with
      chargeString := swapChars p.anti.chargeString '+' '-'
      charge := p.anti.charge * -1
      parity := if p.anti.isFermion then p.anti.parity * -1 else p.anti.parity
      quarkContent := p.anti.quarkContent.anti
      pdgID := p.anti.pdgID * -1 } := by rw [Props.anti]; simp [h2]
    have e2 : p.anti = { p with
      chargeString := swapChars p.chargeString '+' '-'
      charge := p.charge * -1
      parity := if p.isFermion then p.parity * -1 else p.parity
      quarkContent := p.quarkContent.anti
      pdgID := p.pdgID * -1 } := by rw [Props.anti]; simp [h]
    rw [e1, e2]
    cases p
    simp only [Props.isFermion, Props.mk.injEq, swapChars_involutive, QuarkContent.anti_anti, true_and, and_true]
    refine ⟨?_, by ring, by ring⟩
    rename_i twoSpin _ _ _ _ _ _ _ _ _
    by_cases h0 : twoSpin.tmod 2 = 1 <;> simp [h0]

/-! ### The list -/

theorem parse_total (lib : Library K) (junk : Char × Char) (line : Str) : ∃ p, Props.ofString lib junk line = some p := by
  unfold Props.ofString
  obtain ⟨q, hq, _⟩ := ofString_total (((split line ',' false).map trim).getD 17 [])
  split
  · exact ⟨_, rfl⟩
  split
  · exact ⟨_, rfl⟩
  split
  · exact ⟨_, rfl⟩
  simp only [hq]
  exact ⟨_, rfl⟩

/-- The list contains with every particle its antiparticle. -/
def Paired (l : List (Props K)) : Prop := ∀ p ∈ l, p.hasDistinctAnti = true → ∃ q ∈ l, SameButLabel q p.anti

omit [Field K] in
theorem same_anti {p q : Props K} (h : SameButLabel p q) : SameButLabel p.anti q.anti := by
  obtain ⟨_⟩ := p
  obtain ⟨_⟩ := q
  unfold SameButLabel at *
  simp only [Props.mk.injEq] at h
  obtain ⟨rfl, rfl, rfl, rfl, rfl, rfl, rfl, rfl, rfl, rfl, rfl, rfl, rfl, rfl, rfl, rfl, -, rfl, rfl, rfl, rfl, rfl, rfl⟩ := h
  unfold Props.anti Props.hasDistinctAnti Props.isFermion
  simp only
  split <;> rfl

omit [Field K] in
theorem same_name {p q : Props K} (h : SameButLabel p q) : p.name = q.name := by
  obtain ⟨_⟩ := p
  obtain ⟨_⟩ := q
  unfold SameButLabel at *
  simp only [Props.mk.injEq] at h
  obtain ⟨rfl, rfl, rfl, rfl, rfl, rfl, rfl, rfl, rfl, rfl, rfl, rfl, rfl, rfl, rfl, rfl, -, rfl, rfl, rfl, rfl, rfl, rfl⟩ := h
  rfl

omit [Field K] in
theorem same_pdgID {p q : Props K} (h : SameButLabel p q) : p.pdgID = q.pdgID := by
  obtain ⟨_⟩ := p
  obtain ⟨_⟩ := q
  unfold SameButLabel at *
  simp only [Props.mk.injEq] at h
  simp [h]

omit [Field K] in
theorem same_trans {p q r : Props K} (h : SameButLabel p q) (h' : SameButLabel q r) : SameButLabel p r := Eq.trans h h'

omit [Field K] in
theorem same_symm {p q : Props K} (h : SameButLabel p q) : SameButLabel q p := Eq.symm h

omit [Field K] in
theorem sameButLabel_setLabel (p : Props K) (l : Option Str) : SameButLabel (p.setLabel l) p := by
  unfold Props.setLabel
  cases l <;> rfl

theorem insertWithAnti_spec (latex : Int → Option (Str × Str)) (p : Props K) : Paired (insertWithAnti latex p) := by
  unfold insertWithAnti
  simp only
  obtain ⟨P, hP⟩ : ∃ P, p.setLabel ((latex p.pdgID).map Prod.fst) = P := ⟨_, rfl⟩
  obtain ⟨l, hl⟩ : ∃ l, (latex p.pdgID).map Prod.snd = l := ⟨_, rfl⟩
  rw [hP, hl]
  split
  · have hs : SameButLabel (P.anti.setLabel l) P.anti := sameButLabel_setLabel _ _
    intro x hx _
    simp only [List.mem_cons, List.not_mem_nil, or_false] at hx
    rcases hx with rfl | rfl
    · exact ⟨_, by simp, hs⟩
    · refine ⟨P, by simp, ?_⟩
      have := same_anti hs
      rw [Props.anti_anti] at this
      exact same_symm this
  · rename_i hd
    intro x hx hx'
    rw [List.mem_singleton] at hx
    subst hx
    exact absurd hx' hd

theorem readLine_spec (lib : Library K) (junk : Char × Char) (latex : Int → Option (Str × Str)) (line : Str) :
    ∃ l, readLine lib junk latex line = some l ∧ Paired l := by
  unfold readLine
  obtain ⟨p, hp⟩ := parse_total lib junk line
  split
  · exact ⟨[], rfl, by intro p hp; cases hp⟩
  rw [hp, Option.map_some]
  refine ⟨_, rfl, ?_⟩
  split
  · intro p hp; cases hp
  · exact insertWithAnti_spec latex p

theorem mapM_total {α β : Type} (f : α → Option β) (P : β → Prop) (h : ∀ a, ∃ b, f a = some b ∧ P b) : ∀ l : List α, ∃ r, l.mapM f = some r ∧ ∀ b ∈ r, P b
  | [] => ⟨[], by simp, by simp⟩
  | a :: l => by
    obtain ⟨b, hb, hP⟩ := h a
    obtain ⟨r, hr, hR⟩ := mapM_total f P h l
    refine ⟨b :: r, by simp [hb, hr], ?_⟩
    intro x hx
    rcases List.mem_cons.1 hx with rfl | hx
    · exact hP
    · exact hR x hx

theorem readFile_spec (lib : Library K) (junk : Char × Char) (latex : Int → Option (Str × Str)) (lines : List Str) :
    ∃ l, readFile lib junk latex lines = some l ∧ Paired l := by
  unfold readFile
  obtain ⟨r, hr, hR⟩ := mapM_total (readLine lib junk latex) Paired (readLine_spec lib junk latex) (processLines lines)
  refine ⟨r.flatten, by rw [hr]; rfl, ?_⟩
  intro p hp hd
  obtain ⟨l, hl, hpl⟩ := List.mem_flatten.1 hp
  obtain ⟨q, hq, hs⟩ := hR l hl p hpl hd
  exact ⟨q, List.mem_flatten.2 ⟨l, hl, hq⟩, hs⟩

theorem Paired.append {l r : List (Props K)} (hl : Paired l) (hr : Paired r) : Paired (l ++ r) := by
  intro p hp hd
  rcases List.mem_append.1 hp with hp | hp
  · obtain ⟨q, hq, hs⟩ := hl p hp hd
    exact ⟨q, List.mem_append_left _ hq, hs⟩
  · obtain ⟨q, hq, hs⟩ := hr p hp hd
    exact ⟨q, List.mem_append_right _ hq, hs⟩

theorem mappings_heap (l : List (Props K × Nat)) : ∀ db : DB K, (l.foldl (fun (db : DB K) (it : Props K × Nat) =>
    { db with byName := Function.update db.byName it.1.name (some it.2), byID := Function.update db.byID it.1.pdgID (some it.2) }) db).heap = db.heap := by
  induction l with
  | nil => intro db; rfl
  | cons x l ih => intro db; rw [List.foldl_cons, ih]

theorem mappings_byName (n : Str) (l : List (Props K × Nat)) : ∀ db : DB K, (l.foldl (fun (db : DB K) (it : Props K × Nat) =>
    { db with byName := Function.update db.byName it.1.name (some it.2), byID := Function.update db.byID it.1.pdgID (some it.2) }) db).byName n =
    ((l.reverse.find? fun it => decide (it.1.name = n)).map Prod.snd).or (db.byName n) := by
  induction l with
  | nil => intro db; simp
  | cons x l ih =>
    intro db
    rw [List.foldl_cons, ih]
    simp only [List.reverse_cons, List.find?_append]
    cases h : l.reverse.find? fun it => decide (it.1.name = n) with
    | some y => simp
    | none =>
      by_cases hx : x.1.name = n
      · subst hx
        simp
      · have : ¬ n = x.1.name := fun h => hx h.symm
        simp [Function.update, hx, this]

theorem mappings_byID (n : Int) (l : List (Props K × Nat)) : ∀ db : DB K, (l.foldl (fun (db : DB K) (it : Props K × Nat) =>
    { db with byName := Function.update db.byName it.1.name (some it.2), byID := Function.update db.byID it.1.pdgID (some it.2) }) db).byID n =
    ((l.reverse.find? fun it => decide (it.1.pdgID = n)).map Prod.snd).or (db.byID n) := by
  induction l with
  | nil => intro db; simp
  | cons x l ih =>
    intro db
    rw [List.foldl_cons, ih]
    simp only [List.reverse_cons, List.find?_append]
    cases h : l.reverse.find? fun it => decide (it.1.pdgID = n) with
    | some y => simp
    | none =>
      by_cases hx : x.1.pdgID = n
      · subst hx
        simp
      · have : ¬ n = x.1.pdgID := fun h => hx h.symm
        simp [Function.update, hx, this]

omit [Field K] in
theorem find_zipIdx (P : Props K → Bool) (l : List (Props K)) :
    ((l.zipIdx.reverse.find? fun it => P it.1).map Prod.snd).bind (fun i => l[i]?) = lastWith P l := by
  unfold lastWith
  have hrev : l.reverse = l.zipIdx.reverse.map Prod.fst := by simp
  rw [hrev, List.find?_map]
  cases h : l.zipIdx.reverse.find? fun it => P it.1 with
  | none =>
    have : List.find? (P ∘ Prod.fst) l.zipIdx.reverse = none := h
    rw [this]; rfl
  | some x =>
    have h' : List.find? (P ∘ Prod.fst) l.zipIdx.reverse = some x := h
    rw [h']
    have hm := List.mem_of_find?_eq_some h
    rw [List.mem_reverse, List.mem_zipIdx_iff_getElem?] at hm
    simpa using hm

theorem find_spec (l : List (Props K)) (n : Str) : (makeMappings l).find n = lastWith (fun p => decide (p.name = n)) l := by
  unfold DB.find makeMappings
  rw [mappings_byName, mappings_heap]
  simp only [Option.or_none]
  exact find_zipIdx (fun p => decide (p.name = n)) l

theorem findID_spec (l : List (Props K)) (n : Int) : (makeMappings l).findID n = lastWith (fun p => decide (p.pdgID = n)) l := by
  unfold DB.findID makeMappings
  rw [mappings_byID, mappings_heap]
  simp only [Option.or_none]
  exact find_zipIdx (fun p => decide (p.pdgID = n)) l

omit [Field K] in
theorem lastWith_unique (P : Props K → Bool) (l : List (Props K)) (p : Props K) (hp : p ∈ l) (hP : P p = true) (hu : ∀ q ∈ l, P q = true → q = p) : lastWith P l = some p := by
  unfold lastWith
  cases h : l.reverse.find? P with
  | none =>
    rw [List.find?_eq_none] at h
    exact absurd hP (h p (List.mem_reverse.2 hp))
  | some q =>
    rw [hu q (List.mem_reverse.1 (List.mem_of_find?_eq_some h)) (List.find?_some h)]

end AmpGen.PDG
