import Verif.EventType.PropsFormat
import Verif.PDG.Props
/-
Property C26: conjugation of event types.
-/
namespace AmpGen.EventType
open AmpGen.Strings AmpGen.PDG AmpGen.Kinematics Spec

variable {K : Type} [Field K]

theorem replaceLoop_single (c : Char) (rep : Str) (hr : rep.length ≤ 1) : ∀ (fuel : Nat) (s : Str) (start : Nat), s.length ≤ fuel + start → ∃ t, replaceLoop [c] rep (fuel + 1) s start = some t ∧ t.length ≤ s.length
  | fuel, s, start, h => by
    unfold replaceLoop
    cases hf : find s [c] start with
    | none => exact ⟨s, rfl, Nat.le_refl _⟩
    | some p =>
      obtain ⟨h1, h2, ⟨t, ht⟩, _⟩ := find_some hf
      have h3 : p + 1 ≤ s.length := by
        have hl := congrArg List.length ht
        simp at hl
        omega
      have hl : (s.take p ++ rep ++ s.drop (p + [c].length)).length ≤ s.length := by
        simp only [List.length_append, List.length_take, List.length_drop, List.length_singleton]
        omega
      cases fuel with
      | zero => omega
      | succ fuel =>
        obtain ⟨u, hu, hlen⟩ := replaceLoop_single c rep hr fuel (s.take p ++ rep ++ s.drop (p + [c].length)) (p + [c].length) (by simp only [List.length_singleton] at *; omega)
        exact ⟨u, hu, Nat.le_trans hlen hl⟩

theorem replaceAll_single (c : Char) (rep : Str) (hr : rep.length ≤ 1) (fuel : Nat) (s : Str) (h : s.length ≤ fuel) : ∃ t, replaceAll (fuel + 1) s [c] rep = some t ∧ t.length ≤ s.length := by
  unfold replaceAll
  split
  · exact ⟨s, rfl, Nat.le_refl _⟩
  · exact replaceLoop_single c rep hr fuel s 0 (by omega)

theorem rules_single : ∀ (rules : List (Str × Str)) (fuel : Nat) (s : Str), (∀ r ∈ rules, r.1.length = 1 ∧ r.2.length ≤ 1) → s.length ≤ fuel → ∃ t, replaceAllRules (fuel + 1) s rules = some t
  | [], fuel, s, _, _ => ⟨s, rfl⟩
  | r :: rules, fuel, s, hr, h => by
    obtain ⟨h1, h2⟩ := hr r (by simp)
    obtain ⟨c, hc⟩ := List.length_eq_one_iff.1 h1
    obtain ⟨t, ht, hl⟩ := replaceAll_single c r.2 h2 fuel s h
    obtain ⟨u, hu⟩ := rules_single rules fuel t (fun x hx => hr x (List.mem_cons_of_mem _ hx)) (by omega)
    refine ⟨u, ?_⟩
    unfold replaceAllRules at hu ⊢
    rw [List.foldlM_cons, hc, ht]
    exact hu

/-- Every name can be pickled; the fuel in the model is enough. -/
theorem pickle_total (alt : Bool) (name : Str) : ∃ t, pickle alt name = some t := by
  unfold pickle
  split
  · exact rules_single _ name.length name (by decide) (Nat.le_refl _)
  · exact rules_single _ name.length name (by decide) (Nat.le_refl _)

theorem mapM_map {α β γ : Type} (f : α → β) (g : β → Option γ) : ∀ l : List α, (l.map f).mapM g = l.mapM fun a => g (f a)
  | [] => rfl
  | a :: l => by simp [mapM_map f g l]

theorem mapM_some {α β : Type} (f : α → Option β) (g : α → β) : ∀ l : List α, (∀ a ∈ l, f a = some (g a)) → l.mapM f = some (l.map g)
  | [], _ => rfl
  | a :: l, h => by
    have h1 := mapM_some f g l fun x hx => h x (List.mem_cons_of_mem _ hx)
    simp [h a (by simp), h1]

theorem mapM_exists {α β : Type} (f : α → Option β) : ∀ l : List α, (∀ a ∈ l, ∃ b, f a = some b) → ∃ r, l.mapM f = some r
  | [], _ => ⟨[], rfl⟩
  | a :: l, h => by
    obtain ⟨b, hb⟩ := h a (by simp)
    obtain ⟨r, hr⟩ := mapM_exists f l fun x hx => h x (List.mem_cons_of_mem _ hx)
    exact ⟨b :: r, by simp [hb, hr]⟩

theorem mapM_mem {α β : Type} (f : α → Option β) : ∀ (l : List α) (r : List β), l.mapM f = some r → ∀ a ∈ l, ∃ b, f a = some b
  | a :: l, r, h, x, hx => by
    rw [List.mapM_cons] at h
    simp only [Option.bind_eq_bind, Option.bind_eq_some_iff] at h
    obtain ⟨b, hb, r', hr', _⟩ := h
    rcases List.mem_cons.1 hx with rfl | hx
    · exact ⟨b, hb⟩
    · exact mapM_mem f l r' hr' x hx

/-- The name is found, and so is that of the antiparticle, each only once. -/
def UniqueNames (l : List (Props K)) (n : Str) : Prop :=
  ∀ p ∈ l, p.name = n → ∀ q ∈ l, (q.name = n ∨ q.name = p.anti.name) → ∀ r ∈ l, r.name = q.name → r = q

theorem conj_name (lib : Library K) (junk : Char × Char) (latex : Int → Option (Str × Str)) (lines : List Str) (l : List (Props K)) (hl : readFile lib junk latex lines = some l) (n : Str)
    (hu : UniqueNames l n) (p : Props K) (hp : (makeMappings l).find n = some p) :
    ∃ q, (makeMappings l).find p.anti.name = some q ∧ q.anti.name = n := by
  rw [find_spec] at hp
  have hm : p ∈ l := List.mem_reverse.1 (List.mem_of_find?_eq_some hp)
  have hn : p.name = n := by simpa using List.find?_some hp
  obtain ⟨l', hl', hpair⟩ := readFile_spec lib junk latex lines
  rw [hl] at hl'
  cases hl'
  cases hd : p.hasDistinctAnti with
  | false =>
    have ha : p.anti = p := (antiparticle_involution p).2 hd
    rw [ha, hn]
    refine ⟨p, by rw [find_spec]; exact hp, by rw [ha, hn]⟩
  | true =>
    obtain ⟨q, hq, hs⟩ := hpair p hm hd
    refine ⟨q, ?_, ?_⟩
    · rw [find_spec]
      refine lastWith_unique _ l q hq (by simpa using same_name hs) ?_
      intro r hr h
      exact hu p hm hn q hq (Or.inr (same_name hs)) r hr ((by simpa using h : r.name = p.anti.name).trans (same_name hs).symm)
    · rw [same_name (same_anti hs), Props.anti_anti, hn]

theorem make_exists (db : DB K) (alt td : Bool) (mother : Str) (names : List Str) (h2 : 2 ≤ names.length) (hb : ∀ n ∈ names, stripBraces n = n) (hm : ∃ p, db.find mother = some p) (hn : ∀ n ∈ names, ∃ p, db.find n = some p) :
    ∃ t, make db alt (mother :: names) td = some t ∧ t.mother = mother ∧ t.names = names ∧ t.timeDependent = td ∧ t.alt = alt ∧ t.extensions = [] := by
  obtain ⟨p, hp⟩ := hm
  obtain ⟨ps, hps⟩ := mapM_exists (fun n => db.find n) names hn
  obtain ⟨pk, hpk⟩ := mapM_exists (pickle alt) names fun n _ => pickle_total alt n
  have hs : names.map stripBraces = names := by
    conv_rhs => rw [← List.map_id names]
    exact List.map_congr_left hb
  refine ⟨⟨mother, p.getMass, names, pk, ps.map Props.getMass, td, [], alt⟩, ?_, rfl, rfl, rfl, rfl, rfl⟩
  unfold make
  rw [if_neg (by simp; omega)]
  simp only [List.head?_cons, List.tail_cons, Option.bind_eq_bind, Option.bind_some, hs, hp, hps, hpk]
  rfl

theorem make_found (db : DB K) (alt td : Bool) (mother : Str) (names : List Str) (t : EventType K) (hb : ∀ n ∈ names, stripBraces n = n) (h : make db alt (mother :: names) td = some t) :
    2 ≤ names.length ∧ (∃ p, db.find mother = some p) ∧ (∀ n ∈ names, ∃ p, db.find n = some p) ∧ t.mother = mother ∧ t.names = names ∧ t.timeDependent = td ∧ t.alt = alt := by
  have hs : names.map stripBraces = names := by
    conv_rhs => rw [← List.map_id names]
    exact List.map_congr_left hb
  unfold make at h
  split at h
  · cases h
  · rename_i h3
    simp only [List.head?_cons, List.tail_cons, Option.bind_eq_bind, Option.bind_some, hs, Option.bind_eq_some_iff] at h
    obtain ⟨p, hp, ps, hps, pk, hpk, h⟩ := h
    cases h
    refine ⟨by simp at h3; omega, ⟨p, hp⟩, mapM_mem _ names ps hps, rfl, rfl, rfl, rfl⟩

/-- **C26 (partial)**: conjugating an event type twice, with the same flags, gives back the event type. The names of the particles and their antiparticles must be unique in the database (in the files a few are not),
without braces, and the event type must not have been extended: the conjugate type has no extensions. -/
theorem event_type_conj_partial (lib : Library K) (junk : Char × Char) (latex : Int → Option (Str × Str)) (lines : List Str) (l : List (Props K)) (hl : readFile lib junk latex lines = some l)
    (alt td : Bool) (mother : Str) (names : List Str) (t : EventType K) (ht : make (makeMappings l) alt (mother :: names) td = some t)
    (hu : ∀ n ∈ mother :: names, UniqueNames l n) (hbrace : ∀ p : Props K, p ∈ l → stripBraces p.name = p.name) (hb : ∀ n ∈ names, stripBraces n = n) (headOnly dontConjHead : Bool) :
    ∃ t', conj (makeMappings l) t headOnly dontConjHead = some t' ∧ conj (makeMappings l) t' headOnly dontConjHead = some t := by
  obtain ⟨h2, ⟨pm, hpm⟩, hfound, hmo, hna, htd, halt⟩ := make_found (makeMappings l) alt td mother names t hb ht
  -- the name of the conjugate
  let f := fun n => ((makeMappings l).find n).elim [] fun p => p.anti.name
  have hf : ∀ n ∈ mother :: names, ((makeMappings l).find n).map (fun p => p.anti.name) = some (f n) ∧ (∃ q, (makeMappings l).find (f n) = some q ∧ q.anti.name = n) := by
    intro n hn
    have : ∃ p, (makeMappings l).find n = some p := by
      rcases List.mem_cons.1 hn with rfl | hn
      · exact ⟨pm, hpm⟩
      · exact hfound n hn
    obtain ⟨p, hp⟩ := this
    have hfn : f n = p.anti.name := by simp only [f, hp, Option.elim]
    refine ⟨by rw [hp, hfn]; rfl, ?_⟩
    rw [hfn]
    exact conj_name lib junk latex lines l hl n (hu n hn) p hp
  have hstrip : ∀ n ∈ mother :: names, stripBraces (f n) = f n := by
    intro n hn
    obtain ⟨q, hq, _⟩ := (hf n hn).2
    rw [find_spec] at hq
    have hm : q ∈ l := List.mem_reverse.1 (List.mem_of_find?_eq_some hq)
    have hqn : q.name = f n := by simpa using List.find?_some hq
    rw [← hqn]
    exact hbrace q hm
  -- the first conjugation
  obtain ⟨m', hm'⟩ : ∃ m', m' = if dontConjHead then mother else f mother := ⟨_, rfl⟩
  obtain ⟨ns', hns'⟩ : ∃ ns', ns' = if headOnly then names else names.map f := ⟨_, rfl⟩
  have e1 : conjName (makeMappings l) dontConjHead t.mother = some m' := by
    rw [hm', hmo]
    cases dontConjHead
    · exact (hf mother (by simp)).1
    · rfl
  have e2 : t.names.mapM (conjName (makeMappings l) headOnly) = some ns' := by
    rw [hns', hna]
    cases headOnly
    · exact mapM_some _ f names fun n hn => (hf n (List.mem_cons_of_mem _ hn)).1
    · have := mapM_some (conjName (makeMappings l) true) id names fun n _ => rfl
      simpa using this
  have hlen : 2 ≤ ns'.length := by rw [hns']; split <;> simpa using h2
  have hstrip' : ∀ n ∈ ns', stripBraces n = n := by
    rw [hns']
    split
    · exact hb
    · intro n hn
      obtain ⟨x, hx, rfl⟩ := List.mem_map.1 hn
      exact hstrip x (List.mem_cons_of_mem _ hx)
  have hmf : ∃ p, (makeMappings l).find m' = some p := by
    rw [hm']
    split
    · exact ⟨pm, hpm⟩
    · obtain ⟨q, hq, _⟩ := (hf mother (by simp)).2
      exact ⟨q, hq⟩
  have hnf : ∀ n ∈ ns', ∃ p, (makeMappings l).find n = some p := by
    rw [hns']
    split
    · exact hfound
    · intro n hn
      obtain ⟨x, hx, rfl⟩ := List.mem_map.1 hn
      obtain ⟨q, hq, _⟩ := (hf x (List.mem_cons_of_mem _ hx)).2
      exact ⟨q, hq⟩
  obtain ⟨t', ht', hmo', hna', htd', halt', _⟩ := make_exists (makeMappings l) alt td m' ns' hlen hstrip' hmf hnf
  refine ⟨t', ?_, ?_⟩
  · unfold conj
    simp only [e1, e2, Option.bind_eq_bind, Option.bind_some, halt, htd]
    exact ht'
  · -- the second conjugation
    have e3 : conjName (makeMappings l) dontConjHead t'.mother = some mother := by
      rw [hmo', hm']
      cases dontConjHead
      · obtain ⟨q, hq, hqn⟩ := (hf mother (by simp)).2
        show ((makeMappings l).find (f mother)).map _ = _
        rw [hq, Option.map_some, hqn]
      · rfl
    have e4 : t'.names.mapM (conjName (makeMappings l) headOnly) = some names := by
      rw [hna', hns']
      cases headOnly
      · simp only [Bool.false_eq_true, if_false]
        rw [mapM_map]
        have := mapM_some (fun a => conjName (makeMappings l) false (f a)) id names ?_
        · simpa using this
        · intro n hn
          obtain ⟨q, hq, hqn⟩ := (hf n (List.mem_cons_of_mem _ hn)).2
          show ((makeMappings l).find (f n)).map _ = _
          rw [hq, Option.map_some, hqn]
          rfl
      · have := mapM_some (conjName (makeMappings l) true) id names fun n _ => rfl
        simpa using this
    unfold conj
    simp only [e3, e4, Option.bind_eq_bind, Option.bind_some, halt', htd']
    exact ht

/-- The hypotheses hold for a decay of the files' particles. -/
example : ∃ l t, readFile digits (' ', ' ') (fun _ => none) [linePi] = some l ∧ make (makeMappings l) false ["pi+".toList, "pi+".toList, "pi-".toList] true = some t ∧
    UniqueNames l "pi+".toList ∧ UniqueNames l "pi-".toList ∧ ∀ p ∈ l, stripBraces p.name = p.name := by
  have h : (match readFile digits (' ', ' ') (fun _ => none) [linePi] with
      | some l => (make (makeMappings l) false ["pi+".toList, "pi+".toList, "pi-".toList] true).isSome && (decide (∀ n ∈ ["pi+".toList, "pi-".toList], ∀ p ∈ l, p.name = n → ∀ q ∈ l, (q.name = n ∨ q.name = p.anti.name) → ∀ r ∈ l, r.name = q.name → r = q)
        && decide (∀ p ∈ l, stripBraces p.name = p.name))
      | none => false) = true := by decide +kernel
  split at h
  · rename_i l hl
    rw [Bool.and_eq_true, Bool.and_eq_true, decide_eq_true_eq, decide_eq_true_eq, Option.isSome_iff_exists] at h
    obtain ⟨⟨t, ht⟩, hu, hb⟩ := h
    exact ⟨l, t, hl, ht, hu _ (by simp), hu _ (by simp), hb⟩
  · cases h

/-- **C26**: the conjugate of an extended event type has no extensions. -/
theorem event_type_conj_counterexample (db : DB K) (t t' : EventType K) (headOnly dontConjHead : Bool) (h : conj db t headOnly dontConjHead = some t') : t'.extensions = [] := by
  unfold conj at h
  simp only [Option.bind_eq_bind, Option.bind_eq_some_iff] at h
  obtain ⟨m, _, ns, _, h⟩ := h
  unfold make at h
  split at h
  · cases h
  · simp only [List.head?_cons, Option.bind_eq_bind, Option.bind_some, Option.bind_eq_some_iff] at h
    obtain ⟨_, _, _, _, _, _, h⟩ := h
    cases h
    rfl

end AmpGen.EventType
