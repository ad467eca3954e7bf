import Verif.EventType.Spec
import Mathlib.Data.List.Nodup
import Mathlib.Data.List.Flatten
namespace AmpGen.EventType
open AmpGen.Strings AmpGen.PDG AmpGen.Kinematics Spec

variable {K : Type}

/-! ### Maps -/

theorem put_new (m : List (Str × Nat)) (k : Str) (v : Nat) (h : k ∉ m.map Prod.fst) : put m k v = m ++ [(k, v)] := by
  unfold put
  rw [if_neg]
  intro ha
  rw [List.any_eq_true] at ha
  obtain ⟨x, hx, hk⟩ := ha
  exact h (List.mem_map.2 ⟨x, hx, by simpa using hk⟩)

theorem putAll_new : ∀ (l m : List (Str × Nat)), ((m ++ l).map Prod.fst).Nodup → l.foldl (fun (m : List (Str × Nat)) (kv : Str × Nat) => put m kv.1 kv.2) m = m ++ l
  | [], m, _ => by simp
  | kv :: l, m, h => by
    rw [List.foldl_cons, put_new]
    · rw [putAll_new l (m ++ [(kv.1, kv.2)])]
      · simp
      · simpa using h
    · rw [List.map_append, List.map_cons, List.nodup_append] at h
      intro hm
      exact h.2.2 _ hm kv.1 (by simp) rfl

theorem putExt_new : ∀ (l : List Str) (m : List (Str × Nat)), (m.map Prod.fst ++ l).Nodup → l.foldl (fun (m : List (Str × Nat)) (e : Str) => put m e m.length) m = m ++ l.zipIdx m.length
  | [], m, _ => by simp
  | e :: l, m, h => by
    rw [List.foldl_cons, put_new]
    · rw [putExt_new l (m ++ [(e, m.length)])]
      · simp [List.zipIdx_cons]
      · simpa using h
    · rw [List.nodup_append] at h
      intro hm
      exact h.2.2 _ hm e (by simp) rfl

/-! ### The format -/

/-- The assignments for one particle. -/
def entries (t : EventType K) (ie out : Bool) (ip : Nat) : List (Str × Nat) :=
  (components ie).map fun c => (stub t out ip ++ c.1, (if ie then 4 else 3) * ip + c.2)

/-- All assignments except those of the extensions. -/
def allEntries (t : EventType K) (ie out : Bool) : List (Str × Nat) :=
  (List.range t.size).flatMap (entries t ie out) ++ if t.timeDependent then [(t.mother ++ "_decayTime".toList, 4 * t.size)] else []

theorem addParticle_eq (t : EventType K) (ie out : Bool) (m : List (Str × Nat)) (ip : Nat) :
    addParticle t ie out m ip = (entries t ie out ip).foldl (fun (m : List (Str × Nat)) (kv : Str × Nat) => put m kv.1 kv.2) m := by
  cases ie <;> rfl

theorem base_eq (t : EventType K) (ie out : Bool) : ∀ (l : List Nat) (m : List (Str × Nat)), l.foldl (addParticle t ie out) m = (l.flatMap (entries t ie out)).foldl (fun (m : List (Str × Nat)) (kv : Str × Nat) => put m kv.1 kv.2) m
  | [], m => rfl
  | ip :: l, m => by
    rw [List.foldl_cons, List.flatMap_cons, List.foldl_append, ← addParticle_eq, base_eq t ie out l]

theorem format_eq (t : EventType K) (ie out : Bool) (h : ((allEntries t ie out).map Prod.fst ++ t.extensions).Nodup) :
    getEventFormat ie t out = allEntries t ie out ++ t.extensions.zipIdx (allEntries t ie out).length := by
  unfold getEventFormat
  have h1 : (allEntries t ie out).foldl (fun (m : List (Str × Nat)) (kv : Str × Nat) => put m kv.1 kv.2) [] = allEntries t ie out := by
    rw [putAll_new]
    · simp
    · simpa using (List.nodup_append.1 h).1
  have h2 : (if t.timeDependent then put ((List.range t.size).foldl (addParticle t ie out) []) (t.mother ++ "_decayTime".toList) (4 * t.size) else (List.range t.size).foldl (addParticle t ie out) []) = allEntries t ie out := by
    rw [← h1]
    conv_rhs => rw [allEntries]
    rw [base_eq, List.foldl_append]
    cases t.timeDependent <;> rfl
  simp only [h2]
  exact putExt_new t.extensions (allEntries t ie out) h

theorem suffix_inj {a b : Str} {c d : Str × Nat} {ie : Bool} (hc : c ∈ components ie) (hd : d ∈ components ie) (h : a ++ c.1 = b ++ d.1) : a = b ∧ c = d := by
  have hl := congrArg List.getLast? h
  have key : c = d := by
    cases ie <;> simp [components] at hc hd <;> rcases hc with rfl | rfl | rfl | rfl <;> rcases hd with rfl | rfl | rfl | rfl <;> first | rfl | (exfalso; simp at hl; done) | skip
    all_goals (exfalso; revert hl; simp)
  subst key
  exact ⟨List.append_cancel_right h, rfl⟩

theorem allEntries_nodup (t : EventType K) (ie out : Bool) (hinj : ∀ i < t.size, ∀ j < t.size, stub t out i = stub t out j → i = j) : ((allEntries t ie out).map Prod.fst).Nodup := by
  unfold allEntries
  rw [List.map_append, List.nodup_append]
  refine ⟨?_, ?_, ?_⟩
  · rw [List.map_flatMap, List.nodup_flatMap]
    constructor
    · intro ip _
      unfold entries
      rw [List.map_map]
      refine List.Nodup.map_on ?_ ?_
      · intro c hc d hd h
        exact (suffix_inj hc hd h).2
      · cases ie <;> decide
    · refine List.Nodup.pairwise_of_forall_ne List.nodup_range ?_
      intro i hi j hj hne
      rw [List.mem_range] at hi hj
      show List.Disjoint _ _
      intro x hx hx'
      unfold entries at hx hx'
      simp only [List.map_map, List.mem_map, Function.comp] at hx hx'
      obtain ⟨c, hc, rfl⟩ := hx
      obtain ⟨d, hd, h⟩ := hx'
      exact hne (hinj i hi j hj (suffix_inj hd hc h).1.symm)
  · split <;> simp
  · intro a ha b hb hab
    subst hab
    split at hb
    · simp only [List.map_cons, List.map_nil, List.mem_singleton] at hb
      subst hb
      rw [List.map_flatMap, List.mem_flatMap] at ha
      obtain ⟨ip, _, ha⟩ := ha
      unfold entries at ha
      simp only [List.map_map, List.mem_map, Function.comp] at ha
      obtain ⟨c, hc, h⟩ := ha
      have hl := congrArg List.getLast? h
      cases ie <;> simp [components] at hc <;> rcases hc with rfl | rfl | rfl | rfl <;> revert hl <;> simp
    · cases hb

/-! ### Names of particles -/

theorem toDigits_inj {a b : Nat} (h : Nat.toDigits 10 a = Nat.toDigits 10 b) : a = b := by
  have := congrArg (fun l => Nat.ofDigitChars 10 l 0) h
  simpa [Nat.ofDigitChars_ten_toDigits] using this

theorem takeWhile_digits (n : Nat) (s : Str) : (Nat.toDigits 10 n ++ '_' :: s).takeWhile Char.isDigit = Nat.toDigits 10 n := by
  rw [List.takeWhile_append_of_pos]
  · simp
  · intro c hc
    exact Nat.isDigit_of_mem_toDigits (by decide) (by decide) hc

theorem stub_inj_default (t : EventType K) (h : t.alt = false) (i j : Nat) (out : Bool) (hij : stub t out i = stub t out j) : i = j := by
  unfold stub at hij
  cases out with
  | false => exact toDigits_inj hij
  | true =>
    simp only [h, Bool.false_eq_true, if_false, if_true] at hij
    have := congrArg (fun l => (l.drop 1).takeWhile Char.isDigit) hij
    simp only [List.append_assoc] at this
    change (Nat.toDigits 10 (i + 1) ++ '_' :: _).takeWhile Char.isDigit = (Nat.toDigits 10 (j + 1) ++ '_' :: _).takeWhile Char.isDigit at this
    rw [takeWhile_digits, takeWhile_digits] at this
    have := toDigits_inj this
    omega

theorem count_take_lt {l : List Str} {i j : Nat} {a : Str} (hi : l[i]? = some a) (hij : i < j) : (l.take i).count a < (l.take j).count a := by
  have h1 : (l.take (i + 1)).count a = (l.take i).count a + 1 := by
    rw [List.take_add_one, hi]
    simp
  have h2 : (l.take (i + 1)).count a ≤ (l.take j).count a := by
    apply List.Sublist.count_le
    exact List.take_sublist_take_left (by omega)
  omega

theorem stub_inj_alt (t : EventType K) (hl : t.pickled.length = t.names.length) (h : t.alt = true) (hs : NoDigitsBehind t.pickled) (i j : Nat) (hi : i < t.size) (hj : j < t.size)
    (hij : stub t true i = stub t true j) : i = j := by
  obtain ⟨a, ha⟩ : ∃ a, t.pickled[i]? = some a := ⟨_, List.getElem?_eq_getElem (by rw [hl]; exact hi)⟩
  obtain ⟨b, hb⟩ : ∃ b, t.pickled[j]? = some b := ⟨_, List.getElem?_eq_getElem (by rw [hl]; exact hj)⟩
  have hma : a ∈ t.pickled := List.mem_of_getElem? ha
  have hmb : b ∈ t.pickled := List.mem_of_getElem? hb
  obtain ⟨d, hd, hdig⟩ : ∃ d, stub t true i = a ++ d ∧ ((∀ c ∈ d, c.isDigit = true) ∧ (d = if t.pickled.count a > 1 then Nat.toDigits 10 ((t.pickled.take i).count a) else [])) := by
    unfold stub
    rw [h, List.getD_eq_getElem?_getD, ha]
    simp only [if_true, Option.getD_some]
    split
    · refine ⟨_, rfl, ?_, rfl⟩
      intro c hc
      exact Nat.isDigit_of_mem_toDigits (by decide) (by decide) hc
    · exact ⟨[], by simp, by simp, rfl⟩
  obtain ⟨e, he, heig⟩ : ∃ d, stub t true j = b ++ d ∧ ((∀ c ∈ d, c.isDigit = true) ∧ (d = if t.pickled.count b > 1 then Nat.toDigits 10 ((t.pickled.take j).count b) else [])) := by
    unfold stub
    rw [h, List.getD_eq_getElem?_getD, hb]
    simp only [if_true, Option.getD_some]
    split
    · refine ⟨_, rfl, ?_, rfl⟩
      intro c hc
      exact Nat.isDigit_of_mem_toDigits (by decide) (by decide) hc
    · exact ⟨[], by simp, by simp, rfl⟩
  rw [hd, he] at hij
  have hab : a = b ∧ d = e := by
    rcases List.append_eq_append_iff.1 hij with ⟨c, h1, h2⟩ | ⟨c, h1, h2⟩
    · by_cases hc : c = []
      · subst hc; simp at h1 h2; exact ⟨h1.symm, h2⟩
      · exact absurd h1 (hs a hma b hmb c hc (fun x hx => hdig.1 x (by rw [h2]; exact List.mem_append_left _ hx)))
    · by_cases hc : c = []
      · subst hc; simp at h1 h2; exact ⟨h1, h2.symm⟩
      · exact absurd h1 (hs b hmb a hma c hc (fun x hx => heig.1 x (by rw [h2]; exact List.mem_append_left _ hx)))
  obtain ⟨rfl, hde⟩ := hab
  rw [hdig.2, heig.2] at hde
  by_contra hne
  have hc : t.pickled.count a > 1 := by
    rcases Nat.lt_or_gt_of_ne hne with hlt | hlt
    · have h1 := count_take_lt ha hlt
      have h2 := count_take_lt hb (show j < j + 1 by omega)
      have h3 : (t.pickled.take (j + 1)).count a ≤ t.pickled.count a := List.Sublist.count_le _ (List.take_sublist _ _)
      omega
    · have h1 := count_take_lt hb hlt
      have h2 := count_take_lt ha (show i < i + 1 by omega)
      have h3 : (t.pickled.take (i + 1)).count a ≤ t.pickled.count a := List.Sublist.count_le _ (List.take_sublist _ _)
      omega
  rw [if_pos hc, if_pos hc] at hde
  have := toDigits_inj hde
  rcases Nat.lt_or_gt_of_ne hne with hlt | hlt
  · have := count_take_lt ha hlt; omega
  · have := count_take_lt hb hlt; omega

/-! ### Positions -/

theorem positions_base (t : EventType K) (out : Bool) : ∀ n : Nat, (((List.range n).flatMap (entries t true out)).map Prod.snd).Perm (List.range (4 * n))
  | 0 => by simp
  | n + 1 => by
    rw [List.range_succ, List.flatMap_append, List.map_append]
    have e : List.range (4 * (n + 1)) = List.range (4 * n) ++ [4 * n, 4 * n + 1, 4 * n + 2, 4 * n + 3] := by
      rw [show 4 * (n + 1) = 4 * n + 1 + 1 + 1 + 1 by omega]
      simp only [List.range_succ, List.append_assoc]
      rfl
    rw [e]
    refine List.Perm.append (positions_base t out n) ?_
    simp only [List.flatMap_cons, List.flatMap_nil, List.append_nil, entries, components, if_true, List.map_map]
    show [4 * n + 3, 4 * n + 0, 4 * n + 1, 4 * n + 2].Perm _
    exact (List.perm_append_comm (l₁ := [4 * n + 3]) (l₂ := [4 * n, 4 * n + 1, 4 * n + 2]))

theorem positions_base3 (t : EventType K) (out : Bool) : ∀ n : Nat, (((List.range n).flatMap (entries t false out)).map Prod.snd) = List.range (3 * n)
  | 0 => by simp
  | n + 1 => by
    rw [List.range_succ, List.flatMap_append, List.map_append, positions_base3 t out n]
    have e : List.range (3 * (n + 1)) = List.range (3 * n) ++ [3 * n, 3 * n + 1, 3 * n + 2] := by
      rw [show 3 * (n + 1) = 3 * n + 1 + 1 + 1 by omega]
      simp only [List.range_succ, List.append_assoc]
      rfl
    rw [e]
    rfl

theorem zipIdx_snd (l : List Str) (n : Nat) : (l.zipIdx n).map Prod.snd = (List.range l.length).map (n + ·) := by
  rw [List.zipIdx_map_snd, List.range'_eq_map_range]

end AmpGen.EventType
