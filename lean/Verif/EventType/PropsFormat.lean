import Verif.EventType.LemmasFormat
import Mathlib.Algebra.Field.Rat
/-
Property C25: the event format.
-/
namespace AmpGen.EventType
open AmpGen.Strings AmpGen.PDG AmpGen.Kinematics Spec

variable {K : Type} [Field K]

omit [Field K] in
theorem format_positions (t : EventType K) (out : Bool) (hstub : ∀ i < t.size, ∀ j < t.size, stub t out i = stub t out j → i = j)
    (hext : t.extensions.Nodup) (hnew : ∀ x ∈ t.extensions, x ∉ (allEntries t true out).map Prod.fst) :
    getEventFormat true t out = allEntries t true out ++ t.extensions.zipIdx t.eventSize ∧
    ((getEventFormat true t out).map Prod.fst).Nodup ∧ ((getEventFormat true t out).map Prod.snd).Perm (List.range (t.eventSize + t.extensions.length)) := by
  have hn : ((allEntries t true out).map Prod.fst ++ t.extensions).Nodup := by
    rw [List.nodup_append]
    refine ⟨allEntries_nodup t true out hstub, hext, ?_⟩
    intro a ha b hb hab
    subst hab
    exact hnew a hb ha
  have hpos : ((allEntries t true out).map Prod.snd).Perm (List.range t.eventSize) := by
    unfold allEntries EventType.eventSize
    rw [List.map_append]
    cases t.timeDependent with
    | false => simpa using positions_base t out t.size
    | true =>
      rw [show 4 * t.size + true.toNat = 4 * t.size + 1 from rfl, List.range_succ]
      exact List.Perm.append (positions_base t out t.size) (List.Perm.refl _)
  have hlen : (allEntries t true out).length = t.eventSize := by
    have := hpos.length_eq
    simpa using this
  have hfmt := format_eq t true out hn
  rw [hlen] at hfmt
  refine ⟨hfmt, ?_, ?_⟩
  · rw [hfmt, List.map_append, List.zipIdx_map_fst]
    exact hn
  · rw [hfmt, List.map_append, zipIdx_snd, List.range_add]
    exact List.Perm.append hpos (List.Perm.refl _)

omit [Field K] in
/-- What the format contains, in terms of the names of the particles. -/
theorem mem_format (t : EventType K) (out : Bool) (e : List (Str × Nat)) (h : e = allEntries t true out ++ t.extensions.zipIdx t.eventSize) :
    (∀ ip < t.size, (stub t out ip ++ "_Px".toList, 4 * ip) ∈ e ∧ (stub t out ip ++ "_Py".toList, 4 * ip + 1) ∈ e ∧ (stub t out ip ++ "_Pz".toList, 4 * ip + 2) ∈ e ∧ (stub t out ip ++ "_E".toList, 4 * ip + 3) ∈ e) ∧
    (t.timeDependent = true → (t.mother ++ "_decayTime".toList, 4 * t.size) ∈ e) ∧
    ∀ (k : Nat) (hk : k < t.extensions.length), (t.extensions[k], t.eventSize + k) ∈ e := by
  subst h
  refine ⟨?_, ?_, ?_⟩
  · intro ip hip
    have key : ∀ c ∈ components true, (stub t out ip ++ c.1, 4 * ip + c.2) ∈ allEntries t true out ++ t.extensions.zipIdx t.eventSize := by
      intro c hc
      refine List.mem_append_left _ (List.mem_append_left _ (List.mem_flatMap.2 ⟨ip, List.mem_range.2 hip, ?_⟩))
      exact List.mem_map.2 ⟨c, hc, rfl⟩
    exact ⟨key ("_Px".toList, 0) (by simp [components]), key ("_Py".toList, 1) (by simp [components]), key ("_Pz".toList, 2) (by simp [components]), key ("_E".toList, 3) (by simp [components])⟩
  · intro htd
    refine List.mem_append_left _ (List.mem_append_right _ ?_)
    rw [if_pos htd]
    simp
  · intro k hk
    refine List.mem_append_right _ ?_
    rw [List.mem_iff_getElem?]
    exact ⟨k, by simp [hk]⟩

omit [Field K] in
/-- **C25 (partial)**: with the default options the event format gives every component of every particle, the decay time and every extension its own position, and the positions are exactly those of the record.
It is required that the names of extensions are different from one another and from the other names; otherwise, and with alternative names or without energies, it fails: see below. -/
theorem event_format_partial (t : EventType K) (out : Bool) (hd : t.alt = false ∨ out = false)
    (hext : t.extensions.Nodup) (hnew : ∀ x ∈ t.extensions, (∀ ip < t.size, ∀ c ∈ ["_E", "_Px", "_Py", "_Pz"], x ≠ stub t out ip ++ c.toList) ∧ x ≠ t.mother ++ "_decayTime".toList) :
    ((getEventFormat true t out).map Prod.fst).Nodup ∧ ((getEventFormat true t out).map Prod.snd).Perm (List.range (t.eventSize + t.extensions.length)) ∧
    (∀ ip < t.size, (stub t out ip ++ "_Px".toList, 4 * ip) ∈ getEventFormat true t out ∧ (stub t out ip ++ "_Py".toList, 4 * ip + 1) ∈ getEventFormat true t out ∧
      (stub t out ip ++ "_Pz".toList, 4 * ip + 2) ∈ getEventFormat true t out ∧ (stub t out ip ++ "_E".toList, 4 * ip + 3) ∈ getEventFormat true t out) ∧
    (t.timeDependent = true → (t.mother ++ "_decayTime".toList, 4 * t.size) ∈ getEventFormat true t out) ∧
    ∀ (k : Nat) (hk : k < t.extensions.length), (t.extensions[k], t.eventSize + k) ∈ getEventFormat true t out := by
  have hstub : ∀ i < t.size, ∀ j < t.size, stub t out i = stub t out j → i = j := by
    intro i _ j _ h
    rcases hd with hd | rfl
    · exact stub_inj_default t hd i j out h
    · exact toDigits_inj h
  have hnew' : ∀ x ∈ t.extensions, x ∉ (allEntries t true out).map Prod.fst := by
    intro x hx hm
    obtain ⟨h1, h2⟩ := hnew x hx
    unfold allEntries at hm
    rw [List.map_append, List.mem_append] at hm
    rcases hm with hm | hm
    · rw [List.map_flatMap, List.mem_flatMap] at hm
      obtain ⟨ip, hip, hm⟩ := hm
      unfold entries at hm
      simp only [List.map_map, List.mem_map, Function.comp] at hm
      obtain ⟨c, hc, rfl⟩ := hm
      have := h1 ip (List.mem_range.1 hip)
      simp [components] at hc
      rcases hc with rfl | rfl | rfl | rfl
      · exact this "_E" (by simp) rfl
      · exact this "_Px" (by simp) rfl
      · exact this "_Py" (by simp) rfl
      · exact this "_Pz" (by simp) rfl
    · split at hm
      · simp only [List.map_cons, List.map_nil, List.mem_singleton] at hm
        exact h2 hm
      · cases hm
  obtain ⟨h1, h2, h3⟩ := format_positions t out hstub hext hnew'
  exact ⟨h2, h3, mem_format t out _ h1⟩

/-- A decay with a decay time, two identical particles and an extension. -/
def exampleType : EventType ℚ := ⟨"D0".toList, 1, ["K-".toList, "pi+".toList, "pi+".toList], ["K#".toList, "pi~".toList, "pi~".toList], [1, 1, 1], true, ["tag".toList], false⟩

example : ∀ x ∈ exampleType.extensions, (∀ ip < exampleType.size, ∀ c ∈ ["_E", "_Px", "_Py", "_Pz"], x ≠ stub exampleType true ip ++ c.toList) ∧ x ≠ exampleType.mother ++ "_decayTime".toList := by
  decide +kernel

example : getEventFormat true exampleType true = [("_1_K#_E".toList, 3), ("_1_K#_Px".toList, 0), ("_1_K#_Py".toList, 1), ("_1_K#_Pz".toList, 2),
    ("_2_pi~_E".toList, 7), ("_2_pi~_Px".toList, 4), ("_2_pi~_Py".toList, 5), ("_2_pi~_Pz".toList, 6),
    ("_3_pi~_E".toList, 11), ("_3_pi~_Px".toList, 8), ("_3_pi~_Py".toList, 9), ("_3_pi~_Pz".toList, 10), ("D0_decayTime".toList, 12), ("tag".toList, 13)] := by decide +kernel

omit [Field K] in
/-- **C25 (partial)**: with alternative names the same holds if no name of a particle is another name with digits behind it. -/
theorem event_format_alternative_partial (t : EventType K) (hl : t.pickled.length = t.names.length) (halt : t.alt = true) (hs : NoDigitsBehind t.pickled) (hext : t.extensions = []) :
    ((getEventFormat true t true).map Prod.fst).Nodup ∧ ((getEventFormat true t true).map Prod.snd).Perm (List.range t.eventSize) := by
  have hstub : ∀ i < t.size, ∀ j < t.size, stub t true i = stub t true j → i = j := fun i hi j hj h => stub_inj_alt t hl halt hs i j hi hj h
  obtain ⟨_, h2, h3⟩ := format_positions t true hstub (by rw [hext]; exact List.nodup_nil) (by rw [hext]; intro x hx; cases hx)
  rw [hext] at h3
  exact ⟨h2, by simpa using h3⟩

example : NoDigitsBehind ["Xim".toList, "pip".toList, "pip".toList] := by
  intro a ha b hb d hd hdig h
  simp only [List.mem_cons, List.not_mem_nil, or_false] at ha hb
  rcases ha with rfl | rfl | rfl <;> rcases hb with rfl | rfl | rfl
  all_goals
    cases d with
    | nil => exact hd rfl
    | cons c d =>
      have hc := hdig c (by simp)
      revert hc h
      simp

/-- **C25**: the alternative names of different particles can be the same: the second `eta(2225)0` and `eta(2)(2250)0`. -/
theorem event_format_alternative_counterexample : ∃ t : EventType ℚ, t.alt = true ∧ t.names = ["eta(2225)0".toList, "eta(2225)0".toList, "eta(2)(2250)0".toList] ∧ t.names.mapM (pickle true) = some t.pickled ∧
    (getEventFormat true t true).length = 8 ∧ t.eventSize = 12 :=
  ⟨⟨"B0".toList, 1, ["eta(2225)0".toList, "eta(2225)0".toList, "eta(2)(2250)0".toList], ["eta22250".toList, "eta22250".toList, "eta222500".toList], [1, 1, 1], false, [], true⟩,
    rfl, rfl, by decide +kernel, by decide +kernel, rfl⟩

omit [Field K] in
/-- **C25 (partial)**: without energies every component has its own position if there is no decay time. -/
theorem event_format_without_energy_partial (t : EventType K) (out : Bool) (hd : t.alt = false ∨ out = false) (htd : t.timeDependent = false) (hext : t.extensions = []) :
    ((getEventFormat false t out).map Prod.fst).Nodup ∧ (getEventFormat false t out).map Prod.snd = List.range (3 * t.size) := by
  have hstub : ∀ i < t.size, ∀ j < t.size, stub t out i = stub t out j → i = j := by
    intro i _ j _ h
    rcases hd with hd | rfl
    · exact stub_inj_default t hd i j out h
    · exact toDigits_inj h
  have hn := allEntries_nodup t false out hstub
  have hf := format_eq t false out (by rw [hext]; simpa using hn)
  rw [hext] at hf
  simp only [List.zipIdx_nil, List.append_nil] at hf
  rw [hf]
  refine ⟨hn, ?_⟩
  unfold allEntries
  rw [htd]
  simpa using positions_base3 t out t.size

/-- **C25**: without energies the decay time lies outside of the record that is made for reading, and it has the position of an extension. -/
theorem event_format_without_energy_counterexample : ∃ t : EventType ℚ, (∃ kv ∈ getEventFormat false { t with extensions := [] } true, ¬ kv.2 < (getEventFormat false { t with extensions := [] } true).length) ∧
    ∃ kv ∈ getEventFormat false t true, ∃ kv' ∈ getEventFormat false t true, kv.1 ≠ kv'.1 ∧ kv.2 = kv'.2 :=
  ⟨{ exampleType with extensions := ["a".toList, "b".toList, "c".toList] },
    ⟨("D0_decayTime".toList, 12), by decide +kernel, by decide +kernel⟩, ("D0_decayTime".toList, 12), by decide +kernel, ("c".toList, 12), by decide +kernel, by decide, rfl⟩

/-- **C25**: an extension that is given twice takes the position of the next one. -/
theorem event_format_extension_counterexample : ∃ t : EventType ℚ, ∃ kv ∈ getEventFormat true t true, ∃ kv' ∈ getEventFormat true t true, kv.1 ≠ kv'.1 ∧ kv.2 = kv'.2 :=
  ⟨((({ exampleType with extensions := [] }).extend "a".toList).extend "a".toList).extend "b".toList, ("a".toList, 14), by decide +kernel, ("b".toList, 14), by decide +kernel, by decide, rfl⟩

end AmpGen.EventType
