import Verif.EventType.PropsFormat
import Verif.Kinematics.Props
import Mathlib.Data.List.GetD
/-
Reading and writing of events.
-/
namespace AmpGen.EventType
open AmpGen.Strings AmpGen.Kinematics Spec

/-! ### One entry -/

theorem set_size (e : Event) (p : Nat) (v : ℝ) : (e.set p v).size = e.size := rfl

theorem transfer_fold (row : Row) (D : Nat → ℝ) : ∀ (L : List (Str × Nat)) (temp : Event), (∀ b ∈ L, row b.1 = some (D b.2)) →
    (L.foldl (fun (e : Event) (b : Str × Nat) => match row b.1 with
      | some v => e.set b.2 v
      | none => e) temp).size = temp.size ∧
    ∀ p, (L.foldl (fun (e : Event) (b : Str × Nat) => match row b.1 with
      | some v => e.set b.2 v
      | none => e) temp).data p = if p ∈ L.map Prod.snd then D p else temp.data p
  | [], temp, _ => by simp
  | b :: L, temp, h => by
    rw [List.foldl_cons]
    have hb := h b (by simp)
    simp only [hb]
    obtain ⟨h1, h2⟩ := transfer_fold row D L (temp.set b.2 (D b.2)) fun b' hb' => h b' (List.mem_cons_of_mem _ hb')
    refine ⟨h1, fun p => ?_⟩
    rw [h2 p]
    by_cases hp : p ∈ L.map Prod.snd
    · rw [if_pos hp, if_pos (by rw [List.map_cons]; exact List.mem_cons_of_mem _ hp)]
    · rw [if_neg hp]
      by_cases hpb : p = b.2
      · rw [if_pos (by rw [List.map_cons, hpb]; exact List.mem_cons_self)]
        simp [Event.set, hpb]
      · rw [if_neg (by rw [List.map_cons, List.mem_cons]; exact fun h => h.elim hpb hp)]
        simp [Event.set, hpb]

theorem transfer_spec (row : Row) (D : Nat → ℝ) (L : List (Str × Nat)) (temp : Event) (h : ∀ b ∈ L, row b.1 = some (D b.2)) (hs : ∀ b ∈ L, b.2 < temp.size) :
    ∃ e, transfer row L temp = some e ∧ e.size = temp.size ∧ ∀ p, e.data p = if p ∈ L.map Prod.snd then D p else temp.data p := by
  obtain ⟨h1, h2⟩ := transfer_fold row D L temp h
  exact ⟨_, by unfold transfer; rw [if_pos hs]; rfl, h1, h2⟩

theorem scale_spec (units : ℝ) (temp : Event) : ∀ n, (scale units n temp).size = temp.size ∧ ∀ p, (scale units n temp).data p = if p < n then temp.data p * units else temp.data p
  | 0 => by simp [scale]
  | n + 1 => by
    obtain ⟨h1, h2⟩ := scale_spec units temp n
    have e : scale units (n + 1) temp = (scale units n temp).set n ((scale units n temp).data n * units) := by
      unfold scale
      rw [List.range_succ, List.foldl_append, List.foldl_cons, List.foldl_nil]
    rw [e]
    refine ⟨h1, fun p => ?_⟩
    show (if p = n then _ else _) = _
    by_cases hp : p = n
    · subst hp
      rw [if_pos rfl, if_pos (by omega), h2 p, if_neg (by omega)]
    · rw [if_neg hp, h2 p]
      by_cases hpn : p < n
      · rw [if_pos hpn, if_pos (by omega)]
      · rw [if_neg hpn, if_neg (by omega)]

/-- The energy of the particle `k`. -/
noncomputable def energyOf (t : EventType ℝ) (e : Event) (k : Nat) : ℝ :=
  √(t.masses.getD k 0 * t.masses.getD k 0 + e.data (4 * k) * e.data (4 * k) + e.data (4 * k + 1) * e.data (4 * k + 1) + e.data (4 * k + 2) * e.data (4 * k + 2))

theorem energies_loop (t : EventType ℝ) (temp : Event) : ∀ n,
    ((List.range n).foldl (fun (e : Event) (k : Nat) =>
      e.set (4 * k + 3) (√(t.masses.getD k 0 * t.masses.getD k 0 + e.data (4 * k + 0) * e.data (4 * k + 0) + e.data (4 * k + 1) * e.data (4 * k + 1) + e.data (4 * k + 2) * e.data (4 * k + 2)))) temp).size = temp.size ∧
    ∀ p, ((List.range n).foldl (fun (e : Event) (k : Nat) =>
      e.set (4 * k + 3) (√(t.masses.getD k 0 * t.masses.getD k 0 + e.data (4 * k + 0) * e.data (4 * k + 0) + e.data (4 * k + 1) * e.data (4 * k + 1) + e.data (4 * k + 2) * e.data (4 * k + 2)))) temp).data p =
      if p < 4 * n ∧ p % 4 = 3 then energyOf t temp (p / 4) else temp.data p
  | 0 => by simp
  | n + 1 => by
    obtain ⟨h1, h2⟩ := energies_loop t temp n
    rw [List.range_succ, List.foldl_append, List.foldl_cons, List.foldl_nil]
    obtain ⟨e, he⟩ : ∃ e, (List.range n).foldl (fun (e : Event) (k : Nat) =>
      e.set (4 * k + 3) (√(t.masses.getD k 0 * t.masses.getD k 0 + e.data (4 * k + 0) * e.data (4 * k + 0) + e.data (4 * k + 1) * e.data (4 * k + 1) + e.data (4 * k + 2) * e.data (4 * k + 2)))) temp = e := ⟨_, rfl⟩
    rw [he] at h1 h2 ⊢
    refine ⟨h1, fun p => ?_⟩
    show (if p = 4 * n + 3 then _ else _) = _
    by_cases hp : p = 4 * n + 3
    · rw [if_pos hp, if_pos (by omega), h2, h2, h2, if_neg (by omega), if_neg (by omega), if_neg (by omega), show p / 4 = n by omega]
      rfl
    · rw [if_neg hp, h2 p]
      by_cases hpn : p < 4 * n ∧ p % 4 = 3
      · rw [if_pos hpn, if_pos (by omega)]
      · rw [if_neg hpn, if_neg (by omega)]

theorem setEnergies_spec (t : EventType ℝ) (temp : Event) : (setEnergies t temp).size = temp.size ∧
    ∀ p, (setEnergies t temp).data p = if p < 4 * t.size ∧ p % 4 = 3 then energyOf t temp (p / 4) else temp.data p := energies_loop t temp t.size

/-! ### All entries -/

theorem load_loop (t : EventType ℝ) (branches : List Str) (units : ℝ) (weightBranch : Str) (size : Nat) (Q : Row → Prop) (P : Row → Event → Prop)
    (hstep : ∀ (row : Row) (e : Event), Q row → e.size = size → ∃ e', transfer row (readPositions t branches) e = some e' ∧ (processEvent t branches units e').size = size ∧ P row (processEvent t branches units e')) :
    ∀ (rows : List Row) (temp : Record), (∀ row ∈ rows, Q row) → temp.evt.size = size →
      ∃ out, loadLoop t branches units weightBranch rows temp = some out ∧ List.Forall₂ (fun row (r : Record) => r.evt.size = size ∧ P row r.evt ∧ (∀ g, row "genPdf".toList = some g → r.genPdf = g) ∧
        (weightBranch = [] → r.weight = temp.weight) ∧ (weightBranch ≠ [] → ∀ w, row weightBranch = some w → r.weight = w)) rows out
  | [], _, _, _ => ⟨[], rfl, List.Forall₂.nil⟩
  | row :: rows, temp, hq, hs => by
    obtain ⟨e', h1, h2, h3⟩ := hstep row temp.evt (hq row (by simp)) hs
    let next : Record := ⟨processEvent t branches units e', if weightBranch ≠ [] then (row weightBranch).getD temp.weight else temp.weight, (row "genPdf".toList).getD temp.genPdf⟩
    obtain ⟨out, h4, h5⟩ := load_loop t branches units weightBranch size Q P hstep rows next (fun r hr => hq r (List.mem_cons_of_mem _ hr)) h2
    refine ⟨next :: out, ?_, List.Forall₂.cons ⟨h2, h3, ?_, ?_, ?_⟩ ?_⟩
    · unfold loadLoop
      rw [h1]
      show (loadLoop t branches units weightBranch rows next).bind (fun rest => some (next :: rest)) = _
      rw [h4]
      rfl
    · intro g hg
      show (row "genPdf".toList).getD temp.genPdf = g
      rw [hg]; rfl
    · intro hw
      show (if weightBranch ≠ [] then _ else _) = _
      rw [if_neg (not_not.2 hw)]
    · intro hw w hww
      show (if weightBranch ≠ [] then _ else _) = _
      rw [if_pos hw, hww]; rfl
    · refine h5.imp ?_
      rintro r x ⟨a, b, c, d, e⟩
      refine ⟨a, b, c, fun hw => ?_, e⟩
      rw [d hw]
      show (if weightBranch ≠ [] then _ else _) = _
      rw [if_neg (not_not.2 hw)]

/-! ### The format without extensions -/

theorem format_plain (t : EventType ℝ) (halt : t.alt = false) (hext : t.extensions = []) :
    ((getEventFormat true t true).map Prod.fst).Nodup ∧ ((getEventFormat true t true).map Prod.snd).Perm (List.range t.eventSize) := by
  have := event_format_partial t true (Or.inl halt) (by rw [hext]; exact List.nodup_nil) (by rw [hext]; intro x hx; cases hx)
  refine ⟨this.1, ?_⟩
  have h2 := this.2.1
  rw [hext] at h2
  exact h2

theorem format_length (t : EventType ℝ) (halt : t.alt = false) (hext : t.extensions = []) : (getEventFormat true t true).length = t.eventSize := by
  have := (format_plain t halt hext).2.length_eq
  simpa using this

theorem lookup_of_mem {L : List (Str × Nat)} (hnd : (L.map Prod.fst).Nodup) {b : Str × Nat} (hb : b ∈ L) : L.lookup b.1 = some b.2 := by
  induction L with
  | nil => cases hb
  | cons a L ih =>
    rw [List.map_cons, List.nodup_cons] at hnd
    rcases List.mem_cons.1 hb with rfl | hb
    · simp [List.lookup]
    · have hne : (b.1 == a.1) = false := by
        rw [beq_eq_false_iff_ne]
        intro h
        exact hnd.1 (h ▸ List.mem_map_of_mem hb)
      rw [List.lookup, hne]
      exact ih hnd.2 hb

theorem lookup_none {L : List (Str × Nat)} {k : Str} (h : k ∉ L.map Prod.fst) : L.lookup k = none := by
  induction L with
  | nil => rfl
  | cons a L ih =>
    rw [List.map_cons, List.mem_cons, not_or] at h
    rw [List.lookup, beq_eq_false_iff_ne.2 h.1]
    exact ih h.2

/-! ### The properties -/

/-- **C72.** Writing a list of events to a tree and reading it again with the branch of the weights gives the same events: all numbers of the record, weights and densities of generation.
The event type has no extensions, and none of its branches has the name of one of the two other branches. -/
theorem write_read (t : EventType ℝ) (halt : t.alt = false) (hext : t.extensions = []) (hw : "weight".toList ∉ (getEventFormat true t true).map Prod.fst) (hg : "genPdf".toList ∉ (getEventFormat true t true).map Prod.fst)
    (events : List Record) : ∃ out, loadFromTree t [] 1 "weight".toList (events.map (writeRow t)) = some out ∧
      List.Forall₂ (fun (r r' : Record) => r'.evt.size = t.eventSize ∧ (∀ p < t.eventSize, r'.evt.data p = r.evt.data p) ∧ r'.weight = r.weight ∧ r'.genPdf = r.genPdf) events out := by
  obtain ⟨h1, h2⟩ := format_plain t halt hext
  have hlen := format_length t halt hext
  obtain ⟨out, ho, hf⟩ := load_loop t [] 1 "weight".toList t.eventSize (fun row => ∃ r, row = writeRow t r) (fun row e => ∀ r, row = writeRow t r → ∀ p < t.eventSize, e.data p = r.evt.data p) (by
      rintro row e ⟨r, rfl⟩ he
      have hrow : ∀ b ∈ readPositions t [], writeRow t r b.1 = some (r.evt.data b.2) := by
        intro b hb
        unfold writeRow
        rw [lookup_of_mem h1 hb]
      have hpos : ∀ b ∈ readPositions t [], b.2 < e.size := by
        intro b hb
        rw [he]
        exact List.mem_range.1 (h2.mem_iff.1 (List.mem_map_of_mem hb))
      obtain ⟨e', t1, t2, t3⟩ := transfer_spec (writeRow t r) r.evt.data (readPositions t []) e hrow hpos
      have hp : processEvent t [] 1 e' = e' := by
        unfold processEvent
        simp
      refine ⟨e', t1, by rw [hp, t2, he], ?_⟩
      intro r' hr' p hpl
      have hm : p ∈ (readPositions t []).map Prod.snd := h2.mem_iff.2 (List.mem_range.2 hpl)
      rw [hp, t3 p, if_pos hm]
      obtain ⟨b, hb, rfl⟩ := List.mem_map.1 hm
      have e1 := hrow b hb
      rw [hr'] at e1
      unfold writeRow at e1
      rw [lookup_of_mem h1 hb] at e1
      exact (Option.some.inj e1).symm) (events.map (writeRow t)) ⟨⟨(getEventFormat true t true).length, fun _ => 0⟩, 1, 1⟩ (by
      intro row hr
      obtain ⟨r, _, rfl⟩ := List.mem_map.1 hr
      exact ⟨r, rfl⟩) hlen
  refine ⟨out, ho, ?_⟩
  rw [List.forall₂_map_left_iff] at hf
  refine hf.imp ?_
  rintro r r' ⟨a, b, c, _, d⟩
  refine ⟨a, b r rfl, d (by decide) r.weight ?_, c r.genPdf ?_⟩
  · unfold writeRow
    rw [lookup_none hw]
    rfl
  · unfold writeRow
    rw [lookup_none hg]
    rfl

/-- **C72.** With the default arguments the weights are not read: every event has weight one, whatever was written. -/
theorem write_read_default (t : EventType ℝ) (branches : List Str) (units : ℝ) (rows : List Row) (out : List Record) (h : loadFromTree t branches units [] rows = some out) : ∀ r ∈ out, r.weight = 1 := by
  have key : ∀ (rows : List Row) (temp : Record) (out : List Record), loadLoop t branches units [] rows temp = some out → ∀ r ∈ out, r.weight = temp.weight := by
    intro rows
    induction rows with
    | nil =>
      intro temp out h r hr
      cases h
      cases hr
    | cons row rows ih =>
      intro temp out h r hr
      unfold loadLoop at h
      cases ht : transfer row (readPositions t branches) temp.evt with
      | none => rw [ht] at h; cases h
      | some e =>
        rw [ht] at h
        change (loadLoop t branches units [] rows ⟨processEvent t branches units e, if ([] : Str) ≠ [] then _ else temp.weight, _⟩).bind _ = _ at h
        cases hl : loadLoop t branches units [] rows ⟨processEvent t branches units e, if ([] : Str) ≠ [] then (row []).getD temp.weight else temp.weight, (row "genPdf".toList).getD temp.genPdf⟩ with
        | none => rw [hl] at h; cases h
        | some rest =>
          rw [hl] at h
          cases h
          rcases List.mem_cons.1 hr with rfl | hr
          · rfl
          · rw [ih _ _ hl r hr]
            rfl
  exact key rows _ out h

/-- The value of a branch of an entry. -/
noncomputable def value (row : Row) (branches : List Str) (p : Nat) : ℝ := (row (branches.getD p [])).getD 0

theorem read_positions (t : EventType ℝ) (branches : List Str) (hne : branches ≠ []) (b : Str × Nat) (hb : b ∈ readPositions t branches) :
    ∃ p, p < branches.length ∧ b.1 = branches.getD p [] ∧ b.2 = branchPosition branches.length t.size p := by
  unfold readPositions at hb
  rw [if_pos hne] at hb
  obtain ⟨⟨n, p⟩, hm, rfl⟩ := List.mem_map.1 hb
  have := List.mem_zipIdx_iff_getElem?.1 hm
  obtain ⟨hp, hv⟩ := List.getElem?_eq_some_iff.1 this
  refine ⟨p, hp, ?_, rfl⟩
  rw [List.getD_eq_getElem _ _ hp]
  exact hv.symm

theorem mem_read_positions (t : EventType ℝ) (branches : List Str) (p : Nat) (hp : p < branches.length) : branchPosition branches.length t.size p ∈ (readPositions t branches).map Prod.snd := by
  have hne : branches ≠ [] := by
    rintro rfl
    simp at hp
  unfold readPositions
  rw [if_pos hne, List.map_map]
  apply List.mem_map.2
  exact ⟨(branches[p], p), List.mem_zipIdx_iff_getElem?.2 (List.getElem?_eq_getElem hp), rfl⟩

/-- **C72.** Three branches for each particle: the components of the momenta are the values of the branches in the units given, and the energies are those of particles with the masses of the event type. -/
theorem read_momenta (t : EventType ℝ) (halt : t.alt = false) (hext : t.extensions = []) (branches : List Str) (hb : branches.length = 3 * t.size) (hn : 0 < t.size) (units : ℝ) (weightBranch : Str) (rows : List Row)
    (hrows : ∀ row ∈ rows, ∀ b ∈ branches, (row b).isSome) :
    ∃ out, loadFromTree t branches units weightBranch rows = some out ∧ List.Forall₂ (fun row (r : Record) => ∀ i < t.size,
      let p := momentum r.evt i
      p.x = value row branches (3 * i) * units ∧ p.y = value row branches (3 * i + 1) * units ∧ p.z = value row branches (3 * i + 2) * units ∧
      p.E = √(t.masses.getD i 0 * t.masses.getD i 0 + p.x * p.x + p.y * p.y + p.z * p.z)) rows out := by
  have hlen := format_length t halt hext
  have hes : 4 * t.size ≤ t.eventSize := by unfold EventType.eventSize; omega
  have hne : branches ≠ [] := by
    rintro rfl
    simp at hb
    omega
  have hpos : ∀ p, branchPosition branches.length t.size p = 4 * (p / 3) + p % 3 := by
    intro p
    unfold branchPosition
    rw [if_neg (by omega)]
  obtain ⟨out, ho, hf⟩ := load_loop t branches units weightBranch t.eventSize (fun row => ∀ b ∈ branches, (row b).isSome) (fun row e => ∀ i < t.size,
      (momentum e i).x = value row branches (3 * i) * units ∧ (momentum e i).y = value row branches (3 * i + 1) * units ∧ (momentum e i).z = value row branches (3 * i + 2) * units ∧
      (momentum e i).E = √(t.masses.getD i 0 * t.masses.getD i 0 + (momentum e i).x * (momentum e i).x + (momentum e i).y * (momentum e i).y + (momentum e i).z * (momentum e i).z)) (by
      intro row e hq he
      have hrow : ∀ b ∈ readPositions t branches, row b.1 = some (value row branches (3 * (b.2 / 4) + b.2 % 4)) := by
        intro b hbm
        obtain ⟨p, hp, h1, h2⟩ := read_positions t branches hne b hbm
        rw [h2, hpos p, show 3 * ((4 * (p / 3) + p % 3) / 4) + (4 * (p / 3) + p % 3) % 4 = p by omega, h1]
        unfold value
        have hm : branches.getD p [] ∈ branches := by
          rw [List.getD_eq_getElem _ _ hp]
          exact List.getElem_mem hp
        obtain ⟨v, hv⟩ := Option.isSome_iff_exists.1 (hq _ hm)
        rw [hv]; rfl
      have hin : ∀ b ∈ readPositions t branches, b.2 < e.size := by
        intro b hbm
        obtain ⟨p, hp, _, h2⟩ := read_positions t branches hne b hbm
        rw [h2, hpos p, he]
        omega
      obtain ⟨e', t1, t2, t3⟩ := transfer_spec row (fun q => value row branches (3 * (q / 4) + q % 4)) (readPositions t branches) e hrow hin
      have hval : ∀ i < t.size, ∀ c < 3, e'.data (4 * i + c) = value row branches (3 * i + c) := by
        intro i hi c hc
        have hm := mem_read_positions t branches (3 * i + c) (by omega)
        rw [hpos, show 4 * ((3 * i + c) / 3) + (3 * i + c) % 3 = 4 * i + c by omega] at hm
        rw [t3, if_pos hm]
        show value row branches (3 * ((4 * i + c) / 4) + (4 * i + c) % 4) = _
        rw [show 3 * ((4 * i + c) / 4) + (4 * i + c) % 4 = 3 * i + c by omega]
      have hproc : processEvent t branches units e' = setEnergies t (if units ≠ 1 then scale units t.eventSize e' else e') := by
        unfold processEvent
        simp only [hlen]
        rw [if_neg (by omega)]
      obtain ⟨e2, he2⟩ : ∃ e2, (if units ≠ 1 then scale units t.eventSize e' else e') = e2 := ⟨_, rfl⟩
      have h2s : e2.size = t.eventSize ∧ ∀ i < t.size, ∀ c < 3, e2.data (4 * i + c) = value row branches (3 * i + c) * units := by
        rw [← he2]
        by_cases hu : units = 1
        · rw [if_neg (not_not.2 hu)]
          refine ⟨t2.trans he, fun i hi c hc => ?_⟩
          rw [hval i hi c hc, hu, mul_one]
        · rw [if_pos hu]
          obtain ⟨s1, s2⟩ := scale_spec units e' t.eventSize
          refine ⟨s1.trans (t2.trans he), fun i hi c hc => ?_⟩
          rw [s2, if_pos (by omega), hval i hi c hc]
      rw [he2] at hproc
      obtain ⟨g1, g2⟩ := setEnergies_spec t e2
      refine ⟨e', t1, by rw [hproc, g1, h2s.1], ?_⟩
      rw [hproc]
      intro i hi
      have c0 : (setEnergies t e2).data (4 * i) = e2.data (4 * i) := by rw [g2, if_neg (by omega)]
      have c1 : (setEnergies t e2).data (4 * i + 1) = e2.data (4 * i + 1) := by rw [g2, if_neg (by omega)]
      have c2 : (setEnergies t e2).data (4 * i + 2) = e2.data (4 * i + 2) := by rw [g2, if_neg (by omega)]
      have c3 : (setEnergies t e2).data (4 * i + 3) = energyOf t e2 i := by rw [g2, if_pos (by omega), show (4 * i + 3) / 4 = i by omega]
      simp only [momentum]
      refine ⟨c0.trans (h2s.2 i hi 0 (by omega)), c1.trans (h2s.2 i hi 1 (by omega)), c2.trans (h2s.2 i hi 2 (by omega)), ?_⟩
      rw [c3, c0, c1, c2]
      rfl) rows ⟨⟨(getEventFormat true t true).length, fun _ => 0⟩, 1, 1⟩ hrows hlen
  exact ⟨out, ho, hf.imp fun row r h => h.2.1⟩

/-- **C72.** Four branches for each particle: the components of the momenta and the energies are the values of the branches in the units given. -/
theorem read_four_momenta (t : EventType ℝ) (halt : t.alt = false) (hext : t.extensions = []) (branches : List Str) (hb : branches.length = 4 * t.size) (hn : 0 < t.size) (units : ℝ) (weightBranch : Str) (rows : List Row)
    (hrows : ∀ row ∈ rows, ∀ b ∈ branches, (row b).isSome) :
    ∃ out, loadFromTree t branches units weightBranch rows = some out ∧ List.Forall₂ (fun row (r : Record) => ∀ i < t.size,
      momentum r.evt i = ⟨value row branches (4 * i) * units, value row branches (4 * i + 1) * units, value row branches (4 * i + 2) * units, value row branches (4 * i + 3) * units⟩) rows out := by
  have hlen := format_length t halt hext
  have hes : 4 * t.size ≤ t.eventSize := by unfold EventType.eventSize; omega
  have hne : branches ≠ [] := by
    rintro rfl
    simp at hb
    omega
  have hpos : ∀ p, branchPosition branches.length t.size p = p := by
    intro p
    unfold branchPosition
    rw [if_pos (Or.inr hb)]
  obtain ⟨out, ho, hf⟩ := load_loop t branches units weightBranch t.eventSize (fun row => ∀ b ∈ branches, (row b).isSome) (fun row e => ∀ q < 4 * t.size, e.data q = value row branches q * units) (by
      intro row e hq he
      have hrow : ∀ b ∈ readPositions t branches, row b.1 = some (value row branches b.2) := by
        intro b hbm
        obtain ⟨p, hp, h1, h2⟩ := read_positions t branches hne b hbm
        rw [h2, hpos p, h1]
        unfold value
        have hm : branches.getD p [] ∈ branches := by
          rw [List.getD_eq_getElem _ _ hp]
          exact List.getElem_mem hp
        obtain ⟨v, hv⟩ := Option.isSome_iff_exists.1 (hq _ hm)
        rw [hv]; rfl
      have hin : ∀ b ∈ readPositions t branches, b.2 < e.size := by
        intro b hbm
        obtain ⟨p, hp, _, h2⟩ := read_positions t branches hne b hbm
        rw [h2, hpos p, he]
        omega
      obtain ⟨e', t1, t2, t3⟩ := transfer_spec row (fun q => value row branches q) (readPositions t branches) e hrow hin
      have hval : ∀ q < 4 * t.size, e'.data q = value row branches q := by
        intro q hq
        have hm := mem_read_positions t branches q (by omega)
        rw [hpos] at hm
        rw [t3, if_pos hm]
      have hproc : processEvent t branches units e' = if units ≠ 1 then scale units t.eventSize e' else e' := by
        unfold processEvent
        simp only [hlen]
        rw [if_pos (Or.inr hb)]
      refine ⟨e', t1, ?_⟩
      rw [hproc]
      by_cases hu : units = 1
      · rw [if_neg (not_not.2 hu)]
        refine ⟨t2.trans he, fun q hq => ?_⟩
        rw [hval q hq, hu, mul_one]
      · rw [if_pos hu]
        obtain ⟨s1, s2⟩ := scale_spec units e' t.eventSize
        refine ⟨s1.trans (t2.trans he), fun q hq => ?_⟩
        rw [s2, if_pos (by omega), hval q hq]) rows ⟨⟨(getEventFormat true t true).length, fun _ => 0⟩, 1, 1⟩ hrows hlen
  refine ⟨out, ho, hf.imp ?_⟩
  rintro row r ⟨_, h, _⟩ i hi
  simp only [momentum]
  rw [h _ (by omega), h _ (by omega), h _ (by omega), h _ (by omega)]

/-- **C72, decay times.** With a branch for the decay time besides four branches for each particle nothing can be read: the branches are taken for those of the three components of the momenta, and a value is written outside of the event. -/
theorem read_decay_time_counterexample (t : EventType ℝ) (halt : t.alt = false) (hext : t.extensions = []) (htd : t.timeDependent = true) (hn : 2 ≤ t.size) (branches : List Str) (hb : branches.length = 4 * t.size + 1)
    (units : ℝ) (weightBranch : Str) (row : Row) (rows : List Row) : loadFromTree t branches units weightBranch (row :: rows) = none := by
  have hlen := format_length t halt hext
  have hes : t.eventSize = 4 * t.size + 1 := by unfold EventType.eventSize; rw [htd]; rfl
  unfold loadFromTree loadLoop
  have : transfer row (readPositions t branches) ⟨(getEventFormat true t true).length, fun _ => 0⟩ = none := by
    unfold transfer
    rw [if_neg]
    intro h
    have hm := mem_read_positions t branches (4 * t.size) (by omega)
    obtain ⟨b, hbm, hb2⟩ := List.mem_map.1 hm
    have h2 := h b hbm
    rw [hb2] at h2
    unfold branchPosition at h2
    rw [if_neg (by omega)] at h2
    change _ < (getEventFormat true t true).length at h2
    omega
  simp only [this]
  rfl

/-- **C72, units.** The units are those of momenta, but the decay time is multiplied with them as well. -/
theorem read_units_counterexample (t : EventType ℝ) (units : ℝ) (hu : units ≠ 1) (halt : t.alt = false) (hext : t.extensions = []) (htd : t.timeDependent = true) (temp : Event) :
    (processEvent t [] units temp).data (4 * t.size) = temp.data (4 * t.size) * units := by
  have hlen := format_length t halt hext
  have hes : t.eventSize = 4 * t.size + 1 := by unfold EventType.eventSize; rw [htd]; rfl
  unfold processEvent
  simp only
  rw [if_pos hu, if_pos (Or.inl List.length_nil), (scale_spec units temp _).2, if_pos (by omega)]

/-! ### Selection of entries -/

/-- **C73 (partial).** With a filter that at least one entry passes, and no list of entries, the events that pass are read, in their order. Missing: no entry passes, or there is a list of entries too. -/
theorem filter_selects_partial (n : Nat) (f : Nat → Bool) (h : ∃ k < n, f k = true) : selectEntries n [] (some f) = (List.range n).filter f := by
  unfold selectEntries
  simp only [List.nil_append]
  rw [if_pos]
  obtain ⟨k, hk, hf⟩ := h
  exact List.ne_nil_of_mem (List.mem_filter.2 ⟨List.mem_range.2 hk, hf⟩)

/-- **C73, the general claim is false.** With a filter that no entry passes all entries are read. -/
theorem filter_selects_counterexample (n : Nat) (f : Nat → Bool) (h : ∀ k < n, f k = false) : selectEntries n [] (some f) = List.range n := by
  unfold selectEntries
  simp only [List.nil_append]
  have : (List.range n).filter f = [] := by
    rw [List.filter_eq_nil_iff]
    intro k hk
    rw [h k (List.mem_range.1 hk)]
    decide
  rw [this, if_neg (not_not.2 rfl)]

/-- **C73, the general claim is false.** With a list and a filter the entries of the list are read although they do not pass the filter, contrary to the warning. -/
theorem filter_list_counterexample : ∃ (n : Nat) (l : List Nat) (f : Nat → Bool), selectEntries n l (some f) = [0, 1, 1] ∧ f 0 = false ∧ f 1 = true := ⟨2, [0, 1], fun k => k == 1, by decide⟩

/-- **C73.** A list of entries alone is read as it is given, and without list and filter all entries are read in their order. -/
theorem entry_list_selects (n : Nat) (l : List Nat) : (l ≠ [] → selectEntries n l none = l) ∧ selectEntries n [] none = List.range n := by
  constructor
  · intro h
    unfold selectEntries
    rw [if_pos h]
  · rfl

/-- **C73, the general claim is false.** An iteration over a tree with a list of entries reads the element behind the end of the list. -/
theorem entry_list_access_counterexample (n : Nat) (l : List Nat) (h : l ≠ []) : none ∈ accessed n l := by
  unfold accessed
  simp only [if_neg h]
  apply List.mem_map.2
  exact ⟨l.length, List.mem_range.2 (by omega), by simp⟩

/-- A decay of a meson with a decay time. -/
noncomputable def exampleDecay : EventType ℝ := ⟨"D0".toList, 2, ["K-".toList, "pi+".toList], ["K#".toList, "pi~".toList], [1, 1], true, [], false⟩

theorem exampleDecay_format : (getEventFormat true exampleDecay true).map Prod.fst = ["_1_K#_E", "_1_K#_Px", "_1_K#_Py", "_1_K#_Pz", "_2_pi~_E", "_2_pi~_Px", "_2_pi~_Py", "_2_pi~_Pz", "D0_decayTime"].map String.toList := by
  decide +kernel

/-- The event type can be written and read. -/
example : exampleDecay.alt = false ∧ exampleDecay.extensions = [] ∧ "weight".toList ∉ (getEventFormat true exampleDecay true).map Prod.fst ∧ "genPdf".toList ∉ (getEventFormat true exampleDecay true).map Prod.fst ∧
    exampleDecay.timeDependent = true ∧ 2 ≤ exampleDecay.size := by
  rw [exampleDecay_format]
  refine ⟨rfl, rfl, by decide, by decide, rfl, ?_⟩
  show 2 ≤ 2
  omega

/-- Three branches for each particle. -/
example : ["a", "b", "c", "d", "e", "f"].length = 3 * exampleDecay.size ∧ (0 < exampleDecay.size) := ⟨rfl, by show 0 < 2; omega⟩

example : ∃ k < 3, (fun k => k == 1 : Nat → Bool) k = true := ⟨1, by decide⟩

end AmpGen.EventType
