import Verif.Generator.Spec
import Mathlib.Tactic.Ring
import Mathlib.Tactic.Linarith
import Mathlib.Tactic.NormNum
namespace AmpGen.Generator
open Spec

variable {K σ : Type} [Field K] [LinearOrder K] [IsStrictOrderedRing K]

omit [LinearOrder K] [IsStrictOrderedRing K] in
theorem calls_length {α : Type} (f : σ → α × σ) : ∀ (n : Nat) (s : σ), (calls f n s).1.length = n
  | 0, _ => rfl
  | n + 1, s => by simp [calls, calls_length f n]

omit [LinearOrder K] [IsStrictOrderedRing K] in
theorem fill_phase (fill : σ → List K × σ) (n : Nat) : ∀ (m a : Nat) (s : σ),
    fillEventListPhaseSpace (.phaseSpace fill) ((List.range' a m).map fun i => (⟨List.replicate (4 * n) 0, some 1, 1, i⟩ : Event K)) s =
      (((calls fill m s).1.zipIdx a).map (fun d => ⟨d.1, some 1, 1, d.2⟩), (calls fill m s).2)
  | 0, _, _ => rfl
  | m + 1, a, s => by
    simp only [List.range'_succ, List.map_cons, fillEventListPhaseSpace, calls, List.zipIdx_cons]
    rw [fill_phase fill n m (a + 1) (fill s).2]

omit [LinearOrder K] [IsStrictOrderedRing K] in
theorem fill_other (mk : σ → Event K × σ) : ∀ (es : List (Event K)) (s : σ), fillEventListPhaseSpace (.other mk) es s = calls mk es.length s
  | [], _ => rfl
  | e :: es, s => by
    simp only [fillEventListPhaseSpace, calls, List.length_cons]
    rw [fill_other mk es (mk s).2]

omit [LinearOrder K] [IsStrictOrderedRing K] in
theorem fill_spec (gps : PhaseSpace K σ) (n m : Nat) (s : σ) : fillEventListPhaseSpace gps (resize n m) s = proposals gps m s := by
  cases gps with
  | phaseSpace fill => simp only [resize, List.range_eq_range', fill_phase, proposals]
  | other mk => simp [resize, fill_other, proposals]

omit [LinearOrder K] [IsStrictOrderedRing K] in
theorem proposals_length (gps : PhaseSpace K σ) (m : Nat) (s : σ) : (proposals gps m s).1.length = m := by
  cases gps with
  | phaseSpace fill => simp [proposals, calls_length]
  | other mk => simp [proposals, calls_length]

omit [LinearOrder K] [IsStrictOrderedRing K] in
theorem calls_forall {α : Type} (f : σ → α × σ) (P : α → Prop) (h : ∀ s, P (f s).1) : ∀ (n : Nat) (s : σ), ∀ a ∈ (calls f n s).1, P a
  | 0, _, _, ha => by simp [calls] at ha
  | n + 1, s, a, ha => by
    simp only [calls, List.mem_cons] at ha
    rcases ha with rfl | ha
    · exact h s
    · exact calls_forall f P h n _ a ha

omit [LinearOrder K] [IsStrictOrderedRing K] in
theorem proposals_range (gps : PhaseSpace K σ) (m : Nat) (s : σ) (h : InRange gps m) : ∀ e ∈ (proposals gps m s).1, e.index < m := by
  cases gps with
  | phaseSpace fill =>
    intro e he
    simp only [proposals, List.mem_map] at he
    obtain ⟨d, hd, rfl⟩ := he
    have := List.snd_lt_of_mem_zipIdx hd
    simpa [calls_length] using this
  | other mk => exact calls_forall mk (fun e => e.index < m) h m s

omit [LinearOrder K] [IsStrictOrderedRing K] in
theorem stored_cons (pdf : List K → Option K) (a : Nat) (e : Event K) (es : List (Event K)) :
    stored pdf a (e :: es) = { e with index := a, genPdf := pdf e.data } :: stored pdf (a + 1) es := rfl

omit [LinearOrder K] [IsStrictOrderedRing K] in
theorem stored_append (pdf : List K → Option K) : ∀ (a : Nat) (es fs : List (Event K)), stored pdf a (es ++ fs) = stored pdf a es ++ stored pdf (a + es.length) fs := by
  intro a es fs
  simp [stored, List.zipIdx_append]

omit [LinearOrder K] [IsStrictOrderedRing K] in
theorem stored_length (pdf : List K → Option K) (a : Nat) (es : List (Event K)) : (stored pdf a es).length = es.length := by simp [stored]

omit [LinearOrder K] [IsStrictOrderedRing K] in
theorem stored_evaluate (pdf : List K → Option K) (f : Event K → Event K) (hf : ∀ e, (f e).data = e.data ∧ (f e).weight = e.weight) :
    ∀ (a : Nat) (es : List (Event K)), stored pdf a (es.map f) = stored pdf a es
  | _, [] => rfl
  | a, e :: es => by
    rw [List.map_cons, stored_cons, stored_cons, stored_evaluate pdf f hf (a + 1) es, (hf e).1]
    congr 1
    rw [Event.mk.injEq]
    exact ⟨rfl, rfl, (hf e).2, rfl⟩

/-- The accepted trials of a block whose events carry their densities. -/
def acc (M : K) (l : List (Event K × K)) : List (Event K × K) := l.filter fun t => accepted t.1.genPdf M t.2

omit [IsStrictOrderedRing K] in
theorem scan_spec (rndm : σ → K × σ) (pdf : List K → Option K) (M : K) (size0 N : Nat) : ∀ (es : List (Event K)) (st : State K σ),
    (∀ e ∈ es, e.index < st.report.length) → size0 ≤ st.list.length → st.list.length - size0 < N →
    ∃ st', scan rndm pdf M size0 N es st = some st' ∧
      st'.list = st.list ++ stored pdf st.list.length (((acc M (es.zip (calls rndm es.length st.rnd).1)).take (N - (st.list.length - size0))).map Prod.fst) ∧
      st'.report.length = st.report.length ∧
      ((acc M (es.zip (calls rndm es.length st.rnd).1)).length < N - (st.list.length - size0) → st'.rnd = (calls rndm es.length st.rnd).2) ∧
      ∃ w, st'.warned = st.warned ++ w ∧ (∀ x ∈ w, x ∈ es ∧ gt x.genPdf (some M) = true) ∧
        ∀ t ∈ (acc M (es.zip (calls rndm es.length st.rnd).1)).take (N - (st.list.length - size0)), gt t.1.genPdf (some M) = true → t.1 ∈ w
  | [], st, _, _, _ => by
    refine ⟨st, rfl, ?_, rfl, fun _ => rfl, [], by simp, by simp, by simp [acc]⟩
    simp [acc, stored]
  | e :: es, st, hr, hs, hN => by
    -- the state after this event
    obtain ⟨W, hW⟩ : ∃ W, (if gt e.genPdf (some M) then [e] else []) = W := ⟨_, rfl⟩
    have hWst : ∀ st : State K σ, (if gt e.genPdf (some M) then { st with warned := st.warned ++ [e] } else st) = { st with warned := st.warned ++ W } := by
      intro st
      rw [← hW]
      split <;> simp
    have hWgt : ∀ x ∈ W, x ∈ e :: es ∧ gt x.genPdf (some M) = true := by
      intro x hx
      rw [← hW] at hx
      split at hx
      · rename_i h
        rw [List.mem_singleton] at hx
        subst hx
        exact ⟨List.mem_cons_self, h⟩
      · cases hx
    have hWe : gt e.genPdf (some M) = true → e ∈ W := by
      intro h
      rw [← hW, if_pos h]
      exact List.mem_singleton.2 rfl
    have hmark : ∀ b, mark st.report e.index b = some (st.report.set e.index b) := by
      intro b
      unfold mark
      rw [if_pos (hr e List.mem_cons_self)]
    simp only [scan, hWst]
    by_cases ha : accepted e.genPdf M (rndm st.rnd).1 = true
    · simp only [ha, if_true, hmark, Option.bind_eq_bind, Option.bind_some]
      have hacc : acc M ((e :: es).zip (calls rndm (e :: es).length st.rnd).1) = (e, (rndm st.rnd).1) :: acc M (es.zip (calls rndm es.length (rndm st.rnd).2).1) := by
        simp [acc, calls, ha]
      have htake : ∀ l : List (Event K × K), ((e, (rndm st.rnd).1) :: l).take (N - (st.list.length - size0)) = (e, (rndm st.rnd).1) :: l.take (N - (st.list.length - size0) - 1) := by
        intro l
        obtain ⟨n, hn⟩ : ∃ n, N - (st.list.length - size0) = n + 1 := ⟨N - (st.list.length - size0) - 1, by omega⟩
        rw [hn]; rfl
      have hlen : (push pdf st.list e).length = st.list.length + 1 := by simp [push]
      by_cases hd : (push pdf st.list e).length - size0 = N
      · rw [if_pos hd]
        have h0 : N - (st.list.length - size0) - 1 = 0 := by omega
        refine ⟨_, rfl, ?_, by simp, ?_, W, rfl, hWgt, ?_⟩
        · rw [hacc, htake, h0]
          simp [push, stored]
        · rw [hacc, List.length_cons]
          intro h
          omega
        · rw [hacc, htake, h0]
          intro t ht
          simp only [List.take_zero, List.mem_singleton] at ht
          subst ht
          exact hWe
      · rw [if_neg hd]
        obtain ⟨st', h1, h2, h3, h4, w, h5, h6, h7⟩ := scan_spec rndm pdf M size0 N es
          ⟨push pdf st.list e, (rndm st.rnd).2, st.report.set e.index true, st.warned ++ W⟩
          (by intro x hx; simpa using hr x (List.mem_cons_of_mem _ hx)) (by simp only [hlen]; omega) (by simp only [hlen] at hd ⊢; omega)
        have hrem : N - ((push pdf st.list e).length - size0) = N - (st.list.length - size0) - 1 := by omega
        simp only [hrem] at h2 h4 h7
        refine ⟨st', h1, ?_, by simpa using h3, ?_, W ++ w, ?_, ?_, ?_⟩
        · rw [hacc, htake, List.map_cons, stored_cons, h2]
          simp [push]
        · rw [hacc, List.length_cons]
          intro h
          rw [h4 (by omega)]
          rfl
        · rw [h5]; simp
        · intro x hx
          rcases List.mem_append.1 hx with hx | hx
          · exact hWgt x hx
          · exact ⟨List.mem_cons_of_mem _ (h6 x hx).1, (h6 x hx).2⟩
        · rw [hacc, htake]
          intro t ht hg
          rcases List.mem_cons.1 ht with rfl | ht
          · exact List.mem_append_left _ (hWe hg)
          · exact List.mem_append_right _ (h7 t ht hg)
    · have hacc : acc M ((e :: es).zip (calls rndm (e :: es).length st.rnd).1) = acc M (es.zip (calls rndm es.length (rndm st.rnd).2).1) := by
        simp [acc, calls, ha]
      simp only [ha, Bool.false_eq_true, if_false, hmark, Option.bind_eq_bind, Option.bind_some]
      have hd : ¬ st.list.length - size0 = N := by omega
      rw [if_neg hd]
      obtain ⟨st', h1, h2, h3, h4, w, h5, h6, h7⟩ := scan_spec rndm pdf M size0 N es
        ⟨st.list, (rndm st.rnd).2, st.report.set e.index false, st.warned ++ W⟩
        (by intro x hx; simpa using hr x (List.mem_cons_of_mem _ hx)) hs hN
      refine ⟨st', h1, ?_, by simpa using h3, ?_, W ++ w, ?_, ?_, ?_⟩
      · rw [hacc, h2]
      · rw [hacc]
        intro h
        rw [h4 h]
        rfl
      · rw [h5]; simp
      · intro x hx
        rcases List.mem_append.1 hx with hx | hx
        · exact hWgt x hx
        · exact ⟨List.mem_cons_of_mem _ (h6 x hx).1, (h6 x hx).2⟩
      · rw [hacc]
        intro t ht hg
        exact List.mem_append_right _ (h7 t ht hg)

omit [IsStrictOrderedRing K] in
theorem getMax_aux (es : List (Event K)) : ∀ a : K, let m := es.foldl (fun (max : K) (evt : Event K) => match evt.genPdf with
      | none => max
      | some value => if value > max then value else max) a
    a ≤ m ∧ (∀ e ∈ es, ∀ g, e.genPdf = some g → g ≤ m) ∧ (m = a ∨ ∃ e ∈ es, e.genPdf = some m) := by
  induction es with
  | nil => intro a; exact ⟨le_refl a, by simp, Or.inl rfl⟩
  | cons e es ih =>
    intro a
    simp only [List.foldl_cons]
    cases he : e.genPdf with
    | none =>
      obtain ⟨h1, h2, h3⟩ := ih a
      refine ⟨h1, ?_, ?_⟩
      · intro x hx g hg
        rcases List.mem_cons.1 hx with rfl | hx
        · rw [he] at hg; cases hg
        · exact h2 x hx g hg
      · rcases h3 with h3 | ⟨x, hx, h3⟩
        · exact Or.inl h3
        · exact Or.inr ⟨x, List.mem_cons_of_mem _ hx, h3⟩
    | some v =>
      obtain ⟨h1, h2, h3⟩ := ih (if v > a then v else a)
      simp only
      have hv : v ≤ (if v > a then v else a) ∧ a ≤ (if v > a then v else a) := by
        split
        · rename_i h; exact ⟨le_refl _, le_of_lt h⟩
        · rename_i h; exact ⟨not_lt.1 h, le_refl _⟩
      refine ⟨le_trans hv.2 h1, ?_, ?_⟩
      · intro x hx g hg
        rcases List.mem_cons.1 hx with rfl | hx
        · rw [he] at hg; cases hg; exact le_trans hv.1 h1
        · exact h2 x hx g hg
      · rcases h3 with h3 | ⟨x, hx, h3⟩
        · by_cases h : v > a
          · rw [if_pos h] at h3 ⊢
            exact Or.inr ⟨e, List.mem_cons_self, by rw [he, h3]⟩
          · rw [if_neg h] at h3 ⊢
            exact Or.inl h3
        · exact Or.inr ⟨x, List.mem_cons_of_mem _ hx, h3⟩

omit [IsStrictOrderedRing K] in
theorem getMax_spec (es : List (Event K)) : 0 ≤ getMax es ∧ (∀ e ∈ es, ∀ g, e.genPdf = some g → g ≤ getMax es) ∧ (getMax es = 0 ∨ ∃ e ∈ es, e.genPdf = some (getMax es)) :=
  getMax_aux es 0

omit [IsStrictOrderedRing K] in
theorem accepted_iff (g : Option K) (M u : K) : accepted g M u = true ↔ ∃ v, g = some v ∧ M * u < v := by
  unfold accepted gt
  cases g with
  | none => simp
  | some v => simp

/-- An event with its density. -/
def withDensity (pdf : List K → Option K) (e : Event K) : Event K := { e with genPdf := density pdf e }

omit [IsStrictOrderedRing K] in
theorem acc_evaluate (pdf : List K → Option K) (M : K) (es : List (Event K)) (us : List K) :
    acc M ((evaluate pdf es).zip us) = ((es.zip us).filter fun t => decide (Passes pdf M t)).map fun t => (withDensity pdf t.1, t.2) := by
  unfold acc evaluate
  induction es generalizing us with
  | nil => rfl
  | cons e es ih =>
    cases us with
    | nil => rfl
    | cons u us =>
      simp only [List.map_cons, List.zip_cons_cons, List.filter_cons]
      rw [ih us]
      have h : accepted (quot (pdf e.data) e.genPdf) M u = decide (Passes pdf M (e, u)) := by
        rw [Bool.eq_iff_iff, accepted_iff, decide_eq_true_iff]
        rfl
      rw [h]
      split <;> rfl

theorem acc_zero (pdf : List K → Option K) (es : List (Event K)) (us : List K) (h : 3 / 2 * getMax (evaluate pdf es) = 0) :
    acc (0 : K) ((evaluate pdf es).zip us) = [] := by
  have h0 : getMax (evaluate pdf es) = 0 := by linarith
  unfold acc
  rw [List.filter_eq_nil_iff]
  intro t ht ha
  rw [accepted_iff] at ha
  obtain ⟨v, hv, hlt⟩ := ha
  have := (getMax_spec (evaluate pdf es)).2.1 t.1 (List.of_mem_zip ht).1 v hv
  rw [h0] at this
  linarith

/-- The trials of a list that pass. -/
def passed (pdf : List K → Option K) (M : K) (l : List (Event K × K)) : List (Event K × K) := l.filter fun t => decide (Passes pdf M t)

theorem blocks_spec (gps : PhaseSpace K σ) (rndm : σ → K × σ) (pdf : List K → Option K) (nP n size0 N : Nat) (hgps : InRange gps n) (M : K) : ∀ (fuel : Nat) (mp : K) (st : State K σ),
    st.report.length = n → size0 ≤ st.list.length → st.list.length - size0 ≤ N → N - (st.list.length - size0) ≤ fuel →
    ((mp ≠ 0 ∧ mp = M) ∨ (mp = 0 ∧ M = 3 / 2 * getMax (evaluate pdf (proposals gps n st.rnd).1))) →
    ∃ (k : Nat) (st' : State K σ), blocks gps rndm pdf nP n size0 N fuel mp st = some st' ∧ k ≤ N - (st.list.length - size0) ∧
      st'.list = st.list ++ stored pdf st.list.length (((passed pdf M (trials gps rndm n st.rnd k).flatten).take (N - (st.list.length - size0))).map Prod.fst) ∧
      ((st'.list.length = size0 + N ∧ ∀ b ∈ trials gps rndm n st.rnd k, passed pdf M b ≠ []) ∨
        ∃ b, trials gps rndm n st.rnd k = (trials gps rndm n st.rnd k).dropLast ++ [b] ∧ passed pdf M b = [] ∧ ∀ b' ∈ (trials gps rndm n st.rnd k).dropLast, passed pdf M b' ≠ []) ∧
      (0 < k → (passed pdf M (trials gps rndm n st.rnd k).dropLast.flatten).length < N - (st.list.length - size0)) ∧
      ∃ w, st'.warned = st.warned ++ w ∧ (∀ x ∈ w, gt x.genPdf (some M) = true) ∧
        ∀ t ∈ (passed pdf M (trials gps rndm n st.rnd k).flatten).take (N - (st.list.length - size0)), gt (density pdf t.1) (some M) = true → withDensity pdf t.1 ∈ w
  | 0, mp, st, _, hs, hle, hf, _ => by
    have hlt : ¬ st.list.length - size0 < N := by omega
    refine ⟨0, st, ?_, by omega, ?_, ?_, by omega, [], by simp, by simp, ?_⟩
    · unfold blocks
      rw [if_neg hlt]
    · simp [trials, calls, passed, stored]
    · refine Or.inl ⟨by omega, ?_⟩
      simp [trials, calls]
    · simp [trials, calls, passed]
  | fuel + 1, mp, st, hrep, hs, hle, hf, hmp => by
    unfold blocks
    by_cases hlt : st.list.length - size0 < N
    · rw [if_pos hlt, fill_spec]
      obtain ⟨mc, hmc⟩ : ∃ mc, (proposals gps n st.rnd).1 = mc := ⟨_, rfl⟩
      have hnew : (if mp = 0 then 3 / 2 * getMax (evaluate pdf (proposals gps n st.rnd).1) else mp) = M := by
        rcases hmp with ⟨h0, h⟩ | ⟨h0, h⟩
        · rw [if_neg h0, h]
        · rw [if_pos h0, h]
      simp only [hnew]
      have hmclen : (evaluate pdf (proposals gps n st.rnd).1).length = n := by simp [evaluate, proposals_length]
      obtain ⟨st1, h1, h2, h3, h4, w, h5, h6, h7⟩ := scan_spec rndm pdf M size0 N (evaluate pdf (proposals gps n st.rnd).1) { st with rnd := (proposals gps n st.rnd).2 }
        (by
          intro e he
          unfold evaluate at he
          obtain ⟨e', he', rfl⟩ := List.mem_map.1 he
          simpa [hrep] using proposals_range gps n st.rnd hgps e' he') hs hlt
      rw [h1]
      simp only [Option.bind_eq_bind, Option.bind_some]
      rw [hmclen] at h2 h4 h7
      simp only [acc_evaluate] at h2 h4 h7
      obtain ⟨b0, hb0⟩ : ∃ b0, (block gps rndm n st.rnd).1 = b0 := ⟨_, rfl⟩
      have hb0' : (proposals gps n st.rnd).1.zip (calls rndm n (proposals gps n st.rnd).2).1 = b0 := hb0
      have hs0 : (calls rndm n (proposals gps n st.rnd).2).2 = (block gps rndm n st.rnd).2 := rfl
      rw [hb0'] at h2 h4 h7
      rw [hs0] at h4
      have hp : (List.filter (fun t => decide (Passes pdf M t)) b0) = passed pdf M b0 := rfl
      rw [hp] at h2 h4 h7
      rw [List.length_map] at h4
      rw [← List.map_take, List.map_map] at h2
      have hst : ∀ l : List (Event K × K), stored pdf st.list.length (l.map (Prod.fst ∘ fun t => (withDensity pdf t.1, t.2))) = stored pdf st.list.length (l.map Prod.fst) := by
        intro l
        rw [show (l.map (Prod.fst ∘ fun t => (withDensity pdf t.1, t.2))) = (l.map Prod.fst).map (withDensity pdf) by simp]
        exact stored_evaluate pdf (withDensity pdf) (fun e => ⟨rfl, rfl⟩) _ _
      rw [hst] at h2
      have hlen1 : st1.list.length = st.list.length + min (N - (st.list.length - size0)) (passed pdf M b0).length := by
        rw [h2]; simp [stored_length]
      have hw7 : ∀ t ∈ (passed pdf M b0).take (N - (st.list.length - size0)), gt (density pdf t.1) (some M) = true → withDensity pdf t.1 ∈ w := by
        intro t ht hg
        rw [← List.map_take] at h7
        exact h7 (withDensity pdf t.1, t.2) (List.mem_map.2 ⟨t, ht, rfl⟩) hg
      have htr1 : trials gps rndm n st.rnd 1 = [b0] := by simp [trials, calls, hb0]
      by_cases hnone : st1.list.length = st.list.length
      · rw [if_pos hnone]
        have hempty : passed pdf M b0 = [] := by
          rw [← List.length_eq_zero_iff]
          omega
        refine ⟨1, st1, rfl, by omega, ?_, Or.inr ⟨b0, ?_, hempty, ?_⟩, ?_, w, h5, fun x hx => (h6 x hx).2, ?_⟩
        · rw [htr1]; simpa using h2
        · rw [htr1]; rfl
        · rw [htr1]; simp
        · rw [htr1]; intro _; simpa [passed] using hlt
        · rw [htr1]; simpa using hw7
      · rw [if_neg hnone]
        have hne : passed pdf M b0 ≠ [] := by
          intro h
          rw [h] at hlen1
          simp at hlen1
          exact hnone hlen1
        have hpos : 0 < (passed pdf M b0).length := List.length_pos_iff.2 hne
        have hM0 : M ≠ 0 := by
          intro h0
          rcases hmp with ⟨hm, h⟩ | ⟨_, h⟩
          · exact hm (h.trans h0)
          · have hz := acc_zero pdf (proposals gps n st.rnd).1 (calls rndm n (proposals gps n st.rnd).2).1 (by rw [← h, h0])
            rw [acc_evaluate, hb0', List.map_eq_nil_iff] at hz
            apply hne
            rw [← hz, h0]
            rfl
        by_cases hdone : st1.list.length - size0 < N
        · have hless : (passed pdf M b0).length < N - (st.list.length - size0) := by omega
          have hrnd := h4 hless
          obtain ⟨k, st', g1, g2, g3, g4, g5, v, g6, g7, g8⟩ := blocks_spec gps rndm pdf nP n size0 N hgps M fuel M st1 (by rw [h3]; exact hrep) (by omega) (by omega) (by omega) (Or.inl ⟨hM0, rfl⟩)
          rw [hrnd] at g3 g4 g5 g8
          have htr : trials gps rndm n st.rnd (k + 1) = b0 :: trials gps rndm n (block gps rndm n st.rnd).2 k := by simp [trials, calls, hb0]
          have htlen : (trials gps rndm n (block gps rndm n st.rnd).2 k).length = k := calls_length _ _ _
          obtain ⟨rest, hrest⟩ : ∃ rest, trials gps rndm n (block gps rndm n st.rnd).2 k = rest := ⟨_, rfl⟩
          rw [hrest] at htr g3 g4 g5 g8 htlen
          have hk : 0 < k := by
            rcases Nat.eq_zero_or_pos k with h | h
            · subst h
              have hr0 : rest = [] := List.length_eq_zero_iff.1 htlen
              rw [hr0] at g3 g4
              simp [passed, stored] at g3 g4
              rw [g3] at g4
              omega
            · exact h
          have hrne : rest ≠ [] := by
            intro h
            rw [h] at htlen
            simp at htlen
            omega
          have hfl : passed pdf M (b0 :: rest).flatten = passed pdf M b0 ++ passed pdf M rest.flatten := by simp [passed]
          have hrem : N - (st1.list.length - size0) = N - (st.list.length - size0) - (passed pdf M b0).length := by omega
          have htk : ((passed pdf M b0 ++ passed pdf M rest.flatten).take (N - (st.list.length - size0))) = passed pdf M b0 ++ (passed pdf M rest.flatten).take (N - (st1.list.length - size0)) := by
            rw [List.take_append, List.take_of_length_le (le_of_lt hless), hrem]
          have htk0 : (passed pdf M b0).take (N - (st.list.length - size0)) = passed pdf M b0 := List.take_of_length_le (le_of_lt hless)
          rw [htk0] at h2
          refine ⟨k + 1, st', g1, by omega, ?_, ?_, ?_, w ++ v, ?_, ?_, ?_⟩
          · rw [htr, hfl, htk, List.map_append, stored_append, g3, h2]
            simp [stored_length]
          · rw [htr, List.dropLast_cons_of_ne_nil hrne]
            rcases g4 with ⟨g4, g4'⟩ | ⟨b, hb, hb1, hb2⟩
            · refine Or.inl ⟨g4, ?_⟩
              intro b hb
              rcases List.mem_cons.1 hb with rfl | hb
              · exact hne
              · exact g4' b hb
            · refine Or.inr ⟨b, ?_, hb1, ?_⟩
              · rw [List.cons_append, ← hb]
              · intro b' hb'
                rcases List.mem_cons.1 hb' with rfl | hb'
                · exact hne
                · exact hb2 b' hb'
          · intro _
            rw [htr, List.dropLast_cons_of_ne_nil hrne]
            have := g5 hk
            simp only [passed, List.flatten_cons, List.filter_append, List.length_append] at this ⊢
            simp only [passed] at hrem hless
            omega
          · rw [g6, h5]; simp
          · intro x hx
            rcases List.mem_append.1 hx with hx | hx
            · exact (h6 x hx).2
            · exact g7 x hx
          · rw [htr, hfl, htk]
            intro t ht hg
            rcases List.mem_append.1 ht with ht | ht
            · exact List.mem_append_left _ (hw7 t (by rw [htk0]; exact ht) hg)
            · exact List.mem_append_right _ (g8 t ht hg)
        · have hb : blocks gps rndm pdf nP n size0 N fuel M st1 = some st1 := by
            cases fuel <;> simp only [blocks, if_neg hdone]
          rw [hb]
          refine ⟨1, st1, rfl, by omega, ?_, Or.inl ⟨by omega, ?_⟩, ?_, w, h5, fun x hx => (h6 x hx).2, ?_⟩
          · rw [htr1]; simpa using h2
          · rw [htr1]; simpa using hne
          · rw [htr1]; intro _; simpa [passed] using hlt
          · rw [htr1]; simpa using hw7
    · rw [if_neg hlt]
      refine ⟨0, st, rfl, by omega, ?_, ?_, by omega, [], by simp, by simp, ?_⟩
      · simp [trials, calls, passed, stored]
      · refine Or.inl ⟨by omega, ?_⟩
        simp [trials, calls]
      · simp [trials, calls, passed]

theorem copy_aux (es : List (Event K)) : ∀ acc : List (Event K), es.foldl (fun (output : List (Event K)) (event : Event K) => output ++ [{ event with index := output.length }]) acc =
    acc ++ (es.zipIdx acc.length).map fun e => { e.1 with index := e.2 } := by
  induction es with
  | nil => intro acc; simp
  | cons e es ih =>
    intro acc
    rw [List.foldl_cons, ih]
    simp

theorem copy_spec (es : List (Event K)) : copy es = es.zipIdx.map fun e => { e.1 with index := e.2 } := by
  unfold copy
  rw [copy_aux]
  simp

end AmpGen.Generator
