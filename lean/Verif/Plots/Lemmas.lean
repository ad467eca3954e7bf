import Verif.Plots.Spec
import Mathlib.Tactic.Ring
import Mathlib.Tactic.Linarith
import Mathlib.Tactic.FieldSimp
import Mathlib.Algebra.BigOperators.Group.List.Basic
import Mathlib.Algebra.Order.BigOperators.Group.List
/-
Lemmas for projections and for the comparison of samples.
-/
namespace AmpGen.Plots
open Spec

noncomputable section
open Classical

variable {D : Type}

theorem findBin_iff {n : Nat} {min max : ℝ} (hn : 0 < n) (h : min < max) (x : ℝ) (k : Nat) : k = findBin n min max x ↔ InBin n min max k x := by
  have hn' : (0 : ℝ) < n := by exact_mod_cast hn
  have hd : 0 < max - min := by linarith
  have hw : 0 < (max - min) / n := div_pos hd hn'
  have hnw : (n : ℝ) * ((max - min) / n) = max - min := by field_simp
  unfold findBin InBin
  by_cases h1 : x < min
  · rw [if_pos h1]
    constructor
    · intro hk; exact Or.inl ⟨hk, h1⟩
    · rintro (⟨hk, _⟩ | ⟨_, h2⟩ | ⟨hk, _, h2, _⟩)
      · exact hk
      · linarith
      · have : (1 : ℝ) ≤ k := by exact_mod_cast hk
        have := mul_nonneg (sub_nonneg.mpr this) hw.le
        linarith
  · rw [if_neg h1]
    by_cases h2 : x < max
    · rw [if_pos h2]
      have ht : (n : ℝ) * (x - min) / (max - min) = (x - min) / ((max - min) / n) := by field_simp
      have h0 : 0 ≤ (x - min) / ((max - min) / n) := div_nonneg (by linarith) hw.le
      rw [ht]
      constructor
      · intro hk
        right; right
        have hf := (Nat.floor_eq_iff h0).mp (rfl : ⌊(x - min) / ((max - min) / n)⌋₊ = ⌊(x - min) / ((max - min) / n)⌋₊)
        have hkr : (k : ℝ) = 1 + (⌊(x - min) / ((max - min) / n)⌋₊ : ℝ) := by rw [hk]; push_cast; ring
        have ha := (le_div_iff₀ hw).mp hf.1
        have hb := (div_lt_iff₀ hw).mp hf.2
        refine ⟨by omega, ?_, ?_, ?_⟩
        · have : (⌊(x - min) / ((max - min) / n)⌋₊ : ℝ) < n := by
            refine lt_of_le_of_lt hf.1 ((div_lt_iff₀ hw).mpr ?_)
            rw [hnw]; linarith
          have : ⌊(x - min) / ((max - min) / n)⌋₊ < n := by exact_mod_cast this
          omega
        · have : (k : ℝ) - 1 = (⌊(x - min) / ((max - min) / n)⌋₊ : ℝ) := by rw [hkr]; ring
          rw [this]; linarith
        · have : (k : ℝ) = (⌊(x - min) / ((max - min) / n)⌋₊ : ℝ) + 1 := by rw [hkr]; ring
          rw [this]; linarith
      · rintro (⟨_, h3⟩ | ⟨_, h3⟩ | ⟨hk, _, h3, h4⟩)
        · exact absurd h3 h1
        · linarith
        · have : ⌊(x - min) / ((max - min) / n)⌋₊ = k - 1 := by
            rw [Nat.floor_eq_iff h0]
            have hc : ((k - 1 : Nat) : ℝ) = (k : ℝ) - 1 := by push_cast [hk]; ring
            rw [hc]
            constructor
            · rw [le_div_iff₀ hw]; linarith
            · rw [div_lt_iff₀ hw]; ring_nf; ring_nf at h4; linarith
          omega
    · rw [if_neg h2]
      constructor
      · intro hk; exact Or.inr (Or.inl ⟨hk, not_lt.mp h2⟩)
      · rintro (⟨_, h3⟩ | ⟨hk, _⟩ | ⟨_, hk, _, h3⟩)
        · exact absurd h3 h1
        · exact hk
        · have : (k : ℝ) ≤ n := by exact_mod_cast hk
          have := mul_le_mul_of_nonneg_right this hw.le
          linarith

theorem sumOver_nil (P : Event D → Prop) (w : Event D → ℝ) : sumOver [] P w = 0 := rfl

theorem sumOver_cons (e : Event D) (es : List (Event D)) (P : Event D → Prop) (w : Event D → ℝ) :
    sumOver (e :: es) P w = (if P e then w e else 0) + sumOver es P w := by
  unfold sumOver
  by_cases h : P e <;> simp [h]

theorem taken_iff (selection : Option (Event D → Bool)) (e : Event D) : taken selection e = true ↔ Passes selection e := by
  unfold taken Passes
  cases selection <;> simp

theorem fillWeight_eq {f : Option (Event D → ℝ)} {e : Event D} (h : f ≠ none → e.genPdf ≠ 0) : fillWeight f e = some (reweighted f e) := by
  unfold fillWeight reweighted
  cases f with
  | none => simp
  | some f => simp [h (by simp)]; ring

theorem fillLoop_eq (p : Projection D) (hn : 0 < p.nBins) (hr : p.min < p.max) (selection : Option (Event D → Bool)) (f : Option (Event D → ℝ)) :
    ∀ (events : List (Event D)) (h : Hist), h.nBins = p.nBins → h.min = p.min → h.max = p.max →
      (∀ e ∈ events, f ≠ none → Passes selection e → e.genPdf ≠ 0) →
      fillLoop p selection f events h = some ⟨p.nBins, p.min, p.max, fun k => h.content k
        + sumOver events (fun e => Passes selection e ∧ InBin p.nBins p.min p.max k (p.func e)) (reweighted f)⟩ := by
  intro events
  induction events with
  | nil => intro h h1 h2 h3 _; cases h; simp_all [fillLoop, sumOver_nil]
  | cons e es ih =>
    intro h h1 h2 h3 hg
    unfold fillLoop
    by_cases ht : taken selection e = true
    · rw [if_pos ht, fillWeight_eq (fun hf => hg e (by simp) hf ((taken_iff _ _).mp ht)), Option.bind_some,
        ih _ (by simp [Hist.fill, h1]) (by simp [Hist.fill, h2]) (by simp [Hist.fill, h3]) (fun e' he' => hg e' (by simp [he']))]
      congr 2
      funext k
      simp only [Hist.fill, sumOver_cons, h1, h2, h3, findBin_iff hn hr, (taken_iff _ _).mp ht, true_and]
      by_cases hb : InBin p.nBins p.min p.max k (p.func e) <;> simp [hb]
      ring
    · rw [if_neg ht, ih _ h1 h2 h3 (fun e' he' => hg e' (by simp [he']))]
      congr 2
      funext k
      have hp : ¬ Passes selection e := fun hp => ht ((taken_iff _ _).mpr hp)
      simp [sumOver_cons, hp]

theorem fillLoop2_eq (px py : Projection D) (hx : 0 < px.nBins) (hrx : px.min < px.max) (hy : 0 < py.nBins) (hry : py.min < py.max)
    (selection : Option (Event D → Bool)) (f : Option (Event D → ℝ)) :
    ∀ (events : List (Event D)) (c : Nat → Nat → ℝ), (∀ e ∈ events, f ≠ none → Passes selection e → e.genPdf ≠ 0) →
      fillLoop2 px py selection f events ⟨px.nBins, px.min, px.max, py.nBins, py.min, py.max, c⟩
        = some ⟨px.nBins, px.min, px.max, py.nBins, py.min, py.max, fun j k => c j k
        + sumOver events (fun e => Passes selection e ∧ InBin px.nBins px.min px.max j (px.func e) ∧ InBin py.nBins py.min py.max k (py.func e)) (reweighted f)⟩ := by
  intro events
  induction events with
  | nil => intro c _; simp [fillLoop2, sumOver_nil]
  | cons e es ih =>
    intro c hg
    unfold fillLoop2
    by_cases ht : taken selection e = true
    · rw [if_pos ht, fillWeight_eq (fun hf => hg e (by simp) hf ((taken_iff _ _).mp ht)), Option.bind_some]
      simp only [Hist2.fill]
      rw [ih _ (fun e' he' => hg e' (by simp [he']))]
      congr 2
      funext j k
      simp only [sumOver_cons, findBin_iff hx hrx, findBin_iff hy hry, (taken_iff _ _).mp ht, true_and]
      by_cases hb : InBin px.nBins px.min px.max j (px.func e) ∧ InBin py.nBins py.min py.max k (py.func e)
      · rw [if_pos hb, if_pos hb]; ring
      · rw [if_neg hb, if_neg hb]; ring
    · rw [if_neg ht, ih _ (fun e' he' => hg e' (by simp [he']))]
      congr 2
      funext j k
      have hp : ¬ Passes selection e := fun hp => ht ((taken_iff _ _).mpr hp)
      simp [sumOver_cons, hp]

theorem fillAll_eq (x : ℝ) (e : Event D) (hg : e.genPdf ≠ 0) : ∀ (fs : List (Event D → ℝ)) (g : (Event D → ℝ) → Hist),
    fillAll x e fs (fs.map g) = some (fs.map fun f => (g f).fill x (e.weight * f e / e.genPdf)) := by
  intro fs
  induction fs with
  | nil => intro g; rfl
  | cons f fs ih => intro g; simp [fillAll, hg, ih]

theorem stackLoop_eq (p : Projection D) (hn : 0 < p.nBins) (hr : p.min < p.max) (selection : Option (Event D → Bool)) (fs : List (Event D → ℝ)) :
    ∀ (events : List (Event D)) (c : (Event D → ℝ) → Nat → ℝ), (∀ e ∈ events, Passes selection e → e.genPdf ≠ 0) →
      stackLoop p selection fs events (fs.map fun f => ⟨p.nBins, p.min, p.max, c f⟩)
        = some (fs.map fun f => ⟨p.nBins, p.min, p.max, fun k => c f k
            + sumOver events (fun e => Passes selection e ∧ InBin p.nBins p.min p.max k (p.func e)) (reweighted (some f))⟩) := by
  intro events
  induction events with
  | nil => intro c _; simp [stackLoop, sumOver_nil]
  | cons e es ih =>
    intro c hg
    unfold stackLoop
    by_cases ht : taken selection e = true
    · rw [if_pos ht, fillAll_eq _ _ (hg e (by simp) ((taken_iff _ _).mp ht)), Option.bind_some]
      simp only [Hist.fill]
      rw [ih (fun f k => if k = findBin p.nBins p.min p.max (p.func e) then c f k + e.weight * f e / e.genPdf else c f k)
        (fun e' he' => hg e' (by simp [he']))]
      congr 1
      apply List.map_congr_left
      intro f _
      congr 1
      funext k
      simp only [sumOver_cons, findBin_iff hn hr, (taken_iff _ _).mp ht, true_and, reweighted]
      by_cases hb : InBin p.nBins p.min p.max k (p.func e) <;> simp [hb]
      ring
    · rw [if_neg ht, ih _ (fun e' he' => hg e' (by simp [he']))]
      congr 1
      apply List.map_congr_left
      intro f _
      congr 1
      funext k
      have hp : ¬ Passes selection e := fun hp => ht ((taken_iff _ _).mpr hp)
      simp [sumOver_cons, hp]

theorem foldl_integral (hs : List Hist) (t : ℝ) : hs.foldl (fun t h => t + h.integral) t = t + (hs.map Hist.integral).sum := by
  induction hs generalizing t with
  | nil => simp
  | cons h hs ih => simp [ih]; ring

theorem list_sum_mul (c : ℝ) (l : List ℝ) : (l.map fun x => c * x).sum = c * l.sum := by
  induction l with
  | nil => simp
  | cons a l ih => simp [ih]; ring

theorem integral_scale (h : Hist) (c : ℝ) : (h.scale c).integral = c * h.integral := by
  unfold Hist.integral Hist.scale
  rw [← list_sum_mul, List.map_map]
  rfl

theorem sortInto_eq (nBins : Nat) (bin : Event D → Nat) (w : Event D → Option ℝ) (v : Event D → ℝ) : ∀ (events : List (Event D)) (m : Nat → Moment) (t : ℝ),
    (∀ e ∈ events, w e = some (v e) ∧ bin e < nBins) →
    sortInto nBins bin w events (m, t) = some (fun b => ⟨(m b).x + sumOver events (fun e => bin e = b) v,
      (m b).xx + sumOver events (fun e => bin e = b) (fun e => v e ^ 2), (m b).N + (events.filter fun e => decide (bin e = b)).length⟩,
      t + sumOver events (fun _ => True) v) := by
  intro events
  induction events with
  | nil => intro m t _; simp [sortInto, sumOver_nil]
  | cons e es ih =>
    intro m t h
    unfold sortInto
    rw [(h e (by simp)).1, Option.bind_some, if_pos (h e (by simp)).2, ih _ _ (fun e' he' => h e' (by simp [he']))]
    congr 2
    · funext b
      by_cases hb : b = bin e
      · subst hb
        simp [sumOver_cons, Moment.add]
        refine ⟨by ring, by ring, by omega⟩
      · have hb' : ¬ bin e = b := fun h => hb h.symm
        simp [sumOver_cons, hb, hb']
    · simp [sumOver_cons]; ring

theorem chi2Loop_eq (data mc : Nat → Moment) (td ti : ℝ) (hti : ti ≠ 0) : ∀ (l : List Nat) (acc : ℝ),
    (∀ b ∈ l, (data b).var + ((mc b).rescale (td / ti)).var ≠ 0) →
    chi2Loop data mc td ti l acc = some (acc + (l.map fun b =>
      ((data b).x - ((mc b).rescale (td / ti)).x) ^ 2 / ((data b).var + ((mc b).rescale (td / ti)).var)).sum) := by
  intro l
  induction l with
  | nil => intro acc _; simp [chi2Loop]
  | cons b l ih =>
    intro acc h
    unfold chi2Loop
    simp only
    rw [if_neg hti, if_neg (h b (by simp)), ih _ (fun b' hb' => h b' (by simp [hb']))]
    simp [pow_two]; ring

theorem chi2Loop_none (data mc : Nat → Moment) (td ti : ℝ) : ∀ (l : List Nat) (acc : ℝ),
    (∃ b ∈ l, (data b).var + ((mc b).rescale (td / ti)).var = 0) → chi2Loop data mc td ti l acc = none := by
  intro l
  induction l with
  | nil => rintro acc ⟨b, hb, _⟩; simp at hb
  | cons c l ih =>
    rintro acc ⟨b, hb, h⟩
    unfold chi2Loop
    simp only
    by_cases hti : ti = 0
    · rw [if_pos hti]
    · rw [if_neg hti]
      by_cases hc : (data c).var + ((mc c).rescale (td / ti)).var = 0
      · rw [if_pos hc]
      · rw [if_neg hc]
        rcases List.mem_cons.mp hb with rfl | hb
        · exact absurd h hc
        · exact ih _ ⟨b, hb, h⟩

theorem sumOver_filter_nil {events : List (Event D)} {P : Event D → Prop} (h : (events.filter fun e => decide (P e)).length = 0) (w : Event D → ℝ) : sumOver events P w = 0 := by
  unfold sumOver
  rw [List.length_eq_zero_iff.mp h]; rfl

theorem sumOver_sq_nonneg (events : List (Event D)) (P : Event D → Prop) (w : Event D → ℝ) : 0 ≤ sumOver events P (fun e => w e ^ 2) := by
  induction events with
  | nil => simp [sumOver_nil]
  | cons e es ih =>
    rw [sumOver_cons]
    have : 0 ≤ (if P e then w e ^ 2 else 0) := by split <;> positivity
    linarith

theorem sumOver_mul (c : ℝ) (events : List (Event D)) (P : Event D → Prop) (w : Event D → ℝ) : sumOver events P (fun e => c * w e) = c * sumOver events P w := by
  induction events with
  | nil => simp [sumOver_nil]
  | cons e es ih => rw [sumOver_cons, sumOver_cons, ih]; split <;> ring

theorem sumOver_perm {l l' : List (Event D)} (h : l.Perm l') (P : Event D → Prop) (w : Event D → ℝ) : sumOver l P w = sumOver l' P w := by
  unfold sumOver
  exact ((h.filter _).map _).sum_eq

theorem sum_sum_comm {A B : Type} (l : List A) (m : List B) (a : A → B → ℝ) :
    (l.map fun f => (m.map fun k => a f k).sum).sum = (m.map fun k => (l.map fun f => a f k).sum).sum := by
  induction m with
  | nil => simp
  | cons k m ih => simp only [List.map_cons, List.sum_cons]; rw [List.sum_map_add, ih]

theorem sumOver_pos_of_mem {l : List (Event D)} {P : Event D → Prop} {e : Event D} (he : e ∈ l) (hp : P e) (hw : e.weight ≠ 0) :
    0 < sumOver l P (fun e => e.weight ^ 2) := by
  induction l with
  | nil => simp at he
  | cons a l ih =>
    rw [sumOver_cons]
    rcases List.mem_cons.mp he with rfl | he'
    · have := sumOver_sq_nonneg l P Event.weight
      have h2 : 0 < e.weight ^ 2 := by positivity
      rw [if_pos hp]; linarith
    · have h2 : 0 ≤ (if P a then a.weight ^ 2 else 0) := by split <;> positivity
      have := ih he'
      linarith

theorem sum_zero_terms (l : List ℝ) (hn : ∀ x ∈ l, 0 ≤ x) (hz : l.sum = 0) : ∀ x ∈ l, x = 0 := by
  induction l with
  | nil => simp
  | cons a l ih =>
    rw [List.sum_cons] at hz
    have h1 := hn a (by simp)
    have h2 : 0 ≤ l.sum := List.sum_nonneg fun x hx => hn x (by simp [hx])
    intro x hx
    rcases List.mem_cons.mp hx with rfl | hx
    · linarith
    · exact ih (fun y hy => hn y (by simp [hy])) (by linarith) x hx

end

end AmpGen.Plots
