import Verif.DecayChain.SpecMixture
import Verif.DecayChain.LemmasD
import Verif.Discrete.Props
namespace AmpGen.DecayChain

open Classical
open AmpGen.PhaseSpace (V4)

theorem getD_getElem (xs : List ℝ) {j : Nat} (h : j < xs.length) : xs.getD j 0 = xs[j] := by
  rw [List.getD_eq_getElem?_getD, List.getElem?_eq_getElem h, Option.getD_some]

theorem foldl_add_range (n : Nat) (f : Nat → ℝ) : (List.range n).foldl (fun g i => g + f i) 0 = ∑ i ∈ Finset.range n, f i := by
  induction n with
  | zero => simp
  | succ n ih => rw [List.range_succ, List.foldl_append, ih, Finset.sum_range_succ]; simp

theorem sum_zip_range {α β : Type} (f : α → β → ℝ) : ∀ (xs : List α) (ys : List β) (d : β), ys.length = xs.length →
    ((xs.zip ys).map fun p => f p.1 p.2).sum = ∑ i ∈ Finset.range xs.length, ((xs[i]?).map fun x => f x (ys.getD i d)).getD 0 := by
  intro xs
  induction xs with
  | nil => intro ys d h; simp
  | cons x xs ih =>
    intro ys d h
    cases ys with
    | nil => simp at h
    | cons y ys =>
      rw [List.zip_cons_cons, List.map_cons, List.sum_cons, ih ys d (by simpa using h), List.length_cons,
        Finset.sum_range_succ']
      simp [add_comm]

theorem density_eq (t : TreeGen) (h : t.dice.length = t.gen.length) (ev : Nat → V4) :
    t.density ev = mixture t.gen t.dice ev := by
  unfold TreeGen.density mixture
  rw [foldl_add_range, sum_zip_range (fun c p => p * genPdf c ev) _ _ 0 h]
  apply Finset.sum_congr rfl
  intro i hi
  rw [List.getElem?_eq_getElem (Finset.mem_range.mp hi)]
  simp

theorem pdf_pos {n : Node} (h : n.Ok) (hlt : n.kind ≠ .quasi → n.lo < n.hi) (s : ℝ) : 0 < n.pdf s := by
  obtain ⟨hle, hb, hs, _⟩ := h
  unfold Node.pdf
  cases hk : n.kind with
  | bw =>
    obtain ⟨hmG, e1, e2⟩ := hb hk
    have hlt := hlt (by rw [hk]; decide)
    have hphi : n.phi1 < n.phi2 := by
      rw [e1, e2]
      exact Real.arctan_strictMono (div_lt_div_of_pos_right (by linarith) hmG)
    have h1 : 0 < n.phi2 - n.phi1 := by linarith
    have h2 : 0 < (s - n.m * n.m) * (s - n.m * n.m) + n.m * n.m * n.w * n.w := by
      have : n.m * n.m * n.w * n.w = (n.m * n.w) * (n.m * n.w) := by ring
      rw [this]
      have := mul_pos hmG hmG
      nlinarith [mul_self_nonneg (s - n.m * n.m)]
    simp only
    positivity
  | flat =>
    have hlt := hlt (by rw [hk]; decide)
    simp only
    have : 0 < n.hi - n.lo := by linarith
    positivity
  | stable => exact absurd hk hs
  | quasi => simp

theorem done_strict {N mass m0 t} (h : Decay N mass m0 t) {i a b} (hh : t.Has i a b) (k l r : Nat)
    (hg : 0 < mass - ((List.range N).map m0).sum) (hlow : 0 ≤ a.low + b.low) :
    let gap := mass - ((List.range N).map m0).sum
    (done gap k i a b l r).kind ≠ .quasi → (done gap k i a b l r).lo < (done gap k i a b l r).hi := by
  intro gap
  have hp := h.positive i a b hh
  unfold done mkNode
  cases hq : i.quasi with
  | true => simp
  | false =>
    have hG := hp.2 hq
    have hgap : 0 < gap := hg
    cases hpl : i.plain with
    | true =>
      by_cases hk : k = 0
      · simp [hk]; nlinarith
      · simp [hk]; nlinarith
    | false =>
      by_cases hk : k = 0
      · simp [hk]; nlinarith
      · simp [hk]; nlinarith

theorem genPdf_pos {N mass m0 t} (h : Decay N mass m0 t) (hg : 0 < spare N mass m0) (junk : Nat → Node) (ev : Nat → V4) :
    0 < genPdf (Stack.make N mass m0 t junk) ev := by
  obtain ⟨ids, hch⟩ := make_chain h junk
  set c := Stack.make N mass m0 t junk with hc
  have key : ∀ (L : List Nat) (g : ℝ), 0 < g → (∀ i ∈ L, i ∈ ids) →
      0 < L.foldl (fun g i => g * (c.nodes i).pdf (invMass ev ((c.nodes i).lfs ++ (c.nodes i).rfs))) g := by
    intro L
    induction L with
    | nil => intro g hg _; exact hg
    | cons k L ih =>
      intro g hg' hL
      rw [List.foldl_cons]
      refine ih _ (mul_pos hg' ?_) fun i hi => hL i (by simp [hi])
      obtain ⟨j, ta, tb, l, r, hh, hn, _, _⟩ := hch.rep.node k (hL k (by simp))
      obtain ⟨hma, hmb⟩ := hh.masses h.masses
      have hla : 0 ≤ ta.low := Tree.low_nonneg h.nonneg hma (fun j c d h' => (h.positive j c d (hh.trans_left h')).1)
      have hlb : 0 ≤ tb.low := Tree.low_nonneg h.nonneg hmb (fun j c d h' => (h.positive j c d (hh.trans_right h')).1)
      apply pdf_pos
      · rw [hn]; exact (done_ok h hh k l r).1
      · rw [hn]; exact done_strict h hh k l r hg (by linarith)
  exact key _ 1 one_pos fun i hi => hch.perm.mem_iff.mpr hi

theorem madeOf_pos {mass m0 size gen} (h : MadeOf mass m0 size gen) {c : Stack} (hc : c ∈ gen) (ev : Nat → V4) : 0 < genPdf c ev := by
  obtain ⟨t, junk, hd, rfl⟩ := h.2 c hc
  exact genPdf_pos hd h.1 junk ev

theorem mixture_pos {gen : List Stack} {probs : List ℝ} (hp : Probabilities gen probs) {ev : Nat → V4}
    (hg : ∀ c ∈ gen, 0 < genPdf c ev) : 0 < mixture gen probs ev := by
  obtain ⟨h1, h2, h3⟩ := hp
  unfold mixture
  apply List.sum_pos
  · intro x hx
    obtain ⟨cp, hcp, rfl⟩ := List.mem_map.mp hx
    have := List.of_mem_zip (show (cp.1, cp.2) ∈ gen.zip probs from hcp)
    exact mul_pos (h2 _ this.2) (hg _ this.1)
  · intro h
    have hl := congrArg List.length h
    simp only [List.length_map, List.length_zip, List.length_nil] at hl
    have : probs = [] := List.length_eq_zero_iff.mp (by omega)
    rw [this] at h3
    simp at h3

theorem calculate_eq (t : TreeGen) (h : t.dice.length = t.gen.length) (events : List ((Nat → V4) × ℝ)) (c : Stack) :
    t.calculate events c = importance t.gen t.dice events c := by
  unfold TreeGen.calculate importance
  have key : ∀ (L : List ((Nat → V4) × ℝ)) (w : ℝ), L.foldl (fun w e => w + t.term c e) w =
      w + (L.map fun e => genPdf c e.1 * e.2 ^ 2 / mixture t.gen t.dice e.1).sum := by
    intro L
    induction L with
    | nil => intro w; simp
    | cons e L ih =>
      intro w
      rw [List.foldl_cons, ih, List.map_cons, List.sum_cons, TreeGen.term, density_eq t h]
      ring
  rw [key, zero_add]

theorem importance_pos {gen : List Stack} {probs : List ℝ} (hp : Probabilities gen probs) {events : List ((Nat → V4) × ℝ)}
    (hg : ∀ c ∈ gen, ∀ e ∈ events, 0 < genPdf c e.1) (he : ∃ e ∈ events, e.2 ≠ 0) {c : Stack} (hc : c ∈ gen) :
    0 < importance gen probs events c := by
  obtain ⟨e, he, hne⟩ := he
  unfold importance
  have hnn : ∀ x ∈ events.map fun e => genPdf c e.1 * e.2 ^ 2 / mixture gen probs e.1, 0 ≤ x := by
    intro x hx
    obtain ⟨e', he', rfl⟩ := List.mem_map.mp hx
    have := mixture_pos hp fun c hc => hg c hc e' he'
    have := hg c hc e' he'
    positivity
  have hpos : 0 < genPdf c e.1 * e.2 ^ 2 / mixture gen probs e.1 := by
    have := mixture_pos hp fun c hc => hg c hc e he
    have := hg c hc e he
    positivity
  exact lt_of_lt_of_le hpos (List.single_le_sum hnn _ (List.mem_map.mpr ⟨e, he, rfl⟩))

theorem newWeights_eq (t : TreeGen) (h : t.dice.length = t.gen.length) (events : List ((Nat → V4) × ℝ)) :
    (t.newWeights events).length = t.gen.length ∧ ∀ (j : Nat) (hj : j < t.gen.length),
      (t.newWeights events).getD j 0 = √(importance t.gen t.dice events t.gen[j] / events.length) * t.dice.getD j 0 := by
  unfold TreeGen.newWeights
  refine ⟨by simp, ?_⟩
  intro j hj
  simp only [List.getD_eq_getElem?_getD, List.getElem?_map]
  rw [List.getElem?_range hj, Option.map_some, List.getElem?_eq_getElem hj]
  simp [calculate_eq t h]

theorem newWeights_pos (t : TreeGen) {mass m0 size} (hm : MadeOf mass m0 size t.gen) (hp : Probabilities t.gen t.dice)
    {events : List ((Nat → V4) × ℝ)} (he : ∃ e ∈ events, e.2 ≠ 0) : ∀ w ∈ t.newWeights events, 0 < w := by
  intro w hw
  obtain ⟨n1, n2⟩ := newWeights_eq t hp.1 events
  obtain ⟨j, hj, rfl⟩ := List.getElem_of_mem hw
  have hj' : j < t.gen.length := by omega
  have := n2 j hj'
  rw [getD_getElem _ hj] at this
  rw [this]
  have hi := importance_pos hp (events := events) (fun c hc e _ => madeOf_pos hm hc e.1) he (List.getElem_mem hj')
  have hl : 0 < (events.length : ℝ) := by
    obtain ⟨e, he, _⟩ := he
    exact_mod_cast List.length_pos_of_mem he
  have hd : 0 < t.dice.getD j 0 := by
    rw [getD_getElem _ (by have := hp.1; omega)]
    exact hp.2.1 _ (List.getElem_mem _)
  positivity

end AmpGen.DecayChain
