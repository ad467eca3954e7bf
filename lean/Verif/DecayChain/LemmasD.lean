import Verif.DecayChain.LemmasC
/-
The event built from a proposal, and the bound on its weight.
-/
namespace AmpGen.DecayChain

open Classical
open AmpGen.PhaseSpace (V4 OnShell)

/-- The masses drawn at node `k` are allowed. -/
def Phys (N : Nat) (nodes : Nat → Node) (st : Nat → ℝ) (k : Nat) : Prop :=
  0 ≤ st (nodes k).l ∧ 0 ≤ st (nodes k).r ∧
  st (nodes k).l + st (nodes k).r + 2 * √(st (nodes k).l * st (nodes k).r) < st (k + N)

theorem done_l (gap : ℝ) (k i a b l r) : (done gap k i a b l r).l = l := mkNode_l gap k i a b l r
theorem done_r (gap : ℝ) (k i a b l r) : (done gap k i a b l r).r = r := mkNode_r gap k i a b l r

theorem fillFold_of_notMem {c : Stack} {st : Nat → ℝ} {a b : Nat → ℝ} : ∀ (L : List Nat) (ev : Nat → V4) (x : Nat),
    (∀ k ∈ L, ((c.nodes k).lfs ++ (c.nodes k).rfs).Nodup) → (∀ k ∈ L, x ∉ (c.nodes k).lfs ++ (c.nodes k).rfs) →
    L.foldl (fillStep c st a b) ev x = ev x := by
  intro L
  induction L with
  | nil => intros; rfl
  | cons k L ih =>
    intro ev x h1 h2
    rw [List.foldl_cons, ih _ _ (fun j hj => h1 j (by simp [hj])) (fun j hj => h2 j (by simp [hj]))]
    have hnd := h1 k (by simp)
    rw [List.nodup_append] at hnd
    exact fillStep_of_notMem hnd.1 hnd.2.1 (h2 k (by simp))

theorem unit_vector {z phi : ℝ} (h0 : 0 ≤ z) (h1 : z ≤ 1) :
    (√(1 - (2 * z - 1) * (2 * z - 1)) * Real.cos phi) * (√(1 - (2 * z - 1) * (2 * z - 1)) * Real.cos phi) +
    (√(1 - (2 * z - 1) * (2 * z - 1)) * Real.sin phi) * (√(1 - (2 * z - 1) * (2 * z - 1)) * Real.sin phi) +
    (2 * z - 1) * (2 * z - 1) = 1 := by
  have hs : √(1 - (2 * z - 1) * (2 * z - 1)) * √(1 - (2 * z - 1) * (2 * z - 1)) = 1 - (2 * z - 1) * (2 * z - 1) :=
    Real.mul_self_sqrt (by nlinarith)
  have ht := Real.sin_sq_add_cos_sq phi
  generalize √(1 - (2 * z - 1) * (2 * z - 1)) = w at *
  linear_combination (w * w) * ht + hs

theorem sums_append (ev : Nat → V4) (f g : List Nat) : X ev (f ++ g) = X ev f + X ev g ∧ Y ev (f ++ g) = Y ev f + Y ev g ∧
    Z ev (f ++ g) = Z ev f + Z ev g ∧ E ev (f ++ g) = E ev f + E ev g := by
  simp [X, Y, Z, E]

/-- Working through the nodes from the last to the first places the particles of every tree held in them. -/
theorem fill_placed {c : Stack} {st : Nat → ℝ} {u1 u2 : Nat → ℝ} {gap : ℝ}
    (hz : ∀ k, 0 ≤ u1 k ∧ u1 k ≤ 1) (t : Tree) : ∀ (L : List Nat) (ev : Nat → V4) (idx : Nat) (ids : List Nat), t.IsRes →
    Rep (done gap) c.N c.nodes t idx ids → t.leaves.Nodup → ids.Nodup → L.Pairwise (· > ·) → (∀ k ∈ ids, k ∈ L) →
    (∀ k ∈ L, ((c.nodes k).lfs ++ (c.nodes k).rfs).Nodup) →
    (∀ k ∈ L, k ∉ ids → ∀ x ∈ (c.nodes k).lfs ++ (c.nodes k).rfs, x ∉ t.leaves) →
    (∀ k ∈ ids, Phys c.N c.nodes st k) → (∀ i ∈ t.leaves, st i = c.m0 i * c.m0 i) →
    0 < st idx ∧ Placed c.m0 c.N c.nodes st t ids (L.foldl (fillStep c st u1 u2) ev) ⟨0, 0, 0, √(st idx)⟩ := by
  induction t with
  | leaf i m => intro L ev idx ids h; exact absurd h (by simp [Tree.IsRes])
  | res i a b iha ihb =>
    rintro L ev idx ids _ hrep hnd hids hL hsub hfs hdis hph hst
    have hrep' := hrep
    obtain ⟨k, l, r, A, B, rfl, hk, ha, hb, rfl, hgt⟩ := hrep
    obtain ⟨L1, L2, rfl⟩ := List.append_of_mem (hsub k (by simp))
    rw [List.pairwise_append] at hL
    obtain ⟨hp1, hp2, hp3⟩ := hL
    rw [List.pairwise_cons] at hp2
    have hin : ∀ x ∈ A ++ B, x ∈ L1 := by
      intro x hx
      have hx' := hsub x (by simp only [List.mem_cons]; right; exact hx)
      rcases List.mem_append.mp hx' with h | h
      · exact h
      · exfalso
        have := hgt x hx
        rcases List.mem_cons.mp h with h | h
        · omega
        · have := hp2.1 x h; omega
    have hout : ∀ x ∈ k :: (A ++ B), x ∉ L2 := by
      intro x hx h
      have h1 := hp2.1 x h
      rcases List.mem_cons.mp hx with rfl | hx
      · omega
      · have := hgt x hx; omega
    have hk1 : k ∉ L1 := fun h => absurd (hp3 k h k (by simp)) (by omega)
    simp only [List.nodup_cons, List.nodup_append] at hids
    obtain ⟨hkn, hAnd, hBnd, hAB⟩ := hids
    simp only [Tree.leaves, List.nodup_append] at hnd
    obtain ⟨hla, hlb, hlab⟩ := hnd
    have hphk := hph k (by simp)
    rw [Phys, hk, done_l, done_r] at hphk
    obtain ⟨q1, q2, q3⟩ := hphk
    obtain ⟨hp0, hen⟩ := energies q1 q2 q3
    have hspos : 0 < st (k + c.N) := by
      have := Real.sqrt_nonneg (st l * st r)
      linarith
    set ev1 := L1.foldl (fillStep c st u1 u2) ev with hev1
    -- the daughters after the earlier nodes
    have hsa : a.IsRes → 0 < st l ∧ Placed c.m0 c.N c.nodes st a A ev1 ⟨0, 0, 0, √(st l)⟩ := by
      intro har
      refine iha L1 ev l A har ha hla hAnd hp1 (fun x hx => hin x (by simp [hx])) (fun x hx => hfs x (by simp [hx])) ?_
        (fun x hx => hph x (by simp [hx])) (fun x hx => hst x (by simp [Tree.leaves, hx]))
      intro x hx hxA y hy hya
      by_cases hxB : x ∈ B
      · exact hlab y hya y ((hb.fs_sub x hxB).1 y hy) rfl
      · refine hdis x (by simp [hx]) ?_ y hy (by simp [Tree.leaves, hya])
        simp only [List.mem_cons, List.mem_append, not_or]
        exact ⟨fun h => hk1 (h ▸ hx), hxA, hxB⟩
    have hsb : b.IsRes → 0 < st r ∧ Placed c.m0 c.N c.nodes st b B ev1 ⟨0, 0, 0, √(st r)⟩ := by
      intro hbr
      refine ihb L1 ev r B hbr hb hlb hBnd hp1 (fun x hx => hin x (by simp [hx])) (fun x hx => hfs x (by simp [hx])) ?_
        (fun x hx => hph x (by simp [hx])) (fun x hx => hst x (by simp [Tree.leaves, hx]))
      intro x hx hxB y hy hyb
      by_cases hxA : x ∈ A
      · exact hlab y ((ha.fs_sub x hxA).1 y hy) y hyb rfl
      · refine hdis x (by simp [hx]) ?_ y hy (by simp [Tree.leaves, hyb])
        simp only [List.mem_cons, List.mem_append, not_or]
        exact ⟨fun h => hk1 (h ▸ hx), hxA, hxB⟩
    have hleafa : ∀ j m, a = .leaf j m → st l = c.m0 j * c.m0 j := by
      intro j m hj
      subst hj
      rw [ha.1]
      exact hst j (by simp [Tree.leaves])
    have hleafb : ∀ j m, b = .leaf j m → st r = c.m0 j * c.m0 j := by
      intro j m hj
      subst hj
      rw [hb.1]
      exact hst j (by simp [Tree.leaves])
    refine ⟨hspos, ?_⟩
    rw [List.foldl_append, List.foldl_cons, ← hev1]
    -- the nodes after this one leave the particles alone
    refine Placed.congr (ev := fillStep c st u1 u2 ev1 k) ?_ hrep' ?_
    swap
    · intro x hx
      apply fillFold_of_notMem
      · intro j hj; exact hfs j (by simp [hj])
      · intro j hj hxj
        exact hdis j (by simp [hj]) (fun h => hout j h hj) x hxj hx
    unfold fillStep
    simp only [hk, done_l, done_r]
    have hu := unit_vector (phi := 2 * Real.pi * u2 k) (hz k).1 (hz k).2
    generalize √(1 - (2 * u1 k - 1) * (2 * u1 k - 1)) * Real.cos (2 * Real.pi * u2 k) = nx at *
    generalize √(1 - (2 * u1 k - 1) * (2 * u1 k - 1)) * Real.sin (2 * Real.pi * u2 k) = ny at *
    generalize 2 * u1 k - 1 = nz at *
    generalize 0.5 * √(st (k + c.N) * rho2 (st (k + c.N)) (st l) (st r)) = p at *
    have hu' : -nx * -nx + -ny * -ny + -nz * -nz = 1 := by rw [← hu]; ring
    have dl : (done gap k i a b l r).lfs = a.leaves := rfl
    have dr : (done gap k i a b l r).rfs = b.leaves := rfl
    rw [dl, dr]
    have S1 := side_placed (ev := ev1) ha hla hu hp0 hleafa hsa
    set ev2 := moveSide a.leaves (p * nx) (p * ny) (p * nz) (√(st l + p * p)) nx ny nz
      (√(1 + p * p / st l)) (p / √(st l)) ev1 with hev2
    have hkeep2 : ∀ x ∈ b.leaves, ev2 x = ev1 x := by
      intro x hx
      exact moveSide_of_notMem hla (fun h => hlab x h x hx rfl)
    have S2 := side_placed (ev := ev2) (nx := -nx) (ny := -ny) (nz := -nz) hb hlb hu' hp0 hleafb
      (fun h => ⟨(hsb h).1, (hsb h).2.congr hb hkeep2⟩)
    have en : ∀ q : ℝ, p * -q = -p * q := fun q => by ring
    rw [en, en, en] at S2
    set ev3 := moveSide b.leaves (-p * nx) (-p * ny) (-p * nz) (√(st r + p * p)) (-nx) (-ny) (-nz)
      (√(1 + p * p / st r)) (p / √(st r)) ev2 with hev3
    have hkeep3 : ∀ x ∈ a.leaves, ev3 x = ev2 x := by
      intro x hx
      exact moveSide_of_notMem hlb (fun h => hlab x hx x h rfl)
    have S1' := S1.congr ha hkeep3
    obtain ⟨t1, sh1, m1⟩ := S1'
    obtain ⟨t2, sh2, m2⟩ := S2
    simp only [V4.mk.injEq] at t1 t2
    obtain ⟨s1, s2, s3, s4⟩ := sums_append ev3 a.leaves b.leaves
    have htot : (⟨X ev3 (a.leaves ++ b.leaves), Y ev3 (a.leaves ++ b.leaves), Z ev3 (a.leaves ++ b.leaves),
        E ev3 (a.leaves ++ b.leaves)⟩ : V4) = ⟨0, 0, 0, √(st (k + c.N))⟩ := by
      rw [s1, s2, s3, s4, t1.1, t1.2.1, t1.2.2.1, t1.2.2.2, t2.1, t2.2.1, t2.2.2.1, t2.2.2.2, hen]
      simp only [V4.mk.injEq, and_true]
      refine ⟨?_, ?_, ?_⟩ <;> ring
    refine ⟨htot, ?_, ?_⟩
    · intro x hx
      rcases List.mem_append.mp hx with hx | hx
      · exact sh1 x hx
      · exact sh2 x hx
    · intro x hx
      rcases List.mem_cons.mp hx with rfl | hx
      · rw [hk, dl, dr, invMass_eq]
        simp only [V4.mk.injEq] at htot
        rw [htot.1, htot.2.1, htot.2.2.1, htot.2.2.2, Real.mul_self_sqrt hspos.le]
        ring
      · rcases List.mem_append.mp hx with hx | hx
        · exact m1 x hx
        · exact m2 x hx

/-! ### The nodes made by the constructor -/

theorem foldl_sub (m0 : Nat → ℝ) : ∀ (l : List Nat) (g : ℝ), l.foldl (fun g i => g - m0 i) g = g - (l.map m0).sum := by
  intro l
  induction l with
  | nil => simp
  | cons x l ih => intro g; rw [List.foldl_cons, ih, List.map_cons, List.sum_cons]; ring

theorem Decay.size {N mass m0 t} (h : Decay N mass m0 t) : t.size = N - 1 ∧ t.IsRes := by
  have h1 := t.size_leaves
  rw [h.leaves.length_eq, List.length_range] at h1
  refine ⟨by omega, ?_⟩
  have := h.two
  cases t with
  | leaf => simp only [Tree.size] at h1; omega
  | res => trivial

theorem range_reverse_pairwise (n : Nat) : (List.range n).reverse.Pairwise (· > ·) := by
  rw [List.pairwise_reverse]
  exact List.pairwise_lt_range

/-- The energy left over, the nodes before their lists are filled. -/
noncomputable def rawNodes (N : Nat) (mass : ℝ) (m0 : Nat → ℝ) (t : Tree) (junk : Nat → Node) : Nat → Node :=
  build N (mass - ((List.range N).map m0).sum) N [(t, 0)] 0 junk

theorem make_rep {N mass m0 t} (h : Decay N mass m0 t) (junk : Nat → Node) :
    ∃ ids, Rep (done (mass - ((List.range N).map m0).sum)) N (Stack.make N mass m0 t junk).nodes t N ids ∧
      ids.Perm (List.range (N - 1)) := by
  obtain ⟨hs, hr⟩ := h.size
  have h2 := h.two
  obtain ⟨_, idss, hall, hperm⟩ := build_spec N (mass - ((List.range N).map m0).sum) N [(t, 0)] 0 junk
    (by simpa using hr) (by simp) (by simp) (by simp [hs])
  cases hall with
  | cons h1 h2' =>
    cases h2'
    rename_i ids
    simp only [List.flatten_cons, List.flatten_nil, List.append_nil, List.map_cons, List.map_nil, List.sum_cons,
      List.sum_nil, add_zero, List.length_cons, List.length_nil, zero_add, hs] at hperm h1
    have hp : ids.Perm (List.range (N - 1)) := by
      refine hperm.trans ?_
      have : N - 1 = (N - 1 - 1) + 1 := by omega
      rw [this, List.range_eq_range' , List.range'_succ]
      simp
    refine ⟨ids, ?_, hp⟩
    have := (fsFold_spec N _ t (List.range (N - 1)).reverse _ N ids h1 (by
      intro i hi
      have := h.leaves.mem_iff.mp hi
      exact List.mem_range.mp this) (range_reverse_pairwise _) (by
      intro k hk
      rw [List.mem_reverse]
      exact hp.mem_iff.mp hk)).1
    unfold Stack.make
    simp only [foldl_sub]
    exact this

/-- What a node holds, and where its daughters are. -/
theorem Rep.node {gap : ℝ} {N : Nat} {nodes : Nat → Node} : ∀ {t : Tree} {idx : Nat} {ids : List Nat},
    Rep (done gap) N nodes t idx ids → ∀ k ∈ ids, ∃ i a b l r, t.Has i a b ∧ nodes k = done gap k i a b l r ∧
      (l ∈ t.leaves ∨ ∃ k' ∈ ids, l = k' + N ∧ k < k') ∧ (r ∈ t.leaves ∨ ∃ k' ∈ ids, r = k' + N ∧ k < k') := by
  intro t
  induction t with
  | leaf i m => intro idx ids h k hk; rw [h.2] at hk; simp at hk
  | res i a b iha ihb =>
    have side : ∀ {t : Tree} {idx : Nat} {ids : List Nat}, Rep (done gap) N nodes t idx ids →
        idx ∈ t.leaves ∨ ∃ k' ∈ ids, idx = k' + N := by
      intro t idx ids h
      cases t with
      | leaf i m => left; simp [Tree.leaves, h.1]
      | res =>
        obtain ⟨k, l, r, A, B, rfl, hk, ha, hb, rfl, hgt⟩ := h
        right; exact ⟨k, by simp, rfl⟩
    rintro idx ids ⟨k, l, r, A, B, rfl, hk, ha, hb, rfl, hgt⟩ x hx
    rcases List.mem_cons.mp hx with rfl | hx
    · refine ⟨i, a, b, l, r, Tree.Has.here i a b, hk, ?_, ?_⟩
      · rcases side ha with h | ⟨k', hk', e⟩
        · left; simp [Tree.leaves, h]
        · right; exact ⟨k', by simp [hk'], e, hgt k' (by simp [hk'])⟩
      · rcases side hb with h | ⟨k', hk', e⟩
        · left; simp [Tree.leaves, h]
        · right; exact ⟨k', by simp [hk'], e, hgt k' (by simp [hk'])⟩
    · rcases List.mem_append.mp hx with hx | hx
      · obtain ⟨i', a', b', l', r', h1, h2, h3, h4⟩ := iha ha x hx
        refine ⟨i', a', b', l', r', h1.left, h2, ?_, ?_⟩
        · rcases h3 with h | ⟨k', hk', e⟩
          · left; simp [Tree.leaves, h]
          · right; exact ⟨k', by simp [hk'], e⟩
        · rcases h4 with h | ⟨k', hk', e⟩
          · left; simp [Tree.leaves, h]
          · right; exact ⟨k', by simp [hk'], e⟩
      · obtain ⟨i', a', b', l', r', h1, h2, h3, h4⟩ := ihb hb x hx
        refine ⟨i', a', b', l', r', h1.right, h2, ?_, ?_⟩
        · rcases h3 with h | ⟨k', hk', e⟩
          · left; simp [Tree.leaves, h]
          · right; exact ⟨k', by simp [hk'], e⟩
        · rcases h4 with h | ⟨k', hk', e⟩
          · left; simp [Tree.leaves, h]
          · right; exact ⟨k', by simp [hk'], e⟩

theorem Tree.low_nonneg {m0 : Nat → ℝ} (hm : ∀ i, 0 ≤ m0 i) : ∀ {t : Tree}, t.MassesAre m0 →
    (∀ i a b, t.Has i a b → 0 ≤ i.mass) → 0 ≤ t.low := by
  intro t
  induction t with
  | leaf i m => intro h _; rw [Tree.low, h]; exact hm i
  | res i a b iha ihb =>
    intro h hp
    unfold Tree.low
    split
    · exact hp i a b (Tree.Has.here i a b)
    · exact add_nonneg (iha h.1 (fun _ _ _ hh => hp _ _ _ hh.left)) (ihb h.2 (fun _ _ _ hh => hp _ _ _ hh.right))

theorem Tree.Has.masses {m0 : Nat → ℝ} {t i a b} (h : Tree.Has t i a b) : t.MassesAre m0 → a.MassesAre m0 ∧ b.MassesAre m0 := by
  induction h with
  | here => exact id
  | left _ ih => intro h; exact ih h.1
  | right _ ih => intro h; exact ih h.2

theorem Tree.Has.trans_left {t i a b} (h : Tree.Has t i a b) {j c d} (h' : a.Has j c d) : Tree.Has t j c d := by
  induction h with
  | here => exact h'.left
  | left _ ih => exact (ih h').left
  | right _ ih => exact (ih h').right

theorem Tree.Has.trans_right {t i a b} (h : Tree.Has t i a b) {j c d} (h' : b.Has j c d) : Tree.Has t j c d := by
  induction h with
  | here => exact h'.right
  | left _ ih => exact (ih h').left
  | right _ ih => exact (ih h').right

theorem done_ok {N mass m0 t} (h : Decay N mass m0 t) {i a b} (hh : t.Has i a b) (k l r : Nat) :
    let gap := mass - ((List.range N).map m0).sum
    (done gap k i a b l r).Ok ∧ (k ≠ 0 → 0 ≤ (done gap k i a b l r).lo) ∧
    (i.quasi = true → (done gap k i a b l r).lo = i.mass * i.mass) ∧
    (k ≠ 0 → i.quasi = false → (done gap k i a b l r).lo = (a.low + b.low) ^ 2 ∧
      (done gap k i a b l r).hi = (gap + (a.low + b.low)) ^ 2) := by
  intro gap
  have hgap : 0 ≤ gap := by have := h.fits; simp only [gap]; linarith
  obtain ⟨hma, hmb⟩ := hh.masses h.masses
  have hla : 0 ≤ a.low := Tree.low_nonneg h.nonneg hma (fun j c d h' => (h.positive j c d (hh.trans_left h')).1)
  have hlb : 0 ≤ b.low := Tree.low_nonneg h.nonneg hmb (fun j c d h' => (h.positive j c d (hh.trans_right h')).1)
  obtain ⟨p1, p2⟩ := h.positive i a b hh
  have hsq : (a.low + b.low) ^ 2 ≤ (gap + (a.low + b.low)) ^ 2 := by nlinarith
  unfold done mkNode Node.Ok
  cases hq : i.quasi with
  | true =>
    simp only [or_true, if_true, sub_zero, add_zero]
    simp
    exact fun _ => mul_self_nonneg _
  | false =>
    have hG := p2 hq
    cases hpl : i.plain with
    | true =>
      by_cases hk : k = 0
      · simp [hk]
        nlinarith
      · simp [hk]
        exact ⟨hsq, by positivity⟩
    | false =>
      by_cases hk : k = 0
      · simp [hk]
        exact ⟨by nlinarith, hG⟩
      · simp [hk]
        exact ⟨⟨hsq, hG⟩, by positivity⟩

/-! ### Weights -/

theorem weightFold {v : Nat → ℝ} : ∀ (L : List Nat),
    0 ≤ L.foldl (fun w i => if v i < 0 then 0 else v i * w) (1 : ℝ) ∧
    (0 < L.foldl (fun w i => if v i < 0 then 0 else v i * w) (1 : ℝ) → ∀ i ∈ L, 0 < v i) ∧
    ∀ r : Nat → ℝ, 0 < L.foldl (fun w i => if v i < 0 then 0 else v i * w) (1 : ℝ) → (∀ i ∈ L, 0 < v i → v i ≤ r i) →
      L.foldl (fun w i => if v i < 0 then 0 else v i * w) (1 : ℝ) ≤ L.foldl (fun w i => w * r i) 1 := by
  intro L
  induction L using List.reverseRecOn with
  | nil => simp
  | append_singleton L k ih =>
    obtain ⟨i1, i2, i3⟩ := ih
    simp only [List.foldl_append, List.foldl_cons, List.foldl_nil]
    set W := L.foldl (fun w i => if v i < 0 then 0 else v i * w) (1 : ℝ) with hW
    by_cases hv : v k < 0
    · simp [hv]
    · rw [if_neg hv]
      push Not at hv
      have hpos : 0 < v k * W → 0 < v k ∧ 0 < W := by
        intro h
        rcases hv.lt_or_eq with h' | h'
        · exact ⟨h', pos_of_mul_pos_right h h'.le⟩
        · rw [← h'] at h; simp at h
      refine ⟨mul_nonneg hv i1, ?_, ?_⟩
      · intro h i hi
        obtain ⟨h1, h2⟩ := hpos h
        rcases List.mem_append.mp hi with hi | hi
        · exact i2 h2 i hi
        · rw [List.mem_singleton] at hi; rw [hi]; exact h1
      · intro r h hr
        obtain ⟨h1, h2⟩ := hpos h
        rw [mul_comm]
        have hk := hr k (by simp) h1
        exact mul_le_mul (i3 r h2 (fun i hi => hr i (by simp [hi]))) hk hv
          (h2.le.trans (i3 r h2 (fun i hi => hr i (by simp [hi]))))

theorem fsFold_core (N : Nat) : ∀ (L : List Nat) (nodes : Nat → Node) (x : Nat),
    (L.foldl (fsStep N) nodes x).l = (nodes x).l ∧ (L.foldl (fsStep N) nodes x).r = (nodes x).r ∧
    (L.foldl (fsStep N) nodes x).lo = (nodes x).lo ∧ (L.foldl (fsStep N) nodes x).hi = (nodes x).hi := by
  intro L
  induction L with
  | nil => intros; exact ⟨rfl, rfl, rfl, rfl⟩
  | cons k L ih =>
    intro nodes x
    rw [List.foldl_cons]
    obtain ⟨h1, h2, h3, h4⟩ := ih (fsStep N nodes k) x
    rw [h1, h2, h3, h4]
    unfold fsStep
    by_cases hx : x = k
    · subst hx; simp
    · simp [Function.update_of_ne hx]

theorem make_rhoMax (N : Nat) (mass : ℝ) (m0 : Nat → ℝ) (t : Tree) (junk : Nat → Node) :
    (Stack.make N mass m0 t junk).rhoMax = √((List.range (N - 1)).reverse.foldl (fun acc i => acc *
      rho2 ((Stack.make N mass m0 t junk).nodes i).hi
        (lowOf N m0 (Stack.make N mass m0 t junk).nodes ((Stack.make N mass m0 t junk).nodes i).l)
        (lowOf N m0 (Stack.make N mass m0 t junk).nodes ((Stack.make N mass m0 t junk).nodes i).r)) 1) := by
  unfold Stack.make
  simp only [foldl_sub]
  congr 2
  funext acc i
  obtain ⟨h1, h2, h3, h4⟩ := fsFold_core N (List.range (N - 1)).reverse
    (build N (mass - ((List.range N).map m0).sum) N [(t, 0)] 0 junk) i
  rw [h1, h2, h4]
  have hlow : ∀ j, lowOf N m0 ((List.range (N - 1)).reverse.foldl (fsStep N)
      (build N (mass - ((List.range N).map m0).sum) N [(t, 0)] 0 junk)) j =
      lowOf N m0 (build N (mass - ((List.range N).map m0).sum) N [(t, 0)] 0 junk) j := by
    intro j
    unfold lowOf
    split
    · rfl
    · exact (fsFold_core N _ _ _).2.2.1
  rw [hlow, hlow]

/-- Everything needed about the chain made for a decay. -/
structure Chain (c : Stack) (mass : ℝ) (t : Tree) (ids : List Nat) : Prop where
  rep : Rep (done (mass - ((List.range c.N).map c.m0).sum)) c.N c.nodes t c.N ids
  perm : ids.Perm (List.range (c.N - 1))

theorem make_chain {N mass m0 t} (h : Decay N mass m0 t) (junk : Nat → Node) :
    ∃ ids, Chain (Stack.make N mass m0 t junk) mass t ids := by
  obtain ⟨ids, h1, h2⟩ := make_rep h junk
  exact ⟨ids, h1, h2⟩

theorem chain_state {c mass t ids} (h : Chain c mass t ids) (hd : Decay c.N mass c.m0 t) {u : Nat → ℝ}
    (hu : ∀ i, 0 ≤ u i ∧ u i ≤ 1) {k : Nat} (hk : k ∈ ids) :
    (c.nodes k).lo ≤ c.state u (k + c.N) ∧ c.state u (k + c.N) ≤ (c.nodes k).hi ∧ (k ≠ 0 → 0 ≤ (c.nodes k).lo) := by
  obtain ⟨i, a, b, l, r, h1, h2, _, _⟩ := h.rep.node k hk
  obtain ⟨o1, o2, _, _⟩ := done_ok hd h1 k l r
  have hst : c.state u (k + c.N) = (c.nodes k).draw (u k) := by
    unfold Stack.state
    rw [if_neg (by omega), Nat.add_sub_cancel]
  rw [hst, h2]
  obtain ⟨d1, d2⟩ := draw_range o1 (hu k).1 (hu k).2
  exact ⟨d1, d2, o2⟩

/-- A daughter's `s` lies above the lowest value used for the maximum weight. -/
theorem chain_daughter {c mass t ids} (h : Chain c mass t ids) (hd : Decay c.N mass c.m0 t) {u : Nat → ℝ}
    (hu : ∀ i, 0 ≤ u i ∧ u i ≤ 1) {k j : Nat} (hj : j ∈ t.leaves ∨ ∃ k' ∈ ids, j = k' + c.N ∧ k < k') :
    0 ≤ lowOf c.N c.m0 c.nodes j ∧ lowOf c.N c.m0 c.nodes j ≤ c.state u j := by
  rcases hj with hj | ⟨k', hk', rfl, hkk⟩
  · have hjN : j < c.N := List.mem_range.mp (hd.leaves.mem_iff.mp hj)
    unfold lowOf Stack.state
    rw [if_pos hjN, if_pos hjN]
    exact ⟨mul_self_nonneg _, le_rfl⟩
  · obtain ⟨h1, h2, h3⟩ := chain_state h hd hu hk'
    unfold lowOf
    rw [if_neg (by omega), Nat.add_sub_cancel]
    exact ⟨h3 (by omega), h1⟩

/-- The factor of node `i` in the weight. -/
noncomputable def factor (c : Stack) (u : Nat → ℝ) (i : Nat) : ℝ :=
  rho2 (c.state u (i + c.N)) (c.state u (c.nodes i).l) (c.state u (c.nodes i).r) *
    (if c.state u (i + c.N) > c.state u (c.nodes i).l + c.state u (c.nodes i).r +
      2 * √(c.state u (c.nodes i).l * c.state u (c.nodes i).r) then 1 else 0)

theorem weight_eq (c : Stack) (u : Nat → ℝ) : c.weight u =
    √((List.range (c.N - 1)).reverse.foldl (fun w i => if factor c u i < 0 then 0 else factor c u i * w) 1) := rfl

/-- A positive weight means that every decay is allowed. -/
theorem weight_phys {c mass t ids} (h : Chain c mass t ids) (hd : Decay c.N mass c.m0 t) {u : Nat → ℝ}
    (hu : ∀ i, 0 ≤ u i ∧ u i ≤ 1) (hw : 0 < c.weight u) : ∀ k ∈ ids, Phys c.N c.nodes (c.state u) k := by
  intro k hk
  rw [weight_eq, Real.sqrt_pos] at hw
  have hf := (weightFold _).2.1 hw k (by rw [List.mem_reverse]; exact h.perm.mem_iff.mp hk)
  obtain ⟨i, a, b, l, r, h1, h2, h3, h4⟩ := h.rep.node k hk
  have hl : (c.nodes k).l = l := by rw [h2, done_l]
  have hr : (c.nodes k).r = r := by rw [h2, done_r]
  obtain ⟨a1, a2⟩ := chain_daughter h hd hu h3
  obtain ⟨b1, b2⟩ := chain_daughter h hd hu h4
  unfold Phys
  unfold factor at hf
  rw [hl, hr] at hf ⊢
  refine ⟨a1.trans a2, b1.trans b2, ?_⟩
  by_contra hc
  rw [if_neg (by simpa using hc), mul_zero] at hf
  exact lt_irrefl _ hf

theorem weight_le {c mass t ids} (h : Chain c mass t ids) (hd : Decay c.N mass c.m0 t) {u : Nat → ℝ}
    (hu : ∀ i, 0 ≤ u i ∧ u i ≤ 1) : c.weight u ≤ √((List.range (c.N - 1)).reverse.foldl (fun acc i => acc *
      rho2 (c.nodes i).hi (lowOf c.N c.m0 c.nodes (c.nodes i).l) (lowOf c.N c.m0 c.nodes (c.nodes i).r)) 1) := by
  have h0 : 0 ≤ c.weight u := by rw [weight_eq]; exact Real.sqrt_nonneg _
  rcases h0.lt_or_eq with hw | hw
  · have hph := weight_phys h hd hu hw
    rw [weight_eq] at hw ⊢
    rw [Real.sqrt_pos] at hw
    apply Real.sqrt_le_sqrt
    refine (weightFold _).2.2 _ hw ?_
    intro k hk _
    rw [List.mem_reverse] at hk
    have hk' := h.perm.mem_iff.mpr hk
    obtain ⟨p1, p2, p3⟩ := hph k hk'
    unfold factor
    rw [if_pos p3, mul_one]
    obtain ⟨i, a, b, l, r, h1, h2, h3, h4⟩ := h.rep.node k hk'
    have hl : (c.nodes k).l = l := by rw [h2, done_l]
    have hr : (c.nodes k).r = r := by rw [h2, done_r]
    obtain ⟨a1, a2⟩ := chain_daughter h hd hu h3
    obtain ⟨b1, b2⟩ := chain_daughter h hd hu h4
    rw [hl, hr] at p3 ⊢
    exact rho2_mono a1 b1 (chain_state h hd hu hk').2.1 a2 b2 p3
  · rw [← hw]
    exact Real.sqrt_nonneg _

/-- Every resonance of the tree sits at a node, those below the top later than it. -/
theorem Rep.has {gap : ℝ} {N : Nat} {nodes : Nat → Node} : ∀ {t : Tree} {idx : Nat} {ids : List Nat},
    Rep (done gap) N nodes t idx ids → ∀ {i a b}, t.Has i a b → ∃ k ∈ ids, ∃ l r, nodes k = done gap k i a b l r := by
  intro t
  induction t with
  | leaf i m => intro idx ids h i a b hh; cases hh
  | res i a b iha ihb =>
    rintro idx ids ⟨k, l, r, A, B, rfl, hk, ha, hb, rfl, hgt⟩ j c d hh
    cases hh with
    | here => exact ⟨k, by simp, l, r, hk⟩
    | left h =>
      obtain ⟨k', h1, h2⟩ := iha ha h
      exact ⟨k', by simp [h1], h2⟩
    | right h =>
      obtain ⟨k', h1, h2⟩ := ihb hb h
      exact ⟨k', by simp [h1], h2⟩

/-- The event filled from an allowed proposal. -/
theorem chain_placed {c mass t ids} (h : Chain c mass t ids) (hd : Decay c.N mass c.m0 t) {u : Nat → ℝ}
    (hu : ∀ i, 0 ≤ u i ∧ u i ≤ 1) (hw : 0 < c.weight u) {u1 u2 : Nat → ℝ} (hz : ∀ k, 0 ≤ u1 k ∧ u1 k ≤ 1) (ev0 : Nat → V4) :
    0 < c.state u c.N ∧ Placed c.m0 c.N c.nodes (c.state u) t ids (fillFromState c (c.state u) u1 u2 ev0)
      ⟨0, 0, 0, √(c.state u c.N)⟩ := by
  have hnd : t.leaves.Nodup := hd.leaves.nodup_iff.mpr List.nodup_range
  have hin : ∀ k ∈ (List.range (c.N - 1)).reverse, k ∈ ids := by
    intro k hk; rw [List.mem_reverse] at hk; exact h.perm.mem_iff.mpr hk
  unfold fillFromState
  refine fill_placed hz t _ _ c.N ids hd.size.2 h.rep hnd (h.perm.nodup_iff.mpr List.nodup_range)
    (range_reverse_pairwise _) ?_ ?_ ?_ (weight_phys h hd hu hw) ?_
  · intro k hk; rw [List.mem_reverse]; exact h.perm.mem_iff.mp hk
  · intro k hk; exact (h.rep.fs_sub k (hin k hk)).2 hnd
  · intro k hk hkn; exact absurd (hin k hk) hkn
  · intro i hi
    unfold Stack.state
    rw [if_pos (List.mem_range.mp (hd.leaves.mem_iff.mp hi))]

end AmpGen.DecayChain
