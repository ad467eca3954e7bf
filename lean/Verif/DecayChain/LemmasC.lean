import Verif.DecayChain.LemmasB
import Verif.PhaseSpace.Spec
/-
The lists of final-state particles, and the momenta built from them.
-/
namespace AmpGen.DecayChain

open Classical
open AmpGen.PhaseSpace (V4 OnShell)

/-- A node as it leaves the constructor. -/
noncomputable def done (gap : ℝ) (k : Nat) (i : Info) (a b : Tree) (l r : Nat) : Node :=
  { mkNode gap k i a b l r with lfs := a.leaves, rfs := b.leaves }

theorem mkNode_l (gap : ℝ) (k i a b l r) : (mkNode gap k i a b l r).l = l := by
  unfold mkNode; simp only; split
  · rfl
  · split <;> rfl

theorem mkNode_r (gap : ℝ) (k i a b l r) : (mkNode gap k i a b l r).r = r := by
  unfold mkNode; simp only; split
  · rfl
  · split <;> rfl

theorem fsFold_of_notMem (N : Nat) : ∀ (L : List Nat) (nodes : Nat → Node) (x : Nat), x ∉ L →
    L.foldl (fsStep N) nodes x = nodes x := by
  intro L
  induction L with
  | nil => intros; rfl
  | cons k L ih =>
    intro nodes x hx
    simp only [List.mem_cons, not_or] at hx
    rw [List.foldl_cons, ih _ _ hx.2]
    unfold fsStep
    rw [Function.update_of_ne hx.1]

theorem fsFold_spec (N : Nat) (gap : ℝ) (t : Tree) : ∀ (L : List Nat) (nodes : Nat → Node) (idx : Nat) (ids : List Nat),
    Rep (mkNode gap) N nodes t idx ids → (∀ i ∈ t.leaves, i < N) → L.Pairwise (· > ·) → (∀ k ∈ ids, k ∈ L) →
    Rep (done gap) N (L.foldl (fsStep N) nodes) t idx ids ∧ fsOf N (L.foldl (fsStep N) nodes) idx = t.leaves := by
  induction t with
  | leaf i m =>
    intro L nodes idx ids h hN _ _
    refine ⟨h, ?_⟩
    rw [h.1, fsOf, if_pos (hN i (by simp [Tree.leaves]))]
    rfl
  | res i a b iha ihb =>
    rintro L nodes idx ids ⟨k, l, r, A, B, rfl, hk, ha, hb, rfl, hgt⟩ hN hL hsub
    obtain ⟨L1, L2, rfl⟩ := List.append_of_mem (hsub k (by simp))
    rw [List.pairwise_append] at hL
    obtain ⟨hp1, hp2, hp3⟩ := hL
    rw [List.pairwise_cons] at hp2
    have hk1 : k ∉ L1 := fun h => absurd (hp3 k h k (by simp)) (by omega)
    have hin : ∀ x ∈ A ++ B, x ∈ L1 := by
      intro x hx
      have hx' := hsub x (by simp only [List.mem_cons]; right; exact hx)
      rcases List.mem_append.mp hx' with h | h
      · exact h
      · exfalso
        have := hgt x hx
        rcases List.mem_cons.mp h with h | h
        · omega
        · have := hp2.1 x h; omega
    have hout : ∀ x ∈ k :: (A ++ B), x ∉ L2 := by
      intro x hx h
      have h1 := hp2.1 x h
      rcases List.mem_cons.mp hx with rfl | hx
      · omega
      · have := hgt x hx; omega
    have hNa : ∀ x ∈ a.leaves, x < N := fun x hx => hN x (by simp [Tree.leaves, hx])
    have hNb : ∀ x ∈ b.leaves, x < N := fun x hx => hN x (by simp [Tree.leaves, hx])
    obtain ⟨ra, fa⟩ := iha L1 nodes l A ha hNa hp1 (fun x hx => hin x (by simp [hx]))
    obtain ⟨rb, fb⟩ := ihb L1 nodes r B hb hNb hp1 (fun x hx => hin x (by simp [hx]))
    rw [List.foldl_append, List.foldl_cons]
    set n1 := L1.foldl (fsStep N) nodes with hn1
    have hk' : n1 k = mkNode gap k i a b l r := by rw [hn1, fsFold_of_notMem N L1 nodes k hk1, hk]
    have hstep : fsStep N n1 k = Function.update n1 k (done gap k i a b l r) := by
      unfold fsStep
      rw [hk', mkNode_l, mkNode_r, fa, fb]
      rfl
    have hfin : ∀ x ∈ k :: (A ++ B), L2.foldl (fsStep N) (fsStep N n1 k) x = fsStep N n1 k x :=
      fun x hx => fsFold_of_notMem N L2 _ x (hout x hx)
    have hne : ∀ x ∈ A ++ B, x ≠ k := fun x hx => by have := hgt x hx; omega
    have hkf : L2.foldl (fsStep N) (fsStep N n1 k) k = done gap k i a b l r := by
      rw [hfin k (by simp), hstep, Function.update_self]
    constructor
    · refine ⟨k, l, r, A, B, rfl, hkf, ra.congr ?_, rb.congr ?_, rfl, hgt⟩
      · intro x hx
        rw [hfin x (by simp [hx]), hstep, Function.update_of_ne (hne x (by simp [hx]))]
      · intro x hx
        rw [hfin x (by simp [hx]), hstep, Function.update_of_ne (hne x (by simp [hx]))]
    · rw [fsOf, if_neg (by omega), Nat.add_sub_cancel, hkf]
      rfl

/-! ### Sums and boosts -/

def X (ev : Nat → V4) (fs : List Nat) : ℝ := (fs.map fun i => (ev i).x).sum
def Y (ev : Nat → V4) (fs : List Nat) : ℝ := (fs.map fun i => (ev i).y).sum
def Z (ev : Nat → V4) (fs : List Nat) : ℝ := (fs.map fun i => (ev i).z).sum
def E (ev : Nat → V4) (fs : List Nat) : ℝ := (fs.map fun i => (ev i).e).sum

theorem invMass_eq (ev : Nat → V4) (fs : List Nat) :
    invMass ev fs = E ev fs * E ev fs - X ev fs * X ev fs - Y ev fs * Y ev fs - Z ev fs * Z ev fs := by
  have key : ∀ (fs : List Nat) (P : V4),
      fs.foldl (fun (P : V4) x => ⟨P.x + (ev x).x, P.y + (ev x).y, P.z + (ev x).z, P.e + (ev x).e⟩) P =
      ⟨P.x + X ev fs, P.y + Y ev fs, P.z + Z ev fs, P.e + E ev fs⟩ := by
    intro fs
    induction fs with
    | nil => intro P; simp [X, Y, Z, E]
    | cons x fs ih =>
      intro P
      rw [List.foldl_cons, ih]
      simp only [X, Y, Z, E, List.map_cons, List.sum_cons, add_assoc]
  unfold invMass
  simp only [key, zero_add]

theorem sums_congr {ev ev' : Nat → V4} {fs : List Nat} (h : ∀ i ∈ fs, ev' i = ev i) :
    X ev' fs = X ev fs ∧ Y ev' fs = Y ev fs ∧ Z ev' fs = Z ev fs ∧ E ev' fs = E ev fs := by
  refine ⟨?_, ?_, ?_, ?_⟩ <;>
  · simp only [X, Y, Z, E]
    congr 1
    apply List.map_congr_left
    intro i hi
    rw [h i hi]

theorem sums_boost {ev ev' : Nat → V4} {fs : List Nat} {nx ny nz g vg : ℝ} (h : ∀ i ∈ fs, ev' i = boost nx ny nz g vg (ev i)) :
    (⟨X ev' fs, Y ev' fs, Z ev' fs, E ev' fs⟩ : V4) = boost nx ny nz g vg ⟨X ev fs, Y ev fs, Z ev fs, E ev fs⟩ := by
  induction fs with
  | nil => simp [X, Y, Z, E, boost]
  | cons i fs ih =>
    have h1 := h i (by simp)
    have h2 := ih (fun j hj => h j (by simp [hj]))
    simp only [X, Y, Z, E, boost, V4.mk.injEq] at h2
    simp only [X, Y, Z, E, List.map_cons, List.sum_cons, boost, V4.mk.injEq, h1, h2.1, h2.2.1, h2.2.2.1, h2.2.2.2]
    refine ⟨?_, ?_, ?_, ?_⟩ <;> ring

theorem boost_quad {nx ny nz g vg : ℝ} (hn : nx * nx + ny * ny + nz * nz = 1) (hg : g * g - vg * vg = 1) (v : V4) :
    (boost nx ny nz g vg v).e * (boost nx ny nz g vg v).e - (boost nx ny nz g vg v).x * (boost nx ny nz g vg v).x -
      (boost nx ny nz g vg v).y * (boost nx ny nz g vg v).y - (boost nx ny nz g vg v).z * (boost nx ny nz g vg v).z =
    v.e * v.e - v.x * v.x - v.y * v.y - v.z * v.z := by
  simp only [boost]
  set w := v.x * nx + v.y * ny + v.z * nz with hw
  set k := (g - 1) * w + vg * v.e with hk
  have : (v.x + k * nx) * (v.x + k * nx) + (v.y + k * ny) * (v.y + k * ny) + (v.z + k * nz) * (v.z + k * nz) =
      v.x * v.x + v.y * v.y + v.z * v.z + 2 * k * w + k * k := by
    rw [hw]; linear_combination (k * k) * hn
  have h2 : (g * v.e + vg * w) * (g * v.e + vg * w) - (2 * k * w + k * k) = v.e * v.e := by
    rw [hk]; linear_combination (v.e * v.e - w * w) * hg
  linarith

theorem boost_onShell {nx ny nz g vg m : ℝ} (hn : nx * nx + ny * ny + nz * nz = 1) (hg : g * g - vg * vg = 1) (hg0 : 0 ≤ g)
    (hv : 0 ≤ vg) {v : V4} (h : OnShell m v) : OnShell m (boost nx ny nz g vg v) := by
  obtain ⟨h1, h2⟩ := h
  have hq := boost_quad hn hg v
  constructor
  · nlinarith
  · simp only [boost]
    set w := v.x * nx + v.y * ny + v.z * nz with hw
    have hcs : w * w ≤ v.x * v.x + v.y * v.y + v.z * v.z := by
      have : (v.x * v.x + v.y * v.y + v.z * v.z) * (nx * nx + ny * ny + nz * nz) - w * w =
        (v.x * ny - v.y * nx) * (v.x * ny - v.y * nx) + (v.y * nz - v.z * ny) * (v.y * nz - v.z * ny) +
        (v.z * nx - v.x * nz) * (v.z * nx - v.x * nz) := by rw [hw]; ring
      rw [hn] at this
      nlinarith [mul_self_nonneg (v.x * ny - v.y * nx), mul_self_nonneg (v.y * nz - v.z * ny), mul_self_nonneg (v.z * nx - v.x * nz)]
    have hwe : |w| ≤ v.e := by
      apply abs_le_of_sq_le_sq _ h2
      nlinarith [mul_self_nonneg m]
    have hvg : vg ≤ g := by
      apply le_of_sq_le_sq' <;> nlinarith
    have h3 := (abs_le.mp hwe).1
    have h4 := (abs_le.mp hwe).2
    nlinarith [mul_nonneg hv (by linarith : 0 ≤ v.e + w), mul_nonneg (by linarith : 0 ≤ g - vg) h2]
where
  le_of_sq_le_sq' {x y : ℝ} (h : x * x ≤ y * y) (hx : 0 ≤ x) (hy : 0 ≤ y) : x ≤ y := by
    by_contra hc
    push Not at hc
    nlinarith

/-! ### Moving the particles of one daughter -/

theorem foldl_update {f : V4 → V4} : ∀ (fs : List Nat) (ev : Nat → V4), fs.Nodup →
    ∀ x, fs.foldl (fun ev x => Function.update ev x (f (ev x))) ev x = if x ∈ fs then f (ev x) else ev x := by
  intro fs
  induction fs with
  | nil => intros; simp
  | cons y fs ih =>
    intro ev hnd x
    rw [List.nodup_cons] at hnd
    rw [List.foldl_cons, ih _ hnd.2]
    by_cases hxy : x = y
    · subst hxy
      simp [hnd.1]
    · simp [hxy]

theorem moveSide_of_notMem {fs : List Nat} {px py pz e nx ny nz g vg : ℝ} {ev : Nat → V4} (hnd : fs.Nodup) {x : Nat}
    (hx : x ∉ fs) : moveSide fs px py pz e nx ny nz g vg ev x = ev x := by
  unfold moveSide
  split
  · match fs, ‹fs.length = 1› with
    | [y], _ =>
      simp only [List.mem_singleton] at hx
      rw [List.headD_cons, Function.update_of_ne hx]
  · rw [foldl_update (f := boost nx ny nz g vg) fs ev hnd x, if_neg hx]

theorem fillStep_of_notMem {c : Stack} {st : Nat → ℝ} {a b : Nat → ℝ} {ev : Nat → V4} {k x : Nat}
    (h1 : (c.nodes k).lfs.Nodup) (h2 : (c.nodes k).rfs.Nodup) (hx : x ∉ (c.nodes k).lfs ++ (c.nodes k).rfs) :
    fillStep c st a b ev k x = ev x := by
  simp only [List.mem_append, not_or] at hx
  unfold fillStep
  rw [moveSide_of_notMem h2 hx.2, moveSide_of_notMem h1 hx.1]

/-- The particles of `t`, whose nodes are `ids`, have total momentum `(P, e)`, are on shell, and the
particles of each of its resonances have the mass drawn for it. -/
structure Placed (m0 : Nat → ℝ) (N : Nat) (nodes : Nat → Node) (st : Nat → ℝ) (t : Tree) (ids : List Nat) (ev : Nat → V4)
    (P : V4) : Prop where
  total : (⟨X ev t.leaves, Y ev t.leaves, Z ev t.leaves, E ev t.leaves⟩ : V4) = P
  shell : ∀ i ∈ t.leaves, OnShell (m0 i) (ev i)
  mass : ∀ k ∈ ids, invMass ev ((nodes k).lfs ++ (nodes k).rfs) = st (k + N)

theorem Rep.fs_sub {gap : ℝ} {N : Nat} {nodes : Nat → Node} : ∀ {t : Tree} {idx : Nat} {ids : List Nat},
    Rep (done gap) N nodes t idx ids → ∀ k ∈ ids, (∀ x ∈ (nodes k).lfs ++ (nodes k).rfs, x ∈ t.leaves) ∧
      (t.leaves.Nodup → ((nodes k).lfs ++ (nodes k).rfs).Nodup) := by
  intro t
  induction t with
  | leaf i m => intro idx ids h k hk; rw [h.2] at hk; simp at hk
  | res i a b iha ihb =>
    rintro idx ids ⟨k, l, r, A, B, rfl, hk, ha, hb, rfl, hgt⟩ x hx
    rcases List.mem_cons.mp hx with rfl | hx
    · rw [hk]
      exact ⟨fun y hy => hy, fun h => h⟩
    · rcases List.mem_append.mp hx with hx | hx
      · obtain ⟨h1, h2⟩ := iha ha x hx
        refine ⟨fun y hy => by simp [Tree.leaves, h1 y hy], fun h => h2 ?_⟩
        simp only [Tree.leaves, List.nodup_append] at h
        exact h.1
      · obtain ⟨h1, h2⟩ := ihb hb x hx
        refine ⟨fun y hy => by simp [Tree.leaves, h1 y hy], fun h => h2 ?_⟩
        simp only [Tree.leaves, List.nodup_append] at h
        exact h.2.1

theorem Placed.congr {m0 N nodes st t ids ev P gap idx} {ev' : Nat → V4} (h : Placed m0 N nodes st t ids ev P)
    (hr : Rep (done gap) N nodes t idx ids) (he : ∀ i ∈ t.leaves, ev' i = ev i) : Placed m0 N nodes st t ids ev' P := by
  obtain ⟨h1, h2, h3⟩ := h
  refine ⟨?_, ?_, ?_⟩
  · obtain ⟨e1, e2, e3, e4⟩ := sums_congr he
    rw [e1, e2, e3, e4, h1]
  · intro i hi; rw [he i hi]; exact h2 i hi
  · intro k hk
    obtain ⟨e1, e2, e3, e4⟩ := sums_congr (fun i hi => he i ((hr.fs_sub k hk).1 i hi))
    rw [invMass_eq, e1, e2, e3, e4, ← invMass_eq, h3 k hk]

theorem Placed.boosted {m0 N nodes st t ids ev P gap idx} {ev' : Nat → V4} {nx ny nz g vg : ℝ}
    (h : Placed m0 N nodes st t ids ev P) (hr : Rep (done gap) N nodes t idx ids)
    (hn : nx * nx + ny * ny + nz * nz = 1) (hg : g * g - vg * vg = 1) (hg0 : 0 ≤ g) (hv : 0 ≤ vg)
    (he : ∀ i ∈ t.leaves, ev' i = boost nx ny nz g vg (ev i)) :
    Placed m0 N nodes st t ids ev' (boost nx ny nz g vg P) := by
  obtain ⟨h1, h2, h3⟩ := h
  refine ⟨?_, ?_, ?_⟩
  · rw [sums_boost he, h1]
  · intro i hi; rw [he i hi]; exact boost_onShell hn hg hg0 hv (h2 i hi)
  · intro k hk
    have e := sums_boost (fun i hi => he i ((hr.fs_sub k hk).1 i hi))
    rw [invMass_eq]
    have q := boost_quad hn hg ⟨X ev ((nodes k).lfs ++ (nodes k).rfs), Y ev ((nodes k).lfs ++ (nodes k).rfs),
      Z ev ((nodes k).lfs ++ (nodes k).rfs), E ev ((nodes k).lfs ++ (nodes k).rfs)⟩
    rw [← e] at q
    simp only at q
    rw [q, ← invMass_eq, h3 k hk]

/-- Moving one daughter gives its particles the momentum asked for. -/
theorem side_placed {m0 : Nat → ℝ} {N : Nat} {nodes : Nat → Node} {st : Nat → ℝ} {t : Tree} {ids : List Nat} {ev : Nat → V4} {gap : ℝ}
    {idx : Nat} {nx ny nz p : ℝ} (hr : Rep (done gap) N nodes t idx ids) (hnd : t.leaves.Nodup)
    (hn : nx * nx + ny * ny + nz * nz = 1) (hp : 0 ≤ p)
    (hleaf : ∀ i m, t = .leaf i m → st idx = m0 i * m0 i)
    (hres : t.IsRes → 0 < st idx ∧ Placed m0 N nodes st t ids ev ⟨0, 0, 0, √(st idx)⟩) :
    Placed m0 N nodes st t ids (moveSide t.leaves (p * nx) (p * ny) (p * nz) (√(st idx + p * p)) nx ny nz
      (√(1 + p * p / st idx)) (p / √(st idx)) ev) ⟨p * nx, p * ny, p * nz, √(st idx + p * p)⟩ := by
  cases t with
  | leaf i m =>
    have hm := hleaf i m rfl
    have hmv : ∀ a b c d, moveSide (Tree.leaf i m).leaves (p * nx) (p * ny) (p * nz) (√(st idx + p * p)) a b c
      (√(1 + p * p / st idx)) d ev i = ⟨p * nx, p * ny, p * nz, √(st idx + p * p)⟩ := by
      intros
      simp [moveSide, Tree.leaves]
    refine ⟨?_, ?_, ?_⟩
    · rw [show (Tree.leaf i m).leaves = [i] from rfl] at hmv ⊢
      simp only [X, Y, Z, E, List.map_cons, List.map_nil, List.sum_cons, List.sum_nil, add_zero, hmv]
    · intro j hj
      rw [show (Tree.leaf i m).leaves = [i] from rfl, List.mem_singleton] at hj
      subst hj
      rw [hmv]
      refine ⟨?_, Real.sqrt_nonneg _⟩
      simp only
      rw [hm]
      have h0 : 0 ≤ m0 j * m0 j + p * p := add_nonneg (mul_self_nonneg _) (mul_self_nonneg _)
      have hs := Real.sq_sqrt h0
      have : p * p * (nx * nx + ny * ny + nz * nz) = p * p := by rw [hn, mul_one]
      nlinarith
    · intro k hk
      rw [hr.2] at hk
      simp at hk
  | res i a b =>
    obtain ⟨hs, hpl⟩ := hres (by simp [Tree.IsRes])
    have hlen : (Tree.res i a b).leaves.length ≠ 1 := by
      have := (Tree.res i a b).size_leaves
      simp only [Tree.size] at this
      omega
    have hsq : √(st idx) * √(st idx) = st idx := Real.mul_self_sqrt hs.le
    have hspos : 0 < √(st idx) := Real.sqrt_pos.mpr hs
    have hg2 : √(1 + p * p / st idx) * √(1 + p * p / st idx) = 1 + p * p / st idx :=
      Real.mul_self_sqrt (by positivity)
    have hg : √(1 + p * p / st idx) * √(1 + p * p / st idx) - p / √(st idx) * (p / √(st idx)) = 1 := by
      rw [hg2, div_mul_div_comm, hsq]; ring
    have := Placed.boosted (ev' := moveSide (Tree.res i a b).leaves (p * nx) (p * ny) (p * nz) (√(st idx + p * p)) nx ny nz
      (√(1 + p * p / st idx)) (p / √(st idx)) ev) hpl hr hn hg (Real.sqrt_nonneg _) (by positivity) (by
        intro x hx
        unfold moveSide
        rw [if_neg hlen, foldl_update (f := boost nx ny nz _ _) _ _ hnd, if_pos hx])
    have e : boost nx ny nz (√(1 + p * p / st idx)) (p / √(st idx)) ⟨0, 0, 0, √(st idx)⟩ =
        ⟨p * nx, p * ny, p * nz, √(st idx + p * p)⟩ := by
      have hv : p / √(st idx) * √(st idx) = p := by field_simp
      have he : √(1 + p * p / st idx) * √(st idx) = √(st idx + p * p) := by
        rw [← Real.sqrt_mul (by positivity)]
        congr 1
        field_simp
      simp only [boost, zero_mul, add_zero, mul_zero, zero_add, hv, he]
    rwa [e] at this

/-- The two daughters' energies add up to the parent's mass. -/
theorem energies {s a b : ℝ} (ha : 0 ≤ a) (hb : 0 ≤ b) (h : a + b + 2 * √(a * b) < s) :
    let p := 0.5 * √(s * rho2 s a b)
    0 ≤ p ∧ √(a + p * p) + √(b + p * p) = √s := by
  have hq := Real.sqrt_nonneg (a * b)
  have hs : 0 < s := by linarith
  have hr := rho2_pos ha hb h
  intro p
  have hp : 0 ≤ p := by positivity
  refine ⟨hp, ?_⟩
  have hpp : p * p = s * rho2 s a b / 4 := by
    have := Real.mul_self_sqrt (by positivity : 0 ≤ s * rho2 s a b)
    show (0.5 * √(s * rho2 s a b)) * (0.5 * √(s * rho2 s a b)) = _
    nlinarith
  have hss : √s * √s = s := Real.mul_self_sqrt hs.le
  have hs' : 0 < √s := Real.sqrt_pos.mpr hs
  have key : ∀ {a b : ℝ}, 0 ≤ a → 0 ≤ b → a + b < s → √(a + s * rho2 s a b / 4) = (s + a - b) / (2 * √s) := by
    intro a b ha hb hlt
    rw [Real.sqrt_eq_iff_mul_self_eq_of_pos (div_pos (by linarith) (by positivity))]
    unfold rho2
    rw [div_mul_div_comm]
    have : 2 * √s * (2 * √s) = 4 * s := by nlinarith
    rw [this]
    field_simp
    ring
  have hsym : rho2 s a b = rho2 s b a := by unfold rho2; ring
  rw [hpp, key ha hb (by linarith)]
  rw [hsym, key hb ha (by linarith)]
  have : (s + a - b) / (2 * √s) + (s + b - a) / (2 * √s) = s / √s := by field_simp; ring
  rw [this, div_eq_iff hs'.ne', hss]

end AmpGen.DecayChain
