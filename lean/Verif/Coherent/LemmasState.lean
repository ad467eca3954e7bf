import Verif.Coherent.Lemmas
/-
The invariant of a coherent sum over histories.
-/
namespace AmpGen.Coherent

variable {P X : Type} {W : Nat}

/-! ### External buffers -/

theorem ME.setExternal_fields (m : ME) (v : ℝ) (a : Nat) :
    (m.setExternal v a).coefficient = m.coefficient ∧ (m.setExternal v a).workToDo = m.workToDo := by
  unfold ME.setExternal; split <;> simp

theorem ME.prepare_aux : ∀ (vs pre : List ℝ) (m : ME), m.buffer.take pre.length = pre →
    m.buffer.length = pre.length + vs.length →
    let m' := (vs.zipIdx pre.length).foldl (fun m v => m.setExternal v.1 v.2) m
    m'.buffer = pre ++ vs ∧ m'.coefficient = m.coefficient ∧ m'.workToDo = m.workToDo ∧
      (m'.changed = false → m.changed = false ∧ m.buffer = pre ++ vs) := by
  intro vs
  induction vs with
  | nil =>
    intro pre m h1 h2
    have : m.buffer = pre := by
      rw [← h1, List.take_of_length_le]
      simp at h2; omega
    simp [this]
  | cons v vs ih =>
    intro pre m h1 h2
    simp only [List.length_cons] at h2
    have hpre : pre.length < m.buffer.length := by omega
    simp only [List.zipIdx_cons, List.foldl_cons]
    have hf := m.setExternal_fields v pre.length
    have hlen : (pre ++ [v]).length = pre.length + 1 := by simp
    have hsplit : ∀ b : List ℝ, b.length = m.buffer.length → b.take pre.length = pre → b[pre.length]? = some v →
        b.take (pre.length + 1) = pre ++ [v] := by
      intro b hb ht hg
      rw [List.take_add_one, ht, hg]; rfl
    by_cases hv : m.buffer[pre.length]? = some v
    · have hm : m.setExternal v pre.length = m := by unfold ME.setExternal; rw [if_pos hv]
      rw [hm]
      have := ih (pre ++ [v]) m (by rw [hlen]; exact hsplit _ rfl h1 hv) (by rw [hlen]; omega)
      rw [hlen] at this
      simpa using this
    · have hm : m.setExternal v pre.length = { m with buffer := m.buffer.set pre.length v, changed := true } := by
        unfold ME.setExternal; rw [if_neg hv]
      rw [hm]
      have hg : (m.buffer.set pre.length v)[pre.length]? = some v := by simp [hpre]
      have ht : (m.buffer.set pre.length v).take pre.length = pre := by
        rw [List.take_set_of_le (Nat.le_refl _)]; exact h1
      have := ih (pre ++ [v]) { m with buffer := m.buffer.set pre.length v, changed := true }
        (by rw [hlen]; exact hsplit _ (by simp) ht hg) (by rw [hlen]; simp; omega)
      rw [hlen] at this
      obtain ⟨t1, t2, t3, t4⟩ := this
      refine ⟨by simpa using t1, t2, t3, fun h => ?_⟩
      exact absurd (t4 h).1 (by simp)

theorem ME.prepare_spec (m : ME) (vs : List ℝ) (h : m.buffer.length = vs.length) :
    (m.prepare vs).buffer = vs ∧ (m.prepare vs).coefficient = m.coefficient ∧
      (m.prepare vs).workToDo = m.workToDo ∧
      ((m.prepare vs).changed = false → m.changed = false ∧ m.buffer = vs) := by
  have := ME.prepare_aux vs [] m (by simp) (by simpa using h)
  simpa [ME.prepare] using this

/-! ### Integrals of an integrator whose cache is up to date -/

/-- The cache of the integrator holds amplitude `i` evaluated with buffer `buf`. -/
def ICached (A : Amps P X) (I : Integrator X W) (i : Nat) (buf : List ℝ) : Prop :=
  ∀ evs, I.events = some evs → ∀ b e l, evs[b]? = some e → I.cache i b l = A.amp i buf (e l).x

/-- The integrator's weights belong to its sample. -/
def IReady (I : Integrator X W) : Prop :=
  ∀ evs, I.events = some evs → I.weight = (evs.map fun b l => (b l).w) ∧ I.norm = sumOver evs SimEvent.w

theorem make_ready (evs : List (Fin W → SimEvent X)) (junk : Nat → Nat → Fin W → ℂ) :
    IReady (Integrator.make evs junk) := by
  intro evs' h
  simp only [Integrator.make, Option.some.injEq] at h
  subst h
  refine ⟨rfl, ?_⟩
  simp only [Integrator.make]
  rw [foldl_lanes]
  simp only [sumElements, Finset.sum_const_zero, zero_add, List.map_map, sumOver]
  rfl

theorem integral_fields {I : Integrator X W} (hr : IReady I) {evs : List (Fin W → SimEvent X)}
    (he : I.events = some evs) {i j : Nat} {f g : X → ℂ}
    (hi : ∀ b e l, evs[b]? = some e → I.cache i b l = f (e l).x)
    (hj : ∀ b e l, evs[b]? = some e → I.cache j b l = g (e l).x) :
    I.integral i j = averageC evs fun x => f x * (starRingEnd ℂ) (g x) := by
  obtain ⟨hw, hn⟩ := hr evs he
  rw [integral_eq, averageC, hn]
  congr 1
  unfold blockSum sumOver
  congr 1
  apply List.ext_getElem
  · simp [hw]
  · intro b h1 h2
    have hb : b < evs.length := by simpa using h2
    simp only [List.getElem_map, List.getElem_zipIdx, zero_add]
    have hww : I.weight[b]'(by simpa using h1) = fun l => ((evs[b]) l).w := by
      simp [hw]
    apply Finset.sum_congr rfl
    intro l _
    rw [hww, hi b _ l (List.getElem?_eq_getElem hb), hj b _ l (List.getElem?_eq_getElem hb)]

theorem integral_cached {A : Amps P X} {I : Integrator X W} (hr : IReady I) {evs : List (Fin W → SimEvent X)}
    (he : I.events = some evs) {i j : Nat} {bi bj : List ℝ} (hi : ICached A I i bi) (hj : ICached A I j bj) :
    I.integral i j = averageC evs fun x => A.amp i bi x * (starRingEnd ℂ) (A.amp j bj x) :=
  integral_fields hr he (hi evs he) (hj evs he)

/-! ### Invariant -/

def DCached (A : Amps P X) (s : St P X W) (i : Nat) (buf : List ℝ) : Prop :=
  ∀ evs, s.data = some evs → ∀ b e l, evs[b]? = some e → s.cache i b l = A.amp i buf (e l)

def NCached (A : Amps P X) (s : St P X W) (i j : Nat) (bi bj : List ℝ) : Prop :=
  ∀ evs, s.integ.events = some evs → s.norms (i * A.n + j) =
    averageC evs fun x => A.amp i bi x * (starRingEnd ℂ) (A.amp j bj x)

structure Inv (A : Amps P X) (s : St P X W) : Prop where
  queue : s.integ.queue = []
  ready : IReady s.integ
  slots : ∀ i p, (s.me i).buffer.length = (A.ext i p).length
  idle : ∀ i, (s.me i).workToDo = false
  data : ∀ i < A.n, s.calls ≠ 0 → (s.me i).changed = false → DCached A s i (s.me i).buffer
  integ : ∀ i < A.n, s.calls ≠ 0 → (s.me i).changed = false → ICached A s.integ i (s.me i).buffer
  norms : ∀ i j, i ≤ j → j < A.n → s.calls ≠ 0 → (s.me i).changed = false → (s.me j).changed = false →
    NCached A s i j (s.me i).buffer (s.me j).buffer

theorem inv_init (A : Amps P X) (hA : A.WF) (p : P) : Inv A (St.init A p : St P X W) where
  queue := rfl
  ready := fun evs h => by simp [St.init] at h
  slots := fun i q => hA.slots i p q
  idle := fun _ => rfl
  data := fun i _ h => absurd rfl h
  integ := fun i _ h => absurd rfl h
  norms := fun i j _ _ h => absurd rfl h

/-- State during the loop of `prepare`, having treated the first `k` elements of `s0`. -/
structure Loop (A : Amps P X) (s0 : St P X W) (k : Nat) (s : St P X W) : Prop where
  par : s.par = s0.par
  sdata : s.data = s0.data
  ievents : s.integ.events = s0.integ.events
  iweight : s.integ.weight = s0.integ.weight
  inorm : s.integ.norm = s0.integ.norm
  iqueue : s.integ.queue = s0.integ.queue
  norms : s.norms = s0.norms
  calls : s.calls = s0.calls
  coef : ∀ i, (s.me i).coefficient = (s0.me i).coefficient
  rest : ∀ i, k ≤ i → s.me i = s0.me i ∧ s.cache i = s0.cache i ∧ s.integ.cache i = s0.integ.cache i
  buffer : ∀ i < k, (s.me i).buffer = A.ext i s0.par ∧ (s.me i).changed = false
  dcache : ∀ i < k, DCached A s i (A.ext i s0.par)
  icache : ∀ i < k, ICached A s.integ i (A.ext i s0.par)
  work : ∀ i < k, (s.me i).workToDo = false →
    s0.calls ≠ 0 ∧ (s0.me i).changed = false ∧ (s0.me i).buffer = A.ext i s0.par

theorem loop_step (A : Amps P X) (hA : A.WF) {s0 s : St P X W} {k : Nat} (hk : k < A.n) (h0 : Inv A s0)
    (h : Loop A s0 k s) : Loop A s0 (k + 1) (s.prepareOne A k) := by
  obtain ⟨hme, hc, hic⟩ := h.rest k (Nat.le_refl _)
  have hfield := hA.field hk
  set m := (s.me k).prepare (A.ext k s.par) with hm
  have hspec := (s.me k).prepare_spec (A.ext k s.par) (by rw [hme]; exact h0.slots k s.par)
  rw [← hm] at hspec
  obtain ⟨hb, hco, hw, hch⟩ := hspec
  rw [h.par] at hb
  by_cases hcond : s.calls ≠ 0 ∧ m.changed = false
  · have hs : s.prepareOne A k = { s with me := Function.update s.me k m } := by
      unfold St.prepareOne
      simp only [← hm]
      rw [if_pos hcond]
    rw [hs]
    obtain ⟨hch1, hch2⟩ := hch hcond.2
    have hold : s0.calls ≠ 0 ∧ (s0.me k).changed = false ∧ (s0.me k).buffer = A.ext k s0.par := by
      rw [← h.calls, ← hme]
      exact ⟨hcond.1, hch1, by rw [hch2, h.par]⟩
    have hd0 := h0.data k hk hold.1 hold.2.1
    have hi0 := h0.integ k hk hold.1 hold.2.1
    rw [hold.2.2] at hd0 hi0
    have hne : ∀ i, i < k → i ≠ k := fun i hi => Nat.ne_of_lt hi
    refine ⟨h.par, h.sdata, h.ievents, h.iweight, h.inorm, h.iqueue, h.norms, h.calls, ?_, ?_, ?_, ?_, ?_, ?_⟩
    · intro i
      by_cases hi : i = k
      · subst hi; simp only [Function.update_self]; rw [hco, hme]
      · simp only [Function.update_of_ne hi]; exact h.coef i
    · intro i hi
      have hik : i ≠ k := by omega
      obtain ⟨r1, r2, r3⟩ := h.rest i (by omega)
      exact ⟨by simp only [Function.update_of_ne hik]; exact r1, r2, r3⟩
    · intro i hi
      by_cases hik : i = k
      · subst hik; simp only [Function.update_self]; exact ⟨hb, hcond.2⟩
      · simp only [Function.update_of_ne hik]; exact h.buffer i (by omega)
    · intro i hi
      by_cases hik : i = k
      · subst hik
        intro evs he b e l hb'
        show s.cache i b l = _
        rw [hc]
        exact hd0 evs (by rw [← h.sdata]; exact he) b e l hb'
      · exact h.dcache i (by omega)
    · intro i hi
      by_cases hik : i = k
      · subst hik
        intro evs he b e l hb'
        show s.integ.cache i b l = _
        rw [hic]
        exact hi0 evs (by rw [← h.ievents]; exact he) b e l hb'
      · exact h.icache i (by omega)
    · intro i hi
      by_cases hik : i = k
      · subst hik; intro _; exact hold
      · simp only [Function.update_of_ne hik]; exact h.work i (by omega)
  · have hs : s.prepareOne A k =
        { s with
          cache := ({ s with me := Function.update s.me k m } : St P X W).updateCache A k,
          integ := { s.integ with cache := ({ s with me := Function.update s.me k m } : St P X W).updateInteg A k },
          me := Function.update (Function.update s.me k m) k { m with changed := false, workToDo := true } } := by
      unfold St.prepareOne
      simp only [← hm]
      rw [if_neg hcond]
    rw [hs]
    have hcne : ∀ i, i ≠ k → ({ s with me := Function.update s.me k m } : St P X W).updateCache A k i = s.cache i := by
      intro i hi
      unfold St.updateCache
      rw [hfield]
      cases hd : s.data with
      | none => simp [hd]
      | some evs => simp only [hd]; rw [Function.update_of_ne hi]
    have hine : ∀ i, i ≠ k → ({ s with me := Function.update s.me k m } : St P X W).updateInteg A k i = s.integ.cache i := by
      intro i hi
      unfold St.updateInteg
      rw [hfield]
      cases hd : s.integ.events with
      | none => simp [hd]
      | some evs => simp only [hd]; rw [Function.update_of_ne hi]
    refine ⟨h.par, h.sdata, h.ievents, h.iweight, h.inorm, h.iqueue, h.norms, h.calls, ?_, ?_, ?_, ?_, ?_, ?_⟩
    · intro i
      by_cases hi : i = k
      · subst hi; simp only [Function.update_self]; rw [hco, hme]
      · simp only [Function.update_of_ne hi]; exact h.coef i
    · intro i hi
      have hik : i ≠ k := by omega
      obtain ⟨r1, r2, r3⟩ := h.rest i (by omega)
      exact ⟨by simp only [Function.update_of_ne hik]; exact r1, by simp only [hcne i hik]; exact r2,
        by simp only [hine i hik]; exact r3⟩
    · intro i hi
      by_cases hik : i = k
      · subst hik; simp only [Function.update_self]; exact ⟨hb, trivial⟩
      · simp only [Function.update_of_ne hik]; exact h.buffer i (by omega)
    · intro i hi
      by_cases hik : i = k
      · subst hik
        intro evs he b e l hb'
        have he' : s.data = some evs := he
        show ({ s with me := Function.update s.me i m } : St P X W).updateCache A i i b l = _
        unfold St.updateCache
        simp only [he', hfield, Function.update_self, hb', hb]
      · intro evs he b e l hb'
        show ({ s with me := Function.update s.me k m } : St P X W).updateCache A k i b l = _
        rw [hcne i hik]
        exact h.dcache i (by omega) evs he b e l hb'
    · intro i hi
      by_cases hik : i = k
      · subst hik
        intro evs he b e l hb'
        have he' : s.integ.events = some evs := he
        show ({ s with me := Function.update s.me i m } : St P X W).updateInteg A i i b l = _
        unfold St.updateInteg
        simp only [he', hfield, Function.update_self, hb', hb]
      · intro evs he b e l hb'
        show ({ s with me := Function.update s.me k m } : St P X W).updateInteg A k i b l = _
        rw [hine i hik]
        exact h.icache i (by omega) evs he b e l hb'
    · intro i hi
      by_cases hik : i = k
      · subst hik; simp
      · simp only [Function.update_of_ne hik]; exact h.work i (by omega)

theorem loop_all (A : Amps P X) (hA : A.WF) {s0 : St P X W} (h0 : Inv A s0) : ∀ k, k ≤ A.n →
    Loop A s0 k ((List.range k).foldl (fun s i => s.prepareOne A i) s0) := by
  intro k
  induction k with
  | zero =>
    intro _
    refine ⟨rfl, rfl, rfl, rfl, rfl, rfl, rfl, rfl, fun _ => rfl, fun _ _ => ⟨rfl, rfl, rfl⟩, ?_, ?_, ?_, ?_⟩ <;>
    · intro i hi; omega
  | succ k ih =>
    intro hk
    rw [List.range_succ, List.foldl_append]
    exact loop_step A hA (by omega) h0 (ih (by omega))

theorem mem_pairs {n i j : Nat} : (i, j) ∈ pairs n ↔ i ≤ j ∧ j < n := by
  unfold pairs
  simp only [List.mem_flatMap, List.mem_range, List.mem_map, List.mem_filter, decide_eq_true_eq,
    Prod.mk.injEq]
  constructor
  · rintro ⟨a, ha, b, ⟨hb, hab⟩, rfl, rfl⟩; exact ⟨hab, hb⟩
  · rintro ⟨h1, h2⟩; exact ⟨i, by omega, j, ⟨h2, h1⟩, rfl, rfl⟩

theorem addr_inj {n i j i' j' : Nat} (hj : j < n) (hj' : j' < n) (h : i * n + j = i' * n + j') :
    i = i' ∧ j = j' := by
  have hn : 0 < n := by omega
  have h1 : (i * n + j) / n = i := by
    rw [Nat.mul_comm, Nat.mul_add_div hn, Nat.div_eq_of_lt hj, Nat.add_zero]
  have h2 : (i' * n + j') / n = i' := by
    rw [Nat.mul_comm, Nat.mul_add_div hn, Nat.div_eq_of_lt hj', Nat.add_zero]
  have h3 : i = i' := by rw [← h1, h, h2]
  subst h3
  omega

/-- Everything `prepare` establishes. -/
structure Prepared (A : Amps P X) (s0 s : St P X W) : Prop where
  par : s.par = s0.par
  sdata : s.data = s0.data
  ievents : s.integ.events = s0.integ.events
  calls : s.calls = s0.calls + 1
  coef : ∀ i, (s.me i).coefficient = A.coup i s0.par
  buffer : ∀ i < A.n, (s.me i).buffer = A.ext i s0.par
  dcache : ∀ i < A.n, DCached A s i (A.ext i s0.par)
  icache : ∀ i < A.n, ICached A s.integ i (A.ext i s0.par)
  ncache : ∀ i j, i ≤ j → j < A.n → NCached A s i j (A.ext i s0.par) (A.ext j s0.par)
  norm : s.integ.events.isSome → s.norm = normOf A.n (fun i => A.coup i s0.par) s.norms
  inv : Inv A s

theorem inv_transfer {A : Amps P X} {s : St P X W} (h : Inv A s) : Inv A (s.transferParameters A) :=
  ⟨h.queue, h.ready, h.slots, h.idle, h.data, h.integ, h.norms⟩

theorem prepare_spec (A : Amps P X) (hA : A.WF) (sched : List Req → List Req)
    (hs : ∀ q, (sched q).Perm q) {s0 : St P X W} (h0 : Inv A s0) :
    Prepared A s0 (s0.prepare A sched) := by
  have ht := inv_transfer h0
  set t0 := s0.transferParameters A with ht0
  have hl := loop_all A hA ht A.n (Nat.le_refl _)
  set s1 := (List.range A.n).foldl (fun s i => s.prepareOne A i) t0 with hs1
  have hpar0 : t0.par = s0.par := rfl
  have hready1 : IReady s1.integ := by
    intro evs he
    rw [hl.ievents] at he
    rw [hl.iweight, hl.inorm]
    exact ht.ready evs he
  have hcoef : ∀ i, (s1.me i).coefficient = A.coup i s0.par := fun i => by rw [hl.coef i]; rfl
  have hslots : ∀ i p, (s1.me i).buffer.length = (A.ext i p).length := by
    intro i p
    by_cases hi : i < A.n
    · rw [(hl.buffer i hi).1]; exact hA.slots i _ p
    · rw [(hl.rest i (by omega)).1]; exact ht.slots i p
  -- the matrix of integrals
  have hfinal : ∃ s2 : St P X W, (if s1.integ.events.isSome then s1.updateNorms A sched else s1) = s2 ∧
      s2.par = s1.par ∧ s2.data = s1.data ∧ s2.me = s1.me ∧ s2.cache = s1.cache ∧
      s2.integ = s1.integ ∧ s2.calls = s1.calls ∧
      (∀ i j, i ≤ j → j < A.n → NCached A s2 i j (A.ext i s0.par) (A.ext j s0.par)) ∧
      (s2.integ.events.isSome → s2.norm = normOf A.n (fun i => A.coup i s0.par) s2.norms) := by
    by_cases hsome : s1.integ.events.isSome
    · rw [if_pos hsome]
      set todo := (pairs A.n).filter fun ij => (s1.me ij.1).workToDo || (s1.me ij.2).workToDo with htodo
      set rs : List Req := todo.map fun ij => ⟨ij.1 * A.n + ij.2, ij.1, ij.2⟩ with hrs
      have hmem : ∀ r ∈ rs, ∃ i j, i ≤ j ∧ j < A.n ∧ r = ⟨i * A.n + j, i, j⟩ ∧
          ((s1.me i).workToDo = true ∨ (s1.me j).workToDo = true) := by
        intro r hr
        rw [hrs, List.mem_map] at hr
        obtain ⟨⟨i, j⟩, hij, rfl⟩ := hr
        rw [htodo, List.mem_filter] at hij
        obtain ⟨hij, hw⟩ := hij
        obtain ⟨h1, h2⟩ := mem_pairs.mp hij
        exact ⟨i, j, h1, h2, rfl, by simpa using hw⟩
      have hcons : Consistent rs := by
        intro r hr r' hr' hd
        obtain ⟨i, j, hij, hj, rfl, _⟩ := hmem r hr
        obtain ⟨i', j', hij', hj', rfl, _⟩ := hmem r' hr'
        exact addr_inj hj hj' hd
      obtain ⟨mem', hq, hq1, hq2⟩ := queue_flush_all sched hs s1.integ (by rw [hl.iqueue]; exact ht.queue)
        s1.norms rs hcons
      have hupd : s1.updateNorms A sched =
          { s1 with integ := s1.integ, norms := mem', norm := normOf A.n (fun i => (s1.me i).coefficient) mem' } := by
        unfold St.updateNorms
        simp only [← htodo, ← hrs, hq]
      refine ⟨_, rfl, ?_⟩
      rw [hupd]
      refine ⟨rfl, rfl, rfl, rfl, rfl, rfl, ?_, ?_⟩
      · intro i j hij hj evs he
        have he1 : s1.integ.events = some evs := he
        have hi : i < A.n := by omega
        by_cases hw : (s1.me i).workToDo = true ∨ (s1.me j).workToDo = true
        · have hin : (⟨i * A.n + j, i, j⟩ : Req) ∈ rs := by
            rw [hrs, List.mem_map]
            refine ⟨(i, j), ?_, rfl⟩
            rw [htodo, List.mem_filter]
            exact ⟨mem_pairs.mpr ⟨hij, hj⟩, by simpa using hw⟩
          have hval := hq1 _ hin
          simp only at hval
          show mem' (i * A.n + j) = _
          rw [hval]
          exact integral_cached hready1 he1 (hl.icache i hi) (hl.icache j hj)
        · have hwi : (s1.me i).workToDo = false := by
            cases hv : (s1.me i).workToDo
            · rfl
            · exact absurd (Or.inl hv) hw
          have hwj : (s1.me j).workToDo = false := by
            cases hv : (s1.me j).workToDo
            · rfl
            · exact absurd (Or.inr hv) hw
          obtain ⟨a1, a2, a3⟩ := hl.work i hi hwi
          obtain ⟨b1, b2, b3⟩ := hl.work j hj hwj
          have hno := ht.norms i j hij hj a1 a2 b2 evs (by rw [← hl.ievents]; exact he1)
          rw [a3, b3] at hno
          show mem' (i * A.n + j) = _
          rw [hq2, hl.norms]
          · exact hno
          · intro r hr hd
            obtain ⟨i', j', hij', hj', rfl, hw'⟩ := hmem r hr
            obtain ⟨rfl, rfl⟩ := addr_inj hj' hj hd
            exact hw hw'
      · intro _
        show normOf A.n (fun i => (s1.me i).coefficient) mem' = _
        congr 1
        funext i
        exact hcoef i
    · rw [if_neg hsome]
      refine ⟨s1, rfl, rfl, rfl, rfl, rfl, rfl, rfl, ?_, fun h => absurd h hsome⟩
      intro i j _ _ evs he
      rw [he] at hsome
      simp at hsome
  obtain ⟨s2, hs2, q1, q2, q3, q4, q5, q6, q7, q8⟩ := hfinal
  have hprep : s0.prepare A sched =
      { s2 with me := fun i => { s2.me i with workToDo := false }, calls := s2.calls + 1 } := by
    unfold St.prepare
    simp only [← ht0, ← hs1, hs2]
  rw [hprep]
  have hdc : ∀ i < A.n, DCached A s2 i (A.ext i s0.par) := by
    intro i hi evs he b e l hb
    rw [q4]
    exact hl.dcache i hi evs (by rw [← q2]; exact he) b e l hb
  have hic : ∀ i < A.n, ICached A s2.integ i (A.ext i s0.par) := by
    intro i hi
    rw [q5]
    exact hl.icache i hi
  have hbuf : ∀ i < A.n, (s2.me i).buffer = A.ext i s0.par := by
    intro i hi
    rw [q3]
    exact (hl.buffer i hi).1
  refine ⟨?_, ?_, ?_, ?_, ?_, hbuf, hdc, hic, q7, q8, ?_⟩
  · exact q1.trans hl.par
  · exact q2.trans hl.sdata
  · show s2.integ.events = _
    rw [q5]; exact hl.ievents
  · show s2.calls + 1 = _
    rw [q6, hl.calls]; rfl
  · intro i
    show (s2.me i).coefficient = _
    rw [q3]; exact hcoef i
  · refine ⟨?_, ?_, ?_, fun _ => rfl, ?_, ?_, ?_⟩
    · show s2.integ.queue = []
      rw [q5, hl.iqueue]; exact ht.queue
    · show IReady s2.integ
      rw [q5]; exact hready1
    · intro i p
      show (s2.me i).buffer.length = _
      rw [q3]; exact hslots i p
    · intro i hi _ _
      show DCached A s2 i (s2.me i).buffer
      rw [hbuf i hi]; exact hdc i hi
    · intro i hi _ _
      show ICached A s2.integ i (s2.me i).buffer
      rw [hbuf i hi]; exact hic i hi
    · intro i j hij hj _ _ _
      show NCached A s2 i j (s2.me i).buffer (s2.me j).buffer
      rw [hbuf i (by omega), hbuf j hj]; exact q7 i j hij hj

/-! ### Histories -/

theorem inv_apply (A : Amps P X) (hA : A.WF) (sched : List Req → List Req) (hs : ∀ q, (sched q).Perm q)
    {s : St P X W} (h : Inv A s) (op : Op P X W) (hop : op.Tracked) : Inv A (s.apply A sched op) := by
  cases op with
  | setPar p => exact ⟨h.queue, h.ready, h.slots, h.idle, h.data, h.integ, h.norms⟩
  | setEvents evs junk =>
    refine ⟨h.queue, h.ready, h.slots, h.idle, ?_, ?_, ?_⟩
    · intro i _ hc; exact absurd rfl hc
    · intro i _ hc; exact absurd rfl hc
    · intro i j _ _ hc; exact absurd rfl hc
  | setMC evs junk =>
    refine ⟨rfl, make_ready evs junk, h.slots, h.idle, ?_, ?_, ?_⟩
    · intro i _ hc; exact absurd rfl hc
    · intro i _ hc; exact absurd rfl hc
    · intro i j _ _ hc; exact absurd rfl hc
  | reset e =>
    cases e with
    | false =>
      refine ⟨h.queue, h.ready, h.slots, h.idle, ?_, ?_, ?_⟩
      · intro i _ hc; exact absurd rfl hc
      · intro i _ hc; exact absurd rfl hc
      · intro i j _ _ hc; exact absurd rfl hc
    | true =>
      refine ⟨rfl, ?_, h.slots, h.idle, ?_, ?_, ?_⟩
      · intro evs he; cases he
      · intro i _ hc; exact absurd rfl hc
      · intro i _ hc; exact absurd rfl hc
      · intro i j _ _ hc; exact absurd rfl hc
  | prepare => exact (prepare_spec A hA sched hs h).inv
  | transferParameters => exact inv_transfer h
  | prepareElement k =>
    obtain ⟨p1, p2, p3, p4⟩ := (s.me k).prepare_spec (A.ext k s.par) (h.slots k s.par)
    set m := (s.me k).prepare (A.ext k s.par) with hm
    have key : ∀ i, (Function.update s.me k m i).changed = false →
        (s.me i).changed = false ∧ (Function.update s.me k m i).buffer = (s.me i).buffer := by
      intro i hi
      by_cases hik : i = k
      · subst hik
        simp only [Function.update_self] at hi ⊢
        obtain ⟨e1, e2⟩ := p4 hi
        exact ⟨e1, by rw [p1, e2]⟩
      · simp only [Function.update_of_ne hik] at hi ⊢
        exact ⟨hi, trivial⟩
    refine ⟨h.queue, h.ready, ?_, ?_, ?_, ?_, ?_⟩
    · intro i p
      show (Function.update s.me k m i).buffer.length = _
      by_cases hik : i = k
      · subst hik; simp only [Function.update_self]; rw [p1]; exact hA.slots i _ p
      · simp only [Function.update_of_ne hik]; exact h.slots i p
    · intro i
      show (Function.update s.me k m i).workToDo = false
      by_cases hik : i = k
      · subst hik; simp only [Function.update_self]; rw [p3]; exact h.idle i
      · simp only [Function.update_of_ne hik]; exact h.idle i
    · intro i hi hc hch
      obtain ⟨e1, e2⟩ := key i hch
      show DCached A s i (Function.update s.me k m i).buffer
      rw [e2]; exact h.data i hi hc e1
    · intro i hi hc hch
      obtain ⟨e1, e2⟩ := key i hch
      show ICached A s.integ i (Function.update s.me k m i).buffer
      rw [e2]; exact h.integ i hi hc e1
    · intro i j hij hj hc hci hcj
      obtain ⟨e1, e2⟩ := key i hci
      obtain ⟨f1, f2⟩ := key j hcj
      show NCached A s i j (Function.update s.me k m i).buffer (Function.update s.me k m j).buffer
      rw [e2, f2]; exact h.norms i j hij hj hc e1 f1
  | setExternals i v => exact absurd hop (by simp [Op.Tracked])

theorem run_spec (A : Amps P X) (hA : A.WF) (sched : List Req → List Req) (hs : ∀ q, (sched q).Perm q) :
    ∀ (ops : List (Op P X W)), (∀ op ∈ ops, op.Tracked) → ∀ s : St P X W, Inv A s →
    Inv A (ops.foldl (fun s op => s.apply A sched op) s) ∧
    (ops.foldl (fun s op => s.apply A sched op) s).par = lastPar s.par ops ∧
    (ops.foldl (fun s op => s.apply A sched op) s).data = lastData s.data ops ∧
    (ops.foldl (fun s op => s.apply A sched op) s).integ.events = lastSim s.integ.events ops := by
  intro ops
  induction ops with
  | nil => intro _ s h; exact ⟨h, rfl, rfl, rfl⟩
  | cons op ops ih =>
    intro hops s h
    have hop := hops op (by simp)
    obtain ⟨i1, i2, i3, i4⟩ := ih (fun o ho => hops o (by simp [ho])) _ (inv_apply A hA sched hs h op hop)
    rw [List.foldl_cons]
    refine ⟨i1, ?_, ?_, ?_⟩
    · rw [i2]
      cases op with
      | prepare => simp only [St.apply, lastPar]; rw [(prepare_spec A hA sched hs h).par]
      | reset e => cases e <;> rfl
      | _ => rfl
    · rw [i3]
      cases op with
      | prepare => simp only [St.apply, lastData]; rw [(prepare_spec A hA sched hs h).sdata]
      | reset e => cases e <;> rfl
      | _ => rfl
    · rw [i4]
      cases op with
      | prepare => simp only [St.apply, lastSim]; rw [(prepare_spec A hA sched hs h).ievents]
      | reset e => cases e <;> rfl
      | _ => rfl

end AmpGen.Coherent
