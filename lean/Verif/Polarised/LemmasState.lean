import Verif.Polarised.Spec
import Verif.Coherent.LemmasState
/-
The invariant of a polarised sum over histories.
-/
namespace AmpGen.Polarised

open AmpGen.Coherent (ME Req Integrator SimEvent registered pairs averageC IReady Consistent mem_pairs addr_inj)

variable {P X : Type} {W : Nat}

theorem PAmps.WF.offset {A : PAmps P X} (h : A.WF) {i : Nat} (hi : i < A.n) : A.offset i = A.s1 * A.s2 * i := by
  unfold PAmps.offset registered
  rw [Coherent.registered_nodup _ [] (by simpa using h.names), List.nil_append]
  have hlt : i < ((List.range A.n).map A.name).length := by simpa using hi
  have heq : A.name i = ((List.range A.n).map A.name)[i] := by simp
  rw [heq, h.names.idxOf_getElem i hlt]

/-- Which of the integrals of a pair the code asks for. -/
def PAmps.wanted (A : PAmps P X) (x : Nat) : Prop := A.frac.isNone ∨ x / A.s2 = 0

def DCached (A : PAmps P X) (s : St P X W) (i : Nat) (buf : List ℝ) : Prop :=
  ∀ evs, s.data = some evs → ∀ b e l, evs[b]? = some e → ∀ c < A.s1 * A.s2,
    s.cache (A.s1 * A.s2 * i + c) b l = A.amp i buf (e l) c

def ICached (A : PAmps P X) (I : Integrator X W) (i : Nat) (buf : List ℝ) : Prop :=
  ∀ evs, I.events = some evs → ∀ b e l, evs[b]? = some e → ∀ c < A.s1 * A.s2,
    I.cache (A.s1 * A.s2 * i + c) b l = A.amp i buf (e l).x c

def NCached (A : PAmps P X) (s : St P X W) (i j : Nat) (bi bj : List ℝ) : Prop :=
  ∀ evs, s.integ.events = some evs → ∀ x < A.s2 * A.s1 * A.s1, A.wanted x →
    s.norms (x * (A.n * A.n) + (i * A.n + j)) =
      averageC evs fun e => A.amp i bi e (x / A.s2 / A.s1 * A.s2 + x % A.s2) *
        (starRingEnd ℂ) (A.amp j bj e (x / A.s2 % A.s1 * A.s2 + x % A.s2))

structure Inv (A : PAmps P X) (s : St P X W) : Prop where
  queue : s.integ.queue = []
  ready : IReady s.integ
  slots : ∀ i p, (s.me i).buffer.length = (A.ext i p).length
  data : ∀ i < A.n, s.calls ≠ 0 → (s.me i).changed = false → DCached A s i (s.me i).buffer
  integ : ∀ i < A.n, s.calls ≠ 0 → (s.me i).changed = false → ICached A s.integ i (s.me i).buffer
  norms : ∀ i j, i ≤ j → j < A.n → s.calls ≠ 0 → (s.me i).changed = false → (s.me j).changed = false →
    NCached A s i j (s.me i).buffer (s.me j).buffer

theorem inv_init (A : PAmps P X) (hA : A.WF) (p : P) : Inv A (St.init A p : St P X W) where
  queue := rfl
  ready := fun evs h => by simp [St.init] at h
  slots := fun i q => hA.slots i p q
  data := fun i _ h => absurd rfl h
  integ := fun i _ h => absurd rfl h
  norms := fun i j _ _ h => absurd rfl h

/-- After the transfer of parameters, and the first `k` elements of the loop of `prepare`. -/
structure Loop (A : PAmps P X) (t : St P X W) (k : Nat) (s : St P X W) : Prop where
  par : s.par = t.par
  rho : s.rho = t.rho
  sdata : s.data = t.data
  ievents : s.integ.events = t.integ.events
  iweight : s.integ.weight = t.integ.weight
  inorm : s.integ.norm = t.integ.norm
  iqueue : s.integ.queue = t.integ.queue
  norms : s.norms = t.norms
  calls : s.calls = t.calls
  buffer : ∀ i, (s.me i).buffer = (t.me i).buffer
  changed : ∀ i, (s.me i).changed = (t.me i).changed
  coef : ∀ i, (s.me i).coefficient = (t.me i).coefficient
  work : ∀ i < k, (s.me i).workToDo = (decide (t.calls = 0) || (t.me i).changed)
  dcache : ∀ i < A.n, (i < k ∧ (t.calls = 0 ∨ (t.me i).changed = true)) ∨
      (∀ c < A.s1 * A.s2, s.cache (A.s1 * A.s2 * i + c) = t.cache (A.s1 * A.s2 * i + c))
  dfresh : ∀ i < k, (t.calls = 0 ∨ (t.me i).changed = true) → DCached A s i (t.me i).buffer
  icache : ∀ i < A.n, (i < k ∧ (t.calls = 0 ∨ (t.me i).changed = true)) ∨
      (∀ c < A.s1 * A.s2, s.integ.cache (A.s1 * A.s2 * i + c) = t.integ.cache (A.s1 * A.s2 * i + c))
  ifresh : ∀ i < k, (t.calls = 0 ∨ (t.me i).changed = true) → ICached A s.integ i (t.me i).buffer

theorem writeFields_other (A : PAmps P X) (hA : A.WF) {E : Type} (x : E → X) (evs : Option (List (Fin W → E)))
    (cache : Nat → Nat → Fin W → ℂ) {i k : Nat} (hk : k < A.n) (hik : i ≠ k) (buf : List ℝ)
    {c : Nat} (hc : c < A.s1 * A.s2) :
    writeFields A k buf x evs cache (A.s1 * A.s2 * i + c) = cache (A.s1 * A.s2 * i + c) := by
  unfold writeFields
  cases evs with
  | none => rfl
  | some evs =>
    simp only
    funext b l
    rw [if_neg]
    rw [hA.offset hk]
    rintro ⟨h1, h2⟩
    rcases Nat.lt_or_gt_of_ne hik with h | h
    · have : A.s1 * A.s2 * (i + 1) ≤ A.s1 * A.s2 * k := Nat.mul_le_mul_left _ h
      rw [Nat.mul_add] at this
      omega
    · have : A.s1 * A.s2 * (k + 1) ≤ A.s1 * A.s2 * i := Nat.mul_le_mul_left _ h
      rw [Nat.mul_add] at this
      omega

theorem writeFields_self (A : PAmps P X) (hA : A.WF) {E : Type} (x : E → X) (evs : List (Fin W → E))
    (cache : Nat → Nat → Fin W → ℂ) {k : Nat} (hk : k < A.n) (buf : List ℝ)
    {c : Nat} (hc : c < A.s1 * A.s2) {b : Nat} {e : Fin W → E} (hb : evs[b]? = some e) (l : Fin W) :
    writeFields A k buf x (some evs) cache (A.s1 * A.s2 * k + c) b l = A.amp k buf (x (e l)) c := by
  unfold writeFields
  rw [hA.offset hk]
  simp only [hb]
  rw [if_pos ⟨by omega, by omega⟩]
  congr 1
  omega

theorem loop_step (A : PAmps P X) (hA : A.WF) {t s : St P X W} {k : Nat} (hk : k < A.n)
    (h : Loop A t k s) : Loop A t (k + 1) (s.updateOne A k) := by
  by_cases hw : t.calls = 0 ∨ (t.me k).changed = true
  · have hwork : (decide (s.calls = 0) || (s.me k).changed) = true := by
      rw [h.calls, h.changed]; simpa using hw
    have hs : s.updateOne A k = { s with
        me := Function.update s.me k { s.me k with workToDo := true },
        cache := writeFields A k (s.me k).buffer id s.data s.cache,
        integ := { s.integ with cache := writeFields A k (s.me k).buffer SimEvent.x s.integ.events s.integ.cache } } := by
      unfold St.updateOne
      simp only [hwork]
      rw [if_pos trivial]
    rw [hs]
    refine ⟨h.par, h.rho, h.sdata, h.ievents, h.iweight, h.inorm, h.iqueue, h.norms, h.calls, ?_, ?_, ?_, ?_, ?_, ?_, ?_, ?_⟩
    · intro i
      by_cases hi : i = k
      · subst hi; simp only [Function.update_self]; exact h.buffer i
      · simp only [Function.update_of_ne hi]; exact h.buffer i
    · intro i
      by_cases hi : i = k
      · subst hi; simp only [Function.update_self]; exact h.changed i
      · simp only [Function.update_of_ne hi]; exact h.changed i
    · intro i
      by_cases hi : i = k
      · subst hi; simp only [Function.update_self]; exact h.coef i
      · simp only [Function.update_of_ne hi]; exact h.coef i
    · intro i hi
      by_cases hik : i = k
      · subst hik; simp only [Function.update_self]; rw [← h.calls, ← h.changed]; exact hwork.symm
      · simp only [Function.update_of_ne hik]; exact h.work i (by omega)
    · intro i hi
      by_cases hik : i = k
      · subst hik; exact Or.inl ⟨by omega, hw⟩
      · rcases h.dcache i hi with ⟨h1, h2⟩ | h1
        · exact Or.inl ⟨by omega, h2⟩
        · right
          intro c hc
          show writeFields A k _ id s.data s.cache _ = _
          rw [writeFields_other A hA _ _ _ hk hik _ hc]
          exact h1 c hc
    · intro i hi hwi evs he b e l hb c hc
      show writeFields A k _ id s.data s.cache _ b l = _
      by_cases hik : i = k
      · subst hik
        have he' : s.data = some evs := he
        rw [he', writeFields_self A hA _ _ _ hk _ hc hb, h.buffer]
        rfl
      · rw [writeFields_other A hA _ _ _ hk hik _ hc]
        exact h.dfresh i (by omega) hwi evs he b e l hb c hc
    · intro i hi
      by_cases hik : i = k
      · subst hik; exact Or.inl ⟨by omega, hw⟩
      · rcases h.icache i hi with ⟨h1, h2⟩ | h1
        · exact Or.inl ⟨by omega, h2⟩
        · right
          intro c hc
          show writeFields A k _ SimEvent.x s.integ.events s.integ.cache _ = _
          rw [writeFields_other A hA _ _ _ hk hik _ hc]
          exact h1 c hc
    · intro i hi hwi evs he b e l hb c hc
      show writeFields A k _ SimEvent.x s.integ.events s.integ.cache _ b l = _
      by_cases hik : i = k
      · subst hik
        have he' : s.integ.events = some evs := he
        rw [he', writeFields_self A hA _ _ _ hk _ hc hb, h.buffer]
      · rw [writeFields_other A hA _ _ _ hk hik _ hc]
        exact h.ifresh i (by omega) hwi evs he b e l hb c hc
  · have hwork : (decide (s.calls = 0) || (s.me k).changed) = false := by
      rw [h.calls, h.changed]; simpa using hw
    have hs : s.updateOne A k = { s with me := Function.update s.me k { s.me k with workToDo := false } } := by
      unfold St.updateOne
      simp only [hwork]
      simp
    rw [hs]
    refine ⟨h.par, h.rho, h.sdata, h.ievents, h.iweight, h.inorm, h.iqueue, h.norms, h.calls, ?_, ?_, ?_, ?_, ?_, ?_, ?_, ?_⟩
    · intro i
      by_cases hi : i = k
      · subst hi; simp only [Function.update_self]; exact h.buffer i
      · simp only [Function.update_of_ne hi]; exact h.buffer i
    · intro i
      by_cases hi : i = k
      · subst hi; simp only [Function.update_self]; exact h.changed i
      · simp only [Function.update_of_ne hi]; exact h.changed i
    · intro i
      by_cases hi : i = k
      · subst hi; simp only [Function.update_self]; exact h.coef i
      · simp only [Function.update_of_ne hi]; exact h.coef i
    · intro i hi
      by_cases hik : i = k
      · subst hik; simp only [Function.update_self]; rw [← h.calls, ← h.changed]; exact hwork.symm
      · simp only [Function.update_of_ne hik]; exact h.work i (by omega)
    · intro i hi
      rcases h.dcache i hi with ⟨h1, h2⟩ | h1
      · exact Or.inl ⟨by omega, h2⟩
      · exact Or.inr h1
    · intro i hi hwi
      have hik : i ≠ k := fun e => hw (e ▸ hwi)
      exact h.dfresh i (by omega) hwi
    · intro i hi
      rcases h.icache i hi with ⟨h1, h2⟩ | h1
      · exact Or.inl ⟨by omega, h2⟩
      · exact Or.inr h1
    · intro i hi hwi
      have hik : i ≠ k := fun e => hw (e ▸ hwi)
      exact h.ifresh i (by omega) hwi

theorem loop_all (A : PAmps P X) (hA : A.WF) (t : St P X W) : ∀ k, k ≤ A.n →
    Loop A t k ((List.range k).foldl (fun s i => s.updateOne A i) t) := by
  intro k
  induction k with
  | zero =>
    intro _
    refine ⟨rfl, rfl, rfl, rfl, rfl, rfl, rfl, rfl, rfl, fun _ => rfl, fun _ => rfl, fun _ => rfl, ?_,
      fun _ _ => Or.inr fun _ _ => rfl, ?_, fun _ _ => Or.inr fun _ _ => rfl, ?_⟩ <;>
    · intro i hi; omega
  | succ k ih =>
    intro hk
    rw [List.range_succ, List.foldl_append]
    exact loop_step A hA (by omega) (ih (by omega))

/-- Decoding of the flattened index. -/
theorem decode (x s2 : Nat) : (x - x % s2) / s2 = x / s2 := Nat.div_eq_sub_mod_div.symm

theorem mem_normRequests {A : PAmps P X} (hA : A.WF) {i j : Nat} (hi : i < A.n) (hj : j < A.n) {r : Req} :
    r ∈ normRequests A i j ↔ ∃ x < A.s2 * A.s1 * A.s1, A.wanted x ∧
      r = ⟨x * (A.n * A.n) + (i * A.n + j), A.s1 * A.s2 * i + (x / A.s2 / A.s1 * A.s2 + x % A.s2),
        A.s1 * A.s2 * j + (x / A.s2 % A.s1 * A.s2 + x % A.s2)⟩ := by
  unfold normRequests PAmps.wanted
  simp only [List.mem_map, List.mem_filter, List.mem_range, Bool.or_eq_true, decide_eq_true_eq, decode,
    hA.offset hi, hA.offset hj, Nat.add_assoc]
  constructor
  · rintro ⟨x, ⟨h1, h2⟩, rfl⟩; exact ⟨x, h1, h2, rfl⟩
  · rintro ⟨x, h1, h2, rfl⟩; exact ⟨x, ⟨h1, h2⟩, rfl⟩

theorem comp_lt {s1 s2 m f : Nat} (hm : m < s1) (hf : f < s2) : m * s2 + f < s1 * s2 := by
  have : (m + 1) * s2 ≤ s1 * s2 := Nat.mul_le_mul_right _ hm
  rw [Nat.add_mul] at this
  omega

theorem decode_lt {s1 s2 x : Nat} (hx : x < s2 * s1 * s1) :
    0 < s1 ∧ 0 < s2 ∧ x / s2 / s1 < s1 ∧ x / s2 % s1 < s1 ∧ x % s2 < s2 := by
  have h1 : 0 < s1 := by
    rcases Nat.eq_zero_or_pos s1 with h | h
    · subst h; simp at hx
    · exact h
  have h2 : 0 < s2 := by
    rcases Nat.eq_zero_or_pos s2 with h | h
    · subst h; simp at hx
    · exact h
  refine ⟨h1, h2, ?_, Nat.mod_lt _ h1, Nat.mod_lt _ h2⟩
  rw [Nat.div_div_eq_div_mul, Nat.div_lt_iff_lt_mul (Nat.mul_pos h2 h1)]
  rw [Nat.mul_comm]; exact hx

/-- Everything `prepare` establishes. -/
structure Prepared (A : PAmps P X) (s0 s : St P X W) : Prop where
  par : s.par = s0.par
  sdata : s.data = s0.data
  ievents : s.integ.events = s0.integ.events
  calls : s.calls = s0.calls + 1
  coef : ∀ i, (s.me i).coefficient = A.coup i s0.par
  rho : s.rho = densityMatrix A.s1 (A.pol s0.par)
  buffer : ∀ i, (s.me i).buffer = A.ext i s0.par
  dcache : ∀ i < A.n, DCached A s i (A.ext i s0.par)
  icache : ∀ i < A.n, ICached A s.integ i (A.ext i s0.par)
  ncache : ∀ i j, i ≤ j → j < A.n → NCached A s i j (A.ext i s0.par) (A.ext j s0.par)
  norm : s.integ.events.isSome → s.norm = normSum A s0.par (densityMatrix A.s1 (A.pol s0.par)) s.norms
  pdf : ∀ b l, s.pdf b l = probExpr A s0.par fun fld => s.cache fld b l
  inv : Inv A s

theorem prepare_spec (A : PAmps P X) (hA : A.WF) (sched : List Req → List Req)
    (hs : ∀ q, (sched q).Perm q) {s0 : St P X W} (h0 : Inv A s0) :
    Prepared A s0 (s0.prepare A sched) := by
  set t := s0.transferParameters A with ht
  have hbuf : ∀ i, (t.me i).buffer = A.ext i s0.par := fun i =>
    ((s0.me i).prepare_spec (A.ext i s0.par) (h0.slots i _)).1
  have hchg : ∀ i, (t.me i).changed = false → (s0.me i).changed = false ∧ (s0.me i).buffer = A.ext i s0.par :=
    fun i => ((s0.me i).prepare_spec (A.ext i s0.par) (h0.slots i _)).2.2.2
  have hl := loop_all A hA t A.n (Nat.le_refl _)
  set s1 := (List.range A.n).foldl (fun s i => s.updateOne A i) t with hs1
  have hready1 : IReady s1.integ := by
    intro evs he
    rw [hl.ievents] at he
    rw [hl.iweight, hl.inorm]
    exact h0.ready evs he
  have hold : ∀ i, ¬ (t.calls = 0 ∨ (t.me i).changed = true) →
      s0.calls ≠ 0 ∧ (s0.me i).changed = false ∧ (s0.me i).buffer = A.ext i s0.par := by
    intro i hi
    have h1 : t.calls ≠ 0 := fun e => hi (Or.inl e)
    have h2 : (t.me i).changed = false := by
      cases hv : (t.me i).changed
      · rfl
      · exact absurd (Or.inr hv) hi
    exact ⟨h1, (hchg i h2).1, (hchg i h2).2⟩
  have hdc1 : ∀ i < A.n, DCached A s1 i (A.ext i s0.par) := by
    intro i hi
    by_cases hw : t.calls = 0 ∨ (t.me i).changed = true
    · rw [← hbuf i]; exact hl.dfresh i hi hw
    · obtain ⟨a1, a2, a3⟩ := hold i hw
      intro evs he b e l hb c hc
      rcases hl.dcache i hi with ⟨_, h⟩ | h
      · exact absurd h hw
      · rw [h c hc]
        have := h0.data i hi a1 a2
        rw [a3] at this
        exact this evs (by rw [hl.sdata] at he; exact he) b e l hb c hc
  have hic1 : ∀ i < A.n, ICached A s1.integ i (A.ext i s0.par) := by
    intro i hi
    by_cases hw : t.calls = 0 ∨ (t.me i).changed = true
    · rw [← hbuf i]; exact hl.ifresh i hi hw
    · obtain ⟨a1, a2, a3⟩ := hold i hw
      intro evs he b e l hb c hc
      rcases hl.icache i hi with ⟨_, h⟩ | h
      · exact absurd h hw
      · rw [h c hc]
        have := h0.integ i hi a1 a2
        rw [a3] at this
        exact this evs (by rw [hl.ievents] at he; exact he) b e l hb c hc
  have hfinal : ∃ s2 : St P X W, (if s1.integ.events.isSome then s1.updateNorms A sched else s1) = s2 ∧
      s2.par = s1.par ∧ s2.data = s1.data ∧ s2.me = s1.me ∧ s2.cache = s1.cache ∧
      s2.integ = s1.integ ∧ s2.calls = s1.calls ∧ s2.rho = s1.rho ∧
      (∀ i j, i ≤ j → j < A.n → NCached A s2 i j (A.ext i s0.par) (A.ext j s0.par)) ∧
      (s2.integ.events.isSome → s2.norm = normSum A s1.par s1.rho s2.norms) := by
    by_cases hsome : s1.integ.events.isSome
    · rw [if_pos hsome]
      set todo := (pairs A.n).filter fun ij => (s1.me ij.1).workToDo || (s1.me ij.2).workToDo with htodo
      set rs : List Req := todo.flatMap fun ij => normRequests A ij.1 ij.2 with hrs
      have hmem : ∀ r ∈ rs, ∃ i j, i ≤ j ∧ j < A.n ∧ ((s1.me i).workToDo = true ∨ (s1.me j).workToDo = true) ∧
          r ∈ normRequests A i j := by
        intro r hr
        rw [hrs, List.mem_flatMap] at hr
        obtain ⟨⟨i, j⟩, hij, hr⟩ := hr
        rw [htodo, List.mem_filter] at hij
        obtain ⟨hij, hw⟩ := hij
        obtain ⟨h1, h2⟩ := mem_pairs.mp hij
        exact ⟨i, j, h1, h2, by simpa using hw, hr⟩
      have hinj : ∀ {x i j x' i' j'}, i ≤ j → j < A.n → i' ≤ j' → j' < A.n →
          x * (A.n * A.n) + (i * A.n + j) = x' * (A.n * A.n) + (i' * A.n + j') → x = x' ∧ i = i' ∧ j = j' := by
        intro x i j x' i' j' hij hj hij' hj' hd
        obtain ⟨h1, h2⟩ := addr_inj (comp_lt (by omega) hj) (comp_lt (by omega) hj') hd
        exact ⟨h1, addr_inj hj hj' h2⟩
      have hcons : Consistent rs := by
        intro r hr r' hr' hd
        obtain ⟨i, j, hij, hj, _, hr⟩ := hmem r hr
        obtain ⟨i', j', hij', hj', _, hr'⟩ := hmem r' hr'
        obtain ⟨x, hx, _, rfl⟩ := (mem_normRequests hA (by omega) hj).mp hr
        obtain ⟨x', hx', _, rfl⟩ := (mem_normRequests hA (by omega) hj').mp hr'
        obtain ⟨rfl, rfl, rfl⟩ := hinj hij hj hij' hj' hd
        exact ⟨rfl, rfl⟩
      obtain ⟨mem', hq, hq1, hq2⟩ := Coherent.queue_flush_all sched hs s1.integ
        (by rw [hl.iqueue]; exact h0.queue) s1.norms rs hcons
      have hany : ∃ mem2, (if (List.range A.n).any (fun i => (s1.me i).workToDo) then
          (s1.integ.queueAll sched s1.norms rs).1.flush sched (s1.integ.queueAll sched s1.norms rs).2
          else (s1.integ, s1.norms)) = (s1.integ, mem2) ∧
          (∀ r ∈ rs, mem2 r.dest = s1.integ.integral r.i r.j) ∧
          (∀ d, (∀ r ∈ rs, r.dest ≠ d) → mem2 d = s1.norms d) := by
        by_cases ha : (List.range A.n).any (fun i => (s1.me i).workToDo) = true
        · rw [if_pos ha]; exact ⟨mem', hq, hq1, hq2⟩
        · rw [if_neg ha]
          refine ⟨_, rfl, ?_, fun _ _ => rfl⟩
          intro r hr
          obtain ⟨i, j, hij, hj, hw, _⟩ := hmem r hr
          exfalso
          apply ha
          rw [List.any_eq_true]
          rcases hw with hw | hw
          · exact ⟨i, List.mem_range.mpr (by omega), hw⟩
          · exact ⟨j, List.mem_range.mpr hj, hw⟩
      obtain ⟨mem2, hm, hm1, hm2⟩ := hany
      have hupd : s1.updateNorms A sched =
          { s1 with integ := s1.integ, norms := mem2, norm := normSum A s1.par s1.rho mem2 } := by
        unfold St.updateNorms
        simp only [← htodo, ← hrs, hm]
      refine ⟨_, rfl, ?_⟩
      rw [hupd]
      refine ⟨rfl, rfl, rfl, rfl, rfl, rfl, rfl, ?_, fun _ => rfl⟩
      intro i j hij hj evs he x hx hwant
      have he1 : s1.integ.events = some evs := he
      have hi : i < A.n := by omega
      obtain ⟨hp1, hp2, d1, d2, d3⟩ := decode_lt hx
      by_cases hw : (s1.me i).workToDo = true ∨ (s1.me j).workToDo = true
      · have hin := (mem_normRequests hA hi hj).mpr ⟨x, hx, hwant, rfl⟩
        have hin' : ∀ r ∈ normRequests A i j, r ∈ rs := by
          intro r hr
          rw [hrs, List.mem_flatMap]
          refine ⟨(i, j), ?_, hr⟩
          rw [htodo, List.mem_filter]
          exact ⟨mem_pairs.mpr ⟨hij, hj⟩, by simpa using hw⟩
        have hval := hm1 _ (hin' _ hin)
        simp only at hval
        show mem2 _ = _
        rw [hval]
        exact Coherent.integral_fields hready1 he1
          (fun b e l hb => hic1 i hi evs he1 b e l hb _ (comp_lt d1 d3))
          (fun b e l hb => hic1 j hj evs he1 b e l hb _ (comp_lt d2 d3))
      · have hni : ¬ (t.calls = 0 ∨ (t.me i).changed = true) := by
          intro h
          apply hw; left
          rw [hl.work i hi]; simpa using h
        have hnj : ¬ (t.calls = 0 ∨ (t.me j).changed = true) := by
          intro h
          apply hw; right
          rw [hl.work j hj]; simpa using h
        obtain ⟨a1, a2, a3⟩ := hold i hni
        obtain ⟨b1, b2, b3⟩ := hold j hnj
        have hno := h0.norms i j hij hj a1 a2 b2 evs (by rw [hl.ievents] at he1; exact he1) x hx hwant
        rw [a3, b3] at hno
        show mem2 _ = _
        rw [hm2, hl.norms]
        · exact hno
        · intro r hr hd
          obtain ⟨i', j', hij', hj', hw', hr'⟩ := hmem r hr
          obtain ⟨x', _, _, rfl⟩ := (mem_normRequests hA (by omega) hj').mp hr'
          obtain ⟨rfl, rfl, rfl⟩ := hinj hij' hj' hij hj hd
          exact hw hw'
    · rw [if_neg hsome]
      refine ⟨s1, rfl, rfl, rfl, rfl, rfl, rfl, rfl, rfl, ?_, fun h => absurd h hsome⟩
      intro i j _ _ evs he
      rw [he] at hsome
      simp at hsome
  obtain ⟨s2, hs2, q1, q2, q3, q4, q5, q6, q7, q8, q9⟩ := hfinal
  have hprep : s0.prepare A sched = { s2 with
      me := fun i => { s2.me i with workToDo := false, changed := false },
      pdf := fun b l => probExpr A s2.par fun fld => s2.cache fld b l,
      calls := s2.calls + 1 } := by
    unfold St.prepare
    simp only [← ht, ← hs1, hs2]
  have hpar : s2.par = s0.par := q1.trans hl.par
  have hb2 : ∀ i, (s2.me i).buffer = A.ext i s0.par := fun i => by rw [q3, hl.buffer, hbuf]
  have hdc2 : ∀ i < A.n, DCached A s2 i (A.ext i s0.par) := by
    intro i hi evs he
    rw [q4]
    exact hdc1 i hi evs (by rw [← q2]; exact he)
  have hic2 : ∀ i < A.n, ICached A s2.integ i (A.ext i s0.par) := by
    intro i hi; rw [q5]; exact hic1 i hi
  rw [hprep]
  refine ⟨hpar, q2.trans hl.sdata, ?_, ?_, ?_, ?_, hb2, hdc2, hic2, q8, ?_, ?_, ?_⟩
  · show s2.integ.events = _
    rw [q5]; exact hl.ievents
  · show s2.calls + 1 = _
    rw [q6, hl.calls]; rfl
  · intro i
    show (s2.me i).coefficient = _
    rw [q3, hl.coef]; rfl
  · show s2.rho = _
    rw [q7, hl.rho]; rfl
  · intro h
    have := q9 h
    rw [hl.par, hl.rho] at this
    exact this
  · intro b l
    show probExpr A s2.par _ = _
    rw [hpar]
  · refine ⟨?_, ?_, ?_, ?_, ?_, ?_⟩
    · show s2.integ.queue = []
      rw [q5, hl.iqueue]; exact h0.queue
    · show IReady s2.integ
      rw [q5]; exact hready1
    · intro i p
      show (s2.me i).buffer.length = _
      rw [hb2]; exact hA.slots i _ p
    · intro i hi _ _
      show DCached A s2 i (s2.me i).buffer
      rw [hb2]; exact hdc2 i hi
    · intro i hi _ _
      show ICached A s2.integ i (s2.me i).buffer
      rw [hb2]; exact hic2 i hi
    · intro i j hij hj _ _ _
      show NCached A s2 i j (s2.me i).buffer (s2.me j).buffer
      rw [hb2, hb2]; exact q8 i j hij hj

theorem inv_apply (A : PAmps P X) (hA : A.WF) (sched : List Req → List Req) (hs : ∀ q, (sched q).Perm q)
    {s : St P X W} (h : Inv A s) (op : Op P X W) : Inv A (s.apply A sched op) := by
  cases op with
  | setPar p => exact ⟨h.queue, h.ready, h.slots, h.data, h.integ, h.norms⟩
  | setEvents evs junk =>
    exact ⟨h.queue, h.ready, h.slots, fun i _ hc => absurd rfl hc, fun i _ hc => absurd rfl hc,
      fun i j _ _ hc => absurd rfl hc⟩
  | setMC evs junk =>
    exact ⟨rfl, Coherent.make_ready evs junk, h.slots, fun i _ hc => absurd rfl hc, fun i _ hc => absurd rfl hc,
      fun i j _ _ hc => absurd rfl hc⟩
  | reset =>
    exact ⟨h.queue, h.ready, h.slots, fun i _ hc => absurd rfl hc, fun i _ hc => absurd rfl hc,
      fun i j _ _ hc => absurd rfl hc⟩
  | prepare => exact (prepare_spec A hA sched hs h).inv

theorem run_spec (A : PAmps P X) (hA : A.WF) (sched : List Req → List Req) (hs : ∀ q, (sched q).Perm q) :
    ∀ (ops : List (Op P X W)) (s : St P X W), Inv A s →
    Inv A (ops.foldl (fun s op => s.apply A sched op) s) ∧
    (ops.foldl (fun s op => s.apply A sched op) s).par = lastPar s.par ops ∧
    (ops.foldl (fun s op => s.apply A sched op) s).data = lastData s.data ops ∧
    (ops.foldl (fun s op => s.apply A sched op) s).integ.events = lastSim s.integ.events ops := by
  intro ops
  induction ops with
  | nil => intro s h; exact ⟨h, rfl, rfl, rfl⟩
  | cons op ops ih =>
    intro s h
    obtain ⟨i1, i2, i3, i4⟩ := ih _ (inv_apply A hA sched hs h op)
    rw [List.foldl_cons]
    refine ⟨i1, ?_, ?_, ?_⟩
    · rw [i2]
      cases op with
      | prepare => simp only [St.apply, lastPar]; rw [(prepare_spec A hA sched hs h).par]
      | _ => rfl
    · rw [i3]
      cases op with
      | prepare => simp only [St.apply, lastData]; rw [(prepare_spec A hA sched hs h).sdata]
      | _ => rfl
    · rw [i4]
      cases op with
      | prepare => simp only [St.apply, lastSim]; rw [(prepare_spec A hA sched hs h).ievents]
      | _ => rfl

end AmpGen.Polarised
