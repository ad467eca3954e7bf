import Verif.Coherent.Spec
import Mathlib.Tactic.Ring
import Mathlib.Tactic.FieldSimp
import Mathlib.Tactic.Linarith
import Mathlib.Algebra.BigOperators.Ring.List
import Mathlib.Data.List.Nodup
/-
Lemmas about the coherent sum.
-/
namespace AmpGen.Coherent

variable {P X : Type} {W : Nat}

/-! ### Fields -/

theorem registered_nodup (l : List String) : ∀ acc, (acc ++ l).Nodup →
    l.foldl (fun acc s => if s ∈ acc then acc else acc ++ [s]) acc = acc ++ l := by
  induction l with
  | nil => intro acc _; simp
  | cons s l ih =>
    intro acc h
    have hs : s ∉ acc := by
      intro hs
      rw [List.nodup_append] at h
      exact h.2.2 s hs s (by simp) rfl
    rw [List.foldl_cons, if_neg hs, ih]
    · simp
    · simpa using h

theorem Amps.WF.field {A : Amps P X} (h : A.WF) {i : Nat} (hi : i < A.n) : A.field i = i := by
  unfold Amps.field registered
  rw [registered_nodup _ [] (by simpa using h.names)]
  rw [List.nil_append]
  have hlt : i < ((List.range A.n).map A.name).length := by simpa using hi
  have heq : A.name i = ((List.range A.n).map A.name)[i] := by simp
  rw [heq]
  exact h.names.idxOf_getElem i hlt

/-! ### Folds and sums -/

theorem foldl_range_sum {M : Type} [AddCommMonoid M] (f : Nat → M) (n : Nat) (a : M) :
    (List.range n).foldl (fun v i => v + f i) a = a + ∑ i ∈ Finset.range n, f i := by
  induction n with
  | zero => simp
  | succ n ih => rw [List.range_succ, List.foldl_append, ih, Finset.sum_range_succ]; simp [add_assoc]

theorem foldl_lanes (w : List (Fin W → ℝ)) : ∀ a : Fin W → ℝ,
    sumElements (w.foldl (fun acc b l => acc l + b l) a) =
      sumElements a + (w.map fun b => ∑ l, b l).sum := by
  induction w with
  | nil => intro a; simp
  | cons b w ih =>
    intro a
    rw [List.foldl_cons, ih]
    simp only [sumElements, Finset.sum_add_distrib, List.map_cons, List.sum_cons]
    ring

/-- The integrator's view of a pair of fields. -/
noncomputable def blockSum (I : Integrator X W) (i j : Nat) : ℂ :=
  (I.weight.zipIdx.map fun wb => ∑ l, (wb.1 l : ℂ) * (I.cache i wb.2 l * (starRingEnd ℂ) (I.cache j wb.2 l))).sum

theorem integral_eq (I : Integrator X W) (i j : Nat) : I.integral i j = blockSum I i j / (I.norm : ℂ) := by
  unfold Integrator.integral
  have key : ∀ (ws : List ((Fin W → ℝ) × Nat)) (a : (Fin W → ℝ) × (Fin W → ℝ)),
      (⟨sumElements (ws.foldl (fun (acc : (Fin W → ℝ) × (Fin W → ℝ)) wb =>
        (fun l => acc.1 l + wb.1 l * (I.cache i wb.2 l * (starRingEnd ℂ) (I.cache j wb.2 l)).re,
         fun l => acc.2 l + wb.1 l * (I.cache i wb.2 l * (starRingEnd ℂ) (I.cache j wb.2 l)).im)) a).1,
        sumElements (ws.foldl (fun (acc : (Fin W → ℝ) × (Fin W → ℝ)) wb =>
        (fun l => acc.1 l + wb.1 l * (I.cache i wb.2 l * (starRingEnd ℂ) (I.cache j wb.2 l)).re,
         fun l => acc.2 l + wb.1 l * (I.cache i wb.2 l * (starRingEnd ℂ) (I.cache j wb.2 l)).im)) a).2⟩ : ℂ) =
      ⟨sumElements a.1, sumElements a.2⟩ +
        (ws.map fun wb => ∑ l, (wb.1 l : ℂ) * (I.cache i wb.2 l * (starRingEnd ℂ) (I.cache j wb.2 l))).sum := by
    intro ws
    induction ws with
    | nil => intro a; simp
    | cons wb ws ih =>
      intro a
      rw [List.foldl_cons, ih, List.map_cons, List.sum_cons, ← add_assoc]
      congr 1
      apply Complex.ext
      · simp only [sumElements, Finset.sum_add_distrib, Complex.add_re, Complex.re_sum,
          Complex.re_ofReal_mul]
      · simp only [sumElements, Finset.sum_add_distrib, Complex.add_im, Complex.im_sum,
          Complex.im_ofReal_mul]
  have := key I.weight.zipIdx (fun _ => 0, fun _ => 0)
  simp only at this ⊢
  rw [this]
  have h0 : (⟨sumElements (fun _ : Fin W => (0 : ℝ)), sumElements (fun _ : Fin W => (0 : ℝ))⟩ : ℂ) = 0 := by
    apply Complex.ext <;> simp [sumElements]
  rw [h0, zero_add]
  rfl

/-! ### Queue -/

theorem foldl_write (I : Integrator X W) : ∀ (rs : List Req) (mem : Nat → ℂ), Consistent rs →
    (∀ r ∈ rs, (rs.foldl (fun m r => Function.update m r.dest (I.integral r.i r.j)) mem) r.dest
      = I.integral r.i r.j) ∧
    (∀ d, (∀ r ∈ rs, r.dest ≠ d) →
      (rs.foldl (fun m r => Function.update m r.dest (I.integral r.i r.j)) mem) d = mem d) := by
  intro rs
  induction rs with
  | nil => intro mem _; simp
  | cons r rs ih =>
    intro mem h
    have h' : Consistent rs := fun a ha b hb => h a (by simp [ha]) b (by simp [hb])
    obtain ⟨ih1, ih2⟩ := ih (Function.update mem r.dest (I.integral r.i r.j)) h'
    rw [List.foldl_cons]
    constructor
    · intro r' hr'
      rcases List.mem_cons.mp hr' with rfl | hr'
      · by_cases hex : ∃ a ∈ rs, a.dest = r'.dest
        · obtain ⟨a, ha, had⟩ := hex
          obtain ⟨h1, h2⟩ := h a (by simp [ha]) r' (by simp) had
          have := ih1 a ha
          rw [h1, h2, had] at this
          exact this
        · rw [ih2 r'.dest (fun a ha had => hex ⟨a, ha, had⟩)]
          simp
      · exact ih1 r' hr'
    · intro d hd
      rw [ih2 d (fun a ha => hd a (by simp [ha])), Function.update_of_ne]
      exact fun e => hd r (by simp) e.symm

/-- Same data, whatever the queue. -/
theorem integral_queue (I : Integrator X W) (q : List Req) (i j : Nat) :
    ({ I with queue := q } : Integrator X W).integral i j = I.integral i j := rfl

theorem queueAll_inv (sched : List Req → List Req) (hs : ∀ q, (sched q).Perm q)
    (I : Integrator X W) (mem0 : Nat → ℂ) : ∀ (rs done : List Req) (mem : Nat → ℂ) (q : List Req),
    Consistent (done ++ rs) → (∀ r ∈ q, r ∈ done) →
    (∀ r ∈ done, r ∈ q ∨ mem r.dest = I.integral r.i r.j) →
    (∀ d, (∀ r ∈ done, r.dest ≠ d) → mem d = mem0 d) →
    ∃ q' mem', Integrator.queueAll sched { I with queue := q } mem rs = ({ I with queue := q' }, mem') ∧
      (∀ r ∈ q', r ∈ done ++ rs) ∧
      (∀ r ∈ done ++ rs, r ∈ q' ∨ mem' r.dest = I.integral r.i r.j) ∧
      (∀ d, (∀ r ∈ done ++ rs, r.dest ≠ d) → mem' d = mem0 d) := by
  intro rs
  induction rs with
  | nil =>
    intro done mem q hc hq h1 h2
    exact ⟨q, mem, rfl, by simpa using hq, by simpa using h1, by simpa using h2⟩
  | cons r rs ih =>
    intro done mem q hc hq h1 h2
    have hstep : Integrator.queueAll sched { I with queue := q } mem (r :: rs) =
        (let s := Integrator.queueIntegral sched { I with queue := q } mem r
         Integrator.queueAll sched s.1 s.2 rs) := rfl
    have happ : done ++ r :: rs = (done ++ [r]) ++ rs := by simp
    rw [hstep, happ]
    rw [happ] at hc
    by_cases hb : (q ++ [r]).length = batch
    · have hq1 : Integrator.queueIntegral sched { I with queue := q } mem r =
          ({ I with queue := [] }, (sched (q ++ [r])).foldl
            (fun m r => Function.update m r.dest (I.integral r.i r.j)) mem) := by
        unfold Integrator.queueIntegral
        simp only [hb, if_true]
        rfl
      rw [hq1]
      have hcons : Consistent (sched (q ++ [r])) := by
        intro a ha b hb'
        have hin : ∀ a, a ∈ sched (q ++ [r]) → a ∈ (done ++ [r]) ++ rs := by
          intro a ha
          have := (hs (q ++ [r])).mem_iff.mp ha
          rcases List.mem_append.mp this with h | h
          · simp [hq a h]
          · simp only [List.mem_singleton] at h; simp [h]
        exact hc a (hin a ha) b (hin b hb')
      obtain ⟨hw1, hw2⟩ := foldl_write I (sched (q ++ [r])) mem hcons
      apply ih (done ++ [r]) _ [] hc
      · simp
      · intro a ha
        right
        by_cases haq : a ∈ q ++ [r]
        · exact hw1 a ((hs _).mem_iff.mpr haq)
        · have had : a ∈ done := by
            rcases List.mem_append.mp ha with h | h
            · exact h
            · exact absurd (List.mem_append_right q h) haq
          have hval := (h1 a had).resolve_left (fun h => haq (by simp [h]))
          by_cases hex : ∃ b ∈ sched (q ++ [r]), b.dest = a.dest
          · obtain ⟨b, hb', hbd⟩ := hex
            have hin : b ∈ (done ++ [r]) ++ rs := by
              have := (hs (q ++ [r])).mem_iff.mp hb'
              rcases List.mem_append.mp this with h | h
              · simp [hq b h]
              · simp only [List.mem_singleton] at h; simp [h]
            obtain ⟨e1, e2⟩ := hc b hin a (by simp [had]) hbd
            simp only
            rw [← hbd, hw1 b hb', e1, e2]
          · simp only
            rw [hw2 a.dest (fun b hb' hbd => hex ⟨b, hb', hbd⟩)]
            exact hval
      · intro d hd
        simp only
        rw [hw2 d, h2 d (fun a ha => hd a (by simp [ha]))]
        intro b hb'
        have := (hs (q ++ [r])).mem_iff.mp hb'
        rcases List.mem_append.mp this with h | h
        · exact hd b (by simp [hq b h])
        · exact hd b (by simp only [List.mem_singleton] at h; simp [h])
    · have hq1 : Integrator.queueIntegral sched { I with queue := q } mem r =
          ({ I with queue := q ++ [r] }, mem) := by
        unfold Integrator.queueIntegral
        simp only [hb, if_false]
      rw [hq1]
      apply ih (done ++ [r]) mem (q ++ [r]) hc
      · intro a ha
        rcases List.mem_append.mp ha with h | h
        · simp [hq a h]
        · simp only [List.mem_singleton] at h; simp [h]
      · intro a ha
        rcases List.mem_append.mp ha with h | h
        · rcases h1 a h with h | h
          · left; simp [h]
          · right; exact h
        · left; simp only [List.mem_singleton] at h; simp [h]
      · intro d hd
        exact h2 d (fun a ha => hd a (by simp [ha]))

theorem queue_flush_all (sched : List Req → List Req) (hs : ∀ q, (sched q).Perm q)
    (I : Integrator X W) (hI : I.queue = []) (mem : Nat → ℂ) (rs : List Req) (hc : Consistent rs) :
    ∃ mem', ((I.queueAll sched mem rs).1.flush sched (I.queueAll sched mem rs).2) = (I, mem') ∧
      (∀ r ∈ rs, mem' r.dest = I.integral r.i r.j) ∧
      (∀ d, (∀ r ∈ rs, r.dest ≠ d) → mem' d = mem d) := by
  have hI' : ({ I with queue := [] } : Integrator X W) = I := by cases I; simp at hI; subst hI; rfl
  obtain ⟨q', mem', he, h1, h2, h3⟩ := queueAll_inv sched hs I mem rs [] mem [] (by simpa using hc)
    (by simp) (by simp) (by simp)
  rw [hI'] at he
  rw [he]
  simp only [List.nil_append] at h1 h2 h3
  unfold Integrator.flush
  by_cases hq : q'.length = 0
  · have hq0 : q' = [] := List.length_eq_zero_iff.mp hq
    subst hq0
    simp only [List.length_nil, if_true]
    refine ⟨mem', by rw [hI'], ?_, h3⟩
    intro r hr
    exact (h2 r hr).resolve_left (by simp)
  · simp only [hq, if_false]
    have hcons : Consistent (sched q') := by
      intro a ha b hb
      exact hc a (h1 a ((hs q').mem_iff.mp ha)) b (h1 b ((hs q').mem_iff.mp hb))
    obtain ⟨hw1, hw2⟩ := foldl_write I (sched q') mem' hcons
    refine ⟨(sched q').foldl (fun m r => Function.update m r.dest (I.integral r.i r.j)) mem', ?_, ?_, ?_⟩
    · unfold Integrator.integrateBlock
      simp only [integral_queue]
      rw [hI']
    · intro r hr
      by_cases hex : ∃ b ∈ sched q', b.dest = r.dest
      · obtain ⟨b, hb, hbd⟩ := hex
        obtain ⟨e1, e2⟩ := hc b (h1 b ((hs q').mem_iff.mp hb)) r hr hbd
        rw [← hbd, hw1 b hb, e1, e2]
      · rw [hw2 r.dest (fun b hb hbd => hex ⟨b, hb, hbd⟩)]
        refine (h2 r hr).resolve_left fun h => hex ⟨r, (hs q').mem_iff.mpr h, rfl⟩
    · intro d hd
      rw [hw2 d (fun b hb => hd b (h1 b ((hs q').mem_iff.mp hb)))]
      exact h3 d hd

end AmpGen.Coherent
