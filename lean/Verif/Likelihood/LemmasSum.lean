import Verif.Likelihood.PropsInco
/-
Lemmas on histories of a sum of densities: each component goes through its own history.
-/
namespace AmpGen.Likelihood

open Coherent

variable {P X : Type} {W : Nat}

/-- What a history does to component `k`. -/
def opsFor (k : Nat) : List (SOp P X W) → List (Op P X W)
  | [] => []
  | .setPar p :: ops => .setPar p :: opsFor k ops
  | .setEvents evs junk :: ops => .setEvents (evs.map fun b l => (b l).x) junk :: opsFor k ops
  | .onPdf j op :: ops => if j = k then op :: opsFor k ops else opsFor k ops
  | .getVal :: ops => .prepare :: opsFor k ops

theorem opsFor_append (k : Nat) (a b : List (SOp P X W)) : opsFor k (a ++ b) = opsFor k a ++ opsFor k b := by
  induction a with
  | nil => rfl
  | cons op a ih =>
    cases op with
    | onPdf j o =>
      simp only [List.cons_append, opsFor]
      split <;> simp [ih]
    | _ => simp [opsFor, ih]

theorem opsFor_tracked (k : Nat) (ops : List (SOp P X W)) (h : ∀ op ∈ ops, op.ok) :
    ∀ op ∈ opsFor k ops, op.Tracked := by
  induction ops with
  | nil => intro op ho; simp [opsFor] at ho
  | cons o ops ih =>
    have ih := ih fun op ho => h op (by simp [ho])
    have h0 := h o (by simp)
    cases o with
    | setPar p => intro op ho; simp only [opsFor, List.mem_cons] at ho; rcases ho with rfl | ho; trivial; exact ih op ho
    | setEvents e j => intro op ho; simp only [opsFor, List.mem_cons] at ho; rcases ho with rfl | ho; trivial; exact ih op ho
    | getVal => intro op ho; simp only [opsFor, List.mem_cons] at ho; rcases ho with rfl | ho; trivial; exact ih op ho
    | onPdf j o =>
      intro op ho
      simp only [opsFor] at ho
      split at ho
      · rw [List.mem_cons] at ho
        rcases ho with rfl | ho
        · cases op <;> first | trivial | exact h0.elim
        · exact ih op ho
      · exact ih op ho

theorem lastPar_opsFor (k : Nat) (ops : List (SOp P X W)) (h : ∀ op ∈ ops, op.ok) :
    ∀ p : P, lastPar p (opsFor k ops) = sLastPar p ops := by
  induction ops with
  | nil => intro p; rfl
  | cons o ops ih =>
    have ih := ih fun op ho => h op (by simp [ho])
    have h0 := h o (by simp)
    intro p
    cases o with
    | setPar q => exact ih q
    | setEvents e j => exact ih p
    | getVal => exact ih p
    | onPdf j o =>
      simp only [opsFor, sLastPar]
      split
      · cases o <;> first | exact ih p | exact h0.elim
      · exact ih p

theorem lastData_opsFor (k : Nat) (ops : List (SOp P X W)) (h : ∀ op ∈ ops, op.ok) :
    ∀ d : Option (List (Fin W → SimEvent X)),
      lastData (d.map fun evs => evs.map fun b l => (b l).x) (opsFor k ops) =
        (sLastData d ops).map fun evs => evs.map fun b l => (b l).x := by
  induction ops with
  | nil => intro p; rfl
  | cons o ops ih =>
    have ih := ih fun op ho => h op (by simp [ho])
    have h0 := h o (by simp)
    intro d
    cases o with
    | setPar q => exact ih d
    | setEvents e j => exact ih (some e)
    | getVal => exact ih d
    | onPdf j o =>
      simp only [opsFor, sLastData]
      split
      · cases o with
        | reset b => cases b with
          | true => exact h0.elim
          | false => exact ih d
        | setEvents => exact h0.elim
        | _ => exact ih d
      · exact ih d

theorem lastSim_opsFor (k : Nat) (ops : List (SOp P X W)) (h : ∀ op ∈ ops, op.ok) :
    ∀ d : Option (List (Fin W → SimEvent X)), lastSim d (opsFor k ops) = sLastSim k d ops := by
  induction ops with
  | nil => intro p; rfl
  | cons o ops ih =>
    have ih := ih fun op ho => h op (by simp [ho])
    have h0 := h o (by simp)
    intro d
    cases o with
    | setPar q => exact ih d
    | setEvents e j => exact ih d
    | getVal => exact ih d
    | onPdf j o =>
      simp only [opsFor]
      split
      · rename_i hjk
        cases o with
        | reset b => cases b with
          | true => exact h0.elim
          | false => exact ih d
        | setMC evs junk => simp only [lastSim, sLastSim, if_pos hjk]; exact ih (some evs)
        | _ => exact ih d
      · rename_i hjk
        cases o with
        | setMC evs junk => simp only [sLastSim, if_neg hjk]; exact ih d
        | _ => exact ih d

/-- Every component goes through its own history. -/
theorem sumRun_pdfs (comps : List (Comp P X)) (sched : List Req → List Req) (p : P) (ops : List (SOp P X W)) :
    (sumRun comps sched p ops).pdfs = comps.zipIdx.map (fun c => (c.1, run c.1.A sched p (opsFor c.2 ops))) ∧
    (sumRun comps sched p ops).events = sLastData none ops := by
  induction ops using List.reverseRecOn with
  | nil =>
    refine ⟨?_, rfl⟩
    unfold sumRun run
    simp only [List.foldl_nil, opsFor]
    conv_lhs => rw [← List.zipIdx_map_fst 0 comps]
    rw [List.map_map]
    rfl
  | append_singleton ops op ih =>
    obtain ⟨ih1, ih2⟩ := ih
    have hr : sumRun comps sched p (ops ++ [op]) = (sumRun comps sched p ops).apply sched op := by
      unfold sumRun
      rw [List.foldl_append]
      rfl
    have hrun : ∀ (A : Amps P X) (l : List (Op P X W)) (o : Op P X W),
        run A sched p (l ++ [o]) = (run A sched p l).apply A sched o := by
      intro A l o
      unfold run
      rw [List.foldl_append]
      rfl
    have hd : ∀ (l : List (SOp P X W)) (d : Option (List (Fin W → SimEvent X))) (o : SOp P X W),
        sLastData d (l ++ [o]) = sLastData (sLastData d l) [o] := by
      intro l
      induction l with
      | nil => intro d o; rfl
      | cons a l ih => intro d o; cases a <;> exact ih _ o
    rw [hr, hd]
    set t := sumRun comps sched p ops with ht
    cases op with
    | setPar q =>
      refine ⟨?_, ih2⟩
      show applyAll sched (.setPar q) t.pdfs = _
      unfold applyAll
      rw [ih1, List.map_map]
      apply List.map_congr_left
      intro c _
      rw [opsFor_append, show opsFor c.2 [SOp.setPar q] = [(.setPar q : Op P X W)] from rfl, hrun]
      rfl
    | setEvents evs junk =>
      refine ⟨?_, rfl⟩
      show applyAll sched (.setEvents (evs.map fun b l => (b l).x) junk) t.pdfs = _
      unfold applyAll
      rw [ih1, List.map_map]
      apply List.map_congr_left
      intro c _
      rw [opsFor_append, show opsFor c.2 [SOp.setEvents evs junk] =
        [(.setEvents (evs.map fun b l => (b l).x) junk : Op P X W)] from rfl, hrun]
      rfl
    | getVal =>
      refine ⟨?_, ih2⟩
      show applyAll sched .prepare t.pdfs = _
      unfold applyAll
      rw [ih1, List.map_map]
      apply List.map_congr_left
      intro c _
      rw [opsFor_append, show opsFor c.2 [(SOp.getVal : SOp P X W)] = [(.prepare : Op P X W)] from rfl, hrun]
      rfl
    | onPdf k o =>
      refine ⟨?_, ih2⟩
      show t.pdfs.modify k (fun c => (c.1, c.2.apply c.1.A sched o)) = _
      rw [ih1]
      apply List.ext_getElem?
      intro i
      rw [List.getElem?_modify]
      simp only [List.getElem?_map, List.getElem?_zipIdx, Option.map_map]
      cases hi : comps[i]? with
      | none => simp
      | some c =>
        simp only [Option.map_some, Function.comp, Nat.zero_add]
        rw [opsFor_append]
        show some (if k = i then _ else _) = _
        by_cases hki : k = i
        · rw [if_pos hki, show opsFor i [SOp.onPdf k o] = [o] from by simp [opsFor, hki], hrun]
        · rw [if_neg hki, show opsFor i [SOp.onPdf k o] = ([] : List (Op P X W)) from by simp [opsFor, hki],
            List.append_nil]

theorem foldl_pdfs (l : List (Comp P X × St P X W)) (f : Comp P X × St P X W → ℝ) :
    ∀ a : ℝ, l.foldl (fun v c => v + f c) a = a + (l.map f).sum := by
  induction l with
  | nil => intro a; simp
  | cons c l ih => intro a; simp only [List.foldl_cons, List.map_cons, List.sum_cons]; rw [ih]; ring

/-- The value returned by `getVal` in terms of densities. -/
theorem sumVal_eq (evs : List (Fin W → SimEvent X)) (pdfs : List (Comp P X × St P X W)) (f : X → ℝ)
    (h : ∀ b e l, evs[b]? = some e → (pdfs.map fun c => c.1.prob c.2 b l).sum = f (e l).x) :
    sumVal evs pdfs = -2 * sumOver evs fun e => e.weight * Real.log (f e.x) := by
  unfold sumVal
  rw [foldl_lanes]
  have h0 : sumElements (fun _ : Fin W => (0 : ℝ)) = 0 := by simp [sumElements]
  rw [h0, zero_add]
  congr 1
  unfold fillLikelihood sumOver
  rw [List.map_map]
  have : evs.map (fun b => ∑ l, (b l).weight * Real.log (f (b l).x)) =
      evs.zipIdx.map (fun eb => ∑ l, (eb.1 l).weight * Real.log (f (eb.1 l).x)) := by
    conv_lhs => rw [← List.zipIdx_map_fst 0 evs]
    rw [List.map_map]
    rfl
  rw [this]
  congr 1
  apply List.map_congr_left
  intro eb heb
  apply Finset.sum_congr rfl
  intro l _
  show (eb.1 l).weight * Real.log (pdfs.foldl (fun v c => v + c.1.prob c.2 eb.2 l) 0) = _
  rw [foldl_pdfs, zero_add, h eb.2 eb.1 l]
  obtain ⟨e, b⟩ := eb
  have := List.mk_mem_zipIdx_iff_getElem?.mp heb
  exact this

end AmpGen.Likelihood
