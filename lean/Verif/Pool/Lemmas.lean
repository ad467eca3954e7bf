import Verif.Pool.Model
import Mathlib.Data.List.Perm.Basic
import Mathlib.Tactic.Common
/-
Invariants of the thread pool.
-/
namespace AmpGen.Pool

variable {T : Type}

/-- The tasks being executed. -/
def running : List (Worker T) → List T
  | [] => []
  | .running t :: ws => t :: running ws
  | _ :: ws => running ws

theorem running_append (l r : List (Worker T)) : running (l ++ r) = running l ++ running r := by
  induction l with
  | nil => rfl
  | cons w l ih => cases w <;> simp [running, ih]

theorem running_wake (l : List (Worker T)) : running (l.map wake) = running l := by
  induction l with
  | nil => rfl
  | cons w l ih => cases w <;> simp [running, wake, ih]

theorem running_replicate (n : Nat) : running (List.replicate n (.ready : Worker T)) = [] := by
  induction n with
  | zero => rfl
  | succ n ih => simpa [List.replicate_succ, running] using ih

theorem running_done {l : List (Worker T)} (h : ∀ w ∈ l, w = .done) : running l = [] := by
  induction l with
  | nil => rfl
  | cons w l ih =>
    rw [h w (by simp)]
    exact ih fun w hw => h w (by simp [hw])

/-- Where the system can be when the client queues `tasks` and then waits. -/
def Phase (tasks : List T) (s : St T) : Prop :=
  match s.pc with
  | .idle p =>
    (∃ ts, p = ts.map Op.enq ++ [Op.wait] ∧ s.stop = false ∧ s.joined = false ∧
      Worker.done ∉ s.workers ∧ s.started ++ s.queue ++ ts = tasks) ∨
    (p = [] ∧ (∀ w ∈ s.workers, w = .done) ∧ s.joined = true ∧ s.started ++ s.queue = tasks ∧
      (s.workers ≠ [] → s.queue = []))
  | .notify p =>
    ∃ ts, p = ts.map Op.enq ++ [Op.wait] ∧ s.stop = false ∧ s.joined = false ∧
      Worker.done ∉ s.workers ∧ s.started ++ s.queue ++ ts = tasks
  | .stopping p => p = [] ∧ s.stop = true ∧ s.joined = false ∧ s.started ++ s.queue = tasks ∧
      (Worker.done ∈ s.workers → s.queue = [])
  | .joining p => p = [] ∧ s.stop = true ∧ s.joined = false ∧ s.started ++ s.queue = tasks ∧
      (Worker.done ∈ s.workers → s.queue = [])
  | .crashed => False

structure Inv (nt : Nat) (tasks : List T) (s : St T) : Prop where
  size : s.workers.length = nt
  perm : (s.finished ++ running s.workers).Perm s.started
  phase : Phase tasks s

theorem inv_init (nt : Nat) (tasks : List T) : Inv nt tasks (init nt (tasks.map Op.enq ++ [Op.wait])) := by
  refine ⟨by simp [init], by simp [init, running_replicate], Or.inl ⟨tasks, rfl, rfl, rfl, ?_, rfl⟩⟩
  intro h
  have h' : (Worker.done : Worker T) = .ready := List.eq_of_mem_replicate (n := nt) h
  cases h'

theorem map_enq_ne {ts : List T} {prog : List (Op T)} (h : Op.wait :: prog = ts.map Op.enq ++ [Op.wait]) :
    ts = [] ∧ prog = [] := by
  cases ts with
  | nil => simpa using h
  | cons t ts => simp at h

theorem map_enq_cons {t : T} {ts : List T} {prog : List (Op T)}
    (h : Op.enq t :: prog = ts.map Op.enq ++ [Op.wait]) :
    ∃ ts', ts = t :: ts' ∧ prog = ts'.map Op.enq ++ [Op.wait] := by
  cases ts with
  | nil => simp at h
  | cons t' ts => simp at h; exact ⟨ts, by rw [h.1], h.2⟩

theorem not_mem_of_wake {l : List (Worker T)} (h : Worker.done ∈ l.map wake) : Worker.done ∈ l := by
  rw [List.mem_map] at h
  obtain ⟨w, hw, h⟩ := h
  cases w with
  | ready => simp [wake] at h
  | waiting => simp [wake] at h
  | running => simp [wake] at h
  | done => exact hw

theorem inv_step {nt : Nat} {tasks : List T} {b : Bool} {s s' : St T} (h : Inv nt tasks s)
    (hst : Step b s s') : Inv nt tasks s' := by
  obtain ⟨hsize, hperm, hphase⟩ := h
  cases hst with
  | enqueue _ t prog hpc hs =>
    refine ⟨hsize, hperm, ?_⟩
    unfold Phase at hphase ⊢
    rw [hpc] at hphase
    rcases hphase with ⟨ts, h1, h2, h3, h4, h5⟩ | ⟨h1, _⟩
    · obtain ⟨ts', rfl, h6⟩ := map_enq_cons h1
      exact ⟨ts', h6, h2, h3, h4, by rw [← h5]; simp⟩
    · simp at h1
  | enqueueStopped _ t prog hpc hs =>
    exfalso
    unfold Phase at hphase
    rw [hpc] at hphase
    rcases hphase with ⟨ts, h1, h2, _⟩ | ⟨h1, _⟩
    · rw [hs] at h2; cases h2
    · simp at h1
  | notifyOne _ prog l r hpc hw =>
    refine ⟨?_, ?_, ?_⟩
    · rw [← hsize, hw]; simp
    · rw [hw, running_append] at hperm
      show (s.finished ++ running (l ++ .ready :: r)).Perm s.started
      rw [running_append]; exact hperm
    · unfold Phase at hphase ⊢
      rw [hpc] at hphase
      obtain ⟨ts, h1, h2, h3, h4, h5⟩ := hphase
      refine Or.inl ⟨ts, h1, h2, h3, ?_, h5⟩
      rw [hw] at h4
      simpa using h4
  | notifyNone _ prog hpc hw =>
    refine ⟨hsize, hperm, ?_⟩
    unfold Phase at hphase ⊢
    rw [hpc] at hphase
    exact Or.inl hphase
  | setStop _ prog hpc =>
    refine ⟨hsize, hperm, ?_⟩
    unfold Phase at hphase ⊢
    rw [hpc] at hphase
    rcases hphase with ⟨ts, h1, h2, h3, h4, h5⟩ | ⟨h1, _⟩
    · obtain ⟨rfl, h6⟩ := map_enq_ne h1
      exact ⟨h6, rfl, h3, by simpa using h5, fun h => absurd h h4⟩
    · simp at h1
  | notifyAll _ prog hpc =>
    refine ⟨by simpa using hsize, ?_, ?_⟩
    · show (s.finished ++ running (s.workers.map wake)).Perm s.started
      rw [running_wake]; exact hperm
    · unfold Phase at hphase ⊢
      rw [hpc] at hphase
      obtain ⟨h1, h2, h3, h4, h5⟩ := hphase
      exact ⟨h1, h2, h3, h4, fun h => h5 (not_mem_of_wake h)⟩
  | join _ prog hpc hw hj =>
    refine ⟨hsize, hperm, ?_⟩
    unfold Phase at hphase ⊢
    rw [hpc] at hphase
    obtain ⟨h1, h2, h3, h4, h5⟩ := hphase
    refine Or.inr ⟨h1, hw, rfl, h4, ?_⟩
    intro hne
    apply h5
    cases hws : s.workers with
    | nil => exact absurd hws hne
    | cons w ws => rw [← hw w (by rw [hws]; simp)]; simp
  | joinTwice _ prog hpc hw hj =>
    exfalso
    unfold Phase at hphase
    rw [hpc] at hphase
    obtain ⟨h1, h2, h3, _⟩ := hphase
    rw [hj] at h3; cases h3
  | take _ t q l r hw hq =>
    refine ⟨?_, ?_, ?_⟩
    · rw [← hsize, hw]; simp
    · rw [hw, running_append] at hperm
      show (s.finished ++ running (l ++ .running t :: r)).Perm (s.started ++ [t])
      rw [running_append]
      simp only [running] at hperm ⊢
      refine List.Perm.trans ?_ (hperm.append_right [t])
      simp only [List.append_assoc]
      refine List.Perm.append_left _ (List.Perm.append_left _ ?_)
      exact (List.perm_append_singleton t (running r)).symm
    · unfold Phase at hphase ⊢
      have hmem : ∀ w, w ∈ l ++ Worker.running t :: r → w ≠ .running t → w ∈ s.workers := by
        intro w hw' hne
        rw [hw]
        simp only [List.mem_append, List.mem_cons] at hw' ⊢
        rcases hw' with h | h | h
        · exact Or.inl h
        · exact absurd h hne
        · exact Or.inr (Or.inr h)
      cases hpc : s.pc with
      | idle p =>
        rw [hpc] at hphase
        simp only
        rcases hphase with ⟨ts, h1, h2, h3, h4, h5⟩ | ⟨h1, h2, _⟩
        · refine Or.inl ⟨ts, h1, h2, h3, fun h => h4 (hmem _ h (by simp)), ?_⟩
          rw [← h5, hq]; simp
        · have := h2 .ready (by rw [hw]; simp)
          cases this
      | notify p =>
        rw [hpc] at hphase
        simp only
        obtain ⟨ts, h1, h2, h3, h4, h5⟩ := hphase
        refine ⟨ts, h1, h2, h3, fun h => h4 (hmem _ h (by simp)), ?_⟩
        rw [← h5, hq]; simp
      | stopping p =>
        rw [hpc] at hphase
        simp only
        obtain ⟨h1, h2, h3, h4, h5⟩ := hphase
        refine ⟨h1, h2, h3, by rw [← h4, hq]; simp, fun h => ?_⟩
        have := h5 (hmem _ h (by simp))
        rw [hq] at this; cases this
      | joining p =>
        rw [hpc] at hphase
        simp only
        obtain ⟨h1, h2, h3, h4, h5⟩ := hphase
        refine ⟨h1, h2, h3, by rw [← h4, hq]; simp, fun h => ?_⟩
        have := h5 (hmem _ h (by simp))
        rw [hq] at this; cases this
      | crashed => rw [hpc] at hphase; exact hphase.elim
  | exit _ l r hw hq hs =>
    refine ⟨?_, ?_, ?_⟩
    · rw [← hsize, hw]; simp
    · rw [hw, running_append] at hperm
      show (s.finished ++ running (l ++ .done :: r)).Perm s.started
      rw [running_append]; exact hperm
    · unfold Phase at hphase ⊢
      cases hpc : s.pc with
      | idle p =>
        rw [hpc] at hphase
        rcases hphase with ⟨ts, h1, h2, _⟩ | ⟨h1, h2, _⟩
        · rw [hs] at h2; cases h2
        · have := h2 .ready (by rw [hw]; simp)
          cases this
      | notify p =>
        rw [hpc] at hphase
        obtain ⟨ts, h1, h2, _⟩ := hphase
        rw [hs] at h2; cases h2
      | stopping p =>
        rw [hpc] at hphase
        simp only
        obtain ⟨h1, h2, h3, h4, h5⟩ := hphase
        exact ⟨h1, h2, h3, h4, fun _ => hq⟩
      | joining p =>
        rw [hpc] at hphase
        simp only
        obtain ⟨h1, h2, h3, h4, h5⟩ := hphase
        exact ⟨h1, h2, h3, h4, fun _ => hq⟩
      | crashed => rw [hpc] at hphase; exact hphase.elim
  | sleep _ l r hw hq hs =>
    refine ⟨?_, ?_, ?_⟩
    · rw [← hsize, hw]; simp
    · rw [hw, running_append] at hperm
      show (s.finished ++ running (l ++ .waiting :: r)).Perm s.started
      rw [running_append]; exact hperm
    · have hmem : Worker.done ∈ l ++ Worker.waiting :: r → Worker.done ∈ s.workers := by
        intro h; rw [hw]; simpa using h
      unfold Phase at hphase ⊢
      cases hpc : s.pc with
      | idle p =>
        rw [hpc] at hphase
        simp only
        rcases hphase with ⟨ts, h1, h2, h3, h4, h5⟩ | ⟨h1, h2, _⟩
        · exact Or.inl ⟨ts, h1, h2, h3, fun h => h4 (hmem h), h5⟩
        · have := h2 .ready (by rw [hw]; simp)
          cases this
      | notify p =>
        rw [hpc] at hphase
        simp only
        obtain ⟨ts, h1, h2, h3, h4, h5⟩ := hphase
        exact ⟨ts, h1, h2, h3, fun h => h4 (hmem h), h5⟩
      | stopping p =>
        rw [hpc] at hphase
        obtain ⟨h1, h2, _⟩ := hphase
        rw [hs] at h2; cases h2
      | joining p =>
        rw [hpc] at hphase
        obtain ⟨h1, h2, _⟩ := hphase
        rw [hs] at h2; cases h2
      | crashed => rw [hpc] at hphase; exact hphase.elim
  | finish _ t l r hw =>
    refine ⟨?_, ?_, ?_⟩
    · rw [← hsize, hw]; simp
    · rw [hw, running_append] at hperm
      show ((s.finished ++ [t]) ++ running (l ++ .ready :: r)).Perm s.started
      rw [running_append]
      simp only [running] at hperm ⊢
      refine List.Perm.trans ?_ hperm
      simp only [List.append_assoc]
      refine List.Perm.append_left _ ?_
      simp only [List.singleton_append]
      exact (List.perm_middle).symm
    · have hmem : Worker.done ∈ l ++ Worker.ready :: r → Worker.done ∈ s.workers := by
        intro h; rw [hw]; simpa using h
      unfold Phase at hphase ⊢
      cases hpc : s.pc with
      | idle p =>
        rw [hpc] at hphase
        simp only
        rcases hphase with ⟨ts, h1, h2, h3, h4, h5⟩ | ⟨h1, h2, _⟩
        · exact Or.inl ⟨ts, h1, h2, h3, fun h => h4 (hmem h), h5⟩
        · have := h2 (.running t) (by rw [hw]; simp)
          cases this
      | notify p =>
        rw [hpc] at hphase
        simp only
        obtain ⟨ts, h1, h2, h3, h4, h5⟩ := hphase
        exact ⟨ts, h1, h2, h3, fun h => h4 (hmem h), h5⟩
      | stopping p =>
        rw [hpc] at hphase
        simp only
        obtain ⟨h1, h2, h3, h4, h5⟩ := hphase
        exact ⟨h1, h2, h3, h4, fun h => h5 (hmem h)⟩
      | joining p =>
        rw [hpc] at hphase
        simp only
        obtain ⟨h1, h2, h3, h4, h5⟩ := hphase
        exact ⟨h1, h2, h3, h4, fun h => h5 (hmem h)⟩
      | crashed => rw [hpc] at hphase; exact hphase.elim
  | spurious _ l r hw =>
    refine ⟨?_, ?_, ?_⟩
    · rw [← hsize, hw]; simp
    · rw [hw, running_append] at hperm
      show (s.finished ++ running (l ++ .ready :: r)).Perm s.started
      rw [running_append]; exact hperm
    · have hmem : Worker.done ∈ l ++ Worker.ready :: r → Worker.done ∈ s.workers := by
        intro h; rw [hw]; simpa using h
      unfold Phase at hphase ⊢
      cases hpc : s.pc with
      | idle p =>
        rw [hpc] at hphase
        simp only
        rcases hphase with ⟨ts, h1, h2, h3, h4, h5⟩ | ⟨h1, h2, _⟩
        · exact Or.inl ⟨ts, h1, h2, h3, fun h => h4 (hmem h), h5⟩
        · have := h2 .waiting (by rw [hw]; simp)
          cases this
      | notify p =>
        rw [hpc] at hphase
        simp only
        obtain ⟨ts, h1, h2, h3, h4, h5⟩ := hphase
        exact ⟨ts, h1, h2, h3, fun h => h4 (hmem h), h5⟩
      | stopping p =>
        rw [hpc] at hphase
        simp only
        obtain ⟨h1, h2, h3, h4, h5⟩ := hphase
        exact ⟨h1, h2, h3, h4, fun h => h5 (hmem h)⟩
      | joining p =>
        rw [hpc] at hphase
        simp only
        obtain ⟨h1, h2, h3, h4, h5⟩ := hphase
        exact ⟨h1, h2, h3, h4, fun h => h5 (hmem h)⟩
      | crashed => rw [hpc] at hphase; exact hphase.elim

theorem inv_exec {nt : Nat} {tasks : List T} {n k : Nat} {s s' : St T} (h : Inv nt tasks s)
    (he : Exec s n k s') : Inv nt tasks s' := by
  induction he with
  | refl => exact h
  | step _ hs ih => exact inv_step ih hs
  | spur _ hs ih => exact inv_step ih hs

/-! ### Progress, for every client program -/

/-- While joining, the stop flag is set and no worker sleeps. -/
def Awake (s : St T) : Prop :=
  match s.pc with
  | .stopping _ => s.stop = true
  | .joining _ => s.stop = true ∧ Worker.waiting ∉ s.workers
  | _ => True

theorem waiting_wake (l : List (Worker T)) : Worker.waiting ∉ l.map wake := by
  rw [List.mem_map]
  rintro ⟨w, _, h⟩
  cases w <;> simp [wake] at h

theorem awake_step {b : Bool} {s s' : St T} (h : Awake s) (hst : Step b s s') : Awake s' := by
  cases hst with
  | enqueue => trivial
  | enqueueStopped => trivial
  | notifyOne => trivial
  | notifyNone => trivial
  | setStop => exact rfl
  | notifyAll _ prog hpc =>
    unfold Awake at h ⊢
    rw [hpc] at h
    exact ⟨h, waiting_wake _⟩
  | join => trivial
  | joinTwice => trivial
  | take _ t q l r hw hq =>
    unfold Awake at h ⊢
    rw [hw] at h
    cases hpc : s.pc <;> simp only [hpc] at h ⊢
    · exact h
    · exact ⟨h.1, by simpa using h.2⟩
  | exit _ l r hw hq hs =>
    unfold Awake at h ⊢
    rw [hw] at h
    cases hpc : s.pc <;> simp only [hpc] at h ⊢
    · exact h
    · exact ⟨h.1, by simpa using h.2⟩
  | sleep _ l r hw hq hs =>
    unfold Awake at h ⊢
    rw [hw] at h
    cases hpc : s.pc <;> simp only [hpc] at h ⊢
    · exact h
    · rw [hs] at h; cases h.1
  | finish _ t l r hw =>
    unfold Awake at h ⊢
    rw [hw] at h
    cases hpc : s.pc <;> simp only [hpc] at h ⊢
    · exact h
    · exact ⟨h.1, by simpa using h.2⟩
  | spurious _ l r hw =>
    unfold Awake at h ⊢
    rw [hw] at h
    cases hpc : s.pc <;> simp only [hpc] at h ⊢
    · exact h
    · exact absurd (by simp) h.2

theorem awake_exec {n k : Nat} {s s' : St T} (h : Awake s) (he : Exec s n k s') : Awake s' := by
  induction he with
  | refl => exact h
  | step _ hs ih => exact awake_step ih hs
  | spur _ hs ih => exact awake_step ih hs

theorem progress {s : St T} (h : Awake s) (hfin : s.pc ≠ .idle []) (hcr : s.pc ≠ .crashed) :
    ∃ s', Step false s s' := by
  cases hpc : s.pc with
  | crashed => exact absurd hpc hcr
  | idle p =>
    cases p with
    | nil => exact absurd hpc hfin
    | cons op p =>
      cases op with
      | enq t =>
        cases hs : s.stop with
        | false => exact ⟨_, .enqueue s t p hpc hs⟩
        | true => exact ⟨_, .enqueueStopped s t p hpc hs⟩
      | wait => exact ⟨_, .setStop s p hpc⟩
  | notify p =>
    by_cases hw : Worker.waiting ∈ s.workers
    · obtain ⟨l, r, hlr⟩ := List.append_of_mem hw
      exact ⟨_, .notifyOne s p l r hpc hlr⟩
    · exact ⟨_, .notifyNone s p hpc hw⟩
  | stopping p => exact ⟨_, .notifyAll s p hpc⟩
  | joining p =>
    unfold Awake at h
    rw [hpc] at h
    by_cases hd : ∀ w ∈ s.workers, w = .done
    · cases hj : s.joined with
      | false => exact ⟨_, .join s p hpc hd (Or.inl hj)⟩
      | true =>
        by_cases hw : s.workers = []
        · exact ⟨_, .join s p hpc hd (Or.inr hw)⟩
        · exact ⟨_, .joinTwice s p hpc hw hj⟩
    · simp only [not_forall] at hd
      obtain ⟨w, hw, hne⟩ := hd
      obtain ⟨l, r, hlr⟩ := List.append_of_mem hw
      cases w with
      | done => exact absurd rfl hne
      | waiting => exact absurd hw h.2
      | running t => exact ⟨_, .finish s t l r hlr⟩
      | ready =>
        cases hq : s.queue with
        | nil => exact ⟨_, .exit s l r hlr hq h.1⟩
        | cons t q => exact ⟨_, .take s t q l r hlr hq⟩

/-! ### Termination -/

def wcost : Worker T → Nat
  | .ready => 1
  | .waiting => 0
  | .running _ => 2
  | .done => 0

def ocost (nt : Nat) : Op T → Nat
  | .enq _ => 5
  | .wait => nt + 4

def pcost (nt : Nat) (prog : List (Op T)) : Nat := (prog.map (ocost nt)).sum

def pccost (nt : Nat) : Pc T → Nat
  | .idle p => pcost nt p
  | .notify p => 2 + pcost nt p
  | .stopping p => nt + 3 + pcost nt p
  | .joining p => 1 + pcost nt p
  | .crashed => 0

def cost (nt : Nat) (s : St T) : Nat :=
  pccost nt s.pc + (s.workers.map wcost).sum + 2 * s.queue.length

theorem wake_cost (l : List (Worker T)) : ((l.map wake).map wcost).sum ≤ (l.map wcost).sum + l.length := by
  induction l with
  | nil => simp
  | cons w l ih =>
    simp only [List.map_cons, List.sum_cons, List.length_cons]
    have : wcost (wake w) ≤ wcost w + 1 := by cases w <;> simp [wake, wcost]
    omega

theorem size_step {b : Bool} {s s' : St T} (hst : Step b s s') : s'.workers.length = s.workers.length := by
  cases hst <;> simp_all

theorem cost_step {nt : Nat} {s s' : St T} (hn : s.workers.length = nt) (hst : Step false s s') :
    cost nt s' < cost nt s := by
  cases hst with
  | enqueue _ t prog hpc hs =>
    simp only [cost, hpc, pccost, pcost, List.map_cons, List.sum_cons, ocost, List.length_append,
      List.length_singleton]
    omega
  | enqueueStopped _ t prog hpc hs =>
    simp only [cost, hpc, pccost, pcost, List.map_cons, List.sum_cons, ocost]
    omega
  | notifyOne _ prog l r hpc hw =>
    simp only [cost, hpc, pccost, hw, List.map_append, List.map_cons, List.sum_append, List.sum_cons, wcost]
    omega
  | notifyNone _ prog hpc hw =>
    simp only [cost, hpc, pccost]
    omega
  | setStop _ prog hpc =>
    simp only [cost, hpc, pccost, pcost, List.map_cons, List.sum_cons, ocost]
    omega
  | notifyAll _ prog hpc =>
    have := wake_cost s.workers
    simp only [cost, hpc, pccost]
    omega
  | join _ prog hpc hw hj =>
    simp only [cost, hpc, pccost]
    omega
  | joinTwice _ prog hpc hw hj =>
    simp only [cost, hpc, pccost]
    omega
  | take _ t q l r hw hq =>
    simp only [cost, hw, hq, List.map_append, List.map_cons, List.sum_append, List.sum_cons, wcost,
      List.length_cons]
    omega
  | exit _ l r hw hq hs =>
    simp only [cost, hw, List.map_append, List.map_cons, List.sum_append, List.sum_cons, wcost]
    omega
  | sleep _ l r hw hq hs =>
    simp only [cost, hw, List.map_append, List.map_cons, List.sum_append, List.sum_cons, wcost]
    omega
  | finish _ t l r hw =>
    simp only [cost, hw, List.map_append, List.map_cons, List.sum_append, List.sum_cons, wcost]
    omega

theorem cost_spur {nt : Nat} {s s' : St T} (hst : Step true s s') : cost nt s' = cost nt s + 1 := by
  cases hst with
  | spurious _ l r hw =>
    simp only [cost, hw, List.map_append, List.map_cons, List.sum_append, List.sum_cons, wcost]
    omega

theorem size_exec {n k : Nat} {s s' : St T} (he : Exec s n k s') : s'.workers.length = s.workers.length := by
  induction he with
  | refl => rfl
  | step _ hs ih => rw [size_step hs, ih]
  | spur _ hs ih => rw [size_step hs, ih]

theorem cost_exec {nt : Nat} {n k : Nat} {s s' : St T} (hn : s.workers.length = nt) (he : Exec s n k s') :
    n + cost nt s' ≤ cost nt s + k := by
  induction he with
  | refl => omega
  | step he hs ih =>
    have := ih
    have h2 := cost_step (by rw [size_exec he, hn]) hs
    omega
  | spur he hs ih =>
    have := ih
    have h2 := cost_spur (nt := nt) hs
    omega

/-! ### After the workers have returned -/

theorem done_step {b : Bool} {s s' : St T} (h : ∀ w ∈ s.workers, w = .done) (hst : Step b s s') :
    s'.workers = s.workers ∧ s'.started = s.started ∧ s'.finished = s.finished := by
  have key : ∀ (w : Worker T) (l r : List (Worker T)), s.workers = l ++ w :: r → w = .done :=
    fun w l r hw => h w (by rw [hw]; simp)
  cases hst with
  | enqueue => exact ⟨rfl, rfl, rfl⟩
  | enqueueStopped => exact ⟨rfl, rfl, rfl⟩
  | notifyOne _ prog l r hpc hw => cases key _ l r hw
  | notifyNone => exact ⟨rfl, rfl, rfl⟩
  | setStop => exact ⟨rfl, rfl, rfl⟩
  | notifyAll =>
    refine ⟨?_, rfl, rfl⟩
    show s.workers.map wake = s.workers
    conv_rhs => rw [← List.map_id s.workers]
    apply List.map_congr_left
    intro w hw
    rw [h w hw]; rfl
  | join => exact ⟨rfl, rfl, rfl⟩
  | joinTwice => exact ⟨rfl, rfl, rfl⟩
  | take _ t q l r hw hq => cases key _ l r hw
  | exit _ l r hw => cases key _ l r hw
  | sleep _ l r hw => cases key _ l r hw
  | finish _ t l r hw => cases key _ l r hw
  | spurious _ l r hw => cases key _ l r hw

theorem done_exec {n k : Nat} {s s' : St T} (h : ∀ w ∈ s.workers, w = .done) (he : Exec s n k s') :
    s'.workers = s.workers ∧ s'.started = s.started ∧ s'.finished = s.finished := by
  induction he with
  | refl => exact ⟨rfl, rfl, rfl⟩
  | step _ hs ih =>
    have h2 := done_step (by rw [ih.1]; exact h) hs
    exact ⟨h2.1.trans ih.1, h2.2.1.trans ih.2.1, h2.2.2.trans ih.2.2⟩
  | spur _ hs ih =>
    have h2 := done_step (by rw [ih.1]; exact h) hs
    exact ⟨h2.1.trans ih.1, h2.2.1.trans ih.2.1, h2.2.2.trans ih.2.2⟩

theorem exec_trans {s s' s'' : St T} {n k n' k' : Nat} (h : Exec s n k s') (h' : Exec s' n' k' s'') :
    Exec s (n + n') (k + k') s'' := by
  induction h' with
  | refl => exact h
  | step _ hs ih => exact .step ih hs
  | spur _ hs ih => exact .spur ih hs

/-- From every state without sleepers at the join the client can be driven to its end. -/
theorem finish_from {nt : Nat} : ∀ (m : Nat) (s : St T), s.workers.length = nt → Awake s → cost nt s ≤ m →
    ∃ n s', Exec s n 0 s' ∧ (s'.pc = .idle [] ∨ s'.pc = .crashed) := by
  intro m
  induction m with
  | zero =>
    intro s hn ha hm
    by_cases h1 : s.pc = .idle []
    · exact ⟨0, s, .refl s, Or.inl h1⟩
    by_cases h2 : s.pc = .crashed
    · exact ⟨0, s, .refl s, Or.inr h2⟩
    obtain ⟨s', hs⟩ := progress ha h1 h2
    have := cost_step hn hs
    omega
  | succ m ih =>
    intro s hn ha hm
    by_cases h1 : s.pc = .idle []
    · exact ⟨0, s, .refl s, Or.inl h1⟩
    by_cases h2 : s.pc = .crashed
    · exact ⟨0, s, .refl s, Or.inr h2⟩
    obtain ⟨s', hs⟩ := progress ha h1 h2
    have := cost_step hn hs
    obtain ⟨n, s'', he, hf⟩ := ih s' (by rw [size_step hs, hn]) (awake_step ha hs) (by omega)
    exact ⟨_, s'', exec_trans (.step (.refl s) hs) he, hf⟩

end AmpGen.Pool
