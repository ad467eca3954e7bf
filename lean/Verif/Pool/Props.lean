import Verif.Pool.Lemmas
/-
C08: tasks given to a thread pool.  The statements quantify over every number of workers,
every list of tasks and every interleaving, including spurious wake-ups.
-/
namespace AmpGen.Pool

variable {T : Type}

/-- The documented use: queue the tasks in order, then wait (or destroy the pool). -/
def useOf (tasks : List T) : List (Op T) := tasks.map Op.enq ++ [Op.wait]

/-- C08: in every reachable state nothing has crashed, tasks have been started in the order
in which they were queued and, as a multiset, the finished ones are among the started
ones: no task is started twice, run twice or lost. -/
theorem pool_tasks_fifo_once (nt : Nat) (tasks : List T) (n k : Nat) (s : St T)
    (h : Exec (init nt (useOf tasks)) n k s) :
    s.pc ≠ .crashed ∧ (s.started ++ s.queue) <+: tasks ∧ (s.finished).Subperm s.started := by
  have hinv := inv_exec (inv_init nt tasks) h
  refine ⟨?_, ?_, (List.sublist_append_left _ _).subperm.trans hinv.perm.subperm⟩
  · intro hc
    have := hinv.phase
    unfold Phase at this
    rw [hc] at this
    exact this
  · have := hinv.phase
    unfold Phase at this
    cases hpc : s.pc with
    | idle p =>
      rw [hpc] at this
      rcases this with ⟨ts, _, _, _, _, h5⟩ | ⟨_, _, _, h5, _⟩
      · exact ⟨ts, h5⟩
      · exact ⟨[], by rw [← h5]; simp⟩
    | notify p =>
      rw [hpc] at this
      obtain ⟨ts, _, _, _, _, h5⟩ := this
      exact ⟨ts, h5⟩
    | stopping p =>
      rw [hpc] at this
      exact ⟨[], by rw [← this.2.2.2.1]; simp⟩
    | joining p =>
      rw [hpc] at this
      exact ⟨[], by rw [← this.2.2.2.1]; simp⟩
    | crashed => rw [hpc] at this; exact this.elim

/-- C08: when the wait returns (the client has nothing left to do) and the pool has a
worker, every task has been executed exactly once and every worker has returned. -/
theorem pool_wait_completes (nt : Nat) (hnt : 0 < nt) (tasks : List T) (n k : Nat) (s : St T)
    (h : Exec (init nt (useOf tasks)) n k s) (hret : s.pc = .idle []) :
    s.finished.Perm tasks ∧ s.started = tasks ∧ (∀ w ∈ s.workers, w = .done) := by
  have hinv := inv_exec (inv_init nt tasks) h
  have hph := hinv.phase
  unfold Phase at hph
  rw [hret] at hph
  rcases hph with ⟨ts, h1, _⟩ | ⟨_, h2, _, h4, h5⟩
  · simp at h1
  · have hne : s.workers ≠ [] := by
      intro he
      have := hinv.size
      rw [he] at this
      simp at this; omega
    have hst : s.started = tasks := by rw [← h4, h5 hne]; simp
    have hp := hinv.perm
    rw [running_done h2, List.append_nil] at hp
    exact ⟨hst ▸ hp, hst, h2⟩

/-- C08: no deadlock and no lost wake-up, for any client program: as long as the client has
something left to do, some thread can take a step. -/
theorem pool_no_deadlock (nt : Nat) (prog : List (Op T)) (n k : Nat) (s : St T)
    (h : Exec (init nt prog) n k s) (hfin : s.pc ≠ .idle []) (hcr : s.pc ≠ .crashed) :
    ∃ s', Step false s s' :=
  progress (awake_exec (by trivial) h) hfin hcr

/-- C08: no livelock: the number of steps of any execution is bounded by the size of the
client program, the number of workers and the number of spurious wake-ups. -/
theorem pool_steps_bounded (nt : Nat) (prog : List (Op T)) (n k : Nat) (s : St T)
    (h : Exec (init nt prog) n k s) :
    n ≤ (nt + 5) * prog.length + nt + k := by
  have h1 := cost_exec (nt := nt) (by simp [init]) h
  have h2 : cost nt (init nt prog) = pcost nt prog + nt := by
    simp [cost, init, pccost, wcost]
  have h3 : pcost nt prog ≤ (nt + 5) * prog.length := by
    unfold pcost
    induction prog with
    | nil => simp
    | cons op prog ih =>
      simp only [List.map_cons, List.sum_cons, List.length_cons]
      have : ocost nt op ≤ nt + 5 := by cases op <;> simp [ocost]
      have ih' : (prog.map (ocost nt)).sum ≤ (nt + 5) * prog.length := by
        clear h h1 h2 ih
        induction prog with
        | nil => simp
        | cons op prog ih =>
          simp only [List.map_cons, List.sum_cons, List.length_cons]
          have : ocost nt op ≤ nt + 5 := by cases op <;> simp [ocost]
          rw [Nat.mul_succ]; omega
      rw [Nat.mul_succ]; omega
  omega

/-- C08: from every reachable state the client can run to its end, with every task executed
exactly once. -/
theorem pool_can_finish (nt : Nat) (hnt : 0 < nt) (tasks : List T) (n k : Nat) (s : St T)
    (h : Exec (init nt (useOf tasks)) n k s) :
    ∃ n' s', Exec s n' 0 s' ∧ s'.pc = .idle [] ∧ s'.finished.Perm tasks := by
  have hsz : s.workers.length = nt := (inv_exec (inv_init nt tasks) h).size
  obtain ⟨n', s', he, hf⟩ := finish_from (cost nt s) s hsz (awake_exec (by trivial) h) (Nat.le_refl _)
  have hall := exec_trans h he
  have hcr := (pool_tasks_fifo_once nt tasks _ _ s' hall).1
  have hret := hf.resolve_right hcr
  exact ⟨n', s', he, hret, (pool_wait_completes nt hnt tasks _ _ s' hall hret).1⟩

/-- The theorems apply: an execution of two tasks on one worker. -/
example : ∃ n k s, Exec (init 1 (useOf [1, 2])) n k s ∧ s.pc = .idle [] ∧ s.finished.Perm [1, 2] := by
  obtain ⟨n, s, he, hr, hp⟩ := pool_can_finish 1 (by decide) [1, 2] 0 0 _ (.refl _)
  exact ⟨n, 0, s, he, hr, hp⟩

/-- Without the worker the claim fails: a pool of size zero accepts tasks and returns from the
wait having executed none. -/
theorem pool_no_workers_counterexample :
    ∃ n k, ∃ s : St Nat, Exec (init 0 (useOf [7])) n k s ∧ s.pc = .idle [] ∧ s.finished = [] := by
  refine ⟨5, 0, ?_⟩
  have h1 := Exec.step (.refl (init 0 (useOf [7]))) (.enqueue _ 7 [.wait] rfl rfl)
  have h2 := Exec.step h1 (.notifyNone _ [.wait] rfl (by simp [init]))
  have h3 := Exec.step h2 (.setStop _ [] rfl)
  have h4 := Exec.step h3 (.notifyAll _ [] rfl)
  have h5 := Exec.step h4 (.join _ [] rfl (by simp [init]) (Or.inl rfl))
  exact ⟨_, h5, rfl, rfl⟩

/-- After a wait the pool is dead but `m_stop` is false again, so further tasks are accepted
and never executed: in every execution, whatever the client program. -/
theorem pool_after_wait_runs_nothing (s : St T) (hdone : ∀ w ∈ s.workers, w = .done) (n k : Nat) (s' : St T)
    (h : Exec s n k s') : s'.finished = s.finished ∧ s'.started = s.started :=
  ⟨(done_exec hdone h).2.2, (done_exec hdone h).2.1⟩

/-- Reusing a pool: a client that waits, queues a task and reaches its end has lost the task.
The pool has one worker; the state reached is final and the task is still in the queue. -/
theorem pool_reuse_counterexample :
    ∃ n k, ∃ s : St Nat, Exec (init 1 [.wait, .enq 7]) n k s ∧ s.pc = .idle [] ∧ s.finished = [] ∧
      s.queue = [7] ∧ ∀ n' k' s', Exec s n' k' s' → s'.finished = [] := by
  have h1 := Exec.step (.refl (init 1 [.wait, .enq 7])) (.setStop _ [.enq 7] rfl)
  have h2 := Exec.step h1 (.notifyAll _ [.enq 7] rfl)
  have h3 := Exec.step h2 (.exit _ [] [] rfl rfl rfl)
  have h4 := Exec.step h3 (.join _ [.enq 7] rfl (by simp) (Or.inl rfl))
  have h5 := Exec.step h4 (.enqueue _ 7 [] rfl rfl)
  have h6 := Exec.step h5 (.notifyNone _ [] rfl (by simp))
  refine ⟨_, _, _, h6, rfl, rfl, rfl, ?_⟩
  intro n' k' s' h
  exact (pool_after_wait_runs_nothing _ (by simp) _ _ _ h).1

/-- Waiting explicitly before the destructor waits again: the second join throws. -/
theorem pool_double_wait_counterexample :
    ∃ n k, ∃ s : St Nat, Exec (init 1 [.wait, .wait]) n k s ∧ s.pc = .crashed := by
  have h1 := Exec.step (.refl (init (T := Nat) 1 [.wait, .wait])) (.setStop _ [.wait] rfl)
  have h2 := Exec.step h1 (.notifyAll _ [.wait] rfl)
  have h3 := Exec.step h2 (.exit _ [] [] rfl rfl rfl)
  have h4 := Exec.step h3 (.join _ [.wait] rfl (by simp) (Or.inl rfl))
  have h5 := Exec.step h4 (.setStop _ [] rfl)
  have h6 := Exec.step h5 (.notifyAll _ [] rfl)
  have h7 := Exec.step h6 (.joinTwice _ [] rfl (by simp) rfl)
  exact ⟨_, _, _, h7, rfl⟩

/-- With the pool disabled the call has its effects, but the returned future is broken whereas a
worker would have fulfilled it. -/
theorem pool_disabled_future_counterexample {A σ : Type} (f : σ → A × σ) (world : σ) :
    (enqueueDisabled f world).1 = (runPackaged f world).1 ∧
    (enqueueDisabled f world).2 = .broken ∧ (runPackaged f world).2 = .ready (f world).1 := ⟨rfl, rfl, rfl⟩

end AmpGen.Pool
