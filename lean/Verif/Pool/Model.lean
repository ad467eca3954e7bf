import Mathlib.Data.List.Basic
/-
Model of src/ThreadPool.cpp and AmpGen/ThreadPool.h as a transition system.  The
sections protected by the mutex are atomic steps; everything else interleaves freely.
The client is one thread executing a program of `enqueue` and `waitForStoppedThreads`
calls (the destructor, src/ThreadPool.cpp:27-30, is such a call).  Tasks terminate; an
exception thrown by a task is stored in its future and counts as termination.
-/
namespace AmpGen.Pool

/-- State of a worker thread, src/ThreadPool.cpp:12-24. -/
inductive Worker (T : Type) where
  /-- about to take the mutex and test the condition (lines 16-17) -/
  | ready
  /-- blocked in `m_condition.wait` with the mutex released (line 17) -/
  | waiting
  /-- executing a task (line 22) -/
  | running (t : T)
  /-- returned (line 18) -/
  | done

/-- Operations of the client. -/
inductive Op (T : Type) where
  /-- `enqueue( f )`, AmpGen/ThreadPool.h:66-82 with the pool enabled -/
  | enq (t : T)
  /-- `waitForStoppedThreads()`, src/ThreadPool.cpp:32-41 -/
  | wait

/-- Control state of the client. -/
inductive Pc (T : Type) where
  /-- between calls, with the remaining program -/
  | idle (prog : List (Op T))
  /-- task queued, `notify_one` pending (AmpGen/ThreadPool.h:79) -/
  | notify (prog : List (Op T))
  /-- `m_stop` set, `notify_all` pending (src/ThreadPool.cpp:38) -/
  | stopping (prog : List (Op T))
  /-- joining the workers (src/ThreadPool.cpp:39) -/
  | joining (prog : List (Op T))
  /-- an exception was thrown: by `enqueue` on a stopped pool or by joining twice -/
  | crashed

/-- State of the system.  `started` and `finished` are ghost logs of the tasks taken from
the queue and completed; `joined` records that the worker threads are no longer joinable. -/
structure St (T : Type) where
  pc : Pc T
  workers : List (Worker T)
  queue : List T
  stop : Bool
  joined : Bool
  started : List T
  finished : List T

/-- `notify_all` on one worker. -/
def wake {T : Type} : Worker T → Worker T
  | .waiting => .ready
  | w => w

/-- One step of any thread; the flag marks spurious wake-ups of a condition variable. -/
inductive Step {T : Type} : Bool → St T → St T → Prop
  /-- AmpGen/ThreadPool.h:74-78 -/
  | enqueue (s : St T) (t : T) (prog : List (Op T)) (hpc : s.pc = .idle (.enq t :: prog))
      (hs : s.stop = false) :
      Step false s { s with pc := .notify prog, queue := s.queue ++ [t] }
  /-- AmpGen/ThreadPool.h:76 -/
  | enqueueStopped (s : St T) (t : T) (prog : List (Op T)) (hpc : s.pc = .idle (.enq t :: prog))
      (hs : s.stop = true) :
      Step false s { s with pc := .crashed }
  /-- AmpGen/ThreadPool.h:79, some worker is waiting -/
  | notifyOne (s : St T) (prog : List (Op T)) (l r : List (Worker T)) (hpc : s.pc = .notify prog)
      (hw : s.workers = l ++ .waiting :: r) :
      Step false s { s with pc := .idle prog, workers := l ++ .ready :: r }
  /-- AmpGen/ThreadPool.h:79, no worker is waiting -/
  | notifyNone (s : St T) (prog : List (Op T)) (hpc : s.pc = .notify prog)
      (hw : Worker.waiting ∉ s.workers) :
      Step false s { s with pc := .idle prog }
  /-- src/ThreadPool.cpp:34-37 -/
  | setStop (s : St T) (prog : List (Op T)) (hpc : s.pc = .idle (.wait :: prog)) :
      Step false s { s with pc := .stopping prog, stop := true }
  /-- src/ThreadPool.cpp:38 -/
  | notifyAll (s : St T) (prog : List (Op T)) (hpc : s.pc = .stopping prog) :
      Step false s { s with pc := .joining prog, workers := s.workers.map wake }
  /-- src/ThreadPool.cpp:39-40 -/
  | join (s : St T) (prog : List (Op T)) (hpc : s.pc = .joining prog)
      (hw : ∀ w ∈ s.workers, w = .done) (hj : s.joined = false ∨ s.workers = []) :
      Step false s { s with pc := .idle prog, stop := false, joined := true }
  /-- src/ThreadPool.cpp:39: joining a thread that has been joined throws -/
  | joinTwice (s : St T) (prog : List (Op T)) (hpc : s.pc = .joining prog)
      (hw : s.workers ≠ []) (hj : s.joined = true) :
      Step false s { s with pc := .crashed }
  /-- src/ThreadPool.cpp:16-21 -/
  | take (s : St T) (t : T) (q : List T) (l r : List (Worker T)) (hw : s.workers = l ++ .ready :: r)
      (hq : s.queue = t :: q) :
      Step false s { s with workers := l ++ .running t :: r, queue := q, started := s.started ++ [t] }
  /-- src/ThreadPool.cpp:18 -/
  | exit (s : St T) (l r : List (Worker T)) (hw : s.workers = l ++ .ready :: r) (hq : s.queue = [])
      (hs : s.stop = true) :
      Step false s { s with workers := l ++ .done :: r }
  /-- src/ThreadPool.cpp:17 -/
  | sleep (s : St T) (l r : List (Worker T)) (hw : s.workers = l ++ .ready :: r) (hq : s.queue = [])
      (hs : s.stop = false) :
      Step false s { s with workers := l ++ .waiting :: r }
  /-- src/ThreadPool.cpp:22-23 -/
  | finish (s : St T) (t : T) (l r : List (Worker T)) (hw : s.workers = l ++ .running t :: r) :
      Step false s { s with workers := l ++ .ready :: r, finished := s.finished ++ [t] }
  /-- a condition variable may wake up without notification -/
  | spurious (s : St T) (l r : List (Worker T)) (hw : s.workers = l ++ .waiting :: r) :
      Step true s { s with workers := l ++ .ready :: r }

/-- A pool of `nt` workers, src/ThreadPool.cpp:9-11, and a client about to execute `prog`. -/
def init {T : Type} (nt : Nat) (prog : List (Op T)) : St T :=
  ⟨.idle prog, List.replicate nt .ready, [], false, false, [], []⟩

/-- Executions: number of ordinary steps and of spurious wake-ups. -/
inductive Exec {T : Type} : St T → Nat → Nat → St T → Prop
  | refl (s) : Exec s 0 0 s
  | step {s n k s' s''} : Exec s n k s' → Step false s' s'' → Exec s (n + 1) k s''
  | spur {s n k s' s''} : Exec s n k s' → Step true s' s'' → Exec s n (k + 1) s''

/-- The state of the future returned by `enqueue`. -/
inductive Future (A : Type) where
  /-- the packaged task ran: `get` returns its value -/
  | ready (a : A)
  /-- the packaged task was destroyed without running: `get` throws `broken_promise` -/
  | broken

/-- `enqueue` with `ThreadPool::Enable = false`, AmpGen/ThreadPool.h:69-71: `f` is called
directly, not through the packaged task whose future is returned.  Result: the effects of
the call and the future after the packaged task goes out of scope. -/
def enqueueDisabled {A σ : Type} (f : σ → A × σ) (world : σ) : σ × Future A :=
  ((f world).2, .broken)

/-- The same through the packaged task, as a worker would run it. -/
def runPackaged {A σ : Type} (f : σ → A × σ) (world : σ) : σ × Future A :=
  ((f world).2, .ready (f world).1)

end AmpGen.Pool
