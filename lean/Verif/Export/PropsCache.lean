import Verif.Export.LemmasCache
/-
C143: reuse of compiled libraries.
-/
namespace AmpGen.Export

variable {Code : Type}

/-- C143.  Whatever has happened before, interrupted and failed compilations included, the code a
compiled expression calls is its own or that of an expression compiled earlier whose name has the
same symbol and the same hash. -/
theorem linked_code_origin (os : List (Op Code)) (w w' : World Code) (f : Fn Code) (fname tmp : List Char)
    (force ok : Bool) (l : Linked Code) (hrun : run World.empty os = some w)
    (h : compile w f fname tmp force ok = some (w', l)) :
    ∃ g ∈ f :: compiled os, programaticName g.name = programaticName f.name ∧
      fnv1a g.name = fnv1a f.name ∧ l.code = g.code := by
  have h1 : FromSet (f :: compiled os) w :=
    run_from os World.empty w (empty_from _) (fun g hg => List.mem_cons_of_mem _ hg) hrun
  exact (compile_from h1 f (List.mem_cons_self ..) fname tmp force ok (w', l) h).2

/-- C143.  A library is made from the current expression if the program has not loaded one from the
same path, the rebuild is forced or there is no such file, and the compiler succeeds. -/
theorem library_rebuilt (w : World Code) (f : Fn Code) (fname tmp : List Char) (force : Bool)
    (hl : w.loaded (path f fname tmp) = none) (hf : force = true ∨ w.files (path f fname tmp) = none) :
    ∃ w', compile w f fname tmp force true = some (w', ⟨f.code, f.batch⟩) := by
  unfold compile
  simp only
  rw [if_neg (by rintro ⟨a, b⟩; rcases hf with hf | hf; · rw [hf] at a; exact nomatch a
                 · exact b hf)]
  unfold link dlopen
  simp [hl, Fn.lib]

example (f : Fn Code) : (World.empty : World Code).loaded (path f [] "tmp".toList) = none ∧
    (World.empty : World Code).files (path f [] "tmp".toList) = none := ⟨rfl, rfl⟩

example (f : Fn Code) : ∃ w', compile World.empty f [] "tmp".toList false true = some (w', ⟨f.code, f.batch⟩) :=
  library_rebuilt _ f _ _ _ rfl (Or.inr rfl)

/-- C143.  Over every history of compilations, restarts and removals, in which no compilation fails
or is interrupted, the meaning of a name does not change and no two names have the same hash, every
expression gets its own code, batch function included, wherever the library comes from.

Missing: failed and interrupted compilations, changed definitions and equal hashes. -/
theorem cached_library_partial (os : List (Op Code)) (f : Fn Code) (fname tmp : List Char) (force : Bool)
    (hU : Undisturbed os)
    (hdef : ∀ g ∈ f :: compiled os, ∀ k ∈ f :: compiled os, g.name = k.name → g = k)
    (hhash : ∀ g ∈ f :: compiled os, ∀ k ∈ f :: compiled os, fnv1a g.name = fnv1a k.name → g.name = k.name) :
    ∃ w, run World.empty os = some w ∧ ∃ w', compile w f fname tmp force true = some (w', ⟨f.code, f.batch⟩) := by
  obtain ⟨w, e, h1, h2⟩ := run_good (S := f :: compiled os) os World.empty (empty_from _) (fun p => nofun)
    (fun g hg => List.mem_cons_of_mem _ hg) hdef hhash hU
  obtain ⟨w', e', -⟩ := compile_good h1 h2 f (List.mem_cons_self ..) hdef hhash fname tmp force
  exact ⟨w, e, w', e'⟩

/-- The first and the second definition of an amplitude, and another amplitude. -/
def oldFn : Fn Nat := ⟨"A".toList, 1, true, false⟩
def newFn : Fn Nat := ⟨"A".toList, 2, true, false⟩
def otherFn : Fn Nat := ⟨"B".toList, 3, false, true⟩

example : let os : List (Op Nat) := [.compile oldFn "lib".toList [] false true, .restart,
      .compile otherFn [] "tmp".toList true true, .remove ("lib".toList, 7)]
    Undisturbed os ∧ (∀ g ∈ oldFn :: compiled os, ∀ k ∈ oldFn :: compiled os, g.name = k.name → g = k) ∧
    (∀ g ∈ oldFn :: compiled os, ∀ k ∈ oldFn :: compiled os, fnv1a g.name = fnv1a k.name → g.name = k.name) := by
  refine ⟨⟨rfl, rfl, trivial⟩, ?_, ?_⟩
  · intro g hg k hk h
    simp only [compiled, List.mem_cons, List.not_mem_nil, or_false] at hg hk
    rcases hg with rfl | rfl | rfl <;> rcases hk with rfl | rfl | rfl <;> first | rfl | (exact absurd h (by decide))
  · intro g hg k hk h
    simp only [compiled, List.mem_cons, List.not_mem_nil, or_false] at hg hk
    rcases hg with rfl | rfl | rfl <;> rcases hk with rfl | rfl | rfl <;> first | rfl | (exact absurd h (by decide))

/-- C143.  After the definition of an amplitude has changed, a later program still uses the library of
the old definition. -/
theorem stale_library_counterexample :
    ((run World.empty [.compile oldFn "lib".toList [] false true, .restart]).bind fun w =>
      (compile w newFn "lib".toList [] false true).map fun r => r.2.code) = some oldFn.code ∧
    oldFn.code ≠ newFn.code := ⟨by decide, by decide⟩

/-- C143.  Forcing a rebuild does not help a program that has loaded the old library. -/
theorem forced_rebuild_counterexample :
    ((run World.empty [.compile oldFn "lib".toList [] false true]).bind fun w =>
      (compile w newFn "lib".toList [] true true).map fun r => r.2.code) = some oldFn.code := by decide

/-- C143.  A failure of the compiler goes unnoticed: with a rebuild forced, the old library is linked. -/
theorem failed_compiler_counterexample :
    ((run World.empty [.compile oldFn "lib".toList [] false true, .restart]).bind fun w =>
      (compile w newFn "lib".toList [] true false).map fun r => r.2.code) = some oldFn.code := by decide

/-- C143.  A temporary name that was free when it was chosen can lead to a library of an earlier
program: the name is that of another file than the library. -/
theorem temporary_name_counterexample :
    ((run World.empty [.compile oldFn [] "/tmp/libAmpGen-a.cpp".toList false true, .restart]).bind fun w =>
      (compile w newFn [] "/tmp/libAmpGen-a.cpp".toList false true).map fun r => r.2.code) = some oldFn.code := by
  decide

/-- C143.  If the program ends while the compiler writes the library, every later program that
compiles the expression without a forced rebuild stops with an error
until the file is removed or its rebuild is forced. -/
theorem interrupted_compilation_counterexample (w : World Code) (f : Fn Code) (fname tmp tmp' : List Char)
    (ok : Bool) (hf : fname ≠ []) (n : Nat) :
    ∃ w', run w (.crash f fname tmp :: List.replicate n .restart) = some w' ∧
      compile w' f fname tmp' false ok = none := by
  have hp : path f fname tmp' = path f fname tmp := by simp [path, hf]
  have key : ∀ n (w : World Code), w.files (path f fname tmp) = some none → w.loaded = (fun _ => none) →
      ∃ w', run w (List.replicate n .restart) = some w' ∧ w'.files (path f fname tmp) = some none ∧
        w'.loaded = fun _ => none := by
    intro n
    induction n with
    | zero => intro w h1 h2; exact ⟨w, rfl, h1, h2⟩
    | succ n ih => intro w h1 h2; exact ih { w with loaded := fun _ => none } h1 rfl
  obtain ⟨w', e, h1, h2⟩ := key n
    { files := fun q => if q = path f fname tmp then some none else w.files q, loaded := fun _ => none } (by simp) rfl
  refine ⟨w', e, ?_⟩
  unfold compile
  simp only
  rw [hp, if_pos (by rw [h1]; simp)]
  unfold link dlopen
  rw [h2, h1]

/-- Two decay chains whose names have the same hash. -/
def chainA : Fn Nat := ⟨"D0[P]{K(0)*(1430)bar0[BL]{K-,pi+},rho(770)0[LASS]{pi+,pi-}}".toList, 1, false, false⟩
def chainB : Fn Nat := ⟨"D0{K*(892)bar0[LASS]{K-,pi+},PiPi2[MIPWA]{pi+,pi-}}".toList, 2, false, false⟩

/-- C143.  Two names can have the same hash; with the same file name the second expression stops the
program. -/
theorem hash_collision_counterexample :
    chainA.name ≠ chainB.name ∧ fnv1a chainA.name = fnv1a chainB.name ∧
    ((run World.empty [.compile chainA "lib".toList [] false true]).bind fun w =>
      compile w chainB "lib".toList [] false true).isNone = true := by
  refine ⟨by decide, by decide +kernel, by decide +kernel⟩

end AmpGen.Export
