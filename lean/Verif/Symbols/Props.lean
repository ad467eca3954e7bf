import Verif.Symbols.Lemmas
import Mathlib.Tactic.Linarith
import Mathlib.Tactic.Ring
import Mathlib.Tactic.NormNum
import Mathlib.Algebra.Order.Ring.Rat
import Mathlib.Algebra.Order.Field.Basic
/-
The symbols of an expression stand for what their names say (C163).
-/
namespace AmpGen.Symbols
open External Spec

/-- Every node of an expression reads what it stands for: variables of the event, current values of fit parameters, default values, functions and knots of splines, whatever other nodes
there are and in whatever order they are visited. -/
theorem symbols_partial (env : Env) (hc : env.constants = false) (event : List ℚ) (v : Values) (nodes : List (Nat × Node)) (hcon : Consistent env event v nodes) (x : Ext ℚ) (ptr : Nat)
    (node : Node) (hn : (ptr, node) ∈ nodes) (i : Nat) (hi : i < width node) :
    read (resolveAll env nodes) event (externals (resolveAll env nodes) v x) ptr i = meaning env event v node i := by
  have hinv := inv_all hc hcon nodes [] .empty inv_empty (by simp)
  rw [List.nil_append] at hinv
  change BindInv env event v nodes (resolveAll env nodes) at hinv
  generalize resolveAll env nodes = R at hinv ⊢
  unfold read
  cases hb : R.bound.lookup ptr with
  | none => exact (hinv.free ptr node hn hb i).symm
  | some t =>
    obtain ⟨node', hn', hr⟩ := hinv.bound ptr t hb
    have := hcon.ptr ptr node' node hn' hn
    subst this
    rcases hr with ⟨name, dflt, k, rfl, hk, rfl⟩ | ⟨name, e, src, hf, rfl, hs, hv, hwant⟩
    · simp only [meaning, hk]
    · simp only
      obtain ⟨ops, hops⟩ := hinv.reg
      obtain ⟨src', hs', hsz, _⟩ := hinv.stored name e hf
      rw [hs] at hs'
      cases hs'
      obtain ⟨hp, _, _⟩ := externals_prepare ops R.reg.entries (by rw [hops]) (resizeExternalCache x R.reg.n)
        (fun name => ((R.sources.lookup name).map (Source.values v)).getD []) (by
          rw [← hops]
          unfold resizeExternalCache
          split
          · simp only [List.length_append, List.length_replicate]
            omega
          · omega) (by
          intro name' e' hf'
          rw [← hops] at hf'
          obtain ⟨s', h1, h2, _⟩ := hinv.stored name' e' hf'
          simp only [h1, Option.map_some, Option.getD_some, values_length, h2])
      by_cases hlt : i < e.size
      · have := hp name e i (by rw [← hops]; exact hf) hlt
        unfold externals
        rw [this]
        simp only [hs, Option.map_some, Option.getD_some]
        exact hv i
      · exfalso
        obtain ⟨src', hw⟩ := Option.isSome_iff_exists.mp hwant
        have heq : src.values v = src'.values v := by
          apply List.ext_getElem?
          intro j
          rw [hv j, (wanted_meaning hw event v j).1]
        have hlen := congrArg List.length heq
        rw [values_length, values_length, (wanted_meaning hw event v 0).2] at hlen
        omega

/-- A fit parameter that is marked as a constant of the compiled code reads as its value at the time of the compilation, to six decimals. -/
theorem symbol_constant (env : Env) (hc : env.constants = true) (R : Res) (ptr : Nat) (hb : R.bound.lookup ptr = none) (name : String) (dflt : ℚ) (he : env.evt name = none)
    (find : String → Option Par) (hm : env.mps = some find) (p : Par) (hp : find name = some p) (ht : p.compileTime = true) (event buffer : List ℚ) :
    ∃ c, read (resolve env R ptr (.parameter name dflt)) event buffer ptr 0 = some c ∧ |c - p.mean| ≤ 1 / 2 / 10 ^ 6 := by
  refine ⟨toString6 p.mean, ?_, ?_⟩
  · have hb' : ¬ ((R.bound.lookup ptr).isSome = true) := by rw [hb]; simp
    unfold resolve
    rw [if_neg hb']
    simp only [he, hm, hp, hc, ht, and_self, if_true]
    unfold read bind
    rw [lookup_cons_ptr, if_pos rfl]
    simp
  · unfold toString6
    have h1 := Int.floor_le (p.mean * 10 ^ 6 + 1 / 2)
    have h2 := Int.lt_floor_add_one (p.mean * 10 ^ 6 + 1 / 2)
    rw [abs_le]
    constructor
    · rw [le_sub_iff_add_le, le_div_iff₀ (by norm_num)]
      linarith
    · rw [sub_le_iff_le_add, div_le_iff₀ (by norm_num)]
      linarith

/-- What goes wrong otherwise: of two parameters with the same name and different default values the second reads the default value of the first; a function reads a parameter that has the
name made up for it; and a small constant of the compiled code is zero. -/
theorem symbols_counterexample :
    (let env : Env := ⟨fun _ => none, none, false⟩
     let v : Values := ⟨fun _ => 0, fun _ => 7, fun _ _ => 0⟩
     let R := resolveAll env [(0, .parameter "a" 1), (1, .parameter "a" 2)]
     let S := resolveAll env [(0, .parameter "lxpr_1" 5), (1, .lambda 3)]
     read R [] (externals R v ⟨[], false⟩) 1 0 = some 1 ∧ meaning env [] v (.parameter "a" 2) 0 = some 2 ∧ read S [] (externals S v ⟨[], false⟩) 1 0 = some 5 ∧
       meaning env [] v (.lambda 3) 0 = some 7) ∧
    (let env : Env := ⟨fun _ => none, some fun n => if n = "m" then some ⟨0, true, 1 / 10 ^ 7⟩ else none, true⟩
     let v : Values := ⟨fun _ => 1 / 10 ^ 7, fun _ => 0, fun _ _ => 0⟩
     let R := resolveAll env [(0, .parameter "m" 0)]
     read R [] (externals R v ⟨[], false⟩) 0 0 = some 0 ∧ meaning env [] v (.parameter "m" 0) 0 = some (1 / 10 ^ 7)) := by
  constructor
  · decide +kernel
  · decide +kernel

/-- Nodes of all kinds, that do not get in each other's way. -/
def demoEnv : Env := ⟨fun n => if n = "px" then some 2 else none, some fun n => if n = "m" then some ⟨4, false, 1⟩ else none, false⟩

def demoNodes : List (Nat × Node) := [(10, .parameter "px" 0), (11, .parameter "m" 3), (12, .link "m"), (13, .spline "sp" 0 2), (14, .lambda 1), (15, .parameter "g" 9), (10, .parameter "px" 0),
  (16, .link "q")]

example : Consistent demoEnv [5, 6, 8] ⟨fun i => i, fun i => 100 + i, fun _ i => 50 + i⟩ demoNodes ∧
    (let R := resolveAll demoEnv demoNodes
     let b := externals R ⟨fun i => i, fun i => 100 + i, fun _ i => 50 + i⟩ ⟨[], false⟩
     read R [5, 6, 8] b 10 0 = some 8 ∧ read R [5, 6, 8] b 12 0 = some 4 ∧ read R [5, 6, 8] b 13 3 = some 53 ∧ read R [5, 6, 8] b 14 0 = some 101 ∧ read R [5, 6, 8] b 15 0 = some 9 ∧
       read R [5, 6, 8] b 16 0 = none) := by
  refine ⟨⟨?_, ?_, ?_⟩, ?_⟩
  · intro p n n' h h'
    simp only [demoNodes, List.mem_cons, Prod.mk.injEq, List.not_mem_nil, or_false] at h h'
    rcases h with ⟨rfl, rfl⟩ | ⟨rfl, rfl⟩ | ⟨rfl, rfl⟩ | ⟨rfl, rfl⟩ | ⟨rfl, rfl⟩ | ⟨rfl, rfl⟩ | ⟨rfl, rfl⟩ | ⟨rfl, rfl⟩ <;> simpa [eq_comm] using h'
  · intro a ha b hb
    simp only [demoNodes, List.mem_cons, List.not_mem_nil, or_false] at ha hb
    rcases ha with rfl | rfl | rfl | rfl | rfl | rfl | rfl | rfl <;> rcases hb with rfl | rfl | rfl | rfl | rfl | rfl | rfl | rfl <;>
      first
      | (intro _ h; simp [nameOf] at h; done)
      | (intro h; simp [nameOf] at h; done)
      | (intros; rfl)
  · intro a ha k h
    have hc : ∀ s : String, s.toList.head? ≠ some 'l' → s ≠ "lxpr_" ++ toString k := by
      intro s hs he
      rw [he] at hs
      simp at hs
    simp only [demoNodes, List.mem_cons, List.not_mem_nil, or_false] at ha
    rcases ha with rfl | rfl | rfl | rfl | rfl | rfl | rfl | rfl <;> simp only [nameOf, Option.some.injEq, reduceCtorEq] at h <;> exact hc _ (by decide) h
  · decide +kernel

end AmpGen.Symbols
