import Verif.PDG.Lemmas
import Mathlib.Algebra.CharZero.Defs
import Mathlib.Tactic.FieldSimp
namespace AmpGen.PDG
open AmpGen.Strings Spec

variable {K : Type} [Field K]

/-! ### Histories of the database -/

/-- The databases that reading files and the options can lead to. -/
inductive Reachable (lib : Library K) (junk : Char × Char) : DB K → Prop
  | read (theList : List (Props K)) : Reachable lib junk (makeMappings theList)
  | alias_ {db : DB K} (name other : Str) : Reachable lib junk db → Reachable lib junk (db.makeAlias name other)
  | add {db db' : DB K} (tokens : List Str) : Reachable lib junk db → db.addParticle lib junk tokens = some db' → Reachable lib junk db'

/-- Names refer to objects that exist, and different names to different objects. -/
structure Sound (db : DB K) : Prop where
  bound : ∀ n i, db.byName n = some i → i < db.heap.length
  inj : ∀ n m i, db.byName n = some i → db.byName m = some i → n = m

theorem byName_makeMappings (l : List (Props K)) (n : Str) (i : Nat) (h : (makeMappings l).byName n = some i) : ∃ p, l[i]? = some p ∧ p.name = n := by
  unfold makeMappings at h
  rw [mappings_byName] at h
  simp only [Option.or_none, Option.map_eq_some_iff] at h
  obtain ⟨x, hx, rfl⟩ := h
  refine ⟨x.1, ?_, by simpa using List.find?_some hx⟩
  have hm := List.mem_of_find?_eq_some hx
  rw [List.mem_reverse, List.mem_zipIdx_iff_getElem?] at hm
  simpa using hm

theorem sound_makeMappings (l : List (Props K)) : Sound (makeMappings l) := by
  have hh : (makeMappings l).heap = l := by unfold makeMappings; rw [mappings_heap]
  constructor
  · intro n i h
    obtain ⟨p, hp, _⟩ := byName_makeMappings l n i h
    rw [hh]
    exact (List.getElem?_eq_some_iff.1 hp).1
  · intro n m i h h'
    obtain ⟨p, hp, rfl⟩ := byName_makeMappings l n i h
    obtain ⟨q, hq, rfl⟩ := byName_makeMappings l m i h'
    rw [hp] at hq
    cases hq
    rfl

theorem sound_new {db : DB K} (hs : Sound db) (n : Str) (p : Props K) :
    Sound { db with heap := db.heap ++ [p], byName := Function.update db.byName n (some db.heap.length) } := by
  constructor
  · intro m i h
    simp only [Function.update_apply] at h
    simp only [List.length_append, List.length_singleton]
    split at h
    · cases h; omega
    · have := hs.bound m i h; omega
  · intro m k i h h'
    simp only [Function.update_apply] at h h'
    split at h <;> split at h'
    · simp_all
    · cases h
      have := hs.bound k _ h'
      omega
    · cases h'
      have := hs.bound m _ h
      omega
    · exact hs.inj m k i h h'

theorem sound_set {db : DB K} (hs : Sound db) (n : Str) (i : Nat) (hi : db.byName n = some i) (p : Props K) :
    Sound { db with heap := db.heap.set i p, byName := Function.update db.byName n (some i) } := by
  have e : Function.update db.byName n (some i) = db.byName := by
    rw [← hi]; exact Function.update_eq_self n db.byName
  rw [e]
  constructor
  · intro m k h
    simp only [List.length_set]
    exact hs.bound m k h
  · exact hs.inj

theorem setProperty_total (lib : Library K) (p : Props K) (key value : Str) : ∃ q, p.setProperty lib key value = some q := by
  unfold Props.setProperty
  obtain ⟨c, hc, _⟩ := ofString_total value
  rw [hc]
  split
  · exact ⟨_, rfl⟩
  split
  · exact ⟨_, rfl⟩
  split
  · exact ⟨_, rfl⟩
  split
  · exact ⟨_, rfl⟩
  split
  · exact ⟨_, rfl⟩
  split
  · exact ⟨_, rfl⟩
  split
  · exact ⟨_, rfl⟩
  exact ⟨_, rfl⟩

theorem sound_addParticle {lib : Library K} {junk : Char × Char} {db db' : DB K} (hs : Sound db) (tokens : List Str) (h : db.addParticle lib junk tokens = some db') : Sound db' := by
  unfold DB.addParticle at h
  cases ht : tokens[1]? with
  | none => rw [ht] at h; cases h
  | some name =>
    rw [ht] at h
    simp only [Option.bind_eq_bind, Option.bind_some] at h
    cases hi : db.byName name with
    | some i =>
      rw [hi] at h
      simp only [Option.bind_eq_some_iff] at h
      obtain ⟨p, -, q, -, h⟩ := h
      cases h
      exact sound_set hs name i hi q
    | none =>
      rw [hi] at h
      simp only [Option.bind_eq_some_iff] at h
      obtain ⟨p, -, q, -, h⟩ := h
      cases h
      exact sound_new hs name q

theorem sound_makeAlias {db : DB K} (hs : Sound db) (name other : Str) : Sound (db.makeAlias name other) := by
  unfold DB.makeAlias
  split
  · exact hs
  · exact sound_new hs other _

theorem reachable_sound {lib : Library K} {junk : Char × Char} {db : DB K} (h : Reachable lib junk db) : Sound db := by
  induction h with
  | read l => exact sound_makeMappings l
  | alias_ name other _ ih => exact sound_makeAlias ih name other
  | add tokens _ h ih => exact sound_addParticle ih tokens h

theorem find_new_same {db : DB K} (n : Str) (p : Props K) :
    DB.find { db with heap := db.heap ++ [p], byName := Function.update db.byName n (some db.heap.length) } n = some p := by
  unfold DB.find
  simp

theorem find_new_other {db : DB K} (hs : Sound db) (n m : Str) (hm : m ≠ n) (p : Props K) :
    DB.find { db with heap := db.heap ++ [p], byName := Function.update db.byName n (some db.heap.length) } m = db.find m := by
  unfold DB.find
  simp only [Function.update_apply, if_neg hm]
  cases h : db.byName m with
  | none => rfl
  | some i =>
    simp only [Option.bind_some]
    rw [List.getElem?_append_left (hs.bound m i h)]

theorem find_set_same {db : DB K} (hs : Sound db) (n : Str) (i : Nat) (hi : db.byName n = some i) (p : Props K) :
    DB.find { db with heap := db.heap.set i p, byName := Function.update db.byName n (some i) } n = some p := by
  unfold DB.find
  simp [hs.bound n i hi]

theorem find_set_other {db : DB K} (hs : Sound db) (n m : Str) (hm : m ≠ n) (i : Nat) (hi : db.byName n = some i) (p : Props K) :
    DB.find { db with heap := db.heap.set i p, byName := Function.update db.byName n (some i) } m = db.find m := by
  unfold DB.find
  simp only [Function.update_apply, if_neg hm]
  cases h : db.byName m with
  | none => rfl
  | some j =>
    simp only [Option.bind_some]
    have : i ≠ j := by
      intro e
      subst e
      exact hm (hs.inj m n i h hi)
    rw [List.getElem?_set_ne this]

theorem setProperties_total (lib : Library K) : ∀ (pairs : List (Str × Str)) (p : Props K), ∃ q, setProperties lib (words pairs) p = some q
  | [], p => ⟨p, rfl⟩
  | (k, v) :: rest, p => by
    obtain ⟨q, hq⟩ := setProperty_total lib p k v
    obtain ⟨r, hr⟩ := setProperties_total lib rest q
    refine ⟨r, ?_⟩
    show setProperties lib (k :: v :: words rest) p = some r
    unfold setProperties
    rw [hq]
    exact hr

/-- A property that one key sets and no other key changes has the last value of the key. -/
theorem setProperties_field {α : Type} (lib : Library K) (key : Str) (get : Props K → α) (conv : Str → α)
    (hkey : ∀ p q v, Props.setProperty lib p key v = some q → get q = conv v)
    (hother : ∀ p q k v, k ≠ key → Props.setProperty lib p k v = some q → get q = get p) :
    ∀ (pairs : List (Str × Str)) (p q : Props K), setProperties lib (words pairs) p = some q → get q = ((lastValue key pairs).map conv).getD (get p)
  | [], p, q, h => by cases h; rfl
  | (k, v) :: rest, p, q, h => by
    change setProperties lib (k :: v :: words rest) p = some q at h
    unfold setProperties at h
    rw [Option.bind_eq_some_iff] at h
    obtain ⟨r, hr, h⟩ := h
    rw [setProperties_field lib key get conv hkey hother rest r q h]
    unfold lastValue
    rw [List.reverse_cons, List.find?_append]
    cases hl : List.find? (fun kv : Str × Str => decide (kv.1 = key)) rest.reverse with
    | some x => rfl
    | none =>
      by_cases hk : k = key
      · subst hk
        simp [hkey p r v hr]
      · simp [hk, hother p r k v hk hr]

theorem setProperties_unchanged {α : Type} (lib : Library K) (get : Props K → α) (hother : ∀ p q k v, Props.setProperty lib p k v = some q → get q = get p) :
    ∀ (pairs : List (Str × Str)) (p q : Props K), setProperties lib (words pairs) p = some q → get q = get p
  | [], p, q, h => by cases h; rfl
  | (k, v) :: rest, p, q, h => by
    change setProperties lib (k :: v :: words rest) p = some q at h
    unfold setProperties at h
    rw [Option.bind_eq_some_iff] at h
    obtain ⟨r, hr, h⟩ := h
    rw [setProperties_unchanged lib get hother rest r q h, hother p r k v hr]

end AmpGen.PDG
