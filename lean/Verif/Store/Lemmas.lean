import Verif.Store.Spec
import Mathlib.Data.List.Basic
import Mathlib.Tactic.Ring
import Mathlib.Tactic.Positivity
import Mathlib.Tactic.NormNum
/-
Lemmas about the layout of the function cache.
-/
namespace AmpGen.Store

variable {V : Type}

theorem alignedSize_eq {W n : Nat} (hW : W ∣ 2 ^ 32) (hn : n + W ≤ 2 ^ 32) :
    alignedSize W n = W * ((n + (W - 1)) / W) := by
  have hW0 : 0 < W := Nat.pos_of_dvd_of_pos hW (by positivity)
  unfold alignedSize
  rcases Nat.eq_zero_or_pos n with rfl | hpos
  · obtain ⟨k, hk⟩ := hW
    have h64 : 2 ^ 64 = W * (k * 2 ^ 32) := by
      rw [← Nat.mul_assoc, ← hk]; norm_num
    have hkp : 0 < k * 2 ^ 32 := by
      rcases Nat.eq_zero_or_pos (k * 2 ^ 32) with h | h
      · rw [h] at h64; norm_num at h64
      · exact h
    have h2 : (2 ^ 64 - 1) / W = k * 2 ^ 32 - 1 := by
      have : 2 ^ 64 - 1 = (W - 1) + W * (k * 2 ^ 32 - 1) := by
        have : W * (k * 2 ^ 32 - 1) = W * (k * 2 ^ 32) - W := by
          rw [Nat.mul_sub, Nat.mul_one]
        rw [this, ← h64]
        have : W ≤ 2 ^ 64 := by omega
        omega
      rw [this, Nat.add_mul_div_left _ _ hW0, Nat.div_eq_of_lt (by omega)]
      omega
    rw [if_pos rfl, h2]
    have h3 : 1 + (k * 2 ^ 32 - 1) = k * 2 ^ 32 := by omega
    rw [h3]
    have h4 : (0 + (W - 1)) / W = 0 := Nat.div_eq_of_lt (by omega)
    rw [h4]
    have h5 : k * 2 ^ 32 % 2 ^ 64 % 2 ^ 32 = 0 := by
      have : (2 : Nat) ^ 32 ∣ 2 ^ 64 := by norm_num
      rw [Nat.mod_mod_of_dvd _ this]
      exact Nat.mul_mod_left _ _
    rw [h5]; simp
  · rw [if_neg (by omega)]
    have h2 : 1 + (n - 1) / W = (n + (W - 1)) / W := by
      have : n + (W - 1) = (n - 1) + W := by omega
      rw [this, Nat.add_div_right _ hW0]; omega
    rw [h2]
    have h3 : W * ((n + (W - 1)) / W) ≤ n + (W - 1) := Nat.mul_div_le _ _
    have h4 : (n + (W - 1)) / W ≤ n + (W - 1) := Nat.div_le_self _ _
    rw [Nat.mod_eq_of_lt (a := (n + (W - 1)) / W) (by omega),
      Nat.mod_eq_of_lt (a := (n + (W - 1)) / W) (by omega), Nat.mod_eq_of_lt (by omega)]

theorem cell_lt (a : Alignment) {nB nF b f : Nat} (hb : b < nB) (hf : f < nF) :
    cell a nB nF b f < nB * nF := by
  cases a
  · show f * nB + b < nB * nF
    calc f * nB + b < f * nB + nB := by omega
      _ = (f + 1) * nB := by ring
      _ ≤ nF * nB := Nat.mul_le_mul_right _ hf
      _ = nB * nF := Nat.mul_comm _ _
  · show b * nF + f < nB * nF
    calc b * nF + f < b * nF + nF := by omega
      _ = (b + 1) * nF := by ring
      _ ≤ nB * nF := Nat.mul_le_mul_right _ hb

theorem row_inj {m p q r s : Nat} (hq : q < m) (hs : s < m) (h : p * m + q = r * m + s) :
    p = r ∧ q = s := by
  have hm : 0 < m := by omega
  have h1 : (p * m + q) / m = (r * m + s) / m := by rw [h]
  have h2 : (p * m + q) % m = (r * m + s) % m := by rw [h]
  rw [Nat.mul_comm p, Nat.mul_comm r, Nat.mul_add_div hm, Nat.mul_add_div hm,
    Nat.div_eq_of_lt hq, Nat.div_eq_of_lt hs] at h1
  rw [Nat.mul_comm p, Nat.mul_comm r, Nat.mul_add_mod, Nat.mul_add_mod,
    Nat.mod_eq_of_lt hq, Nat.mod_eq_of_lt hs] at h2
  exact ⟨by omega, h2⟩

theorem cell_inj (a : Alignment) {nB nF b f b' f' : Nat} (hb : b < nB) (hf : f < nF)
    (hb' : b' < nB) (hf' : f' < nF) (h : cell a nB nF b f = cell a nB nF b' f') :
    b = b' ∧ f = f' := by
  cases a
  · exact (row_inj hb hb' h).symm
  · exact row_inj hf hf' h

/-- The store has the shape that `resize` gives it. -/
def Shape (s : Store V) (nB nF : Nat) (idx : List (String × List Nat)) : Prop :=
  s.nBlocks = nB ∧ s.nFields = nF ∧ s.index = idx ∧ s.store.length = nB * nF

theorem Shape.write {s : Store V} {nB nF idx} (h : Shape s nB nF idx) (a b f v) :
    Shape (s.write a b f v) nB nF idx := by
  obtain ⟨h1, h2, h3, h4⟩ := h
  exact ⟨h1, h2, h3, by simpa [Store.write] using h4⟩

theorem Shape.read_some {s : Store V} {nB nF idx} (h : Shape s nB nF idx) (a : Alignment) {b f : Nat}
    (hb : b < nB) (hf : f < nF) : ∃ v, s.read a b f = some v := by
  obtain ⟨h1, h2, h3, h4⟩ := h
  unfold Store.read
  rw [h1, h2]
  have := cell_lt a hb hf
  exact ⟨_, List.getElem?_eq_getElem (by omega)⟩

theorem read_write {s : Store V} {nB nF idx} (h : Shape s nB nF idx) (a : Alignment)
    {b f b' f' : Nat} (hb : b < nB) (hf : f < nF) (hb' : b' < nB) (hf' : f' < nF) (v : V) :
    (s.write a b f v).read a b' f' = if b' = b ∧ f' = f then some v else s.read a b' f' := by
  obtain ⟨h1, h2, h3, h4⟩ := h
  have hc := cell_lt a hb hf
  unfold Store.read Store.write
  simp only [h1, h2]
  rw [List.getElem?_set]
  by_cases he : cell a nB nF b f = cell a nB nF b' f'
  · obtain ⟨rfl, rfl⟩ := cell_inj a hb hf hb' hf' he
    simp [h4, hc]
  · rw [if_neg he, if_neg]
    rintro ⟨rfl, rfl⟩
    exact he rfl

theorem Shape.storeItems {nB nF idx} (a : Alignment) (b : Nat) (fs : List Nat) :
    ∀ {s : Store V} (vs : List V), Shape s nB nF idx → Shape (s.storeItems a b fs vs) nB nF idx := by
  induction fs with
  | nil => intro s vs h; simpa [Store.storeItems] using h
  | cons f fs ih =>
    intro s vs h
    cases vs with
    | nil => simpa [Store.storeItems] using h
    | cons v vs => simp only [Store.storeItems]; exact ih vs (h.write a b f v)

theorem read_storeItems {nB nF idx} (a : Alignment) {b b' f' : Nat} (hb : b < nB) (hb' : b' < nB)
    (hf' : f' < nF) (fs : List Nat) : ∀ {s : Store V} (vs : List V), Shape s nB nF idx →
    (∀ f ∈ fs, f < nF) → fs.Nodup → vs.length = fs.length →
    (∀ c : Nat, b' = b → fs[c]? = some f' → (s.storeItems a b fs vs).read a b' f' = vs[c]?) ∧
    ((b' ≠ b ∨ f' ∉ fs) → (s.storeItems a b fs vs).read a b' f' = s.read a b' f') := by
  induction fs with
  | nil => intro s vs _ _ _ _; simp [Store.storeItems]
  | cons f fs ih =>
    intro s vs h hfs hnd hlen
    cases vs with
    | nil => simp at hlen
    | cons v vs =>
      simp only [Store.storeItems]
      have hnd' := List.nodup_cons.mp hnd
      have hf : f < nF := hfs f (by simp)
      obtain ⟨i1, i2⟩ := ih (s := s.write a b f v) vs (h.write a b f v)
        (fun g hg => hfs g (by simp [hg])) hnd'.2 (by simpa using hlen)
      constructor
      · intro c hbb hc
        cases c with
        | zero =>
          simp only [List.getElem?_cons_zero, Option.some.injEq] at hc
          subst hc
          rw [i2 (Or.inr hnd'.1), read_write h a hb hf hb' hf' v, if_pos ⟨hbb, rfl⟩]
          simp
        | succ c =>
          rw [i1 c hbb (by simpa using hc)]
          simp
      · intro hne
        have : ¬ (b' = b ∧ f' = f) := by
          rintro ⟨rfl, rfl⟩
          rcases hne with h | h
          · exact h rfl
          · exact h (by simp)
        rw [i2 (hne.imp id (fun h hm => h (by simp [hm]))), read_write h a hb hf hb' hf' v,
          if_neg this]

theorem fold_storeItems {nB nF idx} (a : Alignment) (fs : List Nat) (fcn : Nat → List V)
    (hfs : ∀ f ∈ fs, f < nF) (hnd : fs.Nodup) (order : List Nat) : ∀ {s : Store V},
    Shape s nB nF idx → order.Nodup → (∀ b ∈ order, b < nB ∧ (fcn b).length = fs.length) →
    Shape (order.foldl (fun s evt => s.storeItems a evt fs (fcn evt)) s) nB nF idx ∧
    ∀ b' f', b' < nB → f' < nF →
      (∀ c : Nat, b' ∈ order → fs[c]? = some f' →
        (order.foldl (fun s evt => s.storeItems a evt fs (fcn evt)) s).read a b' f' = (fcn b')[c]?) ∧
      ((b' ∉ order ∨ f' ∉ fs) →
        (order.foldl (fun s evt => s.storeItems a evt fs (fcn evt)) s).read a b' f' =
          s.read a b' f') := by
  induction order with
  | nil => intro s h _ _; simpa using h
  | cons b order ih =>
    intro s h hnd' hor
    have hn := List.nodup_cons.mp hnd'
    have hb := hor b (by simp)
    have hs := Shape.storeItems a b fs (fcn b) h
    obtain ⟨hs2, hr⟩ := ih hs hn.2 (fun b hb => hor b (by simp [hb]))
    refine ⟨hs2, ?_⟩
    intro b' f' hb' hf'
    obtain ⟨r1, r2⟩ := hr b' f' hb' hf'
    obtain ⟨q1, q2⟩ := read_storeItems a hb.1 hb' hf' fs (s := s) (fcn b) h hfs hnd hb.2
    simp only [List.foldl_cons]
    constructor
    · intro c hm hc
      rcases List.mem_cons.mp hm with rfl | hm
      · rw [r2 (Or.inl hn.1), q1 c rfl hc]
      · exact r1 c hm hc
    · intro hne
      rw [r2 (hne.imp (fun h hm => h (by simp [hm])) id), q2]
      rcases hne with h | h
      · left; rintro rfl; exact h (by simp)
      · exact Or.inr h

/-! ### Registration -/

/-- The index describes consecutive, disjoint ranges of fields. -/
inductive Indexed : List (String × List Nat) → Nat → Prop
  | nil : Indexed [] 0
  | snoc {idx n name k} : Indexed idx n → idx.lookup name = none →
      Indexed (idx ++ [(name, (List.range k).map (fun i => n + i))]) (n + k)

theorem Indexed.addFunctor {s : Store V} (h : Indexed s.index s.nFields) (f : String × Nat) :
    Indexed (s.addFunctor f).index (s.addFunctor f).nFields := by
  unfold Store.addFunctor
  split
  · exact h
  · rename_i hf; exact .snoc h hf

theorem Indexed.addFunctors (fs : List (String × Nat)) : ∀ {s : Store V}, Indexed s.index s.nFields →
    Indexed (fs.foldl Store.addFunctor s).index (fs.foldl Store.addFunctor s).nFields := by
  induction fs with
  | nil => intro s h; exact h
  | cons f fs ih => intro s h; exact ih (h.addFunctor f)

theorem lookup_snoc_some {β} {idx : List (String × β)} {name n' : String} {l l' : β}
    (h : (idx ++ [(n', l')]).lookup name = some l) :
    idx.lookup name = some l ∨ (idx.lookup name = none ∧ name = n' ∧ l = l') := by
  rw [List.lookup_append] at h
  cases hc : idx.lookup name with
  | some e => rw [hc] at h; left; simpa using h
  | none =>
    rw [hc] at h
    right
    simp only [List.lookup, Option.none_or] at h
    split at h
    · rename_i heq
      exact ⟨rfl, by simpa using heq, by simpa using h.symm⟩
    · cases h

theorem Indexed.range {idx n} (h : Indexed idx n) : ∀ {name l}, idx.lookup name = some l →
    (∀ f ∈ l, f < n) ∧ l.Nodup := by
  induction h with
  | nil => intro name l h; simp at h
  | @snoc idx n nm k h0 hn ih =>
    intro name l hl
    rcases lookup_snoc_some hl with h | ⟨-, -, rfl⟩
    · exact ⟨fun f hf => by have := (ih h).1 f hf; omega, (ih h).2⟩
    · constructor
      · intro f hf
        simp only [List.mem_map, List.mem_range] at hf
        obtain ⟨i, hi, rfl⟩ := hf
        omega
      · exact List.Nodup.map (fun a b hab => by simpa using hab) List.nodup_range

theorem Indexed.disjoint {idx n} (h : Indexed idx n) : ∀ {name name' l l' f},
    idx.lookup name = some l → idx.lookup name' = some l' → f ∈ l → f ∈ l' → name = name' := by
  induction h with
  | nil => intro name _ l _ _ h; simp at h
  | @snoc idx n nm k h0 hn ih =>
    intro name name' l l' f hl hl' hf hf'
    rcases lookup_snoc_some hl with h | ⟨-, rfl, rfl⟩ <;>
      rcases lookup_snoc_some hl' with h' | ⟨-, rfl, rfl⟩
    · exact ih h h' hf hf'
    · have := (h0.range h).1 f hf
      simp only [List.mem_map, List.mem_range] at hf'
      obtain ⟨i, hi, rfl⟩ := hf'
      omega
    · have := (h0.range h').1 f hf'
      simp only [List.mem_map, List.mem_range] at hf
      obtain ⟨i, hi, rfl⟩ := hf
      omega
    · rfl

theorem addFunctor_keeps {s : Store V} {name l} (h : s.index.lookup name = some l)
    (f : String × Nat) : (s.addFunctor f).index.lookup name = some l := by
  unfold Store.addFunctor
  split
  · exact h
  · rw [List.lookup_append, h]; rfl

theorem addFunctors_keeps {name l} (fs : List (String × Nat)) : ∀ {s : Store V},
    s.index.lookup name = some l → (fs.foldl Store.addFunctor s).index.lookup name = some l := by
  induction fs with
  | nil => intro s h; exact h
  | cons f fs ih => intro s h; exact ih (addFunctor_keeps h f)

theorem addFunctors_lookup {name : String} {k : Nat} (fs : List (String × Nat)) : ∀ {s : Store V},
    s.index.lookup name = none → sizeOf fs name = some k →
    ∃ l, (fs.foldl Store.addFunctor s).index.lookup name = some l ∧ l.length = k := by
  induction fs with
  | nil => intro s _ h; simp [sizeOf] at h
  | cons f fs ih =>
    intro s hn hk
    obtain ⟨g, m⟩ := f
    by_cases hg : name = g
    · subst hg
      have hm : m = k := by simpa [sizeOf, List.lookup] using hk
      subst hm
      refine ⟨(List.range m).map (fun i => s.nFields + i), ?_, by simp⟩
      refine addFunctors_keeps fs (s := s.addFunctor (name, m)) ?_
      unfold Store.addFunctor
      simp only [hn]
      rw [List.lookup_append, hn]
      simp [List.lookup]
    · have hk' : sizeOf fs name = some k := by
        have : (name == g) = false := by simpa using hg
        simpa [sizeOf, List.lookup, this] using hk
      refine ih ?_ hk'
      unfold Store.addFunctor
      split
      · exact hn
      · rw [List.lookup_append, hn]
        have : (name == g) = false := by simpa using hg
        simp [List.lookup, this]

theorem Shape.allocate [Inhabited V] (W n : Nat) (fs : List (String × Nat)) :
    ∃ nF idx, Shape ((Store.empty : Store V).allocate W n fs) (alignedSize W n / W) nF idx ∧
      Indexed idx nF ∧ idx = (fs.foldl Store.addFunctor (Store.empty : Store V)).index := by
  refine ⟨_, _, ⟨rfl, rfl, rfl, ?_⟩, ?_, rfl⟩
  · simp only [Store.allocate, Store.resize, vecResize, List.length_append, List.length_take,
      List.length_replicate]
    omega
  · exact Indexed.addFunctors fs .nil

theorem foldl_addFunctor_store (fs : List (String × Nat)) : ∀ s : Store V,
    (fs.foldl Store.addFunctor s).store = s.store := by
  induction fs with
  | nil => intro s; rfl
  | cons f fs ih =>
    intro s
    simp only [List.foldl_cons]
    rw [ih]
    unfold Store.addFunctor
    split <;> rfl

end AmpGen.Store
