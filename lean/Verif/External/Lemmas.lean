import Verif.External.Spec
import Mathlib.Data.List.Basic
/-
Lemmas about registration and transfer of external parameters.
-/
namespace AmpGen.External

/-- Entries are laid out one after the other. -/
inductive Layout : List (String × Entry) → Nat → Prop
  | nil : Layout [] 0
  | snoc {es n name size} : Layout es n → name ∉ es.map Prod.fst →
      Layout (es ++ [(name, ⟨n, size⟩)]) (n + size)

theorem lookup_none_iff {es : List (String × Entry)} {name : String} :
    es.lookup name = none ↔ name ∉ es.map Prod.fst := by
  rw [List.lookup_eq_none_iff]
  simp only [List.mem_map, not_exists, not_and, bne_iff_ne]
  constructor
  · intro h t ht he; exact h t ht he.symm
  · intro h t ht he; exact h t ht he.symm

theorem lookup_append_none {es fs : List (String × Entry)} {name : String}
    (h : es.lookup name = none) : (es ++ fs).lookup name = fs.lookup name := by
  rw [List.lookup_append, h]; rfl

theorem lookup_append_some {es fs : List (String × Entry)} {name : String} {e : Entry}
    (h : es.lookup name = some e) : (es ++ fs).lookup name = some e := by
  rw [List.lookup_append, h]; rfl

theorem Layout.add {R : Reg} (h : Layout R.entries R.n) (name : String) (size : Nat) :
    Layout (addCacheFunction R name size).1.entries (addCacheFunction R name size).1.n := by
  unfold addCacheFunction
  split
  · exact h
  · rename_i hf
    exact .snoc h (lookup_none_iff.mp hf)

theorem Layout.register {R : Reg} (h : Layout R.entries R.n) (ops : List (String × Nat)) :
    Layout (register R ops).entries (register R ops).n := by
  induction ops generalizing R with
  | nil => exact h
  | cons op ops ih => exact ih (h.add op.1 op.2)

theorem Layout.nodup {es : List (String × Entry)} {n : Nat} (h : Layout es n) :
    (es.map Prod.fst).Nodup := by
  induction h with
  | nil => simp
  | snoc _ hn ih =>
    rw [List.map_append, List.nodup_append]
    refine ⟨ih, by simp, ?_⟩
    intro a ha b hb
    simp only [List.map_cons, List.map_nil, List.mem_singleton] at hb
    subst hb
    rintro rfl
    exact hn ha

theorem Layout.mem_lookup {es : List (String × Entry)} {n : Nat} (h : Layout es n) {name : String}
    {e : Entry} : (name, e) ∈ es ↔ es.lookup name = some e := by
  induction h with
  | nil => simp
  | @snoc es n name' size hl hn ih =>
    rw [List.mem_append, ih]
    constructor
    · rintro (h | h)
      · exact lookup_append_some h
      · simp only [List.mem_singleton, Prod.mk.injEq] at h
        obtain ⟨rfl, rfl⟩ := h
        rw [lookup_append_none (lookup_none_iff.mpr hn)]
        simp [List.lookup]
    · intro h
      rw [List.lookup_append] at h
      cases hc : es.lookup name with
      | some e' => rw [hc] at h; left; exact h
      | none =>
        rw [hc] at h
        right
        simp only [List.lookup, Option.none_or] at h
        split at h
        · rename_i heq
          have : name = name' := by simpa using heq
          simp only [Option.some.injEq] at h
          simp [this, h]
        · cases h

theorem Layout.bound {es : List (String × Entry)} {n : Nat} (h : Layout es n) :
    ∀ t ∈ es, t.2.addr + t.2.size ≤ n := by
  induction h with
  | nil => simp
  | snoc _ _ ih =>
    intro t ht
    rcases List.mem_append.mp ht with h | h
    · have := ih t h; omega
    · simp only [List.mem_singleton] at h; subst h; simp

theorem Layout.disjoint {es : List (String × Entry)} {n : Nat} (h : Layout es n) :
    ∀ t ∈ es, ∀ u ∈ es, ∀ a, t.2.addr ≤ a → a < t.2.addr + t.2.size →
      u.2.addr ≤ a → a < u.2.addr + u.2.size → t = u := by
  induction h with
  | nil => simp
  | snoc hl _ ih =>
    intro t ht u hu a h1 h2 h3 h4
    have hb := hl.bound
    rcases List.mem_append.mp ht with ht | ht <;> rcases List.mem_append.mp hu with hu | hu
    · exact ih t ht u hu a h1 h2 h3 h4
    · simp only [List.mem_singleton] at hu; subst hu
      have := hb t ht; simp only at h3; omega
    · simp only [List.mem_singleton] at ht; subst ht
      have := hb u hu; simp only at h1; omega
    · simp only [List.mem_singleton] at ht hu; rw [ht, hu]

theorem Layout.cover {es : List (String × Entry)} {n : Nat} (h : Layout es n) :
    ∀ a, a < n → ∃ t ∈ es, t.2.addr ≤ a ∧ a < t.2.addr + t.2.size := by
  induction h with
  | nil => intro a ha; omega
  | @snoc es n name size hl _ ih =>
    intro a ha
    by_cases h : a < n
    · obtain ⟨t, ht, hh⟩ := ih a h
      exact ⟨t, by simp [ht], hh⟩
    · exact ⟨(name, ⟨n, size⟩), by simp, by simp; omega⟩

/-! ### Transfers -/

variable {K : Type} [DecidableEq K]

theorem setExternal_length (x : Ext K) (v : K) (a : Nat) :
    (setExternal x v a).buf.length = x.buf.length := by
  unfold setExternal; split <;> simp

theorem setExternal_get (x : Ext K) (v : K) (a b : Nat) (ha : a < x.buf.length) :
    (setExternal x v a).buf[b]? = if b = a then some v else x.buf[b]? := by
  unfold setExternal
  split
  · rename_i h
    split
    · rename_i hb; rw [hb, h]
    · rfl
  · simp only [List.getElem?_set]
    by_cases hb : a = b
    · subst hb; simp [ha]
    · simp [hb, Ne.symm hb]

theorem setExternal_changed (x : Ext K) (v : K) (a : Nat) :
    (setExternal x v a).changed = (x.changed || decide (x.buf[a]? ≠ some v)) := by
  unfold setExternal; split <;> rename_i h <;> simp [h]

theorem transfer_length (vs : List K) : ∀ (x : Ext K) (a : Nat),
    (transfer x a vs).buf.length = x.buf.length := by
  induction vs with
  | nil => intro x a; rfl
  | cons v vs ih => intro x a; simp only [transfer]; rw [ih, setExternal_length]

theorem transfer_get (vs : List K) : ∀ (x : Ext K) (a b : Nat), a + vs.length ≤ x.buf.length →
    (transfer x a vs).buf[b]? = if a ≤ b ∧ b < a + vs.length then vs[b - a]? else x.buf[b]? := by
  induction vs with
  | nil =>
    intro x a b _
    simp only [transfer, List.length_nil, Nat.add_zero]
    rw [if_neg (by omega)]
  | cons v vs ih =>
    intro x a b h
    simp only [List.length_cons] at h ⊢
    simp only [transfer]
    rw [ih _ _ _ (by rw [setExternal_length]; omega), setExternal_get _ _ _ _ (by omega)]
    by_cases hba : b = a
    · subst hba
      rw [if_neg (by omega), if_pos rfl, if_pos (by omega)]
      simp
    · by_cases hr : a + 1 ≤ b ∧ b < a + 1 + vs.length
      · rw [if_pos hr, if_pos (by omega)]
        have : b - a = (b - (a + 1)) + 1 := by omega
        rw [this, List.getElem?_cons_succ]
      · rw [if_neg hr, if_neg hba, if_neg (by omega)]

theorem transfer_changed (vs : List K) : ∀ (x : Ext K) (a : Nat), a + vs.length ≤ x.buf.length →
    ((transfer x a vs).changed = true ↔
      x.changed = true ∨ ∃ i, i < vs.length ∧ x.buf[a + i]? ≠ vs[i]?) := by
  induction vs with
  | nil => intro x a _; simp [transfer]
  | cons v vs ih =>
    intro x a h
    simp only [List.length_cons] at h
    simp only [transfer]
    rw [ih _ _ (by rw [setExternal_length]; omega), setExternal_changed]
    simp only [Bool.or_eq_true, decide_eq_true_eq]
    constructor
    · rintro ((h1 | h1) | ⟨i, hi, h1⟩)
      · exact Or.inl h1
      · exact Or.inr ⟨0, by simp, by simpa using h1⟩
      · refine Or.inr ⟨i + 1, by simpa using hi, ?_⟩
        rw [setExternal_get _ _ _ _ (by omega), if_neg (by omega)] at h1
        rw [List.getElem?_cons_succ, show a + (i + 1) = a + 1 + i by omega]
        exact h1
    · rintro (h1 | ⟨i, hi, h1⟩)
      · exact Or.inl (Or.inl h1)
      · cases i with
        | zero => left; right; simpa using h1
        | succ i =>
          right
          refine ⟨i, by simpa using hi, ?_⟩
          rw [setExternal_get _ _ _ _ (by omega), if_neg (by omega)]
          rw [List.getElem?_cons_succ, show a + (i + 1) = a + 1 + i by omega] at h1
          exact h1

theorem prepare_length (ts : List (String × Entry)) (cur : String → List K) : ∀ x : Ext K,
    (prepare x ts cur).buf.length = x.buf.length := by
  induction ts with
  | nil => intro x; rfl
  | cons t ts ih => intro x; simp only [prepare, List.foldl_cons] at ih ⊢; rw [ih, transfer_length]

/-- Transfers of disjoint ranges. -/
def Disj (ts : List (String × Entry)) : Prop :=
  ts.Pairwise fun t u => ∀ a, ¬ (t.2.addr ≤ a ∧ a < t.2.addr + t.2.size ∧
    u.2.addr ≤ a ∧ a < u.2.addr + u.2.size)

theorem prepare_correct (cur : String → List K) (ts : List (String × Entry)) : ∀ x : Ext K,
    Disj ts → (∀ t ∈ ts, (cur t.1).length = t.2.size ∧ t.2.addr + t.2.size ≤ x.buf.length) →
    (∀ t ∈ ts, ∀ i, i < t.2.size → (prepare x ts cur).buf[t.2.addr + i]? = (cur t.1)[i]?) ∧
    (∀ a, (∀ t ∈ ts, ¬ (t.2.addr ≤ a ∧ a < t.2.addr + t.2.size)) →
      (prepare x ts cur).buf[a]? = x.buf[a]?) ∧
    ((prepare x ts cur).changed = true ↔
      x.changed = true ∨ ∃ t ∈ ts, ∃ i, i < t.2.size ∧ x.buf[t.2.addr + i]? ≠ (cur t.1)[i]?) := by
  induction ts with
  | nil => intro x _ _; simp [prepare]
  | cons t ts ih =>
    intro x hd hx
    have hd' := List.pairwise_cons.mp hd
    have ht := hx t (by simp)
    obtain ⟨h1, h2, h3⟩ := ih (transfer x t.2.addr (cur t.1)) hd'.2 (by
      intro u hu
      rw [transfer_length]
      exact hx u (by simp [hu]))
    have hget := fun b => transfer_get (cur t.1) x t.2.addr b (by omega)
    have hfold : prepare x (t :: ts) cur = prepare (transfer x t.2.addr (cur t.1)) ts cur := rfl
    have hother : ∀ u ∈ ts, ∀ i, i < u.2.size →
        (transfer x t.2.addr (cur t.1)).buf[u.2.addr + i]? = x.buf[u.2.addr + i]? := by
      intro u hu i hi
      rw [hget, if_neg]
      rintro ⟨ha, hb⟩
      exact hd'.1 u hu (u.2.addr + i) ⟨ha, by omega, by omega, by omega⟩
    rw [hfold]
    refine ⟨?_, ?_, ?_⟩
    · intro u hu i hi
      rcases List.mem_cons.mp hu with rfl | hu
      · rw [h2 _ (by
          intro w hw hh
          exact hd'.1 w hw (u.2.addr + i) ⟨by omega, by omega, hh.1, hh.2⟩)]
        rw [hget, if_pos (by omega)]
        simp
      · exact h1 u hu i hi
    · intro a ha
      rw [h2 a (fun u hu => ha u (by simp [hu])), hget, if_neg]
      have := ha t (by simp)
      rw [ht.1]; exact this
    · rw [h3, transfer_changed _ _ _ (by omega)]
      constructor
      · rintro ((h | ⟨i, hi, h⟩) | ⟨u, hu, i, hi, h⟩)
        · exact Or.inl h
        · exact Or.inr ⟨t, by simp, i, by omega, h⟩
        · rw [hother u hu i hi] at h
          exact Or.inr ⟨u, by simp [hu], i, hi, h⟩
      · rintro (h | ⟨u, hu, i, hi, h⟩)
        · exact Or.inl (Or.inl h)
        · rcases List.mem_cons.mp hu with rfl | hu
          · exact Or.inl (Or.inr ⟨i, by omega, h⟩)
          · rw [← hother u hu i hi] at h
            exact Or.inr ⟨u, hu, i, hi, h⟩

end AmpGen.External
