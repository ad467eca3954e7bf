import Verif.External.Lemmas
/-
Property theorems about external parameters (C05).
-/
namespace AmpGen.External

theorem layout_empty : Layout Reg.empty.entries Reg.empty.n := .nil

/-- C05.  After any sequence of registrations, no cell of the external buffer is
owned by two names, every owned cell lies inside the buffer, and every cell of the
buffer is owned. -/
theorem externals_disjoint_partial (ops : List (String × Nat)) :
    (∀ name₁ name₂ a, Owns (register .empty ops) name₁ a → Owns (register .empty ops) name₂ a →
      name₁ = name₂) ∧
    (∀ a, a < (register .empty ops).n ↔ ∃ name, Owns (register .empty ops) name a) := by
  have h := layout_empty.register ops
  refine ⟨?_, fun a => ⟨?_, ?_⟩⟩
  · rintro n1 n2 a ⟨e1, f1, a1, b1⟩ ⟨e2, f2, a2, b2⟩
    have := h.disjoint _ (h.mem_lookup.mpr f1) _ (h.mem_lookup.mpr f2) a a1 b1 a2 b2
    exact congrArg Prod.fst this
  · intro ha
    obtain ⟨⟨name, e⟩, ht, hh⟩ := h.cover a ha
    exact ⟨name, e, h.mem_lookup.mp ht, hh⟩
  · rintro ⟨name, e, hf, ha, hb⟩
    have := h.bound _ (h.mem_lookup.mpr hf)
    simp only at this
    omega

/-- C05.  Registering an entry returns the address it owns from then on: the
address of the first registration of that name, whatever is registered before,
in between and after. -/
theorem externals_address_stable (ops later : List (String × Nat)) (name : String) (size : Nat) :
    ∃ e, e.addr = (addCacheFunction (register .empty ops) name size).2 ∧
      (register (addCacheFunction (register .empty ops) name size).1 later).find name = some e ∧
      (∀ size', addCacheFunction (register (addCacheFunction (register .empty ops) name size).1 later)
          name size' =
        (register (addCacheFunction (register .empty ops) name size).1 later, e.addr)) ∧
      ((register .empty ops).find name = none → e.size = size) := by
  have keep : ∀ (later : List (String × Nat)) (R : Reg) (e : Entry), R.find name = some e →
      (register R later).find name = some e := by
    intro later
    induction later with
    | nil => intro R e h; exact h
    | cons op later ih =>
      intro R e h
      apply ih
      show (addCacheFunction R op.1 op.2).1.find name = some e
      unfold addCacheFunction
      split
      · exact h
      · exact lookup_append_some h
  have first : ∃ e : Entry, e.addr = (addCacheFunction (register .empty ops) name size).2 ∧
      (addCacheFunction (register .empty ops) name size).1.find name = some e ∧
      ((register .empty ops).find name = none → e.size = size) := by
    generalize register .empty ops = R
    unfold addCacheFunction
    split
    · rename_i e he
      exact ⟨e, rfl, he, fun h => by rw [he] at h; cases h⟩
    · rename_i he
      refine ⟨⟨R.n, size⟩, by simp, ?_, fun _ => rfl⟩
      show List.lookup _ _ = _
      rw [lookup_append_none he]
      simp [List.lookup]
  obtain ⟨e, h1, h2, h3⟩ := first
  have h4 := keep later _ e h2
  refine ⟨e, h1, h4, fun size' => ?_, h3⟩
  generalize register (addCacheFunction (register .empty ops) name size).1 later = R at h4 ⊢
  unfold addCacheFunction
  rw [h4]

variable {K : Type} [DecidableEq K]

/-- C05 (transfer).  After `prepare`, every registered entry's cells hold its
current values — whatever the buffer held before and in whatever order the entries
are transferred — and the change flag is raised exactly when one of the cells held
a different value. -/
theorem externals_prepare (ops : List (String × Nat)) (ts : List (String × Entry))
    (hts : ts.Perm (register .empty ops).entries) (x : Ext K) (cur : String → List K)
    (hlen : (register .empty ops).n ≤ x.buf.length)
    (hcur : ∀ name e, (register .empty ops).find name = some e → (cur name).length = e.size) :
    (∀ name e i, (register .empty ops).find name = some e → i < e.size →
      (prepare x ts cur).buf[e.addr + i]? = (cur name)[i]?) ∧
    (∀ a, (register .empty ops).n ≤ a → (prepare x ts cur).buf[a]? = x.buf[a]?) ∧
    ((prepare x ts cur).changed = true ↔ x.changed = true ∨
      ∃ name e i, (register .empty ops).find name = some e ∧ i < e.size ∧
        x.buf[e.addr + i]? ≠ (cur name)[i]?) := by
  have h := layout_empty.register ops
  have hd : Disj ts := by
    unfold Disj
    rw [List.Perm.pairwise_iff (l₂ := (register .empty ops).entries) _ hts]
    · have hn := h.nodup
      have hp : (register .empty ops).entries.Pairwise (fun t u => t.1 ≠ u.1) :=
        List.pairwise_map.mp hn
      refine hp.imp_of_mem ?_
      intro t u ht hu hne a hh
      exact hne (congrArg Prod.fst (h.disjoint t ht u hu a hh.1 hh.2.1 hh.2.2.1 hh.2.2.2))
    · intro t u hh a ha
      exact hh a ⟨ha.2.2.1, ha.2.2.2, ha.1, ha.2.1⟩
  have hmem : ∀ t : String × Entry, t ∈ ts ↔ (register .empty ops).find t.1 = some t.2 := by
    intro t
    rw [hts.mem_iff]
    exact h.mem_lookup
  have hx : ∀ t ∈ ts, (cur t.1).length = t.2.size ∧ t.2.addr + t.2.size ≤ x.buf.length := by
    intro t ht
    have := h.bound t (hts.mem_iff.mp ht)
    exact ⟨hcur _ _ ((hmem t).mp ht), by omega⟩
  obtain ⟨p1, p2, p3⟩ := prepare_correct cur ts x hd hx
  refine ⟨?_, ?_, ?_⟩
  · intro name e i hf hi
    exact p1 (name, e) ((hmem (name, e)).mpr hf) i hi
  · intro a ha
    apply p2
    intro t ht hh
    have := h.bound t (hts.mem_iff.mp ht)
    omega
  · rw [p3]
    constructor
    · rintro (h | ⟨t, ht, i, hi, hne⟩)
      · exact Or.inl h
      · exact Or.inr ⟨t.1, t.2, i, (hmem t).mp ht, hi, hne⟩
    · rintro (h | ⟨name, e, i, hf, hi, hne⟩)
      · exact Or.inl h
      · exact Or.inr ⟨(name, e), (hmem (name, e)).mpr hf, i, hi, hne⟩

/-- Preparing twice with the same values does not raise the flag. -/
theorem externals_prepare_idempotent (ops : List (String × Nat)) (ts : List (String × Entry))
    (hts : ts.Perm (register .empty ops).entries) (x : Ext K) (cur : String → List K)
    (hlen : (register .empty ops).n ≤ x.buf.length)
    (hcur : ∀ name e, (register .empty ops).find name = some e → (cur name).length = e.size) :
    (prepare { prepare x ts cur with changed := false } ts cur).changed = false := by
  obtain ⟨h1, -, -⟩ := externals_prepare ops ts hts x cur hlen hcur
  obtain ⟨-, -, g3⟩ := externals_prepare ops ts hts { prepare x ts cur with changed := false } cur
    (by simpa [prepare_length] using hlen) hcur
  cases hc : (prepare { prepare x ts cur with changed := false } ts cur).changed with
  | false => rfl
  | true =>
    rcases g3.mp hc with h | ⟨name, e, i, hf, hi, hne⟩
    · cases h
    · exact absurd (h1 name e i hf hi) hne

omit [DecidableEq K] in
/-- The buffer is made large enough: `resolve` calls `resizeExternalCache`. -/
theorem resize_length [Zero K] (x : Ext K) (n : Nat) :
    n ≤ (resizeExternalCache x n).buf.length ∧
    ∀ a, a < x.buf.length → (resizeExternalCache x n).buf[a]? = x.buf[a]? := by
  unfold resizeExternalCache
  split
  · refine ⟨by simp; omega, fun a ha => ?_⟩
    simp [List.getElem?_append_left ha]
  · exact ⟨by omega, fun a _ => rfl⟩

/-- The size is not part of the identity of an entry: registering a name again with
a larger size returns an address whose range runs into the next entry.  A parameter
and a spline of the same name meet this case. -/
theorem externals_size_counterexample :
    ∃ (ops : List (String × Nat)) (name : String) (size : Nat) (other : String) (a : Nat),
      (addCacheFunction (register .empty ops) name size).2 ≤ a ∧
      a < (addCacheFunction (register .empty ops) name size).2 + size ∧
      name ≠ other ∧ Owns (addCacheFunction (register .empty ops) name size).1 other a :=
  ⟨[("a", 1), ("b", 1)], "a", 6, "b", 1, by decide +kernel, by decide +kernel, by decide,
    ⟨1, 1⟩, by decide +kernel, by decide, by decide⟩

/-- A concrete case: three entries, one of size six. -/
example : (register .empty [("a", 1), ("spline", 6), ("a", 1), ("b", 1)]).entries =
    [("a", ⟨0, 1⟩), ("spline", ⟨1, 6⟩), ("b", ⟨7, 1⟩)] := by decide +kernel

/-- A concrete case of `externals_prepare`: a stale buffer of ten cells. -/
example : (register .empty [("a", 1), ("spline", 6), ("a", 1), ("b", 1)]).n ≤
      ([0, 0, 0, 0, 0, 0, 0, 0, 9, 9] : List Int).length ∧
    prepare (⟨[0, 0, 0, 0, 0, 0, 0, 0, 9, 9], false⟩ : Ext Int)
      (register .empty [("a", 1), ("spline", 6), ("a", 1), ("b", 1)]).entries.reverse
      (fun s => if s = "spline" then [1, 2, 3, 4, 5, 6] else if s = "a" then [7] else [8]) =
      ⟨[7, 1, 2, 3, 4, 5, 6, 8, 9, 9], true⟩ := by decide +kernel

end AmpGen.External
