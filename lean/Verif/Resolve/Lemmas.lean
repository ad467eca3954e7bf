import Verif.Resolve.Model
import Verif.Resolve.Spec
import Mathlib.Data.List.Nodup
import Mathlib.Data.List.Basic
/-
Lemmas about the ordering of common sub-expressions.
-/
namespace AmpGen.Resolve
open AmpGen.Expr

variable {K : Type}

theorem mem_subtreesOf {k : Nat} {b : Ex K} (e : Ex K) : (k, b) ∈ subtreesOf e ↔ Occurs k b e := by
  induction e with
  | un f e ih =>
    simp only [subtreesOf, ih]
    exact ⟨.un, fun h => by cases h; assumption⟩
  | bin op l r ihl ihr =>
    simp only [subtreesOf, List.mem_append, ihl, ihr]
    exact ⟨fun h => h.elim .binl .binr, fun h => by cases h <;> tauto⟩
  | ternary c x y ihc ihx ihy =>
    simp only [subtreesOf, List.mem_append, ihc, ihx, ihy]
    exact ⟨fun h => h.elim (fun h => h.elim .cond .yes) .no, fun h => by cases h <;> tauto⟩
  | subtree k' e ih =>
    simp only [subtreesOf, List.mem_append, ih, List.mem_singleton, Prod.mk.injEq]
    constructor
    · rintro (h | ⟨rfl, rfl⟩)
      · exact .inside h
      · exact .here
    · intro h
      cases h with
      | here => right; exact ⟨rfl, rfl⟩
      | inside h => left; exact h
  | _ => simp only [subtreesOf, List.not_mem_nil, false_iff]; intro h; cases h

theorem Occurs.trans {k k' : Nat} {b b' : Ex K} {e : Ex K} (h : Occurs k b e) (h' : Occurs k' b' b) :
    Occurs k' b' e := by
  induction h with
  | here => exact .inside h'
  | inside _ ih => exact .inside ih
  | un _ ih => exact .un ih
  | binl _ ih => exact .binl ih
  | binr _ ih => exact .binr ih
  | cond _ ih => exact .cond ih
  | yes _ ih => exact .yes ih
  | no _ ih => exact .no ih

theorem Mentions.occurs {k : Nat} {e : Ex K} (h : Mentions k e) : ∃ b, Occurs k b e := by
  induction h with
  | @here b => exact ⟨b, .here⟩
  | un _ ih => obtain ⟨b, h⟩ := ih; exact ⟨b, .un h⟩
  | binl _ ih => obtain ⟨b, h⟩ := ih; exact ⟨b, .binl h⟩
  | binr _ ih => obtain ⟨b, h⟩ := ih; exact ⟨b, .binr h⟩
  | cond _ ih => obtain ⟨b, h⟩ := ih; exact ⟨b, .cond h⟩
  | yes _ ih => obtain ⟨b, h⟩ := ih; exact ⟨b, .yes h⟩
  | no _ ih => obtain ⟨b, h⟩ := ih; exact ⟨b, .no h⟩

/-- Number of nodes. -/
def size : Ex K → Nat
  | .un _ e => size e + 1
  | .bin _ l r => size l + size r + 1
  | .ternary c x y => size c + size x + size y + 1
  | .subtree _ e => size e + 1
  | _ => 1

theorem Occurs.size_lt {k : Nat} {b : Ex K} {e : Ex K} (h : Occurs k b e) : size b < size e := by
  induction h <;> simp only [size] <;> omega

/-! ### The map of sub-trees -/

theorem mapInsert_mem {s t : Sub K} {m : List (Sub K)} (h : t ∈ mapInsert s m) : t = s ∨ t ∈ m := by
  induction m with
  | nil => simp [mapInsert] at h; exact Or.inl h
  | cons u m ih =>
    simp only [mapInsert] at h
    split at h
    · simpa using h
    · split at h
      · exact Or.inr h
      · rcases List.mem_cons.mp h with h | h
        · right; simp [h]
        · rcases ih h with h | h
          · exact Or.inl h
          · right; simp [h]

theorem mapInsert_keys (s : Sub K) (m : List (Sub K)) (k : Nat) :
    k ∈ (mapInsert s m).map Prod.fst ↔ k = s.1 ∨ k ∈ m.map Prod.fst := by
  induction m with
  | nil => simp [mapInsert]
  | cons u m ih =>
    simp only [mapInsert]
    split
    · simp
    · split
      · rename_i h
        simp only [List.map_cons, List.mem_cons]
        constructor
        · exact Or.inr
        · rintro (h' | h')
          · left; rw [h', h]
          · exact h'
      · simp only [List.map_cons, List.mem_cons, ih]
        tauto

theorem mapInsert_sorted (s : Sub K) (m : List (Sub K)) (h : (m.map Prod.fst).Pairwise (· < ·)) :
    ((mapInsert s m).map Prod.fst).Pairwise (· < ·) := by
  induction m with
  | nil => simp [mapInsert]
  | cons u m ih =>
    simp only [List.map_cons, List.pairwise_cons] at h
    simp only [mapInsert]
    split
    · rename_i hlt
      simp only [List.map_cons, List.pairwise_cons, List.mem_cons]
      refine ⟨?_, h⟩
      rintro a (rfl | ha)
      · exact hlt
      · exact lt_trans hlt (h.1 a ha)
    · split
      · simpa using h
      · rename_i h1 h2
        simp only [List.map_cons, List.pairwise_cons]
        refine ⟨fun a ha => ?_, ih h.2⟩
        rcases (mapInsert_keys s m a).mp ha with rfl | ha
        · omega
        · exact h.1 a ha

theorem keyMap_aux (l : List (Sub K)) : ∀ m : List (Sub K), (m.map Prod.fst).Pairwise (· < ·) →
    ((l.foldl (fun m s => mapInsert s m) m).map Prod.fst).Pairwise (· < ·) ∧
    (∀ t ∈ l.foldl (fun m s => mapInsert s m) m, t ∈ m ∨ t ∈ l) ∧
    (∀ k, k ∈ (l.foldl (fun m s => mapInsert s m) m).map Prod.fst ↔
      k ∈ m.map Prod.fst ∨ k ∈ l.map Prod.fst) := by
  induction l with
  | nil => intro m h; simp [h]
  | cons s l ih =>
    intro m h
    obtain ⟨h1, h2, h3⟩ := ih (mapInsert s m) (mapInsert_sorted s m h)
    refine ⟨h1, fun t ht => ?_, fun k => ?_⟩
    · rcases h2 t ht with h | h
      · rcases mapInsert_mem h with rfl | h
        · right; simp
        · exact Or.inl h
      · right; simp [h]
    · rw [List.foldl_cons, h3 k, mapInsert_keys]
      simp only [List.map_cons, List.mem_cons]
      tauto

theorem keyMap_nodup (l : List (Sub K)) : ((keyMap l).map Prod.fst).Nodup :=
  ((keyMap_aux l [] (by simp)).1).imp (fun h => Nat.ne_of_lt h)

theorem keyMap_mem {l : List (Sub K)} {t : Sub K} (h : t ∈ keyMap l) : t ∈ l := by
  rcases (keyMap_aux l [] (by simp)).2.1 t h with h | h
  · simp at h
  · exact h

theorem keyMap_keys (l : List (Sub K)) (k : Nat) :
    k ∈ (keyMap l).map Prod.fst ↔ k ∈ l.map Prod.fst := by
  have := (keyMap_aux l [] (by simp)).2.2 k
  simpa [keyMap] using this

/-! ### One step -/

/-- Keys currently listed. -/
def keys (st : State K) : List Nat := st.subs.map Prod.fst

/-- The position map is right and no key is listed twice. -/
def WF (st : State K) : Prop :=
  (keys st).Nodup ∧ ∀ k, st.used k = if k ∈ keys st then some ((keys st).idxOf k) else none

theorem process_keys {st : State K} (h : WF st) (s : Sub K) :
    WF (process st s) ∧ keys (process st s) = (keys st).filter (· ≠ s.1) ++ [s.1] ∧
      (∀ t ∈ (process st s).subs, t ∈ st.subs ∨ t = s) := by
  obtain ⟨hn, hu⟩ := h
  by_cases hk : s.1 ∈ keys st
  · -- known key
    obtain ⟨A, ⟨k0, b0⟩, B, hsubs, hk0, hA⟩ :
        ∃ A t B, st.subs = A ++ t :: B ∧ t.1 = s.1 ∧ s.1 ∉ A.map Prod.fst := by
      have : ∃ t ∈ st.subs, t.1 = s.1 := by
        obtain ⟨t, ht, he⟩ := List.mem_map.mp hk; exact ⟨t, ht, he⟩
      obtain ⟨t, ht, he⟩ := this
      obtain ⟨A, B, hAB⟩ := List.append_of_mem ht
      refine ⟨A, t, B, hAB, he, ?_⟩
      rw [keys, hAB, List.map_append, List.map_cons, List.nodup_append] at hn
      intro hmem
      exact hn.2.2 _ hmem _ (List.mem_cons_self) he.symm
    simp only at hk0
    subst hk0
    have hkeys : keys st = A.map Prod.fst ++ s.1 :: B.map Prod.fst := by
      rw [keys, hsubs]; simp
    have hnod := hn
    rw [hkeys, List.nodup_append, List.nodup_cons] at hnod
    have hB : s.1 ∉ B.map Prod.fst := hnod.2.1.1
    have hidx : (keys st).idxOf s.1 = A.length := by
      rw [hkeys, List.idxOf_append_of_notMem hA, List.idxOf_cons_self]; simp
    have hused : st.used s.1 = some A.length := by rw [hu, if_pos hk, hidx]
    have hfilter : (keys st).filter (· ≠ s.1) = A.map Prod.fst ++ B.map Prod.fst := by
      rw [hkeys, List.filter_append, List.filter_cons]
      have h1 : (A.map Prod.fst).filter (· ≠ s.1) = A.map Prod.fst := by
        rw [List.filter_eq_self]
        intro a ha; simp; rintro rfl; exact hA ha
      have h2 : (B.map Prod.fst).filter (· ≠ s.1) = B.map Prod.fst := by
        rw [List.filter_eq_self]
        intro a ha; simp; rintro rfl; exact hB ha
      rw [h1, h2]; simp
    have hlen : st.subs.length = A.length + (B.length + 1) := by rw [hsubs]; simp
    by_cases hlast : A.length + 1 = st.subs.length
    · have hBnil : B = [] := by
        have : B.length = 0 := by omega
        exact List.length_eq_zero_iff.mp this
      have hp : process st s = st := by
        simp only [process, hused]
        rw [if_pos hlast]
      rw [hp]
      refine ⟨⟨hn, hu⟩, ?_, fun t ht => Or.inl ht⟩
      rw [hfilter, hkeys, hBnil]; simp
    · have hp : process st s =
          { subs := A ++ B ++ [(s.1, b0)],
            used := fun k => if k = s.1 then some (st.subs.length - 1)
              else (st.used k).map (fun p => if A.length ≤ p then p - 1 else p) } := by
        simp only [process, hused]
        rw [if_neg hlast]
        congr 1
        rw [hsubs]
        simp
      have hkeys' : keys (process st s) = A.map Prod.fst ++ B.map Prod.fst ++ [s.1] := by
        rw [hp]; simp [keys]
      refine ⟨⟨?_, ?_⟩, ?_, ?_⟩
      · rw [hkeys']
        have := hfilter ▸ hn.filter (fun x => decide (x ≠ s.1))
        rw [List.nodup_append]
        refine ⟨this, by simp, ?_⟩
        intro a ha b hb
        simp only [List.mem_singleton] at hb
        subst hb
        rintro rfl
        rcases List.mem_append.mp ha with h | h
        · exact hA h
        · exact hB h
      · intro k
        rw [hkeys']
        rw [hp]
        simp only
        by_cases hks : k = s.1
        · subst hks
          rw [if_pos rfl, if_pos (by simp)]
          congr 1
          rw [List.idxOf_append_of_notMem (by simp only [List.mem_append]; tauto), List.idxOf_cons_self]
          simp; omega
        · rw [if_neg hks, hu, hkeys]
          by_cases hkA : k ∈ A.map Prod.fst
          · rw [if_pos (by simp [hkA]), if_pos (by simp only [List.mem_append]; tauto)]
            rw [List.idxOf_append_of_mem hkA, List.append_assoc, List.idxOf_append_of_mem hkA]
            have hlt := List.idxOf_lt_length_of_mem hkA
            simp only [List.length_map] at hlt
            rw [Option.map_some, if_neg (by omega)]
          · by_cases hkB : k ∈ B.map Prod.fst
            · rw [if_pos (by simp only [List.mem_append, List.mem_cons]; tauto),
                if_pos (by simp only [List.mem_append]; tauto)]
              rw [List.idxOf_append_of_notMem hkA, List.append_assoc, List.idxOf_append_of_notMem hkA,
                List.idxOf_append_of_mem hkB, List.idxOf_cons_ne _ (Ne.symm hks)]
              simp
            · rw [if_neg (by simp only [List.mem_append, List.mem_cons]; tauto),
                if_neg (by simp only [List.mem_append, List.mem_singleton]; tauto)]
              rfl
      · rw [hkeys', hfilter]
      · rw [hp]
        intro t ht
        left
        rw [hsubs]
        simp only [List.append_assoc, List.mem_append, List.mem_cons, List.not_mem_nil, or_false] at ht ⊢
        tauto
  · have hused : st.used s.1 = none := by rw [hu, if_neg hk]
    have hp : process st s =
        { subs := st.subs ++ [s], used := fun k => if k = s.1 then some st.subs.length else st.used k } := by
      simp only [process, hused]
    have hkeys' : keys (process st s) = keys st ++ [s.1] := by rw [hp]; simp [keys]
    have hfilter : (keys st).filter (· ≠ s.1) = keys st := by
      rw [List.filter_eq_self]
      intro a ha; simp; rintro rfl; exact hk ha
    refine ⟨⟨?_, ?_⟩, by rw [hkeys', hfilter], ?_⟩
    · rw [hkeys', List.nodup_append]
      refine ⟨hn, by simp, ?_⟩
      intro a ha b hb
      simp only [List.mem_singleton] at hb
      subst hb
      rintro rfl
      exact hk ha
    · intro k
      rw [hkeys', hp]
      simp only
      by_cases hks : k = s.1
      · subst hks
        rw [if_pos rfl, if_pos (by simp), List.idxOf_append_of_notMem hk, List.idxOf_cons_self]
        simp [keys]
      · rw [if_neg hks, hu]
        by_cases hkm : k ∈ keys st
        · rw [if_pos hkm, if_pos (by simp [hkm]), List.idxOf_append_of_mem hkm]
        · rw [if_neg hkm, if_neg (by simp [hkm, hks])]
    · rw [hp]
      intro t ht
      simpa using ht

theorem fold_keys (m : List (Sub K)) : ∀ {st : State K}, WF st → (m.map Prod.fst).Nodup →
    WF (m.foldl process st) ∧
    keys (m.foldl process st) = (keys st).filter (· ∉ m.map Prod.fst) ++ m.map Prod.fst ∧
    (∀ t ∈ (m.foldl process st).subs, t ∈ st.subs ∨ t ∈ m) := by
  induction m with
  | nil =>
    intro st h _
    refine ⟨h, ?_, fun t ht => Or.inl ht⟩
    simp
  | cons s m ih =>
    intro st h hn
    simp only [List.map_cons, List.nodup_cons] at hn
    obtain ⟨h1, h2, h3⟩ := process_keys h s
    obtain ⟨g1, g2, g3⟩ := ih h1 hn.2
    refine ⟨g1, ?_, fun t ht => ?_⟩
    · rw [List.foldl_cons, g2, h2, List.filter_append, List.filter_filter]
      have : ([s.1].filter (· ∉ m.map Prod.fst)) = [s.1] := by
        rw [List.filter_eq_self]; intro a ha
        simp only [List.mem_singleton] at ha
        subst ha
        simpa using hn.1
      rw [this, List.map_cons, List.append_assoc]
      congr 1
      apply List.filter_congr
      intro a _
      simp only [List.mem_cons]
      by_cases h1 : a = s.1 <;> by_cases h2 : a ∈ m.map Prod.fst <;> simp [h1, h2]
    · rcases g3 t ht with h | h
      · rcases h3 t h with h | h
        · exact Or.inl h
        · right; simp [h]
      · right; simp [h]

/-! ### The loop -/

/-- Order established for every listed sub-expression that is not in `m`. -/
def Ordered (e : Ex K) (l : List Nat) (m : List Nat) : Prop :=
  ∀ u b v, Occurs u b e → u ∈ l → u ∉ m → (∃ b', Occurs v b' b) → [u, v].Sublist l

theorem loop_correct (e : Ex K) (hf : KeysFaithful e) (N : Nat) :
    ∀ (n : Nat) (tmp : List (Sub K)) (st : State K),
      WF st → (∀ t ∈ st.subs, Occurs t.1 t.2 e) →
      (∀ t ∈ tmp, Occurs t.1 t.2 e ∧ size t.2 < n) →
      (∀ m : List Nat, (∀ k, k ∈ m ↔ k ∈ tmp.map Prod.fst) →
        Ordered e ((keys st).filter (· ∉ m) ++ m) m) →
      n ≤ N →
      ∃ st', loop (N + 1) tmp st = some st' ∧ WF st' ∧ (∀ t ∈ st'.subs, Occurs t.1 t.2 e) ∧
        Ordered e (keys st') [] ∧
        (∀ k, k ∈ keys st ∨ k ∈ tmp.map Prod.fst → k ∈ keys st') := by
  induction N with
  | zero =>
    intro n tmp st hw hs ht ho hn
    have htmp : tmp = [] := by
      rw [List.eq_nil_iff_forall_not_mem]
      intro t h
      have := (ht t h).2
      omega
    subst htmp
    refine ⟨st, rfl, hw, hs, ?_, ?_⟩
    · have := ho [] (by simp)
      simpa using this
    · simp
  | succ N ih =>
    intro n tmp st hw hs ht ho hn
    obtain ⟨g1, g2, g3⟩ := fold_keys (keyMap tmp) hw (keyMap_nodup tmp)
    have hsub : ∀ t ∈ ((keyMap tmp).foldl process st).subs, Occurs t.1 t.2 e := by
      intro t h
      rcases g3 t h with h | h
      · exact hs t h
      · exact (ht t (keyMap_mem h)).1
    have hord := ho ((keyMap tmp).map Prod.fst) (keyMap_keys tmp)
    rw [← g2] at hord
    have hkeep : ∀ k, k ∈ keys st ∨ k ∈ tmp.map Prod.fst →
        k ∈ keys ((keyMap tmp).foldl process st) := by
      intro k hk
      rw [g2, List.mem_append]
      by_cases hkm : k ∈ (keyMap tmp).map Prod.fst
      · exact Or.inr hkm
      · left
        rcases hk with hk | hk
        · rw [List.mem_filter]; exact ⟨hk, by simpa using hkm⟩
        · exact absurd ((keyMap_keys tmp k).mpr hk) hkm
    unfold loop
    simp only
    split
    · rename_i he
      have he' : keyMap tmp = [] := List.isEmpty_iff.mp he
      refine ⟨_, rfl, g1, hsub, ?_, hkeep⟩
      simpa [he'] using hord
    · have hnext : ∀ t ∈ (keyMap tmp).flatMap (fun s => subtreesOf s.2),
          Occurs t.1 t.2 e ∧ size t.2 < n - 1 := by
        intro t h
        obtain ⟨s, hsm, hts⟩ := List.mem_flatMap.mp h
        have hocc := (mem_subtreesOf s.2).mp hts
        have hsz := hocc.size_lt
        have := ht s (keyMap_mem hsm)
        exact ⟨this.1.trans hocc, by omega⟩
      have hord2 : ∀ m' : List Nat,
          (∀ k, k ∈ m' ↔ k ∈ ((keyMap tmp).flatMap fun s => subtreesOf s.2).map Prod.fst) →
          Ordered e ((keys ((keyMap tmp).foldl process st)).filter (· ∉ m') ++ m') m' := by
        intro m' hm' u b v hu hul hum hv
        -- `u` was not just moved to the end
        have hul' : u ∈ (keys ((keyMap tmp).foldl process st)).filter (· ∉ m') := by
          rcases List.mem_append.mp hul with h | h
          · exact h
          · exact absurd h hum
        have hul2 := (List.mem_filter.mp hul').1
        by_cases hvm : v ∈ m'
        · have h1 : [u].Sublist ((keys ((keyMap tmp).foldl process st)).filter (· ∉ m')) :=
            List.singleton_sublist.mpr hul'
          have h2 : [v].Sublist m' := List.singleton_sublist.mpr hvm
          exact h1.append h2
        · have hunot : u ∉ (keyMap tmp).map Prod.fst := by
            intro hmem
            obtain ⟨s, hsm, hse⟩ := List.mem_map.mp hmem
            have hso := (ht s (keyMap_mem hsm)).1
            have : s.2 = b := hf u _ _ (hse ▸ hso) hu
            obtain ⟨b', hb'⟩ := hv
            apply hvm
            rw [hm' v, List.mem_map]
            exact ⟨(v, b'), List.mem_flatMap.mpr ⟨s, hsm, (mem_subtreesOf s.2).mpr (this ▸ hb')⟩, rfl⟩
          have hsl := hord u b v hu hul2 hunot hv
          have := hsl.filter (fun x => decide (x ∉ m'))
          have hfil : [u, v].filter (fun x => decide (x ∉ m')) = [u, v] := by
            simp [hum, hvm]
          rw [hfil] at this
          exact this.trans (List.sublist_append_left _ _)
      obtain ⟨st', r1, r2, r3, r4, r5⟩ := ih (n - 1) ((keyMap tmp).flatMap fun s => subtreesOf s.2)
        ((keyMap tmp).foldl process st) g1 hsub hnext hord2 (by omega)
      exact ⟨st', r1, r2, r3, r4, fun k hk => r5 k (Or.inl (hkeep k hk))⟩

end AmpGen.Resolve
