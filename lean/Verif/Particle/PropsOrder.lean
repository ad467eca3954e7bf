import Verif.Particle.PropsConj
/-
C96: the order of the decay products of a particle built from a descriptor.
-/
namespace AmpGen.Particle

open AmpGen.Strings

variable {K : Type} [Field K] [LinearOrder K]

/-- The documented order: higher spin first, and among equal spins those that decay first. -/
def Before (a b : Tree K) : Prop :=
  a.data.props.twoSpin > b.data.props.twoSpin ∨
    a.data.props.twoSpin = b.data.props.twoSpin ∧ (a.isStable = true → b.isStable = true)

/-- A part of a decay chain. -/
inductive Part : Tree K → Tree K → Prop
  | whole (t : Tree K) : Part t t
  | inside (d : Data K) (ds : List (Tree K)) (t u : Tree K) : t ∈ ds → Part t u → Part (.node d ds) u

/-- Properties that are found in the database. -/
def InDB (env : Env K) (p : PDG.Props K) : Prop := (∃ n, env.db.find n = some p) ∨ ∃ i, env.db.findID i = some p

/-- Antiparticles have the spin of their particles. -/
def SpinKept (env : Env K) : Prop := ∀ p q, InDB env p → env.antiProps p = some q → q.twoSpin = p.twoSpin

inductive Ordered (env : Env K) : Tree K → Prop
  | node (d : Data K) (ds : List (Tree K)) : InDB env d.props → ds.Pairwise Before → (∀ t ∈ ds, Ordered env t) → Ordered env (.node d ds)

theorem Ordered.inDB {env : Env K} {t : Tree K} (h : Ordered env t) : InDB env t.data.props := by cases h with | node d ds h0 _ _ => exact h0

theorem inDB_anti {env : Env K} {p q : PDG.Props K} (hp : InDB env p) (h : env.antiProps p = some q) : InDB env q := by
  unfold Env.antiProps at h
  split at h
  · exact Or.inr ⟨_, h⟩
  · cases h; exact hp

theorem Ordered.part {env : Env K} {t u : Tree K} (h : Ordered env t) (hu : Part t u) : u.daughters.Pairwise Before := by
  induction hu with
  | whole t => cases h with | node d ds _ h1 _ => exact h1
  | inside d ds t u hm _ ih => cases h with | node d ds _ _ h2 => exact ih (h2 t hm)

theorem before_trans {a b c : Tree K} (h1 : Before a b) (h2 : Before b c) : Before a c := by
  unfold Before at *
  rcases h1 with h1 | ⟨h1, g1⟩ <;> rcases h2 with h2 | ⟨h2, g2⟩
  · left; omega
  · left; omega
  · left; omega
  · right; exact ⟨by omega, fun h => g2 (g1 h)⟩

theorem before_of_le {a b : Tree K} (h : Tree.le a b) : Before a b := by
  unfold Tree.le Tree.lt at h
  unfold Before
  simp only at h
  split at h
  · rename_i hne
    left
    simp only [decide_eq_false_iff_not] at h
    omega
  · rename_i hne
    right
    refine ⟨by omega, fun ha => ?_⟩
    cases hb : b.isStable with
    | true => rfl
    | false => simp [ha, hb] at h

theorem pairwise_of_chained : ∀ {l : List (Tree K)}, Chained l → l.Pairwise Before
  | [], _ => List.Pairwise.nil
  | [_], _ => List.pairwise_singleton _ _
  | a :: b :: l, h => by
    have h' := List.isChain_cons_cons.1 h
    have ih := pairwise_of_chained h'.2
    refine List.pairwise_cons.2 ⟨?_, ih⟩
    intro c hc
    rw [List.mem_cons] at hc
    rcases hc with rfl | hc
    · exact before_of_le h'.1
    · exact before_trans (before_of_le h'.1) ((List.pairwise_cons.1 ih).1 c hc)

theorem conjThis_spin {env : Env K} (hs : SpinKept env) {a b : Tree K} (ha : InDB env a.data.props) (h : env.conjThis a = some b) :
    b.data.props.twoSpin = a.data.props.twoSpin ∧ b.isStable = a.isStable := by
  obtain ⟨d, ds⟩ := a
  rw [Env.conjThis, Option.bind_eq_some_iff] at h
  obtain ⟨p, h1, h2⟩ := h
  obtain ⟨L, h3, rfl⟩ := Option.map_eq_some_iff.1 h2
  refine ⟨hs _ _ ha h1, ?_⟩
  have := (conjThisList_forall h3).length_eq
  show L.isEmpty = ds.isEmpty
  rcases ds with _ | ⟨x, ds⟩ <;> rcases L with _ | ⟨y, L⟩ <;> simp at this ⊢

theorem before_conj {env : Env K} (hs : SpinKept env) : ∀ {ds L : List (Tree K)}, (∀ t ∈ ds, InDB env t.data.props) → List.Forall₂ (fun a b => env.conjThis a = some b) ds L → ds.Pairwise Before → L.Pairwise Before
  | [], [], _, _, _ => List.Pairwise.nil
  | a :: ds, b :: L, hd, h, hp => by
    obtain ⟨h1, h2⟩ := List.forall₂_cons.1 h
    obtain ⟨p1, p2⟩ := List.pairwise_cons.1 hp
    refine List.pairwise_cons.2 ⟨?_, before_conj hs (fun t ht => hd t (List.mem_cons_of_mem _ ht)) h2 p2⟩
    intro c hc
    obtain ⟨i, hi, rfl⟩ := List.getElem_of_mem hc
    have hlen := h2.length_eq
    have hi' : i < ds.length := by omega
    have hci := (List.forall₂_iff_get.1 h2).2 i hi' hi
    obtain ⟨k1, k2⟩ := conjThis_spin hs (hd a List.mem_cons_self) h1
    obtain ⟨k3, k4⟩ := conjThis_spin hs (hd _ (List.mem_cons_of_mem _ (List.getElem_mem hi'))) hci
    have hb := p1 (ds[i]) (List.getElem_mem hi')
    simp only [List.get_eq_getElem] at k3 k4
    unfold Before at *
    rw [k1, k2, k3, k4]
    exact hb

theorem ordered_conj {env : Env K} (hs : SpinKept env) {t : Tree K} (h : Ordered env t) : ∀ {t' : Tree K}, env.conjThis t = some t' → Ordered env t' := by
  induction h with
  | node d ds h0 h1 hd ih =>
    intro t' ht
    rw [Env.conjThis, Option.bind_eq_some_iff] at ht
    obtain ⟨p, hp, h2⟩ := ht
    obtain ⟨L, h3, rfl⟩ := Option.map_eq_some_iff.1 h2
    have hL := conjThisList_forall h3
    refine Ordered.node _ _ (inDB_anti h0 hp) (before_conj hs (fun t ht => (hd t ht).inDB) hL h1) ?_
    intro x hx
    obtain ⟨i, hi, rfl⟩ := List.getElem_of_mem hx
    have hi' : i < ds.length := by have := hL.length_eq; omega
    exact ih _ (List.getElem_mem hi') ((List.forall₂_iff_get.1 hL).2 i hi' hi)

theorem conjThis_ordered_daughters {env : Env K} (hs : SpinKept env) {d : Data K} {ds : List (Tree K)} (h0 : InDB env d.props) (h : ∀ t ∈ ds, Ordered env t) {t' : Tree K} (ht : env.conjThis (.node d ds) = some t') : InDB env t'.data.props ∧ ∀ t ∈ t'.daughters, Ordered env t := by
  rw [Env.conjThis, Option.bind_eq_some_iff] at ht
  obtain ⟨p, hp, h2⟩ := ht
  obtain ⟨L, h3, rfl⟩ := Option.map_eq_some_iff.1 h2
  have hL := conjThisList_forall h3
  refine ⟨inDB_anti h0 hp, ?_⟩
  intro x hx
  obtain ⟨i, hi, rfl⟩ := List.getElem_of_mem (show x ∈ L from hx)
  have hi' : i < ds.length := by have := hL.length_eq; omega
  exact ordered_conj hs (h _ (List.getElem_mem hi')) ((List.forall₂_iff_get.1 hL).2 i hi' hi)

theorem sortDaughters_ordered {env : Env K} (hs : SpinKept env) {d : Data K} {ds : List (Tree K)} (h0 : InDB env d.props) (h : ∀ t ∈ ds, Ordered env t) {t : Tree K} (ht : env.sortDaughters (.node d ds) = some t) : Ordered env t := by
  by_cases hid : d.props.pdgID < 0
  · rw [sortDaughters_neg env _ _ hid, Option.bind_eq_some_iff] at ht
    obtain ⟨t1, h1, h2⟩ := ht
    obtain ⟨hq, ho⟩ := conjThis_ordered_daughters hs h0 h h1
    refine ordered_conj hs (Ordered.node _ _ hq (pairwise_of_chained (sort_chained _)) ?_) h2
    intro x hx
    exact ho x ((sort_perm _).mem_iff.1 hx)
  · rw [sortDaughters_nonneg env _ _ hid] at ht
    cases ht
    exact Ordered.node _ _ h0 (pairwise_of_chained (sort_chained _)) fun x hx => h x ((sort_perm _).mem_iff.1 hx)

theorem construct_ordered (env : Env K) (hs : SpinKept env) : ∀ (n : Nat) (s : Str) (t : Tree K), env.construct n s = some t → Ordered env t
  | 0, s, t, h => by simp [Env.construct] at h
  | n + 1, s, t, h => by
    rw [Env.construct] at h
    simp only [Option.bind_eq_bind, Option.bind_eq_some_iff] at h
    obtain ⟨items, _, item, _, d, h3, ds, h4, d', h5, h6⟩ := h
    have hd : InDB env d.props := by
      unfold Env.head at h3
      simp only [Option.bind_eq_bind, Option.bind_eq_some_iff, Option.pure_def, Option.some.injEq] at h3
      obtain ⟨_, _, _, _, q, hq, rfl⟩ := h3
      exact Or.inl ⟨_, hq⟩
    have hd' : InDB env d'.props := by
      unfold Env.pdgLookup at h5
      simp only [Option.bind_eq_bind, Option.bind_eq_some_iff, Option.pure_def, Option.some.injEq] at h5
      obtain ⟨_, _, rfl⟩ := h5
      exact hd
    refine sortDaughters_ordered hs hd' ?_ h6
    intro x hx
    have : ∀ (l : List Str) (ds : List (Tree K)), l.mapM (env.construct n) = some ds → ∀ x ∈ ds, ∃ u, env.construct n u = some x := by
      intro l
      induction l with
      | nil => intro ds h x hx; simp at h; subst h; simp at hx
      | cons a l ih =>
        intro ds h x hx
        simp only [List.mapM_cons, Option.bind_eq_bind, Option.bind_eq_some_iff, Option.pure_def, Option.some.injEq] at h
        obtain ⟨b, h1, c, h2, rfl⟩ := h
        rw [List.mem_cons] at hx
        rcases hx with rfl | hx
        · exact ⟨a, h1⟩
        · exact ih c h2 x hx
    obtain ⟨u, hu⟩ := this _ _ h4 x hx
    exact construct_ordered env hs n u x hu

/-- **C96**: everywhere in a decay chain built from a descriptor, whatever the order in which the decay products were written, those of higher spin come first, and among those of equal spin those that decay come before
those that are stable. -/
theorem daughters_ordered (env : Env K) (hs : SpinKept env) (s : Str) (t : Tree K) (h : env.ofDescriptor s = some t) (u : Tree K) (hu : Part t u) : u.daughters.Pairwise Before :=
  (construct_ordered env hs _ s t h).part hu

/-- The hypothesis on the database is met by the sample database. -/
example : SpinKept sampleEnv := by
  have h : (sampleEnv.db.heap.all fun p => match sampleEnv.antiProps p with
    | some q => decide (q.twoSpin = p.twoSpin)
    | none => true) = true := by decide +kernel
  intro p q hp hq
  have hm : p ∈ sampleEnv.db.heap := by
    rcases hp with ⟨n, hn⟩ | ⟨i, hi⟩
    · obtain ⟨k, _, hk⟩ := Option.bind_eq_some_iff.1 hn
      exact List.mem_of_getElem? hk
    · obtain ⟨k, _, hk⟩ := Option.bind_eq_some_iff.1 hi
      exact List.mem_of_getElem? hk
  have := List.all_eq_true.1 h p hm
  rw [hq] at this
  exact of_decide_eq_true this

/-- The vector, with spin 1, comes first although it was written last. -/
example : (sample "D0{pi+,pi-,K*(892)bar0{pi+,K-}}").map (fun t => t.daughters.map fun u => (u.data.props.twoSpin, u.isStable)) = some [(2, false), (0, true), (0, true)] := by decide +kernel

end AmpGen.Particle
