import Verif.Binning.LemmasA
/-
Two-sample binning and the fast decision tree.
-/
namespace AmpGen.Binning

variable {E : Type} {c : Config E}

theorem sorted_lt {s : List E} {i : Nat} (opt : ℚ) (hs : s.Pairwise fun a b => c.x a i ≤ c.x b i) :
    (∀ e ∈ s.takeWhile fun e => decide (c.x e i < opt), c.x e i < opt) ∧ (∀ e ∈ s.dropWhile fun e => decide (c.x e i < opt), ¬ c.x e i < opt) := by
  obtain ⟨h1, h2⟩ := takeWhile_sorted (c := c) (i := i) (p := fun q => decide (q < opt))
    (fun a b hab hb => by simp only [decide_eq_true_eq] at *; exact lt_of_le_of_lt hab hb) hs
  exact ⟨fun e he => by simpa using h1 e he, fun e he => by simpa using h2 e he⟩

theorem sorted_le {s : List E} {i : Nat} (opt : ℚ) (hs : s.Pairwise fun a b => c.x a i ≤ c.x b i) :
    (∀ e ∈ s.takeWhile fun e => decide (c.x e i ≤ opt), c.x e i ≤ opt) ∧ (∀ e ∈ s.dropWhile fun e => decide (c.x e i ≤ opt), ¬ c.x e i ≤ opt) := by
  obtain ⟨h1, h2⟩ := takeWhile_sorted (c := c) (i := i) (p := fun q => decide (q ≤ opt))
    (fun a b hab hb => by simp only [decide_eq_true_eq] at *; exact le_trans hab hb) hs
  exact ⟨fun e he => by simpa using h1 e he, fun e he => by simpa using h2 e he⟩

theorem makeNodes2_spec (g : Good c) (cut : List E → List E → Nat → ℚ) : ∀ (r : Nat) (source target : List E) (queue : List Nat)
    (bins : List (List E × List E)), Queue c queue →
    ∃ t new, makeNodes2 c cut r source target queue bins = some (t, bins ++ new) ∧ (new.map Prod.fst).flatten.Perm source ∧
      (new.map Prod.snd).flatten.Perm target ∧
      (∀ y, bins.length ≤ t.getBinNumber y ∧ t.getBinNumber y < (bins ++ new).length) ∧
      (source ≠ [] → ∀ b ∈ new, b.1 ≠ []) ∧
      (∀ i b, new[i]? = some b → ∀ e ∈ b.1 ++ b.2, t.getBinNumber (c.x e) = bins.length + i) := by
  intro r
  have hleaf : ∀ (source target : List E) (bins : List (List E × List E)),
      ∃ t new, some (Tree.leaf bins.length 999, bins ++ [(source, target)]) = some (t, bins ++ new) ∧
      (new.map Prod.fst).flatten.Perm source ∧ (new.map Prod.snd).flatten.Perm target ∧
      (∀ y, bins.length ≤ t.getBinNumber y ∧ t.getBinNumber y < (bins ++ new).length) ∧
      (source ≠ [] → ∀ b ∈ new, b.1 ≠ []) ∧
      (∀ i b, new[i]? = some b → ∀ e ∈ b.1 ++ b.2, t.getBinNumber (c.x e) = bins.length + i) := by
    intro source target bins
    refine ⟨_, [(source, target)], rfl, by simp, by simp, ?_, ?_, ?_⟩
    · intro y; exact ⟨le_rfl, by simp [Tree.getBinNumber, Tree.route]⟩
    · intro h b hb; rw [List.mem_singleton.mp hb]; exact h
    · intro i b hib e he
      have hi : i = 0 := by
        have := (List.getElem?_eq_some_iff.mp hib).1
        simpa using this
      subst hi; rfl
  induction r with
  | zero =>
    intro source target queue bins hq
    cases queue with
    | nil => exact absurd rfl hq.1
    | cons index queue => exact hleaf source target bins
  | succ r ih =>
    intro source target queue bins hq
    cases queue with
    | nil => exact absurd rfl hq.1
    | cons index queue =>
      rw [makeNodes2]
      by_cases hlt : source.length < 2 * c.minEvents ∨ target.length < 2 * c.minEvents
      · rw [if_pos hlt]; exact hleaf source target bins
      · rw [if_neg hlt]
        have hmin := g.minEvents
        have h2 : 2 ≤ (c.sort index source).length := by rw [(g.perm index source).length_eq]; omega
        simp only
        obtain ⟨sa, sb⟩ := sorted_lt (cut (c.sort index source) (c.sort index target) index) (g.sorted index source)
        obtain ⟨ta, tb⟩ := sorted_lt (cut (c.sort index source) (c.sort index target) index) (g.sorted index target)
        have hps := g.perm index source
        have hpt := g.perm index target
        generalize cut (c.sort index source) (c.sort index target) index = opt at *
        generalize c.sort index source = s at *
        generalize c.sort index target = t at *
        have es : (s.takeWhile fun e => decide (c.x e index < opt)) ++ (s.dropWhile fun e => decide (c.x e index < opt)) = s :=
          List.takeWhile_append_dropWhile
        have et : (t.takeWhile fun e => decide (c.x e index < opt)) ++ (t.dropWhile fun e => decide (c.x e index < opt)) = t :=
          List.takeWhile_append_dropWhile
        generalize (s.takeWhile fun e => decide (c.x e index < opt)) = sl at *
        generalize (s.dropWhile fun e => decide (c.x e index < opt)) = sr at *
        generalize (t.takeWhile fun e => decide (c.x e index < opt)) = tl at *
        generalize (t.dropWhile fun e => decide (c.x e index < opt)) = tr at *
        by_cases he : sl.length = 0 ∨ sr.length = 0
        · rw [if_pos he]; exact hleaf source target bins
        · rw [if_neg he]
          obtain ⟨q, hq1, hq2⟩ := next_queue g h2 (c.maxDepth + 1 - r) hq
          obtain ⟨t1, n1, m1, p1, p1', b1, s1, d1⟩ := ih sl tl q bins hq2
          obtain ⟨t2, n2, m2, p2, p2', b2, s2, d2⟩ := ih sr tr q (bins ++ n1) hq2
          refine ⟨.node index opt t2 t1, n1 ++ n2, ?_, ?_, ?_, ?_, ?_, ?_⟩
          · by_cases hqe : queue = []
            · rw [if_pos hqe] at hq1
              simp only [Option.bind_eq_bind, Option.bind_some, if_pos hqe, hq1, m1, m2, Option.pure_def, List.append_assoc]
            · rw [if_neg hqe, Option.some.injEq] at hq1
              subst hq1
              simp only [Option.bind_eq_bind, Option.bind_some, if_neg hqe, m1, m2, Option.pure_def, List.append_assoc]
          · rw [List.map_append, List.flatten_append]
            exact ((p1.append p2).trans (by rw [es])).trans hps
          · rw [List.map_append, List.flatten_append]
            exact ((p1'.append p2').trans (by rw [et])).trans hpt
          · intro y
            have c1 := b1 y
            have c2 := b2 y
            simp only [List.length_append] at *
            unfold Tree.getBinNumber at *
            rw [Tree.route]
            split <;> constructor <;> omega
          · intro _ b hb
            rcases List.mem_append.mp hb with h | h
            · exact s1 (by intro h0; apply he; left; rw [h0]; rfl) b h
            · exact s2 (by intro h0; apply he; right; rw [h0]; rfl) b h
          · intro i b hib e hm
            by_cases hi : i < n1.length
            · rw [List.getElem?_append_left hi] at hib
              have hbm := List.mem_of_getElem? hib
              have hel : c.x e index < opt := by
                rcases List.mem_append.mp hm with h | h
                · exact sa e (p1.mem_iff.mp (List.mem_flatten.mpr ⟨_, List.mem_map_of_mem hbm, h⟩))
                · exact ta e (p1'.mem_iff.mp (List.mem_flatten.mpr ⟨_, List.mem_map_of_mem hbm, h⟩))
              have := d1 i b hib e hm
              unfold Tree.getBinNumber at *
              rw [Tree.route, if_pos hel]
              exact this
            · rw [List.getElem?_append_right (by omega)] at hib
              have hbm := List.mem_of_getElem? hib
              have hel : ¬ c.x e index < opt := by
                rcases List.mem_append.mp hm with h | h
                · exact sb e (p2.mem_iff.mp (List.mem_flatten.mpr ⟨_, List.mem_map_of_mem hbm, h⟩))
                · exact tb e (p2'.mem_iff.mp (List.mem_flatten.mpr ⟨_, List.mem_map_of_mem hbm, h⟩))
              have := d2 _ b hib e hm
              unfold Tree.getBinNumber at *
              rw [Tree.route, if_neg hel, this, List.length_append]
              omega

/-! ### The fast decision tree -/

/-- The tree an array of nodes stands for. -/
inductive FTree where
  | leaf (k : Nat)
  | node (index : Nat) (cut : ℚ) (left right : FTree)

def FTree.route : FTree → (Nat → ℚ) → Nat
  | .leaf k, _ => k
  | .node index cut l r, y => if y index > cut then r.route y else l.route y

inductive Denotes (nodes : List FNode) : Int → FTree → Prop
  | leaf (k : Nat) : Denotes nodes (-((k : Int) + 1)) (.leaf k)
  | node {a : Nat} {index : Nat} {cut : ℚ} {l r : Int} {tl tr : FTree} : nodes[a]? = some ⟨index + 1, l, r, cut⟩ → l < a → r < a →
      Denotes nodes l tl → Denotes nodes r tr → Denotes nodes a (.node index cut tl tr)

theorem Denotes.append {nodes : List FNode} {a : Int} {t : FTree} (h : Denotes nodes a t) (more : List FNode) : Denotes (nodes ++ more) a t := by
  induction h with
  | leaf k => exact .leaf k
  | node hn hl hr _ _ ihl ihr =>
    refine .node ?_ hl hr ihl ihr
    rw [List.getElem?_append_left (List.getElem?_eq_some_iff.mp hn).1]; exact hn

theorem Denotes.lt {nodes : List FNode} {a : Int} {t : FTree} (h : Denotes nodes a t) : a < nodes.length := by
  cases h with
  | leaf k => omega
  | node hn => have := (List.getElem?_eq_some_iff.mp hn).1; omega

theorem findLoop_spec {nodes : List FNode} (y : Nat → ℚ) {a : Int} {t : FTree} (h : Denotes nodes a t) : ∀ {fuel : Nat} {visited : List Int},
    0 ≤ a → a < fuel → (∀ v ∈ visited, a < v) → visited.Pairwise (· > ·) →
    ∃ path, findLoop nodes y fuel a visited = some (t.route y, path) ∧ path.Pairwise (· > ·) ∧ ∀ v ∈ path, v ≥ 0 ∧ v ∈ visited ∨ 0 ≤ v ∧ v ≤ a := by
  induction h with
  | leaf k => intro fuel visited h0; omega
  | @node a index cut l r tl tr hn hl hr dl dr ihl ihr =>
    intro fuel visited h0 hf hv hp
    cases fuel with
    | zero => omega
    | succ fuel =>
      rw [findLoop, if_neg (by omega)]
      have : ((a : Int)).toNat = a := by omega
      rw [this, hn]
      simp only
      rw [if_neg (by omega), Nat.add_sub_cancel]
      have hpath : (visited ++ [(a : Int)]).Pairwise (· > ·) := by
        rw [List.pairwise_append]
        refine ⟨hp, List.pairwise_singleton _ _, ?_⟩
        intro v hvm w hw
        rw [List.mem_singleton.mp hw]
        exact hv v hvm
      have step : ∀ (next : Int) (sub : FTree), next < a → Denotes nodes next sub →
          (∀ {fuel : Nat} {visited : List Int}, 0 ≤ next → next < fuel → (∀ v ∈ visited, next < v) → visited.Pairwise (· > ·) →
            ∃ path, findLoop nodes y fuel next visited = some (sub.route y, path) ∧ path.Pairwise (· > ·) ∧
              ∀ v ∈ path, v ≥ 0 ∧ v ∈ visited ∨ 0 ≤ v ∧ v ≤ next) →
          ∃ path, (if next < 0 then some (next.natAbs - 1, visited ++ [(a : Int)]) else if next ≥ nodes.length then none else
            findLoop nodes y fuel next (visited ++ [(a : Int)])) = some (sub.route y, path) ∧ path.Pairwise (· > ·) ∧
            ∀ v ∈ path, v ≥ 0 ∧ v ∈ visited ∨ 0 ≤ v ∧ v ≤ a := by
        intro next sub hlt hd ih
        by_cases hneg : next < 0
        · rw [if_pos hneg]
          cases hd with
          | leaf k =>
            refine ⟨visited ++ [(a : Int)], ?_, hpath, ?_⟩
            · have : (-((k : Int) + 1)).natAbs - 1 = k := by omega
              rw [this]; rfl
            · intro v hvm
              rcases List.mem_append.mp hvm with h | h
              · left; exact ⟨by have := hv v h; omega, h⟩
              · right; rw [List.mem_singleton.mp h]; omega
          | node hn' => omega
        · rw [if_neg hneg, if_neg (by have := hd.lt; omega)]
          obtain ⟨path, h1, h2, h3⟩ := ih (fuel := fuel) (visited := visited ++ [(a : Int)]) (by omega) (by omega) (by
            intro v hvm
            rcases List.mem_append.mp hvm with h | h
            · have := hv v h; omega
            · rw [List.mem_singleton.mp h]; exact hlt) hpath
          refine ⟨path, h1, h2, ?_⟩
          intro v hvm
          rcases h3 v hvm with h | h
          · rcases List.mem_append.mp h.2 with h' | h'
            · left; exact ⟨h.1, h'⟩
            · right; rw [List.mem_singleton.mp h']; omega
          · right; omega
      rw [FTree.route]
      by_cases hc : y index > cut
      · simp only [if_pos hc]
        exact step r tr hr dr ihr
      · simp only [if_neg hc]
        exact step l tl hl dl ihl

theorem fastNodes_spec (g : Good c) : ∀ (r : Nat) (evts : List E) (queue : List Nat) (s : FState (List E)), Queue c queue →
    ∃ a t nn nb, fastNodes c r evts queue s = some (a, ⟨s.nodes ++ nn, s.bins ++ nb⟩) ∧ Denotes (s.nodes ++ nn) a t ∧ nb.flatten.Perm evts ∧
      (∀ y, s.bins.length ≤ t.route y ∧ t.route y < (s.bins ++ nb).length) ∧
      (c.minEvents ≤ evts.length → ∀ b ∈ nb, c.minEvents ≤ b.length) ∧
      (0 < r → 2 * c.minEvents ≤ evts.length → nn ≠ [] ∧ a = ((s.nodes ++ nn).length : Int) - 1) := by
  intro r
  have hleaf : ∀ (evts : List E) (s : FState (List E)), ∃ a t nn nb, some (s.leaf evts) = some (a, (⟨s.nodes ++ nn, s.bins ++ nb⟩ : FState (List E))) ∧
      Denotes (s.nodes ++ nn) a t ∧ nb.flatten.Perm evts ∧ (∀ y, s.bins.length ≤ t.route y ∧ t.route y < (s.bins ++ nb).length) ∧
      (c.minEvents ≤ evts.length → ∀ b ∈ nb, c.minEvents ≤ b.length) := by
    intro evts s
    refine ⟨_, .leaf s.bins.length, [], [evts], by rw [List.append_nil]; rfl, .leaf _, by simp, ?_, ?_⟩
    · intro y; exact ⟨le_rfl, by simp [FTree.route]⟩
    · intro h b hb; rw [List.mem_singleton.mp hb]; exact h
  induction r with
  | zero =>
    intro evts queue s hq
    cases queue with
    | nil => exact absurd rfl hq.1
    | cons index queue =>
      obtain ⟨a, t, nn, nb, h1, h2, h3, h4, h5⟩ := hleaf evts s
      exact ⟨a, t, nn, nb, h1, h2, h3, h4, h5, fun h => absurd h (by omega)⟩
  | succ r ih =>
    intro evts queue s hq
    cases queue with
    | nil => exact absurd rfl hq.1
    | cons index queue =>
      rw [fastNodes]
      by_cases hlt : evts.length < 2 * c.minEvents
      · rw [if_pos hlt]
        obtain ⟨a, t, nn, nb, h1, h2, h3, h4, h5⟩ := hleaf evts s
        exact ⟨a, t, nn, nb, h1, h2, h3, h4, h5, fun _ h => absurd h (by omega)⟩
      · rw [if_neg hlt]
        have hmin := g.minEvents
        have h2 : 2 ≤ evts.length := by omega
        obtain ⟨mid, l, rt, hsp, hperm, hl, hr, hle, hge, _⟩ := splitEvents_spec g h2 index
        obtain ⟨q, hq1, hq2⟩ := next_queue g h2 (c.maxDepth + 1 - r) hq
        obtain ⟨a1, t1, nn1, nb1, m1, D1, p1, b1, s1, _⟩ := ih l q s hq2
        obtain ⟨a2, t2, nn2, nb2, m2, D2, p2, b2, s2, _⟩ := ih rt q ⟨s.nodes ++ nn1, s.bins ++ nb1⟩ hq2
        simp only at m2 D2 b2
        refine ⟨((s.nodes ++ nn1 ++ nn2).length : Int), .node index mid t1 t2, nn1 ++ nn2 ++ [⟨index + 1, a1, a2, mid⟩], nb1 ++ nb2, ?_, ?_, ?_, ?_, ?_, ?_⟩
        · by_cases hqe : queue = []
          · rw [if_pos hqe] at hq1
            simp only [hsp, Option.bind_eq_bind, Option.bind_some, if_pos hqe, hq1, m1, m2, Option.pure_def, List.append_assoc, FState.push]
          · rw [if_neg hqe, Option.some.injEq] at hq1
            subst hq1
            simp only [hsp, Option.bind_eq_bind, Option.bind_some, if_neg hqe, m1, m2, Option.pure_def, List.append_assoc, FState.push]
        · have e : s.nodes ++ (nn1 ++ nn2 ++ [⟨index + 1, a1, a2, mid⟩]) = (s.nodes ++ nn1 ++ nn2) ++ [⟨index + 1, a1, a2, mid⟩] := by
            simp only [List.append_assoc]
          rw [e]
          have l2 := D2.lt
          have l1 := (D1.append nn2).lt
          refine .node (by rw [List.getElem?_append_right le_rfl]; simp) ?_ ?_ ((D1.append nn2).append _) (D2.append _)
          · exact l1
          · exact l2
        · rw [List.flatten_append]
          exact (p1.append p2).trans hperm
        · intro y
          have c1 := b1 y
          have c2 := b2 y
          simp only [List.length_append] at *
          rw [FTree.route]
          split <;> constructor <;> omega
        · intro _ b hb
          rcases List.mem_append.mp hb with h | h
          · exact s1 (by omega) b h
          · exact s2 (by omega) b h
        · intro _ _
          refine ⟨by simp, ?_⟩
          simp only [List.length_append, List.length_cons, List.length_nil]
          omega

theorem fastNodes2_spec (g : Good c) (pick : Nat → List E → List E → Nat) (cut : List E → List E → Nat → Option ℚ) :
    ∀ (r : Nat) (source target : List E) (s : FState (List E × List E)),
    ∃ a t nn nb, fastNodes2 c pick cut r source target s = (a, ⟨s.nodes ++ nn, s.bins ++ nb⟩) ∧ Denotes (s.nodes ++ nn) a t ∧
      (nb.map Prod.fst).flatten.Perm source ∧ (nb.map Prod.snd).flatten.Perm target ∧
      (∀ y, s.bins.length ≤ t.route y ∧ t.route y < (s.bins ++ nb).length) ∧
      (∀ i b, nb[i]? = some b → ∀ e ∈ b.1 ++ b.2, t.route (c.x e) = s.bins.length + i) ∧
      (nn ≠ [] → a = ((s.nodes ++ nn).length : Int) - 1) := by
  intro r
  have hleaf : ∀ (source target : List E) (s : FState (List E × List E)),
      ∃ a t nn nb, s.leaf (source, target) = (a, (⟨s.nodes ++ nn, s.bins ++ nb⟩ : FState (List E × List E))) ∧ Denotes (s.nodes ++ nn) a t ∧
      (nb.map Prod.fst).flatten.Perm source ∧ (nb.map Prod.snd).flatten.Perm target ∧
      (∀ y, s.bins.length ≤ t.route y ∧ t.route y < (s.bins ++ nb).length) ∧
      (∀ i b, nb[i]? = some b → ∀ e ∈ b.1 ++ b.2, t.route (c.x e) = s.bins.length + i) ∧
      (nn ≠ [] → a = ((s.nodes ++ nn).length : Int) - 1) := by
    intro source target s
    refine ⟨_, .leaf s.bins.length, [], [(source, target)], by rw [List.append_nil]; rfl, .leaf _, by simp, by simp, ?_, ?_, ?_⟩
    · intro y; exact ⟨le_rfl, by simp [FTree.route]⟩
    · intro i b hib e he
      have hi : i = 0 := by
        have := (List.getElem?_eq_some_iff.mp hib).1
        simpa using this
      subst hi; rfl
    · intro h; exact absurd rfl h
  induction r with
  | zero => intro source target s; exact hleaf source target s
  | succ r ih =>
    intro source target s
    rw [fastNodes2]
    by_cases hlt : source.length < 2 * c.minEvents ∨ target.length < 2 * c.minEvents
    · rw [if_pos hlt]; exact hleaf source target s
    · rw [if_neg hlt]
      simp only
      cases hcut : cut (c.sort (pick r source target) source) (c.sort (pick r source target) target) (pick r source target) with
      | none => exact hleaf source target s
      | some opt =>
        simp only
        generalize pick r source target = index at *
        obtain ⟨sa, sb⟩ := sorted_le opt (g.sorted index source)
        obtain ⟨ta, tb⟩ := sorted_le opt (g.sorted index target)
        have hps := g.perm index source
        have hpt := g.perm index target
        generalize c.sort index source = sc at *
        generalize c.sort index target = tc at *
        have es : (sc.takeWhile fun e => decide (c.x e index ≤ opt)) ++ (sc.dropWhile fun e => decide (c.x e index ≤ opt)) = sc :=
          List.takeWhile_append_dropWhile
        have et : (tc.takeWhile fun e => decide (c.x e index ≤ opt)) ++ (tc.dropWhile fun e => decide (c.x e index ≤ opt)) = tc :=
          List.takeWhile_append_dropWhile
        generalize (sc.takeWhile fun e => decide (c.x e index ≤ opt)) = sl at *
        generalize (sc.dropWhile fun e => decide (c.x e index ≤ opt)) = sr at *
        generalize (tc.takeWhile fun e => decide (c.x e index ≤ opt)) = tl at *
        generalize (tc.dropWhile fun e => decide (c.x e index ≤ opt)) = tr at *
        by_cases he : sl.length = 0 ∨ sr.length = 0
        · rw [if_pos he]; exact hleaf source target s
        · rw [if_neg he]
          obtain ⟨a1, t1, nn1, nb1, m1, D1, p1, p1', b1, d1, _⟩ := ih sl tl s
          obtain ⟨a2, t2, nn2, nb2, m2, D2, p2, p2', b2, d2, _⟩ := ih sr tr ⟨s.nodes ++ nn1, s.bins ++ nb1⟩
          simp only at m2 D2 b2 d2
          refine ⟨((s.nodes ++ nn1 ++ nn2).length : Int), .node index opt t1 t2, nn1 ++ nn2 ++ [⟨index + 1, a1, a2, opt⟩], nb1 ++ nb2,
            ?_, ?_, ?_, ?_, ?_, ?_, ?_⟩
          · simp only [m1, m2, FState.push, List.append_assoc]
          · have e : s.nodes ++ (nn1 ++ nn2 ++ [⟨index + 1, a1, a2, opt⟩]) = (s.nodes ++ nn1 ++ nn2) ++ [⟨index + 1, a1, a2, opt⟩] := by
              simp only [List.append_assoc]
            rw [e]
            have l2 := D2.lt
            have l1 := (D1.append nn2).lt
            exact .node (by rw [List.getElem?_append_right le_rfl]; simp) l1 l2 ((D1.append nn2).append _) (D2.append _)
          · rw [List.map_append, List.flatten_append]
            exact ((p1.append p2).trans (by rw [es])).trans hps
          · rw [List.map_append, List.flatten_append]
            exact ((p1'.append p2').trans (by rw [et])).trans hpt
          · intro y
            have c1 := b1 y
            have c2 := b2 y
            simp only [List.length_append] at *
            rw [FTree.route]
            split <;> constructor <;> omega
          · intro i b hib e hm
            by_cases hi : i < nb1.length
            · rw [List.getElem?_append_left hi] at hib
              have hbm := List.mem_of_getElem? hib
              have hel : c.x e index ≤ opt := by
                rcases List.mem_append.mp hm with h | h
                · exact sa e (p1.mem_iff.mp (List.mem_flatten.mpr ⟨_, List.mem_map_of_mem hbm, h⟩))
                · exact ta e (p1'.mem_iff.mp (List.mem_flatten.mpr ⟨_, List.mem_map_of_mem hbm, h⟩))
              rw [FTree.route, if_neg (not_lt.mpr hel)]
              exact d1 i b hib e hm
            · rw [List.getElem?_append_right (by omega)] at hib
              have hbm := List.mem_of_getElem? hib
              have hel : ¬ c.x e index ≤ opt := by
                rcases List.mem_append.mp hm with h | h
                · exact sb e (p2.mem_iff.mp (List.mem_flatten.mpr ⟨_, List.mem_map_of_mem hbm, h⟩))
                · exact tb e (p2'.mem_iff.mp (List.mem_flatten.mpr ⟨_, List.mem_map_of_mem hbm, h⟩))
              rw [FTree.route, if_pos (not_le.mp hel), d2 _ b hib e hm, List.length_append]
              omega
          · intro _
            simp only [List.length_append, List.length_cons, List.length_nil]
            omega

end AmpGen.Binning
