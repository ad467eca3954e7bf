import Verif.DecayChain.LemmasA
import Verif.DecayChain.Spec
/-
The constructor lays the tree out in the array of nodes.
-/
namespace AmpGen.DecayChain

open Classical

/-- Number of decays in a tree. -/
def Tree.size : Tree → Nat
  | .leaf .. => 0
  | .res _ a b => a.size + b.size + 1

def Tree.IsRes : Tree → Prop
  | .leaf .. => False
  | .res .. => True

theorem Tree.size_leaves (t : Tree) : t.size + 1 = t.leaves.length := by
  induction t with
  | leaf => rfl
  | res i a b iha ihb => simp only [Tree.size, Tree.leaves, List.length_append]; omega

/-- Node `idx - N` and those below it hold the tree `t` and are the nodes `ids`; `f` says what a node holds. -/
def Rep (f : Nat → Info → Tree → Tree → Nat → Nat → Node) (N : Nat) (nodes : Nat → Node) : Tree → Nat → List Nat → Prop
  | .leaf i _, idx, ids => idx = i ∧ ids = []
  | .res i a b, idx, ids => ∃ k l r A B, idx = k + N ∧ nodes k = f k i a b l r ∧ Rep f N nodes a l A ∧
      Rep f N nodes b r B ∧ ids = k :: (A ++ B) ∧ ∀ x ∈ A ++ B, k < x

theorem Rep.length {f N nodes} : ∀ {t idx ids}, Rep f N nodes t idx ids → ids.length = t.size := by
  intro t
  induction t with
  | leaf i m => intro idx ids h; rw [h.2]; rfl
  | res i a b iha ihb =>
    rintro idx ids ⟨k, l, r, A, B, _, _, ha, hb, rfl, _⟩
    simp only [List.length_cons, List.length_append, Tree.size, iha ha, ihb hb]

theorem Rep.congr {f N nodes nodes'} : ∀ {t idx ids}, Rep f N nodes t idx ids → (∀ k ∈ ids, nodes k = nodes' k) →
    Rep f N nodes' t idx ids := by
  intro t
  induction t with
  | leaf i m => intro idx ids h _; exact h
  | res i a b iha ihb =>
    rintro idx ids ⟨k, l, r, A, B, h1, h2, ha, hb, rfl, h5⟩ hc
    refine ⟨k, l, r, A, B, h1, ?_, iha ha ?_, ihb hb ?_, rfl, h5⟩
    · rw [← hc k (by simp)]; exact h2
    · intro x hx; exact hc x (by simp [hx])
    · intro x hx; exact hc x (by simp [hx])

/-- What `child` does. -/
theorem child_spec (N : Nat) (t : Tree) (c : Nat) (toDo : List (Tree × Nat)) :
    ∃ pushed : List (Tree × Nat), (child N t c toDo).2.2 = pushed ++ toDo ∧
      (child N t c toDo).2.1 = c + pushed.length ∧ pushed.map Prod.snd = List.range' (c + 1) pushed.length ∧
      (∀ p ∈ pushed, p.1.IsRes) ∧ (pushed.map fun p => p.1.size).sum = t.size ∧
      ∀ f nodes idss, List.Forall₂ (fun p ids => Rep f N nodes p.1 (p.2 + N) ids) pushed idss →
        Rep f N nodes t (child N t c toDo).1 idss.flatten := by
  cases t with
  | leaf i m =>
    refine ⟨[], rfl, rfl, rfl, by simp, rfl, ?_⟩
    intro f nodes idss h
    cases h
    exact ⟨rfl, rfl⟩
  | res i a b =>
    refine ⟨[(.res i a b, c + 1)], rfl, rfl, by simp, by simp [Tree.IsRes], by simp, ?_⟩
    intro f nodes idss h
    cases h with
    | cons h1 h2 =>
      cases h2
      simpa [child] using h1

theorem forall₂_append_left {α β : Type} {R : α → β → Prop} : ∀ {a b : List α} {c : List β},
    List.Forall₂ R (a ++ b) c → ∃ c1 c2, c = c1 ++ c2 ∧ List.Forall₂ R a c1 ∧ List.Forall₂ R b c2 := by
  intro a
  induction a with
  | nil => intro b c h; exact ⟨[], c, rfl, List.Forall₂.nil, h⟩
  | cons x a ih =>
    intro b c h
    cases h with
    | cons h1 h2 =>
      obtain ⟨c1, c2, rfl, h3, h4⟩ := ih h2
      exact ⟨_ :: c1, c2, rfl, List.Forall₂.cons h1 h3, h4⟩

theorem forall₂_mem_flatten {α : Type} {R : α → List Nat → Prop} {a : List α} {c : List (List Nat)} :
    List.Forall₂ R a c → ∀ x ∈ a, ∃ l ∈ c, R x l := by
  intro h
  induction h with
  | nil => simp
  | cons h1 _ ih =>
    intro x hx
    rcases List.mem_cons.mp hx with rfl | hx
    · exact ⟨_, by simp, h1⟩
    · obtain ⟨l, hl, hr⟩ := ih x hx
      exact ⟨l, by simp [hl], hr⟩

/-- Every tree on the stack ends up in the array, in nodes of its own. -/
theorem build_spec (N : Nat) (gap : ℝ) : ∀ (fuel : Nat) (stack : List (Tree × Nat)) (c : Nat) (nodes : Nat → Node),
    (∀ p ∈ stack, p.1.IsRes) → (stack.map Prod.snd).Nodup → (∀ p ∈ stack, p.2 ≤ c) →
    (stack.map fun p => p.1.size).sum ≤ fuel →
    (∀ x, x ≤ c → x ∉ stack.map Prod.snd → build N gap fuel stack c nodes x = nodes x) ∧
    ∃ idss, List.Forall₂ (fun p ids => Rep (mkNode gap) N (build N gap fuel stack c nodes) p.1 (p.2 + N) ids) stack idss ∧
      idss.flatten.Perm (stack.map Prod.snd ++
        List.range' (c + 1) ((stack.map fun p => p.1.size).sum - stack.length)) := by
  intro fuel
  induction fuel with
  | zero =>
    intro stack c nodes hres hnd hle hf
    cases stack with
    | nil => exact ⟨fun _ _ _ => rfl, [], List.Forall₂.nil, by simp⟩
    | cons p rest =>
      exfalso
      have := hres p (by simp)
      cases hp : p.1 with
      | leaf => rw [hp] at this; exact this
      | res i a b => simp [hp, Tree.size] at hf
  | succ fuel ih =>
    intro stack c nodes hres hnd hle hf
    match stack, hres, hnd, hle, hf with
    | [], _, _, _, _ => exact ⟨fun _ _ _ => rfl, [], List.Forall₂.nil, by simp⟩
    | (.leaf x y, z) :: toDo, hres, _, _, _ =>
      exact absurd (hres (.leaf x y, z) (by simp)) (by simp [Tree.IsRes])
    | (.res i a b, index) :: toDo, hres, hnd, hle, hf =>
      simp only [build]
      obtain ⟨pa, a1, a2, a3, a4, a5, a6⟩ := child_spec N a c toDo
      obtain ⟨pb, b1, b2, b3, b4, b5, b6⟩ := child_spec N b (child N a c toDo).2.1 (child N a c toDo).2.2
      generalize child N b (child N a c toDo).2.1 (child N a c toDo).2.2 = cb at *
      generalize child N a c toDo = ca at *
      rw [a1] at b1
      rw [a2] at b2 b3
      rw [b1, b2]
      set nodes' := Function.update nodes index (mkNode gap index i a b ca.1 cb.1) with hn'
      simp only [List.map_cons, List.nodup_cons] at hnd
      have hidx : index ≤ c := hle (Tree.res i a b, index) (by simp)
      have hle' : ∀ p ∈ toDo, p.2 ≤ c := fun p hp => hle p (by simp [hp])
      have hsnds : (pb ++ (pa ++ toDo)).map Prod.snd =
          List.range' (c + pa.length + 1) pb.length ++ (List.range' (c + 1) pa.length ++ toDo.map Prod.snd) := by
        rw [List.map_append, List.map_append, a3, b3]
      have hnew : (∀ p ∈ pb ++ (pa ++ toDo), p.1.IsRes) := by
        intro p hp
        rcases List.mem_append.mp hp with hp | hp
        · exact b4 p hp
        · rcases List.mem_append.mp hp with hp | hp
          · exact a4 p hp
          · exact hres p (by simp [hp])
      have hmemTo : ∀ x ∈ toDo.map Prod.snd, x ≤ c := by
        intro x hx
        obtain ⟨p, hp, rfl⟩ := List.mem_map.mp hx
        exact hle' p hp
      have hnd' : ((pb ++ (pa ++ toDo)).map Prod.snd).Nodup := by
        rw [hsnds]
        rw [List.nodup_append, List.nodup_append]
        refine ⟨List.nodup_range', ⟨List.nodup_range', hnd.2, ?_⟩, ?_⟩
        · intro x hx y hy hxy
          have := hmemTo y hy
          rw [List.mem_range'_1] at hx
          omega
        · intro x hx y hy hxy
          rw [List.mem_range'_1] at hx
          rcases List.mem_append.mp hy with hy | hy
          · rw [List.mem_range'_1] at hy; omega
          · have := hmemTo y hy; omega
      have hle'' : ∀ p ∈ pb ++ (pa ++ toDo), p.2 ≤ c + pa.length + pb.length := by
        intro p hp
        have : p.2 ∈ (pb ++ (pa ++ toDo)).map Prod.snd := List.mem_map_of_mem hp
        rw [hsnds] at this
        rcases List.mem_append.mp this with h | h
        · rw [List.mem_range'_1] at h; omega
        · rcases List.mem_append.mp h with h | h
          · rw [List.mem_range'_1] at h; omega
          · have := hmemTo _ h; omega
      have hsum : ((pb ++ (pa ++ toDo)).map fun p => p.1.size).sum = b.size + a.size + (toDo.map fun p => p.1.size).sum := by
        rw [List.map_append, List.map_append, List.sum_append, List.sum_append, a5, b5]; omega
      have hf' : ((pb ++ (pa ++ toDo)).map fun p => p.1.size).sum ≤ fuel := by
        rw [hsum]
        simp only [List.map_cons, List.sum_cons, Tree.size] at hf
        omega
      obtain ⟨keep, idss, hall, hperm⟩ := ih (pb ++ (pa ++ toDo)) (c + pa.length + pb.length) nodes' hnew hnd' hle'' hf'
      set R := build N gap fuel (pb ++ (pa ++ toDo)) (c + pa.length + pb.length) nodes' with hR
      have hnotin : ∀ x, x ≤ c → x ∉ toDo.map Prod.snd → x ∉ (pb ++ (pa ++ toDo)).map Prod.snd := by
        intro x hx hxt
        rw [hsnds]
        simp only [List.mem_append, not_or, List.mem_range'_1]
        exact ⟨by omega, by omega, hxt⟩
      have hRi : R index = nodes' index := keep index (by omega) (hnotin index hidx hnd.1)
      obtain ⟨ib, irest, rfl, hb', hrest⟩ := forall₂_append_left hall
      obtain ⟨ia, it, rfl, ha', ht'⟩ := forall₂_append_left hrest
      constructor
      · intro x hx hxn
        simp only [List.map_cons, List.mem_cons, not_or] at hxn
        rw [keep x (by omega) (hnotin x hx hxn.2), hn', Function.update_of_ne hxn.1]
      · have hflat : (ib ++ (ia ++ it)).flatten = ib.flatten ++ (ia.flatten ++ it.flatten) := by simp
        rw [hflat] at hperm
        refine ⟨(index :: (ia.flatten ++ ib.flatten)) :: it, List.Forall₂.cons ?_ ht', ?_⟩
        · refine ⟨index, _, _, ia.flatten, ib.flatten, rfl, ?_, a6 _ _ _ ha', b6 _ _ _ hb', rfl, ?_⟩
          · rw [hRi, hn', Function.update_self]
          · -- every other node of this tree is numbered later
            intro x hx
            -- nodes of the new trees: not among the old indices
            have hnd2 : (ib.flatten ++ (ia.flatten ++ it.flatten)).Nodup := by
              rw [hperm.nodup_iff, List.nodup_append]
              refine ⟨hnd', List.nodup_range', ?_⟩
              intro y hy z hz hyz
              obtain ⟨p, hp, rfl⟩ := List.mem_map.mp hy
              have := hle'' p hp
              rw [List.mem_range'_1] at hz
              omega
            have hx2 : x ∈ ib.flatten ++ (ia.flatten ++ it.flatten) := by
              simp only [List.mem_append] at hx ⊢
              tauto
            have hx3 := hperm.mem_iff.mp hx2
            rw [hsnds] at hx3
            simp only [List.mem_append, List.mem_range'_1] at hx3
            rcases hx3 with (h | h | h) | h
            · omega
            · omega
            · exfalso
              -- an index of the rest of the stack heads one of the other lists
              obtain ⟨p, hp, hpx⟩ := List.mem_map.mp h
              obtain ⟨l, hl, hrep⟩ := forall₂_mem_flatten ht' p hp
              have hxl : x ∈ l := by
                have hr := hres p (by simp [hp])
                cases hpt : p.1 with
                | leaf => rw [hpt] at hr; exact absurd hr (by simp [Tree.IsRes])
                | res i' a' b' =>
                  rw [hpt] at hrep
                  obtain ⟨k, _, _, _, _, hk, _, _, _, rfl, _⟩ := hrep
                  have : k = x := by omega
                  simp [this]
              have hxt : x ∈ it.flatten := List.mem_flatten.mpr ⟨l, hl, hxl⟩
              rw [← List.append_assoc, List.nodup_append] at hnd2
              refine hnd2.2.2 x ?_ x hxt rfl
              simp only [List.mem_append] at hx ⊢
              tauto
            · omega
        · simp only [List.flatten_cons, List.map_cons, List.cons_append]
          refine List.Perm.cons _ ?_
          rw [hsnds] at hperm
          have hlen : (pb ++ (pa ++ toDo)).length = pb.length + (pa.length + toDo.length) := by simp
          have hpl : ∀ (q : List (Tree × Nat)), (∀ p ∈ q, p.1.IsRes) → q.length ≤ (q.map fun p => p.1.size).sum := by
            intro q hq
            induction q with
            | nil => simp
            | cons p q ihq =>
              have h1 := ihq (fun p' hp' => hq p' (by simp [hp']))
              have h2 := hq p (by simp)
              cases hp : p.1 with
              | leaf => rw [hp] at h2; exact absurd h2 (by simp [Tree.IsRes])
              | res => simp only [List.length_cons, List.map_cons, List.sum_cons, hp, Tree.size]; omega
          have hl1 := hpl pa a4
          have hl2 := hpl pb b4
          rw [a5] at hl1
          rw [b5] at hl2
          have hl3 := hpl toDo (fun p hp => hres p (by simp [hp]))
          rw [hsum, hlen] at hperm
          simp only [List.map_cons, List.sum_cons, Tree.size, List.length_cons]
          have hcount : a.size + b.size + 1 + (toDo.map fun p => p.1.size).sum - (toDo.length + 1) =
            pa.length + (pb.length + (b.size + a.size + (toDo.map fun p => p.1.size).sum - (pb.length + (pa.length + toDo.length)))) := by
            omega
          rw [hcount, ← List.range'_append_1 (s := c + 1) (m := pa.length), ← List.range'_append_1 (s := c + 1 + pa.length) (m := pb.length)]
          have e1 : c + pa.length + 1 = c + 1 + pa.length := by omega
          have e2 : c + pa.length + pb.length + 1 = c + 1 + pa.length + pb.length := by omega
          rw [e1, e2] at hperm
          generalize List.range' (c + 1 + pa.length + pb.length) _ = X3 at hperm ⊢
          generalize List.range' (c + 1 + pa.length) pb.length = X2 at hperm ⊢
          generalize List.range' (c + 1) pa.length = X1 at hperm ⊢
          generalize toDo.map Prod.snd = T at hperm ⊢
          have p1 : (ia.flatten ++ ib.flatten ++ it.flatten).Perm (ib.flatten ++ (ia.flatten ++ it.flatten)) := by
            rw [List.append_assoc]
            rw [← List.append_assoc, ← List.append_assoc]
            exact List.Perm.append_right _ List.perm_append_comm
          refine p1.trans (hperm.trans ?_)
          have : (X2 ++ (X1 ++ T)).Perm (T ++ (X1 ++ X2)) := by
            rw [← List.append_assoc]
            exact (List.perm_append_comm.append_right T).trans List.perm_append_comm
          refine (this.append_right X3).trans ?_
          simp only [List.append_assoc]
          exact List.Perm.refl _

end AmpGen.DecayChain
