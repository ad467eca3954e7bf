import Verif.Particle.Model
/-
The splitting of descriptors with nested brackets.
-/
namespace AmpGen.Particle
open AmpGen.Strings

/-- None of the characters occurs in the text. -/
def NoneOf (cs : List Char) (s : Str) : Prop := ∀ x ∈ s, x ∉ cs

/-- The texts in which brackets are nested correctly: a plain text, or a plain text followed by items between brackets. -/
inductive Shape (o c sep : Char) : Str → Prop
  | atom (h : Str) : NoneOf [o, c, sep] h → Shape o c sep h
  | node (h : Str) (items : List Str) : NoneOf [o, c, sep] h → items ≠ [] → (∀ i ∈ items, Shape o c sep i) → Shape o c sep (h ++ o :: ([sep].intercalate items ++ [c]))

theorem intercalate_single (sep : Str) (a : Str) : sep.intercalate [a] = a := by simp [List.intercalate]

theorem intercalate_cons (sep : Char) (a b : Str) (l : List Str) : [sep].intercalate (a :: b :: l) = a ++ sep :: [sep].intercalate (b :: l) := by simp [List.intercalate]

theorem bracesFrom_append (o c : Char) : ∀ (u v : Str) (p : Nat), bracesFrom o c (u ++ v) p = bracesFrom o c u p ++ bracesFrom o c v (p + u.length)
  | [], v, p => by simp [bracesFrom]
  | x :: xs, v, p => by
    have hp : p + (x :: xs).length = p + 1 + xs.length := by simp; omega
    rw [List.cons_append, bracesFrom, bracesFrom, bracesFrom_append o c xs v (p + 1), hp]
    split
    · rfl
    · split <;> rfl

theorem positionsFrom_append (sep : Char) : ∀ (u v : Str) (p : Nat), positionsFrom sep (u ++ v) p = positionsFrom sep u p ++ positionsFrom sep v (p + u.length)
  | [], v, p => by simp [positionsFrom]
  | x :: xs, v, p => by
    have hp : p + (x :: xs).length = p + 1 + xs.length := by simp; omega
    rw [List.cons_append, positionsFrom, positionsFrom, positionsFrom_append sep xs v (p + 1), hp]
    split <;> rfl

theorem bracesFrom_none (o c : Char) : ∀ (u : Str) (p : Nat), o ∉ u → c ∉ u → bracesFrom o c u p = []
  | [], _, _, _ => rfl
  | x :: xs, p, ho, hc => by
    have h1 : ¬ x = o := fun h => ho (h ▸ List.mem_cons_self)
    have h2 : ¬ x = c := fun h => hc (h ▸ List.mem_cons_self)
    rw [bracesFrom, if_neg h1, if_neg h2]
    exact bracesFrom_none o c xs _ (fun h => ho (List.mem_cons_of_mem _ h)) (fun h => hc (List.mem_cons_of_mem _ h))

theorem positionsFrom_none (sep : Char) : ∀ (u : Str) (p : Nat), sep ∉ u → positionsFrom sep u p = []
  | [], _, _ => rfl
  | x :: xs, p, hs => by
    have h1 : ¬ x = sep := fun h => hs (h ▸ List.mem_cons_self)
    rw [positionsFrom, if_neg h1]
    exact positionsFrom_none sep xs _ fun h => hs (List.mem_cons_of_mem _ h)

theorem bracesFrom_range (o c : Char) : ∀ (u : Str) (p : Nat) (b : Nat × Bool), b ∈ bracesFrom o c u p → p ≤ b.1 ∧ b.1 < p + u.length
  | [], _, _, h => by simp [bracesFrom] at h
  | x :: xs, p, b, h => by
    have key : b ∈ bracesFrom o c xs (p + 1) → p ≤ b.1 ∧ b.1 < p + (x :: xs).length := by
      intro h
      have := bracesFrom_range o c xs (p + 1) b h
      simp only [List.length_cons]; omega
    rw [bracesFrom] at h
    split at h
    · rcases List.mem_cons.1 h with rfl | h
      · simp
      · exact key h
    · split at h
      · rcases List.mem_cons.1 h with rfl | h
        · simp
        · exact key h
      · exact key h

theorem positionsFrom_range (sep : Char) : ∀ (u : Str) (p : Nat) (b : Nat), b ∈ positionsFrom sep u p → p ≤ b ∧ b < p + u.length
  | [], _, _, h => by simp [positionsFrom] at h
  | x :: xs, p, b, h => by
    have key : b ∈ positionsFrom sep xs (p + 1) → p ≤ b ∧ b < p + (x :: xs).length := by
      intro h
      have := positionsFrom_range sep xs (p + 1) b h
      simp only [List.length_cons]; omega
    rw [positionsFrom] at h
    split at h
    · rcases List.mem_cons.1 h with rfl | h
      · simp
      · exact key h
    · exact key h

theorem closing_mem : ∀ (l : List (Nat × Bool)) (d : Int) (q : Nat), closing d l = some q → ∃ b, (q, b) ∈ l
  | [], _, _, h => by simp [closing] at h
  | (p, b) :: rest, d, q, h => by
    rw [closing] at h
    obtain ⟨e, he⟩ : ∃ e, d + (if b = true then 1 else -1) = e := ⟨_, rfl⟩
    rw [he] at h
    split at h
    · exact ⟨b, by rw [← Option.some.inj h]; exact List.mem_cons_self⟩
    · obtain ⟨b', hb⟩ := closing_mem rest _ q h
      exact ⟨b', List.mem_cons_of_mem _ hb⟩

theorem matched_mem : ∀ (l : List (Nat × Bool)) (b : Nat × Nat), b ∈ matched l → (∃ x, (b.1, x) ∈ l) ∧ ∃ x, (b.2, x) ∈ l
  | [], _, h => by simp [matched] at h
  | (p, true) :: rest, b, h => by
    have key : b ∈ matched rest → (∃ x, (b.1, x) ∈ (p, true) :: rest) ∧ ∃ x, (b.2, x) ∈ (p, true) :: rest := by
      intro h
      obtain ⟨⟨x, hx⟩, y, hy⟩ := matched_mem rest b h
      exact ⟨⟨x, List.mem_cons_of_mem _ hx⟩, y, List.mem_cons_of_mem _ hy⟩
    rw [matched] at h
    split at h
    · rename_i q hq
      rcases List.mem_cons.1 h with rfl | h
      · obtain ⟨y, hy⟩ := closing_mem _ _ _ hq
        exact ⟨⟨true, List.mem_cons_self⟩, y, List.mem_cons_of_mem _ hy⟩
      · exact key h
    · exact key h
  | (p, false) :: rest, b, h => by
    rw [matched] at h
    obtain ⟨⟨x, hx⟩, y, hy⟩ := matched_mem rest b h
    exact ⟨⟨x, List.mem_cons_of_mem _ hx⟩, y, List.mem_cons_of_mem _ hy⟩

theorem matched_range (o c : Char) (u : Str) (p : Nat) (b : Nat × Nat) (h : b ∈ matched (bracesFrom o c u p)) : p ≤ b.1 ∧ b.2 < p + u.length := by
  obtain ⟨⟨x, hx⟩, y, hy⟩ := matched_mem _ _ h
  exact ⟨(bracesFrom_range o c u p _ hx).1, (bracesFrom_range o c u p _ hy).2⟩

variable {o c sep : Char}

theorem bracesFrom_node (hoc : o ≠ c) (h body : Str) (p : Nat) (hh : NoneOf [o, c, sep] h) :
    bracesFrom o c (h ++ o :: (body ++ [c])) p = (p + h.length, true) :: (bracesFrom o c body (p + h.length + 1) ++ [(p + h.length + 1 + body.length, false)]) := by
  rw [bracesFrom_append, bracesFrom_none o c h p (fun x => hh _ x (by simp)) (fun x => hh _ x (by simp)), List.nil_append, bracesFrom, if_pos rfl, bracesFrom_append]
  simp [bracesFrom, Ne.symm hoc]

/-- What nested brackets do to the two scans: they do not change an open count, and their pairs come first. -/
structure Neutral (o c : Char) (w : Str) : Prop where
  closing : ∀ (p : Nat) (R : List (Nat × Bool)) (d : Int), 1 ≤ d → closing d (bracesFrom o c w p ++ R) = closing d R
  matched : ∀ (p : Nat) (R : List (Nat × Bool)), matched (bracesFrom o c w p ++ R) = matched (bracesFrom o c w p) ++ matched R

theorem Neutral.nil_of (w : Str) (h : ∀ p, bracesFrom o c w p = []) : Neutral o c w := by
  constructor
  · intro p R d _; rw [h, List.nil_append]
  · intro p R; rw [h, List.nil_append]; rfl

theorem Neutral.append {u v : Str} (hu : Neutral o c u) (hv : Neutral o c v) : Neutral o c (u ++ v) := by
  constructor
  · intro p R d hd
    rw [bracesFrom_append, List.append_assoc, hu.closing _ _ _ hd, hv.closing _ _ _ hd]
  · intro p R
    rw [bracesFrom_append, List.append_assoc, hu.matched, hv.matched, hu.matched, List.append_assoc]

theorem Neutral.intercalate (hso : sep ≠ o) (hsc : sep ≠ c) : ∀ (l : List Str), (∀ w ∈ l, Neutral o c w) → Neutral o c ([sep].intercalate l)
  | [], _ => Neutral.nil_of _ fun _ => rfl
  | [a], h => by rw [intercalate_single]; exact h a List.mem_cons_self
  | a :: b :: l, h => by
    rw [intercalate_cons]
    have hs : Neutral o c [sep] := Neutral.nil_of _ fun p => by simp [bracesFrom, hso, hsc]
    have := (h a List.mem_cons_self).append (hs.append (Neutral.intercalate hso hsc (b :: l) fun w hw => h w (List.mem_cons_of_mem _ hw)))
    simpa using this

theorem matched_node (h body : Str) (p : Nat) (hoc : o ≠ c) (hh : NoneOf [o, c, sep] h) (hb : Neutral o c body) (R : List (Nat × Bool)) :
    matched (bracesFrom o c (h ++ o :: (body ++ [c])) p ++ R) = (p + h.length, p + h.length + 1 + body.length) :: (matched (bracesFrom o c body (p + h.length + 1)) ++ matched R) := by
  rw [bracesFrom_node hoc h body p hh, List.cons_append, List.append_assoc, matched, hb.closing _ _ _ (le_refl _)]
  have hc : closing 1 ([(p + h.length + 1 + body.length, false)] ++ R) = some (p + h.length + 1 + body.length) := by simp [closing]
  rw [hc]
  simp only
  rw [hb.matched]
  rfl

theorem shape_neutral (hoc : o ≠ c) (hso : sep ≠ o) (hsc : sep ≠ c) {w : Str} (hw : Shape o c sep w) : Neutral o c w := by
  induction hw with
  | atom h hh => exact Neutral.nil_of _ fun p => bracesFrom_none o c h p (fun x => hh _ x (by simp)) (fun x => hh _ x (by simp))
  | node h items hh _ _ ih =>
    have hb := Neutral.intercalate (o := o) (c := c) hso hsc items ih
    constructor
    · intro p R d hd
      rw [bracesFrom_node hoc h _ p hh, List.cons_append, closing]
      have h1 : ¬ d + (if true = true then 1 else -1) = 0 := by simp; omega
      rw [if_neg h1, if_pos rfl, List.append_assoc, hb.closing _ _ _ (by omega), List.singleton_append, closing]
      have h2 : ¬ d + 1 + (if false = true then 1 else -1) = 0 := by simp; omega
      rw [if_neg h2]
      congr 1
      simp
    · intro p R
      rw [matched_node h _ p hoc hh hb R]
      have := matched_node h _ p hoc hh hb []
      rw [List.append_nil] at this
      rw [this]
      simp [matched]

/-- Separators in a nested text are inside one of its pairs. -/
theorem shape_inside (hoc : o ≠ c) (hso : sep ≠ o) (hsc : sep ≠ c) {w : Str} (hw : Shape o c sep w) (p x : Nat) (hx : x ∈ positionsFrom sep w p) :
    ∃ b ∈ matched (bracesFrom o c w p), b.1 < x ∧ x < b.2 := by
  cases hw with
  | atom h hh => rw [positionsFrom_none sep _ p fun x => hh _ x (by simp)] at hx; simp at hx
  | node h items hh _ hi =>
    have hb := Neutral.intercalate (o := o) (c := c) hso hsc items fun w hw => shape_neutral hoc hso hsc (hi w hw)
    have := matched_node h _ p hoc hh hb []
    rw [List.append_nil] at this
    rw [this]
    refine ⟨_, List.mem_cons_self, ?_⟩
    rw [positionsFrom_append, positionsFrom_none sep h p fun x => hh _ x (by simp), List.nil_append, positionsFrom, if_neg (Ne.symm hso), positionsFrom_append, List.mem_append] at hx
    rcases hx with hx | hx
    · have := positionsFrom_range sep _ _ _ hx
      simp only; omega
    · simp [positionsFrom, Ne.symm hsc] at hx

theorem splitLoop_skip (tree : Str) (inner : List (Nat × Nat)) : ∀ (cs rest : List Nat) (b : Nat) (acc : List Str), (∀ x ∈ cs, ∃ b ∈ inner, b.1 < x ∧ x < b.2) →
    splitLoop tree inner (cs ++ rest) b acc = splitLoop tree inner rest b acc
  | [], _, _, _, _ => rfl
  | x :: cs, rest, b, acc, h => by
    have hx : (inner.any fun b => decide (b.1 < x ∧ x < b.2)) = true := by
      obtain ⟨b, hb, h1⟩ := h x List.mem_cons_self
      exact List.any_eq_true.2 ⟨b, hb, decide_eq_true h1⟩
    rw [List.cons_append, splitLoop, if_pos hx]
    exact splitLoop_skip tree inner cs rest b acc fun y hy => h y (List.mem_cons_of_mem _ hy)

theorem substr_middle (u v w : Str) : substr (u ++ v ++ w) u.length (u.length + v.length) = v := by
  have h : ¬ u.length + v.length < u.length := by omega
  rw [substr, if_neg h, List.append_assoc, List.drop_left, Nat.add_sub_cancel_left, List.take_left]

theorem splitLoop_items (hoc : o ≠ c) (hso : sep ≠ o) (hsc : sep ≠ c) (tree : Str) : ∀ (items : List Str) (pre post : Str) (L : List (Nat × Nat)) (acc : List Str),
    items ≠ [] → (∀ w ∈ items, Shape o c sep w) → tree = pre ++ [sep].intercalate items ++ post → (∀ b ∈ L, b.2 < pre.length) →
    (let r := splitLoop tree (L ++ matched (bracesFrom o c ([sep].intercalate items) pre.length)) (positionsFrom sep ([sep].intercalate items) pre.length) pre.length acc
     r.1 ++ [substr tree r.2 (pre.length + ([sep].intercalate items).length)]) = acc ++ items
  | [], _, _, _, _, h, _, _, _ => absurd rfl h
  | [w], pre, post, L, acc, _, hs, ht, hL => by
    rw [intercalate_single] at ht ⊢
    have h := splitLoop_skip tree (L ++ matched (bracesFrom o c w pre.length)) (positionsFrom sep w pre.length) [] pre.length acc (by
      intro x hx
      obtain ⟨b, hb, h1⟩ := shape_inside hoc hso hsc (hs w List.mem_cons_self) _ _ hx
      exact ⟨b, List.mem_append.2 (Or.inr hb), h1⟩)
    rw [List.append_nil] at h
    simp only
    rw [h, splitLoop]
    simp only
    rw [ht, substr_middle]
  | w :: w' :: rest, pre, post, L, acc, _, hs, ht, hL => by
    have hw := hs w List.mem_cons_self
    rw [intercalate_cons] at ht ⊢
    have hsep : bracesFrom o c [sep] (pre.length + w.length) = [] := bracesFrom_none o c _ _ (by simp [Ne.symm hso]) (by simp [Ne.symm hsc])
    have hb : bracesFrom o c (w ++ sep :: [sep].intercalate (w' :: rest)) pre.length = bracesFrom o c w pre.length ++ bracesFrom o c ([sep].intercalate (w' :: rest)) (pre.length + w.length + 1) := by
      rw [bracesFrom_append, ← List.singleton_append, bracesFrom_append, hsep, List.nil_append]; simp
    have hp : positionsFrom sep (w ++ sep :: [sep].intercalate (w' :: rest)) pre.length
        = positionsFrom sep w pre.length ++ (pre.length + w.length) :: positionsFrom sep ([sep].intercalate (w' :: rest)) (pre.length + w.length + 1) := by
      rw [positionsFrom_append, positionsFrom, if_pos rfl]
    rw [hb, (shape_neutral hoc hso hsc hw).matched, hp, ← List.append_assoc L]
    simp only
    rw [splitLoop_skip _ _ _ _ _ _ (by
      intro x hx
      obtain ⟨b, hb, h1⟩ := shape_inside hoc hso hsc hw _ _ hx
      exact ⟨b, List.mem_append.2 (Or.inl (List.mem_append.2 (Or.inr hb))), h1⟩), splitLoop]
    have hn : ¬ (((L ++ matched (bracesFrom o c w pre.length)) ++ matched (bracesFrom o c ([sep].intercalate (w' :: rest)) (pre.length + w.length + 1))).any
        fun b => decide (b.1 < pre.length + w.length ∧ pre.length + w.length < b.2)) = true := by
      intro h
      obtain ⟨b, hb, h1⟩ := List.any_eq_true.1 h
      have h1 := of_decide_eq_true h1
      rcases List.mem_append.1 hb with hb | hb
      · rcases List.mem_append.1 hb with hb | hb
        · have := hL b hb; omega
        · have := matched_range o c w _ b hb; omega
      · have := matched_range o c _ _ b hb; omega
    rw [if_neg hn]
    have hlen : (pre ++ w ++ [sep]).length = pre.length + w.length + 1 := by simp; omega
    have hsub : substr tree pre.length (pre.length + w.length) = w := by
      rw [ht, List.append_assoc, List.append_assoc, ← List.append_assoc pre]
      exact substr_middle pre w _
    have ih := splitLoop_items hoc hso hsc tree (w' :: rest) (pre ++ w ++ [sep]) post (L ++ matched (bracesFrom o c w pre.length)) (acc ++ [w]) (by simp)
      (fun v hv => hs v (List.mem_cons_of_mem _ hv)) (by rw [ht]; simp) (by
        intro b hb
        rw [hlen]
        rcases List.mem_append.1 hb with hb | hb
        · have := hL b hb; omega
        · have := matched_range o c w _ b hb; omega)
    rw [hlen] at ih
    simp only at ih
    have hl2 : pre.length + (w ++ sep :: [sep].intercalate (w' :: rest)).length = pre.length + w.length + 1 + ([sep].intercalate (w' :: rest)).length := by simp; omega
    rw [hsub, hl2, ih]
    simp

theorem braces_even (hoc : o ≠ c) (hso : sep ≠ o) (hsc : sep ≠ c) {w : Str} (hw : Shape o c sep w) : ∀ p, (bracesFrom o c w p).length % 2 = 0 := by
  induction hw with
  | atom h hh => intro p; rw [bracesFrom_none o c h p (fun x => hh _ x (by simp)) (fun x => hh _ x (by simp))]; rfl
  | node h items hh _ _ ih =>
    have hb : ∀ (l : List Str), (∀ i ∈ l, ∀ p, (bracesFrom o c i p).length % 2 = 0) → ∀ p, (bracesFrom o c ([sep].intercalate l) p).length % 2 = 0 := by
      intro l
      induction l with
      | nil => intro _ p; rfl
      | cons a l ihl =>
        intro h p
        cases l with
        | nil => rw [intercalate_single]; exact h a List.mem_cons_self p
        | cons b l =>
          rw [intercalate_cons, bracesFrom_append, List.length_append, bracesFrom, if_neg hso, if_neg hsc]
          have h1 := h a List.mem_cons_self p
          have h2 := ihl (fun i hi => h i (List.mem_cons_of_mem _ hi)) (p + a.length + 1)
          omega
    intro p
    rw [bracesFrom_node hoc h _ p hh]
    have := hb items ih (p + h.length + 1)
    simp only [List.length_cons, List.length_append, List.length_nil]
    omega

/-- A text with nested brackets is split into its head and its items. -/
theorem getItems_node (hoc : o ≠ c) (hso : sep ≠ o) (hsc : sep ≠ c) (h : Str) (items : List Str) (hh : NoneOf [o, c, sep] h) (hne : items ≠ []) (hi : ∀ i ∈ items, Shape o c sep i) :
    getItems (h ++ o :: ([sep].intercalate items ++ [c])) o c sep = some (h :: items) := by
  have hev := braces_even hoc hso hsc (Shape.node h items hh hne hi) 0
  have hb := Neutral.intercalate (o := o) (c := c) hso hsc items fun w hw => shape_neutral hoc hso hsc (hi w hw)
  have hm := matched_node h _ 0 hoc hh hb []
  rw [List.append_nil] at hm
  unfold getItems
  simp only
  have hn : ¬ (bracesFrom o c (h ++ o :: ([sep].intercalate items ++ [c])) 0).length % 2 ≠ 0 := by rw [hev]; simp
  rw [if_neg hn, hm, bracesFrom_node hoc h _ 0 hh]
  simp only [Nat.zero_add, matched, List.append_nil]
  have hp : positionsFrom sep (h ++ o :: ([sep].intercalate items ++ [c])) 0 = positionsFrom sep ([sep].intercalate items) (h ++ [o]).length := by
    rw [positionsFrom_append, positionsFrom_none sep h 0 fun x => hh _ x (by simp), List.nil_append, positionsFrom, if_neg (Ne.symm hso), positionsFrom_append]
    simp [positionsFrom, Ne.symm hsc]
  have htake : (h ++ o :: ([sep].intercalate items ++ [c])).take h.length = h := List.take_left
  have hl : h.length + 1 = (h ++ [o]).length := by simp
  rw [hp, htake, hl]
  have := splitLoop_items hoc hso hsc (h ++ o :: ([sep].intercalate items ++ [c])) items (h ++ [o]) [c] [] [h] hne hi (by simp) (by simp)
  rw [List.nil_append] at this
  exact congrArg some this

/-- A text without brackets is one item. -/
theorem getItems_atom (h : Str) (ho : o ∉ h) (hc : c ∉ h) : getItems h o c sep = some [h] := by
  unfold getItems
  simp only [bracesFrom_none o c h 0 ho hc]
  rfl

end AmpGen.Particle
