import Verif.Resolve.Lemmas
import Verif.Expr.PropsPrint
/-
Property theorems about common sub-expressions (C04).
-/
namespace AmpGen.Resolve
open AmpGen.Expr

variable {K : Type}

theorem loop_mono {n m : Nat} (h : n ≤ m) {tmp : List (Sub K)} {st st' : State K}
    (hl : loop n tmp st = some st') : loop m tmp st = some st' := by
  induction n generalizing m tmp st with
  | zero => cases hl
  | succ n ih =>
    obtain ⟨m, rfl⟩ : ∃ m', m = m' + 1 := ⟨m - 1, by omega⟩
    unfold loop at hl ⊢
    simp only at hl ⊢
    split at hl
    · rename_i he; rw [if_pos he]; exact hl
    · rename_i he; rw [if_neg he]; exact ih (by omega) hl

/-- C04.  For every expression whose sub-expression keys do not collide, the
ordering terminates with a list of declarations in which every common
sub-expression occurring anywhere in the expression is declared, none twice, each
with its own body, and every variable a declaration refers to is declared
earlier. -/
theorem cse_declared_before_use (e : Ex K) (hf : KeysFaithful e) :
    ∃ ds N, (∀ fuel, N ≤ fuel → getOrderedSubExpressions fuel e = some ds) ∧
      (ds.map Prod.fst).Nodup ∧
      (∀ k b, (k, b) ∈ ds ↔ Occurs k b e) ∧
      (∀ pre k b post, ds = pre ++ (k, b) :: post → ∀ k', Mentions k' b → k' ∈ pre.map Prod.fst) := by
  obtain ⟨st, h1, h2, h3, h4, h5⟩ := loop_correct e hf (size e) (size e) (subtreesOf e)
    ⟨[], fun _ => none⟩ ⟨List.nodup_nil, fun k => by simp [keys]⟩ (by simp)
    (fun t ht => by
      have := (mem_subtreesOf (k := t.1) (b := t.2) e).mp ht
      exact ⟨this, this.size_lt⟩)
    (by
      intro m _ u b v _ hu hn
      simp [keys] at hu
      exact absurd hu hn)
    (Nat.le_refl _)
  have hmem : ∀ k b, (k, b) ∈ st.subs ↔ Occurs k b e := by
    intro k b
    refine ⟨fun h => h3 _ h, fun h => ?_⟩
    have hk := h5 k (Or.inr (List.mem_map.mpr ⟨(k, b), (mem_subtreesOf e).mpr h, rfl⟩))
    obtain ⟨⟨k', b'⟩, ht, he⟩ := List.mem_map.mp hk
    simp only at he
    subst he
    have := hf k' b b' h (h3 _ ht)
    rw [this]; exact ht
  refine ⟨st.subs.reverse, size e + 1, fun fuel hfu => ?_, ?_, ?_, ?_⟩
  · unfold getOrderedSubExpressions
    rw [loop_mono hfu h1]; rfl
  · rw [List.map_reverse, List.nodup_reverse]; exact h2.1
  · intro k b; rw [List.mem_reverse]; exact hmem k b
  · intro pre k b post heq k' hk'
    obtain ⟨b', hb'⟩ := hk'.occurs
    have hsubs : st.subs = post.reverse ++ (k, b) :: pre.reverse := by
      have := congrArg List.reverse heq
      simpa using this
    have hocc : Occurs k b e := h3 (k, b) (by rw [hsubs]; simp)
    have hsl := h4 k b k' hocc (by rw [keys, hsubs]; simp) (by simp) ⟨b', hb'⟩
    have hnod := h2.1
    rw [keys, hsubs] at hsl hnod
    simp only [List.map_append, List.map_cons, List.map_reverse] at hsl hnod
    rw [List.nodup_append, List.nodup_cons] at hnod
    have hkpost : k ∉ (post.map Prod.fst).reverse := fun h =>
      hnod.2.2 k h k List.mem_cons_self rfl
    obtain ⟨l1, l2, hl, hs1, hs2⟩ := List.sublist_append_iff.mp hsl
    cases l1 with
    | nil =>
      simp only [List.nil_append] at hl
      subst hl
      rcases List.sublist_cons_iff.mp hs2 with h | ⟨r, hr, h⟩
      · exact absurd (h.subset List.mem_cons_self) (by
          intro hh; exact hnod.2.1.1 hh)
      · cases hr
        have := h.subset (List.mem_singleton.mpr rfl)
        simpa using this
    | cons a l1 =>
      simp only [List.cons_append, List.cons.injEq] at hl
      have := hs1.subset List.mem_cons_self
      exact absurd (hl.1 ▸ this) hkpost

/-- Every variable the final line refers to is declared. -/
theorem cse_all_declared (e : Ex K) (hf : KeysFaithful e) :
    ∃ ds N, (∀ fuel, N ≤ fuel → getOrderedSubExpressions fuel e = some ds) ∧
      ∀ k, Mentions k e → k ∈ ds.map Prod.fst := by
  obtain ⟨ds, N, h1, -, h3, -⟩ := cse_declared_before_use e hf
  refine ⟨ds, N, h1, fun k hk => ?_⟩
  obtain ⟨b, hb⟩ := hk.occurs
  exact List.mem_map.mpr ⟨(k, b), (h3 k b).mpr hb, rfl⟩

/-! ### Executing the emitted declarations -/

theorem subName_inj {a b : Nat} (h : subName a = subName b) : a = b := by
  unfold subName at h
  have h := (String.append_right_inj _).mp h
  have h2 : Nat.toDigits 10 a = Nat.toDigits 10 b := by
    have := congrArg String.toList h
    simpa [Nat.toString_eq_repr, Nat.toList_repr] using this
  have := congrArg (fun l => Nat.ofDigitChars 10 l 0) h2
  simpa [Nat.ofDigitChars_ten_toDigits] using this

section
variable [Field K] [DecidableEq K]

theorem eval_expand (S : Sem K) (e : Ex K) : eval S (expand e) = eval S e := by
  induction e with
  | un f e ih => cases f <;> simp [expand, eval, ih]
  | bin op l r ihl ihr => cases op <;> simp [expand, eval, ihl, ihr]
  | ternary c x y ihc ihx ihy => simp [expand, eval, ihc, ihx, ihy]
  | subtree k e ih => simp [expand, eval, ih]
  | _ => rfl

theorem agrees_un {C : Cxx K} {S : Sem K} {L : Lit K} {avx : Bool} {f : Un} {e : Ex K}
    (h : Agrees C S L avx (.un f e)) : Agrees C S L avx e := by
  cases f <;> simp only [Agrees] at h <;> exact h.2

theorem agrees_bin {C : Cxx K} {S : Sem K} {L : Lit K} {avx : Bool} {op : Bin} {l r : Ex K}
    (h : Agrees C S L avx (.bin op l r)) : Agrees C S L avx l ∧ Agrees C S L avx r := by
  cases op <;> simp only [Agrees] at h <;> exact h.2

theorem agrees_occurs {C : Cxx K} {S : Sem K} {L : Lit K} {avx : Bool} {k : Nat} {b e : Ex K}
    (h : Occurs k b e) (ha : Agrees C S L avx (expand e)) : Agrees C S L avx (expand b) := by
  induction h with
  | here => exact ha
  | inside _ ih => exact ih ha
  | un _ ih => exact ih (agrees_un ha)
  | binl _ ih => exact ih (agrees_bin ha).1
  | binr _ ih => exact ih (agrees_bin ha).2
  | cond _ ih => simp only [expand, Agrees] at ha; exact ih ha.2.1
  | yes _ ih => simp only [expand, Agrees] at ha; exact ih ha.2.2.1
  | no _ ih => simp only [expand, Agrees] at ha; exact ih ha.2.2.2

omit [Field K] [DecidableEq K] in
theorem leafNames_occurs {k : Nat} {b e : Ex K} (h : Occurs k b e) :
    ∀ n ∈ leafNames b, n ∈ leafNames e := by
  induction h with
  | here => intro n hn; exact hn
  | inside _ ih => exact ih
  | un _ ih => exact ih
  | binl _ ih => intro n hn; simp [leafNames, ih n hn]
  | binr _ ih => intro n hn; simp [leafNames, ih n hn]
  | cond _ ih => intro n hn; simp [leafNames, ih n hn]
  | yes _ ih => intro n hn; simp [leafNames, ih n hn]
  | no _ ih => intro n hn; simp [leafNames, ih n hn]

/-- `C'` is `C` with more sub-expression variables. -/
structure Extends (C C' : Cxx K) : Prop where
  call1 : C'.call1 = C.call1
  call2 : C'.call2 = C.call2
  rel : C'.rel = C.rel
  truth : C'.truth = C.truth
  var : ∀ s, (∀ k, s ≠ subName k) → C'.var s = C.var s

theorem agrees_extend {C C' : Cxx K} (hx : Extends C C') {S : Sem K} {L : Lit K} {avx : Bool} (x : Ex K)
    (hn : ∀ n ∈ leafNames x, ∀ k, n ≠ subName k) (ha : Agrees C S L avx (expand x))
    (hd : ∀ k b, Occurs k b x → Mentions k x → ∀ v, eval S b = some v → C'.var (subName k) = some v) :
    Agrees C' S L avx x := by
  induction x with
  | const v => simpa only [expand, Agrees, hx.call2] using ha
  | param n =>
    simp only [expand, Agrees] at ha ⊢
    rw [hx.var n (hn n (by simp [leafNames]))]; exact ha
  | cparam re im =>
    simp only [expand, Agrees] at ha ⊢
    rw [hx.var re (hn re (by simp [leafNames])), hx.var im (hn im (by simp [leafNames])), hx.call2]
    exact ha
  | lambda n =>
    simp only [expand, Agrees] at ha ⊢
    rw [hx.var n (hn n (by simp [leafNames]))]; exact ha
  | func n => simp only [expand, Agrees] at ha
  | un f e ih =>
    have h1 := ih hn (agrees_un ha) (fun k b ho hm => hd k b (.un ho) (.un hm))
    cases f <;> simp only [expand, Agrees, hx.call1] at ha ⊢ <;> exact ⟨ha.1, h1⟩
  | bin op l r ihl ihr =>
    have h1 := ihl (fun n h => hn n (by simp [leafNames, h])) (agrees_bin ha).1
      (fun k b ho hm => hd k b (.binl ho) (.binl hm))
    have h2 := ihr (fun n h => hn n (by simp [leafNames, h])) (agrees_bin ha).2
      (fun k b ho hm => hd k b (.binr ho) (.binr hm))
    cases op <;> simp only [expand, Agrees, hx.call2, hx.rel] at ha ⊢ <;> exact ⟨ha.1, h1, h2⟩
  | ternary c x y ihc ihx ihy =>
    simp only [expand, Agrees] at ha
    have h1 := ihc (fun n h => hn n (by simp [leafNames, h])) ha.2.1
      (fun k b ho hm => hd k b (.cond ho) (.cond hm))
    have h2 := ihx (fun n h => hn n (by simp [leafNames, h])) ha.2.2.1
      (fun k b ho hm => hd k b (.yes ho) (.yes hm))
    have h3 := ihy (fun n h => hn n (by simp [leafNames, h])) ha.2.2.2
      (fun k b ho hm => hd k b (.no ho) (.no hm))
    simp only [Agrees, hx.truth]
    exact ⟨ha.1, h1, h2, h3⟩
  | subtree k e ih =>
    intro v hv
    exact hd k e .here .here v hv

/-- C02 and C04 together (partial as C02).  Running the emitted function body —
the declarations in the emitted order, then the final expression — computes the
value of the expression: the run exists, and whichever way the text is read the
final line has that value.  Hypotheses: keys do not collide, parameter variables
are not named like sub-expression variables, and parameters, functions and
literals mean what they stand for. -/
theorem program_value_partial (L : Lit K) (avx : Bool) (e : Ex K) (hf : KeysFaithful e)
    (hn : ∀ n ∈ leafNames e, ∀ k, n ≠ subName k) :
    ∃ ds N, (∀ fuel, N ≤ fuel → getOrderedSubExpressions fuel e = some ds) ∧
      ∀ (C : Cxx K) (S : Sem K), Agrees C S L avx (expand e) →
        ∃ C', Runs L avx C ds C' ∧ ∃ ast, Derives 7 (print L avx e) ast ∧
          (∀ ast', Derives 7 (print L avx e) ast' → ast' = ast) ∧
          ∀ v, eval S e = some v → ceval C' ast = some v := by
  obtain ⟨ds, N, h1, hnod, hmem, hord⟩ := cse_declared_before_use e hf
  refine ⟨ds, N, h1, fun C S hA => ?_⟩
  have run : ∀ (rest pre : List (Nat × Ex K)) (C1 : Cxx K), ds = pre ++ rest → Extends C C1 →
      (∀ k b, (k, b) ∈ pre → ∀ v, eval S b = some v → C1.var (subName k) = some v) →
      ∃ C', Runs L avx C1 rest C' ∧ Extends C C' ∧
        ∀ k b, (k, b) ∈ ds → ∀ v, eval S b = some v → C'.var (subName k) = some v := by
    intro rest
    induction rest with
    | nil =>
      intro pre C1 heq hx hp
      refine ⟨C1, .nil, hx, ?_⟩
      rw [heq, List.append_nil]; exact hp
    | cons t rest ih =>
      obtain ⟨k, b⟩ := t
      intro pre C1 heq hx hp
      have hocc : Occurs k b e := (hmem k b).mp (by rw [heq]; simp)
      have hag : Agrees C1 S L avx b := by
        refine agrees_extend hx b (fun n h => hn n (leafNames_occurs hocc n h)) (agrees_occurs hocc hA) ?_
        intro k' b' ho hm v hv
        obtain ⟨⟨k2, b2⟩, ht, he⟩ := List.mem_map.mp (hord pre k b rest heq k' hm)
        simp only at he
        subst he
        have hb2 : Occurs k2 b2 e := (hmem k2 b2).mp (by rw [heq]; simp [ht])
        have := hf k2 b2 b' hb2 (hocc.trans ho)
        subst this
        exact hp k2 b2 ht v hv
      obtain ⟨ast, hd, -, hval⟩ := print_value_partial L avx b
      have hfresh : k ∉ pre.map Prod.fst := by
        intro hk
        rw [heq, List.map_append, List.nodup_append] at hnod
        exact hnod.2.2 k hk k (by simp) rfl
      obtain ⟨C', hr, hx', hall⟩ := ih (pre ++ [(k, b)])
        { C1 with var := fun s => if s = subName k then ceval C1 ast else C1.var s }
        (by rw [heq]; simp)
        ⟨hx.call1, hx.call2, hx.rel, hx.truth, fun s hs => by
          simp only; rw [if_neg (hs k)]; exact hx.var s hs⟩
        (by
          intro k' b' hk' v hv
          simp only
          rcases List.mem_append.mp hk' with h | h
          · have hne : k' ≠ k := by
              rintro rfl
              exact hfresh (List.mem_map.mpr ⟨_, h, rfl⟩)
            rw [if_neg (fun h => hne (subName_inj h))]
            exact hp k' b' h v hv
          · simp only [List.mem_singleton, Prod.mk.injEq] at h
            obtain ⟨rfl, rfl⟩ := h
            rw [if_pos rfl]
            exact hval C1 S hag v hv)
      exact ⟨C', .cons hd hr, hx', hall⟩
  obtain ⟨C', hr, hx', hall⟩ := run ds [] C rfl ⟨rfl, rfl, rfl, rfl, fun _ _ => rfl⟩ (by simp)
  obtain ⟨ast, hd, huniq, hval⟩ := print_value_partial L avx e
  refine ⟨C', hr, ast, hd, huniq, fun v hv => hval C' S ?_ v hv⟩
  refine agrees_extend hx' e hn hA ?_
  intro k b ho _ v hv
  exact hall k b ((hmem k b).mpr ho) v hv

end

/-! ### Concrete cases -/

/-- Two nested sub-expressions, the inner one used in three places. -/
def demo : Ex ℚ :=
  let inner : Ex ℚ := .subtree 9 (.bin .sum (.param "x") (.const 1))
  .bin .sum (.subtree 4 (.bin .prod inner inner)) (.bin .sub inner (.const 2))

example : getOrderedSubExpressions 5 demo =
    some [(9, .bin .sum (.param "x") (.const 1)),
      (4, .bin .prod (.subtree 9 (.bin .sum (.param "x") (.const 1)))
        (.subtree 9 (.bin .sum (.param "x") (.const 1))))] := by
  decide +kernel

example : KeysFaithful demo := by
  intro k b b' h h'
  have h1 := (mem_subtreesOf demo).mpr h
  have h2 := (mem_subtreesOf demo).mpr h'
  simp only [demo, subtreesOf, List.append_nil, List.nil_append, List.cons_append, List.mem_cons,
    Prod.mk.injEq, List.not_mem_nil, or_false] at h1 h2
  rcases h1 with ⟨rfl, rfl⟩ | ⟨rfl, rfl⟩ | ⟨rfl, rfl⟩ | ⟨rfl, rfl⟩ <;>
    rcases h2 with ⟨h, rfl⟩ | ⟨h, rfl⟩ | ⟨h, rfl⟩ | ⟨h, rfl⟩ <;> first | rfl | (exfalso; revert h; decide)

/-- The remaining hypotheses of `program_value_partial`, for the same expression. -/
example : Agrees demoCxx demoSem exactLit false (expand demo) ∧
    (∀ n ∈ leafNames demo, ∀ k, n ≠ subName k) ∧ eval demoSem demo = some 18 := by
  refine ⟨?_, ?_, ?_⟩
  · simp [demo, expand, Agrees, demoCxx, demoSem, exactLit, relOf]
  · intro n hn k
    have : n = "x" := by simpa [demo, leafNames] using hn
    subst this
    intro h
    have := congrArg (fun s => s.toList.head?) h
    simp [subName] at this
  · simp [demo, eval, demoSem]; norm_num

/-- Without the hypothesis on keys the claim fails: when two different
sub-expressions collide on a key, only one of them is declared. -/
theorem key_collision_counterexample :
    ∃ ds, getOrderedSubExpressions 5
        (.bin .sum (.subtree 1 (.un .sin (.param "x"))) (.subtree 1 (.un .cos (.param "x"))) : Ex ℚ) = some ds ∧
      (1, .un .cos (.param "x")) ∉ ds :=
  ⟨[(1, .un .sin (.param "x"))], by decide +kernel, by decide +kernel⟩

end AmpGen.Resolve
