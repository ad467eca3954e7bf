import Verif.Simplify.Model
import Verif.Simplify.Spec
import Verif.Expr.Props
import Mathlib.Algebra.BigOperators.Group.List.Basic
import Mathlib.Algebra.BigOperators.Ring.List
import Mathlib.Data.List.Forall2
/-
Helper lemmas for the algebraic simplification: the operators keep the shape of
monomials, and every step keeps the value.
-/
namespace AmpGen.Simplify

open AmpGen.Expr

variable {K : Type} {τ : Type} {α β : Type}

/-! ### Computations that succeed with every large enough budget -/

/-- `f` gives the same result, which satisfies `Q`, with every budget that is
large enough. -/
def Ev (f : Nat → Option α) (Q : α → Prop) : Prop :=
  ∃ a, Q a ∧ ∃ N, ∀ n, N ≤ n → f n = some a

theorem Ev.pure {a : α} {Q : α → Prop} (h : Q a) : Ev (fun _ => some a) Q :=
  ⟨a, h, 0, fun _ _ => rfl⟩

theorem Ev.bind {f : Nat → Option α} {g : α → Nat → Option β} {Q : α → Prop} {R : β → Prop}
    (h : Ev f Q) (hg : ∀ a, Q a → Ev (g a) R) : Ev (fun n => (f n).bind fun a => g a n) R := by
  obtain ⟨a, ha, N, hN⟩ := h
  obtain ⟨b, hb, M, hM⟩ := hg a ha
  refine ⟨b, hb, max N M, fun n hn => ?_⟩
  simp only [hN n (by omega), Option.bind_some, hM n (by omega)]

theorem Ev.mono {f : Nat → Option α} {Q R : α → Prop} (h : Ev f Q) (hQR : ∀ a, Q a → R a) : Ev f R := by
  obtain ⟨a, ha, N, hN⟩ := h
  exact ⟨a, hQR a ha, N, hN⟩

theorem Ev.congr {f g : Nat → Option α} {Q : α → Prop} (h : Ev f Q) (hfg : ∀ n, g n = f n) : Ev g Q := by
  obtain ⟨a, ha, N, hN⟩ := h
  exact ⟨a, ha, N, fun n hn => by rw [hfg, hN n hn]⟩

theorem Ev.mapM {f : Nat → α → Option β} {Q : α → β → Prop} :
    ∀ l : List α, (∀ x ∈ l, Ev (fun n => f n x) (Q x)) →
      Ev (fun n => l.mapM (f n)) fun ys => List.Forall₂ Q l ys
  | [], _ => by
    refine ⟨[], .nil, 0, fun n _ => rfl⟩
  | x :: l, h => by
    refine Ev.congr (f := fun n => (f n x).bind fun y => (l.mapM (f n)).bind fun ys => some (y :: ys))
      ?_ (fun n => by simp only [List.mapM_cons, Option.bind_eq_bind, Option.pure_def])
    refine Ev.bind (h x (by simp)) fun y hy => ?_
    refine Ev.bind (Ev.mapM l fun z hz => h z (by simp [hz])) fun ys hys => ?_
    exact Ev.pure (.cons hy hys)

theorem Ev.foldlM {f : Nat → β → α → Option β} {I : β → List α → Prop} :
    ∀ (l : List α) (b : β) (pre : List α), I b pre →
      (∀ b pre x, x ∈ l → I b pre → Ev (fun n => f n b x) fun b' => I b' (pre ++ [x])) →
      Ev (fun n => l.foldlM (f n) b) fun b' => I b' (pre ++ l)
  | [], b, pre, hb, _ => by
    refine ⟨b, by simpa using hb, 0, fun n _ => rfl⟩
  | x :: l, b, pre, hb, h => by
    refine Ev.congr (f := fun n => (f n b x).bind fun b' => l.foldlM (f n) b') ?_
      (fun n => by simp only [List.foldlM_cons, Option.bind_eq_bind])
    refine Ev.bind (h b pre x (by simp) hb) fun b' hb' => ?_
    have := Ev.foldlM l b' (pre ++ [x]) hb' fun b pre y hy => h b pre y (by simp [hy])
    simpa using this

/-! ### Shapes -/

/-- No quotient is reached through products and sums. -/
def Plain : Ex K → Prop
  | .bin .div _ _ => False
  | .bin .sum l r => Plain l ∧ Plain r
  | .bin .prod l r => Plain l ∧ Plain r
  | _ => True

/-- Products and quotients of anything that is not a binary node. -/
def Mono : Ex K → Prop
  | .bin .prod l r => Mono l ∧ Mono r
  | .bin .div l r => Mono l ∧ Plain r
  | .bin _ _ _ => False
  | _ => True

section
variable [Field K]

theorem mul_group_shape (T : Tests K) : ∀ n : Nat,
    (∀ c e e', simplifyMul T n c e = some e' → (Mono e → Mono e') ∧ (Plain e → Plain e')) ∧
    (∀ A B e', mulF T n A B = some e' →
      (Mono A → Mono B → Mono e') ∧ (Plain A → Plain B → Plain e')) ∧
    (∀ A B e', divF T n A B = some e' → Mono A → Plain B → Mono e')
  | 0 => by
    refine ⟨?_, ?_, ?_⟩
    · intro c e e' h; simp [simplifyMul] at h
    · intro A B e' h; simp [mulF] at h
    · intro A B e' h; simp [divF] at h
  | n + 1 => by
    obtain ⟨ihs, ihm, ihd⟩ := mul_group_shape T n
    refine ⟨?_, ?_, ?_⟩
    · intro c e e' h
      unfold simplifyMul at h
      split at h
      · simp only [Option.some.injEq] at h; subst h
        exact ⟨fun _ => trivial, fun _ => trivial⟩
      · split at h
        · simp only [Option.some.injEq] at h; subst h
          exact ⟨id, id⟩
        · split at h
          · simp only [Option.some.injEq] at h; subst h
            exact ⟨fun _ => trivial, fun _ => trivial⟩
          · split at h
            · obtain ⟨X, hX, hY⟩ := Option.bind_eq_some_iff.mp h
              have h1 := ihs _ _ X hX
              have h2 := ihm X _ e' hY
              exact ⟨fun he => h2.1 (h1.1 he.1) he.2, fun he => h2.2 (h1.2 he.1) he.2⟩
            · simp only [Option.some.injEq] at h; subst h
              exact ⟨fun he => ⟨trivial, he⟩, fun he => ⟨trivial, he⟩⟩
    · intro A B e' h
      unfold mulF at h
      split at h
      · have := ihs _ _ _ h
        exact ⟨fun _ => this.1, fun _ => this.2⟩
      · have := ihs _ _ _ h
        exact ⟨fun hA _ => this.1 hA, fun hA _ => this.2 hA⟩
      · obtain ⟨X, hX, hY⟩ := Option.bind_eq_some_iff.mp h
        have h1 := ihm _ _ X hX
        have h2 := ihd X _ e' hY
        exact ⟨fun hA hB => h2 (h1.1 hA.1 hB) hA.2, fun hA _ => hA.elim⟩
      · obtain ⟨X, hX, hY⟩ := Option.bind_eq_some_iff.mp h
        have h1 := ihm _ _ X hX
        have h2 := ihd X _ e' hY
        exact ⟨fun hA hB => h2 (h1.1 hA hB.1) hB.2, fun _ hB => hB.elim⟩
      · split at h
        · simp only [Option.some.injEq] at h; subst h
          exact ⟨fun hA hB => ⟨hB, hA⟩, fun hA hB => ⟨hB, hA⟩⟩
        · simp only [Option.some.injEq] at h; subst h
          exact ⟨fun hA hB => ⟨hA, hB⟩, fun hA hB => ⟨hA, hB⟩⟩
    · intro A B e' h hA hB
      unfold divF at h
      split at h
      · simp only [Option.some.injEq] at h; subst h; trivial
      · split at h
        · split at h
          · simp only [Option.some.injEq] at h; subst h; exact hA
          · exact (ihm A _ e' h).1 hA trivial
        · obtain ⟨X, hX, hY⟩ := Option.bind_eq_some_iff.mp h
          exact ihd X _ e' hY ((ihm _ _ X hX).1 trivial hA) hB.2
        · obtain ⟨X, hX, hY⟩ := Option.bind_eq_some_iff.mp h
          exact ihd X _ e' hY ((ihm _ _ X hX).1 trivial hA) hB.1
        · exact hB.elim
        · simp only [Option.some.injEq] at h; subst h
          exact ⟨hA, hB⟩

theorem sub_plain {T : Tests K} {n : Nat} {A B e : Ex K} (hA : Plain A) (hB : Plain B)
    (h : subF T n A B = some e) : Plain e := by
  have hneg : ∀ X e', Plain X → negF T n X = some e' → Plain e' := fun X e' hX h' =>
    ((mul_group_shape T n).2.1 _ _ _ h').2 trivial hX
  unfold subF at h
  split at h
  · split at h
    · exact hneg _ _ hB h
    · split at h <;> (simp only [Option.some.injEq] at h; subst h; trivial)
  · split at h
    · exact hneg _ _ hB h
    · simp only [Option.some.injEq] at h; subst h; trivial
  · split at h
    · simp only [Option.some.injEq] at h; subst h; exact hA
    · simp only [Option.some.injEq] at h; subst h; trivial
  · simp only [Option.some.injEq] at h; subst h; trivial

theorem prodAdd_plain {T : Tests K} {n : Nat} {l r B e : Ex K} (hl : Plain l) (hr : Plain r) (hB : Plain B)
    (h : simplifyProdAdd T n l r B = some e) : Plain e := by
  unfold simplifyProdAdd at h
  split at h
  · split at h
    · obtain ⟨X, hX, hY⟩ := Option.bind_eq_some_iff.mp h
      exact sub_plain hB (((mul_group_shape T n).2.1 _ _ _ hX).2 trivial hr) hY
    · simp only [Option.some.injEq] at h; subst h; exact ⟨hB, trivial, hr⟩
  · simp only [Option.some.injEq] at h; subst h; exact ⟨hB, hl, hr⟩

theorem add_group_plain (T : Tests K) : ∀ n : Nat,
    (∀ c e e', simplifyAdd T n c e = some e' → Plain e → Plain e') ∧
    (∀ A B e', addF T n A B = some e' → Plain A → Plain B → Plain e')
  | 0 => by
    refine ⟨?_, ?_⟩
    · intro c e e' h; simp [simplifyAdd] at h
    · intro A B e' h; simp [addF] at h
  | n + 1 => by
    obtain ⟨ihs, iha⟩ := add_group_plain T n
    refine ⟨?_, ?_⟩
    · intro c e e' h he
      unfold simplifyAdd at h
      split at h
      · simp only [Option.some.injEq] at h; subst h; exact he
      · split at h
        · simp only [Option.some.injEq] at h; subst h; trivial
        · obtain ⟨X, hX, hY⟩ := Option.bind_eq_some_iff.mp h
          exact iha _ _ _ hY (ihs _ _ _ hX he.1) he.2
        · simp only [Option.some.injEq] at h; subst h; exact ⟨trivial, he⟩
    · intro A B e' h hA hB
      unfold addF at h
      split at h
      · exact ihs _ _ _ h hB
      · exact ihs _ _ _ h hA
      · exact prodAdd_plain hA.1 hA.2 hB h
      · exact prodAdd_plain hB.1 hB.2 hA h
      · simp only [Option.some.injEq] at h; subst h; exact ⟨hA, hB⟩

end

/-! ### Values -/

section
variable [Field K] [DecidableEq K]

/-- The value of an expression, zero if it has none. -/
def val (S : Sem K) (e : Ex K) : K := (eval S e).getD 0

/-- The expression has a value. -/
def Has (S : Sem K) (e : Ex K) : Prop := eval S e = some (val S e)

theorem has_of {S : Sem K} {e : Ex K} {v : K} (h : eval S e = some v) : Has S e ∧ val S e = v := by
  simp [Has, val, h]

theorem ev_mul {T : Tests K} {P : K → Prop} (hT : ExactOn T P True) (S : Sem K) (A B : Ex K)
    (hA : ConstsIn P True A) (hB : ConstsIn P True B) :
    Ev (fun n => mulF T n A B) fun e => ConstsIn P True e ∧
      (Has S A → Has S B → Has S e ∧ val S e = val S A * val S B) ∧
      (Mono A → Mono B → Mono e) ∧ (Plain A → Plain B → Plain e) := by
  obtain ⟨e, he⟩ := mulF_some T A B (Nat.lt_succ_self _)
  have h1 := (mul_group_correct hT _).2.1 A B e hA hB he
  have h2 := (mul_group_shape T _).2.1 A B e he
  exact ⟨e, ⟨h1.1, fun ha hb => has_of (h1.2 S _ _ ha hb), h2.1, h2.2⟩, _,
    fun n hn => mono_le (f := fun n => mulF T n A B) (fun n e => mulF_mono n) hn he⟩

theorem ev_div {T : Tests K} {P : K → Prop} (hT : ExactOn T P True) (S : Sem K) (A B : Ex K)
    (hA : ConstsIn P True A) (hB : ConstsIn P True B) :
    Ev (fun n => divF T n A B) fun e => ConstsIn P True e ∧
      (Has S A → Has S B → val S B ≠ 0 → Has S e ∧ val S e = val S A / val S B) ∧
      (Mono A → Plain B → Mono e) := by
  obtain ⟨e, he⟩ := divF_some T A B (Nat.lt_succ_self _)
  have h1 := (mul_group_correct hT _).2.2 A B e trivial hA hB he
  have h2 := (mul_group_shape T _).2.2 A B e he
  exact ⟨e, ⟨h1.1, fun ha hb h0 => has_of (h1.2 S _ _ ha hb h0), h2⟩, _,
    fun n hn => mono_le (f := fun n => divF T n A B) (fun n e => divF_mono n) hn he⟩

theorem ev_add {T : Tests K} {P : K → Prop} (hT : ExactOn T P True) (S : Sem K) (A B : Ex K)
    (hA : ConstsIn P True A) (hB : ConstsIn P True B) :
    Ev (fun n => addF T n A B) fun e => ConstsIn P True e ∧
      (Has S A → Has S B → Has S e ∧ val S e = val S A + val S B) ∧
      (Plain A → Plain B → Plain e) := by
  obtain ⟨e, he⟩ := addF_some T A B (Nat.lt_succ_self _)
  have h1 := (add_group_correct hT _).2 A B e hA hB he
  have h2 := (add_group_plain T _).2 A B e he
  exact ⟨e, ⟨h1.1, fun ha hb => has_of (h1.2 S _ _ ha hb), h2⟩, _,
    fun n hn => mono_le (f := fun n => addF T n A B) (fun n e => addF_mono n) hn he⟩

/-- Adding up a list of expressions. -/
theorem ev_plusAll {T : Tests K} {P : K → Prop} (hT : ExactOn T P True) (S : Sem K) (es : List (Ex K))
    (hP : ∀ x ∈ es, ConstsIn P True x) (hH : ∀ x ∈ es, Has S x) :
    Ev (fun n => plusAll T n es) fun e => ConstsIn P True e ∧ Has S e ∧
      val S e = (es.map (val S)).sum ∧ ((∀ x ∈ es, Plain x) → Plain e) := by
  have := Ev.foldlM (f := fun n (A : Ex K) (B : Ex K) => addF T n A B)
    (I := fun e pre => ConstsIn P True e ∧ Has S e ∧ val S e = (pre.map (val S)).sum ∧
      ((∀ x ∈ es, Plain x) → Plain e)) es (.const 0) []
    ⟨hT.zero, by simp [Has, val, eval], by simp [val, eval], fun _ => trivial⟩
    (fun b pre x hx hb => ?_)
  · simpa [plusAll] using this
  · refine (ev_add hT S b x hb.1 (hP x hx)).mono fun e he => ?_
    obtain ⟨h1, h2⟩ := he.2.1 hb.2.1 (hH x hx)
    refine ⟨he.1, h1, ?_, fun hp => he.2.2 (hb.2.2.2 hp) (hp x hx)⟩
    rw [h2, hb.2.2.1]; simp

/-- Multiplying up a list of factors. -/
theorem ev_timesAll {T : Tests K} {P : K → Prop} (hT : ExactOn T P True) (S : Sem K) (c : K) (hc : P c)
    (fs : List (Ex K × τ)) (hP : ∀ x ∈ fs, ConstsIn P True x.1) (hH : ∀ x ∈ fs, Has S x.1) :
    Ev (fun n => timesAll T n (.const c) fs) fun e => ConstsIn P True e ∧ Has S e ∧
      val S e = c * (fs.map fun x => val S x.1).prod := by
  have := Ev.foldlM (f := fun n (A : Ex K) (B : Ex K × τ) => mulF T n A B.1)
    (I := fun e pre => ConstsIn P True e ∧ Has S e ∧ val S e = c * (pre.map fun x => val S x.1).prod)
    fs (.const c) [] ⟨hc, by simp [Has, val, eval], by simp [val, eval]⟩
    (fun b pre x hx hb => ?_)
  · simpa [timesAll] using this
  · refine (ev_mul hT S b x.1 hb.1 (hP x hx)).mono fun e he => ?_
    obtain ⟨h1, h2⟩ := he.2.1 hb.2.1 (hH x hx)
    refine ⟨he.1, h1, ?_⟩
    rw [h2, hb.2.2]; simp [mul_assoc]

/-! ### Expanding brackets -/

/-- What expanding `e` gives. -/
structure Expanded (S : Sem K) (P : K → Prop) (subs : Bool) (e : Ex K) (es : List (Ex K)) : Prop where
  consts : ∀ x ∈ es, ConstsIn P True x
  has : ∀ x ∈ es, Has S x
  sum : (es.map (val S)).sum = val S e
  mono : Spec.Arithmetic subs e → ∀ x ∈ es, Mono x
  plain : Spec.NoQuotient subs e → ∀ x ∈ es, Plain x
  ne : es ≠ []

theorem Forall₂.exists_left {Q : α → β → Prop} {l : List α} {m : List β} (h : List.Forall₂ Q l m) :
    ∀ y ∈ m, ∃ x ∈ l, Q x y := by
  induction h with
  | nil => simp
  | @cons a b l m hab _ ih =>
    intro y hy
    rcases List.mem_cons.mp hy with rfl | hy
    · exact ⟨a, by simp, hab⟩
    · obtain ⟨x, hx, hq⟩ := ih y hy
      exact ⟨x, by simp [hx], hq⟩

theorem Forall₂.sum_eq {Q : α → β → Prop} {l : List α} {m : List β} {f : α → K} {g : β → K}
    (h : List.Forall₂ Q l m) (hq : ∀ x y, x ∈ l → Q x y → g y = f x) :
    (m.map g).sum = (l.map f).sum := by
  induction h with
  | nil => rfl
  | @cons a b l m hab _ ih =>
    simp only [List.map_cons, List.sum_cons]
    rw [hq a b (by simp) hab, ih fun x y hx => hq x y (by simp [hx])]

theorem expanded_self {S : Sem K} {P : K → Prop} {subs : Bool} {e : Ex K} (hP : ConstsIn P True e)
    (hH : Has S e) (hm : Spec.Arithmetic subs e → Mono e) (hp : Spec.NoQuotient subs e → Plain e) :
    Expanded S P subs e [e] :=
  ⟨by simpa using hP, by simpa using hH, by simp, fun h => by simpa using hm h,
    fun h => by simpa using hp h, by simp⟩

theorem sum_pairs (S : Sem K) (left right : List (Ex K)) :
    ((left.flatMap fun x => right.map fun y => (x, y)).map fun p => val S p.1 * val S p.2).sum =
      (left.map (val S)).sum * (right.map (val S)).sum := by
  induction left with
  | nil => simp
  | cons x left ih =>
    simp only [List.flatMap_cons, List.map_append, List.sum_append, ih, List.map_cons, List.sum_cons,
      add_mul, List.map_map]
    congr 1
    rw [← List.sum_map_mul_left]
    rfl

theorem expand_spec {T : Tests K} {P : K → Prop} (hT : ExactOn T P True) (S : Sem K)
    (hadd : ∀ a b, S.un .conj (a + b) = S.un .conj a + S.un .conj b)
    (hPc : ∀ a, P a → P (S.un .conj a)) (hreal : ∀ s, S.un .conj (S.param s) = S.param s)
    (subs : Bool) : ∀ e : Ex K, ConstsIn P True e → Has S e →
      Ev (fun n => expand S T n subs e) (Expanded S P subs e)
  | .bin .sum l r, hP, hH => by
    obtain ⟨a, b, ha, hb, hv⟩ := eval_sum.mp hH
    obtain ⟨hHa, hva⟩ := has_of ha
    obtain ⟨hHb, hvb⟩ := has_of hb
    refine Ev.congr (f := fun n => (expand S T n subs l).bind fun left =>
      (expand S T n subs r).bind fun right => some (left ++ right)) ?_ (fun n => by
        simp only [expand, Option.bind_eq_bind])
    refine Ev.bind (expand_spec hT S hadd hPc hreal subs l hP.2.1 hHa) fun left hl => ?_
    refine Ev.bind (expand_spec hT S hadd hPc hreal subs r hP.2.2 hHb) fun right hr => ?_
    refine Ev.pure ⟨?_, ?_, ?_, ?_, ?_, by simp [hl.ne]⟩
    · intro x hx
      rcases List.mem_append.mp hx with h | h
      exacts [hl.consts x h, hr.consts x h]
    · intro x hx
      rcases List.mem_append.mp hx with h | h
      exacts [hl.has x h, hr.has x h]
    · rw [List.map_append, List.sum_append, hl.sum, hr.sum, hva, hvb, hv]
    · intro h x hx
      rcases List.mem_append.mp hx with h' | h'
      exacts [hl.mono h.1 x h', hr.mono h.2 x h']
    · intro h x hx
      rcases List.mem_append.mp hx with h' | h'
      exacts [hl.plain h.1 x h', hr.plain h.2 x h']
  | .bin .sub l r, hP, hH => by
    obtain ⟨a, b, ha, hb, hv⟩ := eval_sub.mp hH
    obtain ⟨hHa, hva⟩ := has_of ha
    obtain ⟨hHb, hvb⟩ := has_of hb
    refine Ev.congr (f := fun n => (expand S T n subs l).bind fun left =>
      (expand S T n subs r).bind fun right =>
        (right.mapM fun x => mulF T n (.const (-1)) x).bind fun neg => some (left ++ neg)) ?_
      (fun n => by simp only [expand, Option.bind_eq_bind])
    refine Ev.bind (expand_spec hT S hadd hPc hreal subs l hP.2.1 hHa) fun left hl => ?_
    refine Ev.bind (expand_spec hT S hadd hPc hreal subs r hP.2.2 hHb) fun right hr => ?_
    have hm1 : ConstsIn P True (.const (-1) : Ex K) := hT.neg hT.one
    refine Ev.bind (Ev.mapM (f := fun n x => mulF T n (.const (-1)) x) right fun x hx =>
      ev_mul hT S (.const (-1)) x hm1 (hr.consts x hx)) fun neg hn => ?_
    have h1 : Has S (.const (-1) : Ex K) := by simp [Has, val, eval]
    have hv1 : val S (.const (-1) : Ex K) = -1 := by simp [val, eval]
    refine Ev.pure ⟨?_, ?_, ?_, ?_, ?_, by simp [hl.ne]⟩
    · intro x hx
      rcases List.mem_append.mp hx with h | h
      · exact hl.consts x h
      · obtain ⟨y, hy, hq⟩ := Forall₂.exists_left hn x h
        exact hq.1
    · intro x hx
      rcases List.mem_append.mp hx with h | h
      · exact hl.has x h
      · obtain ⟨y, hy, hq⟩ := Forall₂.exists_left hn x h
        exact (hq.2.1 h1 (hr.has y hy)).1
    · rw [List.map_append, List.sum_append, hl.sum, hva, hv,
        Forall₂.sum_eq (f := fun x => -1 * val S x) hn fun x y hx hq => by
          rw [(hq.2.1 h1 (hr.has x hx)).2, hv1], List.sum_map_mul_left, hr.sum, hvb]
      ring
    · intro h x hx
      rcases List.mem_append.mp hx with h' | h'
      · exact hl.mono h.1 x h'
      · obtain ⟨y, hy, hq⟩ := Forall₂.exists_left hn x h'
        exact hq.2.2.1 trivial (hr.mono h.2 y hy)
    · intro h x hx
      rcases List.mem_append.mp hx with h' | h'
      · exact hl.plain h.1 x h'
      · obtain ⟨y, hy, hq⟩ := Forall₂.exists_left hn x h'
        exact hq.2.2.2 trivial (hr.plain h.2 y hy)
  | .bin .prod l r, hP, hH => by
    obtain ⟨a, b, ha, hb, hv⟩ := eval_prod.mp hH
    obtain ⟨hHa, hva⟩ := has_of ha
    obtain ⟨hHb, hvb⟩ := has_of hb
    refine Ev.congr (f := fun n => (expand S T n subs l).bind fun left =>
      (expand S T n subs r).bind fun right =>
        (left.flatMap fun x => right.map fun y => (x, y)).mapM fun p => mulF T n p.1 p.2) ?_
      (fun n => by simp only [expand, Option.bind_eq_bind])
    refine Ev.bind (expand_spec hT S hadd hPc hreal subs l hP.2.1 hHa) fun left hl => ?_
    refine Ev.bind (expand_spec hT S hadd hPc hreal subs r hP.2.2 hHb) fun right hr => ?_
    have hmem : ∀ p ∈ left.flatMap fun x => right.map fun y => (x, y), p.1 ∈ left ∧ p.2 ∈ right := by
      intro p hp
      obtain ⟨x, hx, hp⟩ := List.mem_flatMap.mp hp
      obtain ⟨y, hy, rfl⟩ := List.mem_map.mp hp
      exact ⟨hx, hy⟩
    refine (Ev.mapM (f := fun n p => mulF T n p.1 p.2) _ fun p hp =>
      ev_mul hT S p.1 p.2 (hl.consts _ (hmem p hp).1) (hr.consts _ (hmem p hp).2)).mono fun es hn => ?_
    refine ⟨?_, ?_, ?_, ?_, ?_, ?_⟩
    · intro x hx
      obtain ⟨y, hy, hq⟩ := Forall₂.exists_left hn x hx
      exact hq.1
    · intro x hx
      obtain ⟨y, hy, hq⟩ := Forall₂.exists_left hn x hx
      exact (hq.2.1 (hl.has _ (hmem y hy).1) (hr.has _ (hmem y hy).2)).1
    · rw [Forall₂.sum_eq (f := fun p => val S p.1 * val S p.2) hn fun p y hp hq =>
        (hq.2.1 (hl.has _ (hmem p hp).1) (hr.has _ (hmem p hp).2)).2, sum_pairs, hl.sum, hr.sum, hva,
        hvb, hv]
    · intro h x hx
      obtain ⟨y, hy, hq⟩ := Forall₂.exists_left hn x hx
      exact hq.2.2.1 (hl.mono h.1 _ (hmem y hy).1) (hr.mono h.2 _ (hmem y hy).2)
    · intro h x hx
      obtain ⟨y, hy, hq⟩ := Forall₂.exists_left hn x hx
      exact hq.2.2.2 (hl.plain h.1 _ (hmem y hy).1) (hr.plain h.2 _ (hmem y hy).2)
    · rintro rfl
      have := hn.length_eq
      cases left with
      | nil => exact hl.ne rfl
      | cons x left =>
        cases right with
        | nil => exact hr.ne rfl
        | cons y right => simp at this
  | .bin .div l r, hP, hH => by
    obtain ⟨a, b, ha, hb, hb0, hv⟩ := eval_div.mp hH
    obtain ⟨hHa, hva⟩ := has_of ha
    obtain ⟨hHb, hvb⟩ := has_of hb
    refine Ev.congr (f := fun n => (expand S T n subs l).bind fun left =>
      (expand S T n subs r).bind fun right =>
        (plusAll T n right).bind fun sum => left.mapM fun x => divF T n x sum) ?_
      (fun n => by simp only [expand, Option.bind_eq_bind])
    refine Ev.bind (expand_spec hT S hadd hPc hreal subs l hP.2.1 hHa) fun left hl => ?_
    refine Ev.bind (expand_spec hT S hadd hPc hreal subs r hP.2.2 hHb) fun right hr => ?_
    refine Ev.bind (ev_plusAll hT S right hr.consts hr.has) fun sum hs => ?_
    have hs0 : val S sum = b := by rw [hs.2.2.1, hr.sum, hvb]
    refine (Ev.mapM (f := fun n x => divF T n x sum) left fun x hx =>
      ev_div hT S x sum (hl.consts x hx) hs.1).mono fun es hn => ?_
    have hne : val S sum ≠ 0 := by rw [hs0]; exact hb0
    refine ⟨?_, ?_, ?_, ?_, ?_, ?_⟩
    · intro x hx
      obtain ⟨y, hy, hq⟩ := Forall₂.exists_left hn x hx
      exact hq.1
    · intro x hx
      obtain ⟨y, hy, hq⟩ := Forall₂.exists_left hn x hx
      exact (hq.2.1 (hl.has _ hy) hs.2.1 hne).1
    · rw [Forall₂.sum_eq (f := fun x => val S x * b⁻¹) hn fun x y hx hq => by
        rw [(hq.2.1 (hl.has x hx) hs.2.1 hne).2, hs0, div_eq_mul_inv], List.sum_map_mul_right, hl.sum,
        hva, hv, div_eq_mul_inv]
    · intro h x hx
      obtain ⟨y, hy, hq⟩ := Forall₂.exists_left hn x hx
      exact hq.2.2 (hl.mono h.1 _ hy) (hs.2.2.2 (hr.plain h.2.2))
    · intro h; exact h.elim
    · rintro rfl
      cases left with
      | nil => exact hl.ne rfl
      | cons x left => cases hn
  | .subtree k e, hP, hH => by
    cases subs with
    | true =>
      refine Ev.congr (f := fun n => expand S T n true e) ?_ (fun n => by simp only [expand, if_true])
      refine (expand_spec hT S hadd hPc hreal true e hP hH).mono fun es h => ?_
      exact ⟨h.consts, h.has, h.sum, fun h' => h.mono (h' rfl), fun h' => h.plain (h' rfl), h.ne⟩
    | false =>
      refine Ev.congr (f := fun _ => some [.subtree k e]) ?_ (fun n => by
        simp only [expand, Bool.false_eq_true, if_false])
      exact Ev.pure (expanded_self hP hH (fun _ => trivial) fun _ => trivial)
  | .un f e, hP, hH => by
    by_cases hf : f = .conj
    · subst hf
      refine Ev.congr (f := fun n => (expand S T n subs e).bind fun terms =>
        some (terms.map (fcnConj S))) ?_ (fun n => by simp only [expand, Option.bind_eq_bind])
      have hHe : Has S e := by
        unfold Has at hH
        simp only [eval] at hH
        obtain ⟨a, ha, _⟩ := Option.map_eq_some_iff.mp hH
        exact (has_of ha).1
      have hve : val S (.un .conj e) = S.un .conj (val S e) := by
        have : eval S (.un .conj e) = some (S.un .conj (val S e)) := by
          simp only [eval]; rw [hHe]; rfl
        exact (has_of this).2
      refine Ev.bind (expand_spec hT S hadd hPc hreal subs e hP hHe) fun terms ht => ?_
      have hconj : ∀ x, Has S x → Has S (fcnConj S x) ∧ val S (fcnConj S x) = S.un .conj (val S x) :=
        fun x hx => has_of (fcnConj_value S x _ hreal hx)
      have hshape : ∀ x : Ex K, Mono (fcnConj S x) ∧ Plain (fcnConj S x) := by
        intro x
        cases x <;> exact ⟨trivial, trivial⟩
      have hcons : ∀ x : Ex K, ConstsIn P True x → ConstsIn P True (fcnConj S x) := by
        intro x hx
        cases x <;> first | exact hx | exact hPc _ hx
      have hzero : S.un .conj 0 = 0 := by
        have := hadd 0 0
        simpa using this
      refine Ev.pure ⟨?_, ?_, ?_, ?_, ?_, by simpa using ht.ne⟩
      · intro x hx
        obtain ⟨y, hy, rfl⟩ := List.mem_map.mp hx
        exact hcons y (ht.consts y hy)
      · intro x hx
        obtain ⟨y, hy, rfl⟩ := List.mem_map.mp hx
        exact (hconj y (ht.has y hy)).1
      · rw [hve, ← ht.sum]
        have : ∀ l : List (Ex K), (∀ x ∈ l, Has S x) →
            ((l.map (fcnConj S)).map (val S)).sum = S.un .conj (l.map (val S)).sum := by
          intro l hl
          induction l with
          | nil => simp [hzero]
          | cons x l ih =>
            simp only [List.map_cons, List.sum_cons]
            rw [hadd, (hconj x (hl x (by simp))).2, ih fun y hy => hl y (by simp [hy])]
        exact this terms ht.has
      · intro _ x hx
        obtain ⟨y, hy, rfl⟩ := List.mem_map.mp hx
        exact (hshape y).1
      · intro _ x hx
        obtain ⟨y, hy, rfl⟩ := List.mem_map.mp hx
        exact (hshape y).2
    · refine Ev.congr (f := fun _ => some [.un f e]) ?_ (fun n => by
        cases f <;> first | exact absurd rfl hf | simp only [expand])
      exact Ev.pure (expanded_self hP hH (fun _ => trivial) fun _ => trivial)
  | .const v, hP, hH => by
    refine Ev.congr (f := fun _ => some [.const v]) ?_ (fun n => by simp only [expand])
    exact Ev.pure (expanded_self hP hH (fun _ => trivial) fun _ => trivial)
  | .param v, hP, hH => by
    refine Ev.congr (f := fun _ => some [.param v]) ?_ (fun n => by simp only [expand])
    exact Ev.pure (expanded_self hP hH (fun _ => trivial) fun _ => trivial)
  | .cparam v w, hP, hH => by
    refine Ev.congr (f := fun _ => some [.cparam v w]) ?_ (fun n => by simp only [expand])
    exact Ev.pure (expanded_self hP hH (fun _ => trivial) fun _ => trivial)
  | .lambda v, hP, hH => by
    refine Ev.congr (f := fun _ => some [.lambda v]) ?_ (fun n => by simp only [expand])
    exact Ev.pure (expanded_self hP hH (fun _ => trivial) fun _ => trivial)
  | .func v, hP, hH => by
    refine Ev.congr (f := fun _ => some [.func v]) ?_ (fun n => by simp only [expand])
    exact Ev.pure (expanded_self hP hH (fun _ => trivial) fun _ => trivial)
  | .ternary c a b, hP, hH => by
    refine Ev.congr (f := fun _ => some [.ternary c a b]) ?_ (fun n => by simp only [expand])
    exact Ev.pure (expanded_self hP hH (fun _ => trivial) fun _ => trivial)
  | .bin .and l r, hP, hH => Ev.congr (f := fun _ => some [.bin .and l r])
      (Ev.pure (expanded_self hP hH (fun h => h.elim) fun _ => trivial)) fun n => by simp only [expand]
  | .bin .or l r, hP, hH => Ev.congr (f := fun _ => some [.bin .or l r])
      (Ev.pure (expanded_self hP hH (fun h => h.elim) fun _ => trivial)) fun n => by simp only [expand]
  | .bin .gt l r, hP, hH => Ev.congr (f := fun _ => some [.bin .gt l r])
      (Ev.pure (expanded_self hP hH (fun h => h.elim) fun _ => trivial)) fun n => by simp only [expand]
  | .bin .lt l r, hP, hH => Ev.congr (f := fun _ => some [.bin .lt l r])
      (Ev.pure (expanded_self hP hH (fun h => h.elim) fun _ => trivial)) fun n => by simp only [expand]
  | .bin .ge l r, hP, hH => Ev.congr (f := fun _ => some [.bin .ge l r])
      (Ev.pure (expanded_self hP hH (fun h => h.elim) fun _ => trivial)) fun n => by simp only [expand]
  | .bin .le l r, hP, hH => Ev.congr (f := fun _ => some [.bin .le l r])
      (Ev.pure (expanded_self hP hH (fun h => h.elim) fun _ => trivial)) fun n => by simp only [expand]
  | .bin .eq l r, hP, hH => Ev.congr (f := fun _ => some [.bin .eq l r])
      (Ev.pure (expanded_self hP hH (fun h => h.elim) fun _ => trivial)) fun n => by simp only [expand]
  | .bin .pow l r, hP, hH => Ev.congr (f := fun _ => some [.bin .pow l r])
      (Ev.pure (expanded_self hP hH (fun h => h.elim) fun _ => trivial)) fun n => by simp only [expand]
  | .bin .fmod l r, hP, hH => Ev.congr (f := fun _ => some [.bin .fmod l r])
      (Ev.pure (expanded_self hP hH (fun h => h.elim) fun _ => trivial)) fun n => by simp only [expand]
  | .bin .atan2 l r, hP, hH => Ev.congr (f := fun _ => some [.bin .atan2 l r])
      (Ev.pure (expanded_self hP hH (fun h => h.elim) fun _ => trivial)) fun n => by simp only [expand]

end
end AmpGen.Simplify
