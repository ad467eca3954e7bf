import Verif.Expr.Cxx
import Verif.Expr.Lemmas
import Mathlib.Tactic.Ring
import Mathlib.Tactic.FieldSimp
/-
Lemmas for C02: the grammar is unambiguous, and printing is inverted by it.
-/
namespace AmpGen.Expr

variable {K : Type}

/-! ### A parser, used only to show that the grammar is unambiguous -/

mutual
def parse [DecidableEq K] : Nat → Nat → List (Tok K) → Option (CAst K × List (Tok K))
  | 0, _, _ => none
  | n + 1, lvl, ts =>
    if lvl = 0 then
      match ts with
      | .num v :: rest => some (.num v, rest)
      | .lpar :: rest =>
        match parse n 7 rest with
        | some (a, .rpar :: rest') => some (a, rest')
        | _ => none
      | .ident f :: .lpar :: .rpar :: rest => some (.call0 f, rest)
      | .ident f :: .lpar :: rest =>
        match parse n 7 rest with
        | some (a, .rpar :: rest') => some (.call1 f a, rest')
        | some (a, .comma :: rest') =>
          match parse n 7 rest' with
          | some (b, .rpar :: rest'') => some (.call2 f a b, rest'')
          | some (b, .comma :: rest'') =>
            match parse n 7 rest'' with
            | some (c, .rpar :: rest3) => some (.call3 f a b c, rest3)
            | _ => none
          | _ => none
        | _ => none
      | .ident f :: rest => some (.var f, rest)
      | _ => none
    else if lvl = 7 then
      match parse n 6 ts with
      | some (c, .quest :: rest) =>
        match parse n 7 rest with
        | some (a, .colon :: rest') =>
          match parse n 7 rest' with
          | some (b, rest'') => some (.cond c a b, rest'')
          | _ => none
        | _ => none
      | some (c, rest) => some (c, rest)
      | none => none
    else
      match parse n (lvl - 1) ts with
      | some (a, rest) => parseLoop n lvl a rest
      | none => none
def parseLoop [DecidableEq K] : Nat → Nat → CAst K → List (Tok K) → Option (CAst K × List (Tok K))
  | 0, _, _, _ => none
  | _ + 1, _, acc, [] => some (acc, [])
  | n + 1, lvl, acc, t :: ts =>
    match Tok.op t with
    | some (op, p) =>
      if p = lvl then
        match parse n (lvl - 1) ts with
        | some (b, rest) => parseLoop n lvl (.bin op acc b) rest
        | none => none
      else some (acc, t :: ts)
    | none => some (acc, t :: ts)
end

/-- The next token cannot continue an expression of level `i`. -/
def Stop (i : Nat) : List (Tok K) → Prop
  | [] => True
  | t :: _ => t ≠ .lpar ∧ (∀ op p, Tok.op t = some (op, p) → i < p) ∧ (i = 7 → t ≠ .quest)

theorem Stop.mono {i j : Nat} (h : i ≤ j) (hj : j ≤ 7) {ts : List (Tok K)} (hs : Stop j ts) :
    Stop i ts := by
  cases ts with
  | nil => trivial
  | cons t ts =>
    obtain ⟨h1, h2, h3⟩ := hs
    refine ⟨h1, fun op p hp => lt_of_le_of_lt h (h2 op p hp), fun hi => h3 (by omega)⟩

/-- The parser reads `ts` at level `i` and returns `a`, whatever follows. -/
def Reads [DecidableEq K] (i : Nat) (ts : List (Tok K)) (a : CAst K) : Prop :=
  ∃ N, ∀ n, N ≤ n → ∀ rest, Stop i rest → parse n i (ts ++ rest) = some (a, rest)

/-- As `Reads`, stopping in the middle of a chain of operators. -/
def ReadsLoop [DecidableEq K] (i : Nat) (ts : List (Tok K)) (a : CAst K) : Prop :=
  ∃ N d, ∀ n, N ≤ n → ∀ rest, Stop (i - 1) rest → parse (n + d) i (ts ++ rest) = parseLoop n i a rest

theorem ReadsLoop.reads [DecidableEq K] {i : Nat} (hi : i ≤ 7) {ts : List (Tok K)} {a : CAst K}
    (h : ReadsLoop i ts a) : Reads i ts a := by
  obtain ⟨N, d, h⟩ := h
  refine ⟨N + 1 + d, fun n hn rest hr => ?_⟩
  obtain ⟨m, rfl⟩ : ∃ m, n = (m + 1) + d := ⟨n - 1 - d, by omega⟩
  rw [h (m + 1) (by omega) rest (hr.mono (Nat.sub_le _ _) hi)]
  cases rest with
  | nil => rfl
  | cons t rest =>
    simp only [parseLoop]
    split
    · rename_i op p hp
      have := hr.2.1 op p hp
      rw [if_neg (by omega)]
    · rfl

theorem Derives.level {i : Nat} {ts : List (Tok K)} {a : CAst K} (h : Derives i ts a) : i ≤ 7 := by
  induction h with
  | up h _ _ => omega
  | bin h _ _ _ _ =>
    rename_i t op _ _ _ _
    cases t <;> simp [Tok.op] at h <;> omega
  | _ => omega

theorem op_level {t : Tok K} {op : COp} {p : Nat} (h : Tok.op t = some (op, p)) : 1 ≤ p ∧ p ≤ 6 := by
  cases t <;> simp [Tok.op] at h <;> omega

theorem op_ne_lpar {t : Tok K} {op : COp} {p : Nat} (h : Tok.op t = some (op, p)) : t ≠ .lpar := by
  rintro rfl; simp [Tok.op] at h

theorem op_ne_quest {t : Tok K} {op : COp} {p : Nat} (h : Tok.op t = some (op, p)) : t ≠ .quest := by
  rintro rfl; simp [Tok.op] at h

theorem stop_close {t : Tok K} (h : t = .rpar ∨ t = .comma ∨ t = .colon) (i : Nat) (rest) :
    Stop i (t :: rest) := by
  rcases h with rfl | rfl | rfl <;> simp [Stop, Tok.op]

theorem stop_quest (rest : List (Tok K)) : Stop 6 (.quest :: rest) := by simp [Stop, Tok.op]

/-- Nothing derivable starts with a closing bracket. -/
theorem Derives.head {i : Nat} {ts : List (Tok K)} {a : CAst K} (h : Derives i ts a) :
    ∃ t tl, ts = t :: tl ∧ t ≠ .rpar := by
  induction h with
  | bin _ _ _ ih _ => obtain ⟨t, tl, rfl, h⟩ := ih; exact ⟨t, _, rfl, h⟩
  | cond _ _ _ ih _ _ => obtain ⟨t, tl, rfl, h⟩ := ih; exact ⟨t, _, rfl, h⟩
  | up _ _ ih => exact ih
  | _ => exact ⟨_, _, rfl, by simp⟩

variable [DecidableEq K]

theorem derives_reads {i : Nat} {ts : List (Tok K)} {a : CAst K} (h : Derives i ts a) :
    if 1 ≤ i ∧ i ≤ 6 then ReadsLoop i ts a else Reads i ts a := by
  have toReads : ∀ {i ts a}, i ≤ 7 →
      (if 1 ≤ i ∧ i ≤ 6 then ReadsLoop i ts a else Reads i ts a) → Reads (K := K) i ts a := by
    intro i ts a hi h
    split at h
    · exact h.reads hi
    · exact h
  induction h with
  | num v =>
    refine ⟨1, fun n hn rest _ => ?_⟩
    obtain ⟨m, rfl⟩ : ∃ m, n = m + 1 := ⟨n - 1, by omega⟩
    simp [parse]
  | var s =>
    refine ⟨1, fun n hn rest hr => ?_⟩
    obtain ⟨m, rfl⟩ : ∃ m, n = m + 1 := ⟨n - 1, by omega⟩
    cases rest with
    | nil => simp [parse]
    | cons t rest =>
      have := hr.1
      cases t <;> simp_all [parse]
  | call0 f =>
    refine ⟨1, fun n hn rest hr => ?_⟩
    obtain ⟨m, rfl⟩ : ∃ m, n = m + 1 := ⟨n - 1, by omega⟩
    simp [parse]
  | paren h ih =>
    obtain ⟨N, ih⟩ := toReads (by omega) ih
    refine ⟨N + 1, fun n hn rest _ => ?_⟩
    obtain ⟨m, rfl⟩ : ∃ m, n = m + 1 := ⟨n - 1, by omega⟩
    have := ih m (by omega) (.rpar :: rest) (stop_close (by simp) _ _)
    simp [parse, this]
  | call1 f h ih =>
    obtain ⟨t, tl, hts, hne⟩ := h.head
    obtain ⟨N, ih⟩ := toReads (by omega) ih
    refine ⟨N + 1, fun n hn rest _ => ?_⟩
    obtain ⟨m, rfl⟩ : ∃ m, n = m + 1 := ⟨n - 1, by omega⟩
    have := ih m (by omega) (.rpar :: rest) (stop_close (by simp) _ _)
    subst hts
    simp only [List.cons_append, List.append_assoc, List.nil_append] at this ⊢
    simp [parse, this, hne]
  | call2 f h h2 ih ih2 =>
    rename_i ts us a b
    obtain ⟨t, tl, hts, hne⟩ := h.head
    obtain ⟨N, ih⟩ := toReads (by omega) ih
    obtain ⟨M, ih2⟩ := toReads (by omega) ih2
    refine ⟨max N M + 1, fun n hn rest _ => ?_⟩
    obtain ⟨m, rfl⟩ : ∃ m, n = m + 1 := ⟨n - 1, by omega⟩
    have e2 := ih2 m (by omega) (.rpar :: rest) (stop_close (by simp) _ _)
    have e1 := ih m (by omega) (.comma :: (us ++ .rpar :: rest)) (stop_close (by simp) _ _)
    subst hts
    simp only [List.cons_append, List.append_assoc, List.nil_append] at e1 e2 ⊢
    simp [parse, e1, e2, hne]
  | call3 f h h2 h3 ih ih2 ih3 =>
    rename_i ts us ws a b c
    obtain ⟨t, tl, hts, hne⟩ := h.head
    obtain ⟨N, ih⟩ := toReads (by omega) ih
    obtain ⟨M, ih2⟩ := toReads (by omega) ih2
    obtain ⟨O, ih3⟩ := toReads (by omega) ih3
    refine ⟨max (max N M) O + 1, fun n hn rest _ => ?_⟩
    obtain ⟨m, rfl⟩ : ∃ m, n = m + 1 := ⟨n - 1, by omega⟩
    have e3 := ih3 m (by omega) (.rpar :: rest) (stop_close (by simp) _ _)
    have e2 := ih2 m (by omega) (.comma :: (ws ++ .rpar :: rest)) (stop_close (by simp) _ _)
    have e1 := ih m (by omega) (.comma :: (us ++ .comma :: (ws ++ .rpar :: rest)))
      (stop_close (by simp) _ _)
    subst hts
    simp only [List.cons_append, List.append_assoc, List.nil_append] at e1 e2 e3 ⊢
    simp [parse, e1, e2, e3, hne]
  | @up i ts a hi h ih =>
    obtain ⟨N, ih⟩ := toReads h.level ih
    by_cases h6 : i + 1 ≤ 6
    · rw [if_pos ⟨by omega, h6⟩]
      refine ⟨N, 1, fun n hn rest hr => ?_⟩
      have := ih n hn rest hr
      unfold parse
      rw [if_neg (by omega), if_neg (by omega)]
      simp [this]
    · have h7 : i = 6 := by omega
      subst h7
      rw [if_neg (by omega)]
      refine ⟨N + 1, fun n hn rest hr => ?_⟩
      obtain ⟨m, rfl⟩ : ∃ m, n = m + 1 := ⟨n - 1, by omega⟩
      have := ih m (by omega) rest (hr.mono (by omega) (by omega))
      unfold parse
      rw [if_neg (by omega), if_pos rfl, this]
      cases rest with
      | nil => rfl
      | cons t rest =>
        have := hr.2.2 rfl
        cases t <;> simp_all
  | @bin i ts us a b t op hop h1 h2 ih1 ih2 =>
    have hl := op_level hop
    rw [if_pos ⟨by omega, by omega⟩] at ih1 ⊢
    obtain ⟨N, d, ih1⟩ := ih1
    obtain ⟨M, ih2⟩ := toReads h2.level ih2
    refine ⟨max N M, d + 1, fun n hn rest hr => ?_⟩
    have hstop : Stop (i + 1 - 1) (t :: (us ++ rest)) := by
      refine ⟨op_ne_lpar hop, ?_, fun _ => op_ne_quest hop⟩
      intro op' p hp
      rw [hop] at hp; cases hp; omega
    have e1 := ih1 (n + 1) (by omega) (t :: (us ++ rest)) hstop
    have e2 := ih2 n (by omega) rest hr
    have : n + (d + 1) = n + 1 + d := by omega
    rw [this, List.append_assoc, List.append_assoc]
    simp only [List.cons_append, List.nil_append]
    rw [e1]
    simp [parseLoop, hop, e2]
  | cond h1 h2 h3 ih1 ih2 ih3 =>
    rename_i ts us ws c a b
    rw [if_neg (by omega)] at ih2 ih3 ⊢
    obtain ⟨N, ih1⟩ := toReads (by omega) ih1
    obtain ⟨M, ih2⟩ := ih2
    obtain ⟨O, ih3⟩ := ih3
    refine ⟨max (max N M) O + 1, fun n hn rest hr => ?_⟩
    obtain ⟨m, rfl⟩ : ∃ m, n = m + 1 := ⟨n - 1, by omega⟩
    have e1 := ih1 m (by omega) (.quest :: (us ++ .colon :: (ws ++ rest))) (stop_quest _)
    have e2 := ih2 m (by omega) (.colon :: (ws ++ rest)) (stop_close (by simp) _ _)
    have e3 := ih3 m (by omega) rest hr
    simp only [List.append_assoc, List.cons_append, List.nil_append]
    unfold parse
    rw [if_neg (by omega), if_pos rfl, e1]
    simp [e2, e3]

theorem derives_unique {i : Nat} {ts : List (Tok K)} {a b : CAst K} (ha : Derives i ts a)
    (hb : Derives i ts b) : a = b := by
  have key : ∀ c, Derives i ts c → ∃ N, ∀ n, N ≤ n → parse n i ts = some (c, []) := by
    intro c hc
    have := derives_reads hc
    have hr : Reads i ts c := by
      split at this
      · exact this.reads hc.level
      · exact this
    obtain ⟨N, h⟩ := hr
    exact ⟨N, fun n hn => by simpa using h n hn [] trivial⟩
  obtain ⟨N, hN⟩ := key a ha
  obtain ⟨M, hM⟩ := key b hb
  have h1 := hN (max N M) (by omega)
  have h2 := hM (max N M) (by omega)
  rw [h1] at h2
  simpa using h2

/-! ### Re-association of chains -/

omit [DecidableEq K] in
theorem Derives.up' {i j : Nat} {ts : List (Tok K)} {a : CAst K} (h : Derives i ts a) (hij : i ≤ j)
    (hj : j ≤ 7) : Derives j ts a := by
  induction j with
  | zero => have : i = 0 := by omega
            subst this; exact h
  | succ j ih =>
    by_cases he : i = j + 1
    · subst he; exact h
    · exact .up (by omega) (ih (by omega) (by omega))

variable [Field K]

/-- A chain of additions to the right of `+` may be read left to right. -/
theorem add_chain {l : List (Tok K)} {a : CAst K} (hl : Derives 2 l a) :
    ∀ {r : List (Tok K)} {b : CAst K}, Derives 2 r b →
      ∃ c, Derives 2 (l ++ [.plus] ++ r) c ∧
        ∀ (C : Cxx K) x y, ceval C a = some x → ceval C b = some y → ceval C c = some (x + y) := by
  intro r b h
  generalize hi : 2 = i at h
  induction h with
  | up _ h _ =>
    have : 1 = _ := Nat.succ.inj hi
    subst this
    exact ⟨.bin .add a _, .bin (by rfl) hl h, fun C x y hx hy => by simp [ceval, hx, hy]⟩
  | @bin i ts us a' b t op hop h1 h2 ih1 ih2 =>
    have hi' : 1 = i := Nat.succ.inj hi
    subst hi'
    obtain ⟨c, hc, hcv⟩ := ih1 rfl
    cases t <;> simp [Tok.op] at hop
    · subst hop
      refine ⟨.bin .add c b, ?_, fun C x y hx hy => ?_⟩
      · have := Derives.bin (t := .plus) (op := .add) (by rfl) hc h2
        simpa [List.append_assoc] using this
      · simp only [ceval] at hy
        obtain ⟨u, hu, hy⟩ := Option.bind_eq_some_iff.mp hy
        obtain ⟨w, hw, hy⟩ := Option.bind_eq_some_iff.mp hy
        cases hy
        simp [ceval, hcv C x u hx hu, hw]; ring
    · subst hop
      refine ⟨.bin .sub c b, ?_, fun C x y hx hy => ?_⟩
      · have := Derives.bin (t := .minus) (op := .sub) (by rfl) hc h2
        simpa [List.append_assoc] using this
      · simp only [ceval] at hy
        obtain ⟨u, hu, hy⟩ := Option.bind_eq_some_iff.mp hy
        obtain ⟨w, hw, hy⟩ := Option.bind_eq_some_iff.mp hy
        cases hy
        simp [ceval, hcv C x u hx hu, hw]; ring
  | _ => omega

/-- A chain of multiplications and divisions to the right of `*` may be read left
to right. -/
theorem mul_chain {l : List (Tok K)} {a : CAst K} (hl : Derives 1 l a) :
    ∀ {r : List (Tok K)} {b : CAst K}, Derives 1 r b →
      ∃ c, Derives 1 (l ++ [.star] ++ r) c ∧
        ∀ (C : Cxx K) x y, ceval C a = some x → ceval C b = some y → ceval C c = some (x * y) := by
  intro r b h
  generalize hi : 1 = i at h
  induction h with
  | up _ h _ =>
    have : 0 = _ := Nat.succ.inj hi
    subst this
    exact ⟨.bin .mul a _, .bin (by rfl) hl h, fun C x y hx hy => by simp [ceval, hx, hy]⟩
  | @bin i ts us a' b t op hop h1 h2 ih1 ih2 =>
    have hi' : 0 = i := Nat.succ.inj hi
    subst hi'
    obtain ⟨c, hc, hcv⟩ := ih1 rfl
    cases t <;> simp [Tok.op] at hop
    · subst hop
      refine ⟨.bin .mul c b, ?_, fun C x y hx hy => ?_⟩
      · have := Derives.bin (t := .star) (op := .mul) (by rfl) hc h2
        simpa [List.append_assoc] using this
      · simp only [ceval] at hy
        obtain ⟨u, hu, hy⟩ := Option.bind_eq_some_iff.mp hy
        obtain ⟨w, hw, hy⟩ := Option.bind_eq_some_iff.mp hy
        cases hy
        simp [ceval, hcv C x u hx hu, hw]; ring
    · subst hop
      refine ⟨.bin .div c b, ?_, fun C x y hx hy => ?_⟩
      · have := Derives.bin (t := .slash) (op := .div) (by rfl) hc h2
        simpa [List.append_assoc] using this
      · simp only [ceval] at hy
        obtain ⟨u, hu, hy⟩ := Option.bind_eq_some_iff.mp hy
        obtain ⟨w, hw, hy⟩ := Option.bind_eq_some_iff.mp hy
        split at hy
        · cases hy
        · rename_i hw0
          cases hy
          simp [ceval, hcv C x u hx hu, hw, hw0, mul_div_assoc]
  | _ => omega

/-! ### The printed text -/

/-- The text printed for `e` is an expression of level `i`, and its value is that
of `e`. -/
def Prints (L : Lit K) (avx : Bool) (i : Nat) (e : Ex K) (ts : List (Tok K)) : Prop :=
  ∃ a, Derives i ts a ∧
    ∀ (C : Cxx K) (S : Sem K), Agrees C S L avx e → ∀ v, eval S e = some v → ceval C a = some v

theorem Prints.up {L : Lit K} {avx : Bool} {i j : Nat} {e : Ex K} {ts : List (Tok K)}
    (h : Prints L avx i e ts) (hij : i ≤ j) (hj : j ≤ 7) : Prints L avx j e ts := by
  obtain ⟨a, h, hv⟩ := h
  exact ⟨a, h.up' hij hj, hv⟩

theorem Prints.paren {L : Lit K} {avx : Bool} {e : Ex K} {ts : List (Tok K)}
    (h : Prints L avx 2 e ts) : Prints L avx 0 e ([.lpar] ++ ts ++ [.rpar]) := by
  obtain ⟨a, h, hv⟩ := h
  exact ⟨a, .paren (h.up' (by omega) (by omega)), hv⟩

/-- The bracketed text is a multiplicative expression. -/
theorem bracketed_prints {L : Lit K} {avx : Bool} {e : Ex K}
    (h : Prints L avx (if isSumOrSub e then 2 else 1) e (print L avx e)) :
    Prints L avx 1 e (bracketed e (print L avx e)) := by
  unfold bracketed
  split
  · rename_i hs
    rw [if_pos hs] at h
    exact h.paren.up (by omega) (by omega)
  · rename_i hs
    rw [if_neg hs] at h
    exact h

theorem rel_prints {L : Lit K} {avx : Bool} {bop : Bin} {l r : Ex K} {ts us : List (Tok K)}
    {t : Tok K} {op : COp} {i : Nat}
    (ht : Tok.op t = some (op, i + 1)) (hi : 2 ≤ i) (hrel : relOf bop = some op)
    (h1 : Prints L avx 2 l ts) (h2 : Prints L avx 2 r us) :
    Prints L avx 0 (.bin bop l r) ([.lpar] ++ ts ++ [t] ++ us ++ [.rpar]) := by
  obtain ⟨a, h1, hv1⟩ := h1
  obtain ⟨b, h2, hv2⟩ := h2
  have hl := op_level ht
  refine ⟨.bin op a b, ?_, ?_⟩
  · have := Derives.paren ((Derives.bin ht (h1.up' (j := i + 1) (by omega) (by omega))
      (h2.up' hi (by omega))).up' (j := 7) (by omega) (by omega))
    simpa [List.append_assoc] using this
  · intro C S hA v hv
    cases bop <;> simp only [relOf, Option.some.injEq, reduceCtorEq] at hrel <;> subst hrel <;>
    · simp only [eval] at hv
      obtain ⟨x, hx, hv⟩ := Option.bind_eq_some_iff.mp hv
      obtain ⟨y, hy, hv⟩ := Option.bind_eq_some_iff.mp hv
      cases hv
      simp only [Agrees] at hA
      simp [ceval, hv1 C S hA.2.1 x hx, hv2 C S hA.2.2 y hy, hA.1 _ rfl]

theorem call2_prints {L : Lit K} {avx : Bool} {bop : Bin} {l r : Ex K} {ts us : List (Tok K)}
    (f : String) (hb : bop = .pow ∧ f = "pow" ∨ bop = .atan2 ∧ f = "atan2" ∨ bop = .fmod)
    (h1 : Prints L avx 2 l ts) (h2 : Prints L avx 2 r us) :
    Prints L avx 0 (.bin bop l r) ([.ident f, .lpar] ++ ts ++ [.comma] ++ us ++ [.rpar]) := by
  obtain ⟨a, h1, hv1⟩ := h1
  obtain ⟨b, h2, hv2⟩ := h2
  refine ⟨.call2 f a b, .call2 f (h1.up' (by omega) (by omega)) (h2.up' (by omega) (by omega)), ?_⟩
  intro C S hA v hv
  rcases hb with ⟨rfl, rfl⟩ | ⟨rfl, rfl⟩ | rfl
  · simp only [eval] at hv
    obtain ⟨x, hx, hv⟩ := Option.bind_eq_some_iff.mp hv
    obtain ⟨y, hy, hv⟩ := Option.bind_eq_some_iff.mp hv
    cases hv
    simp only [Agrees] at hA
    simp [ceval, hv1 C S hA.2.1 x hx, hv2 C S hA.2.2 y hy, hA.1]
  · simp only [eval] at hv
    obtain ⟨x, hx, hv⟩ := Option.bind_eq_some_iff.mp hv
    obtain ⟨y, hy, hv⟩ := Option.bind_eq_some_iff.mp hv
    cases hv
    simp only [Agrees] at hA
    simp [ceval, hv1 C S hA.2.1 x hx, hv2 C S hA.2.2 y hy, hA.1]
  · simp only [Agrees] at hA

theorem un_prints {L : Lit K} {avx : Bool} {f : Un} (hf : f ≠ .isqrt) {e : Ex K} {ts : List (Tok K)}
    (h : Prints L avx 2 e ts) :
    Prints L avx 0 (.un f e) ([.ident (unName avx f), .lpar] ++ ts ++ [.rpar]) := by
  obtain ⟨a, h, hv⟩ := h
  refine ⟨.call1 _ a, .call1 _ (h.up' (by omega) (by omega)), ?_⟩
  intro C S hA v hev
  by_cases hlg : f = .lgamma
  · subst hlg; simp only [Agrees] at hA
  have hev' : (eval S e).map (S.un f) = some v := by
    rw [← hev]; cases f <;> simp_all [eval]
  have hA' : (∀ x, C.call1 (unName avx f) x = some (S.un f x)) ∧ Agrees C S L avx e := by
    cases f <;> simp_all [Agrees]
  obtain ⟨x, hx, rfl⟩ := Option.map_eq_some_iff.mp hev'
  simp [ceval, hv C S hA'.2 x hx, hA'.1]

theorem print_prints (L : Lit K) (avx : Bool) (e : Ex K) :
    Prints L avx (if isSumOrSub e then 2 else 1) e (print L avx e) := by
  have up2 : ∀ {e : Ex K}, Prints L avx (if isSumOrSub e then 2 else 1) e (print L avx e) →
      Prints L avx 2 e (print L avx e) := by
    intro e h
    split at h
    · exact h
    · exact h.up (by omega) (by omega)
  have up1 : ∀ {e : Ex K} {ts}, isSumOrSub e = false → Prints L avx 0 e ts →
      Prints L avx (if isSumOrSub e then 2 else 1) e ts := by
    intro e ts h hp
    rw [h]
    exact hp.up (by omega) (by simp)
  induction e with
  | const v =>
    apply up1 rfl
    simp only [print, printConst]
    split
    · rename_i hr
      refine ⟨.num _, .paren ((Derives.num _).up' (by omega) (by omega)), ?_⟩
      intro C S hA w hw
      simp only [eval, Option.some.injEq] at hw
      simp only [Agrees, hr, if_true] at hA
      subst hw
      simp [ceval, hA]
    · rename_i hr
      refine ⟨.call2 _ (.num _) (.num _), .call2 _ ((Derives.num _).up' (by omega) (by omega))
        ((Derives.num _).up' (by omega) (by omega)), ?_⟩
      intro C S hA w hw
      simp only [eval, Option.some.injEq] at hw
      simp only [Agrees, hr] at hA
      simp [ceval, hA.1, ← hw, hA.2]
  | param n =>
    apply up1 rfl
    refine ⟨.var n, .var n, fun C S hA v hv => ?_⟩
    simp only [eval, Option.some.injEq] at hv
    simp only [Agrees] at hA
    simp [ceval, hA, hv]
  | cparam re im =>
    apply up1 rfl
    refine ⟨.call2 _ (.var re) (.var im), .call2 _ ((Derives.var _).up' (by omega) (by omega))
        ((Derives.var _).up' (by omega) (by omega)), fun C S hA v hv => ?_⟩
    simp only [eval, Option.some.injEq] at hv
    simp only [Agrees] at hA
    simp [ceval, hA.1, hA.2.1, hA.2.2, hv]
  | lambda n =>
    apply up1 rfl
    refine ⟨.var n, .var n, fun C S hA v hv => ?_⟩
    simp only [eval, Option.some.injEq] at hv
    simp only [Agrees] at hA
    simp [ceval, hA, hv]
  | func n =>
    apply up1 rfl
    exact ⟨.call0 n, .call0 n, fun C S hA v hv => by simp only [Agrees] at hA⟩
  | un f e ih =>
    by_cases hf : f = .isqrt
    · subst hf
      show Prints L avx 1 _ _
      obtain ⟨a, h, hv⟩ := up2 ih
      refine ⟨.bin .div (.num 1) (.call1 "sqrt" a), ?_, ?_⟩
      · have := Derives.bin (t := .slash) (by rfl) ((Derives.num (1 : K)).up' (j := 1) (by omega) (by omega))
          (Derives.call1 "sqrt" (h.up' (j := 7) (by omega) (by omega)))
        simpa [print, List.append_assoc] using this
      · intro C S hA v hev
        simp only [Agrees] at hA
        simp only [eval] at hev
        obtain ⟨x, hx, hev⟩ := Option.bind_eq_some_iff.mp hev
        split at hev
        · cases hev
        · rename_i h0
          cases hev
          simp [ceval, hv C S hA.2 x hx, hA.1, h0]
    · apply up1 rfl
      have := un_prints hf (up2 ih)
      cases f <;> first | exact this | exact absurd rfl hf
  | bin op l r ihl ihr =>
    cases op with
    | sum =>
      show Prints L avx 2 _ _
      obtain ⟨a, h1, hv1⟩ := up2 ihl
      obtain ⟨b, h2, hv2⟩ := up2 ihr
      obtain ⟨c, hc, hcv⟩ := add_chain h1 h2
      refine ⟨c, hc, fun C S hA v hv => ?_⟩
      simp only [eval] at hv
      obtain ⟨x, hx, hv⟩ := Option.bind_eq_some_iff.mp hv
      obtain ⟨y, hy, hv⟩ := Option.bind_eq_some_iff.mp hv
      cases hv
      simp only [Agrees] at hA
      exact hcv C x y (hv1 C S hA.2.1 x hx) (hv2 C S hA.2.2 y hy)
    | sub =>
      show Prints L avx 2 _ _
      obtain ⟨a, h1, hv1⟩ := up2 ihl
      obtain ⟨b, h2, hv2⟩ := bracketed_prints ihr
      refine ⟨.bin .sub a b, .bin (by rfl) h1 h2, fun C S hA v hv => ?_⟩
      simp only [eval] at hv
      obtain ⟨x, hx, hv⟩ := Option.bind_eq_some_iff.mp hv
      obtain ⟨y, hy, hv⟩ := Option.bind_eq_some_iff.mp hv
      cases hv
      simp only [Agrees] at hA
      simp [ceval, hv1 C S hA.2.1 x hx, hv2 C S hA.2.2 y hy]
    | prod =>
      show Prints L avx 1 _ _
      obtain ⟨a, h1, hv1⟩ := bracketed_prints ihl
      obtain ⟨b, h2, hv2⟩ := bracketed_prints ihr
      obtain ⟨c, hc, hcv⟩ := mul_chain h1 h2
      refine ⟨c, hc, fun C S hA v hv => ?_⟩
      simp only [eval] at hv
      obtain ⟨x, hx, hv⟩ := Option.bind_eq_some_iff.mp hv
      obtain ⟨y, hy, hv⟩ := Option.bind_eq_some_iff.mp hv
      cases hv
      simp only [Agrees] at hA
      exact hcv C x y (hv1 C S hA.2.1 x hx) (hv2 C S hA.2.2 y hy)
    | div =>
      show Prints L avx 1 _ _
      obtain ⟨a, h1, hv1⟩ := (up2 ihl).paren
      obtain ⟨b, h2, hv2⟩ := (up2 ihr).paren
      refine ⟨.bin .div a b, ?_, fun C S hA v hv => ?_⟩
      · have := Derives.bin (t := .slash) (by rfl) (h1.up' (j := 1) (by omega) (by omega)) h2
        simpa [print, List.append_assoc] using this
      · simp only [eval] at hv
        obtain ⟨x, hx, hv⟩ := Option.bind_eq_some_iff.mp hv
        obtain ⟨y, hy, hv⟩ := Option.bind_eq_some_iff.mp hv
        simp only [Agrees] at hA
        split at hv
        · cases hv
        · rename_i h0
          cases hv
          simp [ceval, hv1 C S hA.2.1 x hx, hv2 C S hA.2.2 y hy, h0]
    | and => exact up1 rfl (rel_prints (i := 4) rfl (by omega) rfl (up2 ihl) (up2 ihr))
    | or => exact up1 rfl (rel_prints (i := 5) rfl (by omega) rfl (up2 ihl) (up2 ihr))
    | gt => exact up1 rfl (rel_prints (i := 2) rfl (by omega) rfl (up2 ihl) (up2 ihr))
    | lt => exact up1 rfl (rel_prints (i := 2) rfl (by omega) rfl (up2 ihl) (up2 ihr))
    | ge => exact up1 rfl (rel_prints (i := 2) rfl (by omega) rfl (up2 ihl) (up2 ihr))
    | le => exact up1 rfl (rel_prints (i := 2) rfl (by omega) rfl (up2 ihl) (up2 ihr))
    | eq => exact up1 rfl (rel_prints (i := 3) rfl (by omega) rfl (up2 ihl) (up2 ihr))
    | pow => exact up1 rfl (call2_prints _ (by simp) (up2 ihl) (up2 ihr))
    | fmod => exact up1 rfl (call2_prints _ (by simp) (up2 ihl) (up2 ihr))
    | atan2 => exact up1 rfl (call2_prints _ (by simp) (up2 ihl) (up2 ihr))
  | ternary c a b ihc iha ihb =>
    apply up1 rfl
    obtain ⟨tc, hc, hvc⟩ := up2 ihc
    obtain ⟨ta, ha, hva⟩ := up2 iha
    obtain ⟨tb, hb, hvb⟩ := up2 ihb
    have hval : ∀ (C : Cxx K) (S : Sem K), Agrees C S L avx (.ternary c a b) → ∀ v,
        eval S (.ternary c a b) = some v →
        (do if C.truth (← ceval C tc) then ceval C ta else ceval C tb) = some v := by
      intro C S hA v hv
      simp only [Agrees] at hA
      simp only [eval] at hv
      obtain ⟨x, hx, hv⟩ := Option.bind_eq_some_iff.mp hv
      simp only [hvc C S hA.2.1 x hx, Option.bind_eq_bind, Option.bind_some, hA.1]
      split at hv
      · rename_i h; simp [h, hva C S hA.2.2.1 v hv]
      · rename_i h; simp [h, hvb C S hA.2.2.2 v hv]
    simp only [print]
    split
    · rename_i havx
      refine ⟨.call3 "select" tc ta tb, .call3 _ (hc.up' (by omega) (by omega))
        (ha.up' (by omega) (by omega)) (hb.up' (by omega) (by omega)), ?_⟩
      intro C S hA v hv
      simp only [ceval, if_true]
      exact hval C S hA v hv
    · refine ⟨.cond tc ta tb, ?_, ?_⟩
      · have := Derives.paren (Derives.cond (hc.up' (by omega) (by omega))
          (ha.up' (by omega) (by omega)) (hb.up' (by omega) (by omega)))
        simpa [List.append_assoc] using this
      · intro C S hA v hv
        simp only [ceval]
        exact hval C S hA v hv
  | subtree key e ih =>
    apply up1 rfl
    refine ⟨.var _, .var _, fun C S hA v hv => ?_⟩
    simp only [eval] at hv
    simp only [Agrees] at hA
    simp [ceval, hA v hv]

end AmpGen.Expr
