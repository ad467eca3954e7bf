import Verif.Parser.Lemmas
/-
Lemmas on the loop over the tokens.
-/
namespace AmpGen.Parser
open AmpGen.Strings AmpGen.Parser.Spec

variable {E : Type} (o : Ops E)

/-! ### Brackets -/

/-- The tokens contain matching brackets of one kind only. -/
def Level (op cl : Char) (ts : List Str) : Prop := ∀ (n : Int) (rest : List Str), 1 ≤ n → closing op cl n (ts ++ rest) = (closing op cl n rest).map (· + ts.length)

/-- The tokens contain matching brackets of both kinds. -/
def Levels (ts : List Str) : Prop := Level '(' ')' ts ∧ Level '{' '}' ts

theorem Level.append {op cl : Char} {ts us : List Str} (h1 : Level op cl ts) (h2 : Level op cl us) : Level op cl (ts ++ us) := by
  intro n rest hn
  rw [List.append_assoc, h1 n _ hn, h2 n _ hn, Option.map_map]
  congr 1
  funext x
  simp; omega

theorem Levels.append {ts us : List Str} (h1 : Levels ts) (h2 : Levels us) : Levels (ts ++ us) := ⟨h1.1.append h2.1, h1.2.append h2.2⟩

theorem Levels.nil : Levels [] := by
  constructor <;> · intro n rest _; simp

theorem level_token (op cl : Char) (t : Str) (c : Char) (s : Str) (ht : t = c :: s) (h1 : c ≠ op) (h2 : c ≠ cl) : Level op cl [t] := by
  intro n rest hn
  subst ht
  rw [List.singleton_append, closing]
  have : ¬ n = 0 := by omega
  simp [h1, h2, this]

theorem levels_token (t : Str) (c : Char) (s : Str) (ht : t = c :: s) (h : c ∉ ['(', ')', '{', '}']) : Levels [t] := by
  simp only [List.mem_cons, List.not_mem_nil, or_false, not_or] at h
  exact ⟨level_token _ _ t c s ht h.1 h.2.1, level_token _ _ t c s ht h.2.2.1 h.2.2.2⟩

theorem level_bracket {op cl : Char} (hoc : op ≠ cl) {ts : List Str} (h : Level op cl ts) : Level op cl ([op] :: ts ++ [[cl]]) := by
  intro n rest hn
  have e : [op] :: ts ++ [[cl]] ++ rest = [op] :: (ts ++ [cl] :: rest) := by simp
  rw [e, closing]
  have h0 : ¬ n + 1 = 0 := by omega
  have h01 : n + 1 - 0 = n + 1 := by omega
  simp only [List.head?_cons, Option.bind_eq_bind, Option.bind_some, if_true, if_neg hoc, h01, if_neg h0]
  rw [h (n + 1) _ (by omega), closing]
  have h1 : ¬ n + 1 - 1 = 0 := by omega
  simp only [List.head?_cons, Option.bind_eq_bind, Option.bind_some, if_neg (Ne.symm hoc), if_true, Int.add_zero, if_neg h1]
  have h2 : n + 1 - 1 = n := by omega
  rw [h2, Option.map_map, Option.map_map]
  congr 1
  funext x
  simp; omega

theorem level_other {op cl a b : Char} (h1 : a ≠ op) (h2 : a ≠ cl) (h3 : b ≠ op) (h4 : b ≠ cl) {ts : List Str} (h : Level op cl ts) : Level op cl ([a] :: ts ++ [[b]]) := by
  have := ((level_token op cl [a] a [] rfl h1 h2).append h).append (level_token op cl [b] b [] rfl h3 h4)
  simpa using this

theorem closing_end {op cl : Char} (hoc : op ≠ cl) {ts : List Str} (h : Level op cl ts) (rest : List Str) : closing op cl 1 (ts ++ [cl] :: rest) = some ts.length := by
  rw [h 1 _ (by omega), closing]
  simp [Ne.symm hoc]

/-! ### Commas -/

/-- No comma of the tokens divides an entry at this depth of brackets and braces. -/
def SkipsAt (b1 b2 : Int) (ts : List Str) : Prop := ∀ (cur : List Str) (parts : List (List Str)) (rest : List Str), rest ≠ [] → splitLoop (ts ++ rest) b1 b2 cur parts = splitLoop rest b1 b2 (cur ++ ts) parts

theorem SkipsAt.append {b1 b2 : Int} {ts us : List Str} (h1 : SkipsAt b1 b2 ts) (h2 : SkipsAt b1 b2 us) : SkipsAt b1 b2 (ts ++ us) := by
  intro cur parts rest hr
  rw [List.append_assoc, h1 cur parts (us ++ rest) (by simp [hr]), h2 _ parts rest hr]
  simp

theorem SkipsAt.nil {b1 b2 : Int} : SkipsAt b1 b2 [] := by
  intro cur parts rest _; simp

/-- A step over a token. -/
theorem splitLoop_cons (t : Str) (c : Char) (s : Str) (ht : t = c :: s) (ts : List Str) (hts : ts ≠ []) (b1 b2 b1' b2' : Int) (h1 : b1' = b1 + (if c = '(' then 1 else 0) - (if c = ')' then 1 else 0))
    (h2 : b2' = b2 + (if c = '{' then 1 else 0) - (if c = '}' then 1 else 0)) (cur : List Str) (parts : List (List Str)) :
    splitLoop (t :: ts) b1 b2 cur parts = if t = [','] ∧ b1' = 0 ∧ b2' = 0 then splitLoop ts b1' b2' [] (parts ++ [cur]) else splitLoop ts b1' b2' (cur ++ [t]) parts := by
  rcases ts with _ | ⟨u, ts⟩
  · exact absurd rfl hts
  · subst ht h1 h2
    rw [splitLoop]
    · simp only [List.head?_cons, Option.bind_eq_bind, Option.bind_some]
    · simp

theorem skips_token {b1 b2 : Int} (t : Str) (c : Char) (s : Str) (ht : t = c :: s) (h : c ∉ ['(', ')', '{', '}']) (hc : t ≠ [','] ∨ b1 ≠ 0 ∨ b2 ≠ 0) : SkipsAt b1 b2 [t] := by
  intro cur parts rest hr
  simp only [List.mem_cons, List.not_mem_nil, or_false, not_or] at h
  rw [List.singleton_append, splitLoop_cons t c s ht rest hr b1 b2 b1 b2 (by simp [h.1, h.2.1]) (by simp [h.2.2.1, h.2.2.2])]
  have : ¬ (t = [','] ∧ b1 = 0 ∧ b2 = 0) := by
    rintro ⟨e1, e2, e3⟩
    rcases hc with h | h | h
    · exact h e1
    · exact h e2
    · exact h e3
  rw [if_neg this]

theorem skips_group {b1 b2 : Int} {ts : List Str} (h : SkipsAt (b1 + 1) b2 ts) : SkipsAt b1 b2 (['('] :: ts ++ [[')']]) := by
  intro cur parts rest hr
  have e : ['('] :: ts ++ [[')']] ++ rest = ['('] :: (ts ++ [')'] :: rest) := by simp
  rw [e, splitLoop_cons ['('] '(' [] rfl _ (by simp) b1 b2 (b1 + 1) b2 (by simp) (by simp), if_neg (by simp), h _ parts _ (by simp),
    splitLoop_cons [')'] ')' [] rfl _ hr (b1 + 1) b2 b1 b2 (by simp) (by simp), if_neg (by simp)]
  simp

theorem skips_braces {b1 b2 : Int} {ts : List Str} (h : SkipsAt b1 (b2 + 1) ts) : SkipsAt b1 b2 (['{'] :: ts ++ [['}']]) := by
  intro cur parts rest hr
  have e : ['{'] :: ts ++ [['}']] ++ rest = ['{'] :: (ts ++ ['}'] :: rest) := by simp
  rw [e, splitLoop_cons ['{'] '{' [] rfl _ (by simp) b1 b2 b1 (b2 + 1) (by simp) (by simp), if_neg (by simp), h _ parts _ (by simp),
    splitLoop_cons ['}'] '}' [] rfl _ hr b1 (b2 + 1) b1 b2 (by simp) (by simp), if_neg (by simp)]
  simp

theorem splitLoop_length : ∀ (ts : List Str) (b1 b2 : Int) (cur : List Str) (parts r : List (List Str)), splitLoop ts b1 b2 cur parts = some r → parts.length < r.length
  | [], _, _, _, _, _, h => by simp [splitLoop] at h
  | [t], b1, b2, cur, parts, r, h => by
    simp only [splitLoop, Option.some.injEq] at h
    rw [← h]; simp
  | t :: u :: ts, b1, b2, cur, parts, r, h => by
    rcases t with _ | ⟨c, s⟩
    · simp [splitLoop] at h
    · obtain ⟨d1, hd1⟩ : ∃ d, d = b1 + (if c = '(' then 1 else 0) - (if c = ')' then 1 else 0) := ⟨_, rfl⟩
      obtain ⟨d2, hd2⟩ : ∃ d, d = b2 + (if c = '{' then 1 else 0) - (if c = '}' then 1 else 0) := ⟨_, rfl⟩
      rw [splitLoop_cons (c :: s) c s rfl (u :: ts) (by simp) b1 b2 d1 d2 hd1 hd2] at h
      split at h
      · have := splitLoop_length _ _ _ _ _ _ h
        simp only [List.length_append, List.length_singleton] at this
        omega
      · exact splitLoop_length _ _ _ _ _ _ h

/-- The last token never divides. -/
theorem splitLoop_last (x : Str) : ∀ (ts : List Str) (b1 b2 : Int) (cur : List Str) (parts : List (List Str)), ts ≠ [] → splitLoop (ts ++ [x]) b1 b2 cur parts = some (parts ++ [cur ++ ts ++ [x]]) →
    splitLoop ts b1 b2 cur parts = some (parts ++ [cur ++ ts])
  | [], _, _, _, _, h, _ => absurd rfl h
  | [t], b1, b2, cur, parts, _, _ => by simp [splitLoop]
  | t :: u :: ts, b1, b2, cur, parts, _, h => by
    rcases t with _ | ⟨c, s⟩
    · simp [splitLoop] at h
    · obtain ⟨d1, hd1⟩ : ∃ d, d = b1 + (if c = '(' then 1 else 0) - (if c = ')' then 1 else 0) := ⟨_, rfl⟩
      obtain ⟨d2, hd2⟩ : ∃ d, d = b2 + (if c = '{' then 1 else 0) - (if c = '}' then 1 else 0) := ⟨_, rfl⟩
      rw [List.cons_append, splitLoop_cons (c :: s) c s rfl (u :: ts ++ [x]) (by simp) b1 b2 d1 d2 hd1 hd2] at h
      rw [splitLoop_cons (c :: s) c s rfl (u :: ts) (by simp) b1 b2 d1 d2 hd1 hd2]
      split
      · rename_i hc
        rw [if_pos hc] at h
        have := splitLoop_length _ _ _ _ _ _ h
        simp at this
      · rename_i hc
        rw [if_neg hc] at h
        have := splitLoop_last x (u :: ts) _ _ (cur ++ [c :: s]) parts (by simp) (by simpa using h)
        simpa using this

theorem splitLoop_end {ts : List Str} (hts : ts ≠ []) (h : SkipsAt 0 0 ts) (parts : List (List Str)) : splitLoop ts 0 0 [] parts = some (parts ++ [ts]) := by
  have := splitLoop_last ['x'] ts 0 0 [] parts hts (by rw [h [] parts [['x']] (by simp)]; simp [splitLoop])
  simpa using this

/-- Entries are found again. -/
theorem splitLoop_entries : ∀ (cs : List (List Str)) (parts : List (List Str)), cs ≠ [] → (∀ c ∈ cs, c ≠ [] ∧ SkipsAt 0 0 c) → splitLoop ([[',']].intercalate cs) 0 0 [] parts = some (parts ++ cs)
  | [], _, h, _ => absurd rfl h
  | [c], parts, _, h => by
    have e : [[',']].intercalate [c] = c := by simp [List.intercalate]
    rw [e]
    exact splitLoop_end (h c List.mem_cons_self).1 (h c List.mem_cons_self).2 parts
  | c :: d :: cs, parts, _, h => by
    have e : [[',']].intercalate (c :: d :: cs) = c ++ [','] :: [[',']].intercalate (d :: cs) := by simp [List.intercalate]
    have hne : [[',']].intercalate (d :: cs) ≠ [] := by
      have hd := (h d (by simp)).1
      rcases cs with _ | ⟨f, cs⟩
      · simpa [List.intercalate] using hd
      · simp [List.intercalate, hd]
    rw [e, (h c List.mem_cons_self).2 [] parts _ (by simp), splitLoop_cons [','] ',' [] rfl _ hne 0 0 0 0 (by simp) (by simp), if_pos ⟨rfl, rfl, rfl⟩,
      splitLoop_entries (d :: cs) _ (by simp) fun x hx => h x (List.mem_cons_of_mem _ hx)]
    simp

theorem intercalate_induction {P : List Str → Prop} (h0 : P []) (happ : ∀ a b, P a → P b → P (a ++ b)) (hc : P [[',']]) : ∀ cs : List (List Str), (∀ c ∈ cs, P c) → P ([[',']].intercalate cs)
  | [], _ => by simpa [List.intercalate] using h0
  | [c], h => by simpa [List.intercalate] using h c List.mem_cons_self
  | c :: d :: cs, h => by
    have e : [[',']].intercalate (c :: d :: cs) = c ++ ([[',']] ++ [[',']].intercalate (d :: cs)) := by simp [List.intercalate]
    rw [e]
    exact happ _ _ (h c List.mem_cons_self) (happ _ _ hc (intercalate_induction h0 happ hc (d :: cs) fun x hx => h x (List.mem_cons_of_mem _ hx)))

/-! ### The loop -/

/-- The tokens add operators and expressions. -/
def Runs (ts ops : List Str) (ats : List E) : Prop := ∀ (fuel : Nat) (rest os : List Str) (ex : List E) (bad : Bool), (ts ++ rest).length < fuel →
  ∃ fuel', rest.length < fuel' ∧ o.loop fuel (ts ++ rest) os ex bad = o.loop fuel' rest (os ++ ops) (ex ++ ats) bad

theorem Runs.append {ts us ops ops' : List Str} {ats ats' : List E} (h1 : Runs o ts ops ats) (h2 : Runs o us ops' ats') : Runs o (ts ++ us) (ops ++ ops') (ats ++ ats') := by
  intro fuel rest os ex bad hf
  rw [List.append_assoc] at hf ⊢
  obtain ⟨f1, hf1, e1⟩ := h1 fuel (us ++ rest) os ex bad hf
  obtain ⟨f2, hf2, e2⟩ := h2 f1 rest (os ++ ops) (ex ++ ats) bad hf1
  exact ⟨f2, hf2, by rw [e1, e2, List.append_assoc, List.append_assoc]⟩

theorem runs_operator (op : Str) (h : op ∈ binaryNames ∨ op ∈ unaryNames) : Runs o [op] [op] [] := by
  intro fuel rest os ex bad hf
  rcases fuel with _ | fuel
  · simp at hf
  · refine ⟨fuel, by simp at hf; omega, ?_⟩
    have hc : ∃ c s, op = c :: s ∧ c ≠ '(' ∧ c ≠ '{' := by
      rcases h with h | h
      · have : ∀ op ∈ binaryNames, ∃ c s, op = c :: s ∧ c ≠ '(' ∧ c ≠ '{' := by
          intro op h
          simp only [binaryNames, List.map_cons, List.map_nil, List.mem_cons, List.not_mem_nil, or_false] at h
          rcases h with rfl | rfl | rfl | rfl | rfl | rfl | rfl | rfl | rfl <;> exact ⟨_, _, rfl, by decide, by decide⟩
        exact this op h
      · have : ∀ op ∈ unaryNames, ∃ c s, op = c :: s ∧ c ≠ '(' ∧ c ≠ '{' := by
          intro op h
          simp only [unaryNames, List.map_cons, List.map_nil, List.mem_cons, List.not_mem_nil, or_false] at h
          rcases h with rfl | rfl | rfl | rfl | rfl | rfl | rfl | rfl | rfl | rfl | rfl | rfl | rfl | rfl | rfl <;> exact ⟨_, _, rfl, by decide, by decide⟩
        exact this op h
    obtain ⟨c, s, rfl, h1, h2⟩ := hc
    rw [List.singleton_append, Ops.loop]
    simp only [if_neg h1, if_neg h2, if_pos h, List.append_nil]

theorem runs_name (t : Str) (h : Ordinary t) : Runs o [t] [] [o.endPoint t] := by
  intro fuel rest os ex bad hf
  rcases fuel with _ | fuel
  · simp at hf
  · refine ⟨fuel, by simp at hf; omega, ?_⟩
    obtain ⟨⟨c, s, rfl, hc⟩, h1, h2⟩ := h
    simp only [List.mem_cons, List.not_mem_nil, or_false, not_or] at hc
    have hn : ¬ ((c :: s) ∈ binaryNames ∨ (c :: s) ∈ unaryNames) := by
      rintro (h | h)
      · exact h2 h
      · exact h1 h
    rw [List.singleton_append, Ops.loop]
    simp only [if_neg hc.1, if_neg hc.2.2.1, if_neg hn, List.append_nil]

/-- The tokens are parsed to a value without a message. -/
def Parses (ts : List Str) (v : E) : Prop := ∀ fuel, ts.length < fuel → ((o.loop fuel ts [] [] false).bind fun s => o.finish s.1 s.2.1 s.2.2) = some (v, false)

theorem runs_group (ts : List Str) (v : E) (hl : Level '(' ')' ts) (h : Parses o ts v) : Runs o (['('] :: ts ++ [[')']]) [] [v] := by
  intro fuel rest os ex bad hf
  rcases fuel with _ | fuel
  · simp at hf
  · simp only [List.length_append, List.length_cons, List.length_nil] at hf
    refine ⟨fuel, by omega, ?_⟩
    have e : ['('] :: ts ++ [[')']] ++ rest = ['('] :: (ts ++ [')'] :: rest) := by simp
    rw [e, Ops.loop]
    simp only [if_true, Option.bind_eq_bind, closing_end (by decide) hl rest, Option.bind_some]
    have e1 : (ts ++ [')'] :: rest).take ts.length = ts := by simp
    have e2 : (ts ++ [')'] :: rest).drop (ts.length + 1) = rest := by
      rw [← List.drop_drop]; simp
    have := h fuel (by omega)
    rw [e1, e2]
    rw [Option.bind_eq_some_iff] at this
    obtain ⟨s, h1, h2⟩ := this
    rw [h1, Option.bind_some, h2, Option.bind_some]
    simp

theorem runs_vector (cs : List (List Str × E)) (hne : cs ≠ []) (h : ∀ c ∈ cs, c.1 ≠ [] ∧ SkipsAt 0 0 c.1 ∧ Level '{' '}' c.1 ∧ Parses o c.1 c.2) :
    Runs o (['{'] :: [[',']].intercalate (cs.map Prod.fst) ++ [['}']]) [] [o.tensor (cs.map Prod.snd)] := by
  intro fuel rest os ex bad hf
  rcases fuel with _ | fuel
  · simp at hf
  · have hl : Level '{' '}' ([[',']].intercalate (cs.map Prod.fst)) := by
      refine intercalate_induction (P := Level '{' '}') Levels.nil.2 (fun a b => Level.append) (level_token _ _ _ ',' [] rfl (by decide) (by decide)) _ ?_
      intro c hc
      obtain ⟨p, hp, rfl⟩ := List.mem_map.1 hc
      exact (h p hp).2.2.1
    have hsplit := splitLoop_entries (cs.map Prod.fst) [] (by simpa using hne) (by
      intro c hc
      obtain ⟨p, hp, rfl⟩ := List.mem_map.1 hc
      exact ⟨(h p hp).1, (h p hp).2.1⟩)
    have hlen : ∀ c ∈ cs, c.1.length ≤ ([[',']].intercalate (cs.map Prod.fst)).length := by
      have : ∀ (l : List (List Str)) (c : List Str), c ∈ l → c.length ≤ ([[',']].intercalate l).length := by
        intro l
        induction l with
        | nil => intro c hc; simp at hc
        | cons a l ih =>
          intro c hc
          rcases l with _ | ⟨b, l⟩
          · simp at hc; simp [List.intercalate, hc]
          · have e : [[',']].intercalate (a :: b :: l) = a ++ [','] :: [[',']].intercalate (b :: l) := by simp [List.intercalate]
            rw [e]
            simp only [List.length_append, List.length_cons]
            rcases List.mem_cons.1 hc with rfl | hc
            · omega
            · have := ih c hc; omega
      intro c hc
      exact this _ _ (List.mem_map_of_mem hc)
    generalize hT : [[',']].intercalate (cs.map Prod.fst) = T at *
    simp only [List.length_append, List.length_cons, List.length_nil] at hf
    refine ⟨fuel, by omega, ?_⟩
    have e : ['{'] :: T ++ [['}']] ++ rest = ['{'] :: (T ++ ['}'] :: rest) := by simp
    rw [e, Ops.loop]
    have hn : ¬ '{' = '(' := by decide
    have e1 : (T ++ ['}'] :: rest).take T.length = T := by simp
    have e2 : (T ++ ['}'] :: rest).drop (T.length + 1) = rest := by
      rw [← List.drop_drop]; simp
    simp only [if_neg hn, if_true, Option.bind_eq_bind, closing_end (by decide) hl rest, Option.bind_some, e1, e2, splitIt, hsplit, List.nil_append]
    have hm : (cs.map Prod.fst).mapM (fun p => (o.loop fuel p [] [] false).bind fun s => o.finish s.1 s.2.1 s.2.2) = some (cs.map fun c => (c.2, false)) := by
      have : ∀ l : List (List Str × E), (∀ c ∈ l, ((o.loop fuel c.1 [] [] false).bind fun s => o.finish s.1 s.2.1 s.2.2) = some (c.2, false)) →
          (l.map Prod.fst).mapM (fun p => (o.loop fuel p [] [] false).bind fun s => o.finish s.1 s.2.1 s.2.2) = some (l.map fun c => (c.2, false)) := by
        intro l hl
        induction l with
        | nil => rfl
        | cons c l ih =>
          rw [List.map_cons, List.mapM_cons, hl c List.mem_cons_self, ih fun x hx => hl x (List.mem_cons_of_mem _ hx)]
          rfl
      exact this cs fun c hc => (h c hc).2.2.2 fuel (by have := hlen c hc; omega)
    rw [hm, Option.bind_some]
    have e3 : (cs.map fun c => (c.2, false)).map Prod.fst = cs.map Prod.snd := by simp
    have e4 : ((cs.map fun c => (c.2, false)).any Prod.snd) = false := by simp
    rw [e3, e4]
    simp

/-! ### Functions -/

/-- Functions applied one after the other. -/
def applyAll : List Str → E → Option E
  | [], a => some a
  | f :: fs, a => (o.un f a).bind (applyAll fs)

theorem unaryPass_functions (done : List Str) (pre : List E) (hd : pre.length = done.length) : ∀ (fs : List Str) (ops : List Str) (a : E) (ys : List E), (∀ f ∈ fs, f ∈ unaryNames) →
    o.unaryPass done (fs ++ ops) (pre ++ a :: ys) = (applyAll o fs a).bind fun v => o.unaryPass done ops (pre ++ v :: ys)
  | [], ops, a, ys, _ => by simp [applyAll]
  | f :: fs, ops, a, ys, h => by
    have h0 : (pre ++ a :: ys)[done.length]? = some a := by rw [← hd]; simp
    have h1 : ∀ v, (pre ++ a :: ys).set done.length v = pre ++ v :: ys := by intro v; rw [← hd]; simp
    rw [List.cons_append, Ops.unaryPass, if_pos (h f List.mem_cons_self)]
    simp only [h0, Option.bind_eq_bind, Option.bind_some, h1, applyAll]
    rw [Option.bind_assoc]
    congr 1
    funext v
    exact unaryPass_functions done pre hd fs ops v ys fun x hx => h x (List.mem_cons_of_mem _ hx)

theorem binary_not_unary {op : Str} (h : op ∈ binaryNames) : op ∉ unaryNames := by
  have : ∀ op ∈ binaryNames, op ∉ unaryNames := by decide
  exact this op h

/-- What the unary pass leaves. -/
def Leaves (ops : List Str) (ats : List E) (x : E) (l : List (Str × E)) : Prop := ∀ (done : List Str) (pre : List E), pre.length = done.length →
  o.unaryPass done ops (pre ++ ats) = some (done ++ l.map Prod.fst, pre ++ x :: l.map Prod.snd)

theorem leaves_last (fs : List Str) (a v : E) (hf : ∀ f ∈ fs, f ∈ unaryNames) (hv : applyAll o fs a = some v) : Leaves o fs [a] v [] := by
  intro done pre hd
  have := unaryPass_functions o done pre hd fs [] a [] hf
  rw [List.append_nil] at this
  rw [this, hv, Option.bind_some]
  simp [Ops.unaryPass]

theorem leaves_more (fs : List Str) (a v : E) (hf : ∀ f ∈ fs, f ∈ unaryNames) (hv : applyAll o fs a = some v) (op : Str) (hop : op ∈ binaryNames) (ops : List Str) (ats : List E) (w : E) (l : List (Str × E))
    (h : Leaves o ops ats w l) : Leaves o (fs ++ op :: ops) (a :: ats) v ((op, w) :: l) := by
  intro done pre hd
  rw [unaryPass_functions o done pre hd fs (op :: ops) a ats hf, hv, Option.bind_some, Ops.unaryPass, if_neg (binary_not_unary hop)]
  have := h (done ++ [op]) (pre ++ [v]) (by simp [hd])
  simpa using this

theorem parses_of (ts ops : List Str) (ats : List E) (x : E) (l : List (Str × E)) (v : E) (h1 : Runs o ts ops ats) (h2 : Leaves o ops ats x l) (h3 : ∀ p ∈ l, p.1 ∈ precedence) (h4 : Value o.bin x l v) :
    Parses o ts v := by
  intro fuel hf
  obtain ⟨f, hf', e⟩ := h1 fuel [] [] [] false (by simpa using hf)
  rw [List.append_nil] at e
  rcases f with _ | f
  · simp at hf'
  · rw [e, Ops.loop, Option.bind_some]
    simp only [List.nil_append]
    obtain ⟨v', h5, h6⟩ := passes_value o x l h3
    have := h2 [] [] rfl
    simp only [List.nil_append] at this
    rw [value_unique h4 h6]
    unfold Ops.finish
    rw [this]
    simp [h5]

/-! ### Formulas -/

mutual
theorem atom_spec {ts : List Str} {v : E} : Atom o ts v → Levels ts ∧ (∀ b1 b2 : Int, 0 ≤ b1 → 0 ≤ b2 → SkipsAt b1 b2 ts) ∧ Runs o ts [] [v] ∧ ts ≠ []
  | .name t h => by
    obtain ⟨⟨c, s, e, hc⟩, h1, h2⟩ := id h
    refine ⟨levels_token t c s e hc, fun b1 b2 _ _ => skips_token t c s e hc (Or.inl ?_), runs_name o t h, by simp⟩
    rintro rfl
    exact h2 (by decide)
  | .group ts v h => by
    obtain ⟨h1, h2, h3, h4⟩ := formula_spec h
    exact ⟨⟨level_bracket (by decide) h1.1, level_other (by decide) (by decide) (by decide) (by decide) h1.2⟩, fun b1 b2 g1 g2 => skips_group (h2 _ _ (by omega) g2 (Or.inl (by omega))),
      runs_group o ts v h1.1 h3, by simp⟩
  | .vector cs hne h => by
    have key : ∀ c ∈ cs, Levels c.1 ∧ (∀ b1 b2 : Int, 0 ≤ b1 → 0 ≤ b2 → SkipsAt b1 b2 c.1) ∧ Parses o c.1 c.2 ∧ c.1 ≠ [] := fun c hc => entry_spec (h c hc)
    have hl : Levels ([[',']].intercalate (cs.map Prod.fst)) := by
      refine intercalate_induction (P := Levels) Levels.nil (fun a b => Levels.append) (levels_token _ ',' [] rfl (by decide)) _ ?_
      intro c hc
      obtain ⟨p, hp, rfl⟩ := List.mem_map.1 hc
      exact (key p hp).1
    refine ⟨⟨level_other (by decide) (by decide) (by decide) (by decide) hl.1, level_bracket (by decide) hl.2⟩, fun b1 b2 g1 g2 => skips_braces ?_,
      runs_vector o cs hne fun c hc => ⟨(key c hc).2.2.2, (key c hc).2.1 0 0 (by omega) (by omega), (key c hc).1.2, (key c hc).2.2.1⟩, by simp⟩
    refine intercalate_induction (P := SkipsAt b1 (b2 + 1)) SkipsAt.nil (fun a b => SkipsAt.append) (skips_token _ ',' [] rfl (by decide) (Or.inr (Or.inr (by omega)))) _ ?_
    intro c hc
    obtain ⟨p, hp, rfl⟩ := List.mem_map.1 hc
    exact (key p hp).2.1 _ _ g1 (by omega)
theorem operand_spec {ts : List Str} {v : E} : Operand o ts v → Levels ts ∧ (∀ b1 b2 : Int, 0 ≤ b1 → 0 ≤ b2 → SkipsAt b1 b2 ts) ∧ ts ≠ [] ∧
    ∃ fs a, (∀ f ∈ fs, f ∈ unaryNames) ∧ applyAll o fs a = some v ∧ Runs o ts fs [a]
  | .plain ts v h => by
    obtain ⟨h1, h2, h3, h4⟩ := atom_spec h
    exact ⟨h1, h2, h4, [], v, by simp, rfl, h3⟩
  | .call f ts a v hf h hv => by
    obtain ⟨h1, h2, h3, h4⟩ := atom_spec h
    have hc : ∀ f ∈ unaryNames, ∃ c s, f = c :: s ∧ c ∉ ['(', ')', '{', '}'] ∧ f ≠ [','] := by
      intro f h
      simp only [unaryNames, List.map_cons, List.map_nil, List.mem_cons, List.not_mem_nil, or_false] at h
      rcases h with rfl | rfl | rfl | rfl | rfl | rfl | rfl | rfl | rfl | rfl | rfl | rfl | rfl | rfl | rfl <;> exact ⟨_, _, rfl, by decide, by decide⟩
    obtain ⟨c, s, e, hc, hn⟩ := hc f hf
    refine ⟨(levels_token f c s e hc).append h1, fun b1 b2 g1 g2 => (skips_token f c s e hc (Or.inl hn)).append (h2 b1 b2 g1 g2), by simp, [f], a, by simpa using hf, by simp [applyAll, hv], ?_⟩
    exact (runs_operator o f (Or.inr hf)).append o h3
theorem terms_spec {ts : List Str} {v : E} {l : List (Str × E)} : Terms o ts v l → Levels ts ∧
    (∀ b1 b2 : Int, 0 ≤ b1 → 0 ≤ b2 → (0 < b1 + b2 ∨ ∀ p ∈ l, p.1 ≠ [',']) → SkipsAt b1 b2 ts) ∧ ts ≠ [] ∧ (∀ p ∈ l, p.1 ∈ precedence) ∧ ∃ ops ats, Runs o ts ops ats ∧ Leaves o ops ats v l
  | .last ts v h => by
    obtain ⟨h1, h2, h3, fs, a, h4, h5, h6⟩ := operand_spec h
    exact ⟨h1, fun b1 b2 g1 g2 _ => h2 b1 b2 g1 g2, h3, by simp, fs, [a], h6, leaves_last o fs a v h4 h5⟩
  | .more ts v op us w l h hop hl => by
    obtain ⟨h1, h2, h3, fs, a, h4, h5, h6⟩ := operand_spec h
    obtain ⟨k1, k2, k3, k4, ops, ats, k5, k6⟩ := terms_spec hl
    have hc : ∀ f ∈ precedence, ∃ c s, f = c :: s ∧ c ∉ ['(', ')', '{', '}'] := by
      intro f h
      simp only [precedence, List.map_cons, List.map_nil, List.mem_cons, List.not_mem_nil, or_false] at h
      rcases h with rfl | rfl | rfl | rfl | rfl | rfl | rfl | rfl | rfl <;> exact ⟨_, _, rfl, by decide⟩
    obtain ⟨c, s, e, hc⟩ := hc op hop
    have hsplit : ts ++ op :: us = ts ++ ([op] ++ us) := by simp
    refine ⟨by rw [hsplit]; exact h1.append ((levels_token op c s e hc).append k1), fun b1 b2 g1 g2 g3 => ?_, by simp [h3], ?_, fs ++ op :: ops, a :: ats, ?_, leaves_more o fs a v h4 h5 op hop ops ats w l k6⟩
    · rw [hsplit]
      refine (h2 b1 b2 g1 g2).append ((skips_token op c s e hc ?_).append (k2 b1 b2 g1 g2 ?_))
      · rcases g3 with g3 | g3
        · exact Or.inr (by omega)
        · exact Or.inl (g3 (op, w) List.mem_cons_self)
      · rcases g3 with g3 | g3
        · exact Or.inl g3
        · exact Or.inr fun p hp => g3 p (List.mem_cons_of_mem _ hp)
    · intro p hp
      rcases List.mem_cons.1 hp with rfl | hp
      · exact hop
      · exact k4 p hp
    · have := h6.append o ((runs_operator o op (Or.inl hop)).append o k5)
      simpa using this
theorem formula_spec {ts : List Str} {v : E} : Formula o ts v → Levels ts ∧ (∀ b1 b2 : Int, 0 ≤ b1 → 0 ≤ b2 → (0 < b1 + b2 ∨ False) → SkipsAt b1 b2 ts) ∧ Parses o ts v ∧ ts ≠ []
  | .intro ts x l v h hv => by
    obtain ⟨h1, h2, h3, h4, ops, ats, h5, h6⟩ := terms_spec h
    exact ⟨h1, fun b1 b2 g1 g2 g3 => h2 b1 b2 g1 g2 (g3.imp id False.elim), parses_of o ts ops ats x l v h5 h6 h4 hv, h3⟩
theorem entry_spec {ts : List Str} {v : E} : Entry o ts v → Levels ts ∧ (∀ b1 b2 : Int, 0 ≤ b1 → 0 ≤ b2 → SkipsAt b1 b2 ts) ∧ Parses o ts v ∧ ts ≠ []
  | .intro ts x l v h hc hv => by
    obtain ⟨h1, h2, h3, h4, ops, ats, h5, h6⟩ := terms_spec h
    exact ⟨h1, fun b1 b2 g1 g2 => h2 b1 b2 g1 g2 (Or.inr hc), parses_of o ts ops ats x l v h5 h6 h4 hv, h3⟩
end

end AmpGen.Parser
