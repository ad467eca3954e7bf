import Verif.Helicity.Spec
/-
The cache of frames.
-/
namespace AmpGen.Helicity
open Complex
open AmpGen.Transform (TransformSequence)
open AmpGen.Polarisation (Mom Properties)
open AmpGen.Spin (LS)
open Spec

/-- The index strings that are looked up. -/
def keys : Particle → List String
  | .stable pr i pol p => [(Particle.stable pr i pol p).key]
  | .one _ d => keys d
  | .two pr L S ha d1 d2 => (Particle.two pr L S ha d1 d2).key :: (keys d1 ++ keys d2)
  | .many .. => []

/-- What the cache has of a particle is right. -/
def Agrees (cfg : Config) (c : Cache) : Bool → Particle → Option TransformSequence → ℤ → Prop
  | _, .many .., _, _ => True
  | _, .one _ d, F, s => Agrees cfg c false d F s
  | h, .stable pr i pol p, F, s => ∀ G, c.lookup (Particle.stable pr i pol p).key = some G → G = frameOf cfg h (.stable pr i pol p) F s
  | h, .two pr L S ha d1 d2, F, s =>
    (∀ G, c.lookup (Particle.two pr L S ha d1 d2).key = some G → G = frameOf cfg h (.two pr L S ha d1 d2) F s) ∧
      Agrees cfg c false d1 (frameOf cfg h (.two pr L S ha d1 d2) F s) 1 ∧ Agrees cfg c false d2 (frameOf cfg h (.two pr L S ha d1 d2) F s) (-1)

theorem Agrees.congr {cfg : Config} {c c' : Cache} : ∀ {h : Bool} {t : Particle} {F : Option TransformSequence} {s : ℤ},
    (∀ k ∈ keys t, c.lookup k = c'.lookup k) → Agrees cfg c h t F s → Agrees cfg c' h t F s
  | _, .many .., _, _, _, _ => trivial
  | _, .one _ d, _, _, hk, ha => Agrees.congr (t := d) hk ha
  | _, .stable .., _, _, hk, ha => by
    intro G hG
    rw [← hk _ (by simp [keys])] at hG
    exact ha G hG
  | _, .two .., _, _, hk, ha => by
    refine ⟨?_, ?_, ?_⟩
    · intro G hG
      rw [← hk _ (by simp [keys])] at hG
      exact ha.1 G hG
    · exact Agrees.congr (fun k hkk => hk k (by simp [keys, hkk])) ha.2.1
    · exact Agrees.congr (fun k hkk => hk k (by simp [keys, hkk])) ha.2.2

theorem agrees_nil (cfg : Config) : ∀ (h : Bool) (t : Particle) (F : Option TransformSequence) (s : ℤ), Agrees cfg [] h t F s
  | _, .many .., _, _ => trivial
  | _, .one _ d, F, s => agrees_nil cfg false d F s
  | _, .stable .., _, _ => by intro G hG; simp at hG
  | _, .two _ _ _ _ d1 d2, F, s => ⟨by intro G hG; simp at hG, agrees_nil cfg false d1 _ _, agrees_nil cfg false d2 _ _⟩

theorem cached_spec (c : Cache) (k : String) (F : Option TransformSequence) (h : ∀ G, c.lookup k = some G → G = F) :
    (cached c k F).1 = F ∧ (∀ k', k' ≠ k → (cached c k F).2.lookup k' = c.lookup k') ∧ (cached c k F).2.lookup k = some F := by
  unfold cached
  rcases hl : c.lookup k with _ | G
  · refine ⟨rfl, fun k' hk' => ?_, ?_⟩
    · simp only []
      rw [List.lookup_cons]
      have : (k' == k) = false := by simpa using hk'
      rw [this]
    · simp
  · have := h G hl
    subst this
    exact ⟨rfl, fun k' _ => rfl, hl⟩

theorem total_cons {α : Type} (f : α → Option ℂ) (a : α) (l : List α) (s : Option ℂ) :
    (a :: l).foldl (fun (s : Option ℂ) (a : α) => do let x ← s; let y ← f a; some (x + y)) s =
      l.foldl (fun (s : Option ℂ) (a : α) => do let x ← s; let y ← f a; some (x + y)) (do let x ← s; let y ← f a; some (x + y)) := rfl

/-- With a cache that is right, and index strings that are different, the amplitude is that without a cache. -/
theorem cached_run (cfg : Config) : ∀ (t : Particle) (h : Bool) (F : Option TransformSequence) (Mz : ℝ) (s : ℤ) (c : Cache), (keys t).Nodup → Agrees cfg c h t F s →
    (helicityAmplitude cfg t h F Mz s c).1 = value cfg t (frame cfg h t F s) Mz ∧
    (∀ k, k ∉ keys t → (helicityAmplitude cfg t h F Mz s c).2.lookup k = c.lookup k) ∧ Agrees cfg (helicityAmplitude cfg t h F Mz s c).2 h t F s
  | .many .., h, F, Mz, s, c, _, _ => ⟨rfl, fun _ _ => rfl, trivial⟩
  | .one _ d, h, F, Mz, s, c, hn, ha => cached_run cfg d false F Mz s c hn ha
  | .stable pr i pol p, h, F, Mz, s, c, hn, ha => by
    obtain ⟨e1, e2, e3⟩ := cached_spec c _ _ ha
    rw [helicityAmplitude]
    refine ⟨?_, ?_, ?_⟩
    · simp only [e1]; rfl
    · intro k hk
      exact e2 k (by simpa [keys] using hk)
    · intro G hG
      simp only [] at hG
      rw [e3] at hG
      exact (Option.some.inj hG).symm
  | .two pr L S ha' d1 d2, h, F, Mz, s, c, hn, ha => by
    obtain ⟨e1, e2, e3⟩ := cached_spec c _ _ ha.1
    have hn' := hn
    simp only [keys, List.nodup_cons, List.mem_append, not_or, List.nodup_append] at hn'
    obtain ⟨⟨k1, k2⟩, n1, n2, dis⟩ := hn'
    rw [helicityAmplitude]
    rw [show frame cfg h (.two pr L S ha' d1 d2) F s = frameOf cfg h (.two pr L S ha' d1 d2) F s from rfl]
    simp only [e1]
    obtain ⟨c0, hc0⟩ : ∃ c0, (cached c (Particle.two pr L S ha' d1 d2).key (frameOf cfg h (.two pr L S ha' d1 d2) F s)).2 = c0 := ⟨_, rfl⟩
    rw [hc0] at e2 e3 ⊢
    obtain ⟨Fr, hFr⟩ : ∃ Fr, frameOf cfg h (.two pr L S ha' d1 d2) F s = Fr := ⟨_, rfl⟩
    rw [hFr] at e3 ⊢
    have a1 : Agrees cfg c0 false d1 Fr 1 := by
      refine Agrees.congr ?_ (hFr ▸ ha.2.1)
      intro k hk
      exact (e2 k (fun he => k1 (he ▸ hk))).symm
    have a2 : Agrees cfg c0 false d2 Fr (-1) := by
      refine Agrees.congr ?_ (hFr ▸ ha.2.2)
      intro k hk
      exact (e2 k (fun he => k2 (he ▸ hk))).symm
    rw [value]
    rcases couplings pr L S ha' d1.props d2.props with _ | cs
    · refine ⟨rfl, ?_, ?_⟩
      · intro k hk
        exact e2 k (fun he => hk (by simp [keys, he]))
      · refine ⟨?_, by rw [hFr]; exact a1, by rw [hFr]; exact a2⟩
        intro G hG
        simp only [] at hG
        rw [e3] at hG
        rw [hFr]
        exact (Option.some.inj hG).symm
    · simp only [Option.bind_some, total]
      have key : ∀ (cs : List LS) (x : Option ℂ) (c1 : Cache), Agrees cfg c1 false d1 Fr 1 → Agrees cfg c1 false d2 Fr (-1) →
          c1.lookup (Particle.two pr L S ha' d1 d2).key = some Fr → (∀ k, k ∉ keys (.two pr L S ha' d1 d2) → c1.lookup k = c.lookup k) →
          ∀ r, cs.foldl (fun (acc : Option ℂ × Cache) (k : LS) =>
            if skipped d1.props d2.props k then acc
            else
              ((do
                let total ← acc.1
                let term ← rotation Fr d1.P (spin pr) Mz (k.m1 - k.m2)
                let h1 ← (helicityAmplitude cfg d1 false Fr k.m1 1 acc.2).1
                let h2 ← (helicityAmplitude cfg d2 false Fr k.m2 (-1) (helicityAmplitude cfg d1 false Fr k.m1 1 acc.2).2).1
                some (total + k.factor * term * h1 * h2)), (helicityAmplitude cfg d2 false Fr k.m2 (-1) (helicityAmplitude cfg d1 false Fr k.m1 1 acc.2).2).2)) (x, c1) = r →
          r.1 = (cs.filter fun k => !skipped d1.props d2.props k).foldl (fun (s : Option ℂ) (k : LS) => do
              let x ← s
              let y ← (do
                let term ← rotation Fr d1.P (spin pr) Mz (k.m1 - k.m2)
                let h1 ← value cfg d1 (frame cfg false d1 Fr 1) k.m1
                let h2 ← value cfg d2 (frame cfg false d2 Fr (-1)) k.m2
                some (k.factor * term * h1 * h2))
              some (x + y)) x ∧
            Agrees cfg r.2 false d1 Fr 1 ∧ Agrees cfg r.2 false d2 Fr (-1) ∧ r.2.lookup (Particle.two pr L S ha' d1 d2).key = some Fr ∧
            (∀ k, k ∉ keys (.two pr L S ha' d1 d2) → r.2.lookup k = c.lookup k) := by
        intro cs
        induction cs with
        | nil => intro x c1 b1 b2 b3 b4 r hr; subst hr; exact ⟨rfl, b1, b2, b3, b4⟩
        | cons k cs ih =>
          intro x c1 b1 b2 b3 b4 r hr
          rw [List.foldl_cons] at hr
          by_cases hsk : skipped d1.props d2.props k
          · rw [if_pos hsk] at hr
            have hf : ((k :: cs).filter fun k => !skipped d1.props d2.props k) = cs.filter fun k => !skipped d1.props d2.props k := by
              rw [List.filter_cons_of_neg (by simp [hsk])]
            rw [hf]
            exact ih x c1 b1 b2 b3 b4 r hr
          · rw [if_neg hsk] at hr
            have hf : ((k :: cs).filter fun k => !skipped d1.props d2.props k) = k :: cs.filter fun k => !skipped d1.props d2.props k := by
              rw [List.filter_cons_of_pos (by simp [hsk])]
            rw [hf, List.foldl_cons]
            obtain ⟨r1, r2, r3⟩ := cached_run cfg d1 false Fr k.m1 1 c1 n1 b1
            obtain ⟨c2, hc2⟩ : ∃ c2, (helicityAmplitude cfg d1 false Fr k.m1 1 c1).2 = c2 := ⟨_, rfl⟩
            simp only [hc2, r1] at hr r2 r3
            have b2' : Agrees cfg c2 false d2 Fr (-1) := by
              refine Agrees.congr ?_ b2
              intro q hq
              exact (r2 q (fun hq1 => dis q hq1 q hq rfl)).symm
            obtain ⟨t1, t2, t3⟩ := cached_run cfg d2 false Fr k.m2 (-1) c2 n2 b2'
            obtain ⟨c3, hc3⟩ : ∃ c3, (helicityAmplitude cfg d2 false Fr k.m2 (-1) c2).2 = c3 := ⟨_, rfl⟩
            simp only [hc3, t1] at hr t2 t3
            have r3' : Agrees cfg c3 false d1 Fr 1 := by
              refine Agrees.congr ?_ r3
              intro q hq
              exact (t2 q (fun hq2 => dis q hq q hq2 rfl)).symm
            have l3 : c3.lookup (Particle.two pr L S ha' d1 d2).key = some Fr := by rw [t2 _ k2, r2 _ k1, b3]
            have o3 : ∀ q, q ∉ keys (.two pr L S ha' d1 d2) → c3.lookup q = c.lookup q := by
              intro q hq
              simp only [keys, List.mem_cons, List.mem_append, not_or] at hq
              rw [t2 _ hq.2.2, r2 _ hq.2.1]
              exact b4 q (by simp [keys, hq.1, hq.2.1, hq.2.2])
            have := ih _ c3 r3' t3 l3 o3 r hr
            refine ⟨?_, this.2⟩
            rw [this.1]
            congr 1
            cases x <;> cases rotation Fr d1.P (spin pr) Mz (k.m1 - k.m2) <;> cases value cfg d1 (frame cfg false d1 Fr 1) k.m1 <;>
              cases value cfg d2 (frame cfg false d2 Fr (-1)) k.m2 <;> rfl
      have := key cs (some 0) c0 a1 a2 e3 (fun k hk => e2 k (fun he => hk (by simp [keys, he]))) _ rfl
      refine ⟨this.1, this.2.2.2.2, ?_⟩
      refine ⟨?_, by rw [hFr]; exact this.2.1, by rw [hFr]; exact this.2.2.1⟩
      intro G hG
      rw [this.2.2.2.1] at hG
      rw [hFr]
      exact (Option.some.inj hG).symm

end AmpGen.Helicity
