import Verif.Spec.Moments
import Verif.Proofs.Prob

/-!
# Second moments of products of independent random matrices
-/

namespace TTS

open Finset MeasureTheory ProbabilityTheory

variable {Ω : Type*} [MeasurableSpace Ω] {P : Measure Ω} {g : Ω → Draw → ℝ}

theorem PolyOn.measurable {T : Finset Draw} {f : (Draw → ℝ) → ℝ} (hf : PolyOn T f) (hg : ∀ x, Measurable fun ω => g ω x) :
    Measurable fun ω => f (g ω) := by
  obtain ⟨p, hp⟩ := hf
  simp only [hp]
  exact (MvPolynomial.continuous_eval p).measurable.comp (measurable_pi_lambda _ fun x => hg x)

theorem PolyOn.mono {T T' : Finset Draw} {f : (Draw → ℝ) → ℝ} (hf : PolyOn T f) (h : T ⊆ T') : PolyOn T' f := by
  obtain ⟨p, hp⟩ := hf
  refine ⟨MvPolynomial.rename (fun x : T => (⟨x, h x.2⟩ : T')) p, fun g => ?_⟩
  rw [hp, MvPolynomial.eval_rename]
  rfl

/-- Functions of different draws are independent. -/
theorem PolyOn.indep {A B : Finset Draw} {f h : (Draw → ℝ) → ℝ} (hg : StandardDraws P g)
    (hAB : Disjoint A B) (hc : Draw.Compatible (A ∪ B)) (hf : PolyOn A f) (hh : PolyOn B h) :
    IndepFun (fun ω => f (g ω)) (fun ω => h (g ω)) P := by
  classical
  obtain ⟨p, hp⟩ := hf
  obtain ⟨q, hq⟩ := hh
  set T := A ∪ B with hT
  set SA : Finset T := univ.filter fun x => (x : Draw) ∈ A with hSA
  set SB : Finset T := univ.filter fun x => (x : Draw) ∈ B with hSB
  have hd : Disjoint SA SB := by
    rw [Finset.disjoint_left]
    intro x hx hx'
    rw [hSA, mem_filter] at hx
    rw [hSB, mem_filter] at hx'
    exact Finset.disjoint_left.1 hAB hx.2 hx'.2
  have key := (hg.indep T hc).indepFun_finset SA SB hd fun x => hg.measurable x
  have := key.comp
    (φ := fun y => MvPolynomial.eval (fun x : A => y ⟨⟨x, by rw [hT]; exact mem_union_left _ x.2⟩, by simp [hSA]⟩) p)
    (ψ := fun y => MvPolynomial.eval (fun x : B => y ⟨⟨x, by rw [hT]; exact mem_union_right _ x.2⟩, by simp [hSB]⟩) q)
    ((MvPolynomial.continuous_eval p).measurable.comp (measurable_pi_lambda _ fun x => measurable_pi_apply _))
    ((MvPolynomial.continuous_eval q).measurable.comp (measurable_pi_lambda _ fun x => measurable_pi_apply _))
  convert this using 1
  · ext ω; rw [hp]; rfl
  · ext ω; rw [hq]; rfl

theorem StandardDraws.integrable (hg : StandardDraws P g) (x : Draw) : Integrable (fun ω => g ω x) P := by
  have := hg.prob
  have h2 : MemLp (fun ω => g ω x) 2 P := (memLp_two_iff_integrable_sq (hg.measurable x).aestronglyMeasurable).2 (hg.square x)
  exact h2.integrable one_le_two

/-- Products over different draws: integrable, and the integral is the product of the integrals. -/
theorem PolyOn.integral_mul {A B : Finset Draw} {f h : (Draw → ℝ) → ℝ} (hg : StandardDraws P g)
    (hAB : Disjoint A B) (hc : Draw.Compatible (A ∪ B)) (hf : PolyOn A f) (hh : PolyOn B h)
    (h1 : Integrable (fun ω => f (g ω)) P) (h2 : Integrable (fun ω => h (g ω)) P) :
    Integrable (fun ω => f (g ω) * h (g ω)) P ∧
      ∫ ω, f (g ω) * h (g ω) ∂P = (∫ ω, f (g ω) ∂P) * ∫ ω, h (g ω) ∂P := by
  have hi := hf.indep hg hAB hc hh
  exact ⟨hi.integrable_mul h1 h2, hi.integral_fun_mul_eq_mul_integral h1.aestronglyMeasurable h2.aestronglyMeasurable⟩

theorem Draw.Compatible.mono {S T : Finset Draw} (h : Draw.Compatible T) (hs : S ⊆ T) : Draw.Compatible S :=
  fun s n k n' k' h1 h2 => h s n k n' k' (hs h1) (hs h2)

/-- Two draws. -/
theorem StandardDraws.pair (hg : StandardDraws P g) {x y : Draw} {T : Finset Draw} (hT : Draw.Compatible T)
    (hx : x ∈ T) (hy : y ∈ T) : Integrable (fun ω => g ω x * g ω y) P ∧
      ∫ ω, g ω x * g ω y ∂P = if x = y then 1 else 0 := by
  by_cases h : x = y
  · subst h
    rw [if_pos rfl]
    have e : (fun ω => g ω x * g ω x) = fun ω => g ω x ^ 2 := by funext ω; ring
    rw [e]
    exact ⟨hg.square x, hg.variance x⟩
  · rw [if_neg h]
    have := PolyOn.integral_mul (A := {x}) (B := {y}) (f := fun g => g x) (h := fun g => g y) hg (by simpa using h)
      (hT.mono (by intro z; simp; rintro (rfl | rfl) <;> assumption)) (PolyOn.draw (by simp)) (PolyOn.draw (by simp))
      (hg.integrable x) (hg.integrable y)
    refine ⟨this.1, this.2.trans ?_⟩
    rw [hg.mean, zero_mul]

/-- A random matrix with rows indexed by `a < r` and columns by the multi-indices of `sh`, made of the draws in `T`,
with uncorrelated entries of mean square `v`. -/
structure IsoOn (P : Measure Ω) (g : Ω → Draw → ℝ) (T : Finset Draw) (sh : List ℕ) (r : ℕ) (v : ℝ)
    (M : (Draw → ℝ) → List ℕ → ℕ → ℝ) : Prop where
  poly : ∀ p a, InR sh p → a < r → PolyOn T fun g => M g p a
  integrable : ∀ p q a b, InR sh p → InR sh q → a < r → b < r →
    Integrable (fun ω => M (g ω) p a * M (g ω) q b) P
  moment : ∀ p q a b, InR sh p → InR sh q → a < r → b < r →
    ∫ ω, M (g ω) p a * M (g ω) q b ∂P = if p = q ∧ a = b then v else 0

/-- Entries that are different draws. -/
theorem IsoOn.draws (hg : StandardDraws P g) {T : Finset Draw} (hT : Draw.Compatible T) {sh : List ℕ} {r : ℕ}
    (D : List ℕ → ℕ → Draw) (c : ℝ) (hD : ∀ p a, InR sh p → a < r → D p a ∈ T)
    (hinj : ∀ p q a b, InR sh p → InR sh q → a < r → b < r → D p a = D q b → p = q ∧ a = b)
    (M : (Draw → ℝ) → List ℕ → ℕ → ℝ) (hM : ∀ g p a, InR sh p → a < r → M g p a = g (D p a) * c) :
    IsoOn P g T sh r (c ^ 2) M where
  poly p a hp ha := ((PolyOn.draw (hD p a hp ha)).mul (PolyOn.const c)).congr fun g => hM g p a hp ha
  integrable p q a b hp hq ha hb := by
    have := (hg.pair hT (hD p a hp ha) (hD q b hq hb)).1.mul_const (c ^ 2)
    refine this.congr (Filter.Eventually.of_forall fun ω => ?_)
    beta_reduce
    rw [hM _ _ _ hp ha, hM _ _ _ hq hb]; ring
  moment p q a b hp hq ha hb := by
    have e : (fun ω => M (g ω) p a * M (g ω) q b) = fun ω => (g ω (D p a) * g ω (D q b)) * c ^ 2 := by
      funext ω
      rw [hM _ _ _ hp ha, hM _ _ _ hq hb]; ring
    rw [e, integral_mul_const, (hg.pair hT (hD p a hp ha) (hD q b hq hb)).2]
    by_cases h : p = q ∧ a = b
    · rw [if_pos h, if_pos (by rw [h.1, h.2]), one_mul]
    · rw [if_neg h, if_neg fun hh => h (hinj p q a b hp hq ha hb hh), zero_mul]

/-- The empty product. -/
theorem IsoOn.one (hg : StandardDraws P g) : IsoOn P g ∅ [] 1 1 fun _ _ _ => 1 where
  poly _ _ _ _ := PolyOn.const 1
  integrable _ _ _ _ _ _ _ _ := by have := hg.prob; exact integrable_const _
  moment p q a b hp hq ha hb := by
    have := hg.prob
    have h1 : p = q := by
      rw [List.length_eq_zero_iff.1 hp.length, List.length_eq_zero_iff.1 hq.length]
    rw [if_pos ⟨h1, by omega⟩]
    simp

/-- The product with an independent core: `M'[p i, b] = sum_a M[p, a] C[a, i, b]`. -/
theorem IsoOn.step (hg : StandardDraws P g) {T T' : Finset Draw} (hTT : Disjoint T T') (hc : Draw.Compatible (T ∪ T'))
    {sh : List ℕ} {r n r' : ℕ} {v c : ℝ} {M : (Draw → ℝ) → List ℕ → ℕ → ℝ} (hM : IsoOn P g T sh r v M)
    (D : ℕ → ℕ → ℕ → Draw) (hD : ∀ a < r, ∀ i < n, ∀ b < r', D a i b ∈ T')
    (hinj : ∀ a < r, ∀ i < n, ∀ b < r', ∀ a' < r, ∀ i' < n, ∀ b' < r', D a i b = D a' i' b' → a = a' ∧ i = i' ∧ b = b')
    (M' : (Draw → ℝ) → List ℕ → ℕ → ℝ)
    (hM' : ∀ g p i b, InR sh p → i < n → b < r' → M' g (p ++ [i]) b = ∑ a ∈ range r, M g p a * (g (D a i b) * c)) :
    IsoOn P g (T ∪ T') (sh ++ [n]) r' (v * (r * c ^ 2)) M' := by
  have hsplit : ∀ {p}, InR (sh ++ [n]) p → ∃ q i, InR sh q ∧ i < n ∧ p = q ++ [i] := by
    intro p hp
    have hlen := hp.length
    rw [List.length_append, List.length_singleton] at hlen
    have e : p = p.take sh.length ++ p.drop sh.length := (List.take_append_drop _ _).symm
    obtain ⟨i, hi⟩ : ∃ i, p.drop sh.length = [i] := by
      rw [← List.length_eq_one_iff, List.length_drop]; omega
    rw [hi] at e
    rw [e, inR_append (by rw [List.length_take]; omega)] at hp
    exact ⟨_, i, hp.1, hp.2.1, e⟩
  have hT'c : Draw.Compatible T' := hc.mono subset_union_right
  -- one term of the product of two entries
  have term : ∀ p q i j b b', InR sh p → InR sh q → i < n → j < n → b < r' → b' < r' → ∀ a < r, ∀ a' < r,
      Integrable (fun ω => (M (g ω) p a * M (g ω) q a') * ((g ω (D a i b) * c) * (g ω (D a' j b') * c))) P ∧
      ∫ ω, (M (g ω) p a * M (g ω) q a') * ((g ω (D a i b) * c) * (g ω (D a' j b') * c)) ∂P
        = (if p = q ∧ a = a' then v else 0) * (if a = a' ∧ i = j ∧ b = b' then c ^ 2 else 0) := by
    intro p q i j b b' hp hq hi hj hb hb' a ha a' ha'
    have h1 := hg.pair hT'c (hD a ha i hi b hb) (hD a' ha' j hj b' hb')
    have e : (fun ω => (g ω (D a i b) * c) * (g ω (D a' j b') * c)) = fun ω => (g ω (D a i b) * g ω (D a' j b')) * c ^ 2 := by
      funext ω; ring
    have h2 : Integrable (fun ω => (g ω (D a i b) * c) * (g ω (D a' j b') * c)) P := by
      rw [e]; exact h1.1.mul_const _
    have h3 : ∫ ω, (g ω (D a i b) * c) * (g ω (D a' j b') * c) ∂P = if a = a' ∧ i = j ∧ b = b' then c ^ 2 else 0 := by
      rw [e, integral_mul_const, h1.2]
      by_cases h : a = a' ∧ i = j ∧ b = b'
      · rw [if_pos h, if_pos (by rw [h.1, h.2.1, h.2.2]), one_mul]
      · rw [if_neg h, if_neg fun hh => h (hinj a ha i hi b hb a' ha' j hj b' hb' hh), zero_mul]
    have := PolyOn.integral_mul (f := fun g => M g p a * M g q a') (h := fun g => (g (D a i b) * c) * (g (D a' j b') * c))
      hg hTT hc ((hM.poly p a hp ha).mul (hM.poly q a' hq ha'))
      (((PolyOn.draw (hD a ha i hi b hb)).mul (PolyOn.const c)).mul
        ((PolyOn.draw (hD a' ha' j hj b' hb')).mul (PolyOn.const c)))
      (hM.integrable p q a a' hp hq ha ha') h2
    refine ⟨this.1, this.2.trans ?_⟩
    rw [h3, hM.moment p q a a' hp hq ha ha']
  have expand : ∀ p q i j b b', InR sh p → InR sh q → i < n → j < n → b < r' → b' < r' →
      (fun ω => M' (g ω) (p ++ [i]) b * M' (g ω) (q ++ [j]) b') = fun ω => ∑ a ∈ range r, ∑ a' ∈ range r,
        (M (g ω) p a * M (g ω) q a') * ((g ω (D a i b) * c) * (g ω (D a' j b') * c)) := by
    intro p q i j b b' hp hq hi hj hb hb'
    funext ω
    rw [hM' _ _ _ _ hp hi hb, hM' _ _ _ _ hq hj hb', sum_mul_sum]
    exact sum_congr rfl fun a _ => sum_congr rfl fun a' _ => by ring
  refine ⟨?_, ?_, ?_⟩
  · intro p b hp hb
    obtain ⟨q, i, hq, hi, rfl⟩ := hsplit hp
    refine (PolyOn.sum (range r) (f := fun a g => M g q a * (g (D a i b) * c)) fun a ha => ?_).congr
      fun g => hM' g q i b hq hi hb
    have ha := mem_range.1 ha
    exact ((hM.poly q a hq ha).mono subset_union_left).mul
      ((PolyOn.draw (mem_union_right _ (hD a ha i hi b hb))).mul (PolyOn.const c))
  · intro p0 q0 b b' hp0 hq0 hb hb'
    obtain ⟨p, i, hp, hi, rfl⟩ := hsplit hp0
    obtain ⟨q, j, hq, hj, rfl⟩ := hsplit hq0
    rw [expand p q i j b b' hp hq hi hj hb hb']
    exact integrable_finsetSum _ fun a ha => integrable_finsetSum _ fun a' ha' =>
      (term p q i j b b' hp hq hi hj hb hb' a (mem_range.1 ha) a' (mem_range.1 ha')).1
  · intro p0 q0 b b' hp0 hq0 hb hb'
    obtain ⟨p, i, hp, hi, rfl⟩ := hsplit hp0
    obtain ⟨q, j, hq, hj, rfl⟩ := hsplit hq0
    rw [expand p q i j b b' hp hq hi hj hb hb', integral_finsetSum _ fun a ha => integrable_finsetSum _ fun a' ha' =>
      (term p q i j b b' hp hq hi hj hb hb' a (mem_range.1 ha) a' (mem_range.1 ha')).1]
    have e1 : ∀ a ∈ range r, ∫ ω, ∑ a' ∈ range r,
        (M (g ω) p a * M (g ω) q a') * ((g ω (D a i b) * c) * (g ω (D a' j b') * c)) ∂P
        = (if p = q then v else 0) * (if i = j ∧ b = b' then c ^ 2 else 0) := by
      intro a ha
      rw [integral_finsetSum _ fun a' ha' =>
        (term p q i j b b' hp hq hi hj hb hb' a (mem_range.1 ha) a' (mem_range.1 ha')).1,
        sum_congr rfl fun a' ha' => (term p q i j b b' hp hq hi hj hb hb' a (mem_range.1 ha) a' (mem_range.1 ha')).2,
        Finset.sum_eq_single a]
      · simp
      · intro a' _ hne
        rw [if_neg fun h => hne h.2.symm, zero_mul]
      · intro h; exact absurd ha h
    rw [sum_congr rfl e1, sum_const, card_range]
    have e2 : (p ++ [i] = q ++ [j] ∧ b = b') ↔ p = q ∧ i = j ∧ b = b' := by
      constructor
      · rintro ⟨h1, h2⟩
        have := List.append_inj h1 (by rw [hp.length, hq.length])
        exact ⟨this.1, by simpa using this.2, h2⟩
      · rintro ⟨rfl, rfl, rfl⟩; exact ⟨rfl, rfl⟩
    by_cases h : p = q ∧ i = j ∧ b = b'
    · rw [if_pos (e2.2 h), if_pos h.1, if_pos h.2]
      simp only [nsmul_eq_mul]; ring
    · rw [if_neg fun hh => h (e2.1 hh)]
      by_cases h1 : p = q
      · rw [if_neg fun hh => h ⟨h1, hh⟩]; simp
      · rw [if_neg h1]; simp

end TTS
