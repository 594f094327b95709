import Verif.Proofs.StreamMean
import Verif.Proofs.GaussOrth

/-!
# The mean error of streaming sketches
-/

namespace TTS

open Finset MeasureTheory ProbabilityTheory Matrix Props
open scoped ENNReal

/-! ### Arrays as matrices -/

/-- the array with a given unfolding -/
noncomputable def foldAs (sh : List ℕ) (k : ℕ) (M : Matrix (Fin (sh.take k).prod) (Fin (sh.drop k).prod) ℝ) : ND ℝ :=
  ND.ofFn sh fun i => if h : ravel (sh.take k) (i.take k) < (sh.take k).prod ∧ ravel (sh.drop k) (i.drop k) < (sh.drop k).prod
    then M ⟨_, h.1⟩ ⟨_, h.2⟩ else 0

theorem split_inR (sh : List ℕ) (k : ℕ) (i : Fin (sh.take k).prod) (j : Fin (sh.drop k).prod) :
    InR sh (unravel (sh.take k) i ++ unravel (sh.drop k) j) := by
  have := (unravel_inR i.2).append (unravel_inR j.2)
  rwa [List.take_append_drop] at this

theorem unravel_split {sh : List ℕ} {k : ℕ} (i : Fin (sh.take k).prod) (j : Fin (sh.drop k).prod) :
    (unravel (sh.take k) i ++ unravel (sh.drop k) j).take k = unravel (sh.take k) i ∧
      (unravel (sh.take k) i ++ unravel (sh.drop k) j).drop k = unravel (sh.drop k) j := by
  have h1 : (unravel (sh.take k) i).length = min k sh.length := by
    rw [(unravel_inR i.2).length, List.length_take]
  have h2 : (unravel (sh.drop k) j).length = sh.length - k := by
    rw [(unravel_inR j.2).length, List.length_drop]
  by_cases hk : k ≤ sh.length
  · rw [List.take_left' (by omega), List.drop_left' (by omega)]
    exact ⟨rfl, rfl⟩
  · have : unravel (sh.drop k) j = [] := List.eq_nil_of_length_eq_zero (by omega)
    rw [this, List.append_nil, List.take_of_length_le (by omega), List.drop_of_length_le (by omega)]
    exact ⟨rfl, rfl⟩

theorem unfold_fold {sh : List ℕ} {k : ℕ} (M : Matrix (Fin (sh.take k).prod) (Fin (sh.drop k).prod) ℝ) :
    unfoldAs sh (foldAs sh k M) k = M := by
  ext i j
  show (foldAs sh k M).get _ = _
  rw [foldAs, ND.ofFn_get (split_inR sh k i j)]
  beta_reduce
  simp only [(unravel_split i j).1, (unravel_split i j).2, ravel_unravel i.2, ravel_unravel j.2]
  rw [dif_pos ⟨i.2, j.2⟩]

theorem foldAs_get {sh : List ℕ} {k : ℕ} (M : Matrix (Fin (sh.take k).prod) (Fin (sh.drop k).prod) ℝ) {i : List ℕ}
    (hi : InR sh i) : (foldAs sh k M).get i = M ⟨ravel (sh.take k) (i.take k), ravel_lt (hi.take k)⟩
      ⟨ravel (sh.drop k) (i.drop k), ravel_lt (hi.drop k)⟩ := by
  rw [foldAs, ND.ofFn_get hi, dif_pos ⟨ravel_lt (hi.take k), ravel_lt (hi.drop k)⟩]

theorem unfold_iso (sh : List ℕ) (k : ℕ) :
    UnfoldIso sh (sh.take k).prod (sh.drop k).prod (fun Z => unfoldAs sh Z k) (foldAs sh k) where
  shape _ := rfl
  uv M := unfold_fold M
  norm Z hZ := by
    unfold normSq fsq
    rw [hZ, sumIdx_unfold _ k]
    rfl
  minus Z W hZ hW := by
    ext i j
    show (ND.ofFn Z.shape fun i => Z.get i - W.get i).get _ = Z.get _ - W.get _
    rw [hZ, ND.ofFn_get (split_inR sh k i j)]
  vsub M M' := by
    refine ND.ext' rfl fun i hi => ?_
    have hi : InR sh i := hi
    show _ = (ND.ofFn sh _).get i
    rw [ND.ofFn_get hi, foldAs_get _ hi, foldAs_get _ hi, foldAs_get _ hi]
    rfl
  umeas U hU i j := hU.meas _
  vmeas M hM := by
    refine ⟨fun _ => rfl, fun j => ?_⟩
    by_cases hj : InR sh j
    · simp only [foldAs_get _ hj]
      exact hM _ _
    · simp only [ND.supp _ j (show ¬ InR (foldAs sh k _).shape j from hj)]
      exact measurable_const

theorem UnfoldIso.transpose {sh : List ℕ} {m N : ℕ} {u : ND ℝ → Matrix (Fin m) (Fin N) ℝ}
    {v : Matrix (Fin m) (Fin N) ℝ → ND ℝ} (h : UnfoldIso sh m N u v) :
    UnfoldIso sh N m (fun Z => (u Z)ᵀ) fun M => v Mᵀ where
  shape M := h.shape _
  uv M := by rw [h.uv, Matrix.transpose_transpose]
  norm Z hZ := by rw [h.norm Z hZ, fsq_transpose]
  minus Z W hZ hW := by rw [h.minus Z W hZ hW, Matrix.transpose_sub]
  vsub M M' := by rw [Matrix.transpose_sub, h.vsub]
  umeas U hU := (h.umeas U hU).transpose
  vmeas M hM := h.vmeas _ hM.transpose

/-! ### The maps of the bonds -/

/-- The map `Z ↦ Z_k R G L A_k` on arrays of the shape of `A`. -/
def coOblique (A : ND ℝ) (L R : Mats ℝ) (k l r : ℕ) (G : ℕ → ℕ → ℝ) (Z : ND ℝ) : ND ℝ :=
  ND.ofFn A.shape fun i => ∑ b ∈ range r, rightSketch Z R k (i.take k) b
    * ∑ a ∈ range l, G b a * leftSketch A L k a (i.drop k)

theorem rightSketch_mat' {sh : List ℕ} {Z : ND ℝ} (hZ : Z.shape = sh) (R : Mats ℝ) (k l : ℕ) (i : Fin (sh.take k).prod)
    (b : Fin l) : rightSketch Z R k (unravel (sh.take k) i) b = (unfoldAs sh Z k * rightMat sh R k l) i b := by
  subst hZ
  exact rightSketch_mat Z R k l i b

theorem leftSketch_mat' {sh : List ℕ} {Z : ND ℝ} (hZ : Z.shape = sh) (L : Mats ℝ) (k l : ℕ) (a : Fin l)
    (j : Fin (sh.drop k).prod) : leftSketch Z L k a (unravel (sh.drop k) j) = (leftMat sh L k l * unfoldAs sh Z k) a j := by
  subst hZ
  exact leftSketch_mat Z L k l a j

/-- both maps as products of matrices -/
theorem bond_mat {sh : List ℕ} {k l r : ℕ} {Z W : ND ℝ} (hZ : Z.shape = sh) (hW : W.shape = sh)
    (L R : Mats ℝ) (G : ℕ → ℕ → ℝ) :
    (ND.ofFn sh fun i => ∑ b ∈ range r, rightSketch Z R k (i.take k) b * ∑ a ∈ range l, G b a * leftSketch W L k a (i.drop k))
      = foldAs sh k (unfoldAs sh Z k * rightMat sh R k r * matOf r l G * (leftMat sh L k l * unfoldAs sh W k)) := by
  refine ND.ext' rfl fun i hi => ?_
  have hi : InR sh i := hi
  rw [ND.ofFn_get hi, foldAs_get _ hi, Matrix.mul_assoc, Matrix.mul_apply, sum_range]
  have e1 : unravel (sh.take k) (ravel (sh.take k) (i.take k)) = i.take k := unravel_ravel (hi.take k)
  have e2 : unravel (sh.drop k) (ravel (sh.drop k) (i.drop k)) = i.drop k := unravel_ravel (hi.drop k)
  refine sum_congr rfl fun b _ => ?_
  rw [← rightSketch_mat' hZ, Matrix.mul_apply, sum_range]
  congr 1
  · show _ = rightSketch Z R k (unravel (sh.take k) (ravel (sh.take k) (i.take k))) b
    rw [e1]
  · refine sum_congr rfl fun a _ => ?_
    rw [← leftSketch_mat' hW]
    show _ = G b a * leftSketch W L k a (unravel (sh.drop k) (ravel (sh.drop k) (i.drop k)))
    rw [e2]

theorem oblique_mat {A : ND ℝ} {k l r : ℕ} {Z : ND ℝ} (hZ : Z.shape = A.shape) (L R : Mats ℝ)
    (G : ℕ → ℕ → ℝ) : oblique A L R k l r G Z = foldAs A.shape k (unfoldAs A.shape A k * rightMat A.shape R k r
      * matOf r l G * (leftMat A.shape L k l * unfoldAs A.shape Z k)) :=
  bond_mat rfl hZ L R G

theorem coOblique_mat {A : ND ℝ} {k l r : ℕ} {Z : ND ℝ} (hZ : Z.shape = A.shape) (L R : Mats ℝ)
    (G : ℕ → ℕ → ℝ) : coOblique A L R k l r G Z = foldAs A.shape k (unfoldAs A.shape Z k * rightMat A.shape R k r
      * matOf r l G * (leftMat A.shape L k l * unfoldAs A.shape A k)) :=
  bond_mat hZ rfl L R G

/-! ### The other product form -/

theorem oblique_comm {A Z : ND ℝ} (hZ : Z.shape = A.shape) {L R : Mats ℝ} {i j l r l' r' : ℕ} {G G' : ℕ → ℕ → ℝ}
    (hij : i ≤ j) (hj : j ≤ A.shape.length) :
    oblique A L R i l r G (coOblique A L R j l' r' G' Z) = coOblique A L R j l' r' G' (oblique A L R i l r G Z) := by
  refine ND.ext' rfl fun x hx => ?_
  have hx : InR A.shape x := hx
  have hxl := hx.length
  -- the entries of the two sketches
  have e1 : ∀ a, leftSketch (coOblique A L R j l' r' G' Z) L i a (x.drop i)
      = ∑ b ∈ range r', (sumIdx (A.shape.take i) fun p => sumIdx (A.shape.drop j) fun q =>
          L i p a * (Z.get (p ++ ((x.drop i).take (j - i) ++ q)) * R j q b))
        * ∑ c ∈ range l', G' b c * leftSketch A L j c (x.drop j) := by
    intro a
    unfold leftSketch
    rw [sum_congr rfl fun b _ => sumIdx_mul _ _ _, ← sumIdx_sum]
    refine sumIdx_congr fun p hp => ?_
    have hp : InR (A.shape.take i) p := hp
    have hpl : p.length = i := by rw [hp.length, List.length_take]; omega
    have hpx : InR A.shape (p ++ x.drop i) := by
      have := hp.append (hx.drop i)
      rwa [List.take_append_drop] at this
    have t1 : (p ++ x.drop i).take j = p ++ (x.drop i).take (j - i) := by
      rw [List.take_append, hpl, List.take_of_length_le (by omega)]
    have t2 : (p ++ x.drop i).drop j = x.drop j := by
      rw [List.drop_append, hpl, List.drop_of_length_le (by omega), List.nil_append, List.drop_drop]
      congr 1; omega
    unfold coOblique
    rw [ND.ofFn_get hpx, t1, t2, mul_sum]
    refine sum_congr rfl fun b _ => ?_
    rw [← mul_assoc]
    congr 1
    unfold rightSketch
    rw [hZ, mul_sumIdx]
    exact sumIdx_congr fun q _ => by rw [List.append_assoc]
  have e2 : ∀ b, rightSketch (oblique A L R i l r G Z) R j (x.take j) b
      = ∑ c ∈ range r, rightSketch A R i (x.take i) c * ∑ a ∈ range l, G c a
          * (sumIdx (A.shape.take i) fun p => sumIdx (A.shape.drop j) fun q =>
          L i p a * (Z.get (p ++ ((x.drop i).take (j - i) ++ q)) * R j q b)) := by
    intro b
    have h1 : ∀ q, InR (A.shape.drop j) q → (oblique A L R i l r G Z).get (x.take j ++ q) * R j q b
        = ∑ c ∈ range r, ∑ a ∈ range l, sumIdx (A.shape.take i) fun p => rightSketch A R i (x.take i) c * (G c a
          * (L i p a * (Z.get (p ++ ((x.drop i).take (j - i) ++ q)) * R j q b))) := by
      intro q hq
      have hxq : InR A.shape (x.take j ++ q) := by
        have := (hx.take j).append hq
        rwa [List.take_append_drop] at this
      have hl : (x.take j).length = j := by rw [List.length_take]; omega
      have t1 : (x.take j ++ q).take i = x.take i := by
        rw [List.take_append_of_le_length (by omega), List.take_take]
        congr 1; omega
      have t2 : (x.take j ++ q).drop i = (x.drop i).take (j - i) ++ q := by
        rw [List.drop_append_of_le_length (by omega), List.drop_take]
      unfold oblique
      rw [ND.ofFn_get hxq, t1, t2, sum_mul]
      refine sum_congr rfl fun c _ => ?_
      rw [mul_assoc, sum_mul, mul_sum]
      refine sum_congr rfl fun a _ => ?_
      unfold leftSketch
      rw [hZ, mul_assoc, sumIdx_mul, mul_sumIdx, mul_sumIdx]
      exact sumIdx_congr fun p _ => by ring
    show sumIdx (A.shape.drop j) _ = _
    rw [sumIdx_congr h1, sumIdx_sum]
    refine sum_congr rfl fun c _ => ?_
    rw [sumIdx_sum, mul_sum]
    refine sum_congr rfl fun a _ => ?_
    rw [sumIdx_comm, mul_sumIdx, mul_sumIdx]
    refine sumIdx_congr fun p _ => ?_
    rw [mul_sumIdx, mul_sumIdx]
  show (ND.ofFn A.shape _).get x = (ND.ofFn A.shape _).get x
  rw [ND.ofFn_get hx, ND.ofFn_get hx]
  refine Eq.trans (sum_congr rfl fun c _ => congrArg _ (sum_congr rfl fun a _ => congrArg _ (e1 a)))
    (Eq.trans ?_ (sum_congr rfl fun b _ => congrArg (· * _) (e2 b)).symm)
  generalize hV : (fun b => ∑ c ∈ range l', G' b c * leftSketch A L j c (x.drop j)) = V
  have hV : ∀ b, ∑ c ∈ range l', G' b c * leftSketch A L j c (x.drop j) = V b := fun b => congrFun hV b
  simp only [hV]
  simp only [mul_sum, sum_mul]
  -- exchange the order of the sums
  conv_rhs => rw [sum_comm]; enter [2, c]; rw [sum_comm]
  refine sum_congr rfl fun c _ => sum_congr rfl fun a _ => sum_congr rfl fun b _ => ?_
  ring

theorem obliques_comm {A : ND ℝ} {L R : Mats ℝ} {l r : List ℕ} {G : ℕ → ℕ → ℕ → ℝ} {j l' r' : ℕ} {G' : ℕ → ℕ → ℝ}
    (hj : j ≤ A.shape.length) : ∀ (n : ℕ) (_ : n ≤ j) (Z : ND ℝ), Z.shape = A.shape →
      obliques A L R l r G n (coOblique A L R j l' r' G' Z) = coOblique A L R j l' r' G' (obliques A L R l r G n Z)
  | 0, _, _, _ => rfl
  | n + 1, hn, Z, hZ => by
    show obliques A L R l r G n (oblique _ _ _ _ _ _ _ _) = coOblique _ _ _ _ _ _ _ (obliques A L R l r G n _)
    rw [oblique_comm hZ hn hj]
    exact obliques_comm hj n (by omega) _ rfl

theorem opChain_succ' {T : ℕ → ND ℝ → ND ℝ} : ∀ (n : ℕ) (Z : ND ℝ),
    opChain T (n + 1) Z = T 0 (opChain (fun k => T (k + 1)) n Z)
  | 0, _ => rfl
  | n + 1, Z => opChain_succ' n _

/-- The product of the maps of the bonds, read from the other end. -/
theorem obliques_co (A : ND ℝ) (L R : Mats ℝ) (l r : List ℕ) (G : ℕ → ℕ → ℕ → ℝ) : ∀ n, n ≤ A.shape.length →
    obliques A L R l r G n A = opChain (fun ν => coOblique A L R (n - 1 - ν + 1) (l.getD (n - 1 - ν) 0) (r.getD (n - 1 - ν) 0)
      (G (n - 1 - ν))) n A
  | 0, _ => rfl
  | n + 1, hn => by
    rw [opChain_succ']
    show obliques A L R l r G n (coOblique _ _ _ _ _ _ _ A) = _
    rw [obliques_comm hn n (by omega) A rfl, obliques_co A L R l r G n (by omega)]
    have e : (fun ν => coOblique A L R (n - 1 - ν + 1) (l.getD (n - 1 - ν) 0) (r.getD (n - 1 - ν) 0) (G (n - 1 - ν)))
        = fun k => coOblique A L R (n + 1 - 1 - (k + 1) + 1) (l.getD (n + 1 - 1 - (k + 1)) 0) (r.getD (n + 1 - 1 - (k + 1)) 0)
          (G (n + 1 - 1 - (k + 1))) := by
      funext k
      have : n + 1 - 1 - (k + 1) = n - 1 - k := by omega
      rw [this]
    rw [e]
    rfl

/-! ### From the draws to the blocks -/

section

variable {Ω : Type*} [MeasurableSpace Ω] {P : Measure Ω} {g : Ω → Draw → ℝ}

/-- the draws that fill the blocks -/
def drawOf {D : ℕ} {m p N q : ℕ → ℕ} (s s' : ℕ → ℕ) (τ : ∀ ν, Fin (m ν) → Fin (m ν)) (σ : ∀ ν, Fin (N ν) → Fin (N ν)) :
    Entries D m p N q → Draw :=
  Sum.elim (fun e => .stream (s e.1) (e.2.2 * m e.1 + τ e.1 e.2.1)) (fun e => .stream (s' e.1) (e.2.2 * N e.1 + σ e.1 e.2.1))

theorem drawOf_inj {D : ℕ} {m p N q : ℕ → ℕ} {s s' : ℕ → ℕ} {τ : ∀ ν, Fin (m ν) → Fin (m ν)} {σ : ∀ ν, Fin (N ν) → Fin (N ν)}
    (hτ : ∀ ν, Function.Injective (τ ν)) (hσ : ∀ ν, Function.Injective (σ ν))
    (hs : ∀ μ < D, ∀ ν < D, s μ ≠ s' ν ∧ (μ ≠ ν → s μ ≠ s ν ∧ s' μ ≠ s' ν)) :
    Function.Injective (drawOf (D := D) (p := p) (q := q) s s' τ σ) := by
  rintro (⟨⟨μ, hμ⟩, x⟩ | ⟨⟨μ, hμ⟩, x⟩) (⟨⟨ν, hν⟩, y⟩ | ⟨⟨ν, hν⟩, y⟩) e
  · by_cases h : μ = ν
    · subst h
      obtain rfl : x = y := stream_pos_inj (l := p μ) (hτ μ) (s μ) e
      rfl
    · exact absurd (Draw.stream.inj e).1 ((hs μ hμ ν hν).2 h).1
  · exact absurd (Draw.stream.inj e).1 (hs μ hμ ν hν).1
  · exact absurd (Draw.stream.inj e).1.symm (hs ν hν μ hμ).1
  · by_cases h : μ = ν
    · subst h
      obtain rfl : x = y := stream_pos_inj (l := q μ) (hσ μ) (s' μ) e
      rfl
    · exact absurd (Draw.stream.inj e).1 ((hs μ hμ ν hν).2 h).2

theorem product_draws (hg : GaussianDraws P g) {A : ND ℝ} {D : ℕ} {m p N q : ℕ → ℕ}
    {u : ∀ ν, ND ℝ → Matrix (Fin (m ν)) (Fin (N ν)) ℝ} {v : ∀ ν, Matrix (Fin (m ν)) (Fin (N ν)) ℝ → ND ℝ}
    (hu : ∀ ν, UnfoldIso A.shape (m ν) (N ν) (u ν) (v ν)) {s s' : ℕ → ℕ} {τ : ∀ ν, Fin (m ν) → Fin (m ν)}
    {σ : ∀ ν, Fin (N ν) → Fin (N ν)}
    (hτ : ∀ ν, Function.Injective (τ ν)) (hσ : ∀ ν, Function.Injective (σ ν))
    (hs : ∀ μ < D, ∀ ν < D, s μ ≠ s' ν ∧ (μ ≠ ν → s μ ≠ s ν ∧ s' μ ≠ s' ν)) (B : ℕ → ND ℝ) (k : ℕ → ℕ)
    (hBs : ∀ ν < D, (B ν).shape = A.shape) (hB : ∀ ν < D, (u ν (B ν)).rank ≤ k ν)
    (hk : ∀ ν < D, k ν + 2 ≤ q ν ∨ (B ν = A ∧ k ν ≤ q ν)) (hp : ∀ ν < D, q ν + 2 ≤ p ν) :
    ∃ E : Ω → ℝ≥0∞, Measurable E ∧
      ∫⁻ ω, E ω ∂P ≤ ENNReal.ofReal ((∑ ν ∈ range D, √((∏ μ ∈ range ν, growth (q μ) (p μ))
        * ((1 + (q ν : ℝ) / ((p ν : ℝ) - q ν - 1)) * ((1 + (k ν : ℝ) / ((q ν : ℝ) - k ν - 1)) * distSq A (B ν))))) ^ 2) ∧
      ∀ᵐ ω ∂P, ∀ (L : ∀ ν, Matrix (Fin (p ν)) (Fin (m ν)) ℝ) (R : ∀ ν, Matrix (Fin (N ν)) (Fin (q ν)) ℝ)
        (G : ∀ ν, Matrix (Fin (q ν)) (Fin (p ν)) ℝ),
        (∀ ν < D, ∀ a i, L ν a i = g ω (.stream (s ν) (a * m ν + τ ν i))) →
        (∀ ν < D, ∀ j b, R ν j b = g ω (.stream (s' ν) (b * N ν + σ ν j))) →
        (∀ ν < D, IsPinv (L ν * u ν A * R ν) (G ν)) →
        ENNReal.ofReal (distSq A (opChain (fun ν Z => v ν (u ν A * R ν * G ν * (L ν * u ν Z))) D A)) ≤ E ω := by
  obtain ⟨E, e1, e2, e3⟩ := product_mean hu B k hBs hB hk hp
  have hmeas : Measurable fun ω (i : Entries D m p N q) => g ω (drawOf s s' τ σ i) :=
    measurable_pi_lambda _ fun i => hg.measurable _
  have hsel := hg.sel (drawOf (D := D) (p := p) (q := q) s s' τ σ) (drawOf_inj hτ hσ hs) (by
    intro s n k n' k' h _
    rw [mem_image] at h
    obtain ⟨p | p, -, h⟩ := h <;> cases h)
  refine ⟨_, e1.comp hmeas, ?_, ?_⟩
  · refine (lintegral_map e1 hmeas).symm.trans_le ?_
    rw [hsel]
    exact e2
  · rw [← hsel] at e3
    filter_upwards [ae_of_ae_map hmeas.aemeasurable e3] with ω hω L R G hL hR hG
    have hLe : ∀ ν < D, (gm (lblk (fun i : Entries D m p N q => g ω (drawOf s s' τ σ i)) ν))ᵀ = L ν := by
      intro ν hν
      ext a i
      rw [hL ν hν]
      exact (dif_pos hν : lblk (fun i : Entries D m p N q => g ω (drawOf s s' τ σ i)) ν (i, a) = _)
    have hRe : ∀ ν < D, gm (rblk (fun i : Entries D m p N q => g ω (drawOf s s' τ σ i)) ν) = R ν := by
      intro ν hν
      ext j b
      rw [hR ν hν]
      exact (dif_pos hν : rblk (fun i : Entries D m p N q => g ω (drawOf s s' τ σ i)) ν (j, b) = _)
    have := hω G fun ν hν => by
      rw [hLe ν hν, hRe ν hν, ← Matrix.mul_assoc]
      exact hG ν hν
    refine le_trans (le_of_eq ?_) this
    congr 2
    refine opChain_congr (sh := A.shape) (fun ν => ⟨fun Z => (hu ν).shape _, fun Z W hZ hW => ?_⟩) D (fun ν hν Z hZ => ?_) A rfl
    · rw [(hu ν).minus Z W hZ hW, Matrix.mul_sub, Matrix.mul_sub, (hu ν).vsub]
    · rw [hLe ν hν, hRe ν hν]

/-- **Left ranks above the right ranks.** -/
theorem stream_mean_left (hg : GaussianDraws P g) {A : ND ℝ} {L R : (Draw → ℝ) → Mats ℝ} {l r : List ℕ} {s s' : ℕ → ℕ}
    (hL : GaussLeft L A.shape l s) (hR : GaussRight R A.shape r s')
    (hs : ∀ mu < A.shape.length - 1, ∀ nu < A.shape.length - 1, s mu ≠ s' nu ∧ (mu ≠ nu → s mu ≠ s nu ∧ s' mu ≠ s' nu))
    (B : ℕ → ND ℝ) (k : ℕ → ℕ) (hB : ∀ mu < A.shape.length - 1, Oversampled A (B mu) mu (k mu) (r.getD mu 0))
    (hl : ∀ mu < A.shape.length - 1, r.getD mu 0 + 2 ≤ l.getD mu 0) :
    ∃ E : Ω → ℝ≥0∞, Measurable E ∧
      ∫⁻ ω, E ω ∂P ≤ ENNReal.ofReal ((∑ mu ∈ range (A.shape.length - 1),
        √((∏ nu ∈ range mu, growth (r.getD nu 0) (l.getD nu 0))
          * ((1 + (r.getD mu 0 : ℝ) / ((l.getD mu 0 : ℝ) - r.getD mu 0 - 1))
            * ((1 + (k mu : ℝ) / ((r.getD mu 0 : ℝ) - k mu - 1)) * distSq A (B mu))))) ^ 2) ∧
      ∀ᵐ ω ∂P, ∀ G, PinvsOf A (L (g ω)) (R (g ω)) l r G →
        ENNReal.ofReal (distSq A (obliques A (L (g ω)) (R (g ω)) l r G (A.shape.length - 1) A)) ≤ E ω := by
  have hR' : ∀ mu, ∃ σ : Fin (A.shape.drop (mu + 1)).prod → Fin (A.shape.drop (mu + 1)).prod, Function.Injective σ ∧
      (mu < A.shape.length - 1 → ∀ g (j : Fin (A.shape.drop (mu + 1)).prod), ∀ b < r.getD mu 0,
      R g (mu + 1) (unravel (A.shape.drop (mu + 1)) j) b = g (.stream (s' mu) (b * (A.shape.drop (mu + 1)).prod + σ j))) := by
    intro mu
    by_cases h : mu < A.shape.length - 1
    · obtain ⟨σ, h1, h2⟩ := hR mu h
      exact ⟨σ, h1, fun _ => h2⟩
    · exact ⟨id, Function.injective_id, fun h' => absurd h' h⟩
  choose σ hσ hRe using hR'
  obtain ⟨E, e1, e2, e3⟩ := product_draws hg (A := A) (D := A.shape.length - 1) (m := fun mu => (A.shape.take (mu + 1)).prod)
    (p := fun mu => l.getD mu 0) (N := fun mu => (A.shape.drop (mu + 1)).prod) (q := fun mu => r.getD mu 0)
    (u := fun mu Z => unfoldAs A.shape Z (mu + 1)) (v := fun mu => foldAs A.shape (mu + 1))
    (fun mu => unfold_iso A.shape (mu + 1)) (τ := fun _ => id) (fun _ => Function.injective_id) hσ hs B k
    (fun mu hmu => (hB mu hmu).shape) (fun mu hmu => by rw [unfoldAs_rank (hB mu hmu).shape]; exact (hB mu hmu).rank)
    (fun mu hmu => (hB mu hmu).size) hl
  refine ⟨E, e1, e2, ?_⟩
  filter_upwards [e3] with ω hω G hG
  have := hω (fun mu => leftMat A.shape (L (g ω)) (mu + 1) (l.getD mu 0)) (fun mu => rightMat A.shape (R (g ω)) (mu + 1) (r.getD mu 0))
    (fun mu => matOf (r.getD mu 0) (l.getD mu 0) (G mu)) (fun mu hmu a i => hL mu hmu (g ω) i a a.2)
    (fun mu hmu j b => hRe mu hmu (g ω) j b b.2) (fun mu hmu => by
      have h := hG mu hmu
      rw [omegaMat_mat] at h
      exact h)
  refine le_trans (le_of_eq ?_) this
  rw [obliques_chain]
  congr 2
  refine opChain_congr (sh := A.shape) (fun mu => ⟨fun Z => ?_, fun Z W hZ hW => ?_⟩) _ (fun mu hmu Z hZ => ?_) A rfl
  · rfl
  · rw [(unfold_iso A.shape (mu + 1)).minus Z W hZ hW, Matrix.mul_sub, Matrix.mul_sub, (unfold_iso A.shape (mu + 1)).vsub]
  · exact oblique_mat hZ _ _ _

/-- **Right ranks above the left ranks.** -/
theorem stream_mean_right (hg : GaussianDraws P g) {A : ND ℝ} {L R : (Draw → ℝ) → Mats ℝ} {l r : List ℕ} {s s' : ℕ → ℕ}
    (hL : GaussLeft L A.shape l s) (hR : GaussRight R A.shape r s')
    (hs : ∀ mu < A.shape.length - 1, ∀ nu < A.shape.length - 1, s mu ≠ s' nu ∧ (mu ≠ nu → s mu ≠ s nu ∧ s' mu ≠ s' nu))
    (B : ℕ → ND ℝ) (k : ℕ → ℕ) (hB : ∀ mu < A.shape.length - 1, Oversampled A (B mu) mu (k mu) (l.getD mu 0))
    (hl : ∀ mu < A.shape.length - 1, l.getD mu 0 + 2 ≤ r.getD mu 0) :
    ∃ E : Ω → ℝ≥0∞, Measurable E ∧
      ∫⁻ ω, E ω ∂P ≤ ENNReal.ofReal ((∑ mu ∈ range (A.shape.length - 1),
        √((∏ nu ∈ Ico (mu + 1) (A.shape.length - 1), growth (l.getD nu 0) (r.getD nu 0))
          * ((1 + (l.getD mu 0 : ℝ) / ((r.getD mu 0 : ℝ) - l.getD mu 0 - 1))
            * ((1 + (k mu : ℝ) / ((l.getD mu 0 : ℝ) - k mu - 1)) * distSq A (B mu))))) ^ 2) ∧
      ∀ᵐ ω ∂P, ∀ G, PinvsOf A (L (g ω)) (R (g ω)) l r G →
        ENNReal.ofReal (distSq A (obliques A (L (g ω)) (R (g ω)) l r G (A.shape.length - 1) A)) ≤ E ω := by
  have hR' : ∀ mu, ∃ σ : Fin (A.shape.drop (mu + 1)).prod → Fin (A.shape.drop (mu + 1)).prod, Function.Injective σ ∧
      (mu < A.shape.length - 1 → ∀ g (j : Fin (A.shape.drop (mu + 1)).prod), ∀ b < r.getD mu 0,
      R g (mu + 1) (unravel (A.shape.drop (mu + 1)) j) b = g (.stream (s' mu) (b * (A.shape.drop (mu + 1)).prod + σ j))) := by
    intro mu
    by_cases h : mu < A.shape.length - 1
    · obtain ⟨σ, h1, h2⟩ := hR mu h
      exact ⟨σ, h1, fun _ => h2⟩
    · exact ⟨id, Function.injective_id, fun h' => absurd h' h⟩
  choose σ hσ hRe using hR'
  generalize hD : A.shape.length - 1 = D at *
  have hb : ∀ ν < D, D - 1 - ν < D := fun ν hν => by omega
  obtain ⟨E, e1, e2, e3⟩ := product_draws hg (A := A) (D := D) (m := fun ν => (A.shape.drop (D - 1 - ν + 1)).prod)
    (p := fun ν => r.getD (D - 1 - ν) 0) (N := fun ν => (A.shape.take (D - 1 - ν + 1)).prod) (q := fun ν => l.getD (D - 1 - ν) 0)
    (u := fun ν Z => (unfoldAs A.shape Z (D - 1 - ν + 1))ᵀ) (v := fun ν M => foldAs A.shape (D - 1 - ν + 1) Mᵀ)
    (fun ν => (unfold_iso A.shape (D - 1 - ν + 1)).transpose) (s := fun ν => s' (D - 1 - ν)) (s' := fun ν => s (D - 1 - ν))
    (τ := fun ν => σ (D - 1 - ν)) (σ := fun _ => id) (fun ν => hσ _) (fun _ => Function.injective_id)
    (fun μ hμ ν hν => by
      obtain ⟨h1, -⟩ := hs (D - 1 - ν) (hb ν hν) (D - 1 - μ) (hb μ hμ)
      obtain ⟨-, h2⟩ := hs (D - 1 - μ) (hb μ hμ) (D - 1 - ν) (hb ν hν)
      exact ⟨h1.symm, fun h => (h2 (by omega)).symm⟩) (fun ν => B (D - 1 - ν)) (fun ν => k (D - 1 - ν))
    (fun ν hν => (hB _ (hb ν hν)).shape)
    (fun ν hν => by rw [Matrix.rank_transpose, unfoldAs_rank (hB _ (hb ν hν)).shape]; exact (hB _ (hb ν hν)).rank)
    (fun ν hν => (hB _ (hb ν hν)).size) (fun ν hν => hl _ (hb ν hν))
  refine ⟨E, e1, ?_, ?_⟩
  · refine e2.trans (le_of_eq ?_)
    congr 2
    rw [← sum_range_reflect]
    refine sum_congr rfl fun mu hmu => ?_
    have hmu : mu < D := mem_range.1 hmu
    have e : D - 1 - (D - 1 - mu) = mu := by omega
    simp only [e]
    congr 2
    refine prod_nbij' (fun ν => D - 1 - ν) (fun ν => D - 1 - ν) ?_ ?_ ?_ ?_ ?_
    · intro ν hν
      simp only [mem_range, mem_Ico] at *
      omega
    · intro ν hν
      simp only [mem_range, mem_Ico] at *
      omega
    · intro ν hν
      simp only [mem_range] at *
      omega
    · intro ν hν
      simp only [mem_Ico] at *
      omega
    · intro ν _
      rfl
  filter_upwards [e3] with ω hω G hG
  have := hω (fun ν => (rightMat A.shape (R (g ω)) (D - 1 - ν + 1) (r.getD (D - 1 - ν) 0))ᵀ)
    (fun ν => (leftMat A.shape (L (g ω)) (D - 1 - ν + 1) (l.getD (D - 1 - ν) 0))ᵀ)
    (fun ν => (matOf (r.getD (D - 1 - ν) 0) (l.getD (D - 1 - ν) 0) (G (D - 1 - ν)))ᵀ)
    (fun ν hν a i => hRe _ (hb ν hν) (g ω) i a a.2)
    (fun ν hν j b => hL _ (by rw [hD]; exact hb ν hν) (g ω) j b b.2) (fun ν hν => by
      have h := (hG _ (by rw [hD]; exact hb ν hν)).transpose
      rw [omegaMat_mat, Matrix.transpose_mul, Matrix.transpose_mul, ← Matrix.mul_assoc] at h
      exact h)
  refine le_trans (le_of_eq ?_) this
  rw [obliques_co _ _ _ _ _ _ _ (by omega)]
  congr 2
  refine opChain_congr (sh := A.shape) (fun ν => ⟨fun Z => ?_, fun Z W hZ hW => ?_⟩) _ (fun ν hν Z hZ => ?_) A rfl
  · rfl
  · rw [(unfold_iso A.shape _).minus Z W hZ hW, Matrix.transpose_sub, Matrix.mul_sub, Matrix.mul_sub, Matrix.transpose_sub,
      (unfold_iso A.shape _).vsub]
  · rw [coOblique_mat hZ]
    simp only [Matrix.transpose_mul, Matrix.transpose_transpose, Matrix.mul_assoc]

end

end TTS
