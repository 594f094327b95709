import Verif.Proofs.ProbTT
import Verif.Proofs.DRMNew

/-!
# Almost surely, random DRMs keep the ranks of the unfoldings
-/

namespace TTS

open Finset MeasureTheory

variable {Ω : Type*} [MeasurableSpace Ω] {P : Measure Ω} {g : Ω → Draw → ℝ}

theorem contracted_poly {T : Finset Draw} (A : ND ℝ) (m r : ℕ) (L : (Draw → ℝ) → List ℕ → ℕ → ℝ)
    (hL : ∀ p a, InR (A.shape.take m) p → a < r → PolyOn T fun g => L g p a) (i : Fin r)
    (j : Fin (A.shape.drop m).prod) : PolyOn T fun g => contracted A m r (L g) i j := by
  simp only [contracted, Matrix.mul_apply, Matrix.of_apply]
  exact PolyOn.sum _ fun t _ => (hL _ _ (unravel_inR t.2) i.2).mul (PolyOn.const _)

theorem contracted_congr {A : ND ℝ} {m r : ℕ} {L L' : List ℕ → ℕ → ℝ}
    (h : ∀ p a, InR (A.shape.take m) p → a < r → L p a = L' p a) : contracted A m r L = contracted A m r L' := by
  unfold contracted
  congr 1
  ext a i
  exact h _ _ (unravel_inR i.2) a.2

/-! ### Dense Gaussian matrices -/

theorem mul_add_div {a n j : ℕ} (hj : j < n) : (a * n + j) / n = a := by
  have : 0 < n := by omega
  rw [mul_comm, Nat.mul_add_div this, Nat.div_eq_of_lt hj, add_zero]

theorem mul_add_mod' {a n j : ℕ} (hj : j < n) : (a * n + j) % n = j := by
  rw [mul_comm, Nat.mul_add_mod, Nat.mod_eq_of_lt hj]

/-- a matrix of draws, row by row -/
theorem gauss_keeps (hg : ContinuousDraws P g) {N n : ℕ} (A : Matrix (Fin N) (Fin n) ℝ) (r s : ℕ) (hr : A.rank ≤ r) :
    ∀ᵐ ω ∂P, A.rank ≤ ((Matrix.of fun (a : Fin r) (i : Fin N) => g ω (.stream s (a * N + i))) * A).rank := by
  set T : Finset Draw := (range (r * N)).image fun k => Draw.stream s k with hT
  have hcomp : Draw.Compatible T := by
    intro s' n k n' k' h _
    simp [hT] at h
  obtain ⟨C, hC⟩ := exists_compress A hr
  set g0 : Draw → ℝ := fun x => match x with
    | .normal _ _ _ => 0
    | .stream _ pos => if h : pos / N < r ∧ pos % N < N then C ⟨_, h.1⟩ ⟨_, h.2⟩ else 0 with hg0
  have hrank := rank_ae hg hcomp (fun g => (Matrix.of fun (a : Fin r) (i : Fin N) => g (.stream s (a * N + i))) * A)
    (fun a j => by
      simp only [Matrix.mul_apply, Matrix.of_apply]
      refine PolyOn.sum _ fun i _ => (PolyOn.draw ?_).mul (PolyOn.const _)
      rw [hT, mem_image]
      refine ⟨_, mem_range.2 ?_, rfl⟩
      have h1 := i.2
      have h2 : ((a : ℕ) + 1) * N ≤ r * N := Nat.mul_le_mul_right _ a.2
      have h3 : ((a : ℕ) + 1) * N = a * N + N := by ring
      omega) g0
  refine hrank.mono fun ω hω => le_trans ?_ hω
  have e : (Matrix.of fun (a : Fin r) (i : Fin N) => g0 (.stream s (a * N + i))) = C := by
    ext a i
    simp only [Matrix.of_apply, hg0]
    have h1 : ((a : ℕ) * N + i) / N = a := mul_add_div i.2
    have h2 : ((a : ℕ) * N + i) % N = i := mul_add_mod' i.2
    have h3 : ((a : ℕ) * N + i) / N < r ∧ ((a : ℕ) * N + i) % N < N := by rw [h1, h2]; exact ⟨a.2, i.2⟩
    rw [dif_pos h3]
    congr 1
    · ext; exact h1
    · ext; exact h2
  simp only [e]
  exact rank_le_of_ker _ _ hC

/-! ### Tensor train DRMs -/

/-- bond dimensions -/
def drmBond (tr : List ℕ) (k : ℕ) : ℕ := (1 :: tr ++ [1]).getD k 0

theorem bondOf_succ {tr : List ℕ} {k : ℕ} (hk : k < tr.length) : drmBond tr (k + 1) = tr.getD k 0 := by
  unfold drmBond
  rw [List.cons_append, List.getD_cons_succ]
  exact List.getD_append _ _ _ _ hk

/-- the draw behind an entry of a core -/
def coreDraw (env : Env ℝ) (own tr : List ℕ) (seed k a i b : ℕ) : Draw :=
  .normal (env.genState seed own.length k) (drmBond tr k * own.getD k 0 * drmBond tr (k + 1))
    ((a * own.getD k 0 + i) * drmBond tr (k + 1) + b)

theorem drmCore_get (env : Env ℝ) (g : Draw → ℝ) (own tr : List ℕ) (seed k : ℕ) {a i b : ℕ} (ha : a < drmBond tr k)
    (hi : i < own.getD k 0) (hb : b < drmBond tr (k + 1)) :
    (drmCore (env.withDraws g) own tr seed k).get [a, i, b]
      = g (coreDraw env own tr seed k a i b) * env.invSqrt (drmBond tr k) := by
  unfold drmCore
  rw [ND.reshape_split12 (by rfl) _ _ _ hi, ND.smul_get]
  congr 1
  rw [ND.ofFn_get]
  · show g (Draw.normal _ _ _) = g (Draw.normal _ _ _)
    congr 2
    simp [drmBond]
  · refine ⟨?_, hb, trivial⟩
    have h2 : (a + 1) * own.getD k 0 ≤ drmBond tr k * own.getD k 0 := Nat.mul_le_mul_right _ ha
    have h3 : (a + 1) * own.getD k 0 = a * own.getD k 0 + own.getD k 0 := by ring
    show _ < drmBond tr k * own.getD k 0
    omega

theorem drmCores (env : Env ℝ) (own tr : List ℕ) (seed n : ℕ) :
    Cores ((List.range n).map (drmCore env own tr seed)) (drmBond tr) fun k => own.getD k 0 := by
  intro k hk
  rw [List.length_map, List.length_range] at hk
  rw [getD_map_range _ _ _ _ hk]
  rfl

theorem drm_prodTo {env : Env ℝ} {own tr : List ℕ} {seed n : ℕ} (m : ℕ) (hm : m ≤ n) (p : List ℕ) (hp : p.length = m)
    (a : ℕ) (ha : a < drmBond tr m) : ttVal (((List.range n).map (drmCore env own tr seed)).take m) p 0 a
      = prodTo (drmBond tr) (fun k a i b => (drmCore env own tr seed k).get [a, i, b]) m p a := by
  induction m generalizing p a with
  | zero =>
    have hp' : p = [] := List.length_eq_zero_iff.1 hp
    subst hp'
    have : a = 0 := by
      have : drmBond tr 0 = 1 := rfl
      omega
    subst this
    simp [prodTo, ttVal]
  | succ m ih =>
    obtain ⟨q, i, hq, rfl⟩ : ∃ q i, q.length = m ∧ p = q ++ [i] := by
      have hl : p.take m ++ p.drop m = p := List.take_append_drop _ _
      obtain ⟨i, hi⟩ : ∃ i, p.drop m = [i] := by
        rw [← List.length_eq_one_iff, List.length_drop]; omega
      exact ⟨p.take m, i, by rw [List.length_take]; omega, by rw [← hi, hl]⟩
    rw [(drmCores env own tr seed n).val_succ rfl m (by simpa using hm) q hq]
    simp only [prodTo]
    rw [List.take_left' hq, getD_snoc hq, getD_map_range _ _ _ _ (by omega)]
    refine sum_congr rfl fun b hb => ?_
    rw [ih (by omega) q hq b (mem_range.1 hb)]

theorem prodTo_congr_on {rk : ℕ → ℕ} {sh : List ℕ} {c c' : ℕ → ℕ → ℕ → ℕ → ℝ} {m : ℕ} (hm : m ≤ sh.length)
    (h : ∀ k < m, ∀ a < rk k, ∀ i < sh.getD k 0, ∀ b < rk (k + 1), c k a i b = c' k a i b) (p : List ℕ)
    (hp : InR (sh.take m) p) (a : ℕ) (ha : a < rk m) :
    prodTo rk c m p a = prodTo rk c' m p a := by
  induction m generalizing p a with
  | zero => rfl
  | succ m ih =>
    simp only [prodTo]
    have h1 : InR (sh.take m) (p.take m) := by
      have := hp.take m
      rwa [List.take_take, min_eq_left (by omega)] at this
    have h2 : p.getD m 0 < sh.getD m 0 := by
      have hlt : m < (sh.take (m + 1)).length := by rw [List.length_take]; omega
      have hl := hp.length
      have := hp.getElem hlt
      rw [getD_eq (by omega), getD_eq (by omega)]
      simpa using this
    refine sum_congr rfl fun b hb => ?_
    rw [ih (by omega) (fun k hk => h k (by omega)) _ h1 b (mem_range.1 hb), h m (by omega) b (mem_range.1 hb) _ h2 a ha]

/-- the draws behind the first `n` cores -/
def coreDraws (env : Env ℝ) (own tr : List ℕ) (seed n : ℕ) : Finset Draw :=
  (range n).biUnion fun k => (range (drmBond tr k * own.getD k 0 * drmBond tr (k + 1))).image fun pos =>
    Draw.normal (env.genState seed own.length k) (drmBond tr k * own.getD k 0 * drmBond tr (k + 1)) pos

theorem coreDraws_compatible (env : Env ℝ) (own tr : List ℕ) (seed n : ℕ)
    (hdis : ∀ i < n, ∀ j < n, env.genState seed own.length i = env.genState seed own.length j → i = j) :
    Draw.Compatible (coreDraws env own tr seed n) := by
  intro s n1 k1 n2 k2 h1 h2
  simp only [coreDraws, mem_biUnion, mem_range, mem_image, Draw.normal.injEq] at h1 h2
  obtain ⟨i, hi, _, _, e1, e2, _⟩ := h1
  obtain ⟨j, hj, _, _, f1, f2, _⟩ := h2
  have := hdis i hi j hj (e1.trans f1.symm)
  subst this
  rw [← e2, ← f2]

theorem coreDraw_mem {env : Env ℝ} {own tr : List ℕ} {seed n k a i b : ℕ} (hk : k < n) (ha : a < drmBond tr k)
    (hi : i < own.getD k 0) (hb : b < drmBond tr (k + 1)) :
    coreDraw env own tr seed k a i b ∈ coreDraws env own tr seed n := by
  simp only [coreDraws, mem_biUnion, mem_range, mem_image]
  refine ⟨k, hk, _, ?_, rfl⟩
  have h2 : (a + 1) * own.getD k 0 ≤ drmBond tr k * own.getD k 0 := Nat.mul_le_mul_right _ ha
  have h3 : (a + 1) * own.getD k 0 = a * own.getD k 0 + own.getD k 0 := by ring
  have h4 : a * own.getD k 0 + i + 1 ≤ drmBond tr k * own.getD k 0 := by omega
  have h5 := Nat.mul_le_mul_right (drmBond tr (k + 1)) h4
  have h6 : (a * own.getD k 0 + i + 1) * drmBond tr (k + 1)
    = (a * own.getD k 0 + i) * drmBond tr (k + 1) + drmBond tr (k + 1) := by ring
  omega

theorem tt_keeps (hg : ContinuousDraws P g) (env : Env ℝ) (hinv : ∀ r, 0 < r → env.invSqrt r ≠ 0) (A : ND ℝ)
    (tr : List ℕ) (hl : tr.length = A.shape.length - 1) (seed : ℕ)
    (hdis : ∀ i < A.shape.length - 1, ∀ j < A.shape.length - 1,
      env.genState seed A.shape.length i = env.genState seed A.shape.length j → i = j)
    (hr : ∀ k < A.shape.length - 1, (A.unfolding (k + 1)).rank ≤ tr.getD k 0) (k : ℕ) (hk : k < A.shape.length - 1) :
    ∀ᵐ ω ∂P, (A.unfolding (k + 1)).rank ≤ (contracted A (k + 1) (tr.getD k 0) fun p a =>
      ttVal (((List.range (A.shape.length - 1)).map (drmCore (env.withDraws (g ω)) A.shape tr seed)).take (k + 1)) p 0
        a).rank := by
  set d := A.shape.length - 1 with hd
  set c : (Draw → ℝ) → ℕ → ℕ → ℕ → ℕ → ℝ := fun g k a i b =>
    g (coreDraw env A.shape tr seed k a i b) * env.invSqrt (drmBond tr k) with hc
  have hb : drmBond tr (k + 1) = tr.getD k 0 := bondOf_succ (by omega)
  have hlen : ∀ p, InR (A.shape.take (k + 1)) p → p.length = k + 1 := fun p hp => by
    rw [hp.length, List.length_take]; omega
  have e : ∀ g : Draw → ℝ, (contracted A (k + 1) (tr.getD k 0) fun p a =>
      ttVal (((List.range d).map (drmCore (env.withDraws g) A.shape tr seed)).take (k + 1)) p 0 a)
      = contracted A (k + 1) (tr.getD k 0) (prodTo (drmBond tr) (c g) (k + 1)) := by
    intro g
    refine contracted_congr fun p a hp ha => ?_
    rw [drm_prodTo (k + 1) (by omega) p (hlen p hp) a (by omega)]
    refine prodTo_congr_on (sh := A.shape) (by omega) (fun k' hk' a ha i hi b hb => ?_) p hp a (by omega)
    exact drmCore_get env g _ _ _ _ ha hi hb
  simp only [e]
  -- the outcome that makes the cores good
  obtain ⟨c0, hc0⟩ := exists_good_cores A (drmBond tr) rfl (k + 1) (by omega) (fun j h1 h2 => by
    obtain ⟨j, rfl⟩ : ∃ j', j = j' + 1 := ⟨j - 1, by omega⟩
    rw [bondOf_succ (by omega)]; exact hr j (by omega))
  set g0 : Draw → ℝ := fun x => match x with
    | .stream _ _ => 0
    | .normal s _ pos => ∑ j ∈ range d, if env.genState seed A.shape.length j = s then
        c0 j (pos / drmBond tr (j + 1) / A.shape.getD j 0) (pos / drmBond tr (j + 1) % A.shape.getD j 0)
          (pos % drmBond tr (j + 1)) / env.invSqrt (drmBond tr j) else 0 with hg0
  have hg0c : ∀ j < d, ∀ a < drmBond tr j, ∀ i < A.shape.getD j 0, ∀ b < drmBond tr (j + 1),
      c g0 j a i b = c0 j a i b := by
    intro j hj a ha i hi b hb
    simp only [hc, hg0, coreDraw]
    rw [Finset.sum_eq_single j, if_pos rfl, mul_add_div hb, mul_add_mod' hb, mul_add_div hi, mul_add_mod' hi]
    · exact div_mul_cancel₀ _ (hinv _ (by omega))
    · intro j' hj' hne
      rw [if_neg]
      intro hh
      exact hne (hdis _ (mem_range.1 hj') _ hj hh)
    · intro hh; exact absurd (mem_range.2 hj) hh
  have hpoly : ∀ p a, InR (A.shape.take (k + 1)) p → a < tr.getD k 0 →
      PolyOn (coreDraws env A.shape tr seed d) fun g => prodTo (drmBond tr) (c g) (k + 1) p a := by
    have gen : ∀ m ≤ d, ∀ p a, InR (A.shape.take m) p → a < drmBond tr m →
        PolyOn (coreDraws env A.shape tr seed d) fun g => prodTo (drmBond tr) (c g) m p a := by
      intro m
      induction m with
      | zero => intro _ p a _ _; exact PolyOn.const 1
      | succ m ih =>
        intro hm p a hp ha
        have h1 : InR (A.shape.take m) (p.take m) := by
          have := hp.take m
          rwa [List.take_take, min_eq_left (by omega)] at this
        have h2 : p.getD m 0 < A.shape.getD m 0 := by
          have hlt : m < (A.shape.take (m + 1)).length := by rw [List.length_take]; omega
          have hl := hp.length
          have := hp.getElem hlt
          rw [getD_eq (by omega), getD_eq (by omega)]
          simpa using this
        refine PolyOn.sum _ fun b hb => (ih (by omega) _ b h1 (mem_range.1 hb)).mul ?_
        exact (PolyOn.draw (coreDraw_mem (by omega) (mem_range.1 hb) h2 ha)).mul (PolyOn.const _)
    intro p a hp ha
    exact gen (k + 1) (by omega) p a hp (by omega)
  have := rank_ae hg (coreDraws_compatible env A.shape tr seed d hdis)
    (fun g => contracted A (k + 1) (tr.getD k 0) (prodTo (drmBond tr) (c g) (k + 1)))
    (contracted_poly A _ _ _ hpoly) g0
  refine this.mono fun ω hω => le_trans ?_ hω
  rw [hb] at hc0
  refine hc0.rank.trans (le_of_eq ?_)
  congr 1
  refine contracted_congr fun p a hp ha => ?_
  exact (prodTo_congr_on (sh := A.shape) (by omega) (fun j hj => hg0c j (by omega)) p hp a (by omega)).symm

end TTS
