import Verif.Proofs.GmresRes
import Verif.Props.ApproxRoundSum

/-!
# GMRES runs with inexact linear algebra
-/

namespace TTS.Props

open Finset Spec

/-! ### Linear algebra -/

theorem cauchy_sum (f g : ℕ → ℝ) (n : ℕ) :
    ∑ i ∈ range n, f i * g i ≤ √ (∑ i ∈ range n, f i ^ 2) * √ (∑ i ∈ range n, g i ^ 2) := by
  rw [← Real.sqrt_mul (sum_nonneg fun _ _ => sq_nonneg _)]
  exact Real.le_sqrt_of_sq_le (sum_mul_sq_le_sq_mul_sq _ _ _)

/-- the residual of a combination of a basis that satisfies the Arnoldi relation up to errors `d` -/
theorem arnoldi_bound {U V : Type*} [AddCommGroup U] [Module ℝ U] [NormedAddCommGroup V] [NormedSpace ℝ V] (L : U →ₗ[ℝ] V)
    (u : ℕ → U) (v : ℕ → V) (h : ℕ → ℕ → ℝ) (beta : ℝ) (n : ℕ) (r e0 : V) (d : ℕ → V) (h0 : r = beta • v 0 - e0)
    (hA : ∀ k < n, L (u k) = ∑ i ∈ range (n + 1), h i k • v i - d k) (z : ℕ → ℝ) :
    ‖r - L (∑ k ∈ range n, z k • u k)‖
      ≤ √ (∑ i ∈ range (n + 1), ‖v i‖ ^ 2) * √ (lsq h beta n z) + ‖e0‖ + ∑ k ∈ range n, |z k| * ‖d k‖ := by
  have e1 : L (∑ k ∈ range n, z k • u k)
      = ∑ i ∈ range (n + 1), (∑ t ∈ range n, h i t * z t) • v i - ∑ k ∈ range n, z k • d k := by
    rw [map_sum]
    have : ∀ k ∈ range n, L (z k • u k) = ∑ i ∈ range (n + 1), (h i k * z k) • v i - z k • d k := by
      intro k hk
      rw [map_smul, hA k (mem_range.1 hk), smul_sub, smul_sum]
      congr 1
      exact sum_congr rfl fun i _ => by rw [smul_smul, mul_comm]
    rw [sum_congr rfl this, sum_sub_distrib, sum_comm]
    congr 1
    exact sum_congr rfl fun i _ => (sum_smul).symm
  have e2 : ∑ i ∈ range (n + 1), cf h beta n z i • v i
      = beta • v 0 - ∑ i ∈ range (n + 1), (∑ t ∈ range n, h i t * z t) • v i := by
    simp only [cf, sub_smul, sum_sub_distrib]
    congr 1
    rw [sum_eq_single 0 (fun i _ hi => by rw [if_neg hi, zero_smul]) fun h => absurd (mem_range.2 (by omega)) h, if_pos rfl]
  have e3 : r - L (∑ k ∈ range n, z k • u k)
      = ∑ i ∈ range (n + 1), cf h beta n z i • v i - e0 + ∑ k ∈ range n, z k • d k := by
    rw [e1, e2, h0]; abel
  rw [e3]
  refine (norm_add_le _ _).trans (add_le_add ((norm_sub_le _ _).trans (add_le_add ?_ le_rfl)) ?_)
  · refine (norm_sum_le _ _).trans ?_
    have := cauchy_sum (fun i => ‖v i‖) (fun i => |cf h beta n z i|) (n + 1)
    simp only [sq_abs] at this
    rw [lsq_cf]
    refine le_trans (le_of_eq (sum_congr rfl fun i _ => ?_)) this
    rw [norm_smul, Real.norm_eq_abs, mul_comm]
  · refine (norm_sum_le _ _).trans (sum_le_sum fun k _ => ?_)
    rw [norm_smul, Real.norm_eq_abs]

/-! ### The loop -/

/-- `R x v`: the preconditioned operator applied to `x` may give a list of trains with sum `v` -/
structure CfgA (c : GmresCfg) (s rk : List ℕ) (R : TT ℝ → E s → Prop) : Prop where
  ap : ∀ x, Good s x → ∃ ys, c.ap x = .ok ys ∧ TTList ys s ∧ R x (tvs s ys)
  rnd : ∀ k ts eps, 0 ≤ eps.getD 0 → TTList ts s →
    ∃ Y, c.rnd k ts eps = .ok Y ∧ Good s Y ∧ (ts.length ≠ 1 → RanksLe Y.rank rk)
  tol : 0 ≤ c.tol
  beta : 0 ≤ c.beta

/-- iteration `k`, with its two roundings -/
structure IterA (s : List ℕ) (R : TT ℝ → E s → Prop) (la : LinAlg) (nu : List (TT ℝ)) (H : ND ℝ) (c1 c2 : RoundCall) (k : ℕ) :
    Prop where
  sum1 : R (nu.getD k ⟨[]⟩) (tvs s c1.summands)
  sum2 : tvs s c2.summands = tv s c1.result - ∑ i ∈ range (k + 1), H.get [i, k] • bv s nu i
  nxt : nu.getD (k + 1) ⟨[]⟩ = c2.result.mul (1 / H.get [k + 1, k])
  nrm : c2.result.norm la = .ok (H.get [k + 1, k])

theorem IterA.congr {s : List ℕ} {R : TT ℝ → E s → Prop} {la : LinAlg} {nu nu' : List (TT ℝ)} {H H' : ND ℝ} {c1 c2 : RoundCall}
    {k : ℕ} (h : IterA s R la nu H c1 c2 k) (hn : ∀ i ≤ k + 1, nu'.getD i ⟨[]⟩ = nu.getD i ⟨[]⟩)
    (hH : ∀ i, H'.get [i, k] = H.get [i, k]) : IterA s R la nu' H' c1 c2 k := by
  have hb : ∀ i ≤ k + 1, bv s nu' i = bv s nu i := fun i hi => by rw [bv, bv, hn i hi]
  refine ⟨by rw [hn k (by omega)]; exact h.sum1, ?_, by rw [hn _ le_rfl, hH]; exact h.nxt, by rw [hH]; exact h.nrm⟩
  rw [h.sum2]
  congr 1
  refine sum_congr rfl fun i hi => ?_
  rw [hH, hb i (by have := mem_range.1 hi; omega)]

structure AnaA (c : GmresCfg) (N : ℕ) (s rk : List ℕ) (R : TT ℝ → E s → Prop) (j : ℕ) (st : GmresSt) : Prop where
  nu : st.nu.length = j + 1
  iters : st.iters = j
  good : ∀ t ∈ st.nu, Good s t
  fin : st.finite ↔ if j = 0 then c.beta ≠ 0 else st.H.get [j, j - 1] ≠ 0
  beta : 0 < j → c.beta ≠ 0
  sub : ∀ k, k + 1 < j → st.H.get [k + 1, k] ≠ 0
  shape : st.H.shape = [N + 1, N]
  zero : ∀ i t, t + 1 < i ∨ j ≤ t → st.H.get [i, t] = 0
  ranks : ∀ r ∈ st.hist.rank, RanksLe r rk
  calls : st.calls.length = 2 * j + 1
  call : ∀ cl ∈ st.calls, TTList cl.summands s ∧ Good s cl.result
  it : ∀ k < j, IterA s R c.la.toLinAlg st.nu st.H (st.calls.getD (2 * k + 1) noCall) (st.calls.getD (2 * k + 2) noCall) k
  res : 0 ≤ st.res
  sol : 0 < j → ∃ y, st.y = some y ∧
    c.la.lstsq ((st.H.rows 0 (j + 1)).cols 0 j) (c.beta :: List.replicate j 0) = (y, [st.res])
  rho : 0 < j → st.hist.residualNorm.getLast? = some ((PyFloat.val (√ st.res)).div c.bNorm)

theorem AnaA.step {c : GmresCfg} {N : ℕ} {s rk : List ℕ} {R : TT ℝ → E s → Prop} (hc : CfgA c s rk R) {η : ℝ}
    (hl : c.la.LstsqApprox η) {j : ℕ} {st st' : GmresSt} {b : Bool} (h : AnaA c N s rk R j st) (hj : j < N)
    (hs : gmresStep c j st = .ok (st', b)) : AnaA c N s rk R (j + 1) st' := by
  obtain ⟨hfin, hres, wSum, w, w', hh, res, y, e1, e2, e3, e4, e5, hb, rfl⟩ := step_inv hs
  have hm := minJ_le c.symmetric j
  set m := minJ c.symmetric j with hmdef
  have hδ : 0 ≤ (some (c.tol / (st.res / c.beta))).getD 0 := div_nonneg hc.tol (div_nonneg h.res hc.beta)
  obtain ⟨s1, s2⟩ := newH_spec (c := c) (st := st) w hh h.shape hj
  have old : ∀ i t, t ≠ j → (newH c j st w hh).get [i, t] = st.H.get [i, t] := fun i t ht => by rw [s2, if_neg ht]
  have hcol : ∀ i ≤ j, (hColumn st.H w st.nu m j).get [i, j] = (newH c j st w hh).get [i, j] := by
    intro i hi
    obtain ⟨h1, h2⟩ := hColumn_fold w st.nu j N hj (j + 1 - m) m st.H h.shape (by omega)
    rw [newH, ND.setEntry_get (by rw [hColumn, h1, inR2]; omega), if_neg (by simp; omega)]
  have hlast : st.nu.getLastD ⟨[]⟩ = st.nu.getD j ⟨[]⟩ := by
    have hne : st.nu ≠ [] := by intro h0; have := h.nu; rw [h0] at this; simp at this
    rw [List.getLastD_eq_getLast?, List.getLast?_eq_getElem?, List.getD_eq_getElem?_getD]
    have := h.nu
    congr 2
    omega
  have gd : ∀ k ≤ j, Good s (st.nu.getD k ⟨[]⟩) := by
    intro k hk
    have := h.nu
    rw [List.getD_eq_getElem _ _ (by omega)]
    exact h.good _ (List.getElem_mem _)
  obtain ⟨ys, a1, a2, a3⟩ := hc.ap _ (gd j le_rfl)
  rw [hlast, a1] at e1
  injection e1 with e1
  subst e1
  obtain ⟨w1, b1, b2, -⟩ := hc.rnd (2 * j + 1) ys _ hδ a2
  rw [b1] at e2
  injection e2 with e2
  subst e2
  have hll : ((st.nu.take (j + 1)).drop m).length = j + 1 - m := by
    rw [List.length_drop, List.length_take, h.nu]; omega
  obtain ⟨g1, g2⟩ := tvs_gs (s := s) (hColumn st.H w1 st.nu m j) j ((st.nu.take (j + 1)).drop m) m (by
    intro u hu
    exact h.good u (List.mem_of_mem_take (List.mem_of_mem_drop hu)))
  rw [hll] at g1 g2
  have gsl : TTList (gramSchmidt (hColumn st.H w1 st.nu m j) w1 st.nu m j) s := ttList_cons b2 g1
  have gslen : (gramSchmidt (hColumn st.H w1 st.nu m j) w1 st.nu m j).length ≠ 1 := by
    simp only [gramSchmidt, List.length_cons, List.length_zipWith, hll, List.length_range']
    omega
  obtain ⟨w2, c1, c2, c3⟩ := hc.rnd (2 * j + 2) _ _ hδ gsl
  rw [c1] at e3
  injection e3 with e3
  subst e3
  obtain ⟨n1, -⟩ := good_mul c2 (1 / hh)
  have hnu : ∀ i ≤ j, (st.nu ++ [w2.mul (1 / hh)]).getD i ⟨[]⟩ = st.nu.getD i ⟨[]⟩ := by
    intro i hi
    rw [List.getD_append _ _ _ _ (by rw [h.nu]; omega)]
  have hnu' : (st.nu ++ [w2.mul (1 / hh)]).getD (j + 1) ⟨[]⟩ = w2.mul (1 / hh) := by
    rw [List.getD_append_right _ _ _ _ (by rw [h.nu]), h.nu]
    simp
  have hsubj : (newH c j st w1 hh).get [j + 1, j] = hh := by rw [s2, if_pos rfl, if_pos rfl]
  have hlow : ∀ i < m, (newH c j st w1 hh).get [i, j] = 0 := by
    intro i hi
    rw [s2, if_pos rfl, if_neg (by omega), if_neg (by omega)]
    exact h.zero _ _ (Or.inr le_rfl)
  have hgs : tvs s (gramSchmidt (hColumn st.H w1 st.nu m j) w1 st.nu m j)
      = tv s w1 - ∑ i ∈ range (j + 1), (newH c j st w1 hh).get [i, j] • bv s st.nu i := by
    rw [gramSchmidt, tvs, List.map_cons, List.sum_cons]
    show _ + tvs s _ = _
    rw [g2, ← sub_eq_add_neg]
    congr 1
    have hj1 : j + 1 = m + (j + 1 - m) := by omega
    conv_rhs => rw [hj1, sum_range_add]
    rw [sum_eq_zero (s := range m) fun i hi => by rw [hlow i (mem_range.1 hi), zero_smul], zero_add]
    refine sum_congr rfl fun q hq => ?_
    have hq := mem_range.1 hq
    rw [hcol (m + q) (by omega), bv]
    congr 2
    rw [List.getD_eq_getElem?_getD, List.getElem?_drop, List.getElem?_take, if_pos (by omega), ← List.getD_eq_getElem?_getD]
  refine ⟨?_, rfl, ?_, ?_, ?_, ?_, s1, ?_, ?_, ?_, ?_, ?_, ?_, ?_, ?_⟩
  · simp [h.nu]
  · intro t ht
    rcases List.mem_append.1 ht with ht | ht
    · exact h.good t ht
    · rw [List.mem_singleton] at ht; subst ht; exact n1
  · show hh ≠ 0 ↔ _
    rw [if_neg (by omega), Nat.add_sub_cancel]
    show _ ↔ (newH c j st w1 hh).get [j + 1, j] ≠ 0
    rw [hsubj]
  · intro _
    by_cases hj0 : j = 0
    · have := h.fin.1 hfin
      rw [if_pos hj0] at this
      exact this
    · exact h.beta (by omega)
  · intro k hk
    show (newH c j st w1 hh).get [k + 1, k] ≠ 0
    rw [old _ _ (by omega)]
    by_cases hkj : k + 1 < j
    · exact h.sub k hkj
    · have hkj : j = k + 1 := by omega
      have := h.fin.1 hfin
      rw [if_neg (by omega), hkj, Nat.add_sub_cancel] at this
      exact this
  · intro i t hit
    show (newH c j st w1 hh).get [i, t] = 0
    rw [s2]
    by_cases ht : t = j
    · subst ht
      rw [if_pos rfl, if_neg (by omega), if_neg (by omega)]
      exact h.zero _ _ (Or.inr le_rfl)
    · rw [if_neg ht]
      exact h.zero _ _ (by omega)
  · intro r hr
    rcases List.mem_append.1 hr with hr | hr
    · exact h.ranks r hr
    · rw [List.mem_singleton] at hr; subst hr; exact c3 gslen
  · simp only [List.length_append, h.calls, List.length_cons, List.length_nil]; ring
  · intro cl hcl
    rcases List.mem_append.1 hcl with hcl | hcl
    · exact h.call cl hcl
    · simp only [List.mem_cons, List.not_mem_nil, or_false] at hcl
      rcases hcl with rfl | rfl
      · exact ⟨a2, b2⟩
      · exact ⟨gsl, c2⟩
  · intro k hk
    by_cases hkj : k < j
    · show IterA s R c.la.toLinAlg (st.nu ++ [w2.mul (1 / hh)]) (newH c j st w1 hh) ((st.calls ++ _).getD _ _)
        ((st.calls ++ _).getD _ _) k
      rw [List.getD_append _ _ _ _ (by rw [h.calls]; omega), List.getD_append _ _ _ _ (by rw [h.calls]; omega)]
      exact (h.it k hkj).congr (fun i hi => hnu i (by omega)) fun i => old i k (by omega)
    · obtain rfl : k = j := by omega
      show IterA s R c.la.toLinAlg (st.nu ++ [w2.mul (1 / hh)]) (newH c k st w1 hh) ((st.calls ++ _).getD _ _)
        ((st.calls ++ _).getD _ _) k
      rw [List.getD_append_right _ _ _ _ (by rw [h.calls]), List.getD_append_right _ _ _ _ (by rw [h.calls]; omega),
        h.calls, show 2 * k + 1 - (2 * k + 1) = 0 by omega, show 2 * k + 2 - (2 * k + 1) = 1 by omega]
      have hbv : ∀ i ≤ k, bv s (st.nu ++ [w2.mul (1 / hh)]) i = bv s st.nu i := fun i hi => by rw [bv, bv, hnu i hi]
      refine ⟨?_, ?_, ?_, ?_⟩
      · rw [hnu k le_rfl]; exact a3
      · refine hgs.trans ?_
        congr 1
        exact sum_congr rfl fun i hi => by rw [hbv i (by have := mem_range.1 hi; omega)]
      · rw [hsubj]; exact hnu'
      · rw [hsubj]; exact e4
  · have := (hl _ (c.beta :: List.replicate (j + 1) 0) (j + 2) (j + 1) (red_shape s1 (by omega)) (by simp) (by omega)).2.2
    rw [e5] at this
    exact (this res (by simp)).1
  · intro _
    exact ⟨y, rfl, e5⟩
  · intro _
    show (st.hist.residualNorm ++ [_]).getLast? = _
    simp

theorem AnaA.loop {c : GmresCfg} {N : ℕ} {s rk : List ℕ} {R : TT ℝ → E s → Prop} (hc : CfgA c s rk R) {η : ℝ}
    (hl : c.la.LstsqApprox η) (hN : 0 < N) {st out : GmresSt} (h : AnaA c N s rk R 0 st) (hs : gmresLoop c N 0 st = .ok out) :
    ∃ n, 0 < n ∧ n ≤ N ∧ AnaA c N s rk R n out := by
  obtain ⟨fuel, rfl⟩ : ∃ f, N = f + 1 := ⟨N - 1, by omega⟩
  obtain ⟨n, b, n0, nN, hJ, -⟩ := loop_rule c (fuel + 1) (AnaA c (fuel + 1) s rk R) (fun j _ st => AnaA c (fuel + 1) s rk R j st)
    (fun j st st' b hj hI hs => ⟨hI.step hc hl hj hs, fun _ => hI.step hc hl hj hs⟩) fuel 0 st out (by omega) h hs
  exact ⟨n, n0, nN, hJ⟩

/-- the first basis vector -/
theorem loop_first {c : GmresCfg} {N : ℕ} (hN : 0 < N) {st out : GmresSt} {t : TT ℝ} {ts : List (TT ℝ)} (h0 : st.nu = t :: ts)
    (hs : gmresLoop c N 0 st = .ok out) : out.nu.getD 0 ⟨[]⟩ = t := by
  obtain ⟨fuel, rfl⟩ : ∃ f, N = f + 1 := ⟨N - 1, by omega⟩
  obtain ⟨_, _, -, -, hJ, -⟩ := loop_rule c (fuel + 1) (fun _ s => s.nu ≠ [] ∧ s.nu.getD 0 ⟨[]⟩ = t)
    (fun _ _ s => s.nu ≠ [] ∧ s.nu.getD 0 ⟨[]⟩ = t)
    (by
      rintro j s s' b - ⟨q1, q2⟩ hs
      obtain ⟨-, -, wSum, w, w', hh, res, y, -, -, -, -, -, -, rfl⟩ := step_inv hs
      have : s.nu ++ [w'.mul (1 / hh)] ≠ [] ∧ (s.nu ++ [w'.mul (1 / hh)]).getD 0 ⟨[]⟩ = t :=
        ⟨by simp, by rw [List.getD_append _ _ _ _ (List.length_pos_iff.2 q1)]; exact q2⟩
      exact ⟨this, fun _ => this⟩)
    fuel 0 _ out (by omega) ⟨by rw [h0]; simp, by rw [h0]; rfl⟩ hs
  exact hJ.2

end TTS.Props
