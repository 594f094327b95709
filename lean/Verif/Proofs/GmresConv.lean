import Mathlib.LinearAlgebra.FiniteDimensional.Basic
import Verif.Proofs.GmresRes

/-!
# Progress and convergence of GMRES
-/

namespace TTS.Props

open Finset Spec

/-! ### Exact Arnoldi relations -/

section Arn

variable {V : Type*} [NormedAddCommGroup V] [InnerProductSpace ℝ V]

/-- the exact Arnoldi relations for the first `n` steps -/
structure Arn (L : V →ₗ[ℝ] V) (sym : Bool) (b : ℕ → V) (h : ℕ → ℕ → ℝ) (n : ℕ) : Prop where
  one : ‖b 0‖ = 1
  step : ∀ k < n, h (k + 1) k • b (k + 1) = L (b k) - ∑ i ∈ range (k + 1), h i k • b i
  norm : ∀ k < n, h (k + 1) k = ‖h (k + 1) k • b (k + 1)‖
  low : ∀ k < n, ∀ i < minJ sym k, h i k = 0
  coef : ∀ k < n, ∀ i, minJ sym k ≤ i → i ≤ k → h i k = inner ℝ (L (b k)) (b i)
  zero : ∀ i t, t + 1 < i → h i t = 0

variable {L : V →ₗ[ℝ] V} {sym : Bool} {b : ℕ → V} {h : ℕ → ℕ → ℝ} {n : ℕ}

theorem Arn.norm_one (d : Arn L sym b h n) {k : ℕ} (hk : k ≤ n) (h0 : ∀ m < k, h (m + 1) m ≠ 0) : ‖b k‖ = 1 := by
  cases k with
  | zero => exact d.one
  | succ k =>
    have hn := d.norm k (by omega)
    have hpos : 0 ≤ h (k + 1) k := by rw [hn]; exact norm_nonneg _
    have e : ‖h (k + 1) k • b (k + 1)‖ = h (k + 1) k * ‖b (k + 1)‖ := by
      rw [norm_smul, Real.norm_eq_abs, abs_of_nonneg hpos]
    rw [e] at hn
    exact (mul_left_cancel₀ (h0 k (by omega)) ((mul_one _).trans hn)).symm

theorem Arn.image (d : Arn L sym b h n) {k : ℕ} (hk : k < n) : L (b k) = ∑ i ∈ range (k + 2), h i k • b i := by
  rw [sum_range_succ, d.step k hk]
  abel

theorem Arn.orthonormal (d : Arn L sym b h n)
    (hsym : sym = true → ∀ u v : V, inner ℝ (L u) v = inner ℝ u (L v)) (m : ℕ) (hm : m ≤ n)
    (h0 : ∀ k < m, h (k + 1) k ≠ 0) : ∀ i ≤ m, ∀ j ≤ m, inner ℝ (b i) (b j) = if i = j then (1 : ℝ) else 0 := by
  induction m with
  | zero =>
    intro i hi j hj
    obtain rfl : i = 0 := by omega
    obtain rfl : j = 0 := by omega
    rw [if_pos rfl, real_inner_self_eq_norm_sq, d.one, one_pow]
  | succ m ih =>
    have ih := ih (by omega) fun k hk => h0 k (by omega)
    have c2 := d.step m (by omega)
    have key : ∀ i ≤ m, inner ℝ (b (m + 1)) (b i) = (0 : ℝ) := by
      intro i hi
      have h1 : inner ℝ (h (m + 1) m • b (m + 1)) (b i) = (0 : ℝ) := by
        rw [c2, inner_sub_left, sum_inner]
        have : ∑ q ∈ range (m + 1), inner ℝ (h q m • b q) (b i) = h i m := by
          rw [sum_eq_single i]
          · rw [real_inner_smul_left, ih i hi i hi, if_pos rfl, mul_one]
          · intro q hq hqi
            rw [real_inner_smul_left, ih q (by have := mem_range.1 hq; omega) i hi, if_neg hqi, mul_zero]
          · intro h; exact absurd (mem_range.2 (by omega)) h
        rw [this]
        by_cases hmi : minJ sym m ≤ i
        · rw [d.coef m (by omega) i hmi hi, sub_self]
        · push Not at hmi
          rw [d.low m (by omega) i hmi, sub_zero]
          have hs : sym = true := by
            by_contra h
            rw [minJ, if_neg h] at hmi
            omega
          rw [minJ, if_pos hs] at hmi
          rw [hsym hs, d.image (k := i) (by omega), inner_sum]
          refine sum_eq_zero fun q hq => ?_
          have hq := mem_range.1 hq
          rw [real_inner_smul_right, ih m le_rfl q (by omega), if_neg (by omega), mul_zero]
      rw [real_inner_smul_left] at h1
      exact (mul_eq_zero.1 h1).resolve_left (h0 m (by omega))
    intro i hi j hj
    rcases Nat.lt_or_ge m i with h1 | h1
    · obtain rfl : i = m + 1 := by omega
      rcases Nat.lt_or_ge m j with h2 | h2
      · obtain rfl : j = m + 1 := by omega
        rw [if_pos rfl, real_inner_self_eq_norm_sq, d.norm_one hm h0, one_pow]
      · rw [key j h2, if_neg (by omega)]
    · rcases Nat.lt_or_ge m j with h2 | h2
      · obtain rfl : j = m + 1 := by omega
        rw [real_inner_comm, key i h1, if_neg (by omega)]
      · exact ih i h1 j h2

/-- coefficients of a vanishing combination of orthonormal vectors -/
theorem coeff_zero {m : ℕ} (ho : ∀ i ≤ m, ∀ j ≤ m, inner ℝ (b i) (b j) = if i = j then (1 : ℝ) else 0) {z : ℕ → ℝ}
    (hz : ∑ t ∈ range (m + 1), z t • b t = 0) : ∀ t ≤ m, z t = 0 := by
  intro t ht
  have h1 : inner ℝ (b t) (∑ t ∈ range (m + 1), z t • b t) = z t := by
    rw [inner_sum, sum_eq_single t]
    · rw [real_inner_smul_right, ho t ht t ht, if_pos rfl, mul_one]
    · intro q hq hqi
      have := mem_range.1 hq
      rw [real_inner_smul_right, ho t ht q (by omega), if_neg (Ne.symm hqi), mul_zero]
    · intro h; exact absurd (mem_range.2 (by omega)) h
  rw [← h1, hz, inner_zero_right]

/-- the image of a combination -/
theorem Arn.image_sum (d : Arn L sym b h n) {m : ℕ} (hm : m < n) (z : ℕ → ℝ) :
    L (∑ t ∈ range (m + 1), z t • b t) = ∑ i ∈ range (m + 2), (∑ t ∈ range (m + 1), h i t * z t) • b i := by
  simp only [map_sum, map_smul, sum_smul]
  rw [sum_comm]
  refine sum_congr rfl fun t ht => ?_
  have ht := mem_range.1 ht
  rw [d.image (by omega), smul_sum]
  rw [← sum_subset (range_subset_range.2 (by omega : t + 2 ≤ m + 2)) fun i _ hi => by
    rw [mem_range, not_lt] at hi
    rw [d.zero i t (by omega), zero_mul, zero_smul]]
  exact sum_congr rfl fun i _ => by rw [smul_smul, mul_comm]

/-- the reduced matrix of an injective operator has full column rank -/
theorem Arn.full (d : Arn L sym b h n) (hinj : Function.Injective L)
    (hsym : sym = true → ∀ u v : V, inner ℝ (L u) v = inner ℝ u (L v)) {m : ℕ} (hm : m < n)
    (h0 : ∀ k < m, h (k + 1) k ≠ 0) {z : ℕ → ℝ} (hz : ∀ i < m + 2, ∑ t ∈ range (m + 1), h i t * z t = 0) :
    ∀ t ≤ m, z t = 0 := by
  have ho := d.orthonormal hsym m (by omega) h0
  refine coeff_zero ho (hinj ?_)
  rw [d.image_sum hm, map_zero]
  exact sum_eq_zero fun i hi => by rw [hz i (mem_range.1 hi), zero_smul]

/-- at a breakdown the reduced system is solvable -/
theorem Arn.breakdown (d : Arn L sym b h n) (hinj : Function.Injective L)
    (hsym : sym = true → ∀ u v : V, inner ℝ (L u) v = inner ℝ u (L v)) {m : ℕ} (hm : m < n)
    (h0 : ∀ k < m, h (k + 1) k ≠ 0) (hb : h (m + 1) m = 0) (beta : ℝ) : ∃ z, lsq h beta (m + 1) z = 0 := by
  have hrow : ∀ t < m + 1, h (m + 1) t = 0 := by
    intro t ht
    by_cases htm : t = m
    · rw [htm]; exact hb
    · exact d.zero _ _ (by omega)
  let ex : (Fin (m + 1) → ℝ) → ℕ → ℝ := fun z t => if ht : t < m + 1 then z ⟨t, ht⟩ else 0
  have hex : ∀ (z : Fin (m + 1) → ℝ) (c : ℕ → ℝ), ∑ t ∈ range (m + 1), c t * ex z t = ∑ t : Fin (m + 1), c t.1 * z t := by
    intro z c
    rw [Finset.sum_range]
    refine sum_congr rfl fun t _ => ?_
    show _ * (if ht : t.1 < m + 1 then z ⟨t.1, ht⟩ else 0) = _
    rw [dif_pos t.2]
  let T : (Fin (m + 1) → ℝ) →ₗ[ℝ] (Fin (m + 1) → ℝ) :=
    { toFun := fun z i => ∑ t : Fin (m + 1), h i.1 t.1 * z t
      map_add' := by
        intro x y; funext i
        simp only [Pi.add_apply, mul_add, sum_add_distrib]
      map_smul' := by
        intro c x; funext i
        simp only [Pi.smul_apply, smul_eq_mul, RingHom.id_apply, mul_sum]
        exact sum_congr rfl fun t _ => by ring }
  have hT : Function.Injective T := by
    rw [injective_iff_map_eq_zero]
    intro z hz
    have := d.full hinj hsym hm h0 (z := ex z) (by
      intro i hi
      rw [hex]
      by_cases him : i < m + 1
      · exact congrFun hz ⟨i, him⟩
      · obtain rfl : i = m + 1 := by omega
        exact sum_eq_zero fun t _ => by rw [hrow t.1 t.2, zero_mul])
    funext t
    have := this t.1 (by omega)
    simp only [ex, dif_pos t.2] at this
    exact this
  obtain ⟨z, hz⟩ := LinearMap.injective_iff_surjective.1 hT fun i => if i.1 = 0 then beta else 0
  refine ⟨ex z, ?_⟩
  unfold lsq
  refine sum_eq_zero fun i hi => ?_
  have hi := mem_range.1 hi
  rw [hex]
  by_cases him : i < m + 1
  · have : ∑ t : Fin (m + 1), h i t.1 * z t = if i = 0 then beta else 0 := congrFun hz ⟨i, him⟩
    rw [this, sub_self]
    norm_num
  · obtain rfl : i = m + 1 := by omega
    rw [if_neg (by omega), sum_eq_zero fun t _ => by rw [hrow t.1 t.2, zero_mul]]
    norm_num

theorem card_le [FiniteDimensional ℝ V] {m : ℕ}
    (ho : ∀ i ≤ m, ∀ j ≤ m, inner ℝ (b i) (b j) = if i = j then (1 : ℝ) else 0) : m + 1 ≤ Module.finrank ℝ V := by
  have hli : LinearIndependent ℝ fun i : Fin (m + 1) => b i.1 := by
    rw [Fintype.linearIndependent_iff]
    intro g hg i
    have := coeff_zero (b := b) (m := m) ho (z := fun t => if ht : t < m + 1 then g ⟨t, ht⟩ else 0) (by
      rw [Finset.sum_range, ← hg]
      refine sum_congr rfl fun t _ => ?_
      rw [dif_pos t.2]) i.1 (by omega)
    rw [dif_pos i.2] at this
    exact this
  have := hli.fintype_card_le_finrank
  rwa [Fintype.card_fin] at this

end Arn

/-! ### Steps -/

/-- the same run with a least squares routine that always reports a residual -/
def _root_.TTS.GmresCfg.free (c : GmresCfg) : GmresCfg := { c with la := { c.la with lstsq := fun _ _ => ([], [0]) } }

/-- the reduced matrix of iteration `j` -/
def redH (H : ND ℝ) (j : ℕ) : ND ℝ := (H.rows 0 (j + 2)).cols 0 (j + 1)

theorem step_free {c : GmresCfg} {N : ℕ} {s rk : List ℕ} {L : E s →ₗ[ℝ] E s} (hc : CfgOk c s rk L) {j : ℕ}
    {st : GmresSt} (h : Ana c N s rk L j st) (hj : j < N) (hf : st.finite) (hr : st.res ≠ 0) :
    ∃ st1 b, gmresStep c.free j st = .ok (st1, b) ∧ Ana c.free N s rk L (j + 1) st1 ∧
      (∀ y res, c.la.lstsq (redH st1.H j) (c.beta :: List.replicate (j + 1) 0) = (y, [res]) →
        ∃ st2 b2, gmresStep c j st = .ok (st2, b2) ∧ st2.H = st1.H ∧ st2.nu = st1.nu ∧ st2.calls = st1.calls ∧
          (st2.finite ↔ st1.finite) ∧ st2.res = res ∧ (b2 = true ↔ Stop c res)) ∧
      ((∀ y res, c.la.lstsq (redH st1.H j) (c.beta :: List.replicate (j + 1) 0) ≠ (y, [res])) →
        gmresStep c j st = .error .valueError) := by
  have hcf : CfgOk c.free s rk L := ⟨hc.qr, hc.ap, hc.rnd⟩
  have hA : Ana c.free N s rk L j st := ⟨h.nu, h.iters, h.good, h.fin, h.beta, h.sub, h.shape, h.zero, h.ranks, h.calls,
    h.call, h.it⟩
  have hlast : st.nu.getLastD ⟨[]⟩ = st.nu.getD j ⟨[]⟩ := by
    have hne : st.nu ≠ [] := by intro h0; have := h.nu; rw [h0] at this; simp at this
    rw [List.getLastD_eq_getLast?, List.getLast?_eq_getElem?, List.getD_eq_getElem?_getD]
    have := h.nu
    congr 2
    omega
  have gd : ∀ k ≤ j, Good s (st.nu.getD k ⟨[]⟩) := by
    intro k hk
    have := h.nu
    rw [List.getD_eq_getElem _ _ (by omega)]
    exact h.good _ (List.getElem_mem _)
  have hm := minJ_le c.symmetric j
  obtain ⟨ys, a1, a2, -⟩ := hc.ap _ (gd j le_rfl)
  rw [← hlast] at a1
  obtain ⟨w, b1, b2, -⟩ := hc.rnd (2 * j + 1) ys (some (c.tol / (st.res / c.beta))) a2
  have hll : ((st.nu.take (j + 1)).drop (minJ c.symmetric j)).length = j + 1 - minJ c.symmetric j := by
    rw [List.length_drop, List.length_take, h.nu]; omega
  obtain ⟨g1, -⟩ := tvs_gs (s := s) (hColumn st.H w st.nu (minJ c.symmetric j) j) j
    ((st.nu.take (j + 1)).drop (minJ c.symmetric j)) (minJ c.symmetric j) (by
    intro u hu
    exact h.good u (List.mem_of_mem_take (List.mem_of_mem_drop hu)))
  rw [hll] at g1
  obtain ⟨w', c1, c2, -⟩ := hc.rnd (2 * j + 2) (gramSchmidt (hColumn st.H w st.nu (minJ c.symmetric j) j) w st.nu
    (minJ c.symmetric j) j) (some (c.tol / (st.res / c.beta))) (ttList_cons b2 g1)
  have e4 := good_norm hc.qr c2
  have h0 : ¬ (¬ st.finite ∨ st.res = 0) := by push Not; exact ⟨hf, hr⟩
  have hstep : ∀ la' : ND ℝ → List ℝ → List ℝ × List ℝ,
      gmresStep { c with la := { c.la with lstsq := la' } } j st = match (la' (redH (newH c j st w ‖tv s w'‖) j)
        (c.beta :: List.replicate (j + 1) 0)).2 with
      | [res] => .ok
        ({ nu := st.nu ++ [w'.mul (1 / ‖tv s w'‖)]
           finite := ‖tv s w'‖ ≠ 0
           H := newH c j st w ‖tv s w'‖
           res := res
           y := some (la' (redH (newH c j st w ‖tv s w'‖) j) (c.beta :: List.replicate (j + 1) 0)).1
           iters := j + 1
           hist := { st.hist with
             stepTime := st.hist.stepTime ++ [c.clock (3 * j + 3) - c.clock (3 * j + 2)]
             stepTimeRes := st.hist.stepTimeRes ++ [c.clock (3 * j + 4) - c.clock (3 * j + 2)]
             residualNorm := st.hist.residualNorm ++ [(PyFloat.val (√ res)).div c.bNorm]
             rank := st.hist.rank ++ [w'.rank]
             wNorm := st.hist.wNorm ++ [‖tv s w'‖]
             delta := st.hist.delta ++ [c.tol / (st.res / c.beta)] }
           calls := st.calls ++ [⟨ys, some (c.tol / (st.res / c.beta)), w⟩,
             ⟨gramSchmidt (hColumn st.H w st.nu (minJ c.symmetric j) j) w st.nu (minJ c.symmetric j) j,
               some (c.tol / (st.res / c.beta)), w'⟩] },
         @decide (((PyFloat.val res).div c.bNorm).lt c.tol) (Classical.propDecidable _))
      | _ => .error .valueError := by
    intro la'
    unfold gmresStep
    rw [if_neg h0]
    dsimp only
    rw [a1]
    show (c.rnd _ _ _).andThen _ = _
    rw [b1]
    show (c.rnd _ _ _).andThen _ = _
    rw [c1]
    show (w'.norm c.la.toLinAlg).andThen _ = _
    rw [e4]
    rfl
  have hs0 := hstep fun _ _ => ([], [0])
  dsimp only at hs0
  refine ⟨_, _, hs0, hA.step hcf hj hs0, ?_, ?_⟩
  · intro y res he
    have hs := hstep c.la.lstsq
    have he : c.la.lstsq (redH (newH c j st w ‖tv s w'‖) j) (c.beta :: List.replicate (j + 1) 0) = (y, [res]) := he
    rw [he] at hs
    exact ⟨_, _, hs, rfl, rfl, rfl, Iff.rfl, rfl, @decide_eq_true_iff _ (Classical.propDecidable _)⟩
  · intro he
    have hs := hstep c.la.lstsq
    have he : ∀ y res, c.la.lstsq (redH (newH c j st w ‖tv s w'‖) j) (c.beta :: List.replicate (j + 1) 0) ≠ (y, [res]) := he
    generalize c.la.lstsq (redH (newH c j st w ‖tv s w'‖) j) (c.beta :: List.replicate (j + 1) 0) = q at he hs
    obtain ⟨y, rs⟩ := q
    match rs, he, hs with
    | [], _, hs => exact hs
    | [res], he, _ => exact absurd rfl (he y res)
    | _ :: _ :: _, _, hs => exact hs

theorem Ana.of_free {c : GmresCfg} {N : ℕ} {s rk : List ℕ} {L : E s →ₗ[ℝ] E s} {j : ℕ} {st : GmresSt}
    (h : Ana c.free N s rk L j st) : Ana c N s rk L j st :=
  ⟨h.nu, h.iters, h.good, h.fin, h.beta, h.sub, h.shape, h.zero, h.ranks, h.calls, h.call, h.it⟩

/-- the errors of a step -/
theorem step_cases {c : GmresCfg} {N : ℕ} {s rk : List ℕ} {L : E s →ₗ[ℝ] E s} (hc : CfgOk c s rk L) {j : ℕ}
    {st : GmresSt} (h : Ana c N s rk L j st) (hj : j < N) :
    (∃ p, gmresStep c j st = .ok p) ∨ gmresStep c j st = .error .nonFinite ∨ gmresStep c j st = .error .valueError := by
  by_cases h0 : ¬ st.finite ∨ st.res = 0
  · right; left
    unfold gmresStep
    rw [if_pos h0]
  · push Not at h0
    obtain ⟨st1, b, -, -, h2, h3⟩ := step_free hc h hj h0.1 h0.2
    by_cases he : ∃ y res, c.la.lstsq (redH st1.H j) (c.beta :: List.replicate (j + 1) 0) = (y, [res])
    · obtain ⟨y, res, he⟩ := he
      obtain ⟨st2, b2, q, -⟩ := h2 y res he
      exact Or.inl ⟨_, q⟩
    · push Not at he
      exact Or.inr (Or.inr (h3 he))

theorem loop_cases {c : GmresCfg} {N : ℕ} {s rk : List ℕ} {L : E s →ₗ[ℝ] E s} (hc : CfgOk c s rk L) : ∀ (fuel j : ℕ)
    {st : GmresSt}, j + fuel = N → Ana c N s rk L j st →
    (∃ p, gmresLoop c fuel j st = .ok p) ∨ gmresLoop c fuel j st = .error .nonFinite ∨
      gmresLoop c fuel j st = .error .valueError
  | 0, _, st, _, _ => Or.inl ⟨st, rfl⟩
  | fuel + 1, j, st, hj, h => by
    rcases step_cases hc h (by omega : j < N) with ⟨p, hp⟩ | hp | hp
    · rw [gmresLoop, hp]
      show (∃ q, (if p.2 = true then .ok p.1 else gmresLoop c fuel (j + 1) p.1) = _) ∨
        (if p.2 = true then .ok p.1 else gmresLoop c fuel (j + 1) p.1) = _ ∨
        (if p.2 = true then .ok p.1 else gmresLoop c fuel (j + 1) p.1) = _
      by_cases hb : p.2 = true
      · rw [if_pos hb]; exact Or.inl ⟨p.1, rfl⟩
      · rw [if_neg hb]
        exact loop_cases hc fuel (j + 1) (by omega) (h.step hc (by omega) (b := p.2) hp)
    · rw [gmresLoop, hp]; exact Or.inr (Or.inl rfl)
    · rw [gmresLoop, hp]; exact Or.inr (Or.inr rfl)

/-! ### Progress with exact roundings -/

/-- a state reached with exact roundings, from which the loop can go on -/
structure Prog (c : GmresCfg) (N : ℕ) (s rk : List ℕ) (L : E s →ₗ[ℝ] E s) (j : ℕ) (st : GmresSt) : Prop where
  ana : Ana c N s rk L j st
  exact : ∀ cl ∈ st.calls, cerr s cl = 0
  one : ‖bv s st.nu 0‖ = 1

theorem Ana.arn {c : GmresCfg} {N : ℕ} {s rk : List ℕ} {L : E s →ₗ[ℝ] E s} {j : ℕ} {st : GmresSt}
    (h : Ana c N s rk L j st) (he : ∀ cl ∈ st.calls, cerr s cl = 0) (h1 : ‖bv s st.nu 0‖ = 1) :
    Arn L c.symmetric (bv s st.nu) (fun i t => st.H.get [i, t]) j := by
  have hcall : ∀ q < 2 * j + 1, cerr s (st.calls.getD q noCall) = 0 := by
    intro q hq
    have := h.calls
    rw [List.getD_eq_getElem _ _ (by omega)]
    exact he _ (List.getElem_mem _)
  have r1 : ∀ k < j, tv s (st.calls.getD (2 * k + 1) noCall).result = L (bv s st.nu k) := by
    intro k hk
    have := hcall (2 * k + 1) (by omega)
    rw [cerr, sub_eq_zero] at this
    rw [this, (h.it k hk).sum1]
  refine ⟨h1, fun k hk => ?_, fun k hk => ?_, fun k hk => (h.it k hk).low, fun k hk i hi1 hi2 => ?_,
    fun i t hit => h.zero i t (Or.inl hit)⟩
  · have := hcall (2 * k + 2) (by omega)
    rw [cerr, sub_eq_zero] at this
    show st.H.get [k + 1, k] • _ = _
    rw [← (h.it k hk).next, this, (h.it k hk).sum2, r1 k hk]
  · show st.H.get [k + 1, k] = ‖st.H.get [k + 1, k] • _‖
    rw [← (h.it k hk).next]
    exact (h.it k hk).norm
  · show st.H.get [i, k] = _
    rw [(h.it k hk).coef i hi1 hi2, r1 k hk]

theorem redH_full {H : ND ℝ} {N j : ℕ} (hH : H.shape = [N + 1, N]) (hj : j < N)
    (h : ∀ z : ℕ → ℝ, (∀ i < j + 2, ∑ t ∈ range (j + 1), H.get [i, t] * z t = 0) → ∀ t ≤ j, z t = 0) :
    FullColumnRank (redH H j) (j + 2) (j + 1) := by
  intro z hz t ht
  refine h z (fun i hi => ?_) t (by omega)
  rw [← hz i hi]
  refine sum_congr rfl fun t ht => ?_
  have ht := mem_range.1 ht
  rw [redH, ND.cols_get (ND.rows_shape hH 0 (j + 2)) 0 (j + 1) i t (by omega),
    ND.rows_get hH 0 (j + 2) i (0 + t) (by omega), zero_add, zero_add]

theorem step_nu {c : GmresCfg} {j : ℕ} {st st' : GmresSt} {b : Bool} (hs : gmresStep c j st = .ok (st', b)) :
    ∃ v, st'.nu = st.nu ++ [v] := by
  obtain ⟨-, -, wSum, w, w', hh, res, y, -, -, -, -, -, -, rfl⟩ := step_inv hs
  exact ⟨_, rfl⟩

theorem step_exact {c : GmresCfg} {s : List ℕ}
    (hex : ∀ k ts eps Y, TTList ts s → c.rnd k ts eps = .ok Y → tv s Y = tvs s ts) {j : ℕ} {st st' : GmresSt} {b : Bool}
    (hs : gmresStep c j st = .ok (st', b)) (h : ∀ cl ∈ st.calls, cerr s cl = 0)
    (hT : ∀ cl ∈ st'.calls, TTList cl.summands s) : ∀ cl ∈ st'.calls, cerr s cl = 0 := by
  obtain ⟨-, -, wSum, w, w', hh, res, y, e1, e2, e3, -, -, -, rfl⟩ := step_inv hs
  intro cl hcl
  have hT := hT cl hcl
  have hcl' : cl ∈ st.calls ++ [_, _] := hcl
  rcases List.mem_append.1 hcl' with hm | hm
  · exact h cl hm
  · simp only [List.mem_cons, List.not_mem_nil, or_false] at hm
    rcases hm with rfl | rfl
    · rw [cerr, hex _ _ _ _ hT e2, sub_self]
    · rw [cerr, hex _ _ _ _ hT e3, sub_self]

theorem step_prog {c : GmresCfg} {N : ℕ} {s rk : List ℕ} {L : E s →ₗ[ℝ] E s} (hc : CfgOk c s rk L) (hl : c.la.LstsqOk)
    (hex : ∀ k ts eps Y, TTList ts s → c.rnd k ts eps = .ok Y → tv s Y = tvs s ts) (hinj : Function.Injective L)
    (hsym : c.symmetric = true → ∀ u v : E s, inner ℝ (L u) v = inner ℝ u (L v)) (hb : 0 < c.bNorm) (ht : 0 < c.tol)
    {j : ℕ} {st : GmresSt} (h : Prog c N s rk L j st) (hj : j < N) (hf : st.finite) (hr : st.res ≠ 0) :
    ∃ st' b, gmresStep c j st = .ok (st', b) ∧ Prog c N s rk L (j + 1) st' ∧ (b = true → Stop c st'.res) ∧
      (b = true ∨ st'.finite ∧ st'.res ≠ 0) := by
  obtain ⟨st1, b, f1, f2, f3, -⟩ := step_free hc h.ana hj hf hr
  -- the new state has the Arnoldi relations
  have hexact : ∀ cl ∈ st1.calls, cerr s cl = 0 :=
    step_exact (c := c.free) hex f1 h.exact fun cl hcl => (f2.call cl hcl).1
  have hone : ‖bv s st1.nu 0‖ = 1 := by
    obtain ⟨v, hv⟩ := step_nu f1
    rw [bv, hv, List.getD_append _ _ _ _ (by rw [h.ana.nu]; omega)]
    exact h.one
  have ar := f2.arn hexact hone
  have hsub : ∀ k < j, st1.H.get [k + 1, k] ≠ 0 := fun k hk => f2.sub k (by omega)
  have hfull : FullColumnRank (redH st1.H j) (j + 2) (j + 1) :=
    redH_full f2.shape hj fun z hz => ar.full hinj hsym (by omega) hsub hz
  obtain ⟨-, -, l3, -⟩ := hl (redH st1.H j) (c.beta :: List.replicate (j + 1) 0) (j + 2) (j + 1)
    (red_shape f2.shape (by omega : j + 1 ≤ N)) (by simp) (by omega)
  have l3 := l3 hfull
  generalize hrr : residSq (redH st1.H j) (c.beta :: List.replicate (j + 1) 0) (j + 2) (j + 1) _ = rr at l3
  have he : c.la.lstsq (redH st1.H j) (c.beta :: List.replicate (j + 1) 0)
      = ((c.la.lstsq (redH st1.H j) (c.beta :: List.replicate (j + 1) 0)).1, [rr]) := Prod.ext rfl l3
  obtain ⟨st2, b2, g1, g2, g3, g4, g5, g6, g7⟩ := f3 _ _ he
  obtain ⟨q1, q2, q3, -⟩ := lstsq_lsq hl f2.shape (by omega : j + 1 ≤ N) he
  have hzero : rr = 0 → b2 = true := by
    intro h0
    rw [g7, Stop, h0]
    show (if c.bNorm = 0 then _ else PyFloat.val (0 / c.bNorm)).lt c.tol
    rw [if_neg hb.ne', zero_div]
    exact ht
  refine ⟨st2, b2, g1, ⟨(h.ana.step hc hj g1), by rw [g4]; exact hexact, by rw [g3]; exact hone⟩, ?_, ?_⟩
  · intro h0; rw [g6]; exact g7.1 h0
  · by_cases hb2 : b2 = true
    · exact Or.inl hb2
    · refine Or.inr ⟨?_, by rw [g6]; exact fun h0 => hb2 (hzero h0)⟩
      rw [g5, f2.fin, if_neg (by omega), Nat.add_sub_cancel]
      intro h0
      refine hb2 (hzero ?_)
      obtain ⟨z, hz⟩ := ar.breakdown hinj hsym (by omega : j < j + 1) hsub h0 c.beta
      refine le_antisymm ((q3 z).trans (le_of_eq hz)) ?_
      rw [q2]
      exact lsq_nonneg _ _ _ _

theorem loop_prog {c : GmresCfg} {N : ℕ} {s rk : List ℕ} {L : E s →ₗ[ℝ] E s} (hc : CfgOk c s rk L) (hl : c.la.LstsqOk)
    (hex : ∀ k ts eps Y, TTList ts s → c.rnd k ts eps = .ok Y → tv s Y = tvs s ts) (hinj : Function.Injective L)
    (hsym : c.symmetric = true → ∀ u v : E s, inner ℝ (L u) v = inner ℝ u (L v)) (hb : 0 < c.bNorm) (ht : 0 < c.tol) :
    ∀ (fuel j : ℕ) {st : GmresSt}, j + fuel = N → Prog c N s rk L j st → st.finite → st.res ≠ 0 →
    ∃ out n, gmresLoop c fuel j st = .ok out ∧ Prog c N s rk L n out ∧
      (Module.finrank ℝ (E s) ≤ N → Stop c out.res) ∧ (n ≤ Module.finrank ℝ (E s)) := by
  have hcard : ∀ j st, Prog c N s rk L j st → st.finite → j + 1 ≤ Module.finrank ℝ (E s) := by
    intro j st h hf
    refine card_le ((h.ana.arn h.exact h.one).orthonormal hsym j le_rfl fun k hk => ?_)
    by_cases hk' : k + 1 < j
    · exact h.ana.sub k hk'
    · obtain rfl : j = k + 1 := by omega
      have := h.ana.fin.1 hf
      rw [if_neg (by omega), Nat.add_sub_cancel] at this
      exact this
  intro fuel
  induction fuel with
  | zero =>
    intro j st hj h hf hr
    have := hcard j st h hf
    exact ⟨st, j, rfl, h, fun hN => by omega, by omega⟩
  | succ fuel ih =>
    intro j st hj h hf hr
    have hcj := hcard j st h hf
    obtain ⟨st', b, s1, s2, s3, s4⟩ := step_prog hc hl hex hinj hsym hb ht h (by omega) hf hr
    rw [gmresLoop, s1]
    show ∃ out n, (if b = true then .ok st' else gmresLoop c fuel (j + 1) st') = _ ∧ _
    by_cases hbt : b = true
    · rw [if_pos hbt]
      exact ⟨st', j + 1, rfl, s2, fun _ => s3 hbt, hcj⟩
    · rw [if_neg hbt]
      have s4 := s4.resolve_left hbt
      exact ih (j + 1) (by omega) s2 s4.1 s4.2

end TTS.Props
