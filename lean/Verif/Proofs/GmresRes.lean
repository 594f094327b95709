import Mathlib.Algebra.Order.Chebyshev
import Verif.Proofs.GmresAna

/-!
# Residuals of a GMRES run
-/

namespace TTS.Props

open Finset Spec

variable {a : GmresArgs} {A P : E a.b.shape →ₗ[ℝ] E a.b.shape} {out : GmresOut} {x0 r0 : TT ℝ}
  {nu : List (TT ℝ)} {R : ℕ → ℝ} {n : ℕ} {c0 cl : RoundCall} {cs : List RoundCall}

/-- rounding error of a call, as a vector -/
noncomputable def cerr (s : List ℕ) (c : RoundCall) : E s := tv s c.result - tvs s c.summands

theorem cerr_eq {s : List ℕ} {c : RoundCall} (h : TTList c.summands s) : vec s c.err = cerr s c := by
  rw [cerr, ← tvs_eq h, tv, ← map_sub]
  rfl

/-- entry `i` of the residual of the reduced system -/
def cf (h : ℕ → ℕ → ℝ) (beta : ℝ) (n : ℕ) (z : ℕ → ℝ) (i : ℕ) : ℝ :=
  (if i = 0 then beta else 0) - ∑ t ∈ range n, h i t * z t

theorem lsq_cf (h : ℕ → ℕ → ℝ) (beta : ℝ) (n : ℕ) (z : ℕ → ℝ) : lsq h beta n z = ∑ i ∈ range (n + 1), cf h beta n z i ^ 2 := rfl

namespace Done

theorem arnoldi (d : Done a A P out x0 r0 nu R n c0 cl cs) {k : ℕ} (hk : k < n) :
    P (A (bv a.b.shape nu k)) = ∑ i ∈ range (n + 1), out.H.get [i, k] • bv a.b.shape nu i
      - (cerr a.b.shape (cs.getD (2 * k) noCall) + cerr a.b.shape (cs.getD (2 * k + 1) noCall)) := by
  have it := d.it k hk
  have h1 : tvs a.b.shape (cs.getD (2 * k) noCall).summands = P (A (bv a.b.shape nu k)) := it.sum1
  have e : ∑ i ∈ range (n + 1), out.H.get [i, k] • bv a.b.shape nu i
      = ∑ i ∈ range (k + 1), out.H.get [i, k] • bv a.b.shape nu i + out.H.get [k + 1, k] • bv a.b.shape nu (k + 1) := by
    rw [← sum_range_succ]
    symm
    refine sum_subset (range_subset_range.2 (by omega)) fun i _ hi => ?_
    rw [mem_range, not_lt] at hi
    rw [d.zero i k (Or.inl (by omega)), zero_smul]
  rw [e, ← it.next, cerr, cerr, it.sum2, h1]
  abel

/-- the residual of any combination of the basis -/
theorem identity (d : Done a A P out x0 r0 nu R n c0 cl cs) (z : ℕ → ℝ) :
    P (tv a.b.shape a.b) - P (A (tv a.b.shape x0 + ∑ k ∈ range n, z k • bv a.b.shape nu k))
      = ∑ i ∈ range (n + 1), cf (fun i t => out.H.get [i, t]) out.beta n z i • bv a.b.shape nu i
        - cerr a.b.shape c0 + ∑ k ∈ range n, z k • (cerr a.b.shape (cs.getD (2 * k) noCall)
          + cerr a.b.shape (cs.getD (2 * k + 1) noCall)) := by
  have h0 : P (tv a.b.shape a.b) - P (A (tv a.b.shape x0)) = out.beta • bv a.b.shape nu 0 - cerr a.b.shape c0 := by
    rw [cerr, d.c0r, ← d.scale, d.c0s]; abel
  have h1 : P (A (∑ k ∈ range n, z k • bv a.b.shape nu k))
      = ∑ i ∈ range (n + 1), (∑ t ∈ range n, out.H.get [i, t] * z t) • bv a.b.shape nu i
        - ∑ k ∈ range n, z k • (cerr a.b.shape (cs.getD (2 * k) noCall) + cerr a.b.shape (cs.getD (2 * k + 1) noCall)) := by
    rw [map_sum, map_sum]
    have : ∀ k ∈ range n, P (A (z k • bv a.b.shape nu k))
        = ∑ i ∈ range (n + 1), (out.H.get [i, k] * z k) • bv a.b.shape nu i
          - z k • (cerr a.b.shape (cs.getD (2 * k) noCall) + cerr a.b.shape (cs.getD (2 * k + 1) noCall)) := by
      intro k hk
      rw [map_smul, map_smul, d.arnoldi (mem_range.1 hk), smul_sub, smul_sum]
      congr 1
      exact sum_congr rfl fun i _ => by rw [smul_smul, mul_comm]
    rw [sum_congr rfl this, sum_sub_distrib, sum_comm]
    congr 1
    exact sum_congr rfl fun i _ => (sum_smul).symm
  rw [map_add, map_add, ← sub_sub, h0, h1]
  have h2 : ∑ i ∈ range (n + 1), cf (fun i t => out.H.get [i, t]) out.beta n z i • bv a.b.shape nu i
      = out.beta • bv a.b.shape nu 0 - ∑ i ∈ range (n + 1), (∑ t ∈ range n, out.H.get [i, t] * z t) • bv a.b.shape nu i := by
    simp only [cf, sub_smul, sum_sub_distrib]
    congr 1
    rw [sum_eq_single 0 (fun i _ hi => by rw [if_neg hi, zero_smul]) fun h => absurd (mem_range.2 (by omega)) h, if_pos rfl]
  rw [h2]
  abel

theorem xvec (d : Done a A P out x0 r0 nu R n c0 cl cs) :
    tv a.b.shape out.x = tv a.b.shape x0 + ∑ k ∈ range n, out.y.getD k 0 • bv a.b.shape nu k + cerr a.b.shape cl := by
  rw [cerr, d.clr, d.cls]; abel

theorem norm_one (d : Done a A P out x0 r0 nu R n c0 cl cs) {k : ℕ} (hk : k < n ∨ k = n ∧ out.H.get [n, n - 1] ≠ 0) :
    ‖bv a.b.shape nu k‖ = 1 := by
  cases k with
  | zero =>
    have h := congrArg norm d.scale
    rw [norm_smul, ← d.beta, Real.norm_eq_abs, abs_of_nonneg (by rw [d.beta]; exact norm_nonneg _)] at h
    exact (mul_left_cancel₀ d.beta0 ((mul_one _).trans h)).symm
  | succ k =>
    have it := d.it k (by omega)
    have h := congrArg norm it.next
    rw [norm_smul, ← it.norm, Real.norm_eq_abs, abs_of_nonneg (by rw [it.norm]; exact norm_nonneg _)] at h
    have h0 : out.H.get [k + 1, k] ≠ 0 := by
      rcases hk with hk | ⟨rfl, hk⟩
      · exact d.sub k hk
      · exact hk
    exact (mul_left_cancel₀ h0 ((mul_one _).trans h)).symm

theorem cf_last (d : Done a A P out x0 r0 nu R n c0 cl cs) (h : out.H.get [n, n - 1] = 0) (z : ℕ → ℝ) :
    cf (fun i t => out.H.get [i, t]) out.beta n z n = 0 := by
  have := d.n0
  rw [cf, if_neg (by omega), zero_sub, neg_eq_zero]
  refine sum_eq_zero fun t ht => ?_
  have ht := mem_range.1 ht
  by_cases h' : t = n - 1
  · subst h'
    show out.H.get [n, n - 1] * _ = 0
    rw [h, zero_mul]
  · show out.H.get [n, t] * _ = 0
    rw [d.zero n t (Or.inl (by omega)), zero_mul]

theorem term_le (d : Done a A P out x0 r0 nu R n c0 cl cs) (z : ℕ → ℝ) {i : ℕ} (hi : i ≤ n) :
    ‖cf (fun i t => out.H.get [i, t]) out.beta n z i • bv a.b.shape nu i‖
      ≤ |cf (fun i t => out.H.get [i, t]) out.beta n z i| := by
  rw [norm_smul, Real.norm_eq_abs]
  by_cases h : i < n ∨ i = n ∧ out.H.get [n, n - 1] ≠ 0
  · rw [d.norm_one h, mul_one]
  · push Not at h
    obtain rfl : i = n := by omega
    rw [d.cf_last (h.2 rfl) z, abs_zero, zero_mul]

/-- the residual in terms of the reported one and the rounding errors -/
theorem bound (d : Done a A P out x0 r0 nu R n c0 cl cs) :
    ‖P (tv a.b.shape a.b) - P (A (tv a.b.shape out.x))‖ ≤ √ ((n + 1 : ℕ) : ℝ) * √ (R n) + ‖cerr a.b.shape c0‖
      + ∑ k ∈ range n, |out.y.getD k 0| * (‖cerr a.b.shape (cs.getD (2 * k) noCall)‖
          + ‖cerr a.b.shape (cs.getD (2 * k + 1) noCall)‖) + ‖P (A (cerr a.b.shape cl))‖ := by
  have h := d.identity fun t => out.y.getD t 0
  have e : P (tv a.b.shape a.b) - P (A (tv a.b.shape out.x))
      = P (tv a.b.shape a.b) - P (A (tv a.b.shape x0 + ∑ k ∈ range n, out.y.getD k 0 • bv a.b.shape nu k))
        - P (A (cerr a.b.shape cl)) := by
    rw [d.xvec, map_add, map_add, ← sub_sub]
  rw [e, h]
  refine (norm_sub_le _ _).trans (add_le_add ?_ le_rfl)
  refine (norm_add_le _ _).trans (add_le_add ?_ ?_)
  · refine (norm_sub_le _ _).trans (add_le_add ?_ le_rfl)
    refine (norm_sum_le _ _).trans ?_
    refine (sum_le_sum fun i hi => d.term_le _ (by have := mem_range.1 hi; omega)).trans ?_
    rw [← Real.sqrt_mul (by positivity), d.res, lsq_cf]
    refine Real.le_sqrt_of_sq_le ?_
    have := sq_sum_le_card_mul_sum_sq (s := range (n + 1))
      (f := fun i => |cf (fun i t => out.H.get [i, t]) out.beta n (fun t => out.y.getD t 0) i|)
    simp only [sq_abs, card_range] at this
    exact this
  · refine (norm_sum_le _ _).trans (sum_le_sum fun k _ => ?_)
    rw [norm_smul, Real.norm_eq_abs]
    exact mul_le_mul_of_nonneg_left (norm_add_le _ _) (abs_nonneg _)

/-! ### Exact roundings -/

theorem cerr_zero {s : List ℕ} {c : RoundCall} (h : TTList c.summands s) (he : c.Exact) : cerr s c = 0 := by
  rw [cerr, ← tvs_eq h, tv, he, sub_self]

/-- every rounding but the last one was exact -/
def AllExact (c0 : RoundCall) (cs : List RoundCall) : Prop := c0.Exact ∧ ∀ c ∈ cs, c.Exact

theorem cs_zero (d : Done a A P out x0 r0 nu R n c0 cl cs) (he : AllExact c0 cs) {q : ℕ} (hq : q < 2 * n) :
    cerr a.b.shape (cs.getD q noCall) = 0 := by
  have hl := d.csLen
  rw [List.getD_eq_getElem _ _ (by omega)]
  exact cerr_zero (d.call _ (List.getElem_mem _)).1 (he.2 _ (List.getElem_mem _))

theorem arnoldi_exact (d : Done a A P out x0 r0 nu R n c0 cl cs) (he : AllExact c0 cs) {k : ℕ} (hk : k < n) :
    P (A (bv a.b.shape nu k)) = ∑ i ∈ range (k + 2), out.H.get [i, k] • bv a.b.shape nu i := by
  rw [d.arnoldi hk, d.cs_zero he (by omega), d.cs_zero he (by omega), add_zero, sub_zero]
  symm
  refine sum_subset (range_subset_range.2 (by omega)) fun i _ hi => ?_
  rw [mem_range, not_lt] at hi
  rw [d.zero i k (Or.inl (by omega)), zero_smul]

theorem orthonormal (d : Done a A P out x0 r0 nu R n c0 cl cs) (he : AllExact c0 cs)
    (hsym : a.symmetric = true → ∀ u v : E a.b.shape, inner ℝ (P (A u)) v = inner ℝ u (P (A v))) (m : ℕ)
    (hm : m < n ∨ m = n ∧ out.H.get [n, n - 1] ≠ 0) : ∀ i ≤ m, ∀ j ≤ m,
    inner ℝ (bv a.b.shape nu i) (bv a.b.shape nu j) = if i = j then (1 : ℝ) else 0 := by
  induction m with
  | zero =>
    intro i hi j hj
    obtain rfl : i = 0 := by omega
    obtain rfl : j = 0 := by omega
    rw [if_pos rfl, real_inner_self_eq_norm_sq, d.norm_one hm, one_pow]
  | succ m ih =>
    have ih := ih (Or.inl (by omega))
    have it := d.it m (by omega)
    have h0 : out.H.get [m + 1, m] ≠ 0 := by
      rcases hm with hm | ⟨rfl, hm⟩
      · exact d.sub m hm
      · exact hm
    have c1 : tv a.b.shape (cs.getD (2 * m) noCall).result = P (A (bv a.b.shape nu m)) := by
      have := d.cs_zero he (q := 2 * m) (by omega)
      rw [cerr, sub_eq_zero] at this
      rw [this]
      exact it.sum1
    have c2 : out.H.get [m + 1, m] • bv a.b.shape nu (m + 1)
        = P (A (bv a.b.shape nu m)) - ∑ i ∈ range (m + 1), out.H.get [i, m] • bv a.b.shape nu i := by
      have := d.cs_zero he (q := 2 * m + 1) (by omega)
      rw [cerr, sub_eq_zero] at this
      rw [← it.next, this, it.sum2, c1]
    have key : ∀ i ≤ m, inner ℝ (bv a.b.shape nu (m + 1)) (bv a.b.shape nu i) = (0 : ℝ) := by
      intro i hi
      have h1 : inner ℝ (out.H.get [m + 1, m] • bv a.b.shape nu (m + 1)) (bv a.b.shape nu i) = (0 : ℝ) := by
        rw [c2, inner_sub_left, sum_inner]
        have : ∑ q ∈ range (m + 1), inner ℝ (out.H.get [q, m] • bv a.b.shape nu q) (bv a.b.shape nu i) = out.H.get [i, m] := by
          rw [sum_eq_single i]
          · rw [real_inner_smul_left, ih i hi i hi, if_pos rfl, mul_one]
          · intro q hq hqi
            rw [real_inner_smul_left, ih q (by have := mem_range.1 hq; omega) i hi, if_neg hqi, mul_zero]
          · intro h; exact absurd (mem_range.2 (by omega)) h
        rw [this]
        by_cases hmi : minJ a.symmetric m ≤ i
        · rw [it.coef i hmi hi, c1, sub_self]
        · push Not at hmi
          rw [it.low i hmi, sub_zero]
          have hs : a.symmetric = true := by
            by_contra h
            rw [minJ, if_neg h] at hmi
            omega
          rw [minJ, if_pos hs] at hmi
          rw [hsym hs, d.arnoldi_exact he (k := i) (by omega), inner_sum]
          refine sum_eq_zero fun q hq => ?_
          have hq := mem_range.1 hq
          rw [real_inner_smul_right, ih m le_rfl q (by omega), if_neg (by omega), mul_zero]
      rw [real_inner_smul_left] at h1
      exact (mul_eq_zero.1 h1).resolve_left h0
    intro i hi j hj
    rcases Nat.lt_or_ge m i with h1 | h1
    · obtain rfl : i = m + 1 := by omega
      rcases Nat.lt_or_ge m j with h2 | h2
      · obtain rfl : j = m + 1 := by omega
        rw [if_pos rfl, real_inner_self_eq_norm_sq, d.norm_one hm, one_pow]
      · rw [key j h2, if_neg (by omega)]
    · rcases Nat.lt_or_ge m j with h2 | h2
      · obtain rfl : j = m + 1 := by omega
        rw [real_inner_comm, key i h1, if_neg (by omega)]
      · exact ih i h1 j h2

/-- with exact roundings the residual of a combination of the basis is that of the reduced system -/
theorem resid_exact (d : Done a A P out x0 r0 nu R n c0 cl cs) (he : AllExact c0 cs)
    (hsym : a.symmetric = true → ∀ u v : E a.b.shape, inner ℝ (P (A u)) v = inner ℝ u (P (A v))) (z : ℕ → ℝ) :
    ‖P (tv a.b.shape a.b) - P (A (tv a.b.shape x0 + ∑ k ∈ range n, z k • bv a.b.shape nu k))‖ ^ 2
      = lsq (fun i t => out.H.get [i, t]) out.beta n z := by
  have n0 := d.n0
  rw [d.identity z, cerr_zero d.c0l he.1, sub_zero, sum_eq_zero (s := range n) fun k hk => by
    have hk := mem_range.1 hk
    rw [d.cs_zero he (by omega), d.cs_zero he (by omega), add_zero, smul_zero], add_zero, lsq_cf]
  have gen : ∀ m, (m < n ∨ m = n ∧ out.H.get [n, n - 1] ≠ 0) → ∀ c : ℕ → ℝ,
      ‖∑ i ∈ range (m + 1), c i • bv a.b.shape nu i‖ ^ 2 = ∑ i ∈ range (m + 1), c i ^ 2 := by
    intro m hm c
    have ho := d.orthonormal he hsym m hm
    rw [← real_inner_self_eq_norm_sq, sum_inner]
    refine sum_congr rfl fun i hi => ?_
    have hi' := mem_range.1 hi
    rw [inner_sum, sum_eq_single i]
    · rw [real_inner_smul_left, real_inner_smul_right, ho i (by omega) i (by omega), if_pos rfl]; ring
    · intro q hq hqi
      have hq := mem_range.1 hq
      rw [real_inner_smul_left, real_inner_smul_right, ho i (by omega) q (by omega), if_neg (Ne.symm hqi)]; ring
    · intro h; exact absurd hi h
  by_cases h : out.H.get [n, n - 1] = 0
  · rw [sum_range_succ, d.cf_last h z, zero_smul, add_zero, sum_range_succ _ n, d.cf_last h z]
    have := gen (n - 1) (Or.inl (by omega)) (cf (fun i t => out.H.get [i, t]) out.beta n z)
    rw [show n - 1 + 1 = n by omega] at this
    rw [this]
    ring
  · exact gen n (Or.inr ⟨rfl, h⟩) _

/-- the Krylov space is spanned by the basis -/
theorem krylov (d : Done a A P out x0 r0 nu R n c0 cl cs) (he : AllExact c0 cs) (q : ℕ → E a.b.shape)
    (h0 : q 0 = tv a.b.shape r0) (hs : ∀ k, q (k + 1) = P (A (q k))) : ∀ m < n, ∃ z : ℕ → ℝ,
    q m = ∑ k ∈ range (m + 1), z k • bv a.b.shape nu k := by
  intro m
  induction m with
  | zero =>
    intro _
    refine ⟨fun _ => out.beta, ?_⟩
    rw [h0, d.scale]; simp
  | succ m ih =>
    intro hm
    obtain ⟨z, hz⟩ := ih (by omega)
    have : q (m + 1) = ∑ k ∈ range (m + 1), z k • ∑ i ∈ range (m + 2), out.H.get [i, k] • bv a.b.shape nu i := by
      rw [hs, hz, map_sum, map_sum]
      refine sum_congr rfl fun k hk => ?_
      have hk := mem_range.1 hk
      rw [map_smul, map_smul, d.arnoldi_exact he (by omega)]
      congr 1
      refine sum_subset (range_subset_range.2 (by omega)) fun i _ hi => ?_
      rw [mem_range, not_lt] at hi
      rw [d.zero i k (Or.inl (by omega)), zero_smul]
    refine ⟨fun i => ∑ k ∈ range (m + 1), z k * out.H.get [i, k], ?_⟩
    rw [this]
    simp only [smul_sum, smul_smul, sum_smul]
    rw [sum_comm]

/-- the basis lies in the Krylov space -/
theorem krylov' (d : Done a A P out x0 r0 nu R n c0 cl cs) (he : AllExact c0 cs) (q : ℕ → E a.b.shape)
    (h0 : q 0 = tv a.b.shape r0) (hs : ∀ k, q (k + 1) = P (A (q k))) (m : ℕ) : m < n → ∃ z : ℕ → ℝ,
    bv a.b.shape nu m = ∑ k ∈ range (m + 1), z k • q k := by
  induction m using Nat.strong_induction_on with
  | _ m ih =>
    intro hm
    cases m with
    | zero =>
      refine ⟨fun _ => out.beta⁻¹, ?_⟩
      rw [zero_add, sum_range_one, h0, d.scale, smul_smul, inv_mul_cancel₀ d.beta0, one_smul]
    | succ m =>
      have ex : ∀ i : ℕ, ∃ z : ℕ → ℝ, i ≤ m → bv a.b.shape nu i = ∑ k ∈ range (i + 1), z k • q k := by
        intro i
        by_cases hi : i ≤ m
        · obtain ⟨z, hz⟩ := ih i (by omega) (by omega)
          exact ⟨z, fun _ => hz⟩
        · exact ⟨fun _ => 0, fun h => absurd h hi⟩
      choose z hz using ex
      have hsub := d.sub m hm
      have e := d.arnoldi_exact he (k := m) (by omega)
      rw [sum_range_succ] at e
      have e2 : out.H.get [m + 1, m] • bv a.b.shape nu (m + 1)
          = ∑ k ∈ range (m + 2), ((if k = 0 then 0 else z m (k - 1))
            - ∑ i ∈ range (m + 1), (if k ≤ i then out.H.get [i, m] * z i k else 0)) • q k := by
        have e3 : P (A (bv a.b.shape nu m)) = ∑ k ∈ range (m + 2), (if k = 0 then (0 : ℝ) else z m (k - 1)) • q k := by
          rw [hz m le_rfl, map_sum, map_sum, sum_range_succ' _ (m + 1), if_pos rfl, zero_smul, add_zero]
          refine sum_congr rfl fun k _ => ?_
          rw [map_smul, map_smul, ← hs, if_neg (by omega), Nat.add_sub_cancel]
        have e4 : ∑ i ∈ range (m + 1), out.H.get [i, m] • bv a.b.shape nu i
            = ∑ k ∈ range (m + 2), (∑ i ∈ range (m + 1), (if k ≤ i then out.H.get [i, m] * z i k else 0)) • q k := by
          simp only [sum_smul]
          rw [sum_comm]
          refine sum_congr rfl fun i hi => ?_
          have hi := mem_range.1 hi
          rw [hz i (by omega), smul_sum]
          simp only [smul_smul]
          rw [← sum_subset (range_subset_range.2 (by omega : i + 1 ≤ m + 2)) (fun k _ hk => by
            rw [mem_range, not_lt] at hk
            rw [if_neg (by omega), zero_smul])]
          refine sum_congr rfl fun k hk => ?_
          have hk := mem_range.1 hk
          rw [if_pos (by omega)]
        simp only [sub_smul, sum_sub_distrib]
        rw [← e3, ← e4, e]
        abel
      refine ⟨fun k => (out.H.get [m + 1, m])⁻¹ * ((if k = 0 then 0 else z m (k - 1))
            - ∑ i ∈ range (m + 1), (if k ≤ i then out.H.get [i, m] * z i k else 0)), ?_⟩
      have := congrArg (fun v => (out.H.get [m + 1, m])⁻¹ • v) e2
      simp only [smul_smul, inv_mul_cancel₀ hsub, one_smul, smul_sum] at this
      exact this

end Done
end TTS.Props
