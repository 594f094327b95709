import Verif.Proofs.GmresRes

/-!
# C57, C58: what GMRES computes
-/

namespace TTS.Props

open Finset Spec

variable {env : ℕ → Env ℝ} {la : LinAlg2} {clock : ℕ → ℝ} {a : GmresArgs} {out : GmresOut}

/-- **C58.** The result of a successful run is a well-formed tensor train of the shape of the unknown, its ranks are at
most the trimmed `final_round_rank` (by default `max_rank`), and all ranks in the history are at most the trimmed
`max_rank`. -/
theorem C58 (hla : GmresEnv env la) (ha : a.Ok la) (h : gmres env la clock a = .ok out) :
    out.x.Valid ∧ out.x.shape = a.A.inShape ∧
    RanksLe out.x.rank (trimRanks a.b.shape (askedRanks a.b.shape a.lastRank)) ∧
    ∀ r ∈ out.hist.rank, RanksLe r (trimRanks a.b.shape (askedRanks a.b.shape a.maxRank)) := by
  obtain ⟨A, P, ops⟩ := ops_exist (hla.round 0).qr hla.solve ha
  obtain ⟨x0, r0, nu, R, n, c0, cl, cs, d⟩ := run_done hla ha ops h
  exact ⟨d.xGood.1, d.xGood.2.2.trans ha.inShape.symm, d.xRank, d.ranks⟩

/-- the last reported residual -/
theorem Done.rho {A P : E a.b.shape →ₗ[ℝ] E a.b.shape} {x0 r0 : TT ℝ} {nu : List (TT ℝ)} {R : ℕ → ℝ} {n : ℕ}
    {c0 cl : RoundCall} {cs : List RoundCall} (d : Done a A P out x0 r0 nu R n c0 cl cs) {ρ : ℝ}
    (hρ : out.hist.residualNorm.getLast? = some (.val ρ)) : √ (R n) = ρ * out.bNorm := by
  rw [d.hist, List.range_succ, List.map_append] at hρ
  simp only [List.map_cons, List.map_nil, List.getLast?_append, List.getLast?_singleton, Option.some_or] at hρ
  injection hρ with hρ
  have hρ : (if out.bNorm = 0 then (if √ (R n) = 0 then PyFloat.nan else .inf) else .val (√ (R n) / out.bNorm)) = .val ρ := hρ
  by_cases h0 : out.bNorm = 0
  · rw [if_pos h0] at hρ
    split_ifs at hρ
  · rw [if_neg h0] at hρ
    injection hρ with hρ
    rw [← hρ]
    field_simp

theorem Done.callAt {A P : E a.b.shape →ₗ[ℝ] E a.b.shape} {x0 r0 : TT ℝ} {nu : List (TT ℝ)} {R : ℕ → ℝ} {n : ℕ}
    {c0 cl : RoundCall} {cs : List RoundCall} (d : Done a A P out x0 r0 nu R n c0 cl cs) :
    out.calls.getD 0 noCall = c0 ∧ out.calls.getD (2 * n + 1) noCall = cl ∧
    ∀ q < 2 * n, out.calls.getD (q + 1) noCall = cs.getD q noCall := by
  have hl := d.csLen
  rw [d.calls]
  refine ⟨rfl, ?_, fun q hq => ?_⟩
  · rw [List.getD_append_right _ _ _ _ (by rw [List.length_cons]; omega), List.length_cons, hl]
    simp
  · rw [List.getD_append _ _ _ _ (by rw [List.length_cons]; omega), List.getD_cons_succ]

theorem image_iff {A P : E a.b.shape →ₗ[ℝ] E a.b.shape} (ops : Ops la a A P) (f g : List ℕ → ℝ) :
    a.Image f g ↔ vec a.b.shape g = P (A (vec a.b.shape f)) := by
  constructor
  · rintro ⟨u, h1, h2⟩
    rw [(ops.prec u g).1 h2, (ops.sum f u).1 h1]
  · intro h
    refine ⟨ext a.b.shape (A (vec a.b.shape f)), (ops.sum _ _).2 (vec_ext _ _), (ops.prec _ _).2 ?_⟩
    rw [vec_ext, h]

/-- The operator and the preconditioner are functions: every array has exactly one image (on the valid indices). -/
theorem C57_image (hla : GmresEnv env la) (ha : a.Ok la) (f : List ℕ → ℝ) :
    (∃ g, a.Image f g ∧ ∀ g', a.Image f g' → ∀ i, InR a.b.shape i → g' i = g i) ∧
    ∃ g, PrecMaps a.precond a.b.shape f g ∧ ∀ g', PrecMaps a.precond a.b.shape f g' → ∀ i, InR a.b.shape i → g' i = g i := by
  obtain ⟨A, P, ops⟩ := ops_exist (hla.round 0).qr hla.solve ha
  constructor
  · refine ⟨ext a.b.shape (P (A (vec a.b.shape f))), (image_iff ops _ _).2 (vec_ext _ _), fun g' hg' => ?_⟩
    rw [image_iff ops] at hg'
    exact vec_eq.1 (hg'.trans (vec_ext _ _).symm)
  · refine ⟨ext a.b.shape (P (vec a.b.shape f)), (ops.prec _ _).2 (vec_ext _ _), fun g' hg' => ?_⟩
    rw [ops.prec] at hg'
    exact vec_eq.1 (hg'.trans (vec_ext _ _).symm)

/-- **C57.** For every successful run with `n` iterations, last reported residual `ρ` and result `x`, the residual of the
(preconditioned) system at `x` is at most `√(n+1) ρ ‖b‖` plus the rounding errors made on the way: that of the initial
residual, those of the two roundings of each iteration times the coefficient of that basis vector, and the image of
that of the final rounding. -/
theorem C57 (hla : GmresEnv env la) (ha : a.Ok la) (h : gmres env la clock a = .ok out) {bp g ge : List ℕ → ℝ}
    (hbp : PrecMaps a.precond a.b.shape a.b.toNumpy.get bp) (hg : a.Image out.x.toNumpy.get g) {n : ℕ}
    (hn : out.y.length = n) (hge : a.Image (out.calls.getD (2 * n + 1) noCall).err ge) {ρ : ℝ}
    (hρ : out.hist.residualNorm.getLast? = some (.val ρ)) :
    out.calls.length = 2 * n + 2 ∧ (out.calls.getD (2 * n + 1) noCall).result = out.x ∧
    out.bNorm = fnorm a.b.shape a.b.toNumpy.get ∧
    fnorm a.b.shape (fun i => bp i - g i) ≤ √ ((n + 1 : ℕ) : ℝ) * (ρ * out.bNorm)
      + fnorm a.b.shape (out.calls.getD 0 noCall).err
      + ∑ k ∈ range n, |out.y.getD k 0| * (fnorm a.b.shape (out.calls.getD (2 * k + 1) noCall).err
          + fnorm a.b.shape (out.calls.getD (2 * k + 2) noCall).err)
      + fnorm a.b.shape ge := by
  obtain ⟨A, P, ops⟩ := ops_exist (hla.round 0).qr hla.solve ha
  obtain ⟨x0, r0, nu, R, n', c0, cl, cs, d⟩ := run_done hla ha ops h
  obtain rfl : n' = n := d.yLen.symm.trans hn
  obtain ⟨q0, q1, q2⟩ := d.callAt
  have hcl := d.csLen
  refine ⟨?_, ?_, ?_, ?_⟩
  · rw [d.calls, List.length_append, List.length_cons, List.length_singleton, hcl]
  · rw [q1, d.clr]
  · rw [d.bNorm, fnorm_eq]; rfl
  · have e1 : fnorm a.b.shape (fun i => bp i - g i) = ‖P (tv a.b.shape a.b) - P (A (tv a.b.shape out.x))‖ := by
      rw [fnorm_eq, tv, tv, ← (ops.prec _ _).1 hbp, ← (image_iff ops _ _).1 hg, ← map_sub]
      rfl
    have e2 : fnorm a.b.shape ge = ‖P (A (cerr a.b.shape cl))‖ := by
      rw [q1] at hge
      rw [fnorm_eq, (image_iff ops _ _).1 hge, cerr_eq d.cll]
    rw [e1, e2, q0, fnorm_eq, cerr_eq d.c0l, ← d.rho hρ]
    refine d.bound.trans (le_of_eq ?_)
    congr 2
    refine sum_congr rfl fun k hk => ?_
    have hk := mem_range.1 hk
    have m1 : TTList (cs.getD (2 * k) noCall).summands a.b.shape := by
      rw [List.getD_eq_getElem _ _ (by omega)]; exact (d.call _ (List.getElem_mem _)).1
    have m2 : TTList (cs.getD (2 * k + 1) noCall).summands a.b.shape := by
      rw [List.getD_eq_getElem _ _ (by omega)]; exact (d.call _ (List.getElem_mem _)).1
    rw [q2 (2 * k) (by omega), show 2 * k + 2 = (2 * k + 1) + 1 by ring, q2 (2 * k + 1) (by omega), fnorm_eq, fnorm_eq,
      cerr_eq m1, cerr_eq m2]

theorem selfAdj {A P : E a.b.shape →ₗ[ℝ] E a.b.shape} (ops : Ops la a A P) (h : a.SelfAdjoint) (u v : E a.b.shape) :
    inner ℝ (P (A u)) v = inner ℝ u (P (A v)) := by
  have := h (ext a.b.shape u) (ext a.b.shape (P (A u))) (ext a.b.shape v) (ext a.b.shape (P (A v)))
    ((image_iff ops _ _).2 (by rw [vec_ext, vec_ext])) ((image_iff ops _ _).2 (by rw [vec_ext, vec_ext]))
  rw [← inner_vec, ← inner_vec, vec_ext, vec_ext, vec_ext, vec_ext] at this
  exact this

theorem Done.guessVec {A P : E a.b.shape →ₗ[ℝ] E a.b.shape} {x0 r0 : TT ℝ} {nu : List (TT ℝ)} {R : ℕ → ℝ} {n : ℕ}
    {c0 cl : RoundCall} {cs : List RoundCall} (d : Done a A P out x0 r0 nu R n c0 cl cs) :
    vec a.b.shape a.guess = tv a.b.shape x0 := by
  unfold GmresArgs.guess
  cases hx : a.x0 with
  | none => rw [d.guess0 hx]; exact map_zero _
  | some x => rw [d.guess1 x hx]; rfl

/-- **C57, exact roundings.** If no rounding loses anything, and `symmetric=True` is only used for self-adjoint
operators, then the basis is orthonormal and the last reported residual is the true one: `‖b - A x‖ = ρ ‖b‖` (for the
preconditioned system). -/
theorem C57_exact (hla : GmresEnv env la) (ha : a.Ok la) (h : gmres env la clock a = .ok out)
    (he : ∀ c ∈ out.calls, c.Exact) (hsym : a.symmetric = true → a.SelfAdjoint) :
    (∀ i < out.nu.length, ∀ j < out.nu.length, (out.nu.getD i ⟨[]⟩).dot (out.nu.getD j ⟨[]⟩) = if i = j then 1 else 0) ∧
    ∀ bp g, PrecMaps a.precond a.b.shape a.b.toNumpy.get bp → a.Image out.x.toNumpy.get g →
      ∀ ρ, out.hist.residualNorm.getLast? = some (.val ρ) → fnorm a.b.shape (fun i => bp i - g i) = ρ * out.bNorm := by
  obtain ⟨A, P, ops⟩ := ops_exist (hla.round 0).qr hla.solve ha
  obtain ⟨x0, r0, nu, R, n, c0, cl, cs, d⟩ := run_done hla ha ops h
  have hsym' : a.symmetric = true → ∀ u v : E a.b.shape, inner ℝ (P (A u)) v = inner ℝ u (P (A v)) :=
    fun hs => selfAdj ops (hsym hs)
  have hcalls : ∀ c ∈ c0 :: cs ++ [cl], c.Exact := by rw [← d.calls]; exact he
  have hall : Done.AllExact c0 cs := ⟨hcalls c0 (by simp), fun c hc => hcalls c (by simp [hc])⟩
  have hlast : cl.Exact := hcalls cl (by simp)
  have n0 := d.n0
  constructor
  · have hnl : out.nu.length = n := by rw [d.outNu, List.length_take, d.nuLen]; omega
    have hget : ∀ i < n, out.nu.getD i ⟨[]⟩ = nu.getD i ⟨[]⟩ := by
      intro i hi
      rw [d.outNu, List.getD_eq_getElem?_getD, List.getElem?_take, if_pos hi, ← List.getD_eq_getElem?_getD]
    have hgood : ∀ i < n, Good a.b.shape (nu.getD i ⟨[]⟩) := by
      intro i hi
      have := d.nuLen
      rw [List.getD_eq_getElem _ _ (by omega)]
      exact d.nuGood _ (List.getElem_mem _)
    rw [hnl]
    intro i hi j hj
    rw [hget i hi, hget j hj, good_dot (hgood i hi) (hgood j hj)]
    exact d.orthonormal hall hsym' (n - 1) (Or.inl (by omega)) i (by omega) j (by omega)
  · intro bp g hbp hg ρ hρ
    have e1 : fnorm a.b.shape (fun i => bp i - g i) = ‖P (tv a.b.shape a.b) - P (A (tv a.b.shape out.x))‖ := by
      rw [fnorm_eq, tv, tv, ← (ops.prec _ _).1 hbp, ← (image_iff ops _ _).1 hg, ← map_sub]
      rfl
    have hr := d.resid_exact hall hsym' fun t => out.y.getD t 0
    rw [← d.res] at hr
    rw [e1, d.xvec, Done.cerr_zero d.cll hlast, add_zero, ← d.rho hρ, ← hr, Real.sqrt_sq (norm_nonneg _)]

/-- **C57, optimality.** If no rounding loses anything (and `symmetric=True` is only used for self-adjoint operators),
the result after `n` iterations is the initial guess plus an element of the Krylov space spanned by `r, L r, …,
L^(n-1) r` (`r` the initial residual, `L` the preconditioned operator), and no such sum has a smaller residual. -/
theorem C57_optimal (hla : GmresEnv env la) (ha : a.Ok la) (h : gmres env la clock a = .ok out)
    (he : ∀ c ∈ out.calls, c.Exact) (hsym : a.symmetric = true → a.SelfAdjoint) {bp g0 g : List ℕ → ℝ}
    (hbp : PrecMaps a.precond a.b.shape a.b.toNumpy.get bp) (hg0 : a.Image a.guess g0)
    (hg : a.Image out.x.toNumpy.get g) (q : ℕ → List ℕ → ℝ) (hq0 : q 0 = fun i => bp i - g0 i)
    (hq : ∀ k, a.Image (q k) (q (k + 1))) :
    (∃ c : ℕ → ℝ, ∀ i, InR a.b.shape i →
      out.x.toNumpy.get i = a.guess i + ∑ k ∈ range out.y.length, c k * q k i) ∧
    ∀ (c : ℕ → ℝ) (g' : List ℕ → ℝ), a.Image (fun i => a.guess i + ∑ k ∈ range out.y.length, c k * q k i) g' →
      fnorm a.b.shape (fun i => bp i - g i) ≤ fnorm a.b.shape fun i => bp i - g' i := by
  obtain ⟨A, P, ops⟩ := ops_exist (hla.round 0).qr hla.solve ha
  obtain ⟨x0, r0, nu, R, n, c0, cl, cs, d⟩ := run_done hla ha ops h
  have hsym' : a.symmetric = true → ∀ u v : E a.b.shape, inner ℝ (P (A u)) v = inner ℝ u (P (A v)) :=
    fun hs => selfAdj ops (hsym hs)
  have hcalls : ∀ c ∈ c0 :: cs ++ [cl], c.Exact := by rw [← d.calls]; exact he
  have hall : Done.AllExact c0 cs := ⟨hcalls c0 (by simp), fun c hc => hcalls c (by simp [hc])⟩
  have hlast : cl.Exact := hcalls cl (by simp)
  have n0 := d.n0
  have Q0 : vec a.b.shape (q 0) = tv a.b.shape r0 := by
    have h1 := Done.cerr_zero d.c0l hall.1
    rw [cerr, d.c0r, sub_eq_zero, d.c0s] at h1
    rw [h1, hq0, ← d.guessVec, tv, ← (image_iff ops _ _).1 hg0, ← (ops.prec _ _).1 hbp, ← map_sub]
    rfl
  have Qs : ∀ k, vec a.b.shape (q (k + 1)) = P (A (vec a.b.shape (q k))) := fun k => (image_iff ops _ _).1 (hq k)
  have xv := d.xvec
  rw [Done.cerr_zero d.cll hlast, add_zero] at xv
  have comb : ∀ c : ℕ → ℝ, vec a.b.shape (fun i => a.guess i + ∑ k ∈ range n, c k * q k i)
      = tv a.b.shape x0 + ∑ k ∈ range n, c k • vec a.b.shape (q k) := by
    intro c
    rw [← d.guessVec]
    simp only [← map_smul, ← map_sum, ← map_add]
    congr 1
    funext i
    simp
  rw [d.yLen]
  constructor
  · have ex : ∀ m : ℕ, ∃ z : ℕ → ℝ, m < n → bv a.b.shape nu m = ∑ k ∈ range (m + 1), z k • vec a.b.shape (q k) := by
      intro m
      by_cases hm : m < n
      · obtain ⟨z, hz⟩ := d.krylov' hall (fun k => vec a.b.shape (q k)) Q0 Qs m hm
        exact ⟨z, fun _ => hz⟩
      · exact ⟨fun _ => 0, fun h => absurd h hm⟩
    choose z hz using ex
    refine ⟨fun k => ∑ m ∈ range n, if k ≤ m then out.y.getD m 0 * z m k else 0, vec_eq.1 ?_⟩
    rw [comb]
    show tv a.b.shape out.x = _
    rw [xv]
    congr 1
    simp only [sum_smul]
    rw [sum_comm]
    refine sum_congr rfl fun m hm => ?_
    have hm := mem_range.1 hm
    rw [hz m hm, smul_sum, ← sum_subset (range_subset_range.2 (by omega : m + 1 ≤ n)) fun k _ hk => by
      rw [mem_range, not_lt] at hk
      rw [if_neg (by omega), zero_smul]]
    refine sum_congr rfl fun k hk => ?_
    have hk := mem_range.1 hk
    rw [if_pos (by omega), smul_smul]
  · intro c g' hg'
    have ex : ∀ m : ℕ, ∃ z : ℕ → ℝ, m < n → vec a.b.shape (q m) = ∑ k ∈ range (m + 1), z k • bv a.b.shape nu k := by
      intro m
      by_cases hm : m < n
      · obtain ⟨z, hz⟩ := d.krylov hall (fun k => vec a.b.shape (q k)) Q0 Qs m hm
        exact ⟨z, fun _ => hz⟩
      · exact ⟨fun _ => 0, fun h => absurd h hm⟩
    choose z hz using ex
    have e : ∑ m ∈ range n, c m • vec a.b.shape (q m)
        = ∑ k ∈ range n, (∑ m ∈ range n, if k ≤ m then c m * z m k else 0) • bv a.b.shape nu k := by
      simp only [sum_smul]
      rw [sum_comm]
      refine sum_congr rfl fun m hm => ?_
      have hm := mem_range.1 hm
      rw [hz m hm, smul_sum, ← sum_subset (range_subset_range.2 (by omega : m + 1 ≤ n)) fun k _ hk => by
        rw [mem_range, not_lt] at hk
        rw [if_neg (by omega), zero_smul]]
      refine sum_congr rfl fun k hk => ?_
      have hk := mem_range.1 hk
      rw [if_pos (by omega), smul_smul]
    have e1 : fnorm a.b.shape (fun i => bp i - g i) = ‖P (tv a.b.shape a.b) - P (A (tv a.b.shape out.x))‖ := by
      rw [fnorm_eq, tv, tv, ← (ops.prec _ _).1 hbp, ← (image_iff ops _ _).1 hg, ← map_sub]
      rfl
    have e2 : fnorm a.b.shape (fun i => bp i - g' i) = ‖P (tv a.b.shape a.b)
        - P (A (tv a.b.shape x0 + ∑ k ∈ range n, c k • vec a.b.shape (q k)))‖ := by
      rw [fnorm_eq, tv, ← comb, ← (ops.prec _ _).1 hbp, ← (image_iff ops _ _).1 hg', ← map_sub]
      rfl
    rw [e1, e2, xv, e]
    refine le_of_sq_le_sq ?_ (norm_nonneg _)
    rw [d.resid_exact hall hsym', d.resid_exact hall hsym', ← d.res]
    exact d.least _

end TTS.Props
