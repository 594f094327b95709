import Verif.Proofs.GmresConv
import Verif.Props.GmresRes

/-!
# C57, C58: when GMRES fails, when it converges
-/

namespace TTS.Props

open Finset Spec

variable {env : ℕ → Env ℝ} {la : LinAlg2} {clock : ℕ → ℝ} {a : GmresArgs}

theorem card_idxSet (s : List ℕ) : (idxSet s).card ≤ s.prod := by
  have := Finset.card_le_card_of_injOn (s := idxSet s) (t := range s.prod) (ravel s)
    (fun i hi => mem_range.2 (ravel_lt (mem_idxSet.1 hi)))
    (fun i hi j hj h => ravel_inj (mem_idxSet.1 hi) (mem_idxSet.1 hj) h)
  rwa [card_range] at this

theorem finrank_E (s : List ℕ) : Module.finrank ℝ (E s) ≤ s.prod := by
  rw [finrank_euclideanSpace, Fintype.card_coe]
  exact card_idxSet s

/-- what follows the loop -/
noncomputable def gFinish (env : ℕ → Env ℝ) (la : LinAlg2) (clock : ℕ → ℝ) (a : GmresArgs) (x0 : TT ℝ) (beta bNorm : ℝ)
    (st : GmresSt) : Except PyErr GmresOut :=
  match st.y with
  | none => .error .unboundLocalError
  | some y =>
    if (st.nu.take st.iters).length ≠ (y.take st.iters).length then .error .valueError
    else
      ((roundTTSum (env (2 * st.iters + 1)) la.toLinAlg (x0 :: List.zipWith TT.mul (st.nu.take st.iters) (y.take st.iters))
        a.lastRank none a.lastMethod 2).andThen Rounded.asTT).andThen fun x =>
      .ok ⟨x, { st.hist with
          finalRoundTime := clock (3 * st.iters + 3) - clock (3 * st.iters + 2)
          totalTime := clock (3 * st.iters + 4) - clock 0 },
        st.H, st.nu.take st.iters, y.take st.iters, beta, bNorm,
        st.calls ++ [⟨x0 :: List.zipWith TT.mul (st.nu.take st.iters) (y.take st.iters), none, x⟩]⟩

/-- a run is the loop followed by the final rounding -/
theorem gmres_eq (ha : a.Ok la) {A P : E a.b.shape →ₗ[ℝ] E a.b.shape} {x0 bPr : TT ℝ} {ax : List (TT ℝ)} {r0 : TT ℝ}
    (su : Setup env la a A P x0 bPr ax r0) :
    gmres env la clock a =
      (gmresLoop (gCfg env la clock a (rkOf a) ‖tv a.b.shape r0‖ ‖tv a.b.shape a.b‖) a.maxiter 0
        (gInit clock a (bPr :: ax.map fun t => TT.mul t (-1)) r0 ‖tv a.b.shape r0‖ ‖tv a.b.shape a.b‖
          ‖tv a.b.shape (r0.mul (1 / ‖tv a.b.shape r0‖))‖)).andThen
        (gFinish env la clock a x0 ‖tv a.b.shape r0‖ ‖tv a.b.shape a.b‖) := by
  unfold gmres
  dsimp only
  rw [if_neg (by rw [ha.outShape]; simp), if_neg, if_neg (by rw [ha.outShape, ha.inShape]; simp), su.rank]
  · show (initialGuess a.A a.x0).andThen _ = _
    rw [su.guess]
    show (precondRhs la a.precond a.b).andThen _ = _
    rw [su.rhs]
    show (a.b.norm la.toLinAlg).andThen _ = _
    rw [su.bNorm]
    show (applyPr la a.A a.precond x0).andThen _ = _
    rw [su.app]
    show (gRnd env la a (rkOf a) 0 (bPr :: ax.map fun t => TT.mul t (-1)) none).andThen _ = _
    rw [su.first]
    show (r0.norm la.toLinAlg).andThen _ = _
    rw [su.beta]
    show ((r0.mul (1 / ‖tv a.b.shape r0‖)).norm la.toLinAlg).andThen _ = _
    rw [su.norm0]
    rfl
  · rintro ⟨x, hx, hne⟩
    exact hne (by rw [ha.inShape]; exact (ha.x0 x hx).2.2)

/-- the part after the loop always succeeds -/
theorem finish_ok (hla : GmresEnv env la) (ha : a.Ok la) {x0 : TT ℝ} {beta bNorm : ℝ} {N : ℕ} {R : ℕ → ℝ} {n : ℕ}
    {L : E a.b.shape →ₗ[ℝ] E a.b.shape} {st : GmresSt} (hx0 : Good a.b.shape x0)
    (B : Book (gCfg env la clock a (rkOf a) beta bNorm) N R n st)
    (An : Ana (gCfg env la clock a (rkOf a) beta bNorm) N a.b.shape (rkOf a) L n st) (n0 : 0 < n) :
    ∃ out last, gFinish env la clock a x0 beta bNorm st = .ok out ∧ out.y.length = n ∧
      out.hist.residualNorm = st.hist.residualNorm ∧ out.bNorm = bNorm ∧ out.calls = st.calls ++ [last] ∧
      TTList last.summands a.b.shape ∧
      roundTTSum (env (2 * st.iters + 1)) la.toLinAlg last.summands a.lastRank none a.lastMethod 2
        = .ok (.tt last.result) := by
  obtain ⟨y, hy, yl, -⟩ := B.y1 n0
  have hit := An.iters
  have hnl := An.nu
  have e : (st.nu.take st.iters).length = (y.take st.iters).length := by
    rw [List.length_take, List.length_take, hit, hnl, yl]; omega
  obtain ⟨z1, -⟩ := tvs_zip (s := a.b.shape) (ts := st.nu.take st.iters) (cs := y.take st.iters)
    (fun t ht => An.good t (List.mem_of_mem_take ht)) e
  obtain ⟨Y, q1, -⟩ := C55 (hla.round (2 * st.iters + 1)) _ a.b.shape (ttList_cons hx0 z1) ha.modes a.lastRank ha.lastRank
    none a.lastMethod 2 ha.lastMethod (fun _ => by norm_num)
  unfold gFinish
  rw [hy]
  dsimp only
  rw [if_neg (by rw [e]; simp), q1]
  exact ⟨_, _, rfl, by show (y.take st.iters).length = n; rw [List.length_take, hit, yl]; omega, rfl, rfl, rfl,
    ttList_cons hx0 z1, q1⟩

/-- **C58, errors.** With well-formed arguments a run fails in three ways only: a division by zero (`nonFinite`; the code
goes on with `inf` and `nan`), `ValueError` (a rank deficient `H_matrix`), and, for `maxiter=0`, `UnboundLocalError`. -/
theorem C58_errors (hla : GmresEnv env la) (ha : a.Ok la) :
    (a.maxiter = 0 → gmres env la clock a = .error .unboundLocalError) ∧
    (0 < a.maxiter → (∃ out, gmres env la clock a = .ok out) ∨ gmres env la clock a = .error .nonFinite ∨
      gmres env la clock a = .error .valueError) := by
  obtain ⟨A, P, ops⟩ := ops_exist (hla.round 0).qr hla.solve ha
  obtain ⟨x0, bPr, ax, r0, su⟩ := setup hla ha ops
  rw [gmres_eq ha su]
  have hc := cfg_ok (clock := clock) hla ha ops ‖tv a.b.shape r0‖ ‖tv a.b.shape a.b‖
  have hi := ana_init (clock := clock) su ‖tv a.b.shape r0‖ ‖tv a.b.shape a.b‖
    ‖tv a.b.shape (r0.mul (1 / ‖tv a.b.shape r0‖))‖ rfl
  have hb := book_init (env := env) (la := la) (clock := clock) (a := a) (maxRank := rkOf a) (bNorm := ‖tv a.b.shape a.b‖)
    (norm_nonneg (tv a.b.shape r0)) (bPr :: ax.map fun t => TT.mul t (-1)) r0 ‖tv a.b.shape (r0.mul (1 / ‖tv a.b.shape r0‖))‖
  refine ⟨fun h0 => by rw [h0]; rfl, fun h0 => ?_⟩
  rcases loop_cases hc a.maxiter 0 (by omega) hi with ⟨st, h⟩ | h | h
  · obtain ⟨R, n, n0, -, B, -, -⟩ := Book.loop hla.lstsq h0 hb h
    obtain ⟨n', An⟩ := Ana.loop hc h0 hi h
    obtain rfl : n' = n := An.iters.symm.trans B.iters
    rw [h]
    obtain ⟨out, -, ho, -⟩ := finish_ok hla ha su.good0 B An n0
    exact Or.inl ⟨out, ho⟩
  · rw [h]; exact Or.inr (Or.inl rfl)
  · rw [h]; exact Or.inr (Or.inr rfl)

theorem round_tv {s : List ℕ} {ts : List (TT ℝ)} {Y : TT ℝ} (h : TTList ts s) (he : Y.toNumpy = (ttSum ts).toNumpy) :
    tv s Y = tvs s ts := by rw [tv, he, tvs_eq h]

theorem lossless_rnd (hll : a.Lossless env la) (beta bNorm : ℝ) (k : ℕ) (ts : List (TT ℝ)) (eps : Option ℝ) (Y : TT ℝ)
    (h : TTList ts a.b.shape) (he : (gCfg env la clock a (rkOf a) beta bNorm).rnd k ts eps = .ok Y) :
    tv a.b.shape Y = tvs a.b.shape ts := by
  refine round_tv h ?_
  have he : (roundTTSum (env k) la.toLinAlg ts (.seq (rkOf a)) eps a.method 2).andThen Rounded.asTT = .ok Y := he
  obtain ⟨Z, z1, z2⟩ := andThen_ok he
  cases Z with
  | tt Z =>
    injection z2 with z2
    subst z2
    exact (hll k ts h).1 eps _ z1
  | sum _ => cases z2

/-- **C57, convergence.** If the roundings lose nothing, the operator is injective (and self-adjoint if `symmetric=True`),
`b` is not zero, the initial guess is not a solution, `tolerance > 0` and `maxiter ≥ 1`, then the run succeeds, after at
most as many iterations as there are unknowns; and if `maxiter` is at least the number of unknowns, then the residual of
the result (in the preconditioned system) satisfies `‖b - A x‖^2 < tolerance * ‖b‖`. -/
theorem C57_converges (hla : GmresEnv env la) (ha : a.Ok la) (hll : a.Lossless env la) (hinj : a.Injective)
    (hsym : a.symmetric = true → a.SelfAdjoint) (hb : ∃ i, InR a.b.shape i ∧ a.b.toNumpy.get i ≠ 0)
    (hg : ¬ a.Solves a.guess) (ht : 0 < a.tol) (hm : 0 < a.maxiter) :
    ∃ out, gmres env la clock a = .ok out ∧ (∀ c ∈ out.calls, c.Exact) ∧ out.y.length ≤ a.b.shape.prod ∧
      (a.b.shape.prod ≤ a.maxiter → ∀ bp g, PrecMaps a.precond a.b.shape a.b.toNumpy.get bp →
        a.Image out.x.toNumpy.get g →
        fnorm a.b.shape (fun i => bp i - g i) ^ 2 < a.tol * fnorm a.b.shape a.b.toNumpy.get) := by
  obtain ⟨A, P, ops⟩ := ops_exist (hla.round 0).qr hla.solve ha
  obtain ⟨x0, bPr, ax, r0, su⟩ := setup hla ha ops
  have hc := cfg_ok (clock := clock) hla ha ops ‖tv a.b.shape r0‖ ‖tv a.b.shape a.b‖
  have hi := ana_init (clock := clock) su ‖tv a.b.shape r0‖ ‖tv a.b.shape a.b‖
    ‖tv a.b.shape (r0.mul (1 / ‖tv a.b.shape r0‖))‖ rfl
  have hbk := book_init (env := env) (la := la) (clock := clock) (a := a) (maxRank := rkOf a) (bNorm := ‖tv a.b.shape a.b‖)
    (norm_nonneg (tv a.b.shape r0)) (bPr :: ax.map fun t => TT.mul t (-1)) r0 ‖tv a.b.shape (r0.mul (1 / ‖tv a.b.shape r0‖))‖
  have hex := lossless_rnd (clock := clock) hll ‖tv a.b.shape r0‖ ‖tv a.b.shape a.b‖
  have hr0 : tv a.b.shape r0 = P (tv a.b.shape a.b) - P (A (tv a.b.shape x0)) := by
    rw [← su.sum]
    exact hex 0 _ none r0 su.list su.first
  have hguess : vec a.b.shape a.guess = tv a.b.shape x0 := by
    unfold GmresArgs.guess
    cases hx : a.x0 with
    | none => rw [su.guess0 hx]; exact map_zero _
    | some x => rw [su.guess1 x hx]; rfl
  have hbeta : 0 < ‖tv a.b.shape r0‖ := by
    rw [norm_pos_iff, hr0]
    intro h0
    rw [sub_eq_zero] at h0
    refine hg ⟨ext a.b.shape (P (tv a.b.shape a.b)), (ops.prec _ _).2 (vec_ext _ _), (image_iff ops _ _).2 ?_⟩
    rw [vec_ext, hguess, h0]
  have hbn : 0 < ‖tv a.b.shape a.b‖ := by
    rw [norm_pos_iff]
    intro h0
    obtain ⟨i, hi, hne⟩ := hb
    have h0' : vec a.b.shape a.b.toNumpy.get = vec a.b.shape 0 := by rw [map_zero]; exact h0
    exact hne (vec_eq.1 h0' i hi)
  have hinj' : Function.Injective (P ∘ₗ A) := by
    rw [injective_iff_map_eq_zero]
    intro v hv
    have := hinj (ext a.b.shape v) ((image_iff ops _ _).2 (by rw [vec_ext, map_zero]; exact hv.symm))
    rw [← vec_ext a.b.shape v, (vec_eq (g := 0)).2 this, map_zero]
  have hp : Prog (gCfg env la clock a (rkOf a) ‖tv a.b.shape r0‖ ‖tv a.b.shape a.b‖) a.maxiter a.b.shape (rkOf a) (P ∘ₗ A) 0
      (gInit clock a (bPr :: ax.map fun t => TT.mul t (-1)) r0 ‖tv a.b.shape r0‖ ‖tv a.b.shape a.b‖
        ‖tv a.b.shape (r0.mul (1 / ‖tv a.b.shape r0‖))‖) := by
    refine ⟨hi, ?_, ?_⟩
    · intro cl hcl
      have hcl : cl ∈ [_] := hcl
      rw [List.mem_singleton] at hcl
      subst hcl
      show tv _ r0 - tvs _ (bPr :: ax.map fun t => TT.mul t (-1)) = 0
      rw [su.sum, hr0, sub_self]
    · show ‖tv a.b.shape (r0.mul (1 / ‖tv a.b.shape r0‖))‖ = 1
      rw [(good_mul su.good _).2, norm_smul, Real.norm_eq_abs, abs_of_pos (by positivity)]
      field_simp
  have hsym' : a.symmetric = true → ∀ u v : E a.b.shape, inner ℝ ((P ∘ₗ A) u) v = inner ℝ u ((P ∘ₗ A) v) :=
    fun hs => selfAdj ops (hsym hs)
  obtain ⟨st, n, l1, l2, l3, l4⟩ := loop_prog hc hla.lstsq hex hinj' hsym' hbn ht a.maxiter 0 (by omega) hp
    (show ‖tv a.b.shape r0‖ ≠ 0 from hbeta.ne') hbeta.ne'
  obtain ⟨R, n', n0, nN, B, -, -⟩ := Book.loop hla.lstsq hm hbk l1
  obtain rfl : n' = n := B.iters.symm.trans l2.ana.iters
  obtain ⟨out, last, ho, f1, f2, f3, f4, f5, f6⟩ := finish_ok hla ha su.good0 B l2.ana n0
  have hout : gmres env la clock a = .ok out := by
    rw [gmres_eq ha su, l1]; exact ho
  have hex_all : ∀ c ∈ out.calls, c.Exact := by
    intro c hc
    rw [f4] at hc
    rcases List.mem_append.1 hc with hc | hc
    · obtain ⟨hc1, hc2⟩ := l2.ana.call c hc
      have hc3 := l2.exact c hc
      rw [cerr, sub_eq_zero, ← tvs_eq hc1] at hc3
      exact ND.ext' (by rw [TT.toNumpy_shape hc2.1, hc2.2.2, ttSum_toNumpy_shape hc1]) fun i hi => vec_eq.1 hc3 i
        (by rw [TT.toNumpy_shape hc2.1, hc2.2.2] at hi; exact hi)
    · rw [List.mem_singleton] at hc
      subst hc
      exact (hll _ _ f5).2 _ f6
  refine ⟨out, hout, hex_all, ?_, ?_⟩
  · rw [f1]; exact l4.trans (finrank_E _)
  · intro hN bp g hbp hgi
    have hstop := l3 ((finrank_E _).trans hN)
    have hres : st.res = R n' := by rw [B.res, if_neg (by omega)]
    have hRn : 0 ≤ R n' := B.nonneg le_rfl
    rw [hres] at hstop
    have hstop : (if ‖tv a.b.shape a.b‖ = 0 then _ else PyFloat.val (R n' / ‖tv a.b.shape a.b‖)).lt a.tol := hstop
    rw [if_neg hbn.ne'] at hstop
    have hstop : R n' / ‖tv a.b.shape a.b‖ < a.tol := hstop
    have hlast : out.hist.residualNorm.getLast? = some (.val (√ (R n') / ‖tv a.b.shape a.b‖)) := by
      rw [f2, B.residual, List.range_succ, List.map_append]
      simp only [List.map_cons, List.map_nil, List.getLast?_append, List.getLast?_singleton, Option.some_or]
      show some (if ‖tv a.b.shape a.b‖ = 0 then _ else _) = _
      rw [if_neg hbn.ne']
      rfl
    have h := (C57_exact hla ha hout hex_all hsym).2 bp g hbp hgi _ hlast
    rw [h, f3, div_mul_cancel₀ _ hbn.ne', Real.sq_sqrt hRn, fnorm_eq]
    exact (div_lt_iff₀ hbn).1 hstop

/-- **C57, nothing to do.** Finding: if the roundings lose nothing and the initial guess solves the system, the run fails
with a division by zero. -/
theorem C57_solved (hla : GmresEnv env la) (ha : a.Ok la) (hll : a.Lossless env la) (hg : a.Solves a.guess)
    (hm : 0 < a.maxiter) : gmres env la clock a = .error .nonFinite := by
  obtain ⟨A, P, ops⟩ := ops_exist (hla.round 0).qr hla.solve ha
  obtain ⟨x0, bPr, ax, r0, su⟩ := setup hla ha ops
  have hex := lossless_rnd (clock := clock) hll ‖tv a.b.shape r0‖ ‖tv a.b.shape a.b‖
  have hr0 : tv a.b.shape r0 = P (tv a.b.shape a.b) - P (A (tv a.b.shape x0)) := by
    rw [← su.sum]
    exact hex 0 _ none r0 su.list su.first
  have hguess : vec a.b.shape a.guess = tv a.b.shape x0 := by
    unfold GmresArgs.guess
    cases hx : a.x0 with
    | none => rw [su.guess0 hx]; exact map_zero _
    | some x => rw [su.guess1 x hx]; rfl
  have h0 : tv a.b.shape r0 = 0 := by
    obtain ⟨bp, h1, h2⟩ := hg
    have h1 := (ops.prec _ _).1 h1
    have h2 := (image_iff ops _ _).1 h2
    rw [hguess] at h2
    rw [hr0, ← h2, h1]
    exact sub_self _
  rw [gmres_eq ha su]
  obtain ⟨f, hf⟩ : ∃ f, a.maxiter = f + 1 := ⟨a.maxiter - 1, by omega⟩
  rw [hf, gmresLoop]
  have : ∀ c, gmresStep c 0 (gInit clock a (bPr :: ax.map fun t => TT.mul t (-1)) r0 ‖tv a.b.shape r0‖ ‖tv a.b.shape a.b‖
      ‖tv a.b.shape (r0.mul (1 / ‖tv a.b.shape r0‖))‖) = .error .nonFinite := by
    intro c
    unfold gmresStep
    rw [if_pos (Or.inr (by show ‖tv a.b.shape r0‖ = 0; rw [h0, norm_zero]))]
  rw [this]
  rfl

end TTS.Props
