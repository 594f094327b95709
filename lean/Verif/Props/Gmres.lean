import Verif.Proofs.Gmres

/-!
# C56, C58: what GMRES reports, when it stops, what it rejects
-/

namespace TTS.Props

open Finset Spec

/-- **C58, rejected arguments.** A right hand side that does not have the output shape of the operator, an initial guess
that does not have its input shape, an operator with different input and output shapes, and a sequence of ranks of the
wrong length are rejected with `ValueError`. -/
theorem C58_reject (env : ℕ → Env ℝ) (la : LinAlg2) (clock : ℕ → ℝ) (a : GmresArgs)
    (h : a.b.shape ≠ a.A.outShape ∨ (∃ x, a.x0 = some x ∧ x.shape ≠ a.A.inShape) ∨ a.A.inShape ≠ a.A.outShape ∨
      ∃ rs, a.maxRank = .seq rs ∧ rs.length + 1 ≠ a.b.shape.length) :
    gmres env la clock a = .error .valueError := by
  unfold gmres
  dsimp only
  by_cases h1 : a.A.outShape ≠ a.b.shape
  · rw [if_pos h1]
  rw [if_neg h1]
  by_cases h2 : ∃ x ∈ a.x0, x.shape ≠ a.A.inShape
  · rw [if_pos h2]
  rw [if_neg h2]
  by_cases h3 : a.A.outShape ≠ a.A.inShape
  · rw [if_pos h3]
  rw [if_neg h3]
  push Not at h1 h2 h3
  obtain ⟨rs, hr, hl⟩ : ∃ rs, a.maxRank = .seq rs ∧ rs.length + 1 ≠ a.b.shape.length := by
    rcases h with h | ⟨x, hx, h⟩ | h | h
    · exact absurd h1.symm h
    · exact absurd (h2 x hx) h
    · exact absurd h3.symm h
    · exact h
  rw [hr, process_asked, if_neg (by rw [← h3, h1]; exact hl)]
  rfl

/-- **C58, accepted arguments.** A run that succeeds had arguments of matching shapes, ranks of the right length and a
known rounding method. -/
theorem C58_accept (env : ℕ → Env ℝ) (la : LinAlg2) (clock : ℕ → ℝ) (a : GmresArgs) (out : GmresOut)
    (h : gmres env la clock a = .ok out) :
    a.b.shape = a.A.outShape ∧ (∀ x, a.x0 = some x → x.shape = a.A.inShape) ∧ a.A.inShape = a.A.outShape ∧
    (∀ rs, a.maxRank = .seq rs → rs.length + 1 = a.b.shape.length) ∧
    (a.method = .exact ∨ a.method = .pairwise ∨ a.method = .sketch ∨ a.method = .orthSketch) ∧ 0 < a.maxiter := by
  obtain ⟨maxRank, x0, bPr, ax, r0, w0, st, y, r⟩ := gmres_inv h
  refine ⟨r.hb.symm, r.hx, r.hio.symm, ?_, ?_, ?_⟩
  · intro rs hrs
    by_contra hne
    have := r.rank
    rw [hrs, process_asked, if_neg (by rw [← r.hio, r.hb]; exact hne)] at this
    cases this
  · have := r.first
    unfold gRnd roundTTSum at this
    cases hm : a.method with
    | exact => simp
    | pairwise => simp
    | sketch => simp
    | orthSketch => simp
    | none => rw [hm] at this; cases this
    | unknown => rw [hm] at this; cases this
  · rcases Nat.eq_zero_or_pos a.maxiter with h0 | h0
    · have := r.loop
      rw [h0] at this
      injection this with this
      have hs := r.sol
      rw [← this] at hs
      cases hs
    · exact h0

/-- **C58, `rounding_method=None`.** Not usable: the run always fails (finding: with `AttributeError`, since a
`TensorSum` has no `rank`, unless something else has failed before). -/
theorem C58_none (env : ℕ → Env ℝ) (la : LinAlg2) (clock : ℕ → ℝ) (a : GmresArgs) (hm : a.method = .none) :
    ¬ ∃ out, gmres env la clock a = .ok out := by
  rintro ⟨out, h⟩
  have := (C58_accept env la clock a out h).2.2.2.2.1
  rw [hm] at this
  simp at this

/-- **C56, `maxiter=0`.** Finding: the run never succeeds. -/
theorem C56_zero (env : ℕ → Env ℝ) (la : LinAlg2) (clock : ℕ → ℝ) (a : GmresArgs) (hm : a.maxiter = 0) :
    ¬ ∃ out, gmres env la clock a = .ok out := by
  rintro ⟨out, h⟩
  have := (C58_accept env la clock a out h).2.2.2.2.2
  omega

/-- **C56.** A run that succeeds has made some number `n` of iterations, `1 ≤ n ≤ maxiter`; the histories have the
corresponding lengths.  `b_norm` is the norm of `b`.  If it is not zero, the reported relative residuals `ρ` are
nonnegative numbers that never increase, and the loop stopped after the first iteration `k ≥ 1` with
`ρ k ^ 2 * b_norm < tolerance` (finding: not `ρ k < tolerance`), or after `maxiter` iterations if there was none.  If
`b_norm = 0`, no number is reported and all `maxiter` iterations are made. -/
theorem C56 (env : ℕ → Env ℝ) (la : LinAlg2) (hl : la.LstsqOk) (clock : ℕ → ℝ) (a : GmresArgs) (out : GmresOut)
    (h : gmres env la clock a = .ok out) :
    a.b.norm la.toLinAlg = .ok out.bNorm ∧ ∃ n, 1 ≤ n ∧ n ≤ a.maxiter ∧
      out.hist.residualNorm.length = n + 1 ∧ out.hist.rank.length = n + 1 ∧ out.hist.wNorm.length = n + 1 ∧
      out.hist.stepTime.length = n + 1 ∧ out.hist.stepTimeRes.length = n ∧ out.hist.delta.length = n ∧
      out.nu.length = n ∧ out.y.length = n ∧ out.H.shape = [a.maxiter + 1, a.maxiter] ∧
      (out.bNorm ≠ 0 → ∃ ρ : ℕ → ℝ, out.hist.residualNorm = (List.range (n + 1)).map (fun k => PyFloat.val (ρ k)) ∧
        (∀ k ≤ n, 0 ≤ ρ k) ∧ (∀ k < n, ρ (k + 1) ≤ ρ k) ∧
        (∀ k, 1 ≤ k → k < n → a.tol ≤ ρ k ^ 2 * out.bNorm) ∧ (n = a.maxiter ∨ ρ n ^ 2 * out.bNorm < a.tol)) ∧
      (out.bNorm = 0 → n = a.maxiter ∧ ∀ f ∈ out.hist.residualNorm, f = .inf ∨ f = .nan) := by
  obtain ⟨maxRank, x0, bPr, ax, r0, w0, st, y, r⟩ := gmres_inv h
  obtain ⟨R, n, n0, nN, B, s1, s2⟩ := run_book hl r
  obtain ⟨y', hy, yl, -⟩ := B.y1 n0
  have hyy : y = y' := by
    have := r.sol
    rw [hy] at this
    injection this with this
    exact this.symm
  have hb := norm_nonneg' r.bNorm
  refine ⟨r.bNorm, n, n0, nN, ?_, ?_, ?_, ?_, ?_, ?_, ?_, ?_, ?_, ?_, ?_⟩
  · rw [r.hist]; show st.hist.residualNorm.length = _; rw [B.residual]; simp
  · rw [r.hist]; exact B.rank
  · rw [r.hist]; exact B.wNorm
  · rw [r.hist]; show st.hist.stepTime.length = _; rw [B.stepTime]; simp
  · rw [r.hist]; show st.hist.stepTimeRes.length = _; rw [B.stepTimeRes]; simp
  · rw [r.hist]; show st.hist.delta.length = _; rw [B.delta]; simp
  · rw [r.nu, List.length_take, B.iters, B.nu]; omega
  · rw [r.outy, List.length_take, B.iters, hyy, yl]; omega
  · rw [r.H]; exact B.shape
  · intro hne
    have hpos : 0 < out.bNorm := lt_of_le_of_ne hb (Ne.symm hne)
    refine ⟨fun k => √ (R k) / out.bNorm, ?_, fun k _ => div_nonneg (Real.sqrt_nonneg _) hb, ?_, ?_, ?_⟩
    · rw [r.hist]
      show st.hist.residualNorm = _
      rw [B.residual]
      refine map_range_congr fun k _ => ?_
      show (if out.bNorm = 0 then _ else _) = _
      rw [if_neg hne]
      rfl
    · intro k hk
      exact div_le_div_of_nonneg_right (Real.sqrt_le_sqrt (B.anti hk)) hb
    · intro k h1 h2
      have := s1 k h1 h2
      rw [stop_iff hb (B.nonneg (by omega))] at this
      push Not at this
      exact this hne
    · rcases s2 with h | h
      · exact Or.inl h
      · rw [stop_iff hb (B.nonneg le_rfl)] at h
        exact Or.inr h.2
  · intro h0
    constructor
    · rcases s2 with h | h
      · exact h
      · rw [stop_iff hb (B.nonneg le_rfl)] at h
        exact absurd h0 h.1
    · intro f hf
      rw [r.hist] at hf
      have hf : f ∈ st.hist.residualNorm := hf
      rw [B.residual] at hf
      obtain ⟨k, -, rfl⟩ := List.mem_map.1 hf
      show (if out.bNorm = 0 then _ else _) = _ ∨ (if out.bNorm = 0 then _ else _) = _
      rw [if_pos h0]
      by_cases h' : √ (R k) = 0
      · rw [if_pos h']; simp
      · rw [if_neg h']; simp

/-- **C56, the returned matrix and solution.** `H_matrix` is upper Hessenberg with zeros outside its first `n` columns,
its subdiagonal is `w_norm[1:]`, `y` is a least squares solution of `H_matrix[:n+1, :n] y = beta e_1`, and the last
reported residual is that of `y`. -/
theorem C56_system (env : ℕ → Env ℝ) (la : LinAlg2) (hl : la.LstsqOk) (clock : ℕ → ℝ) (a : GmresArgs) (out : GmresOut)
    (h : gmres env la clock a = .ok out) :
    (∀ i k, k + 1 < i ∨ out.y.length ≤ k → out.H.get [i, k] = 0) ∧
    (∀ k < out.y.length, out.H.get [k + 1, k] = out.hist.wNorm.getD (k + 1) 0) ∧
    (∀ z, lsq (fun i t => out.H.get [i, t]) out.beta out.y.length (fun t => out.y.getD t 0)
      ≤ lsq (fun i t => out.H.get [i, t]) out.beta out.y.length z) ∧
    out.hist.residualNorm.getLast? = some ((PyFloat.val (√ (lsq (fun i t => out.H.get [i, t]) out.beta out.y.length
      fun t => out.y.getD t 0))).div out.bNorm) := by
  obtain ⟨maxRank, x0, bPr, ax, r0, w0, st, y, r⟩ := gmres_inv h
  obtain ⟨R, n, n0, nN, B, -, -⟩ := run_book hl r
  obtain ⟨y', hy, yl, hR⟩ := B.y1 n0
  have hyy : y = y' := by
    have := r.sol
    rw [hy] at this
    injection this with this
    exact this.symm
  have ey : out.y = y' := by rw [r.outy, B.iters, hyy, List.take_of_length_le (by omega)]
  rw [r.H, ey, yl, r.hist]
  refine ⟨B.zero, B.sub, fun z => ?_, ?_⟩
  · have := B.least n le_rfl z
    rw [hR] at this
    exact this
  · show st.hist.residualNorm.getLast? = _
    rw [B.residual, List.range_succ, List.map_append]
    have : R n = lsq (fun i t => st.H.get [i, t]) out.beta n fun t => y'.getD t 0 := hR
    simp only [List.map_cons, List.map_nil, List.getLast?_append, List.getLast?_singleton, Option.some_or, this]
    rfl

theorem mono_le {clock : ℕ → ℝ} (hc : ∀ t, clock t ≤ clock (t + 1)) {s t : ℕ} (h : s ≤ t) : clock s ≤ clock t :=
  monotone_nat_of_le_succ hc h

/-- **C56, times.** With a clock that never goes back, all reported times are nonnegative, a step with the computation
of the residual takes at least as long as without, and the total time is at least the sum of the parts. -/
theorem C56_times (env : ℕ → Env ℝ) (la : LinAlg2) (hl : la.LstsqOk) (clock : ℕ → ℝ) (hc : ∀ t, clock t ≤ clock (t + 1))
    (a : GmresArgs) (out : GmresOut) (h : gmres env la clock a = .ok out) :
    (∀ t ∈ out.hist.stepTime, 0 ≤ t) ∧
    (∀ k < out.hist.stepTimeRes.length, out.hist.stepTime.getD (k + 1) 0 ≤ out.hist.stepTimeRes.getD k 0) ∧
    0 ≤ out.hist.finalRoundTime ∧
    out.hist.stepTime.getD 0 0 + out.hist.stepTimeRes.sum + out.hist.finalRoundTime ≤ out.hist.totalTime := by
  obtain ⟨maxRank, x0, bPr, ax, r0, w0, st, y, r⟩ := gmres_inv h
  obtain ⟨R, n, n0, nN, B, -, -⟩ := run_book hl r
  rw [r.hist]
  have e1 : st.hist.stepTime = _ := B.stepTime
  have e2 : st.hist.stepTimeRes = _ := B.stepTimeRes
  simp only [e1, e2, B.iters]
  show (∀ t ∈ (clock 1 - clock 0) :: (List.range n).map fun k => clock (3 * k + 3) - clock (3 * k + 2), 0 ≤ t) ∧ _
  refine ⟨?_, ?_, ?_, ?_⟩
  · intro t ht
    rcases List.mem_cons.1 ht with rfl | ht
    · linarith [hc 0]
    · obtain ⟨k, -, rfl⟩ := List.mem_map.1 ht
      linarith [hc (3 * k + 2)]
  · intro k hk
    have hk : k < n := by simpa using hk
    rw [List.getD_cons_succ, List.getD_eq_getElem _ _ (by simpa using hk), List.getD_eq_getElem _ _ (by simpa using hk)]
    simp only [List.getElem_map, List.getElem_range]
    show clock (3 * k + 3) - clock (3 * k + 2) ≤ clock (3 * k + 4) - clock (3 * k + 2)
    linarith [hc (3 * k + 3)]
  · have := hc (3 * n + 2)
    show 0 ≤ clock (3 * n + 3) - clock (3 * n + 2)
    linarith
  · have key : ∀ m, ((List.range m).map fun k => clock (3 * k + 4) - clock (3 * k + 2)).sum ≤ clock (3 * m + 1) - clock 1 := by
      intro m
      induction m with
      | zero => simp
      | succ m ih =>
        rw [List.range_succ, List.map_append, List.sum_append]
        simp only [List.map_cons, List.map_nil, List.sum_cons, List.sum_nil, add_zero]
        have := hc (3 * m + 1)
        have e : 3 * (m + 1) + 1 = 3 * m + 4 := by ring
        rw [e]
        linarith
    show clock 1 - clock 0 + ((List.range n).map fun k => clock (3 * k + 4) - clock (3 * k + 2)).sum
      + (clock (3 * n + 3) - clock (3 * n + 2)) ≤ clock (3 * n + 4) - clock 0
    linarith [key n, hc (3 * n + 3), hc (3 * n + 1)]

end TTS.Props
