import Verif.Spec.ApproxPrecGmres
import Verif.Props.ApproxPrecond
import Verif.Props.ApproxGmres

/-!
# C101: preconditioned GMRES with inexact linear algebra
-/

namespace TTS.Props

open Finset Spec

variable {env : ℕ → Env ℝ} {la : LinAlg2} {clock : ℕ → ℝ} {a : GmresArgs} {out : GmresOut} {ε η θ : ℝ}

/-- the product with a matrix on one mode, on arrays of shape `s` -/
noncomputable def modeOp (s : List ℕ) (G : ℕ → ℕ → ℝ) (n mu : ℕ) : E s →ₗ[ℝ] E s where
  toFun v := vec s (modeMul G n mu (ext s v))
  map_add' v w := by
    have e : modeMul G n mu (ext s (v + w)) = modeMul G n mu (ext s v) + modeMul G n mu (ext s w) := by
      rw [map_add (ext s)]
      funext i
      simp [modeMul, mul_add, sum_add_distrib]
    rw [e, map_add (vec s)]
  map_smul' c v := by
    have e : modeMul G n mu (ext s (c • v)) = c • modeMul G n mu (ext s v) := by
      rw [map_smul (ext s)]
      funext i
      simp only [modeMul, Pi.smul_apply, smul_eq_mul, mul_sum]
      exact sum_congr rfl fun t _ => by ring
    rw [e, map_smul (vec s), RingHom.id_apply]

theorem inR_set {s i : List ℕ} (hi : InR s i) {mu : ℕ} (hmu : mu < s.length) {t : ℕ} (ht : t < s.getD mu 0) : InR s (i.set mu t) := by
  have hl := hi.length
  rw [ND.inR_iff_getD]
  refine ⟨by simp [hl], fun k hk => ?_⟩
  by_cases hk' : k = mu
  · subst hk'
    rw [List.getD_eq_getElem _ _ (by simp; omega), List.getElem_set_self]
    omega
  · rw [List.getD_eq_getElem _ _ (by simp; omega), List.getElem_set_ne (by omega), ← List.getD_eq_getElem _ 0]
    exact (ND.inR_iff_getD.1 hi).2 k hk

theorem modeOp_vec {s : List ℕ} (G : ℕ → ℕ → ℝ) {n mu : ℕ} (hmu : mu < s.length) (hn : s.getD mu 0 = n) (f : List ℕ → ℝ) :
    modeOp s G n mu (vec s f) = vec s (modeMul G n mu f) := by
  refine vec_eq.2 fun i hi => ?_
  unfold modeMul
  refine sum_congr rfl fun t ht => ?_
  rw [ext_vec f (inR_set hi hmu (by rw [hn]; exact mem_range.1 ht))]

theorem modeOp_norm {s : List ℕ} {A : ND ℝ} {n mu : ℕ} (hA : A.shape = [n, n]) (hmu : mu < s.length) (hn : s.getD mu 0 = n)
    (v : E s) : ‖modeOp s (fun i j => A.get [i, j]) n mu v‖ ≤ frobN A * ‖v‖ := by
  rw [← vec_ext s v, modeOp_vec _ hmu hn, ← fnorm_eq, ← fnorm_eq, ← frobN_mat' hA, fnorm, fnorm,
    ← Real.sqrt_mul (sum_nonneg fun _ _ => sum_nonneg fun _ _ => sq_nonneg _)]
  exact Real.sqrt_le_sqrt (modeMul_norm _ n s mu _ hmu hn)

theorem ok_none (ha : a.Ok la) : ({ a with precond := none } : GmresArgs).Ok la := by
  obtain ⟨h1, h2, h3, h4, h5, h6, h7, h8, -, h10, h11, h12, h13⟩ := ha
  exact ⟨h1, h2, h3, h4, h5, h6, h7, h8, (fun P h => nomatch h), h10, h11, h12, h13⟩

/-- the operator and the inexact preconditioner -/
theorem ops_prec (hε : 0 ≤ ε) (hθ : 0 ≤ θ) (hq : la.QRApprox ε) (hs : la.SolveTriApprox θ) (ha : a.Ok la) {P : Precond}
    (hP : a.precond = some P) (hm : ∀ Q, LinMap.precond Q ∉ a.A.maps) {n : ℕ} (hA : P.A.shape = [n, n])
    (hd : ∀ i < n, P.R.get [i, i] ≠ 0) :
    ∃ (L : E a.b.shape →ₗ[ℝ] E a.b.shape) (bPr : TT ℝ), P.mode < a.b.shape.length ∧ a.b.shape.getD P.mode 0 = n ∧
      (∀ f g, MapsSum a.A.maps a.b.shape f g ↔ vec a.b.shape g = L (vec a.b.shape f)) ∧
      OpsR la a (fun x v => ‖modeOp a.b.shape (fun i j => P.A.get [i, j]) n P.mode v - L (tv a.b.shape x)‖ ≤ a.loss la ε θ P x) bPr ∧
      ‖modeOp a.b.shape (fun i j => P.A.get [i, j]) n P.mode (tv a.b.shape bPr) - tv a.b.shape a.b‖ ≤ precLoss la ε θ P a.b := by
  obtain ⟨⟨A, n', p1, p2, -, p4, p5⟩, p6⟩ := ha.precond P hP
  rw [p6] at p4 p5
  have hPA : P.A = A := by rw [p1]; rfl
  have hPR : P.R = (la.qr A).2 := by rw [p1]; rfl
  obtain rfl : n' = n := by
    rw [hPA, p2] at hA
    simpa using hA
  rw [hPR] at hd
  obtain ⟨L, P', ops⟩ := ops_plain (ok_none ha) rfl hm
  have hid : ∀ v : E a.b.shape, P' v = v := fun v => by
    have := (ops.prec (ext a.b.shape v) (ext a.b.shape v)).1 fun _ _ => rfl
    have this : vec a.b.shape (ext a.b.shape v) = P' (vec a.b.shape (ext a.b.shape v)) := this
    rw [vec_ext] at this
    exact this.symm
  -- one application
  have one : ∀ t, Good a.b.shape t → ∃ z, P.backward la t = .ok z ∧ Good a.b.shape z ∧
      ‖modeOp a.b.shape (fun i j => P.A.get [i, j]) n' P.mode (tv a.b.shape z) - tv a.b.shape t‖ ≤ precLoss la ε θ P t := by
    rintro t ⟨t1, t2, t3⟩
    obtain ⟨z, z1, -, z2, z3, z4, z5⟩ := (C100 hε hθ hq hs A P.shape P.mode n' p2 t t1 t2 (by rw [t3]; exact p4)
      (by rw [t3]; exact p5)).2 hd
    rw [← p1] at z1
    refine ⟨z, z1, ⟨z2, ⟨by rw [z3]; exact t2.1, by rw [z4]; exact t2.2⟩, z3.trans t3⟩, ?_⟩
    rw [precLoss, z1]
    show _ ≤ precErr ε θ P t z
    rw [precErr, hPA]
    rw [t3, fnorm_eq] at z5
    rw [tv, tv, modeOp_vec _ p4 p5, ← map_sub]
    exact z5
  have hb : Good a.b.shape a.b := ⟨ha.b.1, ha.b.2, rfl⟩
  obtain ⟨bPr, b1, b2, b3⟩ := one a.b hb
  refine ⟨L, bPr, p4, p5, ops.sum, ⟨fun x hx => ?_, by rw [hP]; exact b1, b2⟩, b3⟩
  obtain ⟨ts, t1, t2, t3⟩ := ops.app x hx
  have t3 : tvs a.b.shape ts = P' (L (tv a.b.shape x)) := t3
  rw [hid] at t3
  have hcall : a.A.call la [x] = .ok ts := by
    have t1 : (a.A.call la [x]).andThen (fun ys => .ok ys) = .ok ts := t1
    cases h : a.A.call la [x] with
    | error e => rw [h] at t1; cases t1
    | ok ys => rw [h] at t1; exact t1
  choose! Z z1 z2 z3 using one
  refine ⟨ts.map Z, ?_, ⟨by simpa using t2.ne, ?_⟩, ?_⟩
  · unfold applyPr
    rw [hcall, hP]
    exact mapM_map fun t h => z1 t (t2.each t h)
  · intro t h
    obtain ⟨u, hu, rfl⟩ := List.mem_map.1 h
    exact z2 u (t2.each u hu)
  · rw [GmresArgs.loss, hcall, ← t3]
    show _ ≤ (ts.map (precLoss la ε θ P)).sum
    have key : ∀ l : List (TT ℝ), (∀ t ∈ l, Good a.b.shape t) →
        ‖modeOp a.b.shape (fun i j => P.A.get [i, j]) n' P.mode (tvs a.b.shape (l.map Z)) - tvs a.b.shape l‖
          ≤ (l.map (precLoss la ε θ P)).sum := by
      intro l
      induction l with
      | nil => intro _; simp [tvs]
      | cons t l ih =>
        intro hl
        have h1 := z3 t (hl t (by simp))
        have h2 := ih fun u hu => hl u (List.mem_cons_of_mem _ hu)
        have e : tvs a.b.shape ((t :: l).map Z) = tv a.b.shape (Z t) + tvs a.b.shape (l.map Z) := by
          simp [tvs]
        have e' : tvs a.b.shape (t :: l) = tv a.b.shape t + tvs a.b.shape l := by simp [tvs]
        rw [e, e', map_add, List.map_cons, List.sum_cons, add_sub_add_comm]
        exact (norm_add_le _ _).trans (add_le_add h1 h2)
    exact key ts fun t h => t2.each t h

/-- a successful run has applied the preconditioner, so its triangular factor has no zero on the diagonal -/
theorem diag_of_run (hε : 0 ≤ ε) (hθ : 0 ≤ θ) (hq : la.QRApprox ε) (hs : la.SolveTriApprox θ) (ha : a.Ok la) {P : Precond}
    (hP : a.precond = some P) : ∃ n, P.A.shape = [n, n] ∧
      ((∃ i < n, P.R.get [i, i] = 0) → precondRhs la a.precond a.b = .error .linAlgError) := by
  obtain ⟨⟨A, n, p1, p2, -, p4, p5⟩, p6⟩ := ha.precond P hP
  rw [p6] at p4 p5
  have hPA : P.A = A := by rw [p1]; rfl
  have hPR : P.R = (la.qr A).2 := by rw [p1]; rfl
  refine ⟨n, by rw [hPA]; exact p2, fun h => ?_⟩
  rw [hPR] at h
  have := (C100 hε hθ hq hs A P.shape P.mode n p2 a.b ha.b.1 ha.b.2 p4 p5).1 h
  rw [← p1] at this
  rw [hP]
  exact this

/-- **C101.** Preconditioned GMRES in which roundings, norms, the reduced systems, the factorisation of the preconditioner and the
triangular solves are only accurate up to relative errors: the result is well formed with bounded ranks, and the residual of the
original system is at most the norm of the preconditioner times the bound of C99 for the preconditioned one, plus what applying the
preconditioner loses, plus the effect of the last rounding. -/
theorem C101 (hla : GmresApprox env la ε η) (hθ : 0 ≤ θ) (hs : la.SolveTriApprox θ) (ha : a.Ok la) {P : Precond}
    (hP : a.precond = some P) (hm : ∀ Q, LinMap.precond Q ∉ a.A.maps) (ht : 0 ≤ a.tol)
    (h : gmres env la clock a = .ok out) {g ge : List ℕ → ℝ} (hg : MapsSum a.A.maps a.b.shape out.x.toNumpy.get g) {n : ℕ}
    (hn : out.y.length = n) (hge : MapsSum a.A.maps a.b.shape (out.calls.getD (2 * n + 1) noCall).err ge) {ρ : ℝ}
    (hρ : out.hist.residualNorm.getLast? = some (.val ρ)) :
    (out.x.Valid ∧ out.x.shape = a.A.inShape ∧
      RanksLe out.x.rank (trimRanks a.b.shape (askedRanks a.b.shape a.lastRank)) ∧
      ∀ r ∈ out.hist.rank, RanksLe r (trimRanks a.b.shape (askedRanks a.b.shape a.maxRank))) ∧
    0 < n ∧ n ≤ a.maxiter ∧ out.calls.length = 2 * n + 2 ∧ (out.calls.getD (2 * n + 1) noCall).result = out.x ∧
    ∃ x0, initialGuess a.A a.x0 = .ok x0 ∧
    fnorm a.b.shape (fun i => a.b.toNumpy.get i - g i)
      ≤ frobN P.A * (√ (∑ i ∈ range (n + 1), fnorm a.b.shape (out.basis i).toNumpy.get ^ 2)
            * (ρ * out.bNorm + η * (frobN out.H * listNorm out.y + out.beta))
          + fnorm a.b.shape (out.calls.getD 0 noCall).err
          + ∑ k ∈ range n, |out.y.getD k 0| * (fnorm a.b.shape (out.calls.getD (2 * k + 1) noCall).err
              + fnorm a.b.shape (out.calls.getD (2 * k + 2) noCall).err)
          + |out.y.getD (n - 1) 0| * (if out.scale n = 0 then fnorm a.b.shape (out.raw n).toNumpy.get else 0))
        + fnorm a.b.shape ge
        + (precLoss la ε θ P a.b + a.loss la ε θ P x0 + ∑ k ∈ range n, |out.y.getD k 0| * a.loss la ε θ P (out.basis k)) := by
  have hε := (hla.round 0).nonneg
  have hq := (hla.round 0).qr
  obtain ⟨m, hA, hz⟩ := diag_of_run hε hθ hq hs ha hP
  have hd : ∀ i < m, P.R.get [i, i] ≠ 0 := by
    intro i hi h0
    obtain ⟨maxRank, x0, bPr, ax, r0, w0, st, y, r⟩ := gmres_inv h
    have := r.rhs
    rw [hz ⟨i, hi, h0⟩] at this
    cases this
  obtain ⟨L, bPr, l1, l2, l3, l4, l5⟩ := ops_prec hε hθ hq hs ha hP hm hA hd
  obtain ⟨x0, nu, res, n', d⟩ := run_approx hla ha ht l4 h
  obtain rfl : n' = n := d.yLen.symm.trans hn
  refine ⟨⟨d.xGood.1, d.xGood.2.2.trans ha.inShape.symm, d.xRank, d.ranks⟩, d.n0, d.nN, d.calls, d.last, x0, d.guess, ?_⟩
  have hcl : ∀ q < 2 * n' + 2, fnorm a.b.shape (out.calls.getD q noCall).err = ‖cerr a.b.shape (out.calls.getD q noCall)‖ :=
    fun q hq => by rw [fnorm_eq, cerr_eq (d.call _ (d.callMem hq)).1]
  have e1 : fnorm a.b.shape (fun i => a.b.toNumpy.get i - g i) = ‖tv a.b.shape a.b - L (tv a.b.shape out.x)‖ := by
    rw [fnorm_eq, tv, tv, ← (l3 _ _).1 hg, ← map_sub]
    rfl
  have e2 : fnorm a.b.shape ge = ‖L (cerr a.b.shape (out.calls.getD (2 * n' + 1) noCall))‖ := by
    rw [fnorm_eq, (l3 _ _).1 hge, cerr_eq (d.call _ (d.callMem (by omega))).1]
  have hle := (abs_sub_comm _ _).trans_le (d.lsqErr hla.lstsq)
  rw [d.rhoVal hρ] at hle
  have hle := (abs_le.1 hle).2
  have hT := modeOp_norm (s := a.b.shape) hA l1 l2
  have hF := frobN_nonneg P.A
  rw [e1, e2]
  refine (d.boundT _ L (a.loss la ε θ P) (fun x v h => h)).trans ?_
  have b1 : √ (∑ i ∈ range (n' + 1), ‖modeOp a.b.shape (fun i j => P.A.get [i, j]) m P.mode (tv a.b.shape (out.basis i))‖ ^ 2)
      ≤ frobN P.A * √ (∑ i ∈ range (n' + 1), fnorm a.b.shape (out.basis i).toNumpy.get ^ 2) := by
    refine (Real.sqrt_le_left (mul_nonneg hF (Real.sqrt_nonneg _))).2 ?_
    rw [mul_pow, Real.sq_sqrt (sum_nonneg fun _ _ => sq_nonneg _), mul_sum]
    refine sum_le_sum fun i _ => ?_
    rw [← mul_pow, fnorm_eq]
    exact pow_le_pow_left₀ (norm_nonneg _) (hT _) 2
  have b2 : √ (lsq (fun i t => out.H.get [i, t]) out.beta n' fun t => out.y.getD t 0)
      ≤ ρ * out.bNorm + η * (frobN out.H * listNorm out.y + out.beta) := by linarith
  have b3 := mul_le_mul b1 b2 (Real.sqrt_nonneg _) (mul_nonneg hF (Real.sqrt_nonneg _))
  have b4 := hT (cerr a.b.shape (out.calls.getD 0 noCall))
  rw [← hcl 0 (by omega)] at b4
  have b5 : ∑ k ∈ range n', |out.y.getD k 0| * (‖modeOp a.b.shape (fun i j => P.A.get [i, j]) m P.mode
        (cerr a.b.shape (out.calls.getD (2 * k + 1) noCall))‖
      + ‖modeOp a.b.shape (fun i j => P.A.get [i, j]) m P.mode (cerr a.b.shape (out.calls.getD (2 * k + 2) noCall))‖)
      ≤ frobN P.A * ∑ k ∈ range n', |out.y.getD k 0| * (fnorm a.b.shape (out.calls.getD (2 * k + 1) noCall).err
              + fnorm a.b.shape (out.calls.getD (2 * k + 2) noCall).err) := by
    rw [mul_sum]
    refine sum_le_sum fun k hk => ?_
    have hk := mem_range.1 hk
    rw [hcl _ (by omega), hcl _ (by omega), mul_left_comm, mul_add (frobN P.A)]
    exact mul_le_mul_of_nonneg_left (add_le_add (hT _) (hT _)) (abs_nonneg _)
  have b6 : |out.y.getD (n' - 1) 0| * (if out.scale n' = 0 then
        ‖modeOp a.b.shape (fun i j => P.A.get [i, j]) m P.mode (tv a.b.shape (out.raw n'))‖ else 0)
      ≤ frobN P.A * (|out.y.getD (n' - 1) 0| * (if out.scale n' = 0 then fnorm a.b.shape (out.raw n').toNumpy.get else 0)) := by
    rw [mul_left_comm]
    refine mul_le_mul_of_nonneg_left ?_ (abs_nonneg _)
    split_ifs
    · rw [fnorm_eq]; exact hT _
    · rw [mul_zero]
  nlinarith [b3, b4, b5, b6, l5]

/-- **C101, errors.** A preconditioned run raises `LinAlgError` if the computed triangular factor of the preconditioner has a zero on
its diagonal, and otherwise fails only as a run without preconditioner does. -/
theorem C101_errors (hla : GmresApprox env la ε η) (hθ : 0 ≤ θ) (hs : la.SolveTriApprox θ) (ha : a.Ok la) {P : Precond}
    (hP : a.precond = some P) (hm : ∀ Q, LinMap.precond Q ∉ a.A.maps) (ht : 0 ≤ a.tol) {n : ℕ} (hA : P.A.shape = [n, n]) :
    ((∃ i < n, P.R.get [i, i] = 0) → gmres env la clock a = .error .linAlgError) ∧
    ((∀ i < n, P.R.get [i, i] ≠ 0) →
      (a.maxiter = 0 → gmres env la clock a = .error .unboundLocalError) ∧
      (0 < a.maxiter → (∃ out, gmres env la clock a = .ok out) ∨ gmres env la clock a = .error .nonFinite ∨
        gmres env la clock a = .error .valueError ∧ ∃ H e, ∀ r, (la.lstsq H e).2 ≠ [r])) := by
  have hε := (hla.round 0).nonneg
  have hq := (hla.round 0).qr
  refine ⟨fun h0 => ?_, fun hd => ?_⟩
  · obtain ⟨m, hA', hz⟩ := diag_of_run hε hθ hq hs ha hP
    obtain rfl : m = n := by rw [hA] at hA'; simpa using hA'.symm
    have hrk : processTTRank a.maxRank a.A.inShape true = .ok (rkOf a) := by
      rw [ha.inShape, process_asked, if_pos ha.maxRank.len]; rfl
    obtain ⟨x0, x1⟩ : ∃ x0, initialGuess a.A a.x0 = .ok x0 := by
      cases hx : a.x0 with
      | some x => exact ⟨x, rfl⟩
      | none =>
        have hp : processTTRank (.int 1) a.A.inShape false = .ok (List.replicate (a.b.shape.length - 1) 1) := by
          rw [ha.inShape]
          have := ha.modes
          unfold processTTRank
          simp only [List.length_replicate, Bool.false_eq_true, if_false]
          rw [if_neg (by omega)]
        obtain ⟨X, h1, -⟩ := C60_tt (K := ℝ) a.A.inShape (.int 1) _ hp
        exact ⟨X, h1⟩
    unfold gmres
    dsimp only
    rw [if_neg (by rw [ha.outShape]; simp), if_neg, if_neg (by rw [ha.outShape, ha.inShape]; simp), hrk]
    · show (initialGuess a.A a.x0).andThen _ = _
      rw [x1]
      show (precondRhs la a.precond a.b).andThen _ = _
      rw [hz h0]
      rfl
    · rintro ⟨x, hx, hne⟩
      exact hne (by rw [ha.inShape]; exact (ha.x0 x hx).2.2)
  · obtain ⟨L, bPr, l1, l2, l3, l4, l5⟩ := ops_prec hε hθ hq hs ha hP hm hA hd
    exact errors_of hla ha ht l4

/-! ### A preconditioned system -/

/-- the system of `args5`, preconditioned with `[[2, 1], [0, 3]]` on its first mode -/
noncomputable def args6 (la : LinAlg2) : GmresArgs := { args5 with precond := some (.new la precA [2, 1] 0) }

theorem args6_ok (la : LinAlg2) : (args6 la).Ok la :=
  ⟨args5_ok.op, fun m hm => by
      have hm' : m ∈ [LinMap.mpo mpo5] := hm
      rw [List.mem_singleton] at hm'
      subst hm'
      exact args5_ok.maps _ hm, args5_ok.ranks, rfl, rfl, args5_ok.b, args5_ok.modes, args5_ok.x0,
    (fun P h => by
      injection h with h
      subst h
      refine ⟨⟨precA, 2, rfl, rfl, ?_, Nat.zero_lt_two, rfl⟩, rfl⟩
      rw [Matrix.det_fin_two]
      simp [ND.asMatrix, precA, ND.ofFn_get']), args5_ok.maxRank, args5_ok.lastRank, args5_ok.method, args5_ok.lastMethod⟩

theorem args6_maps (la : LinAlg2) (Q : Precond) : LinMap.precond Q ∉ (args6 la).A.maps := args5_plain.maps Q

theorem args6_image {la : LinAlg2} {f g : List ℕ → ℝ} (h : (args6 la).Image f g) :
    ∃ u, args5.Image f u ∧ u [0, 0] = 2 * g [0, 0] + g [1, 0] ∧ u [1, 0] = 3 * g [1, 0] := by
  obtain ⟨u, h1, h2⟩ := h
  refine ⟨u, ⟨u, h1, fun _ _ => rfl⟩, ?_⟩
  have h2 : ∀ k, InR [2, 1] k → u k = modeMul (fun i j => precA.get [i, j]) 2 0 g k := h2
  rw [h2 [0, 0] (by simp), h2 [1, 0] (by simp)]
  constructor <;> simp [modeMul, sum_range_succ, precA, ND.ofFn_get']

/-- A preconditioned run to which C101 applies. -/
theorem args6_run (clock : ℕ → ℝ) : ∃ out, gmres (fun _ => env8) la2Choice clock (args6 la2Choice) = .ok out := by
  have hl : (args6 la2Choice).Lossless (fun _ => env8) la2Choice := by
    intro k ts h
    exact ⟨fun eps Y hY => thin_lossless (n := 2) laChoice_qr laChoice_svd h _ (rk_ok (args6_ok la2Choice)) eps hY,
      fun Y hY => thin_lossless (n := 2) laChoice_qr laChoice_svd h _ (args6_ok la2Choice).lastRank none hY⟩
  have hinj : (args6 la2Choice).Injective := by
    intro f hf i hi
    obtain ⟨u, hu, u1, u2⟩ := args6_image hf
    obtain ⟨e1, e2⟩ := args5_image hu
    have hi : InR [2, 1] i := hi
    obtain ⟨i0, i1, rfl⟩ : ∃ i0 i1, i = [i0, i1] := by
      have := hi.length
      match i, this with
      | [x, y], _ => exact ⟨x, y, rfl⟩
    obtain ⟨q1, q2, -⟩ := hi
    obtain rfl : i1 = 0 := by omega
    simp only [Pi.zero_apply, mul_zero, add_zero] at u1 u2
    obtain rfl | rfl : i0 = 0 ∨ i0 = 1 := by omega
    · linarith
    · linarith
  have hne : ∃ i, InR (args6 la2Choice).b.shape i ∧ (args6 la2Choice).b.toNumpy.get i ≠ 0 := by
    refine ⟨[0, 0], by show InR [2, 1] [0, 0]; simp, ?_⟩
    show b5.toNumpy.get [0, 0] ≠ 0
    rw [b5_get 0 (by omega)]; norm_num
  have hns : ¬ (args6 la2Choice).Solves (args6 la2Choice).guess := by
    rintro ⟨bp, h1, h2⟩
    obtain ⟨u, hu, u1, u2⟩ := args6_image h2
    obtain ⟨e1, -⟩ := args5_image hu
    have h1 : ∀ k, InR [2, 1] k → b5.toNumpy.get k = modeMul (fun i j => precA.get [i, j]) 2 0 bp k := h1
    have h3 := h1 [0, 0] (by simp)
    rw [b5_get 0 (by omega)] at h3
    have h4 : modeMul (fun i j => precA.get [i, j]) 2 0 bp [0, 0] = 2 * bp [0, 0] + bp [1, 0] := by
      simp [modeMul, sum_range_succ, precA, ND.ofFn_get']
    have h0 : (args6 la2Choice).guess [0, 0] = 0 := rfl
    rw [h0] at e1
    rw [h4] at h3
    push_cast at h3
    linarith
  obtain ⟨out, h1, -⟩ := C57_converges (clock := clock) gmresEnv8 (args6_ok la2Choice) hl hinj (fun h => by cases h) hne hns
    (show (0 : ℝ) < 1 / 10 ^ 6 by norm_num) (show 0 < 100 by omega)
  exact ⟨out, h1⟩

example (clock : ℕ → ℝ) : ∃ (env : ℕ → Env ℝ) (la : LinAlg2) (out : GmresOut), GmresApprox env la (1 / 10 ^ 15) (1 / 10 ^ 14) ∧
    la.SolveTriApprox (1 / 10 ^ 15) ∧ (args6 la).Ok la ∧ gmres env la clock (args6 la) = .ok out := by
  obtain ⟨out, h⟩ := args6_run clock
  have hsvd : laChoice.SVDApprox (1 / 10 ^ 15) := by
    intro M m n hM
    have h := laChoice_svd M m n hM
    refine ⟨h.shapeU, h.shapeV, M, _, _, hM, h, ?_, ?_, ?_⟩ <;> rw [frobD_self] <;>
      first | exact mul_nonneg (by norm_num) (Real.sqrt_nonneg _) | norm_num
  have e : gmres (fun _ => badBoth (1 / 10 ^ 15) env8) la2Choice clock (args6 la2Choice)
      = gmres (fun _ => env8) la2Choice clock (args6 la2Choice) := rfl
  exact ⟨_, la2Choice, out, ⟨fun _ => ⟨by norm_num, approxQr_of_exact laChoice_qr (by norm_num), hsvd,
    badBoth_lstsq env8 (by norm_num), badBoth_qr env8 (by norm_num)⟩, lstsqApprox_of_exact la2Choice_lstsq (by norm_num)⟩,
    solveTriApprox_of_exact (solveTriChoice_ok rfl) (by norm_num), args6_ok _, e.trans h⟩

end TTS.Props
